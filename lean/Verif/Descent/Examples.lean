import Verif.Descent.Net
import Verif.Net.Examples
/-!
# Fitting is descent: the hypotheses of C111 can be met
-/
namespace Verif.Descent
open Verif Res View Data Ops Graph Loss Optim Fit Net Pool

noncomputable section

/-- Convolution, sigmoid, `Flatten`, `Dense`. -/
def net0 : List Kind := [.conv2D ⟨0, 1, cfgL, cfgL, 1, 2, 2, 1, 1, 1, 1, false, []⟩, .act .sigmoid, .flatten, .dense 2 3 1 cfgL cfgL]

/-- The weights of `stConv`, with the dense layer for four inputs. -/
def weights0 (v : Nat) : Ten ℝ := if v = 0 then ⟨[1, 2, 2, 1], [1, 0, 0, 1]⟩ else if v = 1 then ⟨[1, 1, 1], [-1]⟩ else if v = 2 then ⟨[4, 1], [1, 2, 3, 4]⟩ else ⟨[1, 1], [1]⟩

def grads0 (v : Nat) : Ten ℝ := if v = 0 then ⟨[1, 2, 2, 1], [0, 0, 0, 0]⟩ else if v = 1 then ⟨[1, 1, 1], [0]⟩ else if v = 2 then ⟨[4, 1], [0, 0, 0, 0]⟩ else ⟨[1, 1], [0]⟩

/-- Two images and their labels. -/
def images0 : Ten ℝ := ⟨[2, 3, 3, 1], [1, 2, 3, 4, 5, 6, 7, 8, 9, 9, 8, 7, 6, 5, 4, 3, 2, 1]⟩
def labels0 : Ten ℝ := ⟨[2, 1], [3, 4]⟩

def os0 : OSt where
  st := { stConv with data := weights0, grad := grads0, training := false }
  ctx _ := []
  reg := [(0, true), (1, true), (2, true), (3, true)]

theorem trainable0 : Trainable 1 kit1 net0 [1, 3, 3, 1] (fun _ => cfgL) weights0 := by
  refine ⟨⟨⟨1, 3, 3, 1, rfl, ?_⟩, trivial, ⟨1, [2, 2, 1], rfl, by simp, by decide, by decide, by decide⟩,
    ⟨1, 4, rfl, ⟨reduces1, by decide, by decide, by decide, by decide, by decide, by decide⟩, ⟨rfl, rfl⟩, rfl, rfl⟩, trivial⟩, ?_,
    ⟨reduces1, by decide, by decide, by decide, by decide, by decide⟩, by decide, ?_⟩
  · refine ⟨reduces1, le_refl 4, ⟨rfl, rfl⟩, ⟨rfl, rfl⟩, ⟨?_, by norm_num, ?_, by decide, by decide, by decide, by decide, by decide, by decide, rfl⟩, by simp,
      by decide, by decide, by decide⟩
    · unfold Conv.Geo.Fits; decide
    · exact Conv.recFor_nil
  · intro k hk n m c
    simp only [net0, List.mem_cons, List.not_mem_nil, or_false] at hk
    rcases hk with rfl | rfl | rfl | rfl <;> simp
  · intro k hk vc hvc
    simp only [net0, List.mem_cons, List.not_mem_nil, or_false] at hk
    rcases hk with rfl | rfl | rfl | rfl <;> simp only [params, List.mem_cons, List.not_mem_nil, or_false] at hvc <;>
      rcases hvc with rfl | rfl <;> exact ⟨rfl, rfl, by norm_num [cfgL], by norm_num [cfgL]⟩

theorem weightsOf0 : weightsOf net0 = [0, 1, 2, 3] := rfl

/-- A new sgd without momentum, with decay. -/
def sgd0 : Sgd := ⟨⟨1/10, 1/100, 0⟩, 0, false⟩

/-- Whatever the number of epochs: `fit` of this network returns, and its weights are those of gradient descent on the two images in turn. -/
example (epochs : Nat) : ∃ f, fit (compiledWith (netLoss squaredLoss [1, 3, 3, 1] 0 1) (netAdv id [1, 3, 3, 1] 0) 0 1 (Sgd.step 1)) images0 labels0 1 epochs 0 ((kit1, net0), sgd0, os0) = ok f ∧
    ∀ v ∈ [0, 1, 2, 3], f.s.2.2.st.data v = (path [0, 1, 2, 3] (plainLaw (rates (1/10) (1/100))) 1
      (fun t => batchLoss (squaredOf [1, 1]) net0 images0 labels0 1 [3, 3, 1] (t % 2)) ⟨weights0, fun _ _ => 0⟩ (epochs * 2)).w v := by
  have hi : images0.WF := rfl
  have ho : labels0.WF := rfl
  obtain ⟨f, h1, h2, _⟩ := squared_fit_descends (K := kit1) (ks := net0) (bs := 1) (a := [3, 3, 1]) (n := 2) (n' := 2) (b := [1]) (inp := 0) (gt := 1) (nk := id) (epochs := epochs)
    (p := ⟨weights0, fun _ _ => 0⟩) (s := ((kit1, net0), sgd0, os0)) (sgd_plain_moves 1 (1/10) (1/100) false) trainable0 (by
      intro op hop x
      simp only [net0, List.mem_cons, List.not_mem_nil, or_false, reduceCtorEq, false_or, Kind.act.injEq] at hop
      subst hop
      trivial) (fun _ => ⟨rfl, rfl⟩) hi.has ho.has (le_refl 2) rfl (by decide) (by
      refine ⟨⟨rfl, rfl, rfl, trainable0.ok, trainable0.noMax⟩, ⟨⟨rfl, rfl, ?_⟩, rfl, rfl⟩, rfl, by decide, ?_, fun _ _ => rfl, ?_, ?_, ?_⟩
      · show (1/10 : ℝ) = _
        simp
      · intro v hv
        simp only [weightsOf0, List.mem_cons, List.not_mem_nil, or_false] at hv
        rcases hv with rfl | rfl | rfl | rfl <;> simp [compiledWith, os0]
      · intro v hv
        simp only [compiledWith, os0, List.mem_cons, List.not_mem_nil, or_false, Prod.mk.injEq, and_true] at hv
        rcases hv with rfl | rfl | rfl | rfl <;> exact ⟨rfl, rfl, rfl⟩
      · intro v _
        exact ⟨fun _ => 0, Or.inl ⟨rfl, fun _ => rfl⟩⟩
      · intro v _
        exact ⟨fun _ => 0, fun _ => 0, Or.inl ⟨rfl, fun _ => rfl⟩⟩)
  exact ⟨f, h1, h2⟩

/-- One weight 2, the loss its square: the derivative is 4, and twice the derivative moves it to -6 instead of -2. -/
example : (path [0] (plainLaw (fun _ => 1)) 2 (fun _ D => (D 0).at [0] ^ 2) ⟨fun _ => ⟨[1], [2]⟩, fun _ _ => 0⟩ 1).w 0 ≠
    (path [0] (plainLaw (fun _ => 1)) 1 (fun _ D => (D 0).at [0] ^ 2) ⟨fun _ => ⟨[1], [2]⟩, fun _ _ => 0⟩ 1).w 0 := by
  refine scaled_path_violated (is := [0]) (by simp) (by norm_num) (by norm_num) (by simp [ValidIdx]) ?_
  have h : (fun h : ℝ => (upd (fun _ => (⟨[1], [2]⟩ : Ten ℝ)) 0 (bump ⟨[1], [2]⟩ [0] h) 0).at [0] ^ 2) = fun h => (2 + h) ^ 2 := by
    funext h
    rw [upd_same]
    simp [bump, Ten.at, flat, size]
  unfold partialAt
  dsimp only
  rw [h]
  have : HasDerivAt (fun h : ℝ => (2 + h) ^ 2) 4 0 := by
    have := ((hasDerivAt_id (0 : ℝ)).const_add 2).pow 2
    refine this.congr_deriv ?_
    norm_num
  rw [this.deriv]
  norm_num

end
end Verif.Descent
