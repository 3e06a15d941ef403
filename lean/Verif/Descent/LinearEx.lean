import Verif.Descent.Linear
import Verif.Descent.Examples
/-!
# Fitting a linear model: the hypotheses of C147 can be met
-/
namespace Verif.Descent
open Verif Res View Data Ops Graph Loss Optim Fit Net Pool

noncomputable section

/-- `Flatten`, then `Dense` with one unit. -/
def lin0 : List Kind := [.flatten]

def weights1 (v : Nat) : Ten ℝ := if v = 0 then ⟨[2, 1], [1, 0]⟩ else ⟨[1, 1], [0]⟩
def grads1 (v : Nat) : Ten ℝ := if v = 0 then ⟨[2, 1], [0, 0]⟩ else ⟨[1, 1], [0]⟩

/-- Two samples of two features. -/
def samples1 : Ten ℝ := ⟨[2, 2, 1], [1, 0, 1, 1]⟩
def labels1 : Ten ℝ := ⟨[2, 1], [3, 4]⟩

def os1 : OSt where
  st := { stConv with data := weights1, grad := grads1, training := false }
  ctx _ := []
  reg := [(0, true), (1, true)]

theorem trainable1 : Trainable 1 kit1 (lin0 ++ [.dense 0 1 1 cfgL cfgL]) [2, 2, 1] (fun _ => cfgL) weights1 := by
  refine ⟨⟨⟨2, [2, 1], rfl, by simp, by decide, by decide, by decide⟩,
    ⟨2, 2, rfl, ⟨reduces1, by decide, by decide, by decide, by decide, by decide, by decide⟩, ⟨rfl, rfl⟩, rfl, rfl⟩, trivial⟩, ?_,
    ⟨reduces1, by decide, by decide, by decide, by decide, by decide⟩, by decide, ?_⟩
  · intro k hk n m c
    simp only [lin0, List.cons_append, List.nil_append, List.mem_cons, List.not_mem_nil, or_false] at hk
    rcases hk with rfl | rfl <;> simp
  · intro k hk vc hvc
    simp only [lin0, List.cons_append, List.nil_append, List.mem_cons, List.not_mem_nil, or_false] at hk
    rcases hk with rfl | rfl <;> simp only [params, List.mem_cons, List.not_mem_nil, or_false] at hvc <;>
      rcases hvc with rfl | rfl <;> exact ⟨rfl, rfl, by norm_num [cfgL], by norm_num [cfgL]⟩

/-- A new gradient_descent. -/
def gd1 : Gd := ⟨1 / 20, 0⟩

theorem linearFit1 : LinearFit 1 (Gd.step 1) (fun _ => gd1.lr) (fun _ o => o = gd1) (fun _ _ _ => True) kit1 lin0 (fun _ => cfgL) 0 1 id samples1 labels1 2 2 2 [2, 1] samples1.at labels1.at
    ⟨weights1, fun _ _ => 0⟩ ((kit1, lin0 ++ [.dense 0 1 1 cfgL cfgL]), gd1, os1) 0 1 2 1 cfgL cfgL where
  moves := gd_moves 1 gd1
  trainable := trainable1
  acts := by intro op hop; simp [lin0] at hop
  fixed := rfl
  shape := rfl
  two := by decide
  kits := fun _ => ⟨rfl, rfl⟩
  samples := by have : samples1.WF := rfl; exact this.has
  labels := by have : labels1.WF := rfl; exact this.has
  le := Nat.le_refl _
  holders := by decide
  start := by
    refine ⟨⟨rfl, rfl, rfl, trainable1.ok, trainable1.noMax⟩, rfl, rfl, by decide, ?_, fun _ _ => rfl, ?_, fun _ _ => trivial, fun _ _ => ⟨fun _ => 0, trivial⟩⟩
    · intro v hv
      have : weightsOf (lin0 ++ [.dense 0 1 1 cfgL cfgL]) = [0, 1] := rfl
      simp only [this, List.mem_cons, List.not_mem_nil, or_false] at hv
      rcases hv with rfl | rfl <;> simp [compiledWith, os1]
    · intro v hv
      simp only [compiledWith, os1, List.mem_cons, List.not_mem_nil, or_false, Prod.mk.injEq, and_true] at hv
      rcases hv with rfl | rfl <;> exact ⟨rfl, rfl, rfl⟩

theorem steep1 : steepness 2 2 (featureOf weights1 lin0 samples1 2 [2, 1] 0) = 5 := by
  have h : ∀ r i, featureOf weights1 lin0 samples1 2 [2, 1] 0 r i = (batch samples1 2 0).at (unflat [2, 2, 1] (flat [2, 2] [r, i])) := fun _ _ => rfl
  have hb : batch samples1 2 0 = samples1 := rfl
  simp only [steepness, h, hb, Finset.sum_range_succ, Finset.sum_range_zero]
  norm_num [samples1, Ten.at, flat, unflat, size]

/-- The model with coefficients 3 and 1 has no error: the mean of the errors of `k` epochs is at most `20 (2² + 1²) / k`. -/
example (epochs : Nat) (hk : 0 < epochs) : ∃ f, fit (compiledWith (netLoss squaredLoss [2, 2, 1] 0 1) (netAdv id [2, 2, 1] 0) 0 1 (Gd.step 1)) samples1 labels1 2 epochs 0
      ((kit1, lin0 ++ [.dense 0 1 1 cfgL cfgL]), gd1, os1) = ok f ∧ f.trainErr.length = epochs ∧ f.trainErr.sum / epochs ≤ 100 / epochs := by
  obtain ⟨f, h1, h2, h3⟩ := linear_fit_mean linearFit1 (by decide) (by norm_num [gd1]) (by
    intro l hl
    obtain rfl : l = 0 := by simpa using hl
    rw [steep1]
    norm_num [gd1]) hk
  refine ⟨f, h1, h2, ?_⟩
  have h4 := h3 (fun p _ => if p = 0 then 3 else 1) (fun _ => 0)
  have e1 : apart2 2 1 (weightOf weights1 0) (biasOf weights1 1) (fun p _ => if p = 0 then 3 else 1) (fun _ => 0) = 5 := by
    simp only [apart2, weightOf, biasOf, Finset.sum_range_succ, Finset.sum_range_zero]
    norm_num [weights1, Ten.at, flat, size]
  have e2 : residue 2 2 1 (featureOf weights1 lin0 samples1 2 [2, 1] 0) (labelOf labels1.at 2 0) (fun p _ => if p = 0 then 3 else 1) (fun _ => 0) = 0 := by
    have h : ∀ r i, featureOf weights1 lin0 samples1 2 [2, 1] 0 r i = (batch samples1 2 0).at (unflat [2, 2, 1] (flat [2, 2] [r, i])) := fun _ _ => rfl
    have hb : batch samples1 2 0 = samples1 := rfl
    simp only [residue, labelOf, h, hb, Finset.sum_range_succ, Finset.sum_range_zero]
    norm_num [samples1, labels1, Ten.at, flat, unflat, size]
  simp only [show 2 / 2 = 1 from rfl, Finset.range_one, Finset.sum_singleton, e1, e2, Nat.cast_one, mul_one, zero_div, mul_zero, add_zero] at h4
  refine h4.trans (le_of_eq ?_)
  have : (epochs : ℝ) ≠ 0 := by exact_mod_cast hk.ne'
  simp only [gd1]
  field_simp
  norm_num

/-- However small `ε`: after enough epochs the error is less than `ε` above that of the best linear model. -/
example {ε : ℝ} (hε : 0 < ε) : ∃ T, ∀ epochs, T ≤ epochs → ∃ f, fit (compiledWith (netLoss squaredLoss [2, 2, 1] 0 1) (netAdv id [2, 2, 1] 0) 0 1 (Gd.step 1)) samples1 labels1 2 epochs 0
      ((kit1, lin0 ++ [.dense 0 1 1 cfgL cfgL]), gd1, os1) = ok f ∧
    residue 2 2 1 (featureOf weights1 lin0 samples1 2 [2, 1] 0) (labelOf labels1.at 2 0) (weightOf f.s.2.2.st.data 0) (biasOf f.s.2.2.st.data 1) <
      (⨅ q : (Nat → Nat → ℝ) × (Nat → ℝ), residue 2 2 1 (featureOf weights1 lin0 samples1 2 [2, 1] 0) (labelOf labels1.at 2 0) q.1 q.2) + ε :=
  linear_fit_converges_partial linearFit1 rfl (by norm_num [gd1]) (by rw [steep1]; norm_num [gd1]) hε

/-- A new sgd without momentum, with decay 1. -/
def sgd1 : Sgd := ⟨⟨1 / 100, 1, 0⟩, 0, false⟩

theorem linearFit2 : LinearFit 1 (Sgd.step 1) (rates (1 / 100) 1) (fun t o => SchedAt (1 / 100) 1 t o.sch ∧ o.mom = 0 ∧ o.nesterov = false) (fun c sh _ => ∃ μ, Ctx1 c sh μ) kit1 lin0
    (fun _ => cfgL) 0 1 id samples1 labels1 2 2 2 [2, 1] samples1.at labels1.at ⟨weights1, fun _ _ => 0⟩ ((kit1, lin0 ++ [.dense 0 1 1 cfgL cfgL]), sgd1, os1) 0 1 2 1 cfgL cfgL where
  moves := sgd_plain_moves 1 (1 / 100) 1 false
  trainable := trainable1
  acts := linearFit1.acts
  fixed := rfl
  shape := rfl
  two := by decide
  kits := fun _ => ⟨rfl, rfl⟩
  samples := linearFit1.samples
  labels := linearFit1.labels
  le := Nat.le_refl _
  holders := by decide
  start := by
    refine ⟨linearFit1.start.held, ⟨⟨rfl, rfl, ?_⟩, rfl, rfl⟩, rfl, linearFit1.start.nodup, linearFit1.start.all, fun _ _ => rfl, linearFit1.start.fit, fun _ _ => ⟨fun _ => 0, Or.inl ⟨rfl, fun _ => rfl⟩⟩,
      fun _ _ => ⟨fun _ => 0, fun _ => 0, Or.inl ⟨rfl, fun _ => rfl⟩⟩⟩
    show (1 / 100 : ℝ) = _
    simp

/-- With decay 1 and rate 1/100 the error never falls below two fifths of the initial error, although there is a model without error. -/
example : ∃ c, 0 < c ∧ ∀ epochs, ∃ f, fit (compiledWith (netLoss squaredLoss [2, 2, 1] 0 1) (netAdv id [2, 2, 1] 0) 0 1 (Sgd.step 1)) samples1 labels1 2 epochs 0
      ((kit1, lin0 ++ [.dense 0 1 1 cfgL cfgL]), sgd1, os1) = ok f ∧
    c ≤ residue 2 2 1 (featureOf weights1 lin0 samples1 2 [2, 1] 0) (labelOf labels1.at 2 0) (weightOf f.s.2.2.st.data 0) (biasOf f.s.2.2.st.data 1) := by
  have h0 : residue 2 2 1 (featureOf weights1 lin0 samples1 2 [2, 1] 0) (labelOf labels1.at 2 0) (weightOf weights1 0) (biasOf weights1 1) ≠ 0 := ?_
  · have H := linear_fit_decay_violated (k := 1) linearFit2 rfl (by norm_num) (by norm_num) (by norm_num) (by rw [steep1]; norm_num) h0
    exact H
  have h : ∀ r i, featureOf weights1 lin0 samples1 2 [2, 1] 0 r i = (batch samples1 2 0).at (unflat [2, 2, 1] (flat [2, 2] [r, i])) := fun _ _ => rfl
  have hb : batch samples1 2 0 = samples1 := rfl
  simp only [residue, labelOf, weightOf, biasOf, h, hb, Finset.sum_range_succ, Finset.sum_range_zero]
  norm_num [samples1, labels1, weights1, Ten.at, flat, unflat, size]

end
end Verif.Descent
