import Verif.Runs.Calls
import Verif.Runs.Evaluate
import Verif.Descent.Examples
import Verif.Train.Examples
/-!
# Training runs on shared storages: the hypotheses of C113 can be met
-/
namespace Verif.Runs
open Verif Res View Data Ops Graph Loss Optim Fit Train Descent Net
open Verif.Net (Kind)
open Verif.Tensor (Tn)

noncomputable section

/-- One image and its label. -/
def image1 : Ten ℝ := ⟨[1, 3, 3, 1], [1, 2, 3, 4, 5, 6, 7, 8, 9]⟩
def label1 : Ten ℝ := ⟨[1, 1], [3]⟩

/-- The storages of the network of `Verif.Descent.Examples` before training: four variables, four gradients, caches for 40 operators, two images, two labels, and
another image with its label. -/
def ho0 : HO where
  t := {
    heap := [(weights0 0).data, (weights0 1).data, (weights0 2).data, (weights0 3).data, (grads0 0).data, (grads0 1).data, (grads0 2).data, (grads0 3).data,
      images0.data, labels0.data, image1.data, label1.data] ++ List.replicate 120 []
    leafT _ := ⟨[], 0⟩
    varT v := ⟨(weights0 v).shape, v⟩
    opc i := 12 + 3 * i
    cache _ := none
    gradT v := ⟨(grads0 v).shape, 4 + v⟩
    bopc i b := if b = true then 14 + 3 * i else 13 + 3 * i
    obj _ := ⟨⟨[], 0⟩, ⟨[], 0⟩, ⟨[], 0⟩⟩
    sync _ := false
    training := false }
  ctxT _ := []
  reg := [(0, true), (1, true), (2, true), (3, true)]

theorem rel0 : Rel [0, 1, 2, 3] (List.range 40) [] [8, 9, 10, 11] ho0 os0 := by
  have hlen : ho0.t.heap.length = 132 := by simp [ho0]
  have hu : ∀ v, v ∈ [0, 1, 2, 3] → v < 4 := fun v hv => by simp at hv; omega
  have hb : ∀ l, Part [0, 1, 2, 3] (List.range 40) [] ho0 l →
      match l with | .tag (.leaf _) => False | .tag (.var v) => v < 4 | .tag (.grad v) => v < 4 | .tag (.opc i) => i < 40 | .tag (.bopc i _) => i < 40 | .ctx _ _ => False := by
    intro l h
    cases l with
    | tag τ => cases τ with
      | leaf k => exact (List.not_mem_nil (show k ∈ [] from h)).elim
      | var v => exact hu v h
      | grad v => exact hu v h
      | opc i => exact List.mem_range.mp h
      | bopc i b => exact List.mem_range.mp h
    | ctx v j => exact absurd h.2 (by simp [ho0])
  refine ⟨⟨fun l h => ?_, fun l l' h h' he => ?_, fun l h => ?_, fun q hq => ?_⟩, fun v hv => ?_, fun v hv => ?_, fun v hv => List.Forall₂.nil, rfl, rfl, rfl⟩
  · rw [hlen]
    have := hb l h
    cases l with
    | tag τ => cases τ <;> simp only [HO.loc, TSt.loc, ho0] at this ⊢ <;> (try split) <;> omega
    | ctx v j => exact this.elim
  · have h1 := hb l h
    have h2 := hb l' h'
    cases l with
    | ctx v j => exact h1.elim
    | tag τ => cases l' with
      | ctx v j => exact h2.elim
      | tag τ' =>
        congr 1
        cases τ <;> cases τ' <;> simp only [HO.loc, TSt.loc, ho0, Tag.var.injEq, Tag.grad.injEq, Tag.opc.injEq, Tag.bopc.injEq, reduceCtorEq] at h1 h2 he ⊢ <;>
          (try split at he) <;> (try split at he) <;> first | omega | (constructor <;> first | omega | simp_all)
  · have := hb l h
    cases l with
    | tag τ => cases τ <;> simp only [HO.loc, TSt.loc, ho0, List.mem_cons, List.not_mem_nil, or_false] at this ⊢ <;> (try split) <;> omega
    | ctx v j => exact this.elim
  · rw [hlen]
    simp at hq
    omega
  · have := hu v hv
    interval_cases v <;> rfl
  · have := hu v hv
    interval_cases v <;> rfl

theorem along0 : Along (Holds kit1 net0 [1, 3, 3, 1] weights0) (weightsOf net0) (fun t (o : Sgd) => SchedAt (1/10) (1/100) t o.sch ∧ o.mom = 0 ∧ o.nesterov = false)
    (fun c sh _ => ∃ μ, Ctx1 c sh μ) 0 ⟨weights0, fun _ _ => 0⟩ ((kit1, net0), sgd0, { os0 with st := { os0.st with training := true } }) := by
  refine ⟨⟨rfl, rfl, rfl, trainable0.ok, trainable0.noMax⟩, ⟨⟨rfl, rfl, ?_⟩, rfl, rfl⟩, rfl, by decide, ?_, fun _ _ => rfl, ?_, ?_, ?_⟩
  · show (1/10 : ℝ) = _
    simp
  · intro v hv
    simp only [weightsOf0, List.mem_cons, List.not_mem_nil, or_false] at hv
    rcases hv with rfl | rfl | rfl | rfl <;> simp [os0]
  · intro v hv
    simp only [os0, List.mem_cons, List.not_mem_nil, or_false, Prod.mk.injEq, and_true] at hv
    rcases hv with rfl | rfl | rfl | rfl <;> exact ⟨rfl, rfl, rfl⟩
  · intro v _
    exact ⟨fun _ => 0, Or.inl ⟨rfl, fun _ => rfl⟩⟩
  · intro v _
    exact ⟨fun _ => 0, fun _ => 0, Or.inl ⟨rfl, fun _ => rfl⟩⟩

/-- `sgd0`, as an optimizer of `Runs`. -/
theorem sgd_moves0 : Moves 1 (sgdOpt.step 1) (plainLaw (rates (1/10) (1/100))) (fun t (o : Sgd) => SchedAt (1/10) (1/100) t o.sch ∧ o.mom = 0 ∧ o.nesterov = false)
    (fun c sh _ => ∃ μ, Ctx1 c sh μ) := sgd_plain_moves 1 (1/10) (1/100) false

theorem lossKinds0 : LossKinds (codeFk net0) (9 * net0.length) := ⟨codeFk_loss net0 0 (by decide), codeFk_loss net0 2 (by decide), codeFk_loss net0 3 (by decide)⟩

theorem dom0 (D : Nat → Ten ℝ) (s : List Nat) (a : List Nat → ℝ) : NetDom D net0 s a := everywhere_dom trainable0.noMax (by
  intro op hop x
  simp only [net0, List.mem_cons, List.not_mem_nil, or_false, reduceCtorEq, false_or, Kind.act.injEq] at hop
  subst hop
  trivial) D s a

/-- Whatever the number of epochs: `fit` of this network on shared storages returns, its weights are those of gradient descent on the two images in turn, and the images
and labels are as before. -/
example (epochs : Nat) : ∃ g, hfit (netProg squaredLoss id [1, 3, 3, 1] 0 1 (codeFk net0) (fun _ _ => .own) 1 sgdOpt) ⟨[2, 3, 3, 1], 8⟩ ⟨[2, 1], 9⟩ 1 epochs 0 ((kit1, net0), sgd0, ho0) = ok g ∧
    (∀ v ∈ weightsOf net0, denote g.s.2.2.t.heap (g.s.2.2.t.varT v) = some ((path (weightsOf net0) (plainLaw (rates (1/10) (1/100))) 1
      (fun t => batchLoss (squaredOf [1, 1]) net0 images0 labels0 1 [3, 3, 1] (t % 2)) ⟨weights0, fun _ _ => 0⟩ (epochs * 2)).w v)) ∧
    denote g.s.2.2.t.heap ⟨[2, 3, 3, 1], 8⟩ = some images0 ∧ denote g.s.2.2.t.heap ⟨[2, 1], 9⟩ = some labels0 := by
  have hi : images0.WF := rfl
  have ho : labels0.WF := rfl
  obtain ⟨g, h1, h2, _, h3, h4⟩ := network_fit_shared (K := kit1) (ks := net0) (bs := 1) (a := [3, 3, 1]) (n := 2) (n' := 2) (b := [1]) (inp := 0) (gt := 1) (nk := id) (epochs := epochs)
    (p := ⟨weights0, fun _ _ => 0⟩) (q := (kit1, net0)) (o := sgd0) (s := ho0) (os := os0) (U := [0, 1, 2, 3]) (X := [8, 9, 10, 11]) (inT := ⟨[2, 3, 3, 1], 8⟩) (outT := ⟨[2, 1], 9⟩)
    (bk := fun _ _ => .own) sgd_moves0 (squared_netLoss _ _) (squared_shares lossKinds0) trainable0 (fun _ => ⟨rfl, rfl⟩) (codeFk_kinds net0) hi.has ho.has (le_refl 2) rfl (by decide)
    (fun t _ => ⟨dom0 _ _ _, trivial⟩) along0 (fun v hv => hv) (by simp [os0]) rel0 (by simp) (by simp) rfl rfl
  exact ⟨g, h1, h2, h3, h4⟩

/-- `evaluate` on the two images: the mean of the two losses. -/
example : ∃ g, hevaluate (netProg squaredLoss id [1, 3, 3, 1] 0 1 (codeFk net0) (fun _ _ => .own) 1 sgdOpt) ⟨[2, 3, 3, 1], 8⟩ ⟨[2, 1], 9⟩ 1 ((kit1, net0), sgd0, ho0) =
      ok ((∑ l ∈ Finset.range 2, batchLoss (squaredOf [1, 1]) net0 images0 labels0 1 [3, 3, 1] l weights0) / ((2 : Nat) : ℝ), g) ∧
    denote g.s.2.2.t.heap ⟨[2, 3, 3, 1], 8⟩ = some images0 ∧ denote g.s.2.2.t.heap ⟨[2, 1], 9⟩ = some labels0 := by
  have hi : images0.WF := rfl
  have ho : labels0.WF := rfl
  obtain ⟨g, h1, _, _, _, h2, h3⟩ := network_evaluate_shared (K := kit1) (ks := net0) (bs := 1) (a := [3, 3, 1]) (n := 2) (n' := 2) (b := [1]) (inp := 0) (gt := 1) (nk := id) (opt := sgdOpt)
    (w := weights0) (q := (kit1, net0)) (o := sgd0) (s := ho0) (os := os0) (U := [0, 1, 2, 3]) (X := [8, 9, 10, 11]) (inT := ⟨[2, 3, 3, 1], 8⟩) (outT := ⟨[2, 1], 9⟩)
    (bk := fun _ _ => .own) (squared_netLoss 1 _) (squared_shares lossKinds0) trainable0 (codeFk_kinds net0) hi.has ho.has (le_refl 2) rfl (by decide)
    (fun v _ => ⟨rfl, fun h => h⟩) along0.held (fun v hv => hv) (by simp [os0]) rel0 (by simp) (by simp) rfl rfl
  exact ⟨g, h1, h2, h3⟩

theorem at0 : At kit1 net0 [1, 3, 3, 1] weights0 (fun t (o : Sgd) => SchedAt (1/10) (1/100) t o.sch ∧ o.mom = 0 ∧ o.nesterov = false) (fun c sh _ => ∃ μ, Ctx1 c sh μ) [0, 1, 2, 3]
    [8, 9, 10, 11] 0 ⟨weights0, fun _ _ => 0⟩ ((kit1, net0), sgd0, ho0) := ⟨os0, rel0, along0, by simp [os0]⟩

/-- One call of `train_on_batch` with the other image: a step of descent. -/
example : ∃ s', htrainOnBatch (netProg squaredLoss id [1, 3, 3, 1] 0 1 (codeFk net0) (fun _ _ => .own) 1 sgdOpt) ⟨[1, 3, 3, 1], 10⟩ ⟨[1, 1], 11⟩ ((kit1, net0), sgd0, ho0) =
      ok (squaredOf [1, 1] label1.at (netVal weights0 net0 [1, 3, 3, 1] image1.at), s') ∧
    ∀ v ∈ weightsOf net0, denote s'.2.2.t.heap (s'.2.2.t.varT v) = some ((next (weightsOf net0) (plainLaw (rates (1/10) (1/100))) 1 0
      (fun D => squaredOf [1, 1] label1.at (netVal D net0 [1, 3, 3, 1] image1.at)) ⟨weights0, fun _ _ => 0⟩).w v) := by
  obtain ⟨s', h1, h2, -⟩ := network_train_on_batch_shared (bk := fun _ _ => .own) (nk := id) (inp := 0) (gt := 1) (inT := ⟨[1, 3, 3, 1], 10⟩) (outT := ⟨[1, 1], 11⟩) (x := image1) (y := label1)
    (p := ⟨weights0, fun _ _ => 0⟩) sgd_moves0 (squared_netLoss _ _) (squared_shares lossKinds0) trainable0 (fun _ => ⟨rfl, rfl⟩) (codeFk_kinds net0) ⟨rfl, rfl⟩ ⟨rfl, rfl⟩ (by decide)
    (fun v _ => ⟨rfl, fun h => h⟩) (dom0 _ _ _) trivial (fun v hv => hv) (by simp) (by simp) (by decide) rfl rfl at0
  exact ⟨s', h1, h2.weights (fun v hv => hv)⟩

/-- Two calls with the same tensors: the second returns the loss for other labels. -/
example : ∃ (s1 s2 : (Kit × List Kind) × Sgd × HO) (z : Ten ℝ),
    htrainOnBatch (netProg squaredLoss id [1, 3, 3, 1] 0 1 (codeFk net0) (fun _ _ => .own) 1 sgdOpt) ⟨[1, 3, 3, 1], 10⟩ ⟨[1, 1], 11⟩ ((kit1, net0), sgd0, ho0) =
      ok (squaredOf [1, 1] label1.at (netVal weights0 net0 [1, 3, 3, 1] image1.at), s1) ∧
    z.Has [1, 1] (fun is => label1.at is - netVal weights0 net0 [1, 3, 3, 1] image1.at is) ∧
    htrainOnBatch (netProg squaredLoss id [1, 3, 3, 1] 0 1 (codeFk net0) (fun _ _ => .own) 1 sgdOpt) ⟨[1, 3, 3, 1], 10⟩ ⟨[1, 1], 11⟩ s1 =
      ok (squaredOf [1, 1] z.at (netVal (next (weightsOf net0) (plainLaw (rates (1/10) (1/100))) 1 0
        (fun D => squaredOf [1, 1] label1.at (netVal D net0 [1, 3, 3, 1] image1.at)) ⟨weights0, fun _ _ => 0⟩).w net0 [1, 3, 3, 1] image1.at), s2) := by
  obtain ⟨s1, s2, z, h1, h2, h3, -⟩ := network_train_twice_violated (bk := fun _ _ => .own) (nk := id) (inp := 0) (gt := 1) (inT := ⟨[1, 3, 3, 1], 10⟩) (outT := ⟨[1, 1], 11⟩) (x := image1)
    (y := label1) (p := ⟨weights0, fun _ _ => 0⟩) squared_form sgd_moves0 (squared_netLoss _ _) (squared_shares lossKinds0) trainable0 (fun _ => ⟨rfl, rfl⟩) (codeFk_kinds net0) lossKinds0
    (by decide) ⟨rfl, rfl⟩ ⟨rfl, rfl⟩ (by decide) (fun v _ => ⟨rfl, fun h => h⟩) (fun D => dom0 D _ _) (fun _ => trivial) (fun v hv => hv) (by simp) (by simp) (by decide) rfl rfl at0
  exact ⟨s1, s2, z, h1, h2, h3⟩

end
end Verif.Runs
