import Verif.Compose.Props
import Verif.Optim.Freeze
/-!
# Freezing a model (C96)

`model::trainable` (include/model.hpp lines 407-410) sets the flag of the copies of the variables in the model's expression.
-/
namespace Verif.Compose
open Verif Res Graph Optim

/-- Every copy of variable `v` in the expression is frozen. -/
def FrozenIn {α : Type} (v : Nat) : Ex α → Prop
  | .leaf _ => True
  | .var u c => u = v → c.trainable = false
  | .un _ _ e => FrozenIn v e
  | .bin _ _ l r => FrozenIn v l ∧ FrozenIn v r

/-- `makeTrainable false` does that, for all variables. -/
theorem frozen_makeTrainable {α : Type} (v : Nat) (e : Ex α) : FrozenIn v (makeTrainable false e) := by
  induction e with
  | leaf k => trivial
  | var u c => exact fun _ => rfl
  | un i op e ih => exact ih
  | bin i op l r ihl ihr => exact ⟨ihl, ihr⟩

/-- It keeps the frozen copies frozen and freezes nothing else: the copies of the model are all there is. -/
theorem makeTrainable_vars {α : Type} (t : Bool) (e : Ex α) : vars (makeTrainable t e) = vars e := by
  induction e with
  | leaf k => rfl
  | var u c => rfl
  | un i op e ih => exact ih
  | bin i op l r ihl ihr => simp only [makeTrainable, vars, ihl, ihr]

/-- Backward leaves the gradient of a variable all whose copies are frozen. -/
theorem frozen_grad_kept {α : Type} [Zero α] [One α] [Add α] [Mul α] [Neg α] [LE α] [DecidableLE α] (eps : α) (v : Nat) (e : Ex α) (hf : FrozenIn v e) :
    ∀ (sl : Slot) (g : Ten α) (s s' : St α), backward eps e sl g s = ok s' → s'.grad v = s.grad v := by
  induction e with
  | leaf k => intro sl g s s' h; rw [← Res.ok.inj h]
  | var u c =>
    intro sl g s s' h
    by_cases huv : u = v
    · unfold backward varBackward at h
      rw [if_pos (hf huv)] at h
      rw [← Res.ok.inj h]
    · exact (backward_keeps eps (.var u c) sl g s s' h).2.2.2.2 v (by simp [vars]; exact fun h => huv h.symm)
  | un i op e ih =>
    intro sl g s s' h
    simp only [backward] at h
    obtain ⟨d, _, h⟩ := bind_eq_ok.mp h
    exact ih hf _ _ _ _ h
  | bin i op l r ihl ihr =>
    intro sl g s s' h
    simp only [backward] at h
    obtain ⟨d, _, h⟩ := bind_eq_ok.mp h
    obtain ⟨s1, h1, h⟩ := bind_eq_ok.mp h
    rw [ihr hf.2 _ _ _ _ h, ihl hf.1 _ _ _ _ h1]

section
variable {eps : ℝ} {loss : Ex ℝ} {s s1 : OSt} {st : St ℝ} {y : Ten ℝ} {sh : Nat → List Nat} {w g μ ν : Nat → List Nat → ℝ}

/-- A training run and back-propagation leave the gradient of a frozen variable at zero, and its value. -/
theorem frozen_grad_zero (hc : Consistent loss) (htr : s.st.training = true) (hrun : run loss s.st = ok (y, st)) (hb : backprop eps loss { s with st := st } = ok s1)
    {v : Nat} (hv : v ∈ vars loss) (hf : FrozenIn v loss) : (∀ x ∈ (s1.st.grad v).data, x = 0) ∧ s1.st.data v = s.st.data v ∧ s1.reg = s.reg := by
  unfold backprop at hb
  rw [bind_eq_ok] at hb
  obtain ⟨st', e1, e2⟩ := hb
  cases e2
  obtain ⟨_, b2, _, _, _⟩ := backward_keeps eps loss _ _ _ _ e1
  obtain ⟨_, r2, _, _⟩ := run_keeps hrun
  refine ⟨?_, by dsimp only; rw [b2]; exact congrFun r2 v, rfl⟩
  have h0 := frozen_grad_kept eps v loss hf _ _ _ _ e1
  dsimp only at h0 ⊢
  rw [h0]
  rw [← varOccs_vars loss none, List.mem_map] at hv
  obtain ⟨p, hp, rfl⟩ := hv
  exact ((run_zeroes hc htr hrun).1 p hp).1

/-- Partial (C96): a training run of a loss in which the model is frozen, and a step of sgd without momentum, adagrad, rmsprop or gradient_descent, keep all variables of
the model.  Full statement (false of the code, see `freeze_model_violated`): the same for every optimizer. -/
theorem freeze_model_partial (hc : Consistent loss) (htr : s.st.training = true) (hrun : run loss s.st = ok (y, st))
    (hb : backprop eps loss { s with st := st } = ok s1) (hr : Ready s1 sh w g)
    (hctx : ∀ v, (v, true) ∈ s1.reg → Ctx1 (s1.ctx v) (sh v) (μ v)) (v : Nat) (hv : v ∈ vars loss) (hf : FrozenIn v loss) :
    (∀ o : Sgd, o.mom = 0 → ∃ o' s', Sgd.step eps loss o { s with st := st } = ok (o', s') ∧ s'.st.data v = s.st.data v) ∧
    (∀ o : Sched, ∃ o' s', adagradStep eps loss o { s with st := st } = ok (o', s') ∧ s'.st.data v = s.st.data v) ∧
    (∀ o : Rmsprop, ∃ o' s', Rmsprop.step eps loss o { s with st := st } = ok (o', s') ∧ s'.st.data v = s.st.data v) ∧
    (∀ o : Gd, ∃ o' s', Gd.step eps loss o { s with st := st } = ok (o', s') ∧ s'.st.data v = s.st.data v) := by
  obtain ⟨u1, u2, _⟩ := frozen_grad_zero hc htr hrun hb hv hf
  exact zero_gradient_kept hb hr hctx v u2 u1

/-- C96 is false of sgd with momentum and of adam: the session's copies of the model's variables are not frozen, and move on with the memory of earlier steps. -/
theorem freeze_model_violated (hc : Consistent loss) (htr : s.st.training = true) (hrun : run loss s.st = ok (y, st))
    (hb : backprop eps loss { s with st := st } = ok s1) (hr : Ready s1 sh w g)
    (v : Nat) (hreg : (v, true) ∈ s1.reg) (hv : v ∈ vars loss) (hf : FrozenIn v loss) (is : List Nat) (his : ValidIdx (sh v) is) (hμ : μ v is ≠ 0) :
    ((∀ u, (u, true) ∈ s1.reg → Ctx1 (s1.ctx u) (sh u) (μ u)) →
      ∀ o : Sgd, 0 < o.mom → ∃ o' s', Sgd.step eps loss o { s with st := st } = ok (o', s') ∧ (s'.st.data v).at is ≠ (s.st.data v).at is) ∧
    ((∀ u, (u, true) ∈ s1.reg → Ctx2 (s1.ctx u) (sh u) (μ u) (ν u)) → 0 < eps →
      ∀ o : Adam, 1 < o.iter → 0 < o.b1 → o.b1 < 1 → 0 ≤ o.b2 → o.b2 < 1 → o.lr ≠ 0 →
        ∃ o' s', Adam.step eps loss o { s with st := st } = ok (o', s') ∧ (s'.st.data v).at is ≠ (s.st.data v).at is) := by
  obtain ⟨u1, u2, _⟩ := frozen_grad_zero hc htr hrun hb hv hf
  exact zero_gradient_moves hb hr v hreg u2 u1 is his hμ

end

/-- The small program of `Verif.Optim` with a frozen loss and a memory of 3 from earlier steps. -/
noncomputable def later : OSt := { start 5 7 with ctx := upd (fun _ => []) 0 [⟨[2], [3, 3]⟩] }

theorem later_ready : ∃ y st s1, run (makeTrainable false (sumLoss ⟨0, 0, true⟩)) later.st = ok (y, st) ∧
    backprop 1 (makeTrainable false (sumLoss ⟨0, 0, true⟩)) { later with st := st } = ok s1 ∧ s1.reg = [(0, true)] ∧
    Ready s1 (fun _ => [2]) (fun _ is => [5, 7].getD (is.getD 0 0) 0) (fun _ _ => 0) ∧ ∀ v, (v, true) ∈ s1.reg → Ctx1 (s1.ctx v) [2] (fun _ => 3) := by
  obtain ⟨h1, h2⟩ := start_has 5 7
  obtain ⟨e1, u, e2, e3⟩ := Ops.sum_reduce_adjoint (later.st.data 0) ones1 [2] _ 1 h1 (by decide) rfl
  have hz : (⟨(later.st.grad 0).shape, (later.st.grad 0).data.map (fun _ => 0)⟩ : Ten ℝ).Has [2] (fun _ => 0) := resetT_has h2
  have hrun : ∃ y st, run (makeTrainable false (sumLoss ⟨0, 0, true⟩)) later.st = ok (y, st) ∧ st.data = later.st.data ∧ (st.obj none).inL = later.st.data 0 ∧
      st.grad 0 = ⟨(later.st.grad 0).shape, (later.st.grad 0).data.map (fun _ => 0)⟩ := by
    unfold run sumLoss makeTrainable makeTrainable
    simp only [forward, query, Option.getD_none, noTensor, if_true, varForward, show later.st.training = true from rfl, bind_ok, upd_same]
    rw [show opSum.fwd (later.st.data 0) = _ from e1, bind_ok]
    exact ⟨_, _, rfl, rfl, by simp only [upd_same], by simp only [upd_same]⟩
  obtain ⟨y, st, r1, r2, r3, r4⟩ := hrun
  have hmem : ∀ v, (v, true) ∈ [((0 : Nat), true)] → v = 0 := fun v hv => by simpa using hv
  refine ⟨y, st, { later with st := st }, r1, ?_, rfl, ⟨?_, fun v hv => ?_, fun v hv => ?_⟩, fun v hv => ?_⟩
  · unfold backprop sumLoss makeTrainable makeTrainable
    simp only [backward, opSum, r3, e2, bind_ok, varBackward, if_true]
    rfl
  · show ([((0 : Nat), true)].map (·.1)).Nodup
    decide
  · rw [hmem v hv]; dsimp only; rw [r2]; exact h1
  · rw [hmem v hv]; dsimp only; rw [r4]; exact hz
  · rw [hmem v hv]
    refine Or.inr ⟨⟨[2], [3, 3]⟩, [], rfl, rfl, rfl, fun is hv => ?_⟩
    match is, hv with
    | [0], _ => rfl
    | [1], _ => rfl

theorem later_consistent : Consistent (makeTrainable false (sumLoss ⟨0, 0, true⟩)) := by
  intro p hp q hq i h1 h2
  simp only [makeTrainable, sumLoss, occs, List.mem_cons, List.not_mem_nil, or_false] at hp hq
  rcases hp with rfl | rfl <;> rcases hq with rfl | rfl <;> first | rfl | (cases h1; done) | (cases h2; done)

/-- The frozen variable stays without momentum, and moves with it. -/
example : ∃ y st, run (makeTrainable false (sumLoss ⟨0, 0, true⟩)) later.st = ok (y, st) ∧
    (∃ o' s', Sgd.step 1 (makeTrainable false (sumLoss ⟨0, 0, true⟩)) ⟨⟨1, 0, 0⟩, 0, false⟩ { later with st := st } = ok (o', s') ∧ s'.st.data 0 = later.st.data 0) ∧
    ∃ o' s', Sgd.step 1 (makeTrainable false (sumLoss ⟨0, 0, true⟩)) ⟨⟨1, 0, 0⟩, 1/2, false⟩ { later with st := st } = ok (o', s') ∧
      (s'.st.data 0).at [0] ≠ (later.st.data 0).at [0] := by
  obtain ⟨y, st, s1, k1, k2, k3, k4, k5⟩ := later_ready
  refine ⟨y, st, k1, ?_, ?_⟩
  · exact (freeze_model_partial (μ := fun _ _ => 3) later_consistent rfl k1 k2 k4 k5 0 (by simp [sumLoss, vars, makeTrainable]) (frozen_makeTrainable _ _)).1 _ rfl
  · exact (freeze_model_violated (μ := fun _ _ => 3) (ν := fun _ _ => 0) later_consistent rfl k1 k2 k4 0 (by rw [k3]; simp) (by simp [sumLoss, vars, makeTrainable])
      (frozen_makeTrainable _ _) [0] (by simp [ValidIdx]) (by norm_num)).1 k5 _ (by norm_num)

end Verif.Compose
