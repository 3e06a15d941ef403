import Verif.Fit.Props
import Verif.Optim.Freeze
/-!
# C87: evaluating and predicting do not train
-/
namespace Verif.Fit
open Verif Res View Data Graph Optim

noncomputable section

/-- A compiled model: the program of `Verif.Optim`, with an optimizer `O` (include/model.hpp lines 72-87).  `inp` and `gt` are the place
holders. -/
def compiled {O : Type} (loss : Ex ℝ) (inp gt : Nat) (step : O → OSt → Res (O × OSt)) : Machine (O × OSt) ℝ where
  bind x y s := (s.1, { s.2 with st := { s.2.st with leaf := upd (upd s.2.st.leaf inp x) gt y } })
  phase b s := (s.1, { s.2 with st := { s.2.st with training := b } })
  loss s := do
    let (y, st) ← run loss s.2.st
    pure (y, (s.1, { s.2 with st := st }))
  step s := step s.1 s.2

/-- `model::predict` (include/model.hpp lines 345-359): `out` is the expression of the model. -/
def predict (out : Ex ℝ) (inp : Nat) (x : Ten ℝ) (s : OSt) : Res (Ten ℝ × OSt) := do
  let (y, st) ← run out { s.st with leaf := upd s.st.leaf inp x, training := false }
  pure (y, { s with st := { st with training := true } })

/-- Outside the learning phase a run leaves the gradients alone, too. -/
theorem forward_inference {α : Type} [Zero α] (t : Ex α) : ∀ (sl : Slot) (s s' : St α) (y : Ten α), s.training = false → forward t sl s = ok (y, s') →
    s'.grad = s.grad ∧ s'.training = false := by
  induction t with
  | leaf k =>
    intro sl s s' y ht h
    simp only [forward, bind_eq_ok, pure_eq] at h
    obtain ⟨_, _, h⟩ := h
    cases h
    exact ⟨rfl, ht⟩
  | var v c =>
    intro sl s s' y ht h
    simp only [forward, varForward, ht, Bool.false_eq_true, if_false] at h
    cases h
    exact ⟨rfl, ht⟩
  | un i op c ih =>
    intro sl s s' y ht h
    simp only [forward] at h
    split at h
    · simp only [bind_eq_ok, pure_eq] at h
      obtain ⟨⟨x, s2⟩, ha, z, hb, h⟩ := h
      cases h
      have := ih _ _ _ _ (by exact ht) ha
      exact this
    · cases h
      exact ⟨rfl, ht⟩
  | bin i op l r ihl ihr =>
    intro sl s s' y ht h
    simp only [forward] at h
    split at h
    · simp only [bind_eq_ok, pure_eq] at h
      obtain ⟨⟨x, s2⟩, ha, ⟨w, s3⟩, hb, z, hz', h⟩ := h
      cases h
      obtain ⟨a1, a2⟩ := ihl _ _ _ _ (by exact ht) ha
      obtain ⟨b1, b2⟩ := ihr _ _ _ _ (by exact a2) hb
      exact ⟨b1.trans a1, b2⟩
    · cases h
      exact ⟨rfl, ht⟩

/-- What a program has learned: values and gradients of the variables, what the optimizer keeps with them, the variables of the session
and the optimizer itself. -/
def Learned {O : Type} (s s' : O × OSt) : Prop :=
  s'.1 = s.1 ∧ s'.2.st.data = s.2.st.data ∧ s'.2.st.grad = s.2.st.grad ∧ s'.2.ctx = s.2.ctx ∧ s'.2.reg = s.2.reg

/-- C87: `evaluate` keeps everything that was learned, for every loss, data and optimizer (`step` may be anything: it is not run).  It leaves
the program in the learning phase. -/
theorem evaluate_learned_partial {O : Type} (loss : Ex ℝ) (inp gt : Nat) (step : O → OSt → Res (O × OSt)) (inputs outputs : Ten ℝ) (bs : Nat) (s : O × OSt)
    {r : ℝ} {f : Frame (O × OSt) ℝ} (h : evaluate (compiled loss inp gt step) inputs outputs bs s = ok (r, f)) :
    Learned s f.s ∧ f.s.2.st.training = true := by
  unfold evaluate at h
  simp only [bind_eq_ok, pure_eq, ok.injEq] at h
  obtain ⟨n, _, _, _, x, _, y, _, g, hl, hr⟩ := h
  obtain ⟨_, rfl⟩ := Prod.mk.injEq _ _ _ _ ▸ hr
  have := loop_partial (fun _ (f : Frame (O × OSt) ℝ) => Learned s f.s ∧ f.s.2.st.training = false) hl ⟨⟨rfl, rfl, rfl, rfl, rfl⟩, rfl⟩ (by
    rintro i u u' _ ⟨⟨h1, h2, h3, h4, h5⟩, h6⟩ hb
    unfold feed at hb
    simp only [bind_eq_ok, pure_eq, ok.injEq] at hb
    obtain ⟨⟨e, v⟩, ⟨dx, _, dy, _, ⟨t, w⟩, hloss, e', _, hv⟩, rfl⟩ := hb
    obtain ⟨rfl, rfl⟩ := Prod.mk.injEq _ _ _ _ ▸ hv
    simp only [compiled, bind_eq_ok, pure_eq, ok.injEq] at hloss
    obtain ⟨⟨y', st⟩, hrun, hw⟩ := hloss
    obtain ⟨rfl, rfl⟩ := Prod.mk.injEq _ _ _ _ ▸ hw
    obtain ⟨_, k2, k3, _⟩ := run_keeps hrun
    obtain ⟨j1, j2⟩ := forward_inference loss none _ _ _ (by exact h6) hrun
    exact ⟨⟨h1, k2.trans h2, j1.trans h3, h4, h5⟩, j2⟩)
  exact ⟨this.1, rfl⟩

/-- C87: `predict` keeps everything that was learned, and leaves the program in the learning phase. -/
theorem predict_learned_partial (out : Ex ℝ) (inp : Nat) (x y : Ten ℝ) (s s' : OSt) (h : predict out inp x s = ok (y, s')) :
    Learned ((), s) ((), s') ∧ s'.st.training = true ∧ s'.st.leaf = upd s.st.leaf inp x := by
  unfold predict at h
  simp only [bind_eq_ok, pure_eq, ok.injEq] at h
  obtain ⟨⟨y', st⟩, hrun, hw⟩ := h
  obtain ⟨rfl, rfl⟩ := Prod.mk.injEq _ _ _ _ ▸ hw
  obtain ⟨k1, k2, k3, _⟩ := run_keeps hrun
  obtain ⟨j1, j2⟩ := forward_inference out none _ _ _ rfl hrun
  exact ⟨⟨rfl, k2, j1, rfl, rfl⟩, rfl, k1⟩

/-- C87 is violated where the learning phase is concerned: a program that was not in the learning phase is, after every `predict` or `evaluate`. -/
theorem predict_phase_violated (out : Ex ℝ) (inp : Nat) (x y : Ten ℝ) (s s' : OSt) (hs : s.st.training = false) (h : predict out inp x s = ok (y, s')) :
    s'.st.training ≠ s.st.training := by
  rw [(predict_learned_partial out inp x y s s' h).2.1, hs]
  decide

theorem evaluate_phase_violated {O : Type} (loss : Ex ℝ) (inp gt : Nat) (step : O → OSt → Res (O × OSt)) (inputs outputs : Ten ℝ) (bs : Nat) (s : O × OSt)
    (hs : s.2.st.training = false) {r : ℝ} {f : Frame (O × OSt) ℝ} (h : evaluate (compiled loss inp gt step) inputs outputs bs s = ok (r, f)) :
    f.s.2.st.training ≠ s.2.st.training := by
  rw [(evaluate_learned_partial loss inp gt step inputs outputs bs s h).2, hs]
  decide

/-- `sumLoss`, which ignores its place holders, meets the hypotheses: it can be run in every state with a variable of two elements. -/
theorem sumLoss_works (inp gt bs : Nat) (a b : List Nat) {O : Type} (step : O → OSt → Res (O × OSt)) (hstep : ∀ o s, ∃ o', step o s = ok (o', s)) :
    Works (compiled (sumLoss ⟨0, 0, true⟩) inp gt step) bs a b (fun s => ∃ w, (s.2.st.data 0).Has [2] w) := by
  refine ⟨fun s x y _ _ _ _ h => h, fun s c h => h, fun s ⟨w, h⟩ => ?_, fun s h => ?_⟩
  · obtain ⟨e1, _⟩ := Ops.sum_reduce_adjoint (s.2.st.data 0) ones1 [2] w 1 h (by decide) rfl
    have hrun : ∃ st, run (sumLoss ⟨0, 0, true⟩) s.2.st = ok (⟨[1], [sumIdx [2] w]⟩, st) ∧ st.data = s.2.st.data := by
      unfold run sumLoss
      simp only [forward, query, Option.getD_none, noTensor, if_true, varForward, bind_ok]
      cases s.2.st.training <;> simp only [Bool.false_eq_true, if_true, if_false]
      · rw [show opSum.fwd (s.2.st.data 0) = _ from e1, bind_ok]
        exact ⟨_, rfl, rfl⟩
      · rw [show opSum.fwd (s.2.st.data 0) = _ from e1, bind_ok]
        exact ⟨_, rfl, rfl⟩
    obtain ⟨st, r1, r2⟩ := hrun
    refine ⟨⟨[1], [sumIdx [2] w]⟩, (s.1, { s.2 with st := st }), ?_, rfl, w, by rw [r2]; exact h⟩
    simp only [compiled, r1, bind_ok]
    rfl
  · obtain ⟨o', h'⟩ := hstep s.1 s.2
    exact ⟨(o', s.2), by simp only [compiled, h'], h⟩

example : ∃ r f, evaluate (compiled (sumLoss ⟨0, 0, true⟩) 3 4 (fun (o : Nat) s => ok (o, s))) ⟨[4, 1], [1, 2, 3, 4]⟩ ⟨[4, 1], [1, 2, 3, 4]⟩ 2
    (7, { start 5 7 with st := { (start 5 7).st with training := false } }) = ok (r, f) ∧ f.s.2.st.training ≠ false := by
  have hi : (⟨[4, 1], [1, 2, 3, 4]⟩ : Ten ℝ).WF := rfl
  obtain ⟨r, f, h⟩ := evaluate_returns (bs := 2) (by decide) (sumLoss_works 3 4 2 [1] [1] (fun (o : Nat) s => ok (o, s)) (fun o _ => ⟨o, rfl⟩)) hi.has hi.has (le_refl 4)
    (7, { start 5 7 with st := { (start 5 7).st with training := false } }) ⟨_, (start_has 5 7).1⟩
  exact ⟨r, f, h, evaluate_phase_violated _ _ _ _ _ _ _ _ rfl h⟩

end
end Verif.Fit
