import Verif.Copies.Model
import Verif.Fit.Evaluate
import Verif.Train.Spec
import Verif.Graph.Frame
import Verif.Loss.Model
/-!
# Copies of compiled models
-/
namespace Verif.Copies
open Verif Res View Data Graph Optim Fit Runs
open Verif.Train (leaves)
open Verif.Loss (opMean)

noncomputable section

variable {O : Type}

theorem upd_upd {κ β : Type} [DecidableEq κ] (f : κ → β) (k : κ) (a b : β) : upd (upd f k a) k b = upd f k b := by
  funext x; unfold upd; split <;> rfl

theorem upd_self {κ β : Type} [DecidableEq κ] (f : κ → β) (k : κ) : upd f k (f k) = f := by
  funext x; unfold upd; split
  · rename_i h; rw [h]
  · rfl

theorem withRoot_twice (f g : Fields ℝ) (s : OSt) : withRoot f (withRoot g s) = withRoot f s := by
  unfold withRoot; simp only [upd_upd]

theorem withRoot_own (s : OSt) : withRoot (s.st.obj none) s = s := by unfold withRoot; simp only [upd_self]

theorem lookup_some {w : World O} {p : Nat} {c : Cm O} (h : w.cms p = some c) : lookup w p = ok c := by unfold lookup; rw [h]

theorem lookup_mk {cms : Nat → Option (Cm O)} {os : OSt} {p : Nat} {c : Cm O} (h : cms p = some c) : lookup ⟨cms, os⟩ p = ok c := by simp only [lookup, h]

/-! ### what the steps leave alone -/

theorem updateVar_obj {rule : Rule} {s s' : OSt} {p : Nat × Bool} (h : updateVar rule s p = ok s') : s'.st.obj = s.st.obj := by
  unfold updateVar at h
  split at h
  · simp only [bind_eq_ok, pure_eq] at h
    obtain ⟨⟨d, g, c⟩, _, h⟩ := h
    cases h; rfl
  · cases h; rfl

theorem updateAll_obj {rule : Rule} (l : List (Nat × Bool)) : ∀ s s' : OSt, l.foldlM (updateVar rule) s = ok s' → s'.st.obj = s.st.obj := by
  induction l with
  | nil => intro s s' h; cases h; rfl
  | cons p l ih =>
    intro s s' h
    rw [List.foldlM_cons, bind_eq_ok] at h
    obtain ⟨s1, h1, h2⟩ := h
    rw [ih _ _ h2, updateVar_obj h1]

theorem step_obj {M : Opt O} {eps : ℝ} {e : Ex ℝ} {o o' : O} {s s' : OSt} (h : M.step eps e o s = ok (o', s')) : s'.st.obj = s.st.obj := by
  unfold Opt.step at h
  simp only [bind_eq_ok, pure_eq] at h
  obtain ⟨s1, h1, s2, h2, h⟩ := h
  cases h
  rw [updateAll_obj _ _ _ h2]
  unfold backprop at h1
  simp only [bind_eq_ok, pure_eq] at h1
  obtain ⟨st, h3, h1⟩ := h1
  cases h1
  exact backward_obj eps e none ones1 _ _ h3

/-! ### the compiled model itself -/

/-- **C121** (the compiled model itself). On the object that was constructed, whose optimizer refers to its own loss, `train_on_batch` is what the other properties
prove about it (`Verif.Fit.compiled`): the same error, the same variables, the same optimizer. -/
theorem original_trains_partial (M : Opt O) (eps : ℝ) (e : Ex ℝ) (inp gt p : Nat) (x y : Ten ℝ) (w : World O) (f : Fields ℝ) (o : O) (h : w.cms p = some ⟨some f, o, p⟩) :
    trainOnBatch (machine M eps e inp gt p) x y w =
      (trainOnBatch (compiled e inp gt (M.step eps e)) x y (o, withRoot f w.os) >>= fun r =>
        ok (r.1, ⟨upd w.cms p (some ⟨some (r.2.2.st.obj none), r.2.1, p⟩), r.2.2⟩)) := by
  unfold trainOnBatch
  simp only [machine, compiled, runLoss]
  rw [lookup_mk h, bind_ok]
  simp only [stateOf, bind_ok, withRoot]
  cases hr : run e { w.os.st with obj := upd w.os.st.obj none f, training := true, leaf := upd (upd w.os.st.leaf inp x) gt y } with
  | abort => rfl
  | ub => rfl
  | ok r =>
    obtain ⟨t, st⟩ := r
    simp only [bind_ok, pure_eq, runOpt]
    rw [lookup_mk (upd_same _ _ _)]
    simp only [bind_ok]
    rw [lookup_mk (upd_same _ _ _)]
    simp only [bind_ok, stateOf, withRoot, upd_self]
    cases hs : M.step eps e o { w.os with st := st } with
    | abort => rfl
    | ub => rfl
    | ok r =>
      obtain ⟨o', os'⟩ := r
      have ho := step_obj hs
      simp only [bind_ok, upd_upd]
      cases asScalar t with
      | abort => rfl
      | ub => rfl
      | ok v => simp only [bind_ok, ho]

/-- **C121** (evaluating). The loss of a copy is the value of the loss for the bound data and the current variables, whatever was run before and whatever happened
to the original. -/
theorem copy_evaluates (e : Ex ℝ) (hc : Consistent e) (q : Nat) (w : World O) (f : Fields ℝ) (o : O) (p : Nat) (h : w.cms q = some ⟨some f, o, p⟩) (v : Ten ℝ)
    (hv : eval w.os.st.leaf w.os.st.data e = ok v) : ∃ w', runLoss e q w = ok (v, w') ∧ w'.os.st.data = w.os.st.data := by
  obtain ⟨s', hs⟩ := (run_fresh_partial e hc (withRoot f w.os).st).1 v hv
  unfold runLoss
  rw [lookup_some h, bind_ok]
  simp only [stateOf, bind_ok, hs, pure_eq]
  exact ⟨_, rfl, (run_keeps hs).2.1⟩

/-! ### copies -/

/-- What training a copy is: the pass through the loss of the copy, then back from the root as the original left it. -/
theorem copy_step (M : Opt O) (eps : ℝ) (e : Ex ℝ) (inp gt p q : Nat) (hpq : p ≠ q) (x y : Ten ℝ) (w : World O) (f : Fields ℝ) (o : O) (c : Cm O) (g : Fields ℝ)
    (hq : w.cms q = some ⟨some f, o, p⟩) (hp : w.cms p = some c) (hc : c.root = some g) :
    trainOnBatch (machine M eps e inp gt q) x y w = (do
      let (t, st) ← run e { w.os.st with obj := upd w.os.st.obj none f, training := true, leaf := upd (upd w.os.st.leaf inp x) gt y }
      let (o', os') ← M.step eps e o (withRoot g { w.os with st := st })
      let v ← asScalar t
      ok (v, ⟨upd w.cms q (some ⟨some (st.obj none), o', p⟩), os'⟩)) := by
  unfold trainOnBatch
  simp only [machine, runLoss]
  rw [lookup_mk hq, bind_ok]
  simp only [stateOf, bind_ok, withRoot]
  cases hr : run e { w.os.st with obj := upd w.os.st.obj none f, training := true, leaf := upd (upd w.os.st.leaf inp x) gt y } with
  | abort => rfl
  | ub => rfl
  | ok r =>
    obtain ⟨t, st⟩ := r
    simp only [bind_ok, pure_eq, runOpt]
    rw [lookup_mk (upd_same _ _ _)]
    simp only [bind_ok]
    rw [lookup_mk ((upd_ne _ _ hpq).trans hp)]
    simp only [bind_ok, stateOf, hc, withRoot]
    cases hs : M.step eps e o { w.os with st := { st with obj := upd st.obj none g } } with
    | abort => rfl
    | ub => rfl
    | ok r =>
      obtain ⟨o', os'⟩ := r
      simp only [bind_ok, upd_upd]

/-- **C121** (violated: the original is gone). If the compiled model the optimizer of a copy refers to has been destroyed or moved from, training the copy never finishes. -/
theorem dangling_copy_violated (M : Opt O) (eps : ℝ) (e : Ex ℝ) (inp gt p q : Nat) (hpq : p ≠ q) (x y : Ten ℝ) (w : World O) (r : Option (Fields ℝ)) (o : O)
    (hq : w.cms q = some ⟨r, o, p⟩) (hp : ∀ c, w.cms p = some c → c.root = none) (z : ℝ × World O) :
    trainOnBatch (machine M eps e inp gt q) x y w ≠ ok z := by
  intro h
  unfold trainOnBatch at h
  simp only [machine, bind_eq_ok, Prod.exists] at h
  obtain ⟨t, w1, h1, w2, h2, -⟩ := h
  unfold runLoss at h1
  simp only [bind_eq_ok, Prod.exists] at h1
  obtain ⟨c, hc, f, hf, y', st, hr, h1⟩ := h1
  rw [lookup_mk hq] at hc
  injection hc with hc
  rw [pure_eq] at h1
  injection h1 with h1
  injection h1 with _ h1
  subst h1 hc
  unfold runOpt at h2
  rw [lookup_mk (upd_same _ _ _), bind_ok] at h2
  simp only [lookup, upd_ne _ _ hpq] at h2
  cases hcp : w.cms p with
  | none => rw [hcp] at h2; cases h2
  | some c => rw [hcp] at h2; simp only [bind_ok, stateOf, hp c hcp] at h2; cases h2

/-- **C121** (violated: what then happens is undefined). Whenever the loss of such a copy runs, the step after it reads through a reference to nothing. -/
theorem dangling_copy_undefined (M : Opt O) (eps : ℝ) (e : Ex ℝ) (inp gt p q : Nat) (hpq : p ≠ q) (x y : Ten ℝ) (w : World O) (f : Fields ℝ) (o : O)
    (hq : w.cms q = some ⟨some f, o, p⟩) (hp : ∀ c, w.cms p = some c → c.root = none) (t : Ten ℝ) (st : St ℝ)
    (hr : run e { w.os.st with obj := upd w.os.st.obj none f, training := true, leaf := upd (upd w.os.st.leaf inp x) gt y } = ok (t, st)) :
    trainOnBatch (machine M eps e inp gt q) x y w = ub := by
  unfold trainOnBatch
  simp only [machine, runLoss]
  rw [lookup_mk hq, bind_ok]
  simp only [stateOf, bind_ok, withRoot, hr, pure_eq, runOpt]
  rw [lookup_mk (upd_same _ _ _)]
  simp only [bind_ok, lookup, upd_ne _ _ hpq]
  cases hcp : w.cms p with
  | none => rfl
  | some c => simp only [bind_ok, hp c hcp, bind_ub]

/-- **C121** (`evaluate` of a copy). It keeps everything that was learned - values, gradients, what the optimizers keep - and leaves all other compiled models alone. -/
theorem copy_evaluate_keeps (M : Opt O) (eps : ℝ) (e : Ex ℝ) (inp gt q : Nat) (inputs outputs : Ten ℝ) (bs : Nat) (w : World O) {r : ℝ} {f : Frame (World O) ℝ}
    (h : evaluate (machine M eps e inp gt q) inputs outputs bs w = ok (r, f)) :
    Learned (w.cms q |>.map Cm.opt, w.os) (f.s.cms q |>.map Cm.opt, f.s.os) ∧ f.s.os.st.training = true ∧ ∀ p, p ≠ q → f.s.cms p = w.cms p := by
  unfold evaluate at h
  simp only [bind_eq_ok, pure_eq, ok.injEq] at h
  obtain ⟨n, _, _, _, x, _, y, _, g, hl, hr⟩ := h
  obtain ⟨_, rfl⟩ := Prod.mk.injEq _ _ _ _ ▸ hr
  have := loop_partial (fun _ (f : Frame (World O) ℝ) => (Learned (w.cms q |>.map Cm.opt, w.os) (f.s.cms q |>.map Cm.opt, f.s.os) ∧
      f.s.os.st.training = false) ∧ ∀ p, p ≠ q → f.s.cms p = w.cms p) hl ⟨⟨⟨rfl, rfl, rfl, rfl, rfl⟩, rfl⟩, fun _ _ => rfl⟩ (by
    rintro i u u' _ ⟨⟨⟨h1, h2, h3, h4, h5⟩, h6⟩, h7⟩ hb
    unfold feed at hb
    simp only [bind_eq_ok, pure_eq, ok.injEq] at hb
    obtain ⟨⟨e', v⟩, ⟨dx, _, dy, _, ⟨t, z⟩, hloss, e'', _, hv⟩, rfl⟩ := hb
    obtain ⟨rfl, rfl⟩ := Prod.mk.injEq _ _ _ _ ▸ hv
    simp only [machine, runLoss, bind_eq_ok, pure_eq, ok.injEq] at hloss
    obtain ⟨c, hc, k, hk, ⟨y', st⟩, hrun, hw⟩ := hloss
    obtain ⟨rfl, rfl⟩ := Prod.mk.injEq _ _ _ _ ▸ hw
    obtain ⟨_, k2, k3, _⟩ := run_keeps hrun
    obtain ⟨j1, j2⟩ := forward_inference e none _ _ _ (by exact h6) hrun
    have hcq : u.s.cms q = some c := by
      unfold lookup at hc
      dsimp only at hc
      split at hc
      · injection hc with hc; subst hc; assumption
      · cases hc
    refine ⟨⟨⟨?_, k2.trans h2, j1.trans h3, h4, h5⟩, j2⟩, fun p hp => (upd_ne _ _ hp).trans (h7 p hp)⟩
    rw [← h1]
    simp only [upd_same, hcq, Option.map_some])
  exact ⟨this.1.1, rfl, this.2⟩

/-- **C121** (violated: moving). Right after a compiled model was moved to another place - returned from a function that has two results to choose from, put into a
container - it can no longer be trained. -/
theorem moved_violated (M : Opt O) (eps : ℝ) (e : Ex ℝ) (inp gt p q : Nat) (hpq : p ≠ q) (x y : Ten ℝ) (w w' : World O) (f : Option (Fields ℝ)) (o : O)
    (h : w.cms p = some ⟨f, o, p⟩) (hm : moveAt p q w = ok w') (z : ℝ × World O) : trainOnBatch (machine M eps e inp gt q) x y w' ≠ ok z := by
  unfold moveAt at hm
  rw [lookup_some h, bind_ok] at hm
  injection hm with hm
  subst hm
  refine dangling_copy_violated M eps e inp gt p q hpq x y _ f o (upd_same _ _ _) (fun c hc => ?_) z
  dsimp only at hc
  rw [upd_ne _ _ hpq, upd_same] at hc
  injection hc with hc
  rw [← hc]

/-! ### the gradient is that of the original's last batch -/

/-- Two states that differ only in one place holder and the fields of the root. -/
structure Same (gt : Nat) (s s' : St ℝ) : Prop where
  leaf : ∀ k, k ≠ gt → s.leaf k = s'.leaf k
  data : s.data = s'.data
  grad : s.grad = s'.grad
  sync : s.sync = s'.sync
  training : s.training = s'.training
  obj : ∀ sl, sl ≠ none → s.obj sl = s'.obj sl

theorem Same.setObj {gt : Nat} {s s' : St ℝ} (h : Same gt s s') (sl : Slot) (F : Fields ℝ → Fields ℝ) (hsl : sl ≠ none) :
    Same gt { s with obj := upd s.obj sl (F (s.obj sl)) } { s' with obj := upd s'.obj sl (F (s'.obj sl)) } := by
  refine ⟨h.1, h.2, h.3, h.4, h.5, fun t ht => ?_⟩
  by_cases e : t = sl
  · subst e; simp only [upd_same, h.obj t ht]
  · simp only [upd_ne _ _ e]; exact h.obj t ht

theorem forward_same {gt : Nat} (t : Ex ℝ) : ∀ (sl : Slot) (s s' u u' : St ℝ) (y y' : Ten ℝ), sl ≠ none → gt ∉ leaves t → Same gt s s' → s.cache = s'.cache →
    forward t sl s = ok (y, u) → forward t sl s' = ok (y', u') → y = y' ∧ Same gt u u' ∧ u.cache = u'.cache := by
  induction t with
  | leaf k =>
    intro sl s s' u u' y y' _ hg hs hc h h'
    simp only [forward, bind_eq_ok, pure_eq] at h h'
    obtain ⟨_, _, h⟩ := h
    obtain ⟨_, _, h'⟩ := h'
    cases h; cases h'
    exact ⟨hs.leaf k (by rintro rfl; exact hg (by simp [leaves])), hs, hc⟩
  | var v c =>
    intro sl s s' u u' y y' _ _ hs hc h h'
    simp only [forward, varForward] at h h'
    split at h
    · rename_i ht
      rw [if_pos (hs.training ▸ ht)] at h'
      cases h; cases h'
      exact ⟨by rw [hs.data], ⟨hs.1, hs.2, by simp only [hs.grad], by simp only [hs.sync], hs.5, hs.6⟩, hc⟩
    · rename_i ht
      rw [if_neg (hs.training ▸ ht)] at h'
      cases h; cases h'
      exact ⟨by rw [hs.data], hs, hc⟩
  | un i op e ih =>
    intro sl s s' u u' y y' hsl hg hs hc h h'
    simp only [forward] at h h'
    rw [show query s'.cache i = query s.cache i by rw [hc]] at h'
    have h0 := hs.setObj sl (fun f => { f with out := query s.cache i }) hsl
    split at h
    · rename_i hq
      rw [if_pos hq] at h'
      simp only [bind_eq_ok, pure_eq, Prod.exists] at h h'
      obtain ⟨x, s2, ha, z, hb, h⟩ := h
      obtain ⟨x', s2', ha', z', hb', h'⟩ := h'
      obtain ⟨e1, e2, e3⟩ := ih _ _ _ _ _ _ _ (by simp) hg h0 hc ha ha'
      subst e1
      rw [hb] at hb'
      injection hb' with hb'
      subst hb'
      cases h; cases h'
      have h1 := (e2.setObj sl (fun f => { f with inL := x }) hsl).setObj sl (fun f => { f with out := y }) hsl
      exact ⟨rfl, ⟨h1.1, h1.2, h1.3, h1.4, h1.5, h1.6⟩, by simp only [e3]⟩
    · rename_i hq
      rw [if_neg hq] at h'
      cases h; cases h'
      exact ⟨rfl, h0, hc⟩
  | bin i op l r ihl ihr =>
    intro sl s s' u u' y y' hsl hg hs hc h h'
    simp only [leaves, List.mem_append, not_or] at hg
    simp only [forward] at h h'
    rw [show query s'.cache i = query s.cache i by rw [hc]] at h'
    have h0 := hs.setObj sl (fun f => { f with out := query s.cache i }) hsl
    split at h
    · rename_i hq
      rw [if_pos hq] at h'
      simp only [bind_eq_ok, pure_eq, Prod.exists] at h h'
      obtain ⟨x, s2, ha, x2, s3, hb, z, hz, h⟩ := h
      obtain ⟨x', s2', ha', x2', s3', hb', z', hz', h'⟩ := h'
      obtain ⟨e1, e2, e3⟩ := ihl _ _ _ _ _ _ _ (by simp) hg.1 h0 hc ha ha'
      subst e1
      obtain ⟨f1, f2, f3⟩ := ihr _ _ _ _ _ _ _ (by simp) hg.2 (e2.setObj sl (fun f => { f with inL := x }) hsl) e3 hb hb'
      subst f1
      rw [hz] at hz'
      injection hz' with hz'
      subst hz'
      cases h; cases h'
      have h1 := (f2.setObj sl (fun f => { f with inR := x2 }) hsl).setObj sl (fun f => { f with out := y }) hsl
      exact ⟨rfl, ⟨h1.1, h1.2, h1.3, h1.4, h1.5, h1.6⟩, by simp only [f3]⟩
    · rename_i hq
      rw [if_neg hq] at h'
      cases h; cases h'
      exact ⟨rfl, h0, hc⟩

theorem backward_same {gt : Nat} (eps : ℝ) (t : Ex ℝ) : ∀ (sl : Slot) (g : Ten ℝ) (s s' u u' : St ℝ), sl ≠ none → Same gt s s' →
    backward eps t sl g s = ok u → backward eps t sl g s' = ok u' → Same gt u u' := by
  induction t with
  | leaf k => intro sl g s s' u u' _ hs h h'; cases h; cases h'; exact hs
  | var v c =>
    intro sl g s s' u u' _ hs h h'
    simp only [backward, varBackward] at h h'
    split at h
    · rename_i hc
      rw [if_pos hc] at h'
      cases h; cases h'; exact hs
    · rename_i hc
      rw [if_neg hc, ← hs.grad, ← hs.data, ← hs.sync] at h'
      rw [bind_eq_ok] at h h'
      obtain ⟨k, hk, h⟩ := h
      obtain ⟨k', hk', h'⟩ := h'
      rw [hk] at hk'
      injection hk' with hk'
      subst hk'
      split at h
      · rename_i hy
        rw [if_pos hy] at h'
        rw [bind_eq_ok] at h h'
        obtain ⟨m, hm, h⟩ := h
        obtain ⟨m', hm', h'⟩ := h'
        rw [hm] at hm'
        injection hm' with hm'
        subst hm'
        cases h; cases h'
        exact ⟨hs.1, rfl, rfl, rfl, hs.5, hs.6⟩
      · rename_i hy
        rw [if_neg hy] at h'
        cases h; cases h'
        exact ⟨hs.1, rfl, rfl, rfl, hs.5, hs.6⟩
  | un i op e ih =>
    intro sl g s s' u u' hsl hs h h'
    simp only [backward, bind_eq_ok] at h h'
    rw [← hs.obj sl hsl] at h'
    obtain ⟨d, hd, h⟩ := h
    obtain ⟨d', hd', h'⟩ := h'
    rw [hd] at hd'
    injection hd' with hd'
    subst hd'
    exact ih _ _ _ _ _ _ (by simp) hs h h'
  | bin i op l r ihl ihr =>
    intro sl g s s' u u' hsl hs h h'
    simp only [backward, bind_eq_ok] at h h'
    rw [← hs.obj sl hsl] at h'
    obtain ⟨d, hd, s2, h2, h⟩ := h
    obtain ⟨d', hd', s2', h2', h'⟩ := h'
    rw [hd] at hd'
    injection hd' with hd'
    subst hd'
    exact ihr _ _ _ _ _ _ (by simp) (ihl _ _ _ _ _ _ (by simp) hs h2 h2') h h'

theorem updateAll_same {gt : Nat} {rule : Rule} (l : List (Nat × Bool)) : ∀ s s' u u' : OSt, Same gt s.st s'.st → s.ctx = s'.ctx →
    l.foldlM (updateVar rule) s = ok u → l.foldlM (updateVar rule) s' = ok u' → Same gt u.st u'.st ∧ u.ctx = u'.ctx := by
  induction l with
  | nil => intro s s' u u' hs hc h h'; cases h; cases h'; exact ⟨hs, hc⟩
  | cons p l ih =>
    intro s s' u u' hs hc h h'
    rw [List.foldlM_cons, bind_eq_ok] at h h'
    obtain ⟨s1, h1, h⟩ := h
    obtain ⟨s1', h1', h'⟩ := h'
    refine (fun (k : Same gt s1.st s1'.st ∧ s1.ctx = s1'.ctx) => ih s1 s1' u u' k.1 k.2 h h') ?_
    unfold updateVar at h1 h1'
    split at h1
    · rename_i hp
      rw [if_pos hp, ← hs.data, ← hs.grad, ← hc] at h1'
      simp only [bind_eq_ok, pure_eq, Prod.exists] at h1 h1'
      obtain ⟨d, g, c, hr, h1⟩ := h1
      obtain ⟨d', g', c', hr', h1'⟩ := h1'
      rw [hr] at hr'
      injection hr' with hr'
      injection hr' with a1 hr'
      injection hr' with a2 a3
      subst a1 a2 a3
      cases h1; cases h1'
      exact ⟨⟨hs.1, rfl, rfl, hs.4, hs.5, hs.6⟩, rfl⟩
    · rename_i hp
      rw [if_neg hp] at h1'
      cases h1; cases h1'
      exact ⟨hs, hc⟩

/-- **C121** (violated: the labels are ignored). Let the root of the loss be an operator on the ground truth and the prediction (`CategoricalCrossentropy`).  Training a
copy of a compiled model on a batch does not depend on the labels: whatever they are, the variables and the optimizer's memory come out the same. -/
theorem copy_ignores_labels_violated (M : Opt O) (eps : ℝ) (i : Nat) (op : BOp ℝ) (e : Ex ℝ) (inp gt p q : Nat) (hpq : p ≠ q) (hgt : gt ∉ leaves e) (x y y' : Ten ℝ)
    (w w1 w2 : World O) (f : Fields ℝ) (o : O) (c : Cm O) (g : Fields ℝ) (r1 r2 : ℝ) (hq : w.cms q = some ⟨some f, o, p⟩) (hp : w.cms p = some c)
    (hc : c.root = some g) (h1 : trainOnBatch (machine M eps (.bin i op (.leaf gt) e) inp gt q) x y w = ok (r1, w1))
    (h2 : trainOnBatch (machine M eps (.bin i op (.leaf gt) e) inp gt q) x y' w = ok (r2, w2)) :
    w1.os.st.data = w2.os.st.data ∧ w1.os.ctx = w2.os.ctx ∧ (w1.cms q).map Cm.opt = (w2.cms q).map Cm.opt := by
  rw [copy_step M eps _ inp gt p q hpq x _ w f o c g hq hp hc] at h1 h2
  simp only [bind_eq_ok, Prod.exists] at h1 h2
  obtain ⟨t1, st1, a1, o1, os1, b1, v1, -, d1⟩ := h1
  obtain ⟨t2, st2, a2, o2, os2, b2, v2, -, d2⟩ := h2
  cases d1; cases d2
  -- the pass
  have hst : Same gt { st1 with obj := upd st1.obj none g } { st2 with obj := upd st2.obj none g } := by
    simp only [run, forward] at a1 a2
    rw [if_pos (by rfl)] at a1 a2
    simp only [bind_eq_ok, pure_eq, Prod.exists] at a1 a2
    obtain ⟨_, s1, ⟨_, _, l1⟩, x1, s3, m1, z1, n1, a1⟩ := a1
    obtain ⟨_, s2, ⟨_, _, l2⟩, x2, s4, m2, z2, n2, a2⟩ := a2
    injection l1 with l1
    injection l2 with l2
    injection l1 with l1 l1'
    injection l2 with l2 l2'
    subst l1' l2'
    obtain ⟨k1, k2, k3⟩ := forward_same e (some (i, true)) _ _ _ _ _ _ (by simp) hgt
      (by exact ⟨fun k hk => by simp only [upd_ne _ _ hk], rfl, rfl, rfl, rfl, fun sl hsl => by simp only [upd_ne _ _ hsl]⟩) (by rfl) m1 m2
    cases a1; cases a2
    refine ⟨k2.1, k2.2, k2.3, k2.4, k2.5, fun sl hsl => ?_⟩
    simp only [upd_ne _ _ hsl]
    exact k2.obj sl hsl
  -- the step
  unfold Opt.step at b1 b2
  simp only [bind_eq_ok, pure_eq] at b1 b2
  obtain ⟨u1, c1, v1', d1, e1⟩ := b1
  obtain ⟨u2, c2, v2', d2, e2⟩ := b2
  cases e1; cases e2
  unfold backprop at c1 c2
  simp only [bind_eq_ok, pure_eq, withRoot] at c1 c2
  obtain ⟨k1, c1, e1⟩ := c1
  obtain ⟨k2, c2, e2⟩ := c2
  cases e1; cases e2
  simp only [backward, bind_eq_ok, upd_same] at c1 c2
  obtain ⟨g1, hg1, s1, l1, c1⟩ := c1
  obtain ⟨g2, hg2, s2, l2, c2⟩ := c2
  rw [hg1] at hg2
  injection hg2 with hg2
  subst hg2
  cases l1; cases l2
  have hb := backward_same eps e _ _ _ _ _ _ (by simp) hst c1 c2
  obtain ⟨k1, k2⟩ := updateAll_same (gt := gt) _ _ _ _ _ (by exact hb) (by rfl) d1 d2
  exact ⟨k1.data, k2, by simp only [upd_same, Option.map_some]⟩

/-- **C121** (violated: the original has not run). With a loss that is a mean (`MeanSquaredError`, `MeanAbsoluteError`, `Hinge`, `BinaryCrossentropy`), training a copy
of a compiled model that has not been run itself does not finish: the mean divides by the first extent of a shape without extents. -/
theorem fresh_copy_violated (M : Opt O) (eps : ℝ) (i : Nat) (e : Ex ℝ) (inp gt p q : Nat) (hpq : p ≠ q) (x y : Ten ℝ) (w w1 w2 : World O) (o : O)
    (hw : w1 = compileAt p o w) (hcopy : copyAt p q w1 = ok w2) (z : ℝ × World O) : trainOnBatch (machine M eps (.un i opMean e) inp gt q) x y w2 ≠ ok z := by
  subst hw
  have h1 : (compileAt p o w).cms p = some ⟨some noFields, o, p⟩ := upd_same _ _ _
  unfold copyAt at hcopy
  rw [lookup_some h1, bind_ok] at hcopy
  injection hcopy with hcopy
  subst hcopy
  rw [copy_step M eps _ inp gt p q hpq x y _ noFields o ⟨some noFields, o, p⟩ noFields (upd_same _ _ _) ((upd_ne _ _ hpq).trans h1) rfl]
  intro h
  simp only [bind_eq_ok, Prod.exists] at h
  obtain ⟨t, st, -, o', os', b, -⟩ := h
  unfold Opt.step at b
  simp only [bind_eq_ok, pure_eq] at b
  obtain ⟨u, c, -⟩ := b
  unfold backprop at c
  simp only [bind_eq_ok, pure_eq, withRoot] at c
  obtain ⟨k, c, -⟩ := c
  simp only [backward, bind_eq_ok, upd_same] at c
  obtain ⟨d, hd, -⟩ := c
  simp only [opMean, Ops.meanReduceBack, noFields, noTensor, ones1] at hd
  simp only [bind_eq_ok] at hd
  obtain ⟨-, -, a, -, b, hb, -⟩ := hd
  simp [Ops.meanBatch, rd] at hb

/-! ### when a copy trains like a model of its own -/

/-- The fields of the root replaced. -/
def setRoot (f : Fields ℝ) (s : St ℝ) : St ℝ := { s with obj := upd s.obj none f }

/-- The fields of the root do not matter below the root. -/
theorem backward_setRoot (f : Fields ℝ) (eps : ℝ) (t : Ex ℝ) : ∀ (sl : Slot) (g : Ten ℝ) (s : St ℝ), sl ≠ none →
    backward eps t sl g (setRoot f s) = (backward eps t sl g s >>= fun u => ok (setRoot f u)) := by
  induction t with
  | leaf k => intro sl g s _; rfl
  | var v c =>
    intro sl g s _
    simp only [backward, varBackward, setRoot]
    split
    · rfl
    · cases addGrad (s.grad v) (s.data v) g with
      | abort => rfl
      | ub => rfl
      | ok k =>
        simp only [bind_ok]
        by_cases hy : s.sync sl = false
        · rw [if_pos hy]
          refine (if_pos hy).trans ?_
          cases regularise eps c (s.data v) k <;> rfl
        · rw [if_neg hy]
          exact if_neg hy
  | un i op e ih =>
    intro sl g s hsl
    simp only [backward, setRoot, upd_ne _ _ hsl]
    cases op.bwd (s.obj sl).inL (s.obj sl).out g with
    | abort => rfl
    | ub => rfl
    | ok d => exact ih (some (i, false)) d s (by simp)
  | bin i op l r ihl ihr =>
    intro sl g s hsl
    simp only [backward, setRoot, upd_ne _ _ hsl]
    cases op.bwd (s.obj sl).inL (s.obj sl).inR (s.obj sl).out g with
    | abort => rfl
    | ub => rfl
    | ok d =>
      simp only [bind_ok]
      rw [show backward eps l (some (i, false)) d.1 { s with obj := upd s.obj none f } = _ from ihl (some (i, false)) d.1 s (by simp)]
      cases backward eps l (some (i, false)) d.1 s with
      | abort => rfl
      | ub => rfl
      | ok u => exact ihr (some (i, true)) d.2 u (by simp)

theorem updateAll_setRoot (f : Fields ℝ) (rule : Rule) (l : List (Nat × Bool)) : ∀ s : OSt,
    l.foldlM (updateVar rule) (withRoot f s) = (l.foldlM (updateVar rule) s >>= fun u => ok (withRoot f u)) := by
  induction l with
  | nil => intro s; rfl
  | cons p l ih =>
    intro s
    rw [List.foldlM_cons, List.foldlM_cons]
    have h1 : updateVar rule (withRoot f s) p = (updateVar rule s p >>= fun u => ok (withRoot f u)) := by
      unfold updateVar
      split
      · simp only [withRoot]
        cases rule (s.st.data p.1) (s.st.grad p.1) (s.ctx p.1) <;> rfl
      · rfl
    rw [h1]
    cases updateVar rule s p with
    | abort => rfl
    | ub => rfl
    | ok u => exact ih u

/-- A step through a root whose gradient only depends on the shape of what it got. -/
theorem step_setRoot (M : Opt O) (eps : ℝ) (i : Nat) (e : Ex ℝ) (o : O) (s : OSt) (g : Fields ℝ) (hsh : g.inL.shape = (s.st.obj none).inL.shape) :
    M.step eps (.un i opMean e) o (withRoot g s) = (M.step eps (.un i opMean e) o s >>= fun r => ok (r.1, withRoot g r.2)) := by
  unfold Opt.step backprop
  simp only [backward, withRoot, upd_same]
  rw [show opMean.bwd g.inL g.out ones1 = opMean.bwd (s.st.obj none).inL (s.st.obj none).out ones1 by
    simp only [opMean, Ops.meanReduceBack, Ops.onesTimes, hsh]]
  cases opMean.bwd (s.st.obj none).inL (s.st.obj none).out ones1 with
  | abort => rfl
  | ub => rfl
  | ok d =>
    simp only [bind_ok]
    rw [show backward eps e (some (i, false)) d { s.st with obj := upd s.st.obj none g } = _ from backward_setRoot g eps e (some (i, false)) d s.st (by simp)]
    cases backward eps e (some (i, false)) d s.st with
    | abort => rfl
    | ub => rfl
    | ok u =>
      simp only [bind_ok, pure_eq]
      unfold updateAll
      rw [show ({ s with st := setRoot g u } : OSt) = withRoot g { s with st := u } from rfl, show (withRoot g { s with st := u }).reg = s.reg from rfl, updateAll_setRoot]
      cases s.reg.foldlM (updateVar (M.rule o)) { s with st := u } <;> rfl

/-- **C121** (partial). With a loss that is a mean, a copy trains as a compiled model of its own would - the same error, variables and optimizer -
if the original is still there, has been run, and its last batch was of the shape of this one.  The full statement has no condition on the original. -/
theorem copy_trains_partial (M : Opt O) (eps : ℝ) (i : Nat) (e : Ex ℝ) (inp gt p q : Nat) (hpq : p ≠ q) (x y : Ten ℝ) (w w' : World O) (f : Fields ℝ) (o : O) (c : Cm O)
    (g : Fields ℝ) (r : ℝ) (hq : w.cms q = some ⟨some f, o, p⟩) (hp : w.cms p = some c) (hc : c.root = some g)
    (h : trainOnBatch (machine M eps (.un i opMean e) inp gt q) x y { w with cms := upd w.cms q (some ⟨some f, o, q⟩) } = ok (r, w'))
    (hsh : ∀ c' k, w'.cms q = some c' → c'.root = some k → k.inL.shape = g.inL.shape) :
    ∃ w'', trainOnBatch (machine M eps (.un i opMean e) inp gt q) x y w = ok (r, w'') ∧ w''.os.st.data = w'.os.st.data ∧ w''.os.ctx = w'.os.ctx ∧
      (w''.cms q).map Cm.opt = (w'.cms q).map Cm.opt ∧ (w''.cms q).map Cm.root = (w'.cms q).map Cm.root ∧ w''.cms p = w.cms p := by
  rw [original_trains_partial M eps _ inp gt q x y _ f o (upd_same _ _ _)] at h
  rw [copy_step M eps _ inp gt p q hpq x y w f o c g hq hp hc]
  unfold trainOnBatch at h
  simp only [compiled, withRoot, bind_eq_ok, Prod.exists] at h
  obtain ⟨r', o', os', ⟨t, o1, os1, ⟨t', st, h1, h2⟩, o2, os2, h3, v, h4, h5⟩, h6⟩ := h
  cases h2; cases h5; cases h6
  simp only [upd_same, Option.some.injEq] at hsh
  have hob := step_obj h3
  have hs : g.inL.shape = (({ w.os with st := st } : OSt).st.obj none).inL.shape := by
    rw [← hsh _ _ rfl rfl, hob]
  rw [h1, bind_ok]
  dsimp only
  rw [step_setRoot M eps i e o _ g hs, h3]
  simp only [bind_ok, h4]
  refine ⟨_, rfl, rfl, rfl, ?_, ?_, upd_ne _ _ hpq⟩
  · simp only [upd_same, Option.map_some]
  · simp only [upd_same, Option.map_some, hob]

end

end Verif.Copies
