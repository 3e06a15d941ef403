import Verif.Optim.Train
/-!
# C61 (freezing a variable), C84 (changing the optimizer), C85 (variables the loss does not mention)
-/
namespace Verif.Optim
open Verif Res Graph Ops

noncomputable section

/-! ## C61 -/

/-- What a program does between two moments: runs, backward passes, steps of any optimizer, binding place holders, changing the learning
phase, creating variables (with a new identity) and calling `trainable( bool )` on handles. -/
inductive Prog (eps : ℝ) : Handles → Handles → Prop
  | refl (h : Handles) : Prog eps h h
  | run {h h' : Handles} {e : Ex ℝ} {y : Ten ℝ} {st : St ℝ} : Prog eps h h' → Graph.run e h'.s.st = ok (y, st) → Prog eps h { h' with s := { h'.s with st := st } }
  | backward {h h' : Handles} {e : Ex ℝ} {g : Ten ℝ} {st : St ℝ} : Prog eps h h' → Graph.backward eps e none g h'.s.st = ok st →
      Prog eps h { h' with s := { h'.s with st := st } }
  | sgd {h h' : Handles} {e : Ex ℝ} {o o' : Sgd} {s : OSt} : Prog eps h h' → Sgd.step eps e o h'.s = ok (o', s) → Prog eps h { h' with s := s }
  | adagrad {h h' : Handles} {e : Ex ℝ} {o o' : Sched} {s : OSt} : Prog eps h h' → adagradStep eps e o h'.s = ok (o', s) → Prog eps h { h' with s := s }
  | rmsprop {h h' : Handles} {e : Ex ℝ} {o o' : Rmsprop} {s : OSt} : Prog eps h h' → Rmsprop.step eps e o h'.s = ok (o', s) → Prog eps h { h' with s := s }
  | adadelta {h h' : Handles} {e : Ex ℝ} {o o' : Adadelta} {s : OSt} : Prog eps h h' → Adadelta.step eps e o h'.s = ok (o', s) → Prog eps h { h' with s := s }
  | adam {h h' : Handles} {e : Ex ℝ} {o o' : Adam} {s : OSt} : Prog eps h h' → Adam.step eps e o h'.s = ok (o', s) → Prog eps h { h' with s := s }
  | gd {h h' : Handles} {e : Ex ℝ} {o o' : Gd} {s : OSt} : Prog eps h h' → Gd.step eps e o h'.s = ok (o', s) → Prog eps h { h' with s := s }
  | bind {h h' : Handles} (k : Nat) (t : Ten ℝ) : Prog eps h h' → Prog eps h { h' with s := { h'.s with st := { h'.s.st with leaf := upd h'.s.st.leaf k t } } }
  | phase {h h' : Handles} (b : Bool) : Prog eps h h' → Prog eps h { h' with s := { h'.s with st := { h'.s.st with training := b } } }
  | create {h h' : Handles} (u : Nat) (d : Ten ℝ) (b : Bool) : Prog eps h h' → u ∉ h'.s.reg.map (·.1) → Prog eps h ⟨upd h'.flag u b, createVar u d b h'.s⟩
  | trainable {h h' : Handles} (u : Nat) (b : Bool) : Prog eps h h' → Prog eps h (setTrainable u b h')

theorem updateAll_frame {rule : Rule} {v : Nat} : ∀ (l : List (Nat × Bool)) (s s' : OSt), l.foldlM (updateVar rule) s = ok s' → (v, true) ∉ l →
    s'.reg = s.reg ∧ s'.st.data v = s.st.data v := by
  intro l
  induction l with
  | nil => intro s s' h _; cases h; exact ⟨rfl, rfl⟩
  | cons p l ih =>
    intro s s' h hv
    rw [List.foldlM_cons, bind_eq_ok] at h
    obtain ⟨s2, h1, h2⟩ := h
    obtain ⟨i1, i2⟩ := ih s2 s' h2 (fun h => hv (List.mem_cons_of_mem _ h))
    rw [i1, i2]
    obtain ⟨u, b⟩ := p
    unfold updateVar at h1
    split at h1
    · rename_i hb
      dsimp only at hb
      subst hb
      rw [bind_eq_ok] at h1
      obtain ⟨⟨d, g, c⟩, _, h3⟩ := h1
      cases h3
      exact ⟨rfl, upd_ne _ _ (by rintro rfl; exact hv List.mem_cons_self)⟩
    · cases h1; exact ⟨rfl, rfl⟩

/-- Any optimizer: back-propagation, then the loop over the variables. -/
theorem step_frame {eps : ℝ} {e : Ex ℝ} {rule : Rule} {v : Nat} {s s1 s' : OSt} (h1 : backprop eps e s = ok s1) (h2 : updateAll rule s1 = ok s') (hv : (v, true) ∉ s.reg) :
    s'.reg = s.reg ∧ s'.st.data v = s.st.data v := by
  unfold backprop at h1
  rw [bind_eq_ok] at h1
  obtain ⟨st, e1, e2⟩ := h1
  cases e2
  obtain ⟨i1, i2⟩ := updateAll_frame _ _ _ h2 hv
  rw [i1, i2]
  exact ⟨rfl, by dsimp only; rw [(backward_keeps eps e _ _ _ _ e1).2.1]⟩

/-- C61 for variables created with `trainable = false`: whatever the program does, the variable keeps its value.
Full statement (false of the code, see `frozen_handle_violated`): the same for a variable whose handle was told `trainable( false )`. -/
theorem frozen_variable_partial (eps : ℝ) (v : Nat) {h h' : Handles} (hp : Prog eps h h') (hk : v ∈ h.s.reg.map (·.1)) (hv : (v, true) ∉ h.s.reg) :
    h'.s.st.data v = h.s.st.data v := by
  suffices H : (v ∈ h'.s.reg.map (·.1) ∧ (v, true) ∉ h'.s.reg) ∧ h'.s.st.data v = h.s.st.data v from H.2
  have upd' : ∀ {h'' : Handles} {s' : OSt}, ((v ∈ h''.s.reg.map (·.1) ∧ (v, true) ∉ h''.s.reg) ∧ h''.s.st.data v = h.s.st.data v) →
      (∃ (e : Ex ℝ) (rule : Rule) (s1 : OSt), backprop eps e h''.s = ok s1 ∧ updateAll rule s1 = ok s') →
      (v ∈ s'.reg.map (·.1) ∧ (v, true) ∉ s'.reg) ∧ s'.st.data v = h.s.st.data v := by
    rintro h'' s' ih ⟨e, rule, s1, e1, e2⟩
    obtain ⟨i1, i2⟩ := step_frame e1 e2 ih.1.2
    rw [i1, i2]; exact ih
  induction hp with
  | refl => exact ⟨⟨hk, hv⟩, rfl⟩
  | run _ hr ih => exact ⟨ih.1, by dsimp only; rw [(run_keeps hr).2.1]; exact ih.2⟩
  | backward _ hr ih => exact ⟨ih.1, by dsimp only; rw [(backward_keeps eps _ _ _ _ _ hr).2.1]; exact ih.2⟩
  | sgd _ hr ih =>
    refine upd' ih ?_
    simp only [Sgd.step, bind_eq_ok, pure_eq] at hr
    obtain ⟨s1, e1, s2, e2, e3⟩ := hr
    cases e3; exact ⟨_, _, s1, e1, e2⟩
  | adagrad _ hr ih =>
    refine upd' ih ?_
    simp only [adagradStep, bind_eq_ok, pure_eq] at hr
    obtain ⟨s1, e1, s2, e2, e3⟩ := hr
    cases e3; exact ⟨_, _, s1, e1, e2⟩
  | rmsprop _ hr ih =>
    refine upd' ih ?_
    simp only [Rmsprop.step, bind_eq_ok, pure_eq] at hr
    obtain ⟨s1, e1, s2, e2, e3⟩ := hr
    cases e3; exact ⟨_, _, s1, e1, e2⟩
  | adadelta _ hr ih =>
    refine upd' ih ?_
    simp only [Adadelta.step, bind_eq_ok, pure_eq] at hr
    obtain ⟨s1, e1, s2, e2, e3⟩ := hr
    cases e3; exact ⟨_, _, s1, e1, e2⟩
  | adam _ hr ih =>
    refine upd' ih ?_
    simp only [Adam.step, bind_eq_ok, pure_eq] at hr
    obtain ⟨s1, e1, s2, e2, e3⟩ := hr
    cases e3; exact ⟨_, _, s1, e1, e2⟩
  | gd _ hr ih =>
    refine upd' ih ?_
    simp only [Gd.step, bind_eq_ok, pure_eq] at hr
    obtain ⟨s1, e1, s2, e2, e3⟩ := hr
    cases e3; exact ⟨_, _, s1, e1, e2⟩
  | bind k t _ ih => exact ih
  | phase b _ ih => exact ih
  | create u d b _ hu ih =>
    obtain ⟨⟨ih1, ih2⟩, ih3⟩ := ih
    have huv : v ≠ u := by rintro rfl; exact hu ih1
    unfold createVar
    dsimp only
    rw [if_neg hu, upd_ne _ _ huv]
    refine ⟨⟨by rw [List.map_append, List.mem_append]; exact Or.inl ih1, fun h => ?_⟩, ih3⟩
    rcases List.mem_append.mp h with h | h
    · exact ih2 h
    · rw [List.mem_singleton, Prod.mk.injEq] at h
      exact huv h.1
  | trainable u b _ ih => exact ih

/-- C61 is false: take any trainable variable, use it in a loss, and tell its handle `trainable( false )`.  A run and a step of sgd
move it all the same, as the session keeps a copy of the variable with a flag of its own. -/
theorem frozen_handle_violated (eps lr : ℝ) (heps : 0 < eps) (h : Handles) (htr : h.s.st.training = true) (hf : h.flag 0 = true) (hreg : h.s.reg = [(0, true)])
    {sh : List Nat} {w γ : List Nat → ℝ} (hsz : size sh ≠ 0) (hw : (h.s.st.data 0).Has sh w) (hg : (h.s.st.grad 0).Has sh γ) (hc : h.s.ctx 0 = []) :
    ∃ (y : Ten ℝ) (st : St ℝ) (o' : Sgd) (s' : OSt), run (.un 1 opSum (h.use 0 0 0)) (setTrainable 0 false h).s.st = ok (y, st) ∧
      Sgd.step eps (.un 1 opSum (h.use 0 0 0)) ⟨⟨lr, 0, 0⟩, 0, false⟩ { (setTrainable 0 false h).s with st := st } = ok (o', s') ∧
      (setTrainable 0 false h).flag 0 = false ∧ (s'.st.data 0).Has sh (fun is => w is - lr) := by
  obtain ⟨y, st, s1, k1, k2, k3, k4, k5, k6⟩ := sumLoss_backprop eps heps h.s htr hsz hw hg
  have he : (.un 1 opSum (h.use 0 0 0) : Ex ℝ) = sumLoss ⟨0, 0, true⟩ := by unfold Handles.use sumLoss; rw [hf]
  rw [he]
  have hr : Ready s1 (fun _ => sh) (fun _ => w) (fun _ _ => 1) := by
    refine ⟨by rw [k3, hreg]; decide, fun v hv => ?_, fun v hv => ?_⟩ <;> rw [k3, hreg, List.mem_singleton, Prod.mk.injEq] at hv <;> rw [hv.1]
    · exact k5
    · exact k6
  obtain ⟨s', m1, m2⟩ := sgd_step (μ := fun _ _ => 0) ⟨⟨lr, 0, 0⟩, 0, false⟩ k2 hr (fun v hv => by
    rw [k3, hreg, List.mem_singleton, Prod.mk.injEq] at hv
    rw [hv.1, k4]; exact Or.inl ⟨hc, fun _ => rfl⟩)
  refine ⟨y, st, _, s', k1, m1, rfl, (m2.new 0 (by rw [k3, hreg]; simp)).1.congr (fun is _ => ?_)⟩
  simp [Sched.rate]
  ring

/-- The two-element variable of the small program. -/
example : ∃ (y : Ten ℝ) (st : St ℝ) (o' : Sgd) (s' : OSt), run (.un 1 opSum ((⟨fun _ => true, start 5 7⟩ : Handles).use 0 0 0)) (setTrainable 0 false ⟨fun _ => true, start 5 7⟩).s.st = ok (y, st) ∧
    Sgd.step 1 (.un 1 opSum ((⟨fun _ => true, start 5 7⟩ : Handles).use 0 0 0)) ⟨⟨1, 0, 0⟩, 0, false⟩ { (setTrainable 0 false ⟨fun _ => true, start 5 7⟩).s with st := st } = ok (o', s') ∧
    (s'.st.data 0).at [1] = 6 := by
  obtain ⟨y, st, o', s', k1, k2, _, k4⟩ := frozen_handle_violated 1 1 one_pos ⟨fun _ => true, start 5 7⟩ rfl rfl rfl (by decide) (start_has 5 7).1 (start_has 5 7).2 rfl
  refine ⟨y, st, o', s', k1, k2, ?_⟩
  rw [k4.at_eq (by simp [ValidIdx])]
  norm_num

/-- A variable created with `trainable = false` is known to the session and stays at its value. -/
example (eps : ℝ) (h' : Handles) (hp : Prog eps ⟨fun _ => false, createVar 3 ⟨[1], [8]⟩ false (start 5 7)⟩ h') : h'.s.st.data 3 = ⟨[1], [8]⟩ :=
  frozen_variable_partial eps 3 hp (by decide) (by decide)

/-! ## C84: changing the optimizer -/

/-- What a step of adam does when variables have one memory: it reads a second one that is not there. -/
theorem updateAll_adam_ub (eps lr b1 b2 : ℝ) (iter : Nat) : ∀ (l : List (Nat × Bool)) (s : OSt), (∃ v, (v, true) ∈ l) →
    (∀ v, (v, true) ∈ l → ∃ m, s.ctx v = [m]) →
    l.foldlM (updateVar (adamRule eps lr b1 b2 iter)) s = ub := by
  intro l
  induction l with
  | nil => rintro s ⟨v, hv⟩; simp at hv
  | cons p l ih =>
    rintro s ⟨v, hv⟩ h
    obtain ⟨u, b⟩ := p
    rw [List.foldlM_cons]
    cases b with
    | false =>
      have : updateVar (adamRule eps lr b1 b2 iter) s (u, false) = ok s := rfl
      rw [this, bind_ok]
      refine ih s ⟨v, ?_⟩ (fun v hv => h v (List.mem_cons_of_mem _ hv))
      rcases List.mem_cons.mp hv with e | e
      · cases e
      · exact e
    | true =>
      obtain ⟨m, h3⟩ := h u List.mem_cons_self
      have : updateVar (adamRule eps lr b1 b2 iter) s (u, true) = ub := by
        unfold updateVar adamRule
        rw [if_pos rfl]
        simp only [h3, rd_cons_zero, bind_ok, List.cons_ne_nil, if_false]
        rw [rd_ub (by simp)]
        rfl
      rw [this]
      rfl

/-- C84 is false: after a step of sgd from the start, a step of adam (with any loss, after any run) is undefined behaviour, as variables
have one context and adam uses the second. -/
theorem adam_after_sgd_violated (eps : ℝ) {loss loss' : Ex ℝ} {s s1 s2 s3 : OSt} {st : St ℝ} {sh : Nat → List Nat} {w g : Nat → List Nat → ℝ} (o o1 : Sgd) (o' : Adam)
    (hb : backprop eps loss s = ok s1) (hr : Ready s1 sh w g) (hc : ∀ v, (v, true) ∈ s1.reg → s1.ctx v = []) (hne : ∃ v, (v, true) ∈ s1.reg)
    (h1 : Sgd.step eps loss o s = ok (o1, s2)) (hb' : backprop eps loss' { s2 with st := st } = ok s3) :
    Adam.step eps loss' o' { s2 with st := st } = ub := by
  -- what the step of sgd leaves
  obtain ⟨s', k1, k2, k3, k4, _⟩ := updateAll_updates (rule := sgdRule o.mom o.sch.decayed.lr o.nesterov) (sh := sh)
    (w' := fun v is => if o.nesterov = true then w v is + (o.mom * 0 - o.sch.rate * g v is) else w v is + (o.mom * (o.mom * 0 - o.sch.rate * g v is) - o.sch.rate * g v is))
    (C := fun v c => ∃ m, c = [m] ∧ m.Has (sh v) (fun is => o.mom * 0 - o.sch.rate * g v is)) hr (fun v hv => by
      obtain ⟨d', c', k1, k2, k3⟩ := sgdRule_ok (μ := fun _ => 0) o.mom o.sch.decayed.lr o.nesterov (hr.data v hv) (hr.grad v hv) (Or.inl ⟨hc v hv, fun _ => rfl⟩)
      refine ⟨d', _, c', k1, k2, ⟨_, hr.grad v hv⟩, ?_⟩
      obtain ⟨m, rest, rfl, hm⟩ := k3
      have hlen : rest = [] := by
        unfold sgdRule at k1
        simp only [hc v hv, if_true, rd_cons_zero, bind_ok, bind_eq_ok] at k1
        obtain ⟨m', _, c2, e2, e3⟩ := k1
        rw [wr_cons_zero] at e2
        cases e2
        split at e3
        · rw [bind_eq_ok] at e3
          obtain ⟨_, _, e4⟩ := e3
          cases e4; rfl
        · simp only [bind_eq_ok] at e3
          obtain ⟨_, _, _, _, e4⟩ := e3
          cases e4; rfl
      subst hlen
      exact ⟨m, rfl, hm⟩)
  have hs2 : s' = s2 := by
    unfold Sgd.step at h1
    rw [hb, bind_ok] at h1
    dsimp only at h1
    rw [k1, bind_ok] at h1
    cases h1; rfl
  subst hs2
  have hst : s3.reg = s'.reg ∧ s3.ctx = s'.ctx := by
    unfold backprop at hb'
    rw [bind_eq_ok] at hb'
    obtain ⟨st', e1, e2⟩ := hb'
    cases e2
    exact ⟨rfl, rfl⟩
  unfold Adam.step
  rw [hb', bind_ok]
  have : updateAll (adamRule eps o'.lr o'.b1 o'.b2 o'.iter) s3 = ub := by
    refine updateAll_adam_ub eps _ _ _ _ s3.reg s3 (by rw [hst.1, k4]; exact hne) (fun v hv => ?_)
    have hv1 : (v, true) ∈ s1.reg := by rw [hst.1, k4] at hv; exact hv
    obtain ⟨_, _, m, a3, _⟩ := k2 v hv1
    rw [hst.2]
    exact ⟨m, a3⟩
  rw [this]
  rfl

/-- C84 for optimizers that keep at most as many contexts as the variables have: after a step of adam, a step of sgd succeeds (starting from
adam's first memory).  Full statement (false of the code, see `adam_after_sgd_violated`): any optimizer after any other. -/
theorem sgd_after_adam_partial (eps : ℝ) {loss loss' : Ex ℝ} {s s1 s2 s3 : OSt} {st : St ℝ} {y : Ten ℝ} {sh : Nat → List Nat} {w g g' μ ν : Nat → List Nat → ℝ} (o o1 : Adam) (o' : Sgd)
    (hb : backprop eps loss s = ok s1) (hr : Ready s1 sh w g) (hc : ∀ v, (v, true) ∈ s1.reg → Ctx2 (s1.ctx v) (sh v) (μ v) (ν v))
    (h1 : Adam.step eps loss o s = ok (o1, s2)) (hrun : run loss' s2.st = ok (y, st)) (hb' : backprop eps loss' { s2 with st := st } = ok s3)
    (hg : ∀ v, (v, true) ∈ s3.reg → (s3.st.grad v).Has (sh v) (g' v)) :
    ∃ (o2 : Sgd) (s4 : OSt) (w' : Nat → List Nat → ℝ) (C : Nat → List (Ten ℝ) → Prop), Sgd.step eps loss' o' { s2 with st := st } = ok (o2, s4) ∧ Updates s3 s4 sh w' C := by
  obtain ⟨s', k1, k2⟩ := adam_step o hb hr hc
  rw [h1] at k1
  simp only [ok.injEq, Prod.mk.injEq] at k1
  obtain ⟨-, rfl⟩ := k1
  have hst : s3.st.data = s2.st.data ∧ s3.reg = s2.reg ∧ s3.ctx = s2.ctx := by
    unfold backprop at hb'
    rw [bind_eq_ok] at hb'
    obtain ⟨st', e1, e2⟩ := hb'
    cases e2
    exact ⟨(backward_keeps eps loss' _ _ _ _ e1).2.1.trans (run_keeps hrun).2.1, rfl, rfl⟩
  have hr' : Ready s3 sh (fun v is => if 1 < o.iter then adamDoc eps o.lr o.b1 o.b2 (o.iter + 1) (w v is) (μ v is) (ν v is) (g v is) else w v is - o.lr * g v is) g' := by
    refine ⟨by rw [hst.2.1, k2.reg]; exact hr.nodup, fun u hu => ?_, hg⟩
    rw [hst.2.1, k2.reg] at hu
    rw [hst.1]
    exact (k2.new u hu).1
  obtain ⟨s4, m1, m2⟩ := sgd_step (μ := fun v is => o.b1 * μ v is + (1 - o.b1) * g v is) o' hb' hr' (fun u hu => by
    rw [hst.2.1, k2.reg] at hu
    rw [hst.2.2]
    rcases (k2.new u hu).2.2 with ⟨e, hz⟩ | ⟨m, n, rest, e, hm, _⟩
    · exact Or.inl ⟨e, fun is => (hz is).1⟩
    · exact Or.inr ⟨m, n :: rest, e, hm⟩)
  exact ⟨_, s4, _, _, m1, m2⟩

/-- sgd, then adam, on the small program. -/
example (o' : Adam) : ∃ s o s2 y st, Sgd.step 1 (sumLoss ⟨0, 0, true⟩) ⟨⟨1/10, 0, 0⟩, 0, false⟩ s = ok (o, s2) ∧ run (sumLoss ⟨0, 0, true⟩) s2.st = ok (y, st) ∧
    Adam.step 1 (sumLoss ⟨0, 0, true⟩) o' { s2 with st := st } = ub := by
  obtain ⟨h1, h2⟩ := start_has 5 7
  obtain ⟨y, st, s1, k1, k2, k3, k4, k5, k6⟩ := sumLoss_backprop 1 one_pos (start 5 7) rfl (by decide) h1 h2
  have hreg : s1.reg = [(0, true)] := by rw [k3]; rfl
  have hctx : ∀ v, (v, true) ∈ s1.reg → s1.ctx v = [] := by
    intro v hv
    rw [hreg, List.mem_singleton, Prod.mk.injEq] at hv
    rw [hv.1, k4]; rfl
  have hr : Ready s1 (fun _ => [2]) (fun _ is => [5, 7].getD (is.getD 0 0) 0) (fun _ _ => 1) := by
    refine ⟨by rw [hreg]; decide, fun v hv => ?_, fun v hv => ?_⟩ <;> rw [hreg, List.mem_singleton, Prod.mk.injEq] at hv <;> rw [hv.1]
    · exact k5
    · exact k6
  obtain ⟨s2, m1, m2⟩ := sgd_step (μ := fun _ _ => 0) ⟨⟨1/10, 0, 0⟩, 0, false⟩ k2 hr (fun v hv => Or.inl ⟨hctx v hv, fun _ => rfl⟩)
  obtain ⟨n1, n2, _⟩ := m2.new 0 (by rw [hreg]; simp)
  have htr : s2.st.training = true := by
    rw [m2.rest]
    unfold backprop at k2
    rw [bind_eq_ok] at k2
    obtain ⟨st', e1, e2⟩ := k2
    cases e2
    exact (backward_keeps 1 _ _ _ _ _ e1).2.2.1.trans (run_keeps k1).2.2.1
  obtain ⟨y', st', s3, p1, p2, p3, _, _, p6⟩ := sumLoss_backprop 1 one_pos s2 htr (by decide) n1 n2
  refine ⟨_, _, s2, y', st', m1, p1, adam_after_sgd_violated 1 _ _ o' k2 hr hctx ⟨0, by rw [hreg]; simp⟩ m1 p2⟩

/-- adam, then sgd. -/
example (o' : Sgd) : ∃ s o s2 y st o2 s4, Adam.step 1 (sumLoss ⟨0, 0, true⟩) ⟨1/10, 9/10, 99/100, 0⟩ s = ok (o, s2) ∧ run (sumLoss ⟨0, 0, true⟩) s2.st = ok (y, st) ∧
    Sgd.step 1 (sumLoss ⟨0, 0, true⟩) o' { s2 with st := st } = ok (o2, s4) := by
  obtain ⟨h1, h2⟩ := start_has 5 7
  obtain ⟨y, st, s1, k1, k2, k3, k4, k5, k6⟩ := sumLoss_backprop 1 one_pos (start 5 7) rfl (by decide) h1 h2
  have hreg : s1.reg = [(0, true)] := by rw [k3]; rfl
  have hctx : ∀ v, (v, true) ∈ s1.reg → Ctx2 (s1.ctx v) [2] (fun _ => 0) (fun _ => 0) := by
    intro v hv
    rw [hreg, List.mem_singleton, Prod.mk.injEq] at hv
    rw [hv.1, k4]; exact Or.inl ⟨rfl, fun _ => ⟨rfl, rfl⟩⟩
  have hr : Ready s1 (fun _ => [2]) (fun _ is => [5, 7].getD (is.getD 0 0) 0) (fun _ _ => 1) := by
    refine ⟨by rw [hreg]; decide, fun v hv => ?_, fun v hv => ?_⟩ <;> rw [hreg, List.mem_singleton, Prod.mk.injEq] at hv <;> rw [hv.1]
    · exact k5
    · exact k6
  obtain ⟨s2, m1, m2⟩ := adam_step (μ := fun _ _ => 0) (ν := fun _ _ => 0) ⟨1/10, 9/10, 99/100, 0⟩ k2 hr hctx
  obtain ⟨n1, n2, _⟩ := m2.new 0 (by rw [hreg]; simp)
  have htr : s2.st.training = true := by
    rw [m2.rest]
    unfold backprop at k2
    rw [bind_eq_ok] at k2
    obtain ⟨st', e1, e2⟩ := k2
    cases e2
    exact (backward_keeps 1 _ _ _ _ _ e1).2.2.1.trans (run_keeps k1).2.2.1
  obtain ⟨y', st', s3, p1, p2, p3, _, _, p6⟩ := sumLoss_backprop 1 one_pos s2 htr (by decide) n1 n2
  obtain ⟨o2, s4, _, _, q1, _⟩ := sgd_after_adam_partial (g' := fun _ _ => 1) 1 _ _ o' k2 hr hctx m1 p1 p2 (fun v hv => by
    rw [p3, m2.reg, hreg, List.mem_singleton, Prod.mk.injEq] at hv
    rw [hv.1]; exact p6)
  exact ⟨_, _, s2, y', st', o2, s4, m1, p1, q1⟩

/-! ## C85: variables the loss does not mention -/

section unmentioned
variable {eps : ℝ} {loss : Ex ℝ} {s s1 : OSt} {st : St ℝ} {y : Ten ℝ} {sh : Nat → List Nat} {w g μ ν : Nat → List Nat → ℝ}

/-- Run and backward pass leave the gradient of such a variable at zero, and its value. -/
theorem unmentioned_grad (hrun : run loss s.st = ok (y, st)) (hb : backprop eps loss { s with st := st } = ok s1) {v : Nat} (hv : v ∉ vars loss) :
    s1.st.grad v = s.st.grad v ∧ s1.st.data v = s.st.data v ∧ s1.reg = s.reg ∧ s1.ctx = s.ctx := by
  unfold backprop at hb
  rw [bind_eq_ok] at hb
  obtain ⟨st', e1, e2⟩ := hb
  cases e2
  obtain ⟨_, b2, _, _, b5⟩ := backward_keeps eps loss _ _ _ _ e1
  obtain ⟨_, r2, _, r4⟩ := run_keeps hrun
  refine ⟨(b5 v hv).trans ?_, by dsimp only; rw [b2]; exact congrFun r2 v, rfl, rfl⟩
  rcases r4 v with h | ⟨h, _⟩
  · exact h
  · exact absurd h hv

/-- A variable with gradient zero, after back-propagation: the optimizers without memory keep it. -/
theorem zero_gradient_kept (hb : backprop eps loss { s with st := st } = ok s1) (hr : Ready s1 sh w g)
    (hc : ∀ v, (v, true) ∈ s1.reg → Ctx1 (s1.ctx v) (sh v) (μ v)) (v : Nat) (u2 : s1.st.data v = s.st.data v) (hz : ∀ x ∈ (s1.st.grad v).data, x = 0) :
    (∀ o : Sgd, o.mom = 0 → ∃ o' s', Sgd.step eps loss o { s with st := st } = ok (o', s') ∧ s'.st.data v = s.st.data v) ∧
    (∀ o : Sched, ∃ o' s', adagradStep eps loss o { s with st := st } = ok (o', s') ∧ s'.st.data v = s.st.data v) ∧
    (∀ o : Rmsprop, ∃ o' s', Rmsprop.step eps loss o { s with st := st } = ok (o', s') ∧ s'.st.data v = s.st.data v) ∧
    (∀ o : Gd, ∃ o' s', Gd.step eps loss o { s with st := st } = ok (o', s') ∧ s'.st.data v = s.st.data v) := by
  have fin : ∀ {s' : OSt} {w' : Nat → List Nat → ℝ} {C}, Updates s1 s' sh w' C → (∀ is, g v is = 0 → w' v is = w v is) → s'.st.data v = s.st.data v := by
    intro s' w' C hu hw
    by_cases hreg : (v, true) ∈ s1.reg
    · rw [← u2]
      refine Ten.Has.ext (hu.new v hreg).1 ((hr.data v hreg).congr (fun is his => ?_))
      refine (hw is ?_).symm
      rw [← (hr.grad v hreg).at_eq his]
      unfold Ten.at
      rw [List.getD_eq_getElem?_getD]
      cases hx : (s1.st.grad v).data[flat (s1.st.grad v).shape is]? with
      | none => rfl
      | some x => exact hz x (List.mem_of_getElem? hx)
    · rw [(hu.old v hreg).1, u2]
  refine ⟨fun o hm => ?_, fun o => ?_, fun o => ?_, fun o => ?_⟩
  · obtain ⟨s', k1, k2⟩ := sgd_step o hb hr hc
    exact ⟨_, s', k1, fin k2 (fun is h0 => by rw [h0, hm]; simp)⟩
  · obtain ⟨s', k1, k2⟩ := adagrad_step o hb hr hc
    exact ⟨_, s', k1, fin k2 (fun is h0 => by rw [h0]; simp [adagradDoc])⟩
  · obtain ⟨s', k1, k2⟩ := rmsprop_step o hb hr hc
    exact ⟨_, s', k1, fin k2 (fun is h0 => by rw [h0]; simp)⟩
  · obtain ⟨s', k1, k2⟩ := gradient_descent_step o hb hr
    exact ⟨_, s', k1, fin k2 (fun is h0 => by rw [h0]; simp [sgdDoc])⟩

/-- A variable with gradient zero, after back-propagation: sgd with momentum and adam move it all the same. -/
theorem zero_gradient_moves (hb : backprop eps loss { s with st := st } = ok s1) (hr : Ready s1 sh w g)
    (v : Nat) (hreg : (v, true) ∈ s1.reg) (u2 : s1.st.data v = s.st.data v) (hz : ∀ x ∈ (s1.st.grad v).data, x = 0) (is : List Nat) (his : ValidIdx (sh v) is) (hμ : μ v is ≠ 0) :
    ((∀ u, (u, true) ∈ s1.reg → Ctx1 (s1.ctx u) (sh u) (μ u)) →
      ∀ o : Sgd, 0 < o.mom → ∃ o' s', Sgd.step eps loss o { s with st := st } = ok (o', s') ∧ (s'.st.data v).at is ≠ (s.st.data v).at is) ∧
    ((∀ u, (u, true) ∈ s1.reg → Ctx2 (s1.ctx u) (sh u) (μ u) (ν u)) → 0 < eps →
      ∀ o : Adam, 1 < o.iter → 0 < o.b1 → o.b1 < 1 → 0 ≤ o.b2 → o.b2 < 1 → o.lr ≠ 0 →
        ∃ o' s', Adam.step eps loss o { s with st := st } = ok (o', s') ∧ (s'.st.data v).at is ≠ (s.st.data v).at is) := by
  have h0 : g v is = 0 := by
    rw [← (hr.grad v hreg).at_eq his]
    unfold Ten.at
    rw [List.getD_eq_getElem?_getD]
    cases hx : (s1.st.grad v).data[flat (s1.st.grad v).shape is]? with
    | none => rfl
    | some x => exact hz x (List.mem_of_getElem? hx)
  have hw : (s.st.data v).at is = w v is := by rw [← u2]; exact (hr.data v hreg).at_eq his
  constructor
  · intro hc o hm
    obtain ⟨s', k1, k2⟩ := sgd_step o hb hr hc
    refine ⟨_, s', k1, ?_⟩
    rw [(k2.new v hreg).1.at_eq his, hw, h0]
    have h1 : o.mom * μ v is ≠ 0 := mul_ne_zero hm.ne' hμ
    have h2 : o.mom * (o.mom * μ v is) ≠ 0 := mul_ne_zero hm.ne' h1
    split
    · simpa using h1
    · simpa using h2
  · intro hc heps o hi hb1 hb1' hb2 hb2' hlr
    obtain ⟨s', k1, k2⟩ := adam_step o hb hr hc
    refine ⟨_, s', k1, ?_⟩
    rw [(k2.new v hreg).1.at_eq his, hw, h0]
    simp only [if_pos hi, adamDoc]
    have h1 : o.lr * √(1 - o.b2 ^ (o.iter + 1)) / (1 - o.b1 ^ (o.iter + 1)) * (o.b1 * μ v is + (1 - o.b1) * 0) / (eps + √(o.b2 * ν v is + (1 - o.b2) * 0 ^ 2)) ≠ 0 := by
      have a1 : 0 < 1 - o.b2 ^ (o.iter + 1) := sub_pos.mpr (pow_lt_one₀ hb2 hb2' (by omega))
      have a2 : 0 < 1 - o.b1 ^ (o.iter + 1) := sub_pos.mpr (pow_lt_one₀ hb1.le hb1' (by omega))
      have a3 : 0 < eps + √(o.b2 * ν v is + (1 - o.b2) * 0 ^ 2) := add_pos_of_pos_of_nonneg heps (Real.sqrt_nonneg _)
      rw [mul_zero, add_zero]
      exact div_ne_zero (mul_ne_zero (div_ne_zero (mul_ne_zero hlr (Real.sqrt_pos.mpr a1).ne') a2.ne') (mul_ne_zero hb1.ne' hμ)) a3.ne'
    intro h
    exact h1 (by linarith)

/-- C85 for sgd without momentum, adagrad, rmsprop and gradient_descent: a run of a loss and a step keep every variable the loss does not
mention (its gradient being zero before, as every step leaves it).
Full statement (false of the code, see `unmentioned_moves_violated`): the same for every optimizer. -/
theorem unmentioned_kept_partial (hrun : run loss s.st = ok (y, st)) (hb : backprop eps loss { s with st := st } = ok s1) (hr : Ready s1 sh w g)
    (hc : ∀ v, (v, true) ∈ s1.reg → Ctx1 (s1.ctx v) (sh v) (μ v)) (v : Nat) (hv : v ∉ vars loss) (hz : ∀ x ∈ (s.st.grad v).data, x = 0) :
    (∀ o : Sgd, o.mom = 0 → ∃ o' s', Sgd.step eps loss o { s with st := st } = ok (o', s') ∧ s'.st.data v = s.st.data v) ∧
    (∀ o : Sched, ∃ o' s', adagradStep eps loss o { s with st := st } = ok (o', s') ∧ s'.st.data v = s.st.data v) ∧
    (∀ o : Rmsprop, ∃ o' s', Rmsprop.step eps loss o { s with st := st } = ok (o', s') ∧ s'.st.data v = s.st.data v) ∧
    (∀ o : Gd, ∃ o' s', Gd.step eps loss o { s with st := st } = ok (o', s') ∧ s'.st.data v = s.st.data v) := by
  obtain ⟨u1, u2, _, _⟩ := unmentioned_grad hrun hb hv
  exact zero_gradient_kept hb hr hc v u2 (by rw [u1]; exact hz)

/-- C85 is false of sgd with momentum and of adam: a variable the loss does not mention moves on with the memory of earlier steps. -/
theorem unmentioned_moves_violated (hrun : run loss s.st = ok (y, st)) (hb : backprop eps loss { s with st := st } = ok s1) (hr : Ready s1 sh w g)
    (v : Nat) (hreg : (v, true) ∈ s1.reg) (hv : v ∉ vars loss) (hz : ∀ x ∈ (s.st.grad v).data, x = 0) (is : List Nat) (his : ValidIdx (sh v) is) (hμ : μ v is ≠ 0) :
    ((∀ u, (u, true) ∈ s1.reg → Ctx1 (s1.ctx u) (sh u) (μ u)) →
      ∀ o : Sgd, 0 < o.mom → ∃ o' s', Sgd.step eps loss o { s with st := st } = ok (o', s') ∧ (s'.st.data v).at is ≠ (s.st.data v).at is) ∧
    ((∀ u, (u, true) ∈ s1.reg → Ctx2 (s1.ctx u) (sh u) (μ u) (ν u)) → 0 < eps →
      ∀ o : Adam, 1 < o.iter → 0 < o.b1 → o.b1 < 1 → 0 ≤ o.b2 → o.b2 < 1 → o.lr ≠ 0 →
        ∃ o' s', Adam.step eps loss o { s with st := st } = ok (o', s') ∧ (s'.st.data v).at is ≠ (s.st.data v).at is) := by
  obtain ⟨u1, u2, _, _⟩ := unmentioned_grad hrun hb hv
  exact zero_gradient_moves hb hr v hreg u2 (by rw [u1]; exact hz) is his hμ

end unmentioned

/-- The small program with a second variable, 5, with a memory of 3 from earlier steps; the loss does not mention it. -/
def two : OSt := { createVar 5 ⟨[1], [8]⟩ true (start 5 7) with ctx := upd (fun _ => []) 5 [⟨[1], [3]⟩] }

theorem two_ready : ∃ y st s1, run (sumLoss ⟨0, 0, true⟩) two.st = ok (y, st) ∧ backprop 1 (sumLoss ⟨0, 0, true⟩) { two with st := st } = ok s1 ∧ s1.reg = [(0, true), (5, true)] ∧
    Ready s1 (fun v => if v = 0 then [2] else [1]) (fun v is => if v = 0 then [5, 7].getD (is.getD 0 0) 0 else 8) (fun v _ => if v = 0 then 1 else 0) ∧
    ∀ v, (v, true) ∈ s1.reg → Ctx1 (s1.ctx v) (if v = 0 then [2] else [1]) (fun _ => if v = 0 then 0 else 3) := by
  obtain ⟨h1, h2⟩ := start_has 5 7
  obtain ⟨y, st, s1, k1, k2, k3, k4, k5, k6⟩ := sumLoss_backprop 1 one_pos two rfl (by decide) h1 h2
  have hreg : s1.reg = [(0, true), (5, true)] := by rw [k3]; rfl
  obtain ⟨u1, u2, _, _⟩ := unmentioned_grad k1 k2 (v := 5) (by simp [sumLoss, vars])
  have hone : ∀ x : ℝ, (⟨[1], [x]⟩ : Ten ℝ).Has [1] (fun _ => x) := fun x => ⟨rfl, rfl, fun is hv => by
    match is, hv with
    | [0], _ => rfl⟩
  refine ⟨y, st, s1, k1, k2, hreg, ⟨by rw [hreg]; decide, fun v hv => ?_, fun v hv => ?_⟩, fun v hv => ?_⟩ <;>
    rw [hreg] at hv <;> simp only [List.mem_cons, Prod.mk.injEq, and_true, List.not_mem_nil, or_false] at hv <;> rcases hv with rfl | rfl
  · exact k5
  · rw [u2]; exact hone 8
  · exact k6
  · rw [u1]; exact hone 0
  · rw [k4]; exact Or.inl ⟨rfl, fun _ => rfl⟩
  · rw [k4]; exact Or.inr ⟨_, [], rfl, hone 3⟩

/-- Without momentum variable 5 stays; with momentum it moves. -/
example : ∃ y st, run (sumLoss ⟨0, 0, true⟩) two.st = ok (y, st) ∧
    (∃ o' s', Sgd.step 1 (sumLoss ⟨0, 0, true⟩) ⟨⟨1, 0, 0⟩, 0, false⟩ { two with st := st } = ok (o', s') ∧ s'.st.data 5 = ⟨[1], [8]⟩) ∧
    ∃ o' s', Sgd.step 1 (sumLoss ⟨0, 0, true⟩) ⟨⟨1, 0, 0⟩, 1/2, false⟩ { two with st := st } = ok (o', s') ∧ (s'.st.data 5).at [0] ≠ 8 := by
  obtain ⟨y, st, s1, k1, k2, k3, k4, k5⟩ := two_ready
  have hz : ∀ x ∈ (two.st.grad 5).data, x = 0 := by
    intro x hx
    have : (two.st.grad 5).data = [0] := rfl
    rw [this] at hx
    simpa using hx
  refine ⟨y, st, k1, ?_, ?_⟩
  · obtain ⟨o', s', m1, m2⟩ := (unmentioned_kept_partial (μ := fun v _ => if v = 0 then 0 else 3) k1 k2 k4 k5 5 (by simp [sumLoss, vars]) hz).1 ⟨⟨1, 0, 0⟩, 0, false⟩ rfl
    exact ⟨o', s', m1, m2⟩
  · obtain ⟨o', s', m1, m2⟩ := (unmentioned_moves_violated (μ := fun v _ => if v = 0 then 0 else 3) (ν := fun _ _ => 0) k1 k2 k4 5 (by rw [k3]; simp) (by simp [sumLoss, vars]) hz [0]
      (by simp [ValidIdx]) (by simp)).1 k5 ⟨⟨1, 0, 0⟩, 1/2, false⟩ (by norm_num)
    exact ⟨o', s', m1, m2⟩

end
end Verif.Optim
