import Verif.Optim.Props
import Mathlib.Analysis.Calculus.Deriv.Slope
/-!
# C59 (decay), C61 (freezing), C84 (changing the optimizer), C85 (variables the loss does not mention), C86 (descent)
-/
namespace Verif.Optim
open Verif Res Graph Ops

noncomputable section

/-! ## A small program, for examples: the loss is the sum of the elements of variable 0 -/

/-- `sum_reduce( v )`. -/
def sumLoss (c : Cfg ℝ) : Ex ℝ := .un 1 opSum (.var 0 c)

/-- A run of `sumLoss` and its backward pass: the gradient of the variable is 1 everywhere. -/
theorem sumLoss_backprop (eps : ℝ) (heps : 0 < eps) (s : OSt) (htr : s.st.training = true) {sh : List Nat} {w γ : List Nat → ℝ} (hsz : size sh ≠ 0)
    (hw : (s.st.data 0).Has sh w) (hg : (s.st.grad 0).Has sh γ) :
    ∃ y st s1, run (sumLoss ⟨0, 0, true⟩) s.st = ok (y, st) ∧ backprop eps (sumLoss ⟨0, 0, true⟩) { s with st := st } = ok s1 ∧ s1.reg = s.reg ∧ s1.ctx = s.ctx ∧
      (s1.st.data 0).Has sh w ∧ (s1.st.grad 0).Has sh (fun _ => 1) := by
  obtain ⟨e1, u, e2, e3⟩ := sum_reduce_adjoint (s.st.data 0) ones1 sh w 1 hw hsz rfl
  have hz : (⟨(s.st.grad 0).shape, (s.st.grad 0).data.map (fun _ => 0)⟩ : Ten ℝ).Has sh (fun _ => 0) := resetT_has hg
  obtain ⟨g', e4, e5⟩ := addGrad_ok hz hw.1 e3
  have hrun : ∃ st, run (sumLoss ⟨0, 0, true⟩) s.st = ok (⟨[1], [sumIdx sh w]⟩, st) ∧ st.data = s.st.data ∧ (st.obj none).inL = s.st.data 0 ∧
      st.grad 0 = ⟨(s.st.grad 0).shape, (s.st.grad 0).data.map (fun _ => 0)⟩ ∧ st.sync (some (1, false)) = false := by
    unfold run sumLoss
    simp only [forward, query, Option.getD_none, noTensor, if_true, varForward, htr, bind_ok, upd_same]
    rw [show opSum.fwd (s.st.data 0) = _ from e1, bind_ok]
    exact ⟨_, rfl, rfl, by simp only [upd_same], by simp only [upd_same], by simp only [upd_same]⟩
  obtain ⟨st, r1, r2, r3, r4, r5⟩ := hrun
  refine ⟨_, st, { s with st := { st with grad := upd st.grad 0 g', sync := upd st.sync (some (1, false)) true } }, r1, ?_, rfl, rfl, ?_, ?_⟩
  · unfold backprop sumLoss
    simp only [backward, opSum, r3, e2, bind_ok, varBackward, Bool.true_eq_false, if_false, r4, r2, e4, r5, if_true, regularise, if_neg (not_le.mpr heps)]
    rfl
  · simp only [r2]; exact hw
  · simp only [upd_same]
    exact e5.congr (fun is _ => by simp)

/-- A program with the one variable 0, of 2 elements, known to the session and without a memory. -/
def start (a b : ℝ) : OSt :=
  createVar 0 ⟨[2], [a, b]⟩ true
    ⟨⟨fun _ => noTensor, fun _ => noTensor, fun _ => noTensor, fun _ => true, fun _ => ⟨noTensor, noTensor, noTensor⟩, fun _ => none, true, []⟩, fun _ => [], []⟩

theorem start_has (a b : ℝ) : ((start a b).st.data 0).Has [2] (fun is => [a, b].getD (is.getD 0 0) 0) ∧ ((start a b).st.grad 0).Has [2] (fun _ => 0) := by
  constructor
  · refine ⟨rfl, rfl, fun is hv => ?_⟩
    match is, hv with
    | [0], _ => rfl
    | [1], _ => rfl
  · exact zerosLike_has (t := ⟨[2], [a, b]⟩) (x := fun is => [a, b].getD (is.getD 0 0) 0) ⟨rfl, rfl, fun is hv => by
      match is, hv with
      | [0], _ => rfl
      | [1], _ => rfl⟩

/-- The state before an optimizer looks at the variables, for every loss rate and every element: a program that meets the hypotheses of
the theorems about steps (`sgd_step_partial`, `sgd_momentum_violated`, `adagrad_step`, `rmsprop_step_partial`, `rmsprop_first_violated`, `adam_step_partial`,
`adam_first_violated`, `gradient_descent_step`, `adadelta_step_partial`, `adadelta_violated`). -/
theorem start_ready (eps : ℝ) (heps : 0 < eps) (a b : ℝ) : ∃ s s1, backprop eps (sumLoss ⟨0, 0, true⟩) s = ok s1 ∧ s1.reg = [(0, true)] ∧ (∀ v, s1.ctx v = []) ∧
    Ready s1 (fun _ => [2]) (fun _ is => [a, b].getD (is.getD 0 0) 0) (fun _ _ => 1) := by
  obtain ⟨h1, h2⟩ := start_has a b
  obtain ⟨y, st, s1, k1, k2, k3, k4, k5, k6⟩ := sumLoss_backprop eps heps (start a b) rfl (by decide) h1 h2
  have hreg : s1.reg = [(0, true)] := by rw [k3]; rfl
  refine ⟨_, s1, k2, hreg, fun v => ?_, ?_, ?_, ?_⟩
  · rw [k4]
    unfold start createVar
    simp only
    by_cases hv : v = 0
    · rw [hv, upd_same]
    · rw [upd_ne _ _ hv]
  · rw [hreg]; decide
  · intro v hv
    rw [hreg, List.mem_singleton, Prod.mk.injEq] at hv
    rw [hv.1]; exact k5
  · intro v hv
    rw [hreg, List.mem_singleton, Prod.mk.injEq] at hv
    rw [hv.1]; exact k6

/-- sgd with momentum 9/10 and learning rate 1/10, not the Nesterov variant: the first step moves by 19/100 where 1/10 is documented. -/
example : ∃ s o' s', Sgd.step 1 (sumLoss ⟨0, 0, true⟩) ⟨⟨1/10, 0, 0⟩, 9/10, false⟩ s = ok (o', s') ∧ (s'.st.data 0).at [0] = 5 - 19/100 := by
  obtain ⟨s, s1, h1, h2, h3, h4⟩ := start_ready 1 one_pos 5 7
  obtain ⟨s', k1, k2⟩ := sgd_step (μ := fun _ _ => 0) ⟨⟨1/10, 0, 0⟩, 9/10, false⟩ h1 h4 (fun v _ => Or.inl ⟨h3 v, fun _ => rfl⟩)
  refine ⟨s, _, s', k1, ?_⟩
  rw [(k2.new 0 (by rw [h2]; simp)).1.at_eq (show ValidIdx [2] [0] by simp [ValidIdx])]
  simp only [Sched.rate]
  norm_num

example : ∃ s o' s', Sgd.step 1 (sumLoss ⟨0, 0, true⟩) ⟨⟨1/10, 0, 0⟩, 9/10, true⟩ s = ok (o', s') ∧
    (s'.st.data 0).at [1] ≠ sgdDoc (9/10) (1/10) true 7 0 1 := by
  obtain ⟨s, s1, h1, h2, h3, h4⟩ := start_ready 1 one_pos 5 7
  obtain ⟨o', s', k1, _, k2⟩ := sgd_momentum_violated (μ := fun _ _ => 0) ⟨⟨1/10, 0, 0⟩, 9/10, true⟩ (by norm_num) h1 h4 (fun v _ => Or.inl ⟨h3 v, fun _ => rfl⟩)
    0 (by rw [h2]; simp) [1] (by simp [ValidIdx]) (by simp only [Sched.rate]; norm_num)
  refine ⟨s, o', s', k1, ?_⟩
  simpa [Sched.rate] using k2

example : ∃ s o' s', Rmsprop.step 1 (sumLoss ⟨0, 0, true⟩) ⟨⟨1/10, 0, 0⟩, 9/10⟩ s = ok (o', s') ∧
    (s'.st.data 0).at [1] ≠ rmspropDoc 1 (1/10) (9/10) 7 0 1 := by
  obtain ⟨s, s1, h1, h2, h3, h4⟩ := start_ready 1 one_pos 5 7
  obtain ⟨o', s', k1, k2, _⟩ := rmsprop_first_violated ⟨⟨1/10, 0, 0⟩, 9/10⟩ rfl (by norm_num) one_pos (by norm_num) h1 h4 (fun v _ => h3 v)
    0 (by rw [h2]; simp) [1] (by simp [ValidIdx]) one_ne_zero
  refine ⟨s, o', s', k1, ?_⟩
  simpa [Sched.rate] using k2

example : ∃ s o' s', Adam.step 1 (sumLoss ⟨0, 0, true⟩) ⟨1/10, 9/10, 99/100, 0⟩ s = ok (o', s') ∧ (s'.st.data 0).at [1] = 7 - 1/10 := by
  obtain ⟨s, s1, h1, h2, h3, h4⟩ := start_ready 1 one_pos 5 7
  obtain ⟨o', s', k1, k2, _⟩ := adam_first_violated ⟨1/10, 9/10, 99/100, 0⟩ rfl (by norm_num) (by norm_num) one_pos (by norm_num) h1 h4 (fun v _ => h3 v)
    0 (by rw [h2]; simp) [1] (by simp [ValidIdx]) (by simp)
  refine ⟨s, o', s', k1, ?_⟩
  simpa using k2

example : ∃ s o' s', Adadelta.step 1 (sumLoss ⟨0, 0, true⟩) ⟨1, 9/10, 0⟩ s = ok (o', s') ∧ |adadeltaDoc 1 1 (9/10) 7 0 0 1 - 7| < |(s'.st.data 0).at [1] - 7| := by
  obtain ⟨s, s1, h1, h2, h3, h4⟩ := start_ready 1 one_pos 5 7
  obtain ⟨o', s', k1, k2⟩ := adadelta_violated ⟨1, 9/10, 0⟩ one_pos (by norm_num) (by norm_num) h1 h4 (fun v _ => h3 v)
    0 (by rw [h2]; simp) [1] (by simp [ValidIdx]) one_ne_zero
  exact ⟨s, o', s', k1, k2⟩

example : ∃ s s', Gd.step 1 (sumLoss ⟨0, 0, true⟩) ⟨1/10, 9/10⟩ s = ok (⟨1/10, 9/10⟩, s') ∧ (s'.st.data 0).at [1] = 7 - 1/10 := by
  obtain ⟨s, s1, h1, h2, h3, h4⟩ := start_ready 1 one_pos 5 7
  obtain ⟨s', k1, k2⟩ := gradient_descent_step ⟨1/10, 9/10⟩ h1 h4
  refine ⟨s, s', k1, ?_⟩
  rw [(k2.new 0 (by rw [h2]; simp)).1.at_eq (show ValidIdx [2] [1] by simp [ValidIdx])]
  simp [sgdDoc]; norm_num

/-- Two steps of gradient_descent with momentum 9/10. -/
example : ∃ s s2 st s4 y, Gd.step 1 (sumLoss ⟨0, 0, true⟩) ⟨1/10, 9/10⟩ s = ok (⟨1/10, 9/10⟩, s2) ∧ run (sumLoss ⟨0, 0, true⟩) s2.st = ok (y, st) ∧
    Gd.step 1 (sumLoss ⟨0, 0, true⟩) ⟨1/10, 9/10⟩ { s2 with st := st } = ok (⟨1/10, 9/10⟩, s4) ∧
    (s4.st.data 0).at [1] ≠ sgdDoc (9/10) (1/10) false (sgdDoc (9/10) (1/10) false 7 0 1) (9/10 * 0 - 1/10 * 1) 1 := by
  obtain ⟨h1, h2⟩ := start_has 5 7
  obtain ⟨y, st, s1, k1, k2, k3, k4, k5, k6⟩ := sumLoss_backprop 1 one_pos (start 5 7) rfl (by decide) h1 h2
  have hreg : s1.reg = [(0, true)] := by rw [k3]; rfl
  have hr : Ready s1 (fun _ => [2]) (fun _ is => [5, 7].getD (is.getD 0 0) 0) (fun _ _ => 1) := by
    refine ⟨by rw [hreg]; decide, fun v hv => ?_, fun v hv => ?_⟩ <;> rw [hreg, List.mem_singleton, Prod.mk.injEq] at hv <;> rw [hv.1]
    · exact k5
    · exact k6
  obtain ⟨s2, m1, m2⟩ := gradient_descent_step ⟨1/10, 9/10⟩ k2 hr
  obtain ⟨n1, n2, _⟩ := m2.new 0 (by rw [hreg]; simp)
  have htr : s2.st.training = true := by
    rw [m2.rest]
    unfold backprop at k2
    rw [bind_eq_ok] at k2
    obtain ⟨st', e1, e2⟩ := k2
    cases e2
    exact (backward_keeps 1 _ _ _ _ _ e1).2.2.1.trans (run_keeps k1).2.2.1
  obtain ⟨y', st', s3, p1, p2, p3, _, _, p6⟩ := sumLoss_backprop 1 one_pos s2 htr (by decide) n1 n2
  obtain ⟨s4, q1, q2⟩ := gradient_descent_momentum_violated (g' := fun _ _ => 1) ⟨1/10, 9/10⟩ (by norm_num) (by norm_num) k2 hr m1 p1 p2 (fun v hv => by
    rw [p3, m2.reg, hreg, List.mem_singleton, Prod.mk.injEq] at hv
    rw [hv.1]; exact p6) 0 (by rw [hreg]; simp) [1] (by simp [ValidIdx]) one_ne_zero
  exact ⟨_, s2, st', s4, y', m1, p1, q1, by simpa using q2⟩

/-! ## C59: decay of the learning rate -/

section decay
variable {O : Type} {step : O → OSt → Res (O × OSt)} {sch : O → Sched}

/-- The learning rate in step `t` (from 0): the divisions by `1 + decay i` of the steps before it remain. -/
theorem rate_history (hstep : ∀ o s o' s', step o s = ok (o', s') → sch o' = (sch o).decayed.tick) {o : O} (h0 : (sch o).iter = 0) {t : Nat} {o' : O}
    (h : Hist step o t o') : (sch o').iter = t ∧ (sch o').decay = (sch o).decay ∧
      (sch o').rate = (sch o).lr / ∏ i ∈ Finset.range (t + 1), (1 + (sch o).decay * i) := by
  have key : ∀ {t : Nat} {o' : O}, Hist step o t o' → (sch o').iter = t ∧ (sch o').decay = (sch o).decay ∧
      (sch o').lr = (sch o).lr / ∏ i ∈ Finset.range t, (1 + (sch o).decay * i) := by
    intro t o' h
    induction h with
    | zero => exact ⟨h0, rfl, by simp⟩
    | succ _ hs ih =>
      obtain ⟨i1, i2, i3⟩ := ih
      rw [hstep _ _ _ _ hs]
      refine ⟨by simp [Sched.tick, Sched.decayed, i1], by simp [Sched.tick, Sched.decayed, i2], ?_⟩
      simp only [Sched.tick, Sched.decayed, i1, i2, i3]
      rw [Finset.prod_range_succ, div_div]
  obtain ⟨k1, k2, k3⟩ := key h
  refine ⟨k1, k2, ?_⟩
  unfold Sched.rate
  rw [k1, k2, k3, Finset.prod_range_succ, div_div]

/-- C59 for the first two steps, and for optimizers without decay. -/
theorem decay_partial (hstep : ∀ o s o' s', step o s = ok (o', s') → sch o' = (sch o).decayed.tick) {o : O} (h0 : (sch o).iter = 0) {t : Nat} {o' : O}
    (h : Hist step o t o') (hd : (sch o).decay = 0 ∨ t ≤ 1) : (sch o').rate = (sch o).lr / (1 + (sch o).decay * t) := by
  rw [(rate_history hstep h0 h).2.2]
  rcases hd with hd | hd
  · simp [hd]
  · interval_cases t <;> simp [Finset.prod_range_succ]

/-- C59 is false from the third step on: the learning rate has then been divided by the earlier factors too. -/
theorem decay_violated (hstep : ∀ o s o' s', step o s = ok (o', s') → sch o' = (sch o).decayed.tick) {o : O} (h0 : (sch o).iter = 0) {t : Nat} {o' : O}
    (h : Hist step o t o') (hd : 0 < (sch o).decay) (ht : 2 ≤ t) (hlr : 0 < (sch o).lr) : (sch o').rate < (sch o).lr / (1 + (sch o).decay * t) := by
  rw [(rate_history hstep h0 h).2.2]
  have hpos : ∀ i : Nat, 1 ≤ 1 + (sch o).decay * (i : ℝ) := fun i => by have := mul_nonneg hd.le (Nat.cast_nonneg (α := ℝ) i); linarith
  have hlt : 1 < ∏ i ∈ Finset.range t, (1 + (sch o).decay * (i : ℝ)) := by
    obtain ⟨k, rfl⟩ : ∃ k, t = k + 2 := ⟨t - 2, by omega⟩
    rw [Finset.prod_range_succ]
    have h1 : 1 ≤ ∏ i ∈ Finset.range (k + 1), (1 + (sch o).decay * (i : ℝ)) := by
      refine Finset.prod_induction _ (fun x => (1 : ℝ) ≤ x) (fun a b ha hb => by nlinarith) le_rfl (fun i _ => hpos i)
    have h2 : 1 < 1 + (sch o).decay * ((k + 1 : Nat) : ℝ) := by
      have : (0 : ℝ) < ((k + 1 : Nat) : ℝ) := by exact_mod_cast Nat.succ_pos k
      have := mul_pos hd this
      linarith
    nlinarith
  rw [Finset.prod_range_succ]
  have h3 : (0 : ℝ) < 1 + (sch o).decay * t := lt_of_lt_of_le one_pos (hpos t)
  refine div_lt_div_of_pos_left hlr h3 ?_
  nlinarith

end decay

theorem sgd_sched {eps : ℝ} {loss : Ex ℝ} (o : Sgd) (s : OSt) (o' : Sgd) (s' : OSt) (h : Sgd.step eps loss o s = ok (o', s')) : o'.sch = o.sch.decayed.tick := by
  unfold Sgd.step at h
  simp only [bind_eq_ok, pure_eq] at h
  obtain ⟨_, _, _, _, h⟩ := h
  cases h; rfl

theorem adagrad_sched {eps : ℝ} {loss : Ex ℝ} (o : Sched) (s : OSt) (o' : Sched) (s' : OSt) (h : adagradStep eps loss o s = ok (o', s')) : o' = o.decayed.tick := by
  unfold adagradStep at h
  simp only [bind_eq_ok, pure_eq] at h
  obtain ⟨_, _, _, _, h⟩ := h
  cases h; rfl

theorem rmsprop_sched {eps : ℝ} {loss : Ex ℝ} (o : Rmsprop) (s : OSt) (o' : Rmsprop) (s' : OSt) (h : Rmsprop.step eps loss o s = ok (o', s')) :
    o'.sch = o.sch.decayed.tick := by
  unfold Rmsprop.step at h
  simp only [bind_eq_ok, pure_eq] at h
  obtain ⟨_, _, _, _, h⟩ := h
  cases h; rfl

/-- C59 for the first two steps of a new optimizer, and for optimizers without decay.
Full statement (false of the code, see `learning_rate_decay_violated`): the same for every `t`. -/
theorem learning_rate_decay_partial (eps : ℝ) (loss : Ex ℝ) (t : Nat) :
    (∀ o o' : Sgd, o.sch.iter = 0 → Hist (Sgd.step eps loss) o t o' → (o.sch.decay = 0 ∨ t ≤ 1) → o'.sch.rate = o.sch.lr / (1 + o.sch.decay * t)) ∧
    (∀ o o' : Sched, o.iter = 0 → Hist (adagradStep eps loss) o t o' → (o.decay = 0 ∨ t ≤ 1) → o'.rate = o.lr / (1 + o.decay * t)) ∧
    (∀ o o' : Rmsprop, o.sch.iter = 0 → Hist (Rmsprop.step eps loss) o t o' → (o.sch.decay = 0 ∨ t ≤ 1) → o'.sch.rate = o.sch.lr / (1 + o.sch.decay * t)) :=
  ⟨fun _ _ h0 h hd => decay_partial (sch := Sgd.sch) sgd_sched h0 h hd, fun _ _ h0 h hd => decay_partial (sch := fun o => o) adagrad_sched h0 h hd,
    fun _ _ h0 h hd => decay_partial (sch := Rmsprop.sch) rmsprop_sched h0 h hd⟩

/-- C59 is false of all three optimizers, in every step from the third on. -/
theorem learning_rate_decay_violated (eps : ℝ) (loss : Ex ℝ) (t : Nat) (ht : 2 ≤ t) :
    (∀ o o' : Sgd, o.sch.iter = 0 → Hist (Sgd.step eps loss) o t o' → 0 < o.sch.decay → 0 < o.sch.lr → o'.sch.rate < o.sch.lr / (1 + o.sch.decay * t)) ∧
    (∀ o o' : Sched, o.iter = 0 → Hist (adagradStep eps loss) o t o' → 0 < o.decay → 0 < o.lr → o'.rate < o.lr / (1 + o.decay * t)) ∧
    (∀ o o' : Rmsprop, o.sch.iter = 0 → Hist (Rmsprop.step eps loss) o t o' → 0 < o.sch.decay → 0 < o.sch.lr → o'.sch.rate < o.sch.lr / (1 + o.sch.decay * t)) :=
  ⟨fun _ _ h0 h hd hl => decay_violated (sch := Sgd.sch) sgd_sched h0 h hd ht hl, fun _ _ h0 h hd hl => decay_violated (sch := fun o => o) adagrad_sched h0 h hd ht hl,
    fun _ _ h0 h hd hl => decay_violated (sch := Rmsprop.sch) rmsprop_sched h0 h hd ht hl⟩

/-- Histories of every length exist: sgd of batch size 4 on the small program. -/
example (t : Nat) : ∃ o o', Sgd.mk' 4 1 0 (1/10) false = ok o ∧ o.sch.iter = 0 ∧ 0 < o.sch.decay ∧ 0 < o.sch.lr ∧ Hist (Sgd.step 1 (sumLoss ⟨0, 0, true⟩)) o t o' := by
  refine ⟨⟨⟨1 / (4 : Nat), max 0 (1/10), 0⟩, max 0 0, false⟩, ?_⟩
  have : ∃ o', Hist (Sgd.step 1 (sumLoss ⟨0, 0, true⟩)) ⟨⟨1 / (4 : Nat), max 0 (1/10), 0⟩, max 0 0, false⟩ t o' := by
    induction t with
    | zero => exact ⟨_, .zero _⟩
    | succ t ih =>
      obtain ⟨o', h⟩ := ih
      obtain ⟨s, s1, h1, _, h3, h4⟩ := start_ready 1 one_pos 5 7
      obtain ⟨s', k1, _⟩ := sgd_step (μ := fun _ _ => 0) o' h1 h4 (fun v _ => Or.inl ⟨h3 v, fun _ => rfl⟩)
      exact ⟨_, .succ h k1⟩
  obtain ⟨o', h⟩ := this
  exact ⟨o', by simp [Sgd.mk', Sched.mk', assert_true, bind_ok, pure_eq], rfl, by norm_num, by norm_num, h⟩

end
end Verif.Optim
