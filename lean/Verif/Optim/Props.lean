import Verif.Optim.Lemmas
import Verif.Graph.Frame
/-!
# C58: what one step of an optimizer does
-/
namespace Verif.Optim
open Verif Res Graph

noncomputable section

section steps
variable {eps : ℝ} {loss : Ex ℝ} {s s1 : OSt} {sh : Nat → List Nat} {w g μ ν : Nat → List Nat → ℝ}

/-- What a step of sgd does. -/
theorem sgd_step (o : Sgd) (hb : backprop eps loss s = ok s1) (hr : Ready s1 sh w g) (hc : ∀ v, (v, true) ∈ s1.reg → Ctx1 (s1.ctx v) (sh v) (μ v)) :
    ∃ s', Sgd.step eps loss o s = ok ({ o with sch := o.sch.decayed.tick }, s') ∧ Updates s1 s' sh
      (fun v is => if o.nesterov = true then w v is + (o.mom * μ v is - o.sch.rate * g v is)
        else w v is + (o.mom * (o.mom * μ v is - o.sch.rate * g v is) - o.sch.rate * g v is))
      (fun v c => Ctx1 c (sh v) (fun is => o.mom * μ v is - o.sch.rate * g v is)) := by
  obtain ⟨s', h1, h2⟩ := updateAll_updates (rule := sgdRule o.mom o.sch.decayed.lr o.nesterov) (C := fun v c => Ctx1 c (sh v) (fun is => o.mom * μ v is - o.sch.rate * g v is)) hr
    (fun v hv => by
      obtain ⟨d', c', k1, k2, k3⟩ := sgdRule_ok o.mom o.sch.decayed.lr o.nesterov (hr.data v hv) (hr.grad v hv) (hc v hv)
      exact ⟨d', _, c', k1, k2, ⟨_, hr.grad v hv⟩, Or.inr k3⟩)
  refine ⟨s', ?_, h2⟩
  unfold Sgd.step
  rw [hb, bind_ok]
  dsimp only
  rw [h1, bind_ok]
  rfl

/-- C58, sgd without momentum (`mom = 0`), with and without Nesterov's modification.
Full statement (false of the code): the same for every momentum, see `sgd_momentum_violated`. -/
theorem sgd_step_partial (o : Sgd) (hm : o.mom = 0) (hb : backprop eps loss s = ok s1) (hr : Ready s1 sh w g)
    (hc : ∀ v, (v, true) ∈ s1.reg → Ctx1 (s1.ctx v) (sh v) (μ v)) :
    ∃ o' s', Sgd.step eps loss o s = ok (o', s') ∧ Updates s1 s' sh (fun v is => sgdDoc o.mom o.sch.rate o.nesterov (w v is) (μ v is) (g v is))
      (fun v c => Ctx1 c (sh v) (fun is => o.mom * μ v is - o.sch.rate * g v is)) := by
  obtain ⟨s', h1, h2⟩ := sgd_step o hb hr hc
  refine ⟨_, s', h1, fun v hv => ?_, h2.old, h2.reg, h2.rest⟩
  obtain ⟨a1, a2⟩ := h2.new v hv
  refine ⟨a1.congr (fun is _ => ?_), a2⟩
  unfold sgdDoc
  rw [hm]
  split <;> ring

/-- C58 is false of sgd with momentum: the two variants are exchanged.  Whichever is asked for, the new value of an element differs from
the documented one, unless its memory happens not to change in the step. -/
theorem sgd_momentum_violated (o : Sgd) (hm : o.mom ≠ 0) (hb : backprop eps loss s = ok s1) (hr : Ready s1 sh w g)
    (hc : ∀ v, (v, true) ∈ s1.reg → Ctx1 (s1.ctx v) (sh v) (μ v)) (v : Nat) (hv : (v, true) ∈ s1.reg) (is : List Nat) (his : ValidIdx (sh v) is)
    (hne : o.mom * μ v is - o.sch.rate * g v is ≠ μ v is) :
    ∃ o' s', Sgd.step eps loss o s = ok (o', s') ∧ (s'.st.data v).at is = sgdDoc o.mom o.sch.rate (!o.nesterov) (w v is) (μ v is) (g v is) ∧
      (s'.st.data v).at is ≠ sgdDoc o.mom o.sch.rate o.nesterov (w v is) (μ v is) (g v is) := by
  obtain ⟨s', h1, h2⟩ := sgd_step o hb hr hc
  refine ⟨_, s', h1, ?_⟩
  rw [(h2.new v hv).1.at_eq his]
  unfold sgdDoc
  have key : o.mom * μ v is ≠ o.mom * (o.mom * μ v is - o.sch.rate * g v is) := fun h => hne (mul_left_cancel₀ hm h).symm
  cases o.nesterov with
  | true =>
    simp only [Bool.not_true, Bool.false_eq_true, if_false, if_true]
    exact ⟨trivial, fun h => key (by linarith)⟩
  | false =>
    simp only [Bool.not_false, Bool.false_eq_true, if_false, if_true]
    exact ⟨by ring, fun h => key (by linarith)⟩

/-- C58, adagrad. -/
theorem adagrad_step (o : Sched) (hb : backprop eps loss s = ok s1) (hr : Ready s1 sh w g) (hc : ∀ v, (v, true) ∈ s1.reg → Ctx1 (s1.ctx v) (sh v) (μ v)) :
    ∃ s', adagradStep eps loss o s = ok (o.decayed.tick, s') ∧ Updates s1 s' sh (fun v is => adagradDoc eps o.rate (w v is) (μ v is) (g v is))
      (fun v c => Ctx1 c (sh v) (fun is => μ v is + g v is ^ 2)) := by
  obtain ⟨s', h1, h2⟩ := updateAll_updates (rule := adagradRule eps o.decayed.lr) (C := fun v c => Ctx1 c (sh v) (fun is => μ v is + g v is ^ 2)) hr
    (fun v hv => by
      obtain ⟨d', c', k1, k2, k3⟩ := adagradRule_ok eps o.decayed.lr (hr.data v hv) (hr.grad v hv) (hc v hv)
      exact ⟨d', _, c', k1, k2, ⟨_, hr.grad v hv⟩, Or.inr k3⟩)
  refine ⟨s', ?_, h2⟩
  unfold adagradStep
  rw [hb, bind_ok]
  dsimp only
  rw [h1, bind_ok]
  rfl

/-- What a step of rmsprop does. -/
theorem rmsprop_step (o : Rmsprop) (hb : backprop eps loss s = ok s1) (hr : Ready s1 sh w g) (hc : ∀ v, (v, true) ∈ s1.reg → Ctx1 (s1.ctx v) (sh v) (μ v)) :
    ∃ s', Rmsprop.step eps loss o s = ok ({ o with sch := o.sch.decayed.tick }, s') ∧ Updates s1 s' sh
      (fun v is => w v is - o.sch.rate * g v is / (eps + √(if o.sch.iter = 0 then g v is ^ 2 else o.rho * μ v is + (1 - o.rho) * g v is ^ 2)))
      (fun v c => Ctx1 c (sh v) (fun is => if o.sch.iter = 0 then g v is ^ 2 else o.rho * μ v is + (1 - o.rho) * g v is ^ 2)) := by
  obtain ⟨s', h1, h2⟩ := updateAll_updates (rule := rmspropRule eps o.sch.decayed.lr o.rho o.sch.decayed.iter)
    (C := fun v c => Ctx1 c (sh v) (fun is => if o.sch.iter = 0 then g v is ^ 2 else o.rho * μ v is + (1 - o.rho) * g v is ^ 2)) hr
    (fun v hv => by
      obtain ⟨d', c', k1, k2, k3⟩ := rmspropRule_ok eps o.sch.decayed.lr o.rho o.sch.decayed.iter (hr.data v hv) (hr.grad v hv) (hc v hv)
      exact ⟨d', _, c', k1, k2, ⟨_, hr.grad v hv⟩, Or.inr k3⟩)
  refine ⟨s', ?_, h2⟩
  unfold Rmsprop.step
  rw [hb, bind_ok]
  dsimp only
  rw [h1, bind_ok]
  rfl

/-- C58, rmsprop from its second step on.
Full statement (false of the code): the same for the first step, see `rmsprop_first_violated`. -/
theorem rmsprop_step_partial (o : Rmsprop) (hi : o.sch.iter ≠ 0) (hb : backprop eps loss s = ok s1) (hr : Ready s1 sh w g)
    (hc : ∀ v, (v, true) ∈ s1.reg → Ctx1 (s1.ctx v) (sh v) (μ v)) :
    ∃ o' s', Rmsprop.step eps loss o s = ok (o', s') ∧ Updates s1 s' sh (fun v is => rmspropDoc eps o.sch.rate o.rho (w v is) (μ v is) (g v is))
      (fun v c => Ctx1 c (sh v) (fun is => o.rho * μ v is + (1 - o.rho) * g v is ^ 2)) := by
  obtain ⟨s', h1, h2⟩ := rmsprop_step o hb hr hc
  simp only [if_neg hi] at h2
  exact ⟨_, s', h1, h2⟩

/-- C58 is false of the first step of rmsprop: the running average starts at `g²`, not at `(1-rho) g²`, and the step is shorter than
documented, for every element with a gradient. -/
theorem rmsprop_first_violated (o : Rmsprop) (hi : o.sch.iter = 0) (hrho : 0 < o.rho ∧ o.rho ≤ 1) (heps : 0 < eps) (hlr : o.sch.lr ≠ 0)
    (hb : backprop eps loss s = ok s1) (hr : Ready s1 sh w g) (hc : ∀ v, (v, true) ∈ s1.reg → s1.ctx v = []) (v : Nat) (hv : (v, true) ∈ s1.reg)
    (is : List Nat) (his : ValidIdx (sh v) is) (hg : g v is ≠ 0) :
    ∃ o' s', Rmsprop.step eps loss o s = ok (o', s') ∧ (s'.st.data v).at is ≠ rmspropDoc eps o.sch.rate o.rho (w v is) 0 (g v is) ∧
      |(s'.st.data v).at is - w v is| < |rmspropDoc eps o.sch.rate o.rho (w v is) 0 (g v is) - w v is| := by
  obtain ⟨s', h1, h2⟩ := rmsprop_step (μ := fun _ _ => 0) o hb hr (fun v hv => Or.inl ⟨hc v hv, fun _ => rfl⟩)
  have hrate : o.sch.rate = o.sch.lr := by unfold Sched.rate; rw [hi]; simp
  have hval := (h2.new v hv).1.at_eq his
  simp only [if_pos hi, hrate] at hval
  have hlt : |(s'.st.data v).at is - w v is| < |rmspropDoc eps o.sch.rate o.rho (w v is) 0 (g v is) - w v is| := by
    rw [hval, hrate]
    unfold rmspropDoc
    rw [show w v is - o.sch.lr * g v is / (eps + √(g v is ^ 2)) - w v is = -(o.sch.lr * g v is / (eps + √(g v is ^ 2))) by ring,
      show ∀ x, w v is - o.sch.lr * g v is / (eps + √x) - w v is = -(o.sch.lr * g v is / (eps + √x)) from fun x => by ring, abs_neg, abs_neg, abs_div, abs_div]
    have hp : ∀ x, 0 < eps + √x := fun x => add_pos_of_pos_of_nonneg heps (Real.sqrt_nonneg x)
    rw [abs_of_pos (hp _), abs_of_pos (hp _)]
    have h2 : 0 < g v is ^ 2 := by positivity
    refine div_lt_div_of_pos_left (abs_pos.mpr (mul_ne_zero hlr hg)) (hp _) ?_
    refine (add_lt_add_iff_left eps).mpr (Real.sqrt_lt_sqrt ?_ ?_)
    · have := mul_nonneg (sub_nonneg.mpr hrho.2) h2.le; linarith
    · have := mul_pos hrho.1 h2; linarith
  refine ⟨_, s', h1, fun h => ?_, hlt⟩
  rw [h] at hlt
  exact lt_irrefl _ hlt

/-- What a step of adam does. -/
theorem adam_step (o : Adam) (hb : backprop eps loss s = ok s1) (hr : Ready s1 sh w g) (hc : ∀ v, (v, true) ∈ s1.reg → Ctx2 (s1.ctx v) (sh v) (μ v) (ν v)) :
    ∃ s', Adam.step eps loss o s = ok ({ o with iter := o.iter + 1 }, s') ∧ Updates s1 s' sh
      (fun v is => if 1 < o.iter then adamDoc eps o.lr o.b1 o.b2 (o.iter + 1) (w v is) (μ v is) (ν v is) (g v is) else w v is - o.lr * g v is)
      (fun v c => Ctx2 c (sh v) (fun is => o.b1 * μ v is + (1 - o.b1) * g v is) (fun is => o.b2 * ν v is + (1 - o.b2) * g v is ^ 2)) := by
  obtain ⟨s', h1, h2⟩ := updateAll_updates (rule := adamRule eps o.lr o.b1 o.b2 o.iter)
    (C := fun v c => Ctx2 c (sh v) (fun is => o.b1 * μ v is + (1 - o.b1) * g v is) (fun is => o.b2 * ν v is + (1 - o.b2) * g v is ^ 2)) hr
    (fun v hv => by
      obtain ⟨d', c', k1, k2, k3⟩ := adamRule_ok eps o.lr o.b1 o.b2 o.iter (hr.data v hv) (hr.grad v hv) (hc v hv)
      exact ⟨d', _, c', k1, k2, ⟨_, hr.grad v hv⟩, Or.inr k3⟩)
  refine ⟨s', ?_, h2⟩
  unfold Adam.step
  rw [hb, bind_ok, h1, bind_ok]
  rfl

/-- C58, adam from its third step on.
Full statement (false of the code): the same for the first two steps, see `adam_first_violated`. -/
theorem adam_step_partial (o : Adam) (hi : 1 < o.iter) (hb : backprop eps loss s = ok s1) (hr : Ready s1 sh w g)
    (hc : ∀ v, (v, true) ∈ s1.reg → Ctx2 (s1.ctx v) (sh v) (μ v) (ν v)) :
    ∃ o' s', Adam.step eps loss o s = ok (o', s') ∧ Updates s1 s' sh (fun v is => adamDoc eps o.lr o.b1 o.b2 (o.iter + 1) (w v is) (μ v is) (ν v is) (g v is))
      (fun v c => Ctx2 c (sh v) (fun is => o.b1 * μ v is + (1 - o.b1) * g v is) (fun is => o.b2 * ν v is + (1 - o.b2) * g v is ^ 2)) := by
  obtain ⟨s', h1, h2⟩ := adam_step o hb hr hc
  simp only [if_pos hi] at h2
  exact ⟨_, s', h1, h2⟩

/-- C58 is false of the first step of adam: it is a step of plain gradient descent.  The documented step is bounded by the learning
rate; this one is longer for every element whose gradient is at least 1 in absolute value. -/
theorem adam_first_violated (o : Adam) (hi : o.iter = 0) (hb1 : o.b1 ≠ 1) (hb2 : o.b2 < 1) (heps : 0 < eps) (hlr : o.lr ≠ 0)
    (hb : backprop eps loss s = ok s1) (hr : Ready s1 sh w g) (hc : ∀ v, (v, true) ∈ s1.reg → s1.ctx v = []) (v : Nat) (hv : (v, true) ∈ s1.reg)
    (is : List Nat) (his : ValidIdx (sh v) is) (hg : 1 ≤ |g v is|) :
    ∃ o' s', Adam.step eps loss o s = ok (o', s') ∧ (s'.st.data v).at is = w v is - o.lr * g v is ∧
      |adamDoc eps o.lr o.b1 o.b2 1 (w v is) 0 0 (g v is) - w v is| < |(s'.st.data v).at is - w v is| := by
  obtain ⟨s', h1, h2⟩ := adam_step (μ := fun _ _ => 0) (ν := fun _ _ => 0) o hb hr (fun v hv => Or.inl ⟨hc v hv, fun _ => ⟨rfl, rfl⟩⟩)
  have hval := (h2.new v hv).1.at_eq his
  simp only [hi, Nat.not_lt_zero, if_false] at hval
  refine ⟨_, s', h1, hval, ?_⟩
  rw [hval]
  unfold adamDoc
  have hq : 0 < √(1 - o.b2) := Real.sqrt_pos.mpr (by linarith)
  have hs : √(o.b2 * 0 + (1 - o.b2) * g v is ^ 2) = √(1 - o.b2) * |g v is| := by
    rw [mul_zero, zero_add, Real.sqrt_mul (by linarith), Real.sqrt_sq_eq_abs]
  have hb1' : 1 - o.b1 ≠ 0 := sub_ne_zero.mpr (Ne.symm hb1)
  rw [hs, pow_one, pow_one]
  have e1 : w v is - o.lr * √(1 - o.b2) / (1 - o.b1) * (o.b1 * 0 + (1 - o.b1) * g v is) / (eps + √(1 - o.b2) * |g v is|) - w v is
      = -(o.lr * g v is * (√(1 - o.b2) / (eps + √(1 - o.b2) * |g v is|))) := by
    field_simp
    ring
  have e2 : w v is - o.lr * g v is - w v is = -(o.lr * g v is) := by ring
  rw [e1, e2, abs_neg, abs_neg, abs_mul]
  have hg0 : g v is ≠ 0 := by intro h; rw [h] at hg; norm_num at hg
  have hpos : 0 < |o.lr * g v is| := abs_pos.mpr (mul_ne_zero hlr hg0)
  have hden : 0 < eps + √(1 - o.b2) * |g v is| := by positivity
  have hlt : |√(1 - o.b2) / (eps + √(1 - o.b2) * |g v is|)| < 1 := by
    rw [abs_of_pos (div_pos hq hden), div_lt_one hden]
    nlinarith
  nlinarith

/-- C58, gradient_descent: plain gradient descent. -/
theorem gradient_descent_step (o : Gd) (hb : backprop eps loss s = ok s1) (hr : Ready s1 sh w g) :
    ∃ s', Gd.step eps loss o s = ok (o, s') ∧ Updates s1 s' sh (fun v is => sgdDoc 0 o.lr false (w v is) 0 (g v is)) (fun v c => c = s1.ctx v) := by
  obtain ⟨s', h1, h2⟩ := updateAll_updates (rule := gdRule o.lr o.mom) (C := fun v c => c = s1.ctx v) hr
    (fun v hv => by
      obtain ⟨d', k1, k2⟩ := gdRule_ok (c := s1.ctx v) o.lr o.mom (hr.data v hv) (hr.grad v hv)
      exact ⟨d', _, _, k1, k2, ⟨_, hr.grad v hv⟩, rfl⟩)
  refine ⟨s', ?_, fun v hv => ?_, h2.old, h2.reg, h2.rest⟩
  · unfold Gd.step
    rw [hb, bind_ok, h1, bind_ok]
    rfl
  · obtain ⟨a1, a2⟩ := h2.new v hv
    refine ⟨a1.congr (fun is _ => ?_), a2⟩
    unfold sgdDoc
    simp only [Bool.false_eq_true, if_false]
    ring

/-- C58 is false of gradient_descent with momentum: in two steps in a row (with a run between them) an element moves as it would without
momentum, for every momentum the optimizer was given. -/
theorem gradient_descent_momentum_violated (o : Gd) (hm : o.mom ≠ 0) (hlr : o.lr ≠ 0) {loss' : Ex ℝ} {s2 s3 : OSt} {st : St ℝ} {y : Ten ℝ} {g' : Nat → List Nat → ℝ}
    (hb : backprop eps loss s = ok s1) (hr : Ready s1 sh w g) (h1 : Gd.step eps loss o s = ok (o, s2)) (hrun : run loss' s2.st = ok (y, st))
    (hb' : backprop eps loss' { s2 with st := st } = ok s3)
    (hg' : ∀ v, (v, true) ∈ s3.reg → (s3.st.grad v).Has (sh v) (g' v)) (v : Nat) (hv : (v, true) ∈ s1.reg) (is : List Nat) (his : ValidIdx (sh v) is)
    (hg : g v is ≠ 0) :
    ∃ s4, Gd.step eps loss' o { s2 with st := st } = ok (o, s4) ∧
      (s4.st.data v).at is ≠ sgdDoc o.mom o.lr false (sgdDoc o.mom o.lr false (w v is) 0 (g v is)) (o.mom * 0 - o.lr * g v is) (g' v is) := by
  obtain ⟨s2', k1, k2⟩ := gradient_descent_step o hb hr
  rw [h1] at k1
  simp only [ok.injEq, Prod.mk.injEq, true_and] at k1
  subst k1
  have hst : s3.st.data = s2.st.data ∧ s3.reg = s2.reg := by
    unfold backprop at hb'
    rw [bind_eq_ok] at hb'
    obtain ⟨st', e1, e2⟩ := hb'
    cases e2
    exact ⟨(backward_keeps eps loss' _ _ _ _ e1).2.1.trans (run_keeps hrun).2.1, rfl⟩
  have hr' : Ready s3 sh (fun v is => sgdDoc 0 o.lr false (w v is) 0 (g v is)) g' := by
    refine ⟨?_, fun u hu => ?_, hg'⟩
    · rw [hst.2, k2.reg]; exact hr.nodup
    · rw [hst.2, k2.reg] at hu
      rw [hst.1]
      exact (k2.new u hu).1
  obtain ⟨s4, m1, m2⟩ := gradient_descent_step o hb' hr'
  refine ⟨s4, m1, ?_⟩
  have hv3 : (v, true) ∈ s3.reg := by rw [hst.2, k2.reg]; exact hv
  rw [(m2.new v hv3).1.at_eq his]
  unfold sgdDoc
  simp only [Bool.false_eq_true, if_false]
  intro h
  have : o.mom * (o.lr * g v is) = 0 := by linarith
  simp [hm, hlr, hg] at this

/-! ## C60: adadelta -/

/-- What a step of adadelta does: a step of plain gradient descent.  The memory of squared updates is never used: `contexts[0]` serves as
both, the factor is 1.
Full statement of C60 (false of the code, see `adadelta_violated`): the new values are `adadeltaDoc` of the two memories. -/
theorem adadelta_step_partial (o : Adadelta) (heps : 0 < eps) (hrho : 0 ≤ o.rho ∧ o.rho ≤ 1) (hb : backprop eps loss s = ok s1) (hr : Ready s1 sh w g)
    (hc : ∀ v, (v, true) ∈ s1.reg → Ctx2 (s1.ctx v) (sh v) (μ v) (ν v)) (hμ : ∀ v is, 0 ≤ μ v is) :
    ∃ (s' : OSt) (μ' : Nat → List Nat → ℝ), Adadelta.step eps loss o s = ok ({ o with iter := o.iter + 1 }, s') ∧ (∀ v is, 0 ≤ μ' v is) ∧
      Updates s1 s' sh (fun v is => w v is - o.lr * g v is) (fun v c => Ctx2 c (sh v) (μ' v) (ν v)) := by
  obtain ⟨s', h1, h2⟩ := updateAll_updates (rule := adadeltaRule eps o.lr o.rho)
    (C := fun v c => Ctx2 c (sh v) (fun is => o.rho * (o.rho * μ v is + (1 - o.rho) * g v is ^ 2) + (1 - o.rho) * (o.lr * g v is) ^ 2) (ν v)) hr
    (fun v hv => by
      obtain ⟨d', g', c', k1, k2, k3, k4⟩ := adadeltaRule_ok eps o.lr o.rho heps hrho (fun is _ => hμ v is) (hr.data v hv) (hr.grad v hv) (hc v hv)
      exact ⟨d', g', c', k1, k2, ⟨_, k3⟩, Or.inr k4⟩)
  refine ⟨s', _, ?_, fun v is => ?_, h2⟩
  · unfold Adadelta.step
    rw [hb, bind_ok, h1, bind_ok]
    rfl
  · have a := sub_nonneg.mpr hrho.2
    have b := hμ v is
    have c := hrho.1
    positivity

/-- C60 is false: the first step of adadelta is not the documented one, for any element with a gradient - it is longer. -/
theorem adadelta_violated (o : Adadelta) (heps : 0 < eps) (hrho : 0 ≤ o.rho ∧ o.rho < 1) (hlr : o.lr ≠ 0) (hb : backprop eps loss s = ok s1) (hr : Ready s1 sh w g)
    (hc : ∀ v, (v, true) ∈ s1.reg → s1.ctx v = []) (v : Nat) (hv : (v, true) ∈ s1.reg) (is : List Nat) (his : ValidIdx (sh v) is) (hg : g v is ≠ 0) :
    ∃ o' s', Adadelta.step eps loss o s = ok (o', s') ∧ |adadeltaDoc eps o.lr o.rho (w v is) 0 0 (g v is) - w v is| < |(s'.st.data v).at is - w v is| := by
  obtain ⟨s', _, h1, _, h2⟩ := adadelta_step_partial (μ := fun _ _ => 0) (ν := fun _ _ => 0) o heps ⟨hrho.1, hrho.2.le⟩ hb hr
    (fun v hv => Or.inl ⟨hc v hv, fun _ => ⟨rfl, rfl⟩⟩) (fun _ _ => le_refl 0)
  refine ⟨_, s', h1, ?_⟩
  rw [(h2.new v hv).1.at_eq his]
  unfold adadeltaDoc
  rw [mul_zero, zero_add, zero_add]
  have hp : 0 < (1 - o.rho) * g v is ^ 2 := mul_pos (by linarith) (by positivity)
  have hs : √(eps / ((1 - o.rho) * g v is ^ 2 + eps)) < 1 := by
    rw [Real.sqrt_lt' one_pos, one_pow, div_lt_one (by linarith)]
    linarith
  have e1 : w v is - o.lr * √(eps / ((1 - o.rho) * g v is ^ 2 + eps)) * g v is - w v is = -(o.lr * g v is * √(eps / ((1 - o.rho) * g v is ^ 2 + eps))) := by ring
  have e2 : w v is - o.lr * g v is - w v is = -(o.lr * g v is) := by ring
  rw [e1, e2, abs_neg, abs_neg, abs_mul, abs_of_nonneg (Real.sqrt_nonneg _)]
  have hpos : 0 < |o.lr * g v is| := abs_pos.mpr (mul_ne_zero hlr hg)
  nlinarith

end steps
end
end Verif.Optim
