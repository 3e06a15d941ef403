import Verif.Optim.Train
/-!
# C89: the first step of a new optimizer

The learning rate given to the constructor is divided by the batch size, so that a step on a loss summed over the batch is a step
on the mean; a negative momentum counts as none; a batch of no samples is refused.
-/
namespace Verif.Optim
open Verif Res Graph

noncomputable section

variable {eps : ℝ} {loss : Ex ℝ} {s s1 : OSt} {sh : Nat → List Nat} {w g : Nat → List Nat → ℝ}

/-- C89: a constructed sgd whose momentum is not positive takes the step `w - (lr/batch) g` first, with and without Nesterov. -/
theorem sgd_first_step (batch : Nat) (lr mom decay : ℝ) (nes : Bool) (hB : 1 ≤ batch) (hm : mom ≤ 0) (hb : backprop eps loss s = ok s1) (hr : Ready s1 sh w g)
    (hc : ∀ v, (v, true) ∈ s1.reg → s1.ctx v = []) :
    ∃ o o' s', Sgd.mk' batch lr mom decay nes = ok o ∧ Sgd.step eps loss o s = ok (o', s') ∧
      ∀ v, (v, true) ∈ s1.reg → (s'.st.data v).Has (sh v) (fun is => w v is - lr / batch * g v is) := by
  obtain ⟨s', k1, k2⟩ := sgd_step (μ := fun _ _ => 0) ⟨⟨lr / batch, max 0 decay, 0⟩, max 0 mom, nes⟩ hb hr (fun v hv => Or.inl ⟨hc v hv, fun _ => rfl⟩)
  refine ⟨_, _, s', by simp [Sgd.mk', Sched.mk', assert_true hB, bind_ok, pure_eq], k1, fun v hv => (k2.new v hv).1.congr (fun is _ => ?_)⟩
  simp only [Sched.rate, max_eq_left hm]
  split <;> simp <;> ring

/-- C89: with momentum `m ≥ 0` the first step is longer by the factor `1 + m` when Nesterov was *not* asked for (see C58), and
`w - (lr/batch) g` when it was. -/
theorem sgd_first_step_momentum (batch : Nat) (lr mom decay : ℝ) (nes : Bool) (hB : 1 ≤ batch) (hm : 0 ≤ mom) (hb : backprop eps loss s = ok s1) (hr : Ready s1 sh w g)
    (hc : ∀ v, (v, true) ∈ s1.reg → s1.ctx v = []) :
    ∃ o o' s', Sgd.mk' batch lr mom decay nes = ok o ∧ Sgd.step eps loss o s = ok (o', s') ∧
      ∀ v, (v, true) ∈ s1.reg → (s'.st.data v).Has (sh v) (fun is => w v is - (if nes = true then 1 else 1 + mom) * (lr / batch) * g v is) := by
  obtain ⟨s', k1, k2⟩ := sgd_step (μ := fun _ _ => 0) ⟨⟨lr / batch, max 0 decay, 0⟩, max 0 mom, nes⟩ hb hr (fun v hv => Or.inl ⟨hc v hv, fun _ => rfl⟩)
  refine ⟨_, _, s', by simp [Sgd.mk', Sched.mk', assert_true hB, bind_ok, pure_eq], k1, fun v hv => (k2.new v hv).1.congr (fun is _ => ?_)⟩
  simp only [Sched.rate, max_eq_right hm]
  split <;> simp <;> ring

/-- C89: adagrad's first step is `(lr/batch) g / (eps + |g|)` long. -/
theorem adagrad_first_step (batch : Nat) (lr decay : ℝ) (hB : 1 ≤ batch) (hb : backprop eps loss s = ok s1) (hr : Ready s1 sh w g)
    (hc : ∀ v, (v, true) ∈ s1.reg → s1.ctx v = []) :
    ∃ o o' s', Sched.mk' batch lr decay = ok o ∧ adagradStep eps loss o s = ok (o', s') ∧
      ∀ v, (v, true) ∈ s1.reg → (s'.st.data v).Has (sh v) (fun is => w v is - lr / batch * g v is / (eps + |g v is|)) := by
  obtain ⟨s', k1, k2⟩ := adagrad_step (μ := fun _ _ => 0) ⟨lr / batch, max 0 decay, 0⟩ hb hr (fun v hv => Or.inl ⟨hc v hv, fun _ => rfl⟩)
  refine ⟨_, _, s', by simp [Sched.mk', assert_true hB, bind_ok, pure_eq], k1, fun v hv => (k2.new v hv).1.congr (fun is _ => ?_)⟩
  simp only [Sched.rate, adagradDoc, zero_add, Real.sqrt_sq_eq_abs]
  simp

/-- C89: rmsprop's first step is `(lr/batch) g / (eps + |g|)` long as well, whatever `rho`. -/
theorem rmsprop_first_step (batch : Nat) (lr rho decay : ℝ) (hB : 1 ≤ batch) (hb : backprop eps loss s = ok s1) (hr : Ready s1 sh w g)
    (hc : ∀ v, (v, true) ∈ s1.reg → s1.ctx v = []) :
    ∃ (sch : Sched) (o' : Rmsprop) (s' : OSt), Sched.mk' batch lr decay = ok sch ∧ Rmsprop.step eps loss ⟨sch, rho⟩ s = ok (o', s') ∧
      ∀ v, (v, true) ∈ s1.reg → (s'.st.data v).Has (sh v) (fun is => w v is - lr / batch * g v is / (eps + |g v is|)) := by
  obtain ⟨s', k1, k2⟩ := rmsprop_step (μ := fun _ _ => 0) ⟨⟨lr / batch, max 0 decay, 0⟩, rho⟩ hb hr (fun v hv => Or.inl ⟨hc v hv, fun _ => rfl⟩)
  refine ⟨_, _, s', by simp [Sched.mk', assert_true hB, bind_ok, pure_eq], k1, fun v hv => (k2.new v hv).1.congr (fun is _ => ?_)⟩
  simp only [Sched.rate, if_true, Real.sqrt_sq_eq_abs]
  simp

/-- C89: adam's first step is the step `w - (lr/batch) g` (see `adam_first_violated` for what it should be). -/
theorem adam_first_step (batch : Nat) (lr b1 b2 : ℝ) (hB : 1 ≤ batch) (hb : backprop eps loss s = ok s1) (hr : Ready s1 sh w g)
    (hc : ∀ v, (v, true) ∈ s1.reg → s1.ctx v = []) :
    ∃ o o' s', Adam.mk' batch lr b1 b2 = ok o ∧ Adam.step eps loss o s = ok (o', s') ∧
      ∀ v, (v, true) ∈ s1.reg → (s'.st.data v).Has (sh v) (fun is => w v is - lr / batch * g v is) := by
  obtain ⟨s', k1, k2⟩ := adam_step (μ := fun _ _ => 0) (ν := fun _ _ => 0) ⟨lr / batch, b1, b2, 0⟩ hb hr (fun v hv => Or.inl ⟨hc v hv, fun _ => ⟨rfl, rfl⟩⟩)
  exact ⟨_, _, s', by simp [Adam.mk', assert_true hB, bind_ok, pure_eq], k1, fun v hv => (k2.new v hv).1.congr (fun is _ => by simp)⟩

/-- C89: adadelta's first step is the step `w - (1/batch) g`: the learning rate is 1. -/
theorem adadelta_first_step (batch : Nat) (rho : ℝ) (heps : 0 < eps) (hrho : 0 ≤ rho ∧ rho ≤ 1) (hB : 1 ≤ batch) (hb : backprop eps loss s = ok s1) (hr : Ready s1 sh w g)
    (hc : ∀ v, (v, true) ∈ s1.reg → s1.ctx v = []) :
    ∃ o o' s', Adadelta.mk' batch rho = ok o ∧ Adadelta.step eps loss o s = ok (o', s') ∧
      ∀ v, (v, true) ∈ s1.reg → (s'.st.data v).Has (sh v) (fun is => w v is - 1 / batch * g v is) := by
  obtain ⟨s', _, k1, _, k2⟩ := adadelta_step_partial (μ := fun _ _ => 0) (ν := fun _ _ => 0) ⟨1 / batch, rho, 0⟩ heps hrho hb hr
    (fun v hv => Or.inl ⟨hc v hv, fun _ => ⟨rfl, rfl⟩⟩) (fun _ _ => le_rfl)
  exact ⟨_, _, s', by simp [Adadelta.mk', assert_true hB, bind_ok, pure_eq], k1, fun v hv => (k2.new v hv).1⟩

/-- C89: every step of gradient_descent is the step `w - (lr/batch) g`. -/
theorem gradient_descent_first_step (batch : Nat) (lr mom : ℝ) (hb : backprop eps loss s = ok s1) (hr : Ready s1 sh w g) :
    ∃ o' s', Gd.step eps loss (Gd.mk' batch lr mom) s = ok (o', s') ∧
      ∀ v, (v, true) ∈ s1.reg → (s'.st.data v).Has (sh v) (fun is => w v is - lr / batch * g v is) := by
  obtain ⟨s', k1, k2⟩ := gradient_descent_step (Gd.mk' batch lr mom) hb hr
  refine ⟨_, s', k1, fun v hv => (k2.new v hv).1.congr (fun is _ => ?_)⟩
  simp only [sgdDoc, Gd.mk', Bool.false_eq_true, if_false]
  ring

/-- C89: a batch of no samples is refused by every optimizer but gradient_descent (which divides by zero). -/
theorem empty_batch_rejected (lr x y : ℝ) (nes : Bool) :
    Sgd.mk' 0 lr x y nes = abort ∧ Sched.mk' 0 lr x = abort ∧ Adadelta.mk' 0 x = abort ∧ Adam.mk' 0 lr x y = abort := by
  simp [Sgd.mk', Sched.mk', Adadelta.mk', Adam.mk', assert_false]

/-- The hypotheses hold of a small program: one variable with the elements 5 and 7, each of gradient 1. -/
example : ∃ s s1 sh w g, backprop 1 (sumLoss ⟨0, 0, true⟩) s = ok s1 ∧ Ready s1 sh w g ∧ (∀ v, (v, true) ∈ s1.reg → s1.ctx v = []) := by
  obtain ⟨s, s1, h1, _, h3, h4⟩ := start_ready 1 one_pos 5 7
  exact ⟨s, s1, _, _, _, h1, h4, fun v _ => h3 v⟩

end
end Verif.Optim
