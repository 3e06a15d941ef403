import Verif.Ops.Scalar
import Mathlib.Analysis.Calculus.Deriv.Abs
import Mathlib.Analysis.SpecialFunctions.Complex.LogDeriv
import Mathlib.Analysis.SpecialFunctions.Sqrt
import Mathlib.Analysis.Real.Pi.Bounds
import Mathlib.Analysis.SpecialFunctions.Log.Deriv
import Mathlib.Analysis.Complex.ExponentialBounds
import Mathlib.MeasureTheory.Integral.IntervalIntegral.FundThmCalculus
/-!
# Element-wise operators: backward is the derivative (proofs, C51)
-/
namespace Verif.Ops
open Verif Res View Data

/-! ### The domain on which the property is claimed -/

/-- The points at which an operator's function is defined and has a derivative, for the operators whose backward action is right there:
the interior of the domain of the function without the points where it has a kink.  For `inverse` and `elu` this is smaller than what
C51 asks for, and `log1p`, `softplus` and `gelu` are missing: see the theorems `..._violated` below. -/
def EOp.Dom : EOp → ℝ → Prop
  | inverse, x => epsC ≤ x * x
  | clip lo up, x => x ≠ lo ∧ x ≠ up
  | abs, x => x ≠ 0
  | acos, x | asin, x | atanh, x => -1 < x ∧ x < 1
  | acosh, x => 1 < x
  | cbrt, x => x ≠ 0
  | log, x | log10, x | log2, x | sqrt, x => 0 < x
  | tan, x => Real.cos x ≠ 0
  | pow e, x => 0 < x ∨ (x ≠ 0 ∧ ∃ n : ℤ, e = n) ∨ (x = 0 ∧ 1 ≤ e)
  | relu, x | selu, x => x ≠ 0
  | relu6, x => x ≠ 0 ∧ x ≠ 6
  | leakyRelu f, x => 0 < f ∧ f < 1 ∧ x ≠ 0
  | elu _, x => 0 < x
  | hardSigmoid, x => x ≠ 1 ∧ x ≠ -1
  | log1p, _ | softplus, _ | gelu, _ => False
  | _, _ => True

theorem epsC_pos : 0 < epsC := by unfold epsC; positivity

theorem hasDerivAt_congr {f h : ℝ → ℝ} {d x : ℝ} (hd : HasDerivAt h d x) {s : Set ℝ} (hs : IsOpen s) (hx : x ∈ s) (e : ∀ y ∈ s, f y = h y) :
    HasDerivAt f d x := hd.congr_of_eventuallyEq (Filter.eventually_of_mem (hs.mem_nhds hx) e)

theorem hasDerivAt_erf (x : ℝ) : HasDerivAt erfF (2 / √Real.pi * Real.exp (-x * x)) x := by
  have hc : Continuous (fun t : ℝ => Real.exp (-t * t)) := by fun_prop
  exact ((intervalIntegral.integral_hasDerivAt_right (hc.intervalIntegrable _ _) (hc.stronglyMeasurableAtFilter _ _) hc.continuousAt).const_mul _)

theorem hasDerivAt_cbrt {x : ℝ} (hx : x ≠ 0) : HasDerivAt cbrtF (1 / (3 * cbrtF x * cbrtF x)) x := by
  have key : ∀ y : ℝ, 0 < y → HasDerivAt (fun y : ℝ => y ^ (1 / 3 : ℝ)) (1 / (3 * y ^ (1 / 3 : ℝ) * y ^ (1 / 3 : ℝ))) y := by
    intro y hy
    have h := Real.hasDerivAt_rpow_const (x := y) (p := 1 / 3) (Or.inl hy.ne')
    have e : (1 / 3 : ℝ) * y ^ (1 / 3 - 1 : ℝ) = 1 / (3 * y ^ (1 / 3 : ℝ) * y ^ (1 / 3 : ℝ)) := by
      rw [mul_assoc 3, ← Real.rpow_add hy, show (1 / 3 - 1 : ℝ) = -(1 / 3 + 1 / 3) by norm_num, Real.rpow_neg hy.le]
      generalize y ^ (1 / 3 + 1 / 3 : ℝ) = z
      rw [one_div, one_div, mul_inv]
    rwa [e] at h
  rcases lt_or_gt_of_ne hx with h | h
  · have h1 := key (-x) (by linarith)
    have h2 := (h1.comp x (hasDerivAt_neg x)).neg
    have e : cbrtF x = -((-x) ^ (1 / 3 : ℝ)) := if_neg (by linarith)
    rw [e]
    refine hasDerivAt_congr (h := fun y => -((-y) ^ (1 / 3 : ℝ))) ?_ isOpen_Iio h (fun y hy => if_neg (not_le.mpr hy))
    refine h2.congr_deriv ?_
    ring
  · have e : cbrtF x = x ^ (1 / 3 : ℝ) := if_pos h.le
    rw [e]
    exact hasDerivAt_congr (key x h) isOpen_Ioi h (fun y hy => if_pos (le_of_lt hy))

theorem hasDerivAt_artanh {x : ℝ} (h1 : -1 < x) (h2 : x < 1) : HasDerivAt Real.artanh (1 / (1 - x * x)) x := by
  have e : ∀ y ∈ Set.Ioo (-1 : ℝ) 1, Real.artanh y = 1 / 2 * (Real.log (1 + y) - Real.log (1 - y)) := by
    intro y hy
    rw [Real.artanh_eq_half_log ⟨hy.1.le, hy.2.le⟩, Real.log_div (by have := hy.1; linarith) (by have := hy.2; linarith)]
  refine hasDerivAt_congr (h := fun y => 1 / 2 * (Real.log (1 + y) - Real.log (1 - y))) ?_ isOpen_Ioo ⟨h1, h2⟩ e
  have a1 : (1 + x) ≠ 0 := by linarith
  have a2 : (1 - x) ≠ 0 := by linarith
  have d1 := ((hasDerivAt_id x).const_add 1).log a1
  have d2 := ((hasDerivAt_id x).const_sub 1).log a2
  refine ((d1.sub d2).const_mul (1 / 2)).congr_deriv ?_
  simp only [id]
  rw [show 1 - x * x = (1 + x) * (1 - x) by ring]
  field_simp
  ring

theorem hasDerivAt_tanh (x : ℝ) : HasDerivAt Real.tanh (1 - Real.tanh x * Real.tanh x) x := by
  have hc := (Real.cosh_pos x).ne'
  have h := (Real.hasDerivAt_sinh x).div (Real.hasDerivAt_cosh x) hc
  have e : Real.tanh = Real.sinh / Real.cosh := by funext y; exact Real.tanh_eq_sinh_div_cosh y
  rw [Real.tanh_eq_sinh_div_cosh, e]
  refine h.congr_deriv ?_
  field_simp

theorem hasDerivAt_sigmoid (x : ℝ) :
    HasDerivAt (fun x => 1 / (1 + Real.exp (-x))) (1 / (1 + Real.exp (-x)) * (1 - 1 / (1 + Real.exp (-x)))) x := by
  have hp : 1 + Real.exp (-x) ≠ 0 := by have := Real.exp_pos (-x); linarith
  have h := (((hasDerivAt_neg x).exp).const_add 1).inv hp
  simp only [one_div]
  refine h.congr_deriv ?_
  field_simp
  ring

/-! ### C51 -/

/-- C51: at every point of `Dom` the operator's function has a derivative, and the backward action multiplies the gradient with it. -/
theorem elementwise_backward_partial (op : EOp) (x : ℝ) (hx : op.Dom x) :
    ∃ d, HasDerivAt op.fwd d x ∧ ∀ g, op.bwd x (op.fwd x) g = g * d := by
  cases op with
  | negative => exact ⟨-1, hasDerivAt_neg x, fun g => by simp [EOp.bwd]⟩
  | addC a => exact ⟨1, (hasDerivAt_id x).add_const a, fun g => by simp [EOp.bwd]⟩
  | mulC a => exact ⟨1 * a, (hasDerivAt_id x).mul_const a, fun g => by simp [EOp.bwd]⟩
  | inverse =>
    have hx : epsC ≤ x * x := hx
    have he := epsC_pos
    have h1 : epsC < 1 := by unfold epsC; norm_num
    have hx0 : x ≠ 0 := by rintro rfl; linarith
    refine ⟨-(x ^ 2)⁻¹, ?_, fun g => ?_⟩
    · have hd := hasDerivAt_inv hx0
      rcases lt_or_gt_of_ne hx0 with h | h
      · have hlt : x < -epsC := by nlinarith
        refine hasDerivAt_congr hd isOpen_Iio hlt (fun y hy => ?_)
        have hy : y < -epsC := hy
        simp only [EOp.fwd]
        rw [if_neg (by linarith), min_eq_right hy.le, one_div]
      · have hlt : epsC < x := by nlinarith
        refine hasDerivAt_congr hd isOpen_Ioi hlt (fun y hy => ?_)
        have hy : epsC < y := hy
        simp only [EOp.fwd]
        rw [if_pos (by linarith), max_eq_right hy.le, one_div]
    · simp only [EOp.bwd]
      rw [max_eq_left hx]; ring
  | square =>
    refine ⟨1 * x + x * 1, (hasDerivAt_id x).mul (hasDerivAt_id x), fun g => ?_⟩
    simp only [EOp.bwd]; ring
  | clip lo up =>
    obtain ⟨hl, hu⟩ := hx
    simp only [EOp.bwd]
    by_cases h1 : x < lo
    · refine ⟨0, hasDerivAt_congr (hasDerivAt_const x lo) isOpen_Iio h1 (fun y hy => ?_), fun g => by rw [if_pos h1, mul_zero]⟩
      exact max_eq_left (le_trans (min_le_left _ _) (le_of_lt hy))
    · by_cases h2 : x > up
      · refine ⟨0, hasDerivAt_congr (hasDerivAt_const x (max lo up)) isOpen_Ioi h2 (fun y hy => ?_), fun g => by rw [if_neg h1, if_pos h2, mul_zero]⟩
        simp only [EOp.fwd]
        rw [min_eq_right (le_of_lt hy)]
      · have a1 : lo < x := lt_of_le_of_ne (not_lt.mp h1) (Ne.symm hl)
        have a2 : x < up := lt_of_le_of_ne (not_lt.mp h2) hu
        refine ⟨1, hasDerivAt_congr (hasDerivAt_id x) isOpen_Ioo ⟨a1, a2⟩ (fun y hy => ?_), fun g => by rw [if_neg h1, if_neg h2, mul_one]⟩
        simp only [EOp.fwd, id]
        rw [min_eq_left (le_of_lt hy.2), max_eq_right (le_of_lt hy.1)]
  | abs =>
    have hx : x ≠ 0 := hx
    simp only [EOp.bwd]
    rcases lt_or_gt_of_ne hx with h | h
    · exact ⟨-1, hasDerivAt_abs_neg h, fun g => by rw [if_neg (by linarith), if_pos h]⟩
    · exact ⟨1, hasDerivAt_abs_pos h, fun g => by rw [if_pos h]⟩
  | acos =>
    refine ⟨_, Real.hasDerivAt_arccos (by have := hx.1; intro h; linarith) (by have := hx.2; intro h; linarith), fun g => ?_⟩
    simp only [EOp.bwd]; rw [pow_two]; ring
  | acosh =>
    refine ⟨_, Real.hasDerivAt_arcosh hx, fun g => ?_⟩
    simp only [EOp.bwd]; rw [pow_two, div_eq_mul_inv]
  | asin =>
    refine ⟨_, Real.hasDerivAt_arcsin (by have := hx.1; intro h; linarith) (by have := hx.2; intro h; linarith), fun g => ?_⟩
    simp only [EOp.bwd]; rw [pow_two]; ring
  | asinh =>
    refine ⟨_, Real.hasDerivAt_arsinh x, fun g => ?_⟩
    simp only [EOp.bwd]; rw [pow_two, div_eq_mul_inv]
  | atan =>
    refine ⟨_, Real.hasDerivAt_arctan x, fun g => ?_⟩
    simp only [EOp.bwd]; rw [pow_two]; ring
  | atanh =>
    refine ⟨_, hasDerivAt_artanh hx.1 hx.2, fun g => ?_⟩
    simp only [EOp.bwd]; ring
  | cbrt =>
    refine ⟨_, hasDerivAt_cbrt hx, fun g => ?_⟩
    simp only [EOp.bwd, EOp.fwd]; ring
  | cos =>
    refine ⟨_, Real.hasDerivAt_cos x, fun g => ?_⟩
    simp only [EOp.bwd]; ring
  | cosh => exact ⟨_, Real.hasDerivAt_cosh x, fun g => rfl⟩
  | erf =>
    refine ⟨_, hasDerivAt_erf x, fun g => ?_⟩
    simp only [EOp.bwd]; ring
  | erfc =>
    refine ⟨_, (hasDerivAt_erf x).const_sub 1, fun g => ?_⟩
    simp only [EOp.bwd]; ring
  | exp => exact ⟨_, Real.hasDerivAt_exp x, fun g => rfl⟩
  | exp2 =>
    refine ⟨_, (Real.hasStrictDerivAt_const_rpow (a := 2) (by norm_num) x).hasDerivAt, fun g => ?_⟩
    simp only [EOp.bwd, EOp.fwd]; ring
  | expm1 =>
    refine ⟨_, (Real.hasDerivAt_exp x).sub_const 1, fun g => ?_⟩
    simp only [EOp.bwd, EOp.fwd]; ring
  | log =>
    have hx : 0 < x := hx
    refine ⟨_, Real.hasDerivAt_log hx.ne', fun g => ?_⟩
    simp only [EOp.bwd]; ring
  | log10 =>
    have hx : 0 < x := hx
    refine ⟨_, (Real.hasDerivAt_log hx.ne').div_const (Real.log 10), fun g => ?_⟩
    simp only [EOp.bwd]
    rw [div_eq_mul_inv, mul_inv]; ring
  | log1p => exact hx.elim
  | log2 =>
    have hx : 0 < x := hx
    refine ⟨_, (Real.hasDerivAt_log hx.ne').div_const (Real.log 2), fun g => ?_⟩
    simp only [EOp.bwd]
    rw [div_eq_mul_inv, mul_inv]; ring
  | sin => exact ⟨_, Real.hasDerivAt_sin x, fun g => rfl⟩
  | sinh => exact ⟨_, Real.hasDerivAt_sinh x, fun g => rfl⟩
  | sqrt =>
    have hx : 0 < x := hx
    refine ⟨_, Real.hasDerivAt_sqrt hx.ne', fun g => ?_⟩
    simp only [EOp.bwd, EOp.fwd]
    rw [← two_mul]; ring
  | tan =>
    have hx : Real.cos x ≠ 0 := hx
    refine ⟨_, Real.hasDerivAt_tan hx, fun g => ?_⟩
    simp only [EOp.bwd, EOp.fwd]
    congr 1
    rw [Real.tan_eq_sin_div_cos]
    field_simp
    linarith [Real.sin_sq_add_cos_sq x]
  | tanh => exact ⟨_, hasDerivAt_tanh x, fun g => rfl⟩
  | pow e =>
    refine ⟨_, Real.hasDerivAt_rpow_const (p := e) ?_, fun g => ?_⟩
    · rcases hx with h | h | h
      · exact Or.inl h.ne'
      · exact Or.inl h.1
      · exact Or.inr h.2
    · simp only [EOp.bwd]; ring
  | selu =>
    have hx : x ≠ 0 := hx
    simp only [EOp.bwd]
    rcases lt_or_gt_of_ne hx with h | h
    · refine ⟨1.0507 * 1.67326 * Real.exp x, hasDerivAt_congr (((Real.hasDerivAt_exp x).sub_const 1).const_mul _) isOpen_Iio h (fun y hy => ?_), fun g => ?_⟩
      · exact if_neg (not_le.mpr hy)
      · rw [if_neg (not_le.mpr h)]; ring
    · refine ⟨1.0507 * 1, hasDerivAt_congr ((hasDerivAt_id x).const_mul _) isOpen_Ioi h (fun y hy => ?_), fun g => ?_⟩
      · exact if_pos (le_of_lt hy)
      · rw [if_pos (le_of_lt h)]; ring
  | softplus => exact hx.elim
  | softsign =>
    simp only [EOp.bwd]
    refine ⟨1 / ((1 + |x|) * (1 + |x|)), ?_, fun g => by ring⟩
    rcases lt_trichotomy x 0 with h | h | h
    · have hne : 1 - x ≠ 0 := by linarith
      rw [abs_of_neg h, ← sub_eq_add_neg]
      refine hasDerivAt_congr (h := fun y => y / (1 - y)) ?_ isOpen_Iio h (fun y hy => ?_)
      · refine ((hasDerivAt_id x).div ((hasDerivAt_id x).const_sub 1) hne).congr_deriv ?_
        simp only [id]
        field_simp
        ring
      · simp only [EOp.fwd]
        rw [abs_of_neg hy, ← sub_eq_add_neg]
    · subst h
      rw [hasDerivAt_iff_isLittleO_nhds_zero]
      simp only [EOp.fwd, zero_add, abs_zero, sub_zero, add_zero, mul_one, div_one, smul_eq_mul]
      have e : (fun h : ℝ => h / (1 + |h|) - h) = fun h => (-|h| / (1 + |h|)) * h := by
        funext h
        have : 1 + |h| ≠ 0 := by positivity
        field_simp
        ring
      rw [e]
      have h0 : Filter.Tendsto (fun h : ℝ => -|h| / (1 + |h|)) (nhds 0) (nhds 0) := by
        have : Continuous (fun h : ℝ => -|h| / (1 + |h|)) := by
          refine Continuous.div (by fun_prop) (by fun_prop) (fun h => by positivity)
        have := this.tendsto 0
        simpa using this
      simpa using (Asymptotics.isLittleO_one_iff ℝ |>.mpr h0).mul_isBigO (Asymptotics.isBigO_refl (fun h : ℝ => h) (nhds 0))
    · have hne : 1 + x ≠ 0 := by linarith
      rw [abs_of_pos h]
      refine hasDerivAt_congr (h := fun y => y / (1 + y)) ?_ isOpen_Ioi h (fun y hy => ?_)
      · refine ((hasDerivAt_id x).div ((hasDerivAt_id x).const_add 1) hne).congr_deriv ?_
        simp only [id]
        field_simp
        ring
      · simp only [EOp.fwd]
        rw [abs_of_pos hy]
  | sigmoid =>
    refine ⟨_, hasDerivAt_sigmoid x, fun g => ?_⟩
    simp only [EOp.bwd, EOp.fwd]; ring
  | relu =>
    have hx : x ≠ 0 := hx
    simp only [EOp.bwd]
    rcases lt_or_gt_of_ne hx with h | h
    · exact ⟨0, hasDerivAt_congr (hasDerivAt_const x 0) isOpen_Iio h (fun y hy => max_eq_right (le_of_lt hy)), fun g => by rw [if_neg (by linarith)]⟩
    · exact ⟨1, hasDerivAt_congr (hasDerivAt_id x) isOpen_Ioi h (fun y hy => max_eq_left (le_of_lt hy)), fun g => by rw [if_pos h]⟩
  | relu6 =>
    obtain ⟨h0, h6⟩ := hx
    simp only [EOp.bwd]
    rcases lt_or_gt_of_ne h0 with h | h
    · refine ⟨0, hasDerivAt_congr (hasDerivAt_const x 0) isOpen_Iio h (fun y hy => ?_), fun g => by rw [if_pos (Or.inl h.le), mul_zero]⟩
      simp only [EOp.fwd]
      rw [max_eq_right (le_of_lt hy), min_eq_right (by norm_num)]
    · rcases lt_or_gt_of_ne h6 with k | k
      · refine ⟨1, hasDerivAt_congr (hasDerivAt_id x) isOpen_Ioo ⟨h, k⟩ (fun y hy => ?_), fun g => ?_⟩
        · simp only [EOp.fwd]
          rw [max_eq_left (le_of_lt hy.1), min_eq_right (le_of_lt hy.2)]; rfl
        · rw [if_neg (by push Not; exact ⟨h, k⟩), mul_one]
      · refine ⟨0, hasDerivAt_congr (hasDerivAt_const x 6) isOpen_Ioi k (fun y hy => ?_), fun g => by rw [if_pos (Or.inr k.le), mul_zero]⟩
        have hy : 6 < y := hy
        simp only [EOp.fwd]
        rw [max_eq_left (by linarith), min_eq_left (by linarith)]
  | leakyRelu f =>
    obtain ⟨f0, f1, hx⟩ := hx
    simp only [EOp.bwd]
    rcases lt_or_gt_of_ne hx with h | h
    · refine ⟨f * 1, hasDerivAt_congr ((hasDerivAt_id x).const_mul f) isOpen_Iio h (fun y hy => ?_), fun g => by rw [if_neg (by linarith)]; ring⟩
      have hy : y < 0 := hy
      exact max_eq_right (by show y ≤ f * y; nlinarith)
    · refine ⟨1, hasDerivAt_congr (hasDerivAt_id x) isOpen_Ioi h (fun y hy => ?_), fun g => by rw [if_pos h, mul_one]⟩
      have hy : 0 < y := hy
      exact max_eq_left (by nlinarith)
  | elu α =>
    have hx : 0 < x := hx
    simp only [EOp.bwd]
    exact ⟨1, hasDerivAt_congr (hasDerivAt_id x) isOpen_Ioi hx (fun y hy => if_pos hy), fun g => by rw [if_pos hx.le, mul_one]⟩
  | exponential => exact ⟨_, Real.hasDerivAt_exp x, fun g => rfl⟩
  | hardSigmoid =>
    obtain ⟨h1, h2⟩ := hx
    simp only [EOp.bwd]
    rcases lt_or_gt_of_ne h1 with h | h
    · rcases lt_or_gt_of_ne h2 with k | k
      · refine ⟨0, hasDerivAt_congr (hasDerivAt_const x 0) isOpen_Iio k (fun y hy => ?_), fun g => by rw [if_pos (Or.inr k), mul_zero]⟩
        have hy : y < -1 := hy
        simp only [EOp.fwd]
        rw [if_neg (by linarith), if_pos hy]
      · refine ⟨1 / 2, hasDerivAt_congr (((hasDerivAt_id x).add_const 1).div_const 2) isOpen_Ioo ⟨k, h⟩ (fun y hy => ?_), fun g => ?_⟩
        · simp only [EOp.fwd]
          rw [if_neg (not_lt.mpr (le_of_lt hy.2)), if_neg (not_lt.mpr (le_of_lt hy.1))]; rfl
        · rw [if_neg (by push Not; exact ⟨h.le, le_of_lt k⟩)]; ring
    · exact ⟨0, hasDerivAt_congr (hasDerivAt_const x 1) isOpen_Ioi h (fun y hy => if_pos hy), fun g => by rw [if_pos (Or.inl h), mul_zero]⟩
  | gelu => exact hx.elim

/-- C51 is false of the code for `log1p`: at every point of its domain but 0, for every gradient but 0. -/
theorem log1p_backward_violated (x g d : ℝ) (h : -1 < x) (h0 : x ≠ 0) (hg : g ≠ 0) (hd : HasDerivAt EOp.log1p.fwd d x) :
    EOp.log1p.bwd x (EOp.log1p.fwd x) g ≠ g * d := by
  have hx : 1 + x ≠ 0 := by linarith
  have e := hd.unique (((hasDerivAt_id x).const_add 1).log hx)
  simp only [EOp.bwd, e, id]
  intro hh
  field_simp at hh
  simp at hh

/-- C51 is false of the code for `softplus`: at every point but 0 (where the code divides by zero), for every gradient but 0. -/
theorem softplus_backward_violated (x g d : ℝ) (h0 : x ≠ 0) (hg : g ≠ 0) (hd : HasDerivAt EOp.softplus.fwd d x) :
    EOp.softplus.bwd x (EOp.softplus.fwd x) g ≠ g * d := by
  have hp := Real.exp_pos x
  have e := hd.unique (((Real.hasDerivAt_exp x).const_add 1).log (by linarith))
  have h1 : Real.exp x ≠ 1 := fun h => h0 (Real.exp_eq_one_iff x |>.mp h)
  simp only [EOp.bwd, e, Real.exp_neg]
  intro hh
  have h2 : 1 - (Real.exp x)⁻¹ ≠ 0 := by
    intro h; apply h1
    have : (Real.exp x)⁻¹ = 1 := by linarith
    exact inv_eq_one.mp this
  have h3 : 1 + Real.exp x ≠ 0 := by linarith
  rw [div_eq_iff h2] at hh
  have h4 : (1 + Real.exp x) = Real.exp x * (1 - (Real.exp x)⁻¹) := by
    have : g * (1 + Real.exp x) = g * (Real.exp x * (1 - (Real.exp x)⁻¹)) := by
      calc g * (1 + Real.exp x) = (g * (Real.exp x / (1 + Real.exp x)) * (1 - (Real.exp x)⁻¹)) * (1 + Real.exp x) := by rw [← hh]
        _ = g * (Real.exp x * (1 - (Real.exp x)⁻¹)) * ((1 + Real.exp x) / (1 + Real.exp x)) := by ring
        _ = _ := by rw [div_self h3, mul_one]
    exact mul_left_cancel₀ hg this
  rw [mul_sub, mul_inv_cancel₀ hp.ne'] at h4
  linarith

/-- C51 is false of the code for `elu`: at every negative point and every gradient that is not positive. -/
theorem elu_backward_violated (α x g d : ℝ) (hα : α ≠ 0) (h : x < 0) (hg : g ≤ 0) (hd : HasDerivAt (EOp.elu α).fwd d x) :
    (EOp.elu α).bwd x ((EOp.elu α).fwd x) g ≠ g * d := by
  have e := hd.unique (hasDerivAt_congr (((Real.hasDerivAt_exp x).sub_const 1).const_mul α) isOpen_Iio h (fun y hy => by
    have hy : y < 0 := hy
    exact if_neg (by linarith)))
  simp only [EOp.bwd, e]
  rw [if_neg (by linarith)]
  intro hh
  have : Real.exp g = g * Real.exp x := mul_left_cancel₀ hα (by rw [hh]; ring)
  have h1 := Real.exp_pos g
  have h2 := Real.exp_pos x
  nlinarith

/-- C51 is false of the code for `gelu`: the backward action does not look at the input, and returns 1/2 for the gradient 0. -/
theorem gelu_backward_violated (x d : ℝ) : EOp.gelu.bwd x (EOp.gelu.fwd x) 0 = 1 / 2 ∧ EOp.gelu.bwd x (EOp.gelu.fwd x) 0 ≠ 0 * d := by
  have : EOp.gelu.bwd x (EOp.gelu.fwd x) 0 = 1 / 2 := by
    simp only [EOp.bwd, dgeluF, mul_zero, zero_mul, Real.tanh_zero]; norm_num
  exact ⟨this, by rw [this]; norm_num⟩

/-- `_dgelu` with fractions for its literals. -/
theorem dgeluF_eq (x : ℝ) : dgeluF x = 1 / 2 * (1 + Real.tanh (√(2 / Real.pi) * x * (1 + 8943 / 200000 * (x * x)))) +
    √(2 / Real.pi) * x * (1 - Real.tanh (√(2 / Real.pi) * x * (1 + 8943 / 200000 * (x * x)) * (1 + 26829 / 200000 * (x * x))) ^ 2) := by
  have e1 : (0.5 : ℝ) = 1 / 2 := by norm_num
  have e2 : (1.0 : ℝ) = 1 := by norm_num
  have e3 : (0.044715 : ℝ) = 8943 / 200000 := by norm_num
  have e4 : (0.134145 : ℝ) = 26829 / 200000 := by norm_num
  simp only [dgeluF, e1, e2, e3, e4]

/-- Applied to a point and its opposite `_dgelu` gives numbers that add up to 1, as the derivative of `gelu` does. -/
theorem dgelu_symmetric (x : ℝ) : dgeluF x + dgeluF (-x) = 1 := by
  rw [dgeluF_eq, dgeluF_eq]
  simp only [mul_neg, neg_mul, neg_neg, Real.tanh_neg]
  ring

/-- Nor would the repair be to apply `_dgelu` to the input: it is not the derivative of `gelu` either, at any point other than 0 within 1/2 of it. -/
theorem dgelu_not_derivative_violated (x d : ℝ) (h0 : x ≠ 0) (h1 : |x| ≤ 1 / 2) (hd : HasDerivAt EOp.gelu.fwd d x) : dgeluF x ≠ d := by
  set c : ℝ := √(2 / Real.pi) with hc
  have hc0 : 0 < c := Real.sqrt_pos.2 (by positivity)
  have hc1 : c ≤ 1 := by
    rw [hc]
    refine Real.sqrt_le_one.2 ?_
    rw [div_le_one Real.pi_pos]
    linarith [Real.pi_gt_three]
  have tanhD : ∀ y : ℝ, HasDerivAt Real.tanh (1 - Real.tanh y ^ 2) y := by
    intro y
    have h := (Real.hasDerivAt_sinh y).div (Real.hasDerivAt_cosh y) (Real.cosh_pos y).ne'
    have e : (fun y => Real.sinh y / Real.cosh y) = Real.tanh := by
      funext y; exact (Real.tanh_eq_sinh_div_cosh y).symm
    have e2 : (Real.cosh y * Real.cosh y - Real.sinh y * Real.sinh y) / Real.cosh y ^ 2 = 1 - Real.tanh y ^ 2 := by
      rw [Real.tanh_eq_sinh_div_cosh]
      have := (Real.cosh_pos y).ne'
      field_simp
    rw [← e2]
    rw [← e]
    exact h
  have tanhLe : ∀ y : ℝ, Real.tanh y ^ 2 ≤ y ^ 2 := by
    have pos : ∀ y : ℝ, 0 ≤ y → Real.tanh y ≤ y ∧ 0 ≤ Real.tanh y := by
      intro y hy
      constructor
      · rw [Real.tanh_eq_sinh_div_cosh, div_le_iff₀ (Real.cosh_pos y)]
        have hm : MonotoneOn (fun y => y * Real.cosh y - Real.sinh y) (Set.Ici 0) := by
          refine monotoneOn_of_deriv_nonneg (convex_Ici 0) (by fun_prop) (by fun_prop) fun z hz => ?_
          have hz : 0 < z := by simpa using hz
          have e : HasDerivAt (fun y => y * Real.cosh y - Real.sinh y) (1 * Real.cosh z + z * Real.sinh z - Real.cosh z) z :=
            ((hasDerivAt_id z).mul (Real.hasDerivAt_cosh z)).sub (Real.hasDerivAt_sinh z)
          rw [e.deriv]
          have := (Real.sinh_pos_iff (x := z)).2 hz
          nlinarith
        have := hm (Set.mem_Ici.2 le_rfl) (Set.mem_Ici.2 hy) hy
        simp at this
        linarith
      · rw [Real.tanh_eq_sinh_div_cosh]
        exact div_nonneg ((Real.sinh_nonneg_iff (x := y)).2 hy) (Real.cosh_pos y).le
    intro y
    rcases le_total 0 y with hy | hy
    · obtain ⟨a, b⟩ := pos y hy
      exact pow_le_pow_left₀ b a 2
    · obtain ⟨a, b⟩ := pos (-y) (by linarith)
      rw [Real.tanh_neg] at a b
      nlinarith
  have he : HasDerivAt (fun x => ((1 / 2) * x) * (1 + Real.tanh (c * x * (1 + (8943 / 200000) * x * x)))) ((1 / 2) * 1 * (1 + Real.tanh (c * x * (1 + (8943 / 200000) * x * x))) + (1 / 2) * x *
      ((1 - Real.tanh (c * x * (1 + (8943 / 200000) * x * x)) ^ 2) * (c * 1 * (1 + (8943 / 200000) * x * x) + c * x * ((8943 / 200000) * 1 * x + (8943 / 200000) * x * 1)))) x := by
    have hu : HasDerivAt (fun x => c * x * (1 + (8943 / 200000) * x * x)) (c * 1 * (1 + (8943 / 200000) * x * x) + c * x * ((8943 / 200000) * 1 * x + (8943 / 200000) * x * 1)) x :=
      ((hasDerivAt_id x).const_mul c).mul ((((hasDerivAt_id x).const_mul (8943 / 200000)).mul (hasDerivAt_id x)).const_add 1)
    exact ((hasDerivAt_id x).const_mul (1 / 2)).mul (((tanhD _).comp x hu).const_add 1)
  have hf : EOp.gelu.fwd = fun x => (1 / 2 * x) * (1 + Real.tanh (c * x * (1 + (8943 / 200000) * x * x))) := by
    funext y
    have e1 : (0.5 : ℝ) = 1 / 2 := by norm_num
    have e2 : (1.0 : ℝ) = 1 := by norm_num
    have e3 : (0.044715 : ℝ) = 8943 / 200000 := by norm_num
    simp only [EOp.fwd, geluF, e1, e2, e3, hc]
  rw [hf] at hd
  rw [hd.unique he, dgeluF_eq, ← hc]
  intro heq
  have hx2 : x * x ≤ 1 / 4 := by nlinarith [abs_le.1 h1]
  have hxx : 0 ≤ x * x := mul_self_nonneg x
  have e1 : c * x * (1 + (8943 / 200000) * (x * x)) = c * x * (1 + (8943 / 200000) * x * x) := by ring
  rw [e1] at heq
  set u := c * x * (1 + (8943 / 200000) * x * x) with hu
  have k : c * x * (1 - Real.tanh (u * (1 + (26829 / 200000) * (x * x))) ^ 2) = c * x * ((1 / 2) * (1 - Real.tanh u ^ 2) * (1 + (26829 / 200000) * (x * x))) := by
    linear_combination heq
  have k2 := mul_left_cancel₀ (mul_ne_zero hc0.ne' h0) k
  have b1 := tanhLe (u * (1 + (26829 / 200000) * (x * x)))
  have b2 : 0 ≤ Real.tanh u ^ 2 := sq_nonneg _
  have c2 : c ^ 2 ≤ 1 := pow_le_one₀ hc0.le hc1
  have b3 : u ^ 2 ≤ 27 / 100 := by
    have : u ^ 2 = c ^ 2 * ((x * x) * (1 + (8943 / 200000) * (x * x)) ^ 2) := by rw [hu]; ring
    rw [this]
    have q : (x * x) * (1 + (8943 / 200000) * (x * x)) ^ 2 ≤ (1 / 4) * (51 / 50) ^ 2 :=
      mul_le_mul hx2 (pow_le_pow_left₀ (by positivity) (by norm_num; linarith) 2) (by positivity) (by norm_num)
    have q0 : 0 ≤ (x * x) * (1 + (8943 / 200000) * (x * x)) ^ 2 := by positivity
    have := mul_le_mul c2 q q0 zero_le_one
    norm_num at this ⊢
    linarith
  have b4 : (u * (1 + (26829 / 200000) * (x * x))) ^ 2 ≤ (27 / 100) * (26 / 25) ^ 2 := by
    rw [mul_pow]
    exact mul_le_mul b3 (pow_le_pow_left₀ (by positivity) (by norm_num; linarith) 2) (by positivity) (by norm_num)
  have b5 : (1 / 2) * (1 - Real.tanh u ^ 2) * (1 + (26829 / 200000) * (x * x)) ≤ (1 / 2) * 1 * (26 / 25) := by
    have h5 : (1 + (26829 / 200000) * (x * x) : ℝ) ≤ (26 / 25) := by norm_num; linarith
    have h6 : (0 : ℝ) ≤ 1 + (26829 / 200000) * (x * x) := by positivity
    nlinarith
  norm_num at b4 b5 k2
  linarith

/-- C51 is false of the code for `inverse` between `-sqrt eps` and `sqrt eps`: at every such point but 0 and the kinks `±eps`, for every
gradient but 0. -/
theorem inverse_backward_violated (x g d : ℝ) (h0 : x ≠ 0) (h1 : x * x < epsC) (h2 : x ≠ epsC) (h3 : x ≠ -epsC) (hg : g ≠ 0)
    (hd : HasDerivAt EOp.inverse.fwd d x) : EOp.inverse.bwd x (EOp.inverse.fwd x) g ≠ g * d := by
  have he := epsC_pos
  have key : d = 0 ∨ d = -(x ^ 2)⁻¹ := by
    rcases lt_or_gt_of_ne h0 with h | h
    · rcases lt_or_gt_of_ne h3 with k | k
      · right
        exact hd.unique (hasDerivAt_congr (hasDerivAt_inv h0) isOpen_Iio k (fun y hy => by
          have hy : y < -epsC := hy
          simp only [EOp.fwd]
          rw [if_neg (by linarith), min_eq_right hy.le, one_div]))
      · left
        exact hd.unique (hasDerivAt_congr (hasDerivAt_const x (1 / -epsC)) isOpen_Ioo ⟨k, h⟩ (fun y hy => by
          simp only [EOp.fwd]
          rw [if_neg (not_lt.mpr hy.2.le), min_eq_left hy.1.le]))
    · rcases lt_or_gt_of_ne h2 with k | k
      · left
        exact hd.unique (hasDerivAt_congr (hasDerivAt_const x (1 / epsC)) isOpen_Ioo ⟨h, k⟩ (fun y hy => by
          simp only [EOp.fwd]
          rw [if_pos hy.1, max_eq_left hy.2.le]))
      · right
        exact hd.unique (hasDerivAt_congr (hasDerivAt_inv h0) isOpen_Ioi k (fun y hy => by
          have hy : epsC < y := hy
          simp only [EOp.fwd]
          rw [if_pos (by linarith), max_eq_right hy.le, one_div]))
  simp only [EOp.bwd]
  rw [max_eq_right h1.le]
  rcases key with rfl | rfl
  · rw [mul_zero]
    exact div_ne_zero (neg_ne_zero.mpr hg) he.ne'
  · intro hh
    have hx2 : x ^ 2 ≠ 0 := pow_ne_zero 2 h0
    rw [div_eq_iff he.ne'] at hh
    have h4 : g * x ^ 2 = g * epsC := by
      calc g * x ^ 2 = -(-g) * x ^ 2 := by ring
        _ = -(g * -(x ^ 2)⁻¹ * epsC) * x ^ 2 := by rw [← hh]
        _ = g * epsC * ((x ^ 2)⁻¹ * x ^ 2) := by ring
        _ = _ := by rw [inv_mul_cancel₀ hx2, mul_one]
    have := mul_left_cancel₀ hg h4
    nlinarith

/-! ### atan2 -/

/-- `atan2( l, r )`, forward on one pair of elements (include/operation.hpp line 2571). -/
noncomputable def atan2F (l r : ℝ) : ℝ := Complex.arg (r + l * Complex.I)

/-- `atan2( l, r )`, backward on one pair of elements (include/operation.hpp line 2580). -/
noncomputable def atan2B (x y g : ℝ) : ℝ × ℝ :=
  let c := x * x + y * y
  (-g * y / c, g * x / c)

theorem hasDerivAt_arg {f : ℝ → ℂ} {f' : ℂ} {x : ℝ} (hf : HasDerivAt f f' x) (hs : f x ∈ Complex.slitPlane) :
    HasDerivAt (fun y => Complex.arg (f y)) (f' / f x).im x := by
  have h := hf.clog_real hs
  have h2 := (Complex.imCLM.hasFDerivAt (x := Complex.log (f x))).comp_hasDerivAt x h
  refine h2.congr_of_eventuallyEq (Filter.Eventually.of_forall (fun y => ?_))
  simp [Complex.log_im]

/-- C51 is false of the code for `atan2`: both components have the wrong sign, off the cut of the function. -/
theorem atan2_backward_violated (l r g dl dr : ℝ) (h : 0 < r ∨ l ≠ 0) (hl : HasDerivAt (fun y => atan2F y r) dl l)
    (hr : HasDerivAt (fun y => atan2F l y) dr r) :
    atan2B l r g = (-(g * dl), -(g * dr)) ∧ (g ≠ 0 → atan2B l r g ≠ (g * dl, g * dr)) := by
  have hs : ((r : ℂ) + l * Complex.I) ∈ Complex.slitPlane := by
    rw [Complex.mem_slitPlane_iff]
    rcases h with h | h
    · left; simpa using h
    · right; simpa using h
  have hc : 0 < l * l + r * r := by
    rcases h with h | h
    · nlinarith [mul_self_nonneg l]
    · have := mul_self_pos.mpr h; nlinarith [mul_self_nonneg r]
  have d1 : HasDerivAt (fun y : ℝ => ((r : ℂ) + y * Complex.I)) Complex.I l := by
    have := ((hasDerivAt_id l).ofReal_comp.mul_const Complex.I).const_add (r : ℂ)
    simpa using this
  have d2 : HasDerivAt (fun y : ℝ => ((y : ℂ) + l * Complex.I)) 1 r := by
    have := (hasDerivAt_id r).ofReal_comp.add_const ((l : ℂ) * Complex.I)
    simpa using this
  have e1 := hl.unique (hasDerivAt_arg d1 hs)
  have e2 := hr.unique (hasDerivAt_arg d2 hs)
  have v1 : dl = r / (l * l + r * r) := by
    rw [e1, Complex.div_im]
    simp [Complex.normSq_apply]
    ring
  have v2 : dr = -l / (l * l + r * r) := by
    rw [e2, Complex.div_im]
    simp [Complex.normSq_apply]
    ring
  have eq : atan2B l r g = (-(g * dl), -(g * dr)) := by
    unfold atan2B
    rw [v1, v2]
    refine Prod.ext ?_ ?_ <;> dsimp only <;> ring
  refine ⟨eq, fun hg hh => ?_⟩
  rw [eq] at hh
  have k1 := congrArg Prod.fst hh
  have k2 := congrArg Prod.snd hh
  dsimp only at k1 k2
  have z1 : dl = 0 := by
    have : g * dl = 0 := by linarith
    exact (mul_eq_zero.mp this).resolve_left hg
  have z2 : dr = 0 := by
    have : g * dr = 0 := by linarith
    exact (mul_eq_zero.mp this).resolve_left hg
  rw [v1, div_eq_zero_iff] at z1
  rw [v2, div_eq_zero_iff] at z2
  rcases z1 with z1 | z1
  · rcases z2 with z2 | z2
    · have : l = 0 := by linarith
      rw [this, z1] at hc; simp at hc
    · linarith
  · linarith

/-! ### The literals in the code are the constants of the model up to rounding -/

theorem erf_literal : |(1.12837916709551257389 : ℝ) - 2 / √Real.pi| < 1 / 10 ^ 19 := by
  have h1 := Real.pi_gt_d20
  have h2 := Real.pi_lt_d20
  have hp := Real.pi_pos
  have hs : 0 < √Real.pi := Real.sqrt_pos.mpr hp
  have hq : √Real.pi * √Real.pi = Real.pi := Real.mul_self_sqrt hp.le
  have bound : ∀ c : ℝ, 0 < c → (4 < c * c * Real.pi → 2 / √Real.pi < c) ∧ (c * c * Real.pi < 4 → c < 2 / √Real.pi) := by
    intro c hc
    constructor
    · intro h
      rw [div_lt_iff₀ hs]
      by_contra hcon
      push Not at hcon
      have : (c * √Real.pi) * (c * √Real.pi) ≤ 2 * 2 := mul_self_le_mul_self (by positivity) hcon
      have e : (c * √Real.pi) * (c * √Real.pi) = c * c * Real.pi := by linear_combination c * c * hq
      linarith
    · intro h
      rw [lt_div_iff₀ hs]
      by_contra hcon
      push Not at hcon
      have : (2 : ℝ) * 2 ≤ (c * √Real.pi) * (c * √Real.pi) := mul_self_le_mul_self (by norm_num) hcon
      have e : (c * √Real.pi) * (c * √Real.pi) = c * c * Real.pi := by linear_combination c * c * hq
      linarith
  have a := (bound (1.12837916709551257389 + 1 / 10 ^ 19) (by norm_num)).1 (by norm_num at h1 ⊢; linarith)
  have b := (bound (1.12837916709551257389 - 1 / 10 ^ 19) (by norm_num)).2 (by norm_num at h2 ⊢; linarith)
  rw [abs_lt]
  constructor <;> linarith

theorem log2_literal : |(0.69314718055994530942 : ℝ) - Real.log 2| < 1 / 10 ^ 9 := by
  have h1 := Real.log_two_gt_d9
  have h2 := Real.log_two_lt_d9
  rw [abs_lt]
  constructor <;> norm_num at h1 h2 ⊢ <;> linarith

/-! ### Tensors -/

theorem mapT_ok {α : Type} [Zero α] (f : α → α) (cache t : Ten α) {s : List Nat} {a : List Nat → α} (ht : t.Has s a) :
    ∃ u, mapT f cache t = ok u ∧ u.Has s (fun is => f (a is)) := by
  obtain ⟨d, h1, h2, h3⟩ := fill1 (n := size s) (out := (resizeV cache s).data)
    (body := fun i o => do
      let x ← rd t.data i
      wr o i (f x))
    (g := fun i => f (a (unflat s i))) (fun i o hi _ => by rw [rd_ok (ht.2.pos hi), bind_ok]) (by rw [resizeV_length])
  refine ⟨⟨s, d⟩, ?_, rfl, isT_of_pos h2 h3 (fun is hv => by rw [unflat_flat hv])⟩
  unfold mapT
  rw [ht.1, ht.2.1, h1]; rfl

theorem zipT_ok {α : Type} [Zero α] (f : α → α → α → α) (cache t o g : Ten α) {s : List Nat} {a b γ : List Nat → α} (ht : t.Has s a)
    (ho : o.Has s b) (hg : g.Has s γ) : ∃ u, zipT f cache t o g = ok u ∧ u.Has s (fun is => f (a is) (b is) (γ is)) := by
  obtain ⟨d, h1, h2, h3⟩ := fill1 (n := size s) (out := (resizeV cache s).data)
    (body := fun i out => do
      let x ← rd t.data i
      let y ← rd o.data i
      let z ← rd g.data i
      wr out i (f x y z))
    (g := fun i => f (a (unflat s i)) (b (unflat s i)) (γ (unflat s i)))
    (fun i o hi _ => by rw [rd_ok (ht.2.pos hi), bind_ok, rd_ok (ho.2.pos hi), bind_ok, rd_ok (hg.2.pos hi), bind_ok]) (by rw [resizeV_length])
  refine ⟨⟨s, d⟩, ?_, rfl, isT_of_pos h2 h3 (fun is hv => by rw [unflat_flat hv])⟩
  unfold zipT
  rw [ht.1, ht.2.1, h1]; rfl

/-- C51 for tensors, whatever the caches hold: forward applies the function to each element, backward multiplies each element of the
gradient with the derivative at the input. -/
theorem elementwise_tensor_partial (op : EOp) (cache cacheB t g : Ten ℝ) (s : List Nat) (a γ : List Nat → ℝ) (ht : t.Has s a) (hg : g.Has s γ)
    (hd : ∀ is, ValidIdx s is → op.Dom (a is)) :
    ∃ o u, mapT op.fwd cache t = ok o ∧ o.Has s (fun is => op.fwd (a is)) ∧ zipT op.bwd cacheB t o g = ok u ∧
      u.Has s (fun is => γ is * deriv op.fwd (a is)) := by
  obtain ⟨o, h1, h2⟩ := mapT_ok op.fwd cache t ht
  obtain ⟨u, h3, h4⟩ := zipT_ok op.bwd cacheB t o g ht h2 hg
  refine ⟨o, u, h1, h2, h3, h4.congr (fun is hv => ?_)⟩
  obtain ⟨d, e1, e2⟩ := elementwise_backward_partial op (a is) (hd is hv)
  rw [e2, e1.deriv]

/-- The operators of `Dom` are not empty sets: a point for some of them. -/
example : EOp.inverse.Dom 1 ∧ EOp.atanh.Dom (1 / 2) ∧ (EOp.pow (-2)).Dom (-3) ∧ (EOp.leakyRelu 0.2).Dom (-1) ∧ EOp.sigmoid.Dom 7 := by
  refine ⟨?_, ?_, Or.inr (Or.inl ⟨by norm_num, -2, by norm_num⟩), ?_, trivial⟩
  · show epsC ≤ 1 * 1
    unfold epsC; norm_num
  · show (-1 : ℝ) < 1 / 2 ∧ (1 / 2 : ℝ) < 1
    norm_num
  · show (0 : ℝ) < 0.2 ∧ (0.2 : ℝ) < 1 ∧ (-1 : ℝ) ≠ 0
    norm_num

end Verif.Ops
