import Verif.Descent.Net
import Mathlib.Algebra.Order.BigOperators.Ring.Finset
import Mathlib.Analysis.SpecificLimits.Basic
/-!
# Property C147: fitting a linear model converges

A network whose only layer with variables is a `Dense` layer at its end, fitted with `squared_loss` on one batch by gradient descent: the errors that `fit` reports
do not grow, and come as near to the least squares error as one likes.
-/
namespace Verif.Descent
open Verif Res View Data Ops Graph Loss Optim Fit Net Pool

noncomputable section

/-! ### specification -/

/-- The sum of squares of a linear model: `n` samples with the features `x` (`m` of each) and the labels `y` (`u` of each), coefficients `W` and offsets `b`. -/
def residue (n m u : Nat) (x y : Nat → Nat → ℝ) (W : Nat → Nat → ℝ) (b : Nat → ℝ) : ℝ :=
  ∑ r ∈ Finset.range n, ∑ c ∈ Finset.range u, (y r c - (∑ p ∈ Finset.range m, x r p * W p c + b c)) ^ 2

/-- The square of the distance of two linear models. -/
def apart2 (m u : Nat) (W : Nat → Nat → ℝ) (b : Nat → ℝ) (W' : Nat → Nat → ℝ) (b' : Nat → ℝ) : ℝ :=
  ∑ c ∈ Finset.range u, (∑ p ∈ Finset.range m, (W p c - W' p c) ^ 2 + (b c - b' c) ^ 2)

/-- How steep the sum of squares can become: the squares of all features, and one for the offset. -/
def steepness (n m : Nat) (x : Nat → Nat → ℝ) : ℝ := ∑ r ∈ Finset.range n, (∑ p ∈ Finset.range m, x r p ^ 2 + 1)

/-! ### least squares, one label -/

section
variable {ι ρ : Type} (J : Finset ι) (R : Finset ρ) (X : ρ → ι → ℝ) (y : ρ → ℝ)

def sq (θ : ι → ℝ) : ℝ := ∑ r ∈ R, (y r - ∑ j ∈ J, X r j * θ j) ^ 2

def slope (θ : ι → ℝ) (j : ι) : ℝ := ∑ r ∈ R, -2 * ((y r - ∑ j ∈ J, X r j * θ j) * X r j)

theorem slope_pair (θ d : ι → ℝ) : ∑ j ∈ J, slope J R X y θ j * d j = -2 * ∑ r ∈ R, (y r - ∑ j ∈ J, X r j * θ j) * ∑ j ∈ J, X r j * d j := by
  unfold slope
  simp only [Finset.sum_mul, Finset.mul_sum]
  rw [Finset.sum_comm]
  refine Finset.sum_congr rfl (fun r _ => Finset.sum_congr rfl (fun j _ => ?_))
  ring

/-- One step of gradient descent that is short enough: the sum of squares does not grow, and what it exceeds any other model's by is paid for by coming nearer. -/
theorem sq_step {η : ℝ} (hη : 0 ≤ η) (hL : η * ∑ r ∈ R, ∑ j ∈ J, X r j ^ 2 ≤ 1 / 2) {θ θ' : ι → ℝ} (h : ∀ j ∈ J, θ' j = θ j - η * slope J R X y θ j) (θs : ι → ℝ) :
    sq J R X y θ' ≤ sq J R X y θ ∧
      2 * η * (sq J R X y θ' - sq J R X y θs) ≤ ∑ j ∈ J, (θ j - θs j) ^ 2 - ∑ j ∈ J, (θ' j - θs j) ^ 2 := by
  set g := slope J R X y θ with hg
  set res : ρ → ℝ := fun r => y r - ∑ j ∈ J, X r j * θ j with hres
  set rs : ρ → ℝ := fun r => y r - ∑ j ∈ J, X r j * θs j with hrs
  set a : ρ → ℝ := fun r => ∑ j ∈ J, X r j * g j with ha
  set G := ∑ j ∈ J, g j ^ 2 with hG
  set L := ∑ r ∈ R, ∑ j ∈ J, X r j ^ 2 with hLdef
  have hG0 : 0 ≤ G := Finset.sum_nonneg (fun j _ => sq_nonneg _)
  have e1 : sq J R X y θ' = sq J R X y θ + 2 * η * ∑ r ∈ R, res r * a r + η ^ 2 * ∑ r ∈ R, a r ^ 2 := by
    unfold sq
    rw [Finset.mul_sum, Finset.mul_sum, ← Finset.sum_add_distrib, ← Finset.sum_add_distrib]
    refine Finset.sum_congr rfl (fun r _ => ?_)
    have : ∑ j ∈ J, X r j * θ' j = ∑ j ∈ J, X r j * θ j - η * a r := by
      rw [ha]
      dsimp only
      rw [Finset.mul_sum, ← Finset.sum_sub_distrib]
      refine Finset.sum_congr rfl (fun j hj => ?_)
      rw [h j hj]
      ring
    rw [this]
    simp only [hres]
    ring
  have e2 : G = -2 * ∑ r ∈ R, res r * a r := by
    have := slope_pair J R X y θ g
    rw [← this, hG]
    exact Finset.sum_congr rfl (fun j _ => by rw [← hg]; ring)
  have e3 : ∑ r ∈ R, a r ^ 2 ≤ L * G := by
    rw [hLdef, Finset.sum_mul]
    refine Finset.sum_le_sum (fun r _ => ?_)
    exact Finset.sum_mul_sq_le_sq_mul_sq J (X r) g
  have e4 : η ^ 2 * ∑ r ∈ R, a r ^ 2 ≤ η / 2 * G := by
    have h1 : η ^ 2 * ∑ r ∈ R, a r ^ 2 ≤ η ^ 2 * (L * G) := mul_le_mul_of_nonneg_left e3 (sq_nonneg _)
    have h2 : η * G * (η * L) ≤ η * G * (1 / 2) := mul_le_mul_of_nonneg_left hL (mul_nonneg hη hG0)
    nlinarith
  have e5 : sq J R X y θ' ≤ sq J R X y θ - η / 2 * G := by
    rw [e1]
    have : 2 * η * ∑ r ∈ R, res r * a r = -η * G := by rw [e2]; ring
    rw [this]
    nlinarith
  have e6 : ∑ j ∈ J, (θ' j - θs j) ^ 2 = ∑ j ∈ J, (θ j - θs j) ^ 2 - 2 * η * ∑ j ∈ J, g j * (θ j - θs j) + η ^ 2 * G := by
    rw [hG, Finset.mul_sum, Finset.mul_sum, ← Finset.sum_sub_distrib, ← Finset.sum_add_distrib]
    refine Finset.sum_congr rfl (fun j hj => ?_)
    rw [h j hj]
    ring
  have e7 : sq J R X y θ - sq J R X y θs ≤ ∑ j ∈ J, g j * (θ j - θs j) := by
    have := slope_pair J R X y θ (fun j => θ j - θs j)
    rw [hg, this]
    unfold sq
    rw [← Finset.sum_sub_distrib, Finset.mul_sum]
    refine Finset.sum_le_sum (fun r _ => ?_)
    have : ∑ j ∈ J, X r j * (θ j - θs j) = rs r - res r := by
      simp only [hrs, hres, mul_sub, Finset.sum_sub_distrib]
      ring
    rw [this]
    change res r ^ 2 - rs r ^ 2 ≤ -2 * (res r * (rs r - res r))
    nlinarith [sq_nonneg (res r - rs r)]
  refine ⟨by nlinarith [mul_nonneg hη hG0], ?_⟩
  rw [e6]
  have h1 : 2 * η * (sq J R X y θ - sq J R X y θs) ≤ 2 * η * ∑ j ∈ J, g j * (θ j - θs j) := mul_le_mul_of_nonneg_left e7 (by linarith)
  have h2 : 2 * η * sq J R X y θ' ≤ 2 * η * (sq J R X y θ - η / 2 * G) := mul_le_mul_of_nonneg_left e5 (by linarith)
  nlinarith

theorem slope_sq (θ : ι → ℝ) : ∑ j ∈ J, slope J R X y θ j ^ 2 ≤ 4 * ((∑ r ∈ R, ∑ j ∈ J, X r j ^ 2) * sq J R X y θ) := by
  rw [Finset.sum_comm, Finset.sum_mul, Finset.mul_sum]
  refine Finset.sum_le_sum (fun j _ => ?_)
  have h1 := Finset.sum_mul_sq_le_sq_mul_sq R (fun r => X r j) (fun r => y r - ∑ j ∈ J, X r j * θ j)
  have h2 : slope J R X y θ j = -2 * ∑ r ∈ R, X r j * (y r - ∑ j ∈ J, X r j * θ j) := by
    unfold slope
    rw [Finset.mul_sum]
    exact Finset.sum_congr rfl (fun r _ => by ring)
  rw [h2]
  have h3 : sq J R X y θ = ∑ r ∈ R, (y r - ∑ j ∈ J, X r j * θ j) ^ 2 := rfl
  rw [h3]
  nlinarith

/-- No step goes further than its rate allows. -/
theorem sq_floor {η : ℝ} (hη : 0 ≤ η) {θ θ' : ι → ℝ} (h : ∀ j ∈ J, θ' j = θ j - η * slope J R X y θ j) :
    (1 - 4 * (η * ∑ r ∈ R, ∑ j ∈ J, X r j ^ 2)) * sq J R X y θ ≤ sq J R X y θ' := by
  set g := slope J R X y θ with hg
  have e1 : sq J R X y θ' = sq J R X y θ + 2 * η * ∑ r ∈ R, (y r - ∑ j ∈ J, X r j * θ j) * ∑ j ∈ J, X r j * g j + η ^ 2 * ∑ r ∈ R, (∑ j ∈ J, X r j * g j) ^ 2 := by
    unfold sq
    rw [Finset.mul_sum, Finset.mul_sum, ← Finset.sum_add_distrib, ← Finset.sum_add_distrib]
    refine Finset.sum_congr rfl (fun r _ => ?_)
    have : ∑ j ∈ J, X r j * θ' j = ∑ j ∈ J, X r j * θ j - η * ∑ j ∈ J, X r j * g j := by
      rw [Finset.mul_sum, ← Finset.sum_sub_distrib]
      refine Finset.sum_congr rfl (fun j hj => ?_)
      rw [h j hj]
      ring
    rw [this]
    ring
  have e2 : ∑ j ∈ J, g j ^ 2 = -2 * ∑ r ∈ R, (y r - ∑ j ∈ J, X r j * θ j) * ∑ j ∈ J, X r j * g j := by
    rw [← slope_pair J R X y θ g]
    exact Finset.sum_congr rfl (fun j _ => by rw [← hg]; ring)
  have e3 := mul_le_mul_of_nonneg_left (slope_sq J R X y θ) hη
  have e4 : 0 ≤ η ^ 2 * ∑ r ∈ R, (∑ j ∈ J, X r j * g j) ^ 2 := mul_nonneg (sq_nonneg _) (Finset.sum_nonneg (fun _ _ => sq_nonneg _))
  rw [← hg] at e3
  nlinarith

/-- A step that is half as long: the sum of squares before it, but for twice that of any other model, is paid for by coming nearer. -/
theorem sq_regret {η : ℝ} (hη : 0 ≤ η) (hL : η * ∑ r ∈ R, ∑ j ∈ J, X r j ^ 2 ≤ 1 / 4) {θ θ' : ι → ℝ} (h : ∀ j ∈ J, θ' j = θ j - η * slope J R X y θ j) (θs : ι → ℝ) :
    η * (sq J R X y θ - 2 * sq J R X y θs) ≤ ∑ j ∈ J, (θ j - θs j) ^ 2 - ∑ j ∈ J, (θ' j - θs j) ^ 2 := by
  set g := slope J R X y θ with hg
  set res : ρ → ℝ := fun r => y r - ∑ j ∈ J, X r j * θ j with hres
  set rs : ρ → ℝ := fun r => y r - ∑ j ∈ J, X r j * θs j with hrs
  set G := ∑ j ∈ J, g j ^ 2 with hG
  set L := ∑ r ∈ R, ∑ j ∈ J, X r j ^ 2 with hLdef
  have hF0 : 0 ≤ sq J R X y θ := Finset.sum_nonneg (fun r _ => sq_nonneg _)
  have e1 : G ≤ 4 * (L * sq J R X y θ) := slope_sq J R X y θ
  have e6 : ∑ j ∈ J, (θ' j - θs j) ^ 2 = ∑ j ∈ J, (θ j - θs j) ^ 2 - 2 * η * ∑ j ∈ J, g j * (θ j - θs j) + η ^ 2 * G := by
    rw [hG, Finset.mul_sum, Finset.mul_sum, ← Finset.sum_sub_distrib, ← Finset.sum_add_distrib]
    refine Finset.sum_congr rfl (fun j hj => ?_)
    rw [h j hj]
    ring
  have e7 : sq J R X y θ - sq J R X y θs ≤ ∑ j ∈ J, g j * (θ j - θs j) := by
    have := slope_pair J R X y θ (fun j => θ j - θs j)
    rw [hg, this]
    unfold sq
    rw [← Finset.sum_sub_distrib, Finset.mul_sum]
    refine Finset.sum_le_sum (fun r _ => ?_)
    have : ∑ j ∈ J, X r j * (θ j - θs j) = rs r - res r := by
      simp only [hrs, hres, mul_sub, Finset.sum_sub_distrib]
      ring
    rw [this]
    change res r ^ 2 - rs r ^ 2 ≤ -2 * (res r * (rs r - res r))
    nlinarith [sq_nonneg (res r - rs r)]
  rw [e6]
  have h1 : 2 * η * (sq J R X y θ - sq J R X y θs) ≤ 2 * η * ∑ j ∈ J, g j * (θ j - θs j) := mul_le_mul_of_nonneg_left e7 (by linarith)
  have h2 : η ^ 2 * G ≤ η ^ 2 * (4 * (L * sq J R X y θ)) := mul_le_mul_of_nonneg_left e1 (sq_nonneg _)
  have h3 : 4 * (η * sq J R X y θ) * (η * L) ≤ 4 * (η * sq J R X y θ) * (1 / 4) := mul_le_mul_of_nonneg_left hL (by positivity)
  nlinarith

/-- The derivative of the sum of squares along a line. -/
theorem sq_deriv (θ d : ι → ℝ) : HasDerivAt (fun h : ℝ => sq J R X y (fun j => θ j + h * d j)) (∑ j ∈ J, slope J R X y θ j * d j) 0 := by
  rw [slope_pair]
  have e : (fun h : ℝ => sq J R X y (fun j => θ j + h * d j)) = fun h => ∑ r ∈ R, ((y r - ∑ j ∈ J, X r j * θ j) - h * ∑ j ∈ J, X r j * d j) ^ 2 := by
    funext h
    unfold sq
    refine Finset.sum_congr rfl (fun r _ => ?_)
    congr 1
    rw [Finset.mul_sum, sub_sub, ← Finset.sum_add_distrib]
    congr 1
    exact Finset.sum_congr rfl (fun j _ => by ring)
  rw [e, Finset.mul_sum]
  refine HasDerivAt.fun_sum (fun r _ => ?_)
  have h1 := (((hasDerivAt_id (0 : ℝ)).mul_const (∑ j ∈ J, X r j * d j)).const_sub (y r - ∑ j ∈ J, X r j * θ j)).pow 2
  refine h1.congr_deriv ?_
  simp only [id, zero_mul, sub_zero]
  push_cast
  ring

end

/-- What steps that pay for their excess by coming nearer add up to. -/
theorem paid {η e D : Nat → ℝ} {s : ℝ} {T : Nat} (hη : ∀ t, t < T → 0 ≤ η t) (he : ∀ t, t < T → e (t + 1) ≤ e t) (hp : ∀ t, t < T → 2 * η t * (e (t + 1) - s) ≤ D t - D (t + 1)) (hD : 0 ≤ D T) :
    2 * (∑ t ∈ Finset.range T, η t) * (e T - s) ≤ D 0 := by
  suffices h : ∀ t, t ≤ T → 0 ≤ ∑ i ∈ Finset.range t, η i ∧ 2 * (∑ i ∈ Finset.range t, η i) * (e t - s) ≤ D 0 - D t by
    have := (h T (Nat.le_refl _)).2
    linarith
  intro t
  induction t with
  | zero => intro _; simp
  | succ t ih =>
    intro ht
    obtain ⟨h1, h2⟩ := ih (by omega)
    rw [Finset.sum_range_succ]
    have h3 := hη t (by omega)
    have h4 := he t (by omega)
    have h5 := hp t (by omega)
    refine ⟨by linarith, ?_⟩
    nlinarith [mul_le_mul_of_nonneg_left h4 h1]

/-! ### linear models -/

/-- The coefficients of label `c`: the offset and the coefficient of each feature. -/
def coef (W : Nat → Nat → ℝ) (b : Nat → ℝ) (c : Nat) : Option Nat → ℝ
  | none => b c
  | some p => W p c

/-- The features of a sample, and a one for the offset. -/
def feat (x : Nat → Nat → ℝ) (r : Nat) : Option Nat → ℝ
  | none => 1
  | some p => x r p

/-- The sum of squares of label `c`. -/
def column (n m : Nat) (x y : Nat → Nat → ℝ) (c : Nat) (θ : Option Nat → ℝ) : ℝ := sq (Finset.range m).insertNone (Finset.range n) (feat x) (fun r => y r c) θ

def columnSlope (n m : Nat) (x y : Nat → Nat → ℝ) (c : Nat) (θ : Option Nat → ℝ) : Option Nat → ℝ :=
  slope (Finset.range m).insertNone (Finset.range n) (feat x) (fun r => y r c) θ

theorem residue_columns (n m u : Nat) (x y W : Nat → Nat → ℝ) (b : Nat → ℝ) : residue n m u x y W b = ∑ c ∈ Finset.range u, column n m x y c (coef W b c) := by
  unfold residue column sq
  rw [Finset.sum_comm]
  refine Finset.sum_congr rfl (fun c _ => Finset.sum_congr rfl (fun r _ => ?_))
  rw [Finset.sum_insertNone]
  simp only [feat, coef, one_mul]
  ring

theorem apart2_columns (m u : Nat) (W W' : Nat → Nat → ℝ) (b b' : Nat → ℝ) :
    apart2 m u W b W' b' = ∑ c ∈ Finset.range u, ∑ j ∈ (Finset.range m).insertNone, (coef W b c j - coef W' b' c j) ^ 2 := by
  unfold apart2
  refine Finset.sum_congr rfl (fun c _ => ?_)
  rw [Finset.sum_insertNone]
  simp only [coef]
  ring

theorem steepness_feat (n m : Nat) (x : Nat → Nat → ℝ) : steepness n m x = ∑ r ∈ Finset.range n, ∑ j ∈ (Finset.range m).insertNone, feat x r j ^ 2 := by
  unfold steepness
  refine Finset.sum_congr rfl (fun r _ => ?_)
  rw [Finset.sum_insertNone]
  simp only [feat]
  ring

/-- One step of gradient descent of a linear model. -/
theorem residue_step {n m u : Nat} {x y : Nat → Nat → ℝ} {η : ℝ} (hη : 0 ≤ η) (hL : η * steepness n m x ≤ 1 / 2) {W W' : Nat → Nat → ℝ} {b b' : Nat → ℝ}
    (hW : ∀ p c, p < m → c < u → W' p c = W p c - η * columnSlope n m x y c (coef W b c) (some p))
    (hb : ∀ c, c < u → b' c = b c - η * columnSlope n m x y c (coef W b c) none) (Ws : Nat → Nat → ℝ) (bs : Nat → ℝ) :
    residue n m u x y W' b' ≤ residue n m u x y W b ∧
      2 * η * (residue n m u x y W' b' - residue n m u x y Ws bs) ≤ apart2 m u W b Ws bs - apart2 m u W' b' Ws bs := by
  rw [steepness_feat] at hL
  have key : ∀ c ∈ Finset.range u, _ := fun c hc => sq_step (Finset.range m).insertNone (Finset.range n) (feat x) (fun r => y r c) hη hL (θ := coef W b c) (θ' := coef W' b' c)
    (fun j hj => by
      cases j with
      | none => exact hb c (Finset.mem_range.mp hc)
      | some p => exact hW p c (Finset.mem_range.mp (Finset.some_mem_insertNone.mp hj)) (Finset.mem_range.mp hc)) (coef Ws bs c)
  simp only [residue_columns, apart2_columns]
  refine ⟨Finset.sum_le_sum (fun c hc => (key c hc).1), ?_⟩
  rw [← Finset.sum_sub_distrib, ← Finset.sum_sub_distrib, Finset.mul_sum]
  exact Finset.sum_le_sum (fun c hc => (key c hc).2)

theorem residue_regret {n m u : Nat} {x y : Nat → Nat → ℝ} {η : ℝ} (hη : 0 ≤ η) (hL : η * steepness n m x ≤ 1 / 4) {W W' : Nat → Nat → ℝ} {b b' : Nat → ℝ}
    (hW : ∀ p c, p < m → c < u → W' p c = W p c - η * columnSlope n m x y c (coef W b c) (some p))
    (hb : ∀ c, c < u → b' c = b c - η * columnSlope n m x y c (coef W b c) none) (Ws : Nat → Nat → ℝ) (bs : Nat → ℝ) :
    η * (residue n m u x y W b - 2 * residue n m u x y Ws bs) ≤ apart2 m u W b Ws bs - apart2 m u W' b' Ws bs := by
  rw [steepness_feat] at hL
  have key : ∀ c ∈ Finset.range u, _ := fun c hc => sq_regret (Finset.range m).insertNone (Finset.range n) (feat x) (fun r => y r c) hη hL (θ := coef W b c) (θ' := coef W' b' c)
    (fun j hj => by
      cases j with
      | none => exact hb c (Finset.mem_range.mp hc)
      | some p => exact hW p c (Finset.mem_range.mp (Finset.some_mem_insertNone.mp hj)) (Finset.mem_range.mp hc)) (coef Ws bs c)
  simp only [residue_columns, apart2_columns]
  rw [← Finset.sum_sub_distrib, Finset.mul_sum, ← Finset.sum_sub_distrib, Finset.mul_sum]
  exact Finset.sum_le_sum (fun c hc => key c hc)

theorem residue_floor {n m u : Nat} {x y : Nat → Nat → ℝ} {η : ℝ} (hη : 0 ≤ η) {W W' : Nat → Nat → ℝ} {b b' : Nat → ℝ}
    (hW : ∀ p c, p < m → c < u → W' p c = W p c - η * columnSlope n m x y c (coef W b c) (some p))
    (hb : ∀ c, c < u → b' c = b c - η * columnSlope n m x y c (coef W b c) none) :
    (1 - 4 * (η * steepness n m x)) * residue n m u x y W b ≤ residue n m u x y W' b' := by
  rw [steepness_feat, residue_columns, residue_columns, Finset.mul_sum]
  exact Finset.sum_le_sum (fun c hc => sq_floor (Finset.range m).insertNone (Finset.range n) (feat x) (fun r => y r c) hη (θ := coef W b c) (θ' := coef W' b' c)
    (fun j hj => by
      cases j with
      | none => exact hb c (Finset.mem_range.mp hc)
      | some p => exact hW p c (Finset.mem_range.mp (Finset.some_mem_insertNone.mp hj)) (Finset.mem_range.mp hc)))

/-! ### the loss of a network that ends with a dense layer -/

theorem netVal_append (D : Nat → Ten ℝ) (ks ks' : List Kind) : ∀ s a, netVal D (ks ++ ks') s a = netVal D ks' (netShape ks s) (netVal D ks s a) := by
  induction ks with
  | nil => intro s a; rfl
  | cons k ks ih => intro s a; exact ih _ _

theorem netShape_append (ks ks' : List Kind) : ∀ s, netShape (ks ++ ks') s = netShape ks' (netShape ks s) := by
  induction ks with
  | nil => intro s; rfl
  | cons k ks ih => intro s; exact ih _

/-- Layers without variables do not depend on variables. -/
theorem netVal_fixed (D D' : Nat → Ten ℝ) {ks : List Kind} (h : weightsOf ks = []) : ∀ s a, netVal D ks s a = netVal D' ks s a := by
  induction ks with
  | nil => intro s a; rfl
  | cons k ks ih =>
    intro s a
    have h1 : params k = [] ∧ weightsOf ks = [] := by
      unfold weightsOf at h ⊢
      rw [List.flatMap_cons, List.append_eq_nil_iff] at h
      exact ⟨by simpa using h.1, h.2⟩
    have h2 : val D s a k = val D' s a k := by
      cases k <;> first | rfl | (simp only [params] at h1; exact absurd h1.1 (by simp))
    simp only [netVal]
    rw [h2]
    exact ih h1.2 _ _

/-- Moving one element by `h`. -/
theorem bump_at {t : Ten ℝ} (ht : t.WF) {is js : List Nat} (hv : ValidIdx t.shape is) (hj : ValidIdx t.shape js) (h : ℝ) : (bump t is h).at js = t.at js + h * unitAt is js := by
  unfold Ten.at bump unitAt
  simp only [List.getD_eq_getElem?_getD, List.getElem?_set]
  have hl : flat t.shape is < t.data.length := by rw [ht]; exact flat_lt hv
  by_cases hji : js = is
  · subst hji
    rw [if_pos rfl, if_pos hl, if_pos rfl, mul_one]
    unfold Ten.at
    simp
  · rw [if_neg (fun h => hji (flat_inj hj hv h.symm)), if_neg hji, mul_zero, add_zero]

section
variable {n m u w b : Nat} {x y : Nat → Nat → ℝ}

/-- The sum of squares of a linear model whose coefficients are variables. -/
def modelLoss (n m u w b : Nat) (x y : Nat → Nat → ℝ) (D : Nat → Ten ℝ) : ℝ := residue n m u x y (fun p c => (D w).at [p, c]) (fun c => (D b).at [0, c])

theorem modelLoss_slope {D : Nat → Ten ℝ} (hne : w ≠ b) (hw : (D w).WF ∧ (D w).shape = [m, u]) (hb : (D b).WF ∧ (D b).shape = [1, u]) {c : Nat} (hc : c < u) :
    (∀ p, p < m → partialAt (modelLoss n m u w b x y) D w [p, c] = columnSlope n m x y c (coef (fun p c => (D w).at [p, c]) (fun c => (D b).at [0, c]) c) (some p)) ∧
    partialAt (modelLoss n m u w b x y) D b [0, c] = columnSlope n m x y c (coef (fun p c => (D w).at [p, c]) (fun c => (D b).at [0, c]) c) none := by
  have gen : ∀ (j : Option Nat) (E : ℝ → Nat → Ten ℝ), j ∈ (Finset.range m).insertNone →
      (∀ h c', c' < u → ∀ i ∈ (Finset.range m).insertNone, coef (fun p c => (E h w).at [p, c]) (fun c => (E h b).at [0, c]) c' i =
        coef (fun p c => (D w).at [p, c]) (fun c => (D b).at [0, c]) c' i + h * (if c' = c ∧ i = j then 1 else 0)) →
      HasDerivAt (fun h => modelLoss n m u w b x y (E h)) (columnSlope n m x y c (coef (fun p c => (D w).at [p, c]) (fun c => (D b).at [0, c]) c) j) 0 := by
    intro j E hj hE
    have e : (fun h => modelLoss n m u w b x y (E h)) = fun h => ∑ c' ∈ Finset.range u, column n m x y c' (fun i =>
        coef (fun p c => (D w).at [p, c]) (fun c => (D b).at [0, c]) c' i + h * (if c' = c ∧ i = j then 1 else 0)) := by
      funext h
      unfold modelLoss
      rw [residue_columns]
      refine Finset.sum_congr rfl (fun c' hc' => ?_)
      unfold column sq
      refine Finset.sum_congr rfl (fun r _ => ?_)
      congr 2
      exact Finset.sum_congr rfl (fun i hi => by rw [hE h c' (Finset.mem_range.mp hc') i hi])
    rw [e]
    have := HasDerivAt.fun_sum (u := Finset.range u) (fun c' _ => sq_deriv (Finset.range m).insertNone (Finset.range n) (feat x) (fun r => y r c')
      (coef (fun p c => (D w).at [p, c]) (fun c => (D b).at [0, c]) c') (fun i => if c' = c ∧ i = j then 1 else 0))
    refine this.congr_deriv ?_
    rw [Finset.sum_eq_single c]
    · rw [Finset.sum_eq_single j]
      · simp [columnSlope]
      · intro i _ hi
        simp [hi]
      · intro h; exact absurd hj h
    · intro c' _ hc'
      simp [hc']
    · intro h; exact absurd (Finset.mem_range.mpr hc) h
  constructor
  · intro p hp
    refine (gen (some p) (fun h => upd D w (bump (D w) [p, c] h)) (by simpa using hp) ?_).deriv
    intro h c' hc' i hi
    cases i with
    | none => simp only [coef, upd_ne D _ (Ne.symm hne)]; simp
    | some q =>
      have hq : q < m := by simpa using hi
      simp only [coef, upd_same]
      rw [bump_at hw.1 (by rw [hw.2]; exact ⟨hp, hc, trivial⟩) (by rw [hw.2]; exact ⟨hq, hc', trivial⟩)]
      unfold unitAt
      congr 2
      by_cases h1 : q = p <;> by_cases h2 : c' = c <;> simp [h1, h2]
  · refine (gen none (fun h => upd D b (bump (D b) [0, c] h)) (by simp) ?_).deriv
    intro h c' hc' i hi
    cases i with
    | some q => simp only [coef, upd_ne D _ hne]; simp
    | none =>
      simp only [coef, upd_same]
      rw [bump_at hb.1 (by rw [hb.2]; exact ⟨by omega, hc, trivial⟩) (by rw [hb.2]; exact ⟨by omega, hc', trivial⟩)]
      unfold unitAt
      congr 2
      by_cases h2 : c' = c <;> simp [h2]

/-- The coefficients and offsets that variables hold. -/
def weightOf (D : Nat → Ten ℝ) (w p c : Nat) : ℝ := (D w).at [p, c]
def biasOf (D : Nat → Ten ℝ) (b c : Nat) : ℝ := (D b).at [0, c]

theorem apart2_nonneg (m u : Nat) (W W' : Nat → Nat → ℝ) (b b' : Nat → ℝ) : 0 ≤ apart2 m u W b W' b' :=
  Finset.sum_nonneg (fun _ _ => add_nonneg (Finset.sum_nonneg (fun _ _ => sq_nonneg _)) (sq_nonneg _))

theorem residue_nonneg (n m u : Nat) (x y W : Nat → Nat → ℝ) (b : Nat → ℝ) : 0 ≤ residue n m u x y W b :=
  Finset.sum_nonneg (fun _ _ => Finset.sum_nonneg (fun _ _ => sq_nonneg _))

section
variable {η : Nat → ℝ} {p : Point} {x y : Nat → Nat → Nat → ℝ} {P : Nat → Point} (hne : w ≠ b) (hw : (p.w w).WF ∧ (p.w w).shape = [m, u]) (hb : (p.w b).WF ∧ (p.w b).shape = [1, u])
    (hP : P = path [w, b] (plainLaw η) 1 (fun t => modelLoss n m u w b (x t) (y t)) p)
include hne hw hb hP

/-- What step `t` of the path does to the coefficients. -/
theorem model_next (t : Nat) :
    (∀ i c, i < m → c < u → weightOf (P (t + 1)).w w i c =
      weightOf (P t).w w i c - η t * columnSlope n m (x t) (y t) c (coef (weightOf (P t).w w) (biasOf (P t).w b) c) (some i)) ∧
    ∀ c, c < u → biasOf (P (t + 1)).w b c = biasOf (P t).w b c - η t * columnSlope n m (x t) (y t) c (coef (weightOf (P t).w w) (biasOf (P t).w b) c) none := by
  have hs : ((P t).w w).WF ∧ ((P t).w w).shape = [m, u] ∧ ((P t).w b).WF ∧ ((P t).w b).shape = [1, u] := by
    rw [hP]
    have h1 := path_fits [w, b] (plainLaw η) 1 (fun t => modelLoss n m u w b (x t) (y t)) p t w
    have h2 := path_fits [w, b] (plainLaw η) 1 (fun t => modelLoss n m u w b (x t) (y t)) p t b
    exact ⟨h1.2 hw.1, h1.1.trans hw.2, h2.2 hb.1, h2.1.trans hb.2⟩
  constructor
  · intro i c hi hc
    have := (modelLoss_slope (n := n) (x := x t) (y := y t) (D := (P t).w) hne ⟨hs.1, hs.2.1⟩ ⟨hs.2.2.1, hs.2.2.2⟩ hc).1 i hi
    have e : (P (t + 1)).w w = Optim.tenOf ((P t).w w).shape (fun is => ((P t).w w).at is - η t * (1 * partialAt (modelLoss n m u w b (x t) (y t)) (P t).w w is)) := by
      rw [hP]
      simp only [path, next, plainLaw, List.mem_cons, true_or, if_true]
    unfold weightOf biasOf
    rw [← this, e, (Optim.tenOf_has _ _).at_eq (by rw [hs.2.1]; exact ⟨hi, hc, trivial⟩), one_mul]
  · intro c hc
    have := (modelLoss_slope (n := n) (x := x t) (y := y t) (D := (P t).w) hne ⟨hs.1, hs.2.1⟩ ⟨hs.2.2.1, hs.2.2.2⟩ hc).2
    have e : (P (t + 1)).w b = Optim.tenOf ((P t).w b).shape (fun is => ((P t).w b).at is - η t * (1 * partialAt (modelLoss n m u w b (x t) (y t)) (P t).w b is)) := by
      rw [hP]
      simp only [path, next, plainLaw, List.mem_cons, true_or, or_true, if_true]
    unfold weightOf biasOf
    rw [← this, e, (Optim.tenOf_has _ _).at_eq (by rw [hs.2.2.2]; exact ⟨by omega, hc, trivial⟩), one_mul]

/-- The path of gradient descent on a linear model: no step makes the sum of squares it descends on larger; if it is the same in all steps, its excess over any
other model shrinks with the sum of the rates. -/
theorem model_path {T : Nat} (hη : ∀ t, t < T → 0 ≤ η t) (hL : ∀ t, t < T → η t * steepness n m (x t) ≤ 1 / 2) :
    (∀ t, t < T → modelLoss n m u w b (x t) (y t) (P (t + 1)).w ≤ modelLoss n m u w b (x t) (y t) (P t).w) ∧
    ∀ (Ws : Nat → Nat → ℝ) (bs : Nat → ℝ), (∀ t, x t = x 0 ∧ y t = y 0) →
      2 * (∑ t ∈ Finset.range T, η t) * (modelLoss n m u w b (x 0) (y 0) (P T).w - residue n m u (x 0) (y 0) Ws bs) ≤ apart2 m u (weightOf p.w w) (biasOf p.w b) Ws bs := by
  have one : ∀ t, t < T → ∀ (Ws : Nat → Nat → ℝ) (bs : Nat → ℝ), _ := fun t ht Ws bs =>
    residue_step (hη t ht) (hL t ht) (model_next hne hw hb hP t).1 (model_next hne hw hb hP t).2 Ws bs
  refine ⟨fun t ht => (one t ht (fun _ _ => 0) (fun _ => 0)).1, fun Ws bs hsame => ?_⟩
  have h0 : (P 0).w = p.w := by rw [hP]; rfl
  have := paid (η := η) (e := fun t => modelLoss n m u w b (x 0) (y 0) (P t).w) (D := fun t => apart2 m u (weightOf (P t).w w) (biasOf (P t).w b) Ws bs)
    (s := residue n m u (x 0) (y 0) Ws bs) (T := T) hη
    (fun t ht => by have := (one t ht (fun _ _ => 0) (fun _ => 0)).1; rw [(hsame t).1, (hsame t).2] at this; exact this)
    (fun t ht => by have := (one t ht Ws bs).2; rw [(hsame t).1, (hsame t).2] at this; exact this)
    (apart2_nonneg _ _ _ _ _ _)
  rw [h0] at this
  exact this

/-- The losses along the path of descent on batches: together not more than the distance to any other model, and twice what that model has. -/
theorem model_regret {T : Nat} (hη : ∀ t, t < T → 0 ≤ η t) (hL : ∀ t, t < T → η t * steepness n m (x t) ≤ 1 / 4) (Ws : Nat → Nat → ℝ) (bs : Nat → ℝ) :
    ∑ t ∈ Finset.range T, η t * modelLoss n m u w b (x t) (y t) (P t).w ≤
      apart2 m u (weightOf p.w w) (biasOf p.w b) Ws bs + 2 * ∑ t ∈ Finset.range T, η t * residue n m u (x t) (y t) Ws bs := by
  have h0 : (P 0).w = p.w := by rw [hP]; rfl
  suffices h : ∀ t, t ≤ T → ∑ i ∈ Finset.range t, η i * modelLoss n m u w b (x i) (y i) (P i).w ≤
      apart2 m u (weightOf p.w w) (biasOf p.w b) Ws bs + 2 * ∑ i ∈ Finset.range t, η i * residue n m u (x i) (y i) Ws bs - apart2 m u (weightOf (P t).w w) (biasOf (P t).w b) Ws bs by
    have := h T (Nat.le_refl _)
    have := apart2_nonneg m u (weightOf (P T).w w) Ws (biasOf (P T).w b) bs
    linarith
  intro t
  induction t with
  | zero => intro _; simp [h0]
  | succ t ih =>
    intro ht
    have h1 := ih (by omega)
    have h2 : η t * (modelLoss n m u w b (x t) (y t) (P t).w - _) ≤ _ :=
      residue_regret (hη t (by omega)) (hL t (by omega)) (model_next hne hw hb hP t).1 (model_next hne hw hb hP t).2 Ws bs
    rw [Finset.sum_range_succ, Finset.sum_range_succ]
    linarith

/-- However long the path: the sum of squares falls at most by what the sum of the rates allows. -/
theorem model_floor {T : Nat} (hη : ∀ t, t < T → 0 ≤ η t) (hL : ∀ t, t < T → 4 * (η t * steepness n m (x 0)) ≤ 1) (hsame : ∀ t, x t = x 0 ∧ y t = y 0) :
    (1 - 4 * ((∑ t ∈ Finset.range T, η t) * steepness n m (x 0))) * modelLoss n m u w b (x 0) (y 0) p.w ≤ modelLoss n m u w b (x 0) (y 0) (P T).w := by
  have h0 : (P 0).w = p.w := by rw [hP]; rfl
  suffices h : ∀ t, t ≤ T → (1 - 4 * ((∑ i ∈ Finset.range t, η i) * steepness n m (x 0))) * modelLoss n m u w b (x 0) (y 0) p.w ≤ modelLoss n m u w b (x 0) (y 0) (P t).w ∧
      modelLoss n m u w b (x 0) (y 0) (P t).w ≤ modelLoss n m u w b (x 0) (y 0) p.w from (h T (Nat.le_refl _)).1
  intro t
  induction t with
  | zero => intro _; simp [h0]
  | succ t ih =>
    intro ht
    obtain ⟨h1, h2⟩ := ih (by omega)
    have h3 := residue_floor (hη t (by omega)) (model_next hne hw hb hP t).1 (model_next hne hw hb hP t).2
    have h4 := (residue_step (hη t (by omega)) (by rw [(hsame t).1]; linarith [hL t (by omega)]) (model_next hne hw hb hP t).1 (model_next hne hw hb hP t).2 (fun _ _ => 0) (fun _ => 0)).1
    rw [(hsame t).1, (hsame t).2] at h3 h4
    change (1 - 4 * (η t * steepness n m (x 0))) * modelLoss n m u w b (x 0) (y 0) (P t).w ≤ modelLoss n m u w b (x 0) (y 0) (P (t + 1)).w at h3
    change modelLoss n m u w b (x 0) (y 0) (P (t + 1)).w ≤ modelLoss n m u w b (x 0) (y 0) (P t).w at h4
    refine ⟨?_, by linarith⟩
    rw [Finset.sum_range_succ]
    have hs : 0 ≤ steepness n m (x 0) := Finset.sum_nonneg (fun _ _ => add_nonneg (Finset.sum_nonneg (fun _ _ => sq_nonneg _)) zero_le_one)
    have h5 : 0 ≤ η t * steepness n m (x 0) := mul_nonneg (hη t (by omega)) hs
    have h6 := mul_le_mul_of_nonneg_left h2 h5
    nlinarith

end
end

/-! ### fitting -/

section
variable {O : Type} {eps : ℝ} {step : Ex ℝ → O → OSt → Res (O × OSt)} {η : Nat → ℝ} {J : Nat → O → Prop} {M : List (Ten ℝ) → List Nat → (List Nat → ℝ × ℝ) → Prop}
  {K : Kit} {pre : List Kind} {cfg : Nat → Cfg ℝ} {inp gt : Nat} {nk : Kit → Kit} {inputs outputs : Ten ℝ} {bs n n' : Nat} {a : List Nat} {XI YO : List Nat → ℝ} {epochs : Nat}
  {p : Point} {s : (Kit × List Kind) × O × OSt} {w b m u : Nat} {cw cb : Cfg ℝ}

/-- What the layers before the last make of sample `r` of batch `l`. -/
def featureOf (D : Nat → Ten ℝ) (pre : List Kind) (inputs : Ten ℝ) (bs : Nat) (a : List Nat) (l r i : Nat) : ℝ := netVal D pre (bs :: a) (batch inputs bs l).at [r, i]

/-- The labels of sample `r` of batch `l`. -/
def labelOf (YO : List Nat → ℝ) (bs l r c : Nat) : ℝ := YO [l * bs + r, c]

theorem batchLoss_model (hpre : weightsOf pre = []) (hsh : netShape pre (bs :: a) = [bs, m]) (ho : outputs.Has [n', u] YO) {l : Nat} (hl : l < n' / bs) (D D' : Nat → Ten ℝ) :
    batchLoss (squaredOf [bs, u]) (pre ++ [.dense w b u cw cb]) inputs outputs bs a l D =
      modelLoss bs m u w b (featureOf D' pre inputs bs a l) (labelOf YO bs l) D := by
  unfold batchLoss squaredOf modelLoss residue
  rw [netVal_append, netVal_fixed D D' hpre, hsh]
  simp only [netVal, sumIdx]
  refine Finset.sum_congr rfl (fun r hr => Finset.sum_congr rfl (fun c hc => ?_))
  have hy := (batch_isBatch ho hl n' [u] YO ho).at_eq (is := [r, c]) ⟨Finset.mem_range.mp hr, Finset.mem_range.mp hc, trivial⟩
  rw [hy]
  rfl

/-- The program of C111, for a network that ends with a `Dense` layer, the only one with variables. -/
structure LinearFit (eps : ℝ) (step : Ex ℝ → O → OSt → Res (O × OSt)) (η : Nat → ℝ) (J : Nat → O → Prop) (M : List (Ten ℝ) → List Nat → (List Nat → ℝ × ℝ) → Prop) (K : Kit)
    (pre : List Kind) (cfg : Nat → Cfg ℝ) (inp gt : Nat) (nk : Kit → Kit) (inputs outputs : Ten ℝ) (bs n n' : Nat) (a : List Nat) (XI YO : List Nat → ℝ) (p : Point)
    (s : (Kit × List Kind) × O × OSt) (w b m u : Nat) (cw cb : Cfg ℝ) : Prop where
  moves : Moves eps step (plainLaw η) J M
  trainable : Trainable eps K (pre ++ [.dense w b u cw cb]) (bs :: a) cfg p.w
  acts : ∀ op, Kind.act op ∈ pre → ∀ x, op.Dom x
  fixed : weightsOf pre = []
  shape : netShape pre (bs :: a) = [bs, m]
  two : w ≠ b
  kits : ∀ K, (nk K).red = K.red ∧ (nk K).fuel = K.fuel
  samples : inputs.Has (n :: a) XI
  labels : outputs.Has [n', u] YO
  le : n ≤ n'
  holders : inp ≠ gt
  start : Along (Holds K (pre ++ [.dense w b u cw cb]) (bs :: a) p.w) (weightsOf (pre ++ [.dense w b u cw cb])) J M 0 p
    ((compiledWith (netLoss squaredLoss (bs :: a) inp gt) (netAdv nk (bs :: a) inp) inp gt step).phase true s)

theorem NetOk.append {K : Kit} {D : Nat → Ten ℝ} (ks ks' : List Kind) : ∀ s, NetOk K D (ks ++ ks') s → NetOk K D ks' (netShape ks s) := by
  induction ks with
  | nil => intro s h; exact h
  | cons k ks ih => intro s h; exact ih _ h.2

/-- `fit` follows the path of gradient descent on the sums of squares of the batches. -/
theorem linear_fit_path (h : LinearFit eps step η J M K pre cfg inp gt nk inputs outputs bs n n' a XI YO p s w b m u cw cb) (epochs : Nat) :
    ((p.w w).WF ∧ (p.w w).shape = [m, u]) ∧ ((p.w b).WF ∧ (p.w b).shape = [1, u]) ∧
    ∃ f P, P = path [w, b] (plainLaw η) 1 (fun t => modelLoss bs m u w b (featureOf p.w pre inputs bs a (t % (n / bs))) (labelOf YO bs (t % (n / bs)))) p ∧
      fit (compiledWith (netLoss squaredLoss (bs :: a) inp gt) (netAdv nk (bs :: a) inp) inp gt step) inputs outputs bs epochs 0 s = ok f ∧
      (∀ v ∈ [w, b], f.s.2.2.st.data v = (P (epochs * (n / bs))).w v) ∧
      f.trainErr = (List.range epochs).map (fun ep => (∑ l ∈ Finset.range (n / bs), modelLoss bs m u w b (featureOf p.w pre inputs bs a l) (labelOf YO bs l)
        (P (ep * (n / bs) + l)).w) / ((n / bs : Nat) : ℝ)) := by
  have hv : weightsOf (pre ++ [.dense w b u cw cb]) = [w, b] := by
    have := h.fixed
    unfold weightsOf at this ⊢
    rw [List.flatMap_append, this]
    rfl
  have hlab : netShape (pre ++ [.dense w b u cw cb]) (bs :: a) = bs :: [u] := by
    rw [netShape_append, h.shape]
    rfl
  have hok := NetOk.append pre [.dense w b u cw cb] _ h.trainable.ok
  rw [h.shape] at hok
  obtain ⟨⟨m', k', e, _, hw, hb⟩, _⟩ := hok
  obtain ⟨rfl, rfl⟩ : bs = m' ∧ m = k' := by simpa using e
  obtain ⟨f, h1, h2, h3⟩ := squared_fit_descends (epochs := epochs) h.moves h.trainable (by
    intro op hop
    simp only [List.mem_append, List.mem_singleton, reduceCtorEq, or_false] at hop
    exact h.acts op hop) h.kits h.samples h.labels h.le hlab h.holders h.start
  have hbs : 0 < bs := by
    rcases Nat.eq_zero_or_pos bs with h' | h'
    · exact absurd (by rw [h']; simp) h.trainable.pos
    · exact h'
  refine ⟨hw, hb, f, _, rfl, h1, ?_, ?_⟩
  · rcases Nat.eq_zero_or_pos (n / bs) with h0 | hpos
    · intro v hv'
      rw [h2 v (by rw [hv]; exact hv'), h0]
      simp [path]
    · intro v hv'
      rw [h2 v (by rw [hv]; exact hv'), hv]
      congr 3
      funext t D
      exact batchLoss_model h.fixed h.shape h.labels (lt_of_lt_of_le (Nat.mod_lt _ hpos) (Nat.div_le_div_right h.le)) D p.w
  · rw [h3]
    refine List.map_congr_left (fun ep _ => ?_)
    congr 1
    refine Finset.sum_congr rfl (fun l hl => ?_)
    have hl' := Finset.mem_range.mp hl
    rw [batchLoss_model h.fixed h.shape h.labels (lt_of_lt_of_le hl' (Nat.div_le_div_right h.le)) _ p.w, hv]
    congr 4
    funext t D
    exact batchLoss_model h.fixed h.shape h.labels (lt_of_lt_of_le (Nat.mod_lt _ (by omega)) (Nat.div_le_div_right h.le)) D p.w

/-- C147, one batch: with rates that are not too large, the errors that `fit` reports do not grow, and their excess over the error of any other model (so also of
the best) is not more than the distance of the initial weights to it over twice the sum of the rates; so is that of the error of the weights that `fit` leaves. -/
theorem linear_fit (h : LinearFit eps step η J M K pre cfg inp gt nk inputs outputs bs n n' a XI YO p s w b m u cw cb) (hone : n / bs = 1) (epochs : Nat)
    (hη : ∀ t, t < epochs → 0 ≤ η t) (hL : ∀ t, t < epochs → η t * steepness bs m (featureOf p.w pre inputs bs a 0) ≤ 1 / 2) :
    ∃ f, ∃ e : Nat → ℝ, fit (compiledWith (netLoss squaredLoss (bs :: a) inp gt) (netAdv nk (bs :: a) inp) inp gt step) inputs outputs bs epochs 0 s = ok f ∧
      f.trainErr = (List.range epochs).map e ∧
      e epochs = residue bs m u (featureOf p.w pre inputs bs a 0) (labelOf YO bs 0) (weightOf f.s.2.2.st.data w) (biasOf f.s.2.2.st.data b) ∧
      (∀ t, t < epochs → e (t + 1) ≤ e t) ∧
      ∀ t, t ≤ epochs → ∀ (Ws : Nat → Nat → ℝ) (bs' : Nat → ℝ),
        2 * (∑ i ∈ Finset.range t, η i) * (e t - residue bs m u (featureOf p.w pre inputs bs a 0) (labelOf YO bs 0) Ws bs') ≤
          apart2 m u (weightOf p.w w) (biasOf p.w b) Ws bs' := by
  obtain ⟨hw, hb, f, P, hP, h1, h2, h3⟩ := linear_fit_path h epochs
  rw [hone] at hP h2 h3
  simp only [Nat.mod_one] at hP
  simp only [Finset.range_one, Finset.sum_singleton, Nat.cast_one, div_one, mul_one, add_zero] at h2 h3
  refine ⟨f, fun t => modelLoss bs m u w b (featureOf p.w pre inputs bs a 0) (labelOf YO bs 0) (P t).w, h1, h3, ?_, ?_, fun t ht Ws bs' => ?_⟩
  · unfold modelLoss weightOf biasOf
    rw [h2 w (by simp), h2 b (by simp)]
  · exact fun t ht => (model_path (x := fun _ => featureOf p.w pre inputs bs a 0) (y := fun _ => labelOf YO bs 0) h.two hw hb hP hη hL).1 t ht
  · exact (model_path (x := fun _ => featureOf p.w pre inputs bs a 0) (y := fun _ => labelOf YO bs 0) (T := t) h.two hw hb hP (fun i hi => hη i (by omega)) (fun i hi => hL i (by omega))).2
      Ws bs' (fun _ => ⟨rfl, rfl⟩)

/-- C147, one batch: with a constant rate the error becomes as small as that of the best linear model. -/
theorem linear_fit_converges_partial {lr : ℝ} (h : LinearFit eps step (fun _ => lr) J M K pre cfg inp gt nk inputs outputs bs n n' a XI YO p s w b m u cw cb) (hone : n / bs = 1) (hlr : 0 < lr)
    (hL : lr * steepness bs m (featureOf p.w pre inputs bs a 0) ≤ 1 / 2) {ε : ℝ} (hε : 0 < ε) :
    ∃ T, ∀ epochs, T ≤ epochs → ∃ f, fit (compiledWith (netLoss squaredLoss (bs :: a) inp gt) (netAdv nk (bs :: a) inp) inp gt step) inputs outputs bs epochs 0 s = ok f ∧
      residue bs m u (featureOf p.w pre inputs bs a 0) (labelOf YO bs 0) (weightOf f.s.2.2.st.data w) (biasOf f.s.2.2.st.data b) <
        (⨅ q : (Nat → Nat → ℝ) × (Nat → ℝ), residue bs m u (featureOf p.w pre inputs bs a 0) (labelOf YO bs 0) q.1 q.2) + ε := by
  obtain ⟨q, hq⟩ := exists_lt_of_ciInf_lt (show (⨅ q : (Nat → Nat → ℝ) × (Nat → ℝ), residue bs m u (featureOf p.w pre inputs bs a 0) (labelOf YO bs 0) q.1 q.2) <
    (⨅ q : (Nat → Nat → ℝ) × (Nat → ℝ), residue bs m u (featureOf p.w pre inputs bs a 0) (labelOf YO bs 0) q.1 q.2) + ε / 2 by linarith)
  obtain ⟨T, hT⟩ := exists_nat_gt (apart2 m u (weightOf p.w w) (biasOf p.w b) q.1 q.2 / (lr * ε))
  refine ⟨T, fun epochs hep => ?_⟩
  obtain ⟨f, e, h1, _, h3, _, h5⟩ := linear_fit h hone epochs (fun _ _ => hlr.le) (fun _ _ => hL)
  refine ⟨f, h1, ?_⟩
  rw [← h3]
  have h6 := h5 epochs (Nat.le_refl _) q.1 q.2
  rw [Finset.sum_const, Finset.card_range, nsmul_eq_mul] at h6
  have hpos : 0 < lr * ε := mul_pos hlr hε
  have h7 : apart2 m u (weightOf p.w w) (biasOf p.w b) q.1 q.2 < epochs * (lr * ε) := by
    rw [div_lt_iff₀ hpos] at hT
    have : (T : ℝ) ≤ epochs := by exact_mod_cast hep
    nlinarith
  have h8 : e epochs - residue bs m u (featureOf p.w pre inputs bs a 0) (labelOf YO bs 0) q.1 q.2 < ε / 2 := by
    by_contra hcon
    push Not at hcon
    have h9 : (0 : ℝ) ≤ 2 * (epochs * lr) := by positivity
    have := mul_le_mul_of_nonneg_left hcon h9
    nlinarith
  linarith

/-- C147, one batch: whatever the number of epochs, the error of the weights that `fit` leaves is not smaller than the sum of the rates allows. -/
theorem linear_fit_floor (h : LinearFit eps step η J M K pre cfg inp gt nk inputs outputs bs n n' a XI YO p s w b m u cw cb) (hone : n / bs = 1) (epochs : Nat)
    (hη : ∀ t, t < epochs → 0 ≤ η t) (hL : ∀ t, t < epochs → 4 * (η t * steepness bs m (featureOf p.w pre inputs bs a 0)) ≤ 1) :
    ∃ f, fit (compiledWith (netLoss squaredLoss (bs :: a) inp gt) (netAdv nk (bs :: a) inp) inp gt step) inputs outputs bs epochs 0 s = ok f ∧
      (1 - 4 * ((∑ t ∈ Finset.range epochs, η t) * steepness bs m (featureOf p.w pre inputs bs a 0))) *
          residue bs m u (featureOf p.w pre inputs bs a 0) (labelOf YO bs 0) (weightOf p.w w) (biasOf p.w b) ≤
        residue bs m u (featureOf p.w pre inputs bs a 0) (labelOf YO bs 0) (weightOf f.s.2.2.st.data w) (biasOf f.s.2.2.st.data b) := by
  obtain ⟨hw, hb, f, P, hP, h1, h2, h3⟩ := linear_fit_path h epochs
  rw [hone] at hP h2
  simp only [Nat.mod_one] at hP
  simp only [mul_one] at h2
  refine ⟨f, h1, ?_⟩
  have := model_floor (x := fun _ => featureOf p.w pre inputs bs a 0) (y := fun _ => labelOf YO bs 0) (T := epochs) h.two hw hb hP hη hL (fun _ => ⟨rfl, rfl⟩)
  refine this.trans (le_of_eq ?_)
  unfold modelLoss weightOf biasOf
  rw [h2 w (by simp), h2 b (by simp)]

theorem one_le_decays {decay : ℝ} (hd : 0 ≤ decay) (t : Nat) : (1 : ℝ) ≤ ∏ i ∈ Finset.range t, (1 + decay * i) := by
  induction t with
  | zero => simp
  | succ t ih =>
    rw [Finset.prod_range_succ]
    have : 0 ≤ decay * (t : ℝ) := mul_nonneg hd (Nat.cast_nonneg t)
    nlinarith

/-- The rates that the code makes of a decay (C59) have a bounded sum: all steps together go no further than `k + 2` steps without decay, `1 ≤ decay * k`.  The
documented rates `lr / (1 + decay t)` have not. -/
theorem rates_bounded {lr decay : ℝ} (hlr : 0 ≤ lr) (hd : 0 ≤ decay) {k : Nat} (hk : 1 ≤ decay * k) (T : Nat) : ∑ t ∈ Finset.range T, rates lr decay t ≤ lr * (k + 2) := by
  have low : ∀ t, (1 : ℝ) ≤ ∏ i ∈ Finset.range (t + 1), (1 + decay * i) := fun t => one_le_decays hd _
  have high : ∀ j : Nat, (2 : ℝ) ^ j ≤ ∏ i ∈ Finset.range (k + j + 1), (1 + decay * i) := by
    intro j
    induction j with
    | zero => simpa using low k
    | succ j ih =>
      rw [show k + (j + 1) + 1 = (k + j + 1) + 1 by omega, Finset.prod_range_succ, pow_succ]
      refine mul_le_mul ih ?_ (by norm_num) ((zero_le_one).trans (low _))
      have : decay * k ≤ decay * ((k + j + 1 : Nat) : ℝ) := mul_le_mul_of_nonneg_left (by exact_mod_cast (by omega : k ≤ k + j + 1)) hd
      linarith
  have small : ∀ t, rates lr decay t ≤ lr := fun t => by
    unfold rates
    exact div_le_self hlr (low t)
  have nonneg : ∀ t, 0 ≤ rates lr decay t := fun t => div_nonneg hlr ((zero_le_one).trans (low t))
  have tail : ∀ n : Nat, ∑ j ∈ Finset.range n, rates lr decay (k + j) ≤ lr * (2 - 2 * (1 / 2) ^ n) := by
    intro n
    induction n with
    | zero => simp
    | succ n ih =>
      rw [Finset.sum_range_succ]
      have : rates lr decay (k + n) ≤ lr * (1 / 2) ^ n := by
        unfold rates
        rw [one_div, inv_pow, ← div_eq_mul_inv]
        exact div_le_div_of_nonneg_left hlr (by positivity) (high n)
      rw [pow_succ]
      linarith
  have h1 : ∑ t ∈ Finset.range T, rates lr decay t ≤ ∑ t ∈ Finset.range (k + T), rates lr decay t :=
    Finset.sum_le_sum_of_subset_of_nonneg (Finset.range_mono (by omega)) (fun t _ _ => nonneg t)
  rw [Finset.sum_range_add] at h1
  have h2 : ∑ t ∈ Finset.range k, rates lr decay t ≤ k * lr := by
    have := Finset.sum_le_card_nsmul (Finset.range k) (rates lr decay) lr (fun t _ => small t)
    simpa using this
  have h3 := tail T
  have h4 : 0 ≤ lr * (2 * (1 / 2) ^ T) := by positivity
  linarith

/-- C147 is violated by rates that decay: if the rate is small, the error of the weights that `fit` leaves stays above a fixed share of the initial error, whatever the
number of epochs and however small the error of the best linear model. -/
theorem linear_fit_decay_violated {lr decay : ℝ} {k : Nat}
    (h : LinearFit eps step (rates lr decay) J M K pre cfg inp gt nk inputs outputs bs n n' a XI YO p s w b m u cw cb) (hone : n / bs = 1) (hlr : 0 ≤ lr) (hd : 0 ≤ decay)
    (hk : 1 ≤ decay * k) (hL : 4 * (lr * (k + 2) * steepness bs m (featureOf p.w pre inputs bs a 0)) < 1)
    (h0 : residue bs m u (featureOf p.w pre inputs bs a 0) (labelOf YO bs 0) (weightOf p.w w) (biasOf p.w b) ≠ 0) :
    ∃ c, 0 < c ∧ ∀ epochs, ∃ f, fit (compiledWith (netLoss squaredLoss (bs :: a) inp gt) (netAdv nk (bs :: a) inp) inp gt step) inputs outputs bs epochs 0 s = ok f ∧
      c ≤ residue bs m u (featureOf p.w pre inputs bs a 0) (labelOf YO bs 0) (weightOf f.s.2.2.st.data w) (biasOf f.s.2.2.st.data b) := by
  have hs : 0 ≤ steepness bs m (featureOf p.w pre inputs bs a 0) := Finset.sum_nonneg (fun _ _ => add_nonneg (Finset.sum_nonneg (fun _ _ => sq_nonneg _)) zero_le_one)
  have hr := residue_nonneg bs m u (featureOf p.w pre inputs bs a 0) (labelOf YO bs 0) (weightOf p.w w) (biasOf p.w b)
  have low : ∀ t, (1 : ℝ) ≤ ∏ i ∈ Finset.range (t + 1), (1 + decay * i) := fun t => one_le_decays hd _
  refine ⟨(1 - 4 * (lr * (k + 2) * steepness bs m (featureOf p.w pre inputs bs a 0))) * residue bs m u (featureOf p.w pre inputs bs a 0) (labelOf YO bs 0) (weightOf p.w w) (biasOf p.w b),
    mul_pos (by linarith) (lt_of_le_of_ne hr (Ne.symm h0)), fun epochs => ?_⟩
  have hnn : ∀ t, 0 ≤ rates lr decay t := fun t => div_nonneg hlr ((zero_le_one).trans (low t))
  have hle : ∀ t, rates lr decay t ≤ lr * (k + 2) := fun t => by
    have h1 : rates lr decay t ≤ lr := div_le_self hlr (low t)
    have h2 : (0 : ℝ) ≤ k := Nat.cast_nonneg k
    nlinarith
  obtain ⟨f, h1, h2⟩ := linear_fit_floor h hone epochs (fun t _ => hnn t) (fun t _ => by
    have := mul_le_mul_of_nonneg_right (hle t) hs
    linarith)
  refine ⟨f, h1, le_trans (mul_le_mul_of_nonneg_right ?_ hr) h2⟩
  have := mul_le_mul_of_nonneg_right (rates_bounded hlr hd hk epochs) hs
  linarith

/-- C147, any number of batches: with a constant rate that is not too large for any batch, the mean of the errors that `fit` reports is not more than twice the mean
of the errors of any model over the batches, and the distance of the initial weights to it over rate and number of steps. -/
theorem linear_fit_mean {lr : ℝ} (h : LinearFit eps step (fun _ => lr) J M K pre cfg inp gt nk inputs outputs bs n n' a XI YO p s w b m u cw cb) (hN : 0 < n / bs) (hlr : 0 < lr)
    (hL : ∀ l, l < n / bs → lr * steepness bs m (featureOf p.w pre inputs bs a l) ≤ 1 / 4) {epochs : Nat} (hep : 0 < epochs) :
    ∃ f, fit (compiledWith (netLoss squaredLoss (bs :: a) inp gt) (netAdv nk (bs :: a) inp) inp gt step) inputs outputs bs epochs 0 s = ok f ∧ f.trainErr.length = epochs ∧
      ∀ (Ws : Nat → Nat → ℝ) (bs' : Nat → ℝ), f.trainErr.sum / epochs ≤ apart2 m u (weightOf p.w w) (biasOf p.w b) Ws bs' / (lr * (epochs * (n / bs : Nat) : ℝ)) +
        2 * ((∑ l ∈ Finset.range (n / bs), residue bs m u (featureOf p.w pre inputs bs a l) (labelOf YO bs l) Ws bs') / ((n / bs : Nat) : ℝ)) := by
  obtain ⟨hw, hb, f, P, hP, h1, h2, h3⟩ := linear_fit_path h epochs
  refine ⟨f, h1, by rw [h3]; simp, fun Ws bs' => ?_⟩
  have key := model_regret (T := epochs * (n / bs)) (x := fun t => featureOf p.w pre inputs bs a (t % (n / bs))) (y := fun t => labelOf YO bs (t % (n / bs))) h.two hw hb hP
    (fun _ _ => hlr.le) (fun t _ => hL _ (Nat.mod_lt _ hN)) Ws bs'
  have hsum : ∀ g : Nat → Nat → ℝ, ∑ t ∈ Finset.range (epochs * (n / bs)), lr * g (t % (n / bs)) t = lr * ∑ ep ∈ Finset.range epochs, ∑ l ∈ Finset.range (n / bs), g l (ep * (n / bs) + l) := by
    intro g
    rw [← Finset.mul_sum, sum_range_mul]
    congr 1
    refine Finset.sum_congr rfl (fun ep _ => Finset.sum_congr rfl (fun l hl => ?_))
    rw [show (ep * (n / bs) + l) % (n / bs) = l by rw [Nat.mul_comm, Nat.mul_add_mod, Nat.mod_eq_of_lt (Finset.mem_range.mp hl)]]
  have k1 := hsum (fun l t => modelLoss bs m u w b (featureOf p.w pre inputs bs a l) (labelOf YO bs l) (P t).w)
  have k2 := hsum (fun l _ => residue bs m u (featureOf p.w pre inputs bs a l) (labelOf YO bs l) Ws bs')
  rw [k1, k2, Finset.sum_const, Finset.card_range, nsmul_eq_mul] at key
  have hN' : (0 : ℝ) < ((n / bs : Nat) : ℝ) := by exact_mod_cast hN
  have hE : (0 : ℝ) < (epochs : ℝ) := by exact_mod_cast hep
  have e3 : f.trainErr.sum = (∑ ep ∈ Finset.range epochs, ∑ l ∈ Finset.range (n / bs), modelLoss bs m u w b (featureOf p.w pre inputs bs a l) (labelOf YO bs l)
      (P (ep * (n / bs) + l)).w) / ((n / bs : Nat) : ℝ) := by
    have hmap : ∀ (g : Nat → ℝ) (k : Nat), ((List.range k).map g).sum = ∑ i ∈ Finset.range k, g i := by
      intro g k
      induction k with
      | zero => simp
      | succ k ih => simp [List.range_succ, Finset.sum_range_succ, ih]
    rw [h3, Finset.sum_div, hmap]
  rw [e3]
  generalize (∑ ep ∈ Finset.range epochs, ∑ l ∈ Finset.range (n / bs), modelLoss bs m u w b (featureOf p.w pre inputs bs a l) (labelOf YO bs l)
      (P (ep * (n / bs) + l)).w) = A at key ⊢
  generalize (∑ l ∈ Finset.range (n / bs), residue bs m u (featureOf p.w pre inputs bs a l) (labelOf YO bs l) Ws bs') = B at key ⊢
  generalize apart2 m u (weightOf p.w w) (biasOf p.w b) Ws bs' = C at key ⊢
  generalize ((n / bs : Nat) : ℝ) = N at hN' ⊢
  generalize (epochs : ℝ) = E at hE key ⊢
  have : C / (lr * (E * N)) + 2 * (B / N) - A / N / E = (C + 2 * (lr * (E * B)) - lr * A) / (lr * (E * N)) := by
    field_simp
  have h9 : 0 ≤ (C + 2 * (lr * (E * B)) - lr * A) / (lr * (E * N)) := div_nonneg (by linarith) (by positivity)
  linarith

end
end
end Verif.Descent
