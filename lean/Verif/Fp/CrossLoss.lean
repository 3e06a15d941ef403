import Verif.Fp.SquaredLoss
import Verif.Finite.Losses
/-!
# softmax and the cross entropy computed with rounding (C143)

`softmax` (`include/tensor.tcc`) and the gradient of `cross_entropy_loss` (`include/loss.hpp` lines 61-113) for the rounded formats: how far the probabilities are
from the exact ones, and what the loss sends to the predictions of a network of C141.
-/
namespace Verif.Fp
open Verif Res Verif.Finite Nan Graph Ops Finset
open Verif.Norm (batch_table table_batch)

variable {f : Fmt}

/-! ### the operator -/

/-- `cross_entropy_loss( label, prediction )` (include/loss.hpp lines 61-113); the labels are place holder `b`. -/
def crossOp (exp log : Num f → Num f) (eps k : Num f) : BOp (Num f) := ⟨Softmax.crossForwardOf exp log eps k, fun truth pred _ g => crossBackwardOf exp eps k truth pred g⟩

@[inherit_doc crossOp] def crossOf {α : Type} (ce : BOp α) (j b : Nat) (e : Ex α) : Ex α := .bin j ce (.leaf b) e

/-! ### the specification -/

/-- The probabilities of the scores `X`. -/
noncomputable def prob (n : Nat) (X : Nat → ℝ) (j : Nat) : ℝ := Real.exp (X j) / ∑ c ∈ range n, Real.exp (X c)

/-- The error of a score minus the largest: scores within `e` of numbers at most `R` apart. -/
def shiftErr (u R e : ℝ) : ℝ := e + u * (R + 2 * e)

/-- The relative error of its exponential, whose own is `ρ`. -/
noncomputable def expErr (u ρ R e : ℝ) : ℝ := Real.exp (shiftErr u R e) * (1 + ρ) - 1

/-- The relative error of the sum of the exponentials. -/
noncomputable def sumErr (u w ρ : ℝ) (n : Nat) (R e : ℝ) : ℝ := expErr u ρ R e + n * (w * Real.exp e) + roundings u n (1 + expErr u ρ R e + n * (w * Real.exp e))

/-- The same with `ε` added to the sum. -/
noncomputable def totErr (u w ρ ε : ℝ) (n : Nat) (R e : ℝ) : ℝ := ε * Real.exp e + addErr u (1 + ε * Real.exp e) (sumErr u w ρ n R e)

/-- The error of the quotient, before it is rounded. -/
noncomputable def quotErr (u w ρ ε : ℝ) (n : Nat) (R e : ℝ) : ℝ := (expErr u ρ R e + w * Real.exp e + totErr u w ρ ε n R e) / (1 - totErr u w ρ ε n R e)

/-- The error of a probability. -/
noncomputable def softErr (u w ρ ε : ℝ) (n : Nat) (R e : ℝ) : ℝ := quotErr u w ρ ε n R e + (u * (1 + quotErr u w ρ ε n R e) + w)

/-- No step overflows, and the sum is not all error. -/
def SoftFits (u w top ρ ε : ℝ) (n : Nat) (R e : ℝ) : Prop :=
  R + 2 * e ≤ top ∧ totErr u w ρ ε n R e < 1 ∧ n * Real.exp e * (1 + ε * Real.exp e + sumErr u w ρ n R e) < top ∧ 1 + quotErr u w ρ ε n R e ≤ top

/-- The error of what the loss sends to a score: the probability is wrong by `s`, the weight `V` of the label by `ν`, and what arrives at the loss by `κ`. -/
def crossErr (u w P s V ν C κ : ℝ) : ℝ := mulErr u w C κ (P - V) (addErr u (P - V) (s + ν))

@[inherit_doc SoftFits] def CrossFits (u top P s V ν C κ : ℝ) : Prop := |P - V| + (s + ν) ≤ top ∧ (|C| + κ) * (|P - V| + addErr u (P - V) (s + ν)) ≤ top

/-! ### proofs -/

theorem lt_val {a b : Num f} (ha : fin a) (hb : fin b) : a < b ↔ val a < val b := by
  obtain ⟨x, hx, rfl⟩ := Num.fin_iff.mp ha
  obtain ⟨y, hy, rfl⟩ := Num.fin_iff.mp hb
  constructor
  · intro h
    have : x < y := of_decide_eq_true h
    show (x : ℝ) < (y : ℝ)
    exact_mod_cast this
  · intro h
    have h : (x : ℝ) < (y : ℝ) := h
    exact decide_eq_true (show x < y by exact_mod_cast h)

/-- The largest of finite numbers is one of them, and exact. -/
theorem top_val {x : Nat → Num f} : ∀ {k : Nat}, (∀ c, c ≤ k → fin (x c)) → ∃ c, c ≤ k ∧ Nan.top x k = x c ∧ ∀ c', c' ≤ k → val (x c') ≤ val (x c)
  | 0, _ => ⟨0, le_rfl, rfl, fun c' h => le_of_eq (by rw [Nat.le_zero.mp h])⟩
  | k + 1, hx => by
    obtain ⟨c, hc, e, hle⟩ := top_val (k := k) (fun c hc => hx c (by omega))
    unfold Nan.top
    rw [e]
    by_cases hlt : x c < x (k + 1)
    · rw [if_pos hlt]
      have hv := (lt_val (hx c (by omega)) (hx _ le_rfl)).mp hlt
      refine ⟨k + 1, le_rfl, rfl, fun c' h' => ?_⟩
      by_cases hk : c' = k + 1
      · subst hk; exact le_rfl
      · exact (hle c' (by omega)).trans hv.le
    · rw [if_neg hlt]
      have hv := (lt_val (hx c (by omega)) (hx _ le_rfl)).not.mp hlt
      refine ⟨c, by omega, rfl, fun c' h' => ?_⟩
      by_cases hk : c' = k + 1
      · subst hk; exact not_lt.mp hv
      · exact hle c' (by omega)

/-- A quotient is rounded once. -/
theorem div_near {a b : Num f} (ha : fin a) (hb : fin b) (hb0 : val b ≠ 0) (htop : |val a / val b| ≤ Arith.top (Num f)) :
    fin (a / b) ∧ |val (a / b) - val a / val b| ≤ Arith.u (Num f) * |val a / val b| + Arith.w (Num f) := by
  obtain ⟨x, hx, rfl⟩ := Num.fin_iff.mp ha
  obtain ⟨y, hy, rfl⟩ := Num.fin_iff.mp hb
  have hy0 : y ≠ 0 := by
    intro h
    subst h
    exact hb0 (by show ((0 : ℚ) : ℝ) = 0; simp)
  have htop : |(x : ℝ) / (y : ℝ)| ≤ ((largest f : ℚ) : ℝ) := htop
  have hle : |rnd f (x / y)| ≤ largest f := rnd_le_largest f (by exact_mod_cast htop)
  have hq : (Num.num x hx : Num f) / .num y hy = .num (rnd f (x / y)) (rnd_grid f _) := by
    show (if y = 0 then _ else toNum f (x / y)) = _
    rw [if_neg hy0, toNum_of hle]
  rw [hq]
  refine ⟨trivial, ?_⟩
  have := rnd_err f (x / y)
  show |((rnd f (x / y) : ℚ) : ℝ) - (x : ℝ) / (y : ℝ)| ≤ (((1 / 2) ^ f.p : ℚ) : ℝ) * |(x : ℝ) / (y : ℝ)| + (((2 : ℚ) ^ f.emin / 2 : ℚ) : ℝ)
  have h := (Rat.cast_le (K := ℝ)).mpr this
  push_cast at h ⊢
  exact h

theorem exp_two (η : ℝ) : 1 - Real.exp (-η) ≤ Real.exp η - 1 := by
  have h : Real.exp η * Real.exp (-η) = 1 := by rw [← Real.exp_add]; simp
  have h1 := Real.exp_pos η
  have h2 := Real.exp_pos (-η)
  nlinarith [sq_nonneg (Real.exp η - Real.exp (-η)), sq_nonneg (Real.exp η + Real.exp (-η) - 2), sq_nonneg (Real.exp η - 1), sq_nonneg (Real.exp (-η) - 1)]

theorem exp_near {exp : Num f → Num f} {ρ : ℝ} (hρ : 0 ≤ ρ) (hexp : ExpNear exp ρ) {d : Num f} {D η : ℝ} (hd : fin d ∧ |val d - D| ≤ η)
    (htop : (1 + ρ) * Real.exp (D + η) + Arith.w (Num f) < Arith.top (Num f)) :
    fin (exp d) ∧ 0 ≤ val (exp d) ∧ |val (exp d) - Real.exp D| ≤ (Real.exp η * (1 + ρ) - 1) * Real.exp D + Arith.w (Num f) := by
  obtain ⟨q, hq, rfl⟩ := Num.fin_iff.mp hd.1
  have hv : |(q : ℝ) - D| ≤ η := hd.2
  obtain ⟨v1, v2⟩ := abs_le.mp hv
  have hD := Real.exp_pos D
  have h1 : Real.exp (q : ℝ) ≤ Real.exp D * Real.exp η := by rw [← Real.exp_add]; exact Real.exp_le_exp.mpr (by linarith)
  have h2 : Real.exp D * Real.exp (-η) ≤ Real.exp (q : ℝ) := by rw [← Real.exp_add]; exact Real.exp_le_exp.mpr (by linarith)
  have h3 : |Real.exp (q : ℝ) - Real.exp D| ≤ Real.exp D * (Real.exp η - 1) := by
    have := mul_le_mul_of_nonneg_left (exp_two η) hD.le
    rw [abs_le]
    constructor <;> nlinarith
  rcases hexp q hq with ⟨t, h, e, t0, t1⟩ | ⟨_, h⟩
  · rw [e]
    refine ⟨trivial, by show (0 : ℝ) ≤ (t : ℝ); exact_mod_cast t0, ?_⟩
    show |(t : ℝ) - Real.exp D| ≤ _
    have h4 := abs_add_le ((t : ℝ) - Real.exp q) (Real.exp q - Real.exp D)
    rw [sub_add_sub_cancel] at h4
    have h5 := mul_le_mul_of_nonneg_left h1 hρ
    nlinarith
  · exfalso
    rw [Real.exp_add] at htop
    have := mul_le_mul_of_nonneg_left h1 (show 0 ≤ 1 + ρ by linarith)
    linarith

theorem total_sums (φ : Num f → Num f) (x : Nat → Num f) : ∀ n, Sums (0 :: (List.range n).map (fun c => φ (x c))) (total φ x n)
  | 0 => .one 0
  | n + 1 => by
    rw [List.range_succ, List.map_append, ← List.cons_append]
    exact .add (total_sums φ x n) (.one _)

theorem quot_near {E B S S' T β : ℝ} (hS : 0 < S) (hE : 0 ≤ E) (hES : E ≤ S) (hB : |B - E| ≤ β * S) (hS' : |S' - S| ≤ T * S) (hT : T < 1) :
    0 < S' ∧ |B / S' - E / S| ≤ (β + T) / (1 - T) := by
  obtain ⟨s1, s2⟩ := abs_le.mp hS'
  have hT' : 0 < 1 - T := by linarith
  have hlow : (1 - T) * S ≤ S' := by nlinarith
  have hpos : 0 < S' := lt_of_lt_of_le (mul_pos hT' hS) hlow
  refine ⟨hpos, ?_⟩
  have e : B / S' - E / S = ((B - E) + E / S * (S - S')) / S' := by field_simp; ring
  have hr : 0 ≤ E / S ∧ E / S ≤ 1 := ⟨div_nonneg hE hS.le, (div_le_one hS).mpr hES⟩
  have h1 : |(B - E) + E / S * (S - S')| ≤ (β + T) * S := by
    refine (abs_add_le _ _).trans ?_
    rw [abs_mul, abs_of_nonneg hr.1, abs_sub_comm S S']
    have := mul_le_mul_of_nonneg_right hr.2 (abs_nonneg (S' - S))
    linarith
  rw [e, abs_div, abs_of_pos hpos, div_le_div_iff₀ hpos hT']
  have h2 : 0 ≤ (β + T) * S := (abs_nonneg _).trans h1
  have h3 : 0 ≤ β + T := nonneg_of_mul_nonneg_left h2 hS
  calc |(B - E) + E / S * (S - S')| * (1 - T) ≤ (β + T) * S * (1 - T) := mul_le_mul_of_nonneg_right h1 hT'.le
    _ = (β + T) * ((1 - T) * S) := by ring
    _ ≤ (β + T) * S' := mul_le_mul_of_nonneg_left hlow h3

theorem prob_shift (n : Nat) (X : Nat → ℝ) (t : ℝ) (j : Nat) : Real.exp (X j - t) / ∑ c ∈ range n, Real.exp (X c - t) = prob n X j := by
  unfold prob
  have : ∀ c, Real.exp (X c - t) = Real.exp (X c) / Real.exp t := fun c => Real.exp_sub _ _
  simp only [this]
  rw [← Finset.sum_div, div_div_div_cancel_right₀ (Real.exp_pos t).ne']

theorem prob_bounds (n : Nat) (X : Nat → ℝ) {j : Nat} (hj : j < n) : 0 ≤ prob n X j ∧ prob n X j ≤ 1 := by
  unfold prob
  have h1 : Real.exp (X j) ≤ ∑ c ∈ range n, Real.exp (X c) := single_le_sum (f := fun c => Real.exp (X c)) (fun c _ => (Real.exp_pos _).le) (mem_range.mpr hj)
  have h2 := Real.exp_pos (X j)
  exact ⟨by positivity, (div_le_one (by linarith)).mpr h1⟩

set_option maxHeartbeats 1600000 in
/-- C143: a row of softmax is within `softErr` of the probabilities of the scores. -/
theorem soft_row_near {exp : Num f → Num f} {ρ ε e R : ℝ} (hρ : 0 ≤ ρ) (hexp : ExpNear exp ρ) {eps : Num f} (heps : fin eps ∧ val eps = ε) (hε : 0 ≤ ε) {n : Nat} {x : Nat → Num f} {X : Nat → ℝ}
    (hx : ∀ c, c < n → fin (x c) ∧ |val (x c) - X c| ≤ e) (hR : ∀ c c', c < n → c' < n → |X c - X c'| ≤ R)
    (hfit : SoftFits (Arith.u (Num f)) (Arith.w (Num f)) (Arith.top (Num f)) ρ ε n R e) {j : Nat} (hj : j < n) :
    fin (softRow exp eps n x j) ∧ |val (softRow exp eps n x j) - prob n X j| ≤ softErr (Arith.u (Num f)) (Arith.w (Num f)) ρ ε n R e := by
  obtain ⟨f1, f2, f3, f4⟩ := hfit
  have hu := Arith.u_nonneg (F := Num f)
  have hw := Arith.w_nonneg (F := Num f)
  have he0 : 0 ≤ e := (abs_nonneg _).trans (hx j hj).2
  have hR0 : 0 ≤ R := (abs_nonneg _).trans (hR j j hj hj)
  have hn1 : (1 : ℝ) ≤ n := by exact_mod_cast (by omega : 1 ≤ n)
  obtain ⟨k, hk, ek, hmax⟩ := top_val (x := x) (k := n - 1) (fun c hc => (hx c (by omega)).1)
  have hk : k < n := by omega
  set u := Arith.u (Num f) with hu'
  set w := Arith.w (Num f) with hw'
  set t := val (x k) with ht
  set η := shiftErr u R e with hη
  set α := expErr u ρ R e with hα
  set ω := w * Real.exp e with hω
  have hη0 : 0 ≤ η := by rw [hη]; unfold shiftErr; positivity
  have hexp1 : 1 ≤ Real.exp η := by have := Real.add_one_le_exp η; linarith
  have hα0 : 0 ≤ α := by rw [hα]; unfold expErr; nlinarith
  have hEe : 1 ≤ Real.exp e := by have := Real.add_one_le_exp e; linarith
  have hω0 : 0 ≤ ω := by rw [hω]; positivity
  have hwω : w ≤ ω := by rw [hω]; nlinarith
  -- the differences
  have hd : ∀ c, c < n → fin (x c - Nan.top x (n - 1)) ∧ |val (x c - Nan.top x (n - 1)) - (X c - t)| ≤ η := by
    intro c hc
    rw [ek]
    have h1 : |X c - t| ≤ R + e := by
      have h := abs_sub_le (X c) (X k) t
      have h2 := (hx k hk).2
      rw [abs_sub_comm] at h2
      have := hR c k hc hk
      linarith
    have h2 := sub_near (F := Num f) (hx c hc) (y := t) (f := 0) ⟨(hx k hk).1, by rw [← ht]; simp⟩ (by linarith)
    refine ⟨h2.1, h2.2.trans ?_⟩
    rw [hη]
    unfold addErr shiftErr
    have := mul_le_mul_of_nonneg_left (show |X c - t| + (e + 0) ≤ R + 2 * e by linarith) hu
    linarith
  have hDle : ∀ c, c < n → X c - t ≤ e := by
    intro c hc
    have h1 := hmax c (by omega)
    have h2 := (abs_le.mp (hx c hc).2).1
    linarith
  -- the sum of the exact exponentials
  set S := ∑ c ∈ range n, Real.exp (X c - t) with hS
  have hSlow : Real.exp (-e) ≤ S := by
    have h1 : Real.exp (X k - t) ≤ S := single_le_sum (f := fun c => Real.exp (X c - t)) (fun c _ => (Real.exp_pos _).le) (mem_range.mpr hk)
    have h2 := (abs_le.mp (hx k hk).2).2
    exact (Real.exp_le_exp.mpr (by linarith)).trans h1
  have hShigh : S ≤ n * Real.exp e := by
    have : S ≤ ∑ c ∈ range n, Real.exp e := sum_le_sum (fun c hc => Real.exp_le_exp.mpr (hDle c (mem_range.mp hc)))
    simpa using this
  have hSpos : 0 < S := lt_of_lt_of_le (Real.exp_pos _) hSlow
  have hone : 1 ≤ S * Real.exp e := by
    have := mul_le_mul_of_nonneg_right hSlow (Real.exp_pos e).le
    rw [← Real.exp_add] at this
    simpa using this
  have hwS : w ≤ ω * S := by
    rw [hω]
    nlinarith
  have hεS : ε ≤ ε * Real.exp e * S := by nlinarith
  set σ := sumErr u w ρ n R e with hσ
  have hp1 : 1 ≤ (1 + u) ^ n := one_le_pow₀ (by linarith)
  have hσe : 1 + σ = (1 + u) ^ n * (1 + α + n * ω) := by
    rw [hσ]; unfold sumErr roundings
    rw [← hα, ← hω]; ring
  have hnω : 0 ≤ n * ω := by positivity
  have hσ0 : α + n * ω ≤ σ := by nlinarith
  have hεe : 0 ≤ ε * Real.exp e := by positivity
  have hf3 : S * (1 + ε * Real.exp e + σ) < Arith.top (Num f) := lt_of_le_of_lt (mul_le_mul_of_nonneg_right hShigh (by linarith)) f3
  -- the exponentials
  have hb : ∀ c, c < n → fin (exp (x c - Nan.top x (n - 1))) ∧ 0 ≤ val (exp (x c - Nan.top x (n - 1))) ∧
      |val (exp (x c - Nan.top x (n - 1))) - Real.exp (X c - t)| ≤ α * Real.exp (X c - t) + w := by
    intro c hc
    refine exp_near hρ hexp (hd c hc) ?_
    have h1 : (1 + ρ) * Real.exp (X c - t + η) ≤ Real.exp e * (1 + α) := by
      have : Real.exp (X c - t + η) ≤ Real.exp e * Real.exp η := by rw [← Real.exp_add]; exact Real.exp_le_exp.mpr (by linarith [hDle c hc])
      have := mul_le_mul_of_nonneg_left this (show 0 ≤ 1 + ρ by linarith)
      rw [hα]; unfold expErr; rw [← hη]
      linarith
    have h2 : w ≤ Real.exp e * (n * ω) := by
      exact hwω.trans ((le_mul_of_one_le_left hω0 hn1).trans (le_mul_of_one_le_left hnω hEe))
    have h3 : Real.exp e * (1 + ε * Real.exp e + σ) ≤ n * Real.exp e * (1 + ε * Real.exp e + σ) :=
      mul_le_mul_of_nonneg_right (le_mul_of_one_le_left (Real.exp_pos e).le hn1) (by linarith)
    have h4 : Real.exp e * (1 + α + n * ω) ≤ Real.exp e * (1 + ε * Real.exp e + σ) := mul_le_mul_of_nonneg_left (by linarith) (Real.exp_pos e).le
    linarith
  -- their sum
  have hto := sumTo_of (sums_accurate (total_sums exp (fun c => x c - Nan.top x (n - 1)) n))
  rw [List.length_map, List.length_range] at hto
  have hsumE : ∑ c ∈ range n, (α * Real.exp (X c - t) + w) = α * S + n * w := by
    rw [sum_add_distrib, ← mul_sum]; simp [hS]
  have hsumA : ∑ c ∈ range n, (|Real.exp (X c - t)| + (α * Real.exp (X c - t) + w)) = S + (α * S + n * w) := by
    rw [sum_add_distrib, hsumE]
    congr 1
    exact sum_congr rfl (fun c _ => abs_of_pos (Real.exp_pos _))
  have hnw : n * w ≤ n * ω * S := by rw [mul_assoc]; exact mul_le_mul_of_nonneg_left hwS (by positivity)
  have hA : S + (α * S + n * w) ≤ S * (1 + α + n * ω) := by nlinarith
  have hs1 := sum_near (F := Num f) hto (x := fun c => Real.exp (X c - t)) (e := fun c => α * Real.exp (X c - t) + w) (fun c hc => ⟨(hb c hc).1, (hb c hc).2.2⟩) (by
    rw [hsumA]
    have := mul_le_mul_of_nonneg_left hA (show 0 ≤ (1 + u) ^ n by linarith)
    have h2 : S * (1 + σ) ≤ S * (1 + ε * Real.exp e + σ) := mul_le_mul_of_nonneg_left (by linarith) hSpos.le
    rw [hσe] at h2
    linarith)
  rw [hsumE, hsumA] at hs1
  have hs2 : |val (total exp (fun c => x c - Nan.top x (n - 1)) n) - S| ≤ σ * S := by
    refine hs1.2.trans ?_
    unfold roundings
    have := mul_le_mul_of_nonneg_left hA (show 0 ≤ (1 + u) ^ n - 1 by linarith)
    have h2 : σ = (1 + u) ^ n * (1 + α + n * ω) - 1 := by linarith
    rw [h2]
    linarith
  have hs3 := add_near (F := Num f) (a := total exp (fun c => x c - Nan.top x (n - 1)) n) (b := eps) (x := S) (e := σ * S) (y := ε) (f := 0) ⟨hs1.1, hs2⟩
    ⟨heps.1, by rw [heps.2]; simp⟩ (by
      rw [abs_of_pos (by linarith)]
      nlinarith)
  set S' := val (total exp (fun c => x c - Nan.top x (n - 1)) n + eps) with hS'
  have hs4 : |S' - S| ≤ totErr u w ρ ε n R e * S := by
    have h1 := abs_add_le (S' - (S + ε)) ε
    rw [show S' - (S + ε) + ε = S' - S by ring, abs_of_nonneg hε] at h1
    have h2 := hs3.2
    unfold addErr at h2
    rw [abs_of_pos (show 0 < S + ε by linarith)] at h2
    have h3 : S + ε + (σ * S + 0) ≤ (1 + ε * Real.exp e + σ) * S := by nlinarith
    have h4 := mul_le_mul_of_nonneg_left h3 hu
    unfold totErr addErr
    rw [← hσ, abs_of_pos (show 0 < 1 + ε * Real.exp e by linarith)]
    have h5 : (ε * Real.exp e + (σ + u * (1 + ε * Real.exp e + σ))) * S = ε * Real.exp e * S + (σ * S + u * ((1 + ε * Real.exp e + σ) * S)) := by ring
    rw [h5]
    linarith
  obtain ⟨hpos, hq⟩ := quot_near (E := Real.exp (X j - t)) (B := val (exp (x j - Nan.top x (n - 1)))) (S := S) (S' := S') (T := totErr u w ρ ε n R e) (β := α + ω) hSpos (Real.exp_pos _).le
    (single_le_sum (f := fun c => Real.exp (X c - t)) (fun c _ => (Real.exp_pos _).le) (mem_range.mpr hj)) (by
      refine (hb j hj).2.2.trans ?_
      have : Real.exp (X j - t) ≤ S := single_le_sum (f := fun c => Real.exp (X c - t)) (fun c _ => (Real.exp_pos _).le) (mem_range.mpr hj)
      nlinarith) hs4 f2
  rw [prob_shift n X t j] at hq
  have hquot : |val (exp (x j - Nan.top x (n - 1))) / S' - prob n X j| ≤ quotErr u w ρ ε n R e := by
    refine hq.trans (le_of_eq ?_)
    unfold quotErr
    rw [← hα, ← hω]
  have hP := prob_bounds n X hj
  have hbig : |val (exp (x j - Nan.top x (n - 1))) / S'| ≤ 1 + quotErr u w ρ ε n R e := by
    have := abs_add_le (val (exp (x j - Nan.top x (n - 1))) / S' - prob n X j) (prob n X j)
    rw [sub_add_cancel, abs_of_nonneg hP.1] at this
    linarith
  have hdiv := div_near (hb j hj).1 hs3.1 hpos.ne' (hbig.trans f4)
  refine ⟨hdiv.1, ?_⟩
  have h5 := abs_add_le (val (softRow exp eps n x j) - val (exp (x j - Nan.top x (n - 1))) / S') (val (exp (x j - Nan.top x (n - 1))) / S' - prob n X j)
  rw [sub_add_sub_cancel] at h5
  have h6 := mul_le_mul_of_nonneg_left hbig hu
  have h7 := hdiv.2
  unfold softErr
  have h8 : |val (softRow exp eps n x j) - val (exp (x j - Nan.top x (n - 1))) / S'| ≤ u * |val (exp (x j - Nan.top x (n - 1))) / S'| + w := h7
  linarith

/-- C143: `softmax` of scores within `e` of `X`, along the last axis, for all ranks. -/
theorem softmax_near {exp : Num f → Num f} {ρ ε : ℝ} (hρ : 0 ≤ ρ) (hexp : ExpNear exp ρ) {eps : Num f} (heps : fin eps ∧ val eps = ε) (hε : 0 ≤ ε) {t : Ten (Num f)} {pre : List Nat} {n : Nat}
    {a : List Nat → Num f} {X : List Nat → Nat → ℝ} {e R : List Nat → ℝ} (ht : t.Has (pre ++ [n]) a) (hn : n ≠ 0) (hs : size pre ≠ 0)
    (hx : ∀ ip c, ValidIdx pre ip → c < n → fin (a (ip ++ [c])) ∧ |val (a (ip ++ [c])) - X ip c| ≤ e ip)
    (hR : ∀ ip c c', ValidIdx pre ip → c < n → c' < n → |X ip c - X ip c'| ≤ R ip)
    (hfit : ∀ ip, ValidIdx pre ip → SoftFits (Arith.u (Num f)) (Arith.w (Num f)) (Arith.top (Num f)) ρ ε n (R ip) (e ip)) :
    ∃ y b, Softmax.softmaxOf exp eps t = ok y ∧ y.Has (pre ++ [n]) b ∧
      ∀ ip j, ValidIdx pre ip → j < n → fin (b (ip ++ [j])) ∧ |val (b (ip ++ [j])) - prob n (X ip) j| ≤ softErr (Arith.u (Num f)) (Arith.w (Num f)) ρ ε n (R ip) (e ip) := by
  obtain ⟨⟨sh, d⟩, h1, h2, h3⟩ := softmaxOf_any exp eps ht hn hs
  simp only at h2
  subst h2
  refine ⟨_, fun is => softRow exp eps n (fun c => a (is.dropLast ++ [c])) (is.getLastD 0), h1, table_batch h3 (fun ip j v1 _ => by simp [unflat_flat v1]), fun ip j hv hj => ?_⟩
  simp only [List.dropLast_concat, List.getLastD_concat]
  exact soft_row_near hρ hexp heps hε (fun c hc => hx ip c hv hc) (fun c c' hc hc' => hR ip c c' hv hc hc') (hfit ip hv) hj

/-- The forward pass of the loss has a value, whatever the numbers. -/
theorem crossForward_any (exp log : Num f → Num f) (eps k : Num f) {truth pred : Ten (Num f)} {pre : List Nat} {n : Nat} {g a : List Nat → Num f} (hg : truth.Has (pre ++ [n]) g)
    (ht : pred.Has (pre ++ [n]) a) (hn : 2 ≤ n) (hs : size pre ≠ 0) : ∃ y, Softmax.crossForwardOf exp log eps k truth pred = ok ⟨[1], [y]⟩ := by
  obtain ⟨y, h1, h2, h3⟩ := softmaxOf_any exp eps ht (by omega) hs
  have hsz : size (pre ++ [n]) = size pre * n := by rw [size_append]; simp
  have hlast : truth.shape.getLastD 0 = n := by rw [hg.1]; simp
  have key : ∀ m, m ≤ size pre * n → ∃ r, loop m (fun i ans => do
        let g ← rd truth.data i
        let s ← rd y.data i
        pure (ans - Softmax.weightOf eps k n g * log (Softmax.stdMax eps s))) (0 : Num f) = ok r := by
    intro m hm
    induction m with
    | zero => exact ⟨0, rfl⟩
    | succ m ih =>
      obtain ⟨r, r1⟩ := ih (by omega)
      have hd : m / n < size pre := Nat.div_lt_of_lt_mul (by rw [Nat.mul_comm]; omega)
      have hmod : m % n < n := Nat.mod_lt m (by omega)
      have hr := h3.rd hd hmod
      rw [show m / n * n + m % n = m by rw [Nat.mul_comm]; exact Nat.div_add_mod m n] at hr
      rw [loop_succ, r1, bind_ok, rd_ok (hg.2.pos (by rw [hsz]; omega)), bind_ok, hr, bind_ok]
      exact ⟨_, rfl⟩
  obtain ⟨r, r1⟩ := key _ le_rfl
  refine ⟨r / ((truth.shape.headD 0 : Nat) : Num f), ?_⟩
  unfold Softmax.crossForwardOf
  rw [h1, bind_ok, require_true (by rw [hg.1]; simp), bind_ok]
  dsimp only
  rw [hlast, require_true (by omega), bind_ok, hg.2.1, hsz, r1, bind_ok]
  rfl

/-- The backward pass, whatever the numbers. -/
theorem crossBackward_any (exp : Num f → Num f) (eps k : Num f) {truth pred grad : Ten (Num f)} {pre : List Nat} {n : Nat} {g a : List Nat → Num f} (hg : truth.Has (pre ++ [n]) g)
    (ht : pred.Has (pre ++ [n]) a) (hn : 2 ≤ n) (hs : size pre ≠ 0) {x : Num f} (hx : grad.data[0]? = some x) :
    ∃ u v, crossBackwardOf exp eps k truth pred grad = ok (u, v) ∧
      v.Has (pre ++ [n]) (fun is => x * (softRow exp eps n (fun c => a (is.dropLast ++ [c])) (is.getLastD 0) - Softmax.weightOf eps k n (g is))) := by
  obtain ⟨⟨sh, d⟩, h1, h2, h3⟩ := softmaxOf_any exp eps ht (by omega) hs
  simp only at h2 h3
  subst h2
  have hsz : size (pre ++ [n]) = size pre * n := by rw [size_append]; simp
  have hlast : truth.shape.getLastD 0 = n := by rw [hg.1]; simp
  have hI : (⟨pre ++ [n], d⟩ : Ten (Num f)).Has (pre ++ [n]) (fun is => softRow exp eps n (fun c => a (is.dropLast ++ [c])) (is.getLastD 0)) :=
    table_batch h3 (fun ip j v1 _ => by simp [unflat_flat v1])
  obtain ⟨o, o1, o2, o3⟩ := upd1 (n := size pre * n) (o := d) (body := fun i d => do
      let g ← rd truth.data i
      let s ← rd d i
      wr d i (x * (s - Softmax.weightOf eps k n g))) (φ := fun i s => x * (s - Softmax.weightOf eps k n (g (unflat (pre ++ [n]) i)))) (fun i o z hi _ hz => by
        rw [rd_ok (hg.2.pos (by rw [hsz]; exact hi)), bind_ok, rd_ok hz, bind_ok]) (by rw [hI.2.1, hsz])
  refine ⟨⟨truth.shape, truth.data.map (fun z => z * x)⟩, ⟨pre ++ [n], o⟩, ?_, ⟨rfl, by rw [o2, hsz], fun is hv => ?_⟩⟩
  · unfold crossBackwardOf
    rw [rd_ok hx, bind_ok, require_true (by rw [hg.1]; simp), bind_ok]
    dsimp only
    rw [hlast, require_true (by omega), bind_ok, h1, bind_ok, hg.2.1, hsz, o1, bind_ok]
    rfl
  · have := o3 _ _ (hI.2.2 is hv)
    rwa [unflat_flat hv] at this

/-- C143: what `cross_entropy_loss` sends to scores within `EY` of `Y`: within the bound of `C (P - V)`, with `P` the probabilities of `Y` and `V` the weights of the labels. -/
theorem cross_head {L D : Nat → Ten (Num f)} {exp log : Num f → Num f} {ρ ε : ℝ} (hρ : 0 ≤ ρ) (hexp : ExpNear exp ρ) {eps k : Num f} (heps : fin eps ∧ val eps = ε) (hε : 0 ≤ ε) {g0 : Ten (Num f)} {x0 : Num f}
    (hg0 : g0.data[0]? = some x0) {C κ : ℝ} (hC : fin x0 ∧ |val x0 - C| ≤ κ) {m n b : Nat} (j : Nat) (hm : 0 < m) (hn : 2 ≤ n) {lab : List Nat → Num f} (hlab : (L b).Has [m, n] lab)
    {V ν Y EY : Nat → Nat → ℝ} {e R : Nat → ℝ} (hV : ∀ r c, r < m → c < n → fin (Softmax.weightOf eps k n (lab [r, c])) ∧ |val (Softmax.weightOf eps k n (lab [r, c])) - V r c| ≤ ν r c)
    (he : ∀ r c, r < m → c < n → EY r c ≤ e r) (hR : ∀ r c c', r < m → c < n → c' < n → |Y r c - Y r c'| ≤ R r)
    (hsoft : ∀ r, r < m → SoftFits (Arith.u (Num f)) (Arith.w (Num f)) (Arith.top (Num f)) ρ ε n (R r) (e r))
    (hfit : ∀ r c, r < m → c < n →
      CrossFits (Arith.u (Num f)) (Arith.top (Num f)) (prob n (Y r) c) (softErr (Arith.u (Num f)) (Arith.w (Num f)) ρ ε n (R r) (e r)) (V r c) (ν r c) C κ) :
    Head L D (crossOf (crossOp exp log eps k) j b) g0 m n Y EY (fun r c => C * (prob n (Y r) c - V r c))
      (fun r c => crossErr (Arith.u (Num f)) (Arith.w (Num f)) (prob n (Y r) c) (softErr (Arith.u (Num f)) (Arith.w (Num f)) ρ ε n (R r) (e r)) (V r c) (ν r c) C κ) := by
  intro ex t hev ⟨a, ht, ha⟩
  have hlab' : (L b).Has ([m] ++ [n]) lab := hlab
  have ht' : t.Has ([m] ++ [n]) a := ht
  have hs : size [m] ≠ 0 := by simp; omega
  obtain ⟨y, h1⟩ := crossForward_any exp log eps k hlab' ht' hn hs
  obtain ⟨p, g, h2, h3⟩ := crossBackward_any exp eps k hlab' ht' hn hs hg0
  have hleaf : eval L D (.leaf b) = ok (L b) := by
    unfold eval
    rw [assert_true (by
      intro h
      have := hlab.2.1
      rw [h] at this
      simp at this
      omega)]
    rfl
  refine ⟨⟨[1], [y]⟩, g, ?_, ⟨_, h3, fun r c hr hc => ?_⟩, fun sl => ⟨some (j, true), ?_⟩⟩
  · show (eval L D (.leaf b) >>= fun x => eval L D ex >>= fun y => (crossOp exp log eps k).fwd x y) = _
    rw [hleaf, bind_ok, hev, bind_ok]
    exact h1
  · have hsm := soft_row_near hρ hexp heps hε (x := fun c => a [r, c]) (X := Y r) (e := e r) (R := R r) (n := n)
      (fun c hc => ⟨(ha r c hr hc).1, (ha r c hr hc).2.trans (he r c hr hc)⟩) (fun c c' hc hc' => hR r c c' hr hc hc') (hsoft r hr) hc
    obtain ⟨q1, q2⟩ := hfit r c hr hc
    have hsub := sub_near (F := Num f) hsm (hV r c hr hc) q1
    exact mul_near (F := Num f) hC hsub q2
  · unfold crossOf
    simp only [arrivals]
    rw [hleaf, bind_ok, hev, bind_ok]
    show ((Softmax.crossForwardOf exp log eps k (L b) t) >>= _) = _
    rw [h1, bind_ok]
    show (crossBackwardOf exp eps k (L b) t g0 >>= _) = _
    rw [h2, bind_ok, bind_ok]
    show (arrivals L D ex (some (j, true)) g >>= fun b => pure ([] ++ b)) = _
    cases arrivals L D ex (some (j, true)) g <;> rfl

/-- C143: without smoothing the weights are exact: 1 for labels above eps, 0 for the others. -/
theorem weight_exact (eps : Num f) {n : Nat} (hn : 2 ≤ n) (hp : n - 1 < 2 ^ f.p) (g : Num f) :
    fin (Softmax.weightOf eps 0 n g) ∧ val (Softmax.weightOf eps 0 n g) = if eps < g then 1 else 0 := by
  obtain ⟨gz, hz⟩ : ∃ gz, (0 : Num f) = .num 0 gz := ⟨_, rfl⟩
  have hone : (1 : Num f) = .num 1 (fixed_one.1 ▸ rnd_grid f 1) := toNum_fixed fixed_one
  unfold Softmax.weightOf
  split
  · have : (1 : Num f) - 0 = 1 := by
      rw [hz, hone]
      show toNum f (1 + -0) = _
      rw [neg_zero, add_zero, toNum_fixed fixed_one]
    rw [this, hone]
    exact ⟨trivial, by show ((1 : ℚ) : ℝ) = 1; simp⟩
  · have hmf : Fixed f ((n - 1 : Nat) : ℚ) := by
      have := fixed_int (f := f) (k := ((n - 1 : Nat) : ℤ)) (by
        rw [abs_of_nonneg (by positivity)]
        exact_mod_cast hp)
      simpa using this
    have hmm : ((n - 1 : Nat) : Num f) = .num ((n - 1 : Nat) : ℚ) (hmf.1 ▸ rnd_grid f _) := toNum_fixed hmf
    have h0 : ((n - 1 : Nat) : ℚ) ≠ 0 := by exact_mod_cast (by omega : n - 1 ≠ 0)
    have : (0 : Num f) / ((n - 1 : Nat) : Num f) = 0 := by
      rw [hz, hmm]
      show (if ((n - 1 : Nat) : ℚ) = 0 then _ else toNum f (0 / ((n - 1 : Nat) : ℚ))) = _
      rw [if_neg h0, zero_div, toNum_fixed fixed_zero]
    rw [this]
    exact ⟨Arith.fin_zero, Arith.val_zero⟩

/-- The derivative of the cross entropy of a row, for weights that add up to one. -/
theorem row_derivative {n : Nat} (hn : 0 < n) (V d : Nat → ℝ) (hV : ∑ j ∈ range n, V j = 1) (y : ℝ → Nat → ℝ) (hy : ∀ j, j < n → HasDerivAt (fun t => y t j) (d j) 0) :
    HasDerivAt (fun t => -∑ j ∈ range n, V j * Real.log (prob n (y t) j)) (∑ j ∈ range n, (prob n (y 0) j - V j) * d j) 0 := by
  have hpos : ∀ t, 0 < ∑ c ∈ range n, Real.exp (y t c) := fun t => sum_pos (fun c _ => Real.exp_pos _) ⟨0, mem_range.mpr hn⟩
  have e : (fun t => -∑ j ∈ range n, V j * Real.log (prob n (y t) j)) = fun t => Real.log (∑ c ∈ range n, Real.exp (y t c)) - ∑ j ∈ range n, V j * y t j := by
    funext t
    have : ∀ j, V j * Real.log (prob n (y t) j) = V j * y t j - V j * Real.log (∑ c ∈ range n, Real.exp (y t c)) := by
      intro j
      unfold prob
      rw [Real.log_div (Real.exp_pos _).ne' (hpos t).ne', Real.log_exp]
      ring
    rw [sum_congr rfl (fun j _ => this j), sum_sub_distrib, ← sum_mul, hV]
    ring
  rw [e]
  have h1 : HasDerivAt (fun t => ∑ c ∈ range n, Real.exp (y t c)) (∑ c ∈ range n, Real.exp (y 0 c) * d c) 0 := HasDerivAt.fun_sum (fun c hc => (hy c (mem_range.mp hc)).exp)
  have h2 : HasDerivAt (fun t => ∑ j ∈ range n, V j * y t j) (∑ j ∈ range n, V j * d j) 0 := HasDerivAt.fun_sum (fun c hc => (hy c (mem_range.mp hc)).const_mul _)
  refine ((h1.log (hpos 0).ne').sub h2).congr_deriv ?_
  rw [sum_div, ← sum_sub_distrib]
  refine sum_congr rfl (fun j _ => ?_)
  unfold prob
  ring

/-- C143: for weights of the labels that add up to one in every row, the gradients of C136 with `δ = C (P - V)` are the derivatives of `C` times the sum over the rows of
the cross entropy of the probabilities of the network. -/
theorem cross_derivative (C : ℝ) (z : GLay) (zs : List GLay) (m k : Nat) (x V : Nat → Nat → ℝ) (U : Nat → Nat → ℝ) (W : Nat → ℝ) (hs : ∀ r, r < m → Smooth (z :: zs) k (x r))
    (ho : 0 < outs (plain (z :: zs)) k) (hV : ∀ r, r < m → ∑ j ∈ range (outs (plain (z :: zs)) k), V r j = 1) :
    HasDerivAt (fun t => C * ∑ r ∈ range m, -∑ j ∈ range (outs (plain (z :: zs)) k), V r j * Real.log (prob (outs (plain (z :: zs)) k) (netR (plain (z.moved U W t :: zs)) k (x r)) j))
      (∑ p ∈ range k, ∑ j ∈ range z.n, z.gradW zs m k x (fun r j => C * (prob (outs (plain (z :: zs)) k) (netR (plain (z :: zs)) k (x r)) j - V r j)) p j * U p j +
        ∑ j ∈ range z.n, z.gradB zs m k x (fun r j => C * (prob (outs (plain (z :: zs)) k) (netR (plain (z :: zs)) k (x r)) j - V r j)) j * W j) 0 := by
  have e0 : z.moved U W 0 = z := by simp [GLay.moved]
  have h1 : ∀ r, r < m → ∀ j, j < outs (plain (z :: zs)) k → ∃ d, HasDerivAt (fun t => netR (plain (z.moved U W t :: zs)) k (x r) j) d 0 := by
    intro r hr j hj
    have h := gradW_derivative z zs m k x (fun r' j' => if r' = r ∧ j' = j then 1 else 0) U W hs
    refine ⟨_, h.congr_of_eventuallyEq (Filter.Eventually.of_forall (fun t => ?_))⟩
    dsimp only
    rw [sum_eq_single_of_mem r (mem_range.mpr hr) (fun r' _ hne => sum_eq_zero (fun j' _ => by simp [hne])),
      sum_eq_single_of_mem j (mem_range.mpr hj) (fun j' _ hne => by simp [hne])]
    simp
  choose! d hd using h1
  have h2 := gradW_derivative z zs m k x (fun r j => C * (prob (outs (plain (z :: zs)) k) (netR (plain (z :: zs)) k (x r)) j - V r j)) U W hs
  have h3 : HasDerivAt (fun t => ∑ r ∈ range m, ∑ j ∈ range (outs (plain (z :: zs)) k), C * (prob (outs (plain (z :: zs)) k) (netR (plain (z :: zs)) k (x r)) j - V r j) * netR (plain (z.moved U W t :: zs)) k (x r) j)
      (∑ r ∈ range m, ∑ j ∈ range (outs (plain (z :: zs)) k), C * (prob (outs (plain (z :: zs)) k) (netR (plain (z :: zs)) k (x r)) j - V r j) * d r j) 0 :=
    HasDerivAt.fun_sum (fun r hr => HasDerivAt.fun_sum (fun j hj => (hd r (mem_range.mp hr) j (mem_range.mp hj)).const_mul _))
  rw [h2.unique h3]
  have h4 := (HasDerivAt.fun_sum (u := range m) (fun r hr => row_derivative ho (V r) (d r) (hV r (mem_range.mp hr)) (fun t => netR (plain (z.moved U W t :: zs)) k (x r))
    (fun j hj => hd r (mem_range.mp hr) j hj))).const_mul C
  refine h4.congr_deriv ?_
  rw [e0, mul_sum]
  refine sum_congr rfl (fun r _ => ?_)
  rw [mul_sum]
  refine sum_congr rfl (fun j _ => ?_)
  ring

/-! ### the value of the loss -/

/-- What is asked of the logarithm of numbers up to 2: a relative error of at most `lam`, and an absolute one near zero. -/
def LogNear (log : Num f → Num f) (lam : ℝ) : Prop := ∀ (q : ℚ) g, 0 < q → q ≤ 2 → ∃ t h, log (.num q g) = .num t h ∧ |(t : ℝ) - Real.log q| ≤ lam * |Real.log q| + Arith.w (Num f)

/-- The error of the logarithm of a probability `P` wrong by `s`, cut at `ε`. -/
noncomputable def logErr (w lam ε P s : ℝ) : ℝ :=
  s / max ε (max ε P - s) + (lam * (|Real.log (max ε P)| + s / max ε (max ε P - s)) + w)

/-- The error of a term of the loss. -/
noncomputable def termErr (u w lam ε P s V ν : ℝ) : ℝ := mulErr u w V ν (Real.log (max ε P)) (logErr w lam ε P s)

theorem max_near {ε P v s : ℝ} (h : |v - P| ≤ s) : |max ε v - max ε P| ≤ s := by
  rw [max_comm ε v, max_comm ε P]
  exact (abs_max_sub_max_le_abs v P ε).trans h

/-- Logarithms of numbers above `b` that are at most `s` apart. -/
theorem log_apart {x y b s : ℝ} (hb : 0 < b) (hx : b ≤ x) (hy : b ≤ y) (h : |x - y| ≤ s) : |Real.log x - Real.log y| ≤ s / b := by
  have key : ∀ x y : ℝ, b ≤ x → x ≤ y → |x - y| ≤ s → |Real.log x - Real.log y| ≤ s / b := by
    intro x y hx hxy h
    have hx0 : 0 < x := lt_of_lt_of_le hb hx
    have hy0 : 0 < y := lt_of_lt_of_le hx0 hxy
    rw [abs_of_nonpos (by linarith [Real.log_le_log hx0 hxy])]
    rw [abs_of_nonpos (by linarith)] at h
    have h1 := Real.log_le_sub_one_of_pos (show 0 < y / x by positivity)
    rw [Real.log_div hy0.ne' hx0.ne'] at h1
    have h2 : y / x - 1 = (y - x) / x := by field_simp
    have h3 : (y - x) / x ≤ s / b := div_le_div₀ (by linarith) (by linarith) hb hx
    linarith
  rcases le_total x y with hxy | hxy
  · exact key x y hx hxy h
  · rw [abs_sub_comm]
    exact key y x hy hxy (by rw [abs_sub_comm]; exact h)

theorem log_near {log : Num f → Num f} {lam : ℝ} (hl : 0 ≤ lam) (hlog : LogNear log lam) {eps a : Num f} {ε P s : ℝ} (heps : fin eps ∧ val eps = ε) (hε : 0 < ε) (hε1 : ε ≤ 1) (hP : P ≤ 1) (hs : s ≤ 1)
    (ha : fin a ∧ |val a - P| ≤ s) : fin (log (Softmax.stdMax eps a)) ∧ |val (log (Softmax.stdMax eps a)) - Real.log (max ε P)| ≤ logErr (Arith.w (Num f)) lam ε P s := by
  have hmax : fin (Softmax.stdMax eps a) ∧ val (Softmax.stdMax eps a) = max ε (val a) := by
    unfold Softmax.stdMax
    by_cases h : eps < a
    · rw [if_pos h]
      refine ⟨ha.1, ?_⟩
      have := (lt_val heps.1 ha.1).mp h
      rw [heps.2] at this
      rw [max_eq_right this.le]
    · rw [if_neg h]
      refine ⟨heps.1, ?_⟩
      have := (lt_val heps.1 ha.1).not.mp h
      rw [heps.2, not_lt] at this
      rw [max_eq_left this, heps.2]
  have hnear := max_near (ε := ε) ha.2
  obtain ⟨q, g, e⟩ := Num.fin_iff.mp hmax.1
  have hq : (q : ℝ) = max ε (val a) := by rw [← hmax.2, e]; rfl
  have hs0 : 0 ≤ s := (abs_nonneg _).trans ha.2
  have hM1 : max ε P ≤ 1 := max_le hε1 hP
  have hlow : max ε (max ε P - s) ≤ (q : ℝ) := by
    rw [hq]
    refine max_le (le_max_left _ _) ?_
    have := (abs_le.mp hnear).1
    linarith
  have hlow' : max ε (max ε P - s) ≤ max ε P := max_le (le_max_left _ _) (by linarith)
  have hb : 0 < max ε (max ε P - s) := lt_of_lt_of_le hε (le_max_left _ _)
  have hq0 : (0 : ℝ) < (q : ℝ) := lt_of_lt_of_le hb hlow
  have hq2 : (q : ℝ) ≤ 2 := by
    rw [hq]
    have := (abs_le.mp hnear).2
    linarith
  obtain ⟨t, h, e1, e2⟩ := hlog q g (by exact_mod_cast hq0) (by exact_mod_cast hq2)
  rw [e, e1]
  refine ⟨trivial, ?_⟩
  show |(t : ℝ) - _| ≤ _
  have h1 := log_apart (s := s) hb hlow hlow' (by rw [hq]; exact hnear)
  have h2 := abs_add_le ((t : ℝ) - Real.log q) (Real.log q - Real.log (max ε P))
  rw [sub_add_sub_cancel] at h2
  have h3 := abs_add_le (Real.log q - Real.log (max ε P)) (Real.log (max ε P))
  rw [sub_add_cancel] at h3
  have h4 := mul_le_mul_of_nonneg_left (show |Real.log q| ≤ |Real.log (max ε P)| + s / max ε (max ε P - s) by linarith) hl
  unfold logErr
  linarith

/-- The forward pass: minus the terms, added up from the left, divided by the number of rows. -/
theorem crossForward_sums (exp log : Num f → Num f) (eps k : Num f) {truth pred : Ten (Num f)} {m n : Nat} {g a : List Nat → Num f} (hg : truth.Has [m, n] g)
    (ht : pred.Has [m, n] a) (hn : 2 ≤ n) (hm : 0 < m) : ∃ y, Softmax.crossForwardOf exp log eps k truth pred = ok ⟨[1], [y / ((m : Nat) : Num f)]⟩ ∧
      Sums (0 :: (List.range (m * n)).map (fun i => Nan.neg (Softmax.weightOf eps k n (g [i / n, i % n]) * log (Softmax.stdMax eps (softRow exp eps n (fun c => a [i / n, c]) (i % n)))))) y := by
  have hg' : truth.Has ([m] ++ [n]) g := hg
  have ht' : pred.Has ([m] ++ [n]) a := ht
  obtain ⟨y, h1, h2, h3⟩ := softmaxOf_any exp eps ht' (by omega) (by simp; omega)
  have hsz : size ([m] ++ [n]) = m * n := by simp
  have hsz1 : size [m] = m := by simp
  have hun1 : ∀ r, r < m → unflat [m] r = [r] := by
    intro r hr
    simp [unflat, Nat.mod_eq_of_lt hr]
  have hun : ∀ i, i < m * n → unflat [m, n] i = [i / n, i % n] := by
    intro i hi
    have hd : i / n < m := Nat.div_lt_of_lt_mul (by rw [Nat.mul_comm]; omega)
    simp only [unflat, size_cons, size_nil, mul_one, Nat.div_one]
  have hlast : truth.shape.getLastD 0 = n := by rw [hg.1]; simp
  have key : ∀ q, q ≤ m * n → ∃ r, loop q (fun i ans => do
        let g ← rd truth.data i
        let s ← rd y.data i
        pure (ans - Softmax.weightOf eps k n g * log (Softmax.stdMax eps s))) (0 : Num f) = ok r ∧
        Sums (0 :: (List.range q).map (fun i => Nan.neg (Softmax.weightOf eps k n (g [i / n, i % n]) * log (Softmax.stdMax eps (softRow exp eps n (fun c => a [i / n, c]) (i % n)))))) r := by
    intro q hq
    induction q with
    | zero => exact ⟨0, rfl, .one 0⟩
    | succ i ih =>
      obtain ⟨r, r1, r2⟩ := ih (by omega)
      have hd : i / n < m := Nat.div_lt_of_lt_mul (by rw [Nat.mul_comm]; omega)
      have hmod : i % n < n := Nat.mod_lt i (by omega)
      have hr := h3.rd (i := i / n) (by rw [hsz1]; exact hd) hmod
      rw [show i / n * n + i % n = i by rw [Nat.mul_comm]; exact Nat.div_add_mod i n] at hr
      rw [loop_succ, r1, bind_ok, rd_ok (hg.2.pos (by simp; omega)), bind_ok, hr, bind_ok, hun i (by omega), hun1 _ hd]
      refine ⟨_, rfl, ?_⟩
      rw [List.range_succ, List.map_append, ← List.cons_append]
      exact .add r2 (.one _)
  obtain ⟨r, r1, r2⟩ := key _ le_rfl
  refine ⟨r, ?_, r2⟩
  unfold Softmax.crossForwardOf
  rw [h1, bind_ok, require_true (by rw [hg.1]; simp), bind_ok]
  dsimp only
  rw [hlast, require_true (by omega), bind_ok, hg'.2.1, hsz, r1, bind_ok, hg.1]
  rfl

/-- C143: the value of `cross_entropy_loss` is within a bound of the mean over the rows of the cross entropy of the probabilities, which are cut at eps. -/
theorem cross_value {exp log : Num f → Num f} {ρ ε lam : ℝ} (hρ : 0 ≤ ρ) (hexp : ExpNear exp ρ) (hl : 0 ≤ lam) (hlog : LogNear log lam) {eps k : Num f} (heps : fin eps ∧ val eps = ε) (hε : 0 < ε) (hε1 : ε ≤ 1)
    {m n : Nat} (hm : 0 < m) (hmp : m < 2 ^ f.p) (hn : 2 ≤ n) {truth pred : Ten (Num f)} {lab a : List Nat → Num f} (hlab : truth.Has [m, n] lab) (ht : pred.Has [m, n] a) {V ν Y : Nat → Nat → ℝ} {e R : Nat → ℝ}
    (hV : ∀ r c, r < m → c < n → fin (Softmax.weightOf eps k n (lab [r, c])) ∧ |val (Softmax.weightOf eps k n (lab [r, c])) - V r c| ≤ ν r c)
    (hx : ∀ r c, r < m → c < n → fin (a [r, c]) ∧ |val (a [r, c]) - Y r c| ≤ e r) (hR : ∀ r c c', r < m → c < n → c' < n → |Y r c - Y r c'| ≤ R r)
    (hsoft : ∀ r, r < m → SoftFits (Arith.u (Num f)) (Arith.w (Num f)) (Arith.top (Num f)) ρ ε n (R r) (e r)) (hsmall : ∀ r, r < m → softErr (Arith.u (Num f)) (Arith.w (Num f)) ρ ε n (R r) (e r) ≤ 1)
    {A E : ℝ} (hA : A = -∑ r ∈ range m, ∑ c ∈ range n, V r c * Real.log (max ε (prob n (Y r) c)))
    (hterm : ∀ r c, r < m → c < n → (|V r c| + ν r c) * (|Real.log (max ε (prob n (Y r) c))| +
      logErr (Arith.w (Num f)) lam ε (prob n (Y r) c) (softErr (Arith.u (Num f)) (Arith.w (Num f)) ρ ε n (R r) (e r))) ≤ Arith.top (Num f))
    (hsum : (1 + Arith.u (Num f)) ^ (m * n) * (∑ r ∈ range m, ∑ c ∈ range n, (|V r c * Real.log (max ε (prob n (Y r) c))| +
      termErr (Arith.u (Num f)) (Arith.w (Num f)) lam ε (prob n (Y r) c) (softErr (Arith.u (Num f)) (Arith.w (Num f)) ρ ε n (R r) (e r)) (V r c) (ν r c))) ≤ Arith.top (Num f))
    (hE : E = ∑ r ∈ range m, ∑ c ∈ range n, termErr (Arith.u (Num f)) (Arith.w (Num f)) lam ε (prob n (Y r) c) (softErr (Arith.u (Num f)) (Arith.w (Num f)) ρ ε n (R r) (e r)) (V r c) (ν r c) +
      roundings (Arith.u (Num f)) (m * n) (∑ r ∈ range m, ∑ c ∈ range n, (|V r c * Real.log (max ε (prob n (Y r) c))| +
        termErr (Arith.u (Num f)) (Arith.w (Num f)) lam ε (prob n (Y r) c) (softErr (Arith.u (Num f)) (Arith.w (Num f)) ρ ε n (R r) (e r)) (V r c) (ν r c))))
    (hdiv : |A| + E ≤ Arith.top (Num f)) :
    ∃ v, Softmax.crossForwardOf exp log eps k truth pred = ok ⟨[1], [v]⟩ ∧ fin v ∧
      |val v - A / m| ≤ E / m + (Arith.u (Num f) * ((|A| + E) / m) + Arith.w (Num f)) := by
  obtain ⟨y, h1, h2⟩ := crossForward_sums exp log eps k hlab ht hn hm
  have hto := sumTo_of (sums_accurate h2)
  rw [List.length_map, List.length_range] at hto
  have hn0 : 0 < n := by omega
  have hdouble : ∀ h : Nat → Nat → ℝ, ∑ p ∈ range (m * n), h (p / n) (p % n) = ∑ r ∈ range m, ∑ c ∈ range n, h r c := by
    intro h
    rw [Data.sum_range_mul]
    refine sum_congr rfl (fun r _ => sum_congr rfl (fun c hc => ?_))
    have hc := mem_range.mp hc
    rw [Nat.add_div_of_dvd_right (Dvd.intro_left r rfl), Nat.mul_div_cancel _ hn0, Nat.div_eq_of_lt hc, Nat.add_zero, Nat.add_mod, Nat.mul_mod_left, Nat.zero_add, Nat.mod_mod, Nat.mod_eq_of_lt hc]
  have hnear := sum_near (F := Num f) (x := fun p => -(V (p / n) (p % n) * Real.log (max ε (prob n (Y (p / n)) (p % n)))))
    (e := fun p => termErr (Arith.u (Num f)) (Arith.w (Num f)) lam ε (prob n (Y (p / n)) (p % n)) (softErr (Arith.u (Num f)) (Arith.w (Num f)) ρ ε n (R (p / n)) (e (p / n))) (V (p / n) (p % n)) (ν (p / n) (p % n)))
    hto (fun p hp => by
      have hr : p / n < m := Nat.div_lt_of_lt_mul (by rw [mul_comm]; exact hp)
      have hc : p % n < n := Nat.mod_lt _ hn0
      have hsm := soft_row_near hρ hexp heps hε.le (x := fun c => a [p / n, c]) (X := Y (p / n)) (e := e (p / n)) (R := R (p / n)) (n := n)
        (fun c hc => hx _ c hr hc) (fun c c' hc hc' => hR _ c c' hr hc hc') (hsoft _ hr) hc
      exact neg_near (mul_near (F := Num f) (hV _ _ hr hc) (log_near hl hlog heps hε hε1 (prob_bounds n _ hc).2 (hsmall _ hr) hsm) (hterm _ _ hr hc))) (by
      simp only [abs_neg]
      rw [hdouble (fun r c => |V r c * Real.log (max ε (prob n (Y r) c))| +
        termErr (Arith.u (Num f)) (Arith.w (Num f)) lam ε (prob n (Y r) c) (softErr (Arith.u (Num f)) (Arith.w (Num f)) ρ ε n (R r) (e r)) (V r c) (ν r c))]
      exact hsum)
  obtain ⟨hy, hval⟩ := hnear
  simp only [abs_neg] at hval
  rw [hdouble (fun r c => -(V r c * Real.log (max ε (prob n (Y r) c)))),
    hdouble (fun r c => termErr (Arith.u (Num f)) (Arith.w (Num f)) lam ε (prob n (Y r) c) (softErr (Arith.u (Num f)) (Arith.w (Num f)) ρ ε n (R r) (e r)) (V r c) (ν r c)),
    hdouble (fun r c => |V r c * Real.log (max ε (prob n (Y r) c))| +
        termErr (Arith.u (Num f)) (Arith.w (Num f)) lam ε (prob n (Y r) c) (softErr (Arith.u (Num f)) (Arith.w (Num f)) ρ ε n (R r) (e r)) (V r c) (ν r c)), ← hE] at hval
  have hA' : ∑ r ∈ range m, ∑ c ∈ range n, -(V r c * Real.log (max ε (prob n (Y r) c))) = A := by
    rw [hA]
    simp only [sum_neg_distrib]
  rw [hA'] at hval
  have hmf : Fixed f m := by
    have := fixed_int (f := f) (k := (m : ℤ)) (by
      rw [abs_of_nonneg (by positivity)]
      exact_mod_cast hmp)
    simpa using this
  have hmm : ((m : Nat) : Num f) = .num m (hmf.1 ▸ rnd_grid f m) := toNum_fixed hmf
  have hm0 : (1 : ℝ) ≤ m := by exact_mod_cast hm
  have hmv : fin ((m : Nat) : Num f) ∧ val ((m : Nat) : Num f) = m := by
    rw [hmm]
    exact ⟨trivial, by show (((m : ℚ)) : ℝ) = m; simp⟩
  have hyA := near_abs hval
  have hE0 : 0 ≤ |A| + E := (abs_nonneg _).trans hyA
  have hq : |val y / m| ≤ (|A| + E) / m := by
    rw [abs_div, abs_of_pos (show (0 : ℝ) < m by linarith)]
    exact div_le_div_of_nonneg_right hyA (by linarith)
  have hd := div_near hy hmv.1 (by rw [hmv.2]; linarith) (by
    rw [hmv.2]
    exact hq.trans ((div_le_self hE0 hm0).trans hdiv))
  rw [hmv.2] at hd
  refine ⟨_, h1, hd.1, ?_⟩
  have h5 := abs_add_le (val (y / ((m : Nat) : Num f)) - val y / m) (val y / m - A / m)
  rw [sub_add_sub_cancel] at h5
  have h6 : |val y / m - A / m| ≤ E / m := by
    rw [← sub_div, abs_div, abs_of_pos (show (0 : ℝ) < m by linarith)]
    exact div_le_div_of_nonneg_right hval (by linarith)
  have h7 := mul_le_mul_of_nonneg_left hq (Arith.u_nonneg (F := Num f))
  linarith [hd.2]

/-! ### an example: two scores at most 1 apart, `float`, eps at most 1e-8 -/

theorem exSoft {ε : ℝ} (h0 : 0 ≤ ε) (h1 : ε ≤ 1 / 10 ^ 8) :
    SoftFits (Arith.u (Num float32)) (Arith.w (Num float32)) (Arith.top (Num float32)) (2 * Arith.u (Num float32)) ε 2 1 0 ∧
    0 ≤ softErr (Arith.u (Num float32)) (Arith.w (Num float32)) (2 * Arith.u (Num float32)) ε 2 1 0 ∧
    softErr (Arith.u (Num float32)) (Arith.w (Num float32)) (2 * Arith.u (Num float32)) ε 2 1 0 ≤ 1 / 10000 := by
  have hw0 := Arith.w_nonneg (F := Num float32)
  have hw : Arith.w (Num float32) ≤ 1 / 10 ^ 9 := by
    rw [float32_constants.2.1]
    norm_num
  have ht : (100 : ℝ) ≤ Arith.top (Num float32) := by
    rw [float32_constants.2.2.1]
    norm_num
  rw [float32_constants.1]
  generalize Arith.w (Num float32) = w at hw0 hw
  generalize Arith.top (Num float32) = top at ht
  have he : |Real.exp (1 / 2 ^ 24) - 1| ≤ 2 * |(1 : ℝ) / 2 ^ 24| := Real.abs_exp_sub_one_le (by rw [abs_of_pos (by positivity)]; norm_num)
  rw [abs_of_pos (show (0 : ℝ) < 1 / 2 ^ 24 by positivity)] at he
  have he1 := (abs_le.mp he).2
  have he2 := Real.add_one_le_exp ((1 : ℝ) / 2 ^ 24)
  have hα : 0 ≤ expErr (1 / 2 ^ 24) (2 * (1 / 2 ^ 24)) 1 0 ∧ expErr (1 / 2 ^ 24) (2 * (1 / 2 ^ 24)) 1 0 ≤ 1 / 10 ^ 6 := by
    have : shiftErr (1 / 2 ^ 24) 1 0 = 1 / 2 ^ 24 := by unfold shiftErr; ring
    unfold expErr
    rw [this]
    constructor
    · norm_num at he2 ⊢
      linarith
    · norm_num at he1 ⊢
      linarith
  have hσ : 0 ≤ sumErr (1 / 2 ^ 24) w (2 * (1 / 2 ^ 24)) 2 1 0 ∧ sumErr (1 / 2 ^ 24) w (2 * (1 / 2 ^ 24)) 2 1 0 ≤ 1 / 10 ^ 5 := by
    unfold sumErr roundings
    generalize expErr (1 / 2 ^ 24) (2 * (1 / 2 ^ 24)) 1 0 = α at hα
    rw [Real.exp_zero]
    push_cast
    constructor <;> norm_num <;> linarith
  have hT : 0 ≤ totErr (1 / 2 ^ 24) w (2 * (1 / 2 ^ 24)) ε 2 1 0 ∧ totErr (1 / 2 ^ 24) w (2 * (1 / 2 ^ 24)) ε 2 1 0 ≤ 2 / 10 ^ 5 := by
    unfold totErr addErr
    generalize sumErr (1 / 2 ^ 24) w (2 * (1 / 2 ^ 24)) 2 1 0 = σ at hσ
    rw [Real.exp_zero, abs_of_pos (by linarith)]
    constructor <;> norm_num <;> linarith
  have hq : 0 ≤ quotErr (1 / 2 ^ 24) w (2 * (1 / 2 ^ 24)) ε 2 1 0 ∧ quotErr (1 / 2 ^ 24) w (2 * (1 / 2 ^ 24)) ε 2 1 0 ≤ 5 / 10 ^ 5 := by
    unfold quotErr
    generalize expErr (1 / 2 ^ 24) (2 * (1 / 2 ^ 24)) 1 0 = α at hα
    generalize totErr (1 / 2 ^ 24) w (2 * (1 / 2 ^ 24)) ε 2 1 0 = T at hT
    rw [Real.exp_zero]
    have : 0 < 1 - T := by norm_num at hT; linarith
    refine ⟨div_nonneg (by linarith) this.le, ?_⟩
    rw [div_le_iff₀ this]
    norm_num at *
    linarith
  refine ⟨⟨by linarith, by norm_num at hT ⊢; linarith, ?_, by norm_num at hq; linarith⟩, ?_, ?_⟩
  · generalize sumErr (1 / 2 ^ 24) w (2 * (1 / 2 ^ 24)) 2 1 0 = σ at hσ
    rw [Real.exp_zero]
    push_cast
    norm_num at *
    linarith
  · unfold softErr
    generalize quotErr (1 / 2 ^ 24) w (2 * (1 / 2 ^ 24)) ε 2 1 0 = X at hq
    norm_num at *
    linarith
  · unfold softErr
    generalize quotErr (1 / 2 ^ 24) w (2 * (1 / 2 ^ 24)) ε 2 1 0 = X at hq
    norm_num at *
    linarith

/-- A small number for eps. -/
def exEps : Num float32 := .num (1 / 2 ^ 27) ⟨2 ^ 122, by
  show (1 / 2 ^ 27 : ℚ) = _ * (2 : ℚ) ^ (-149 : ℤ)
  push_cast
  norm_num⟩

theorem exEps_val : fin exEps ∧ val exEps = 1 / 2 ^ 27 := ⟨trivial, by show (((1 / 2 ^ 27 : ℚ)) : ℝ) = _; push_cast; rfl⟩

theorem exPair (p q : Num float32) : (⟨[1, 2], [p, q]⟩ : Ten (Num float32)).Has ([1] ++ [2]) (fun is => if is.getLastD 0 = 0 then p else q) := by
  refine ⟨rfl, rfl, fun is hv => ?_⟩
  match is, hv with
  | [0, 0], _ => rfl
  | [0, 1], _ => rfl
  | [n + 1, _], hv => exact absurd hv.1 (by omega)
  | [0, n + 2], hv => exact absurd hv.2.1 (by show ¬ n + 2 < 2; omega)

/-- The scores 0 and 1: the second probability is `e / (1 + e)`, within a ten thousandth, for any good exponential. -/
example (exp : Num float32 → Num float32) (hexp : ExpNear exp (2 * Arith.u (Num float32))) :
    ∃ y b, Softmax.softmaxOf exp exEps ⟨[1, 2], [ofInt 0, ofInt 1]⟩ = ok y ∧ y.Has [1, 2] b ∧ |val (b [0, 1]) - Real.exp 1 / (1 + Real.exp 1)| ≤ 1 / 10000 := by
  have hs := exSoft (ε := 1 / 2 ^ 27) (by positivity) (by norm_num)
  obtain ⟨y, b, h1, h2, h3⟩ := softmax_near (by have := Arith.u_nonneg (F := Num float32); linarith) hexp exEps_val (by positivity) (exPair (ofInt 0) (ofInt 1)) (by norm_num) (by simp)
    (X := fun _ c => if c = 0 then 0 else 1) (e := fun _ => 0) (R := fun _ => 1) (by
      intro ip c _ hc
      simp only [List.getLastD_concat]
      rcases (by omega : c = 0 ∨ c = 1) with rfl | rfl
      · exact ⟨ofInt_fin _, by simp [ofInt_val]⟩
      · exact ⟨ofInt_fin _, by simp [ofInt_val]⟩) (by
      intro ip c c' _ _ _
      split <;> split <;> norm_num) (fun _ _ => hs.1)
  refine ⟨y, b, h1, h2, ?_⟩
  have := (h3 [0] 1 ⟨by norm_num, trivial⟩ (by norm_num)).2.trans hs.2.2
  simpa [prob, sum_range_succ] using this

/-- The labels 0 and 1 with the scores 0 and 0: the gradients are 1/2 and -1/2, within a thousandth. -/
theorem exCross (exp log : Num float32 → Num float32) (hexp : ExpNear exp (2 * Arith.u (Num float32))) (D : Nat → Ten (Num float32)) :
    Head (fun _ => ⟨[1, 2], [ofInt 0, ofInt 1]⟩) D (crossOf (crossOp exp log exEps 0) 3 1) (onesF float32) 1 2 (fun _ _ => 0) (fun _ _ => 0)
      (fun _ c => if c = 0 then 1 / 2 else -1 / 2) (fun _ _ => 1 / 1000) := by
  have hs := exSoft (ε := 1 / 2 ^ 27) (by positivity) (by norm_num)
  have hprob : ∀ c, prob 2 (fun _ => 0) c = 1 / 2 := fun c => by simp [prob]
  have hlt0 : ¬ exEps < ofInt 0 := by
    rw [lt_val exEps_val.1 (ofInt_fin _), exEps_val.2, ofInt_val]
    norm_num
  have hlt1 : exEps < ofInt 1 := by
    rw [lt_val exEps_val.1 (ofInt_fin _), exEps_val.2, ofInt_val]
    norm_num
  have hw0 := Arith.w_nonneg (F := Num float32)
  have hw : Arith.w (Num float32) ≤ 1 / 10 ^ 9 := by
    rw [float32_constants.2.1]
    norm_num
  have ht : (100 : ℝ) ≤ Arith.top (Num float32) := by
    rw [float32_constants.2.2.1]
    norm_num
  have hone := one_near (f := float32)
  have habs : ∀ c, c < 2 → |(1 : ℝ) / 2 - (if c = 0 then 0 else 1)| = 1 / 2 := by
    intro c hc
    rcases (by omega : c = 0 ∨ c = 1) with rfl | rfl <;> norm_num
  refine head_mono (cross_head (by have := Arith.u_nonneg (F := Num float32); linarith) hexp exEps_val (by positivity) (x0 := 1) rfl hone 3 (by norm_num) le_rfl
    (exPair (ofInt 0) (ofInt 1)) (V := fun _ c => if c = 0 then 0 else 1) (ν := fun _ _ => 0) (e := fun _ => 0) (R := fun _ => 1) ?_ (fun _ _ _ _ => le_rfl) (by simp) (fun _ _ => hs.1) ?_) ?_
  · intro r c hr hc
    have hwt := weight_exact exEps (n := 2) le_rfl (by decide) (if ([r, c] : List Nat).getLastD 0 = 0 then ofInt 0 else ofInt 1)
    refine ⟨hwt.1, ?_⟩
    rw [hwt.2]
    rcases (by omega : c = 0 ∨ c = 1) with rfl | rfl
    · simp [hlt0]
    · simp [hlt1]
  · intro r c hr hc
    obtain ⟨_, h1, h2⟩ := hs
    rw [float32_constants.1] at *
    generalize softErr (1 / 2 ^ 24) (Arith.w (Num float32)) (2 * (1 / 2 ^ 24)) (1 / 2 ^ 27) 2 1 0 = s at h1 h2
    unfold CrossFits addErr
    rw [hprob, habs c hc]
    norm_num at *
    constructor <;> linarith
  · intro r c hr hc
    obtain ⟨_, h1, h2⟩ := hs
    refine ⟨?_, ?_⟩
    · rw [hprob]
      rcases (by omega : c = 0 ∨ c = 1) with rfl | rfl <;> norm_num
    · rw [float32_constants.1] at *
      generalize softErr (1 / 2 ^ 24) (Arith.w (Num float32)) (2 * (1 / 2 ^ 24)) (1 / 2 ^ 27) 2 1 0 = s at h1 h2
      unfold crossErr mulErr addErr
      rw [hprob, habs c hc]
      norm_num at *
      linarith

/-- The scores 0 and 0 with the labels 0 and 1: the value is `log 2`, within a thousandth, for any good exponential and logarithm. -/
example (exp log : Num float32 → Num float32) (hexp : ExpNear exp (2 * Arith.u (Num float32))) (hlog : LogNear log (2 * Arith.u (Num float32))) :
    ∃ v, Softmax.crossForwardOf exp log exEps 0 ⟨[1, 2], [ofInt 0, ofInt 1]⟩ ⟨[1, 2], [ofInt 0, ofInt 0]⟩ = ok ⟨[1], [v]⟩ ∧ |val v - Real.log 2| ≤ 1 / 1000 := by
  obtain ⟨hs, h1, h2⟩ := exSoft (ε := 1 / 2 ^ 27) (by positivity) (by norm_num)
  have hprob : ∀ c, prob 2 (fun _ => 0) c = 1 / 2 := fun c => by simp [prob]
  have hmax : max ((1 : ℝ) / 2 ^ 27) (1 / 2) = 1 / 2 := max_eq_right (by norm_num)
  have hlt0 : ¬ exEps < ofInt 0 := by
    rw [lt_val exEps_val.1 (ofInt_fin _), exEps_val.2, ofInt_val]
    norm_num
  have hlt1 : exEps < ofInt 1 := by
    rw [lt_val exEps_val.1 (ofInt_fin _), exEps_val.2, ofInt_val]
    norm_num
  have hw0 := Arith.w_nonneg (F := Num float32)
  have hw : Arith.w (Num float32) ≤ 1 / 10 ^ 9 := by
    rw [float32_constants.2.1]
    norm_num
  have ht : (100 : ℝ) ≤ Arith.top (Num float32) := by
    rw [float32_constants.2.2.1]
    norm_num
  have hln := Real.log_two_lt_d9
  have hln0 := Real.log_two_gt_d9
  have hlog2 : Real.log (1 / 2) = -Real.log 2 := by rw [one_div, Real.log_inv]
  have habs : |Real.log (1 / 2)| = Real.log 2 := by rw [hlog2, abs_neg, abs_of_pos (by linarith)]
  -- the errors
  have hle : 0 ≤ logErr (Arith.w (Num float32)) (2 * Arith.u (Num float32)) (1 / 2 ^ 27) (1 / 2)
        (softErr (Arith.u (Num float32)) (Arith.w (Num float32)) (2 * Arith.u (Num float32)) (1 / 2 ^ 27) 2 1 0) ∧
      logErr (Arith.w (Num float32)) (2 * Arith.u (Num float32)) (1 / 2 ^ 27) (1 / 2)
        (softErr (Arith.u (Num float32)) (Arith.w (Num float32)) (2 * Arith.u (Num float32)) (1 / 2 ^ 27) 2 1 0) ≤ 3 / 10000 := by
    unfold logErr
    generalize softErr (Arith.u (Num float32)) (Arith.w (Num float32)) (2 * Arith.u (Num float32)) (1 / 2 ^ 27) 2 1 0 = s at h1 h2
    rw [hmax, habs, max_eq_right (show (1 : ℝ) / 2 ^ 27 ≤ 1 / 2 - s by norm_num; linarith), float32_constants.1]
    have hd0 : 0 ≤ s / (1 / 2 - s) := div_nonneg h1 (by linarith)
    have hd : s / (1 / 2 - s) ≤ 21 / 100000 := by
      rw [div_le_iff₀ (by linarith)]
      linarith
    generalize s / (1 / 2 - s) = d at hd0 hd
    constructor
    · positivity
    · linarith
  have hte : ∀ V : ℝ, V = 0 ∨ V = 1 → 0 ≤ termErr (Arith.u (Num float32)) (Arith.w (Num float32)) (2 * Arith.u (Num float32)) (1 / 2 ^ 27) (1 / 2)
        (softErr (Arith.u (Num float32)) (Arith.w (Num float32)) (2 * Arith.u (Num float32)) (1 / 2 ^ 27) 2 1 0) V 0 ∧
      termErr (Arith.u (Num float32)) (Arith.w (Num float32)) (2 * Arith.u (Num float32)) (1 / 2 ^ 27) (1 / 2)
        (softErr (Arith.u (Num float32)) (Arith.w (Num float32)) (2 * Arith.u (Num float32)) (1 / 2 ^ 27) 2 1 0) V 0 ≤ 31 / 100000 := by
    intro V hV
    unfold termErr mulErr
    generalize logErr (Arith.w (Num float32)) (2 * Arith.u (Num float32)) (1 / 2 ^ 27) (1 / 2)
        (softErr (Arith.u (Num float32)) (Arith.w (Num float32)) (2 * Arith.u (Num float32)) (1 / 2 ^ 27) 2 1 0) = d at hle
    rw [hmax, habs, float32_constants.1]
    rcases hV with rfl | rfl
    · norm_num
      constructor <;> linarith
    · norm_num
      constructor <;> linarith
  have t0 := hte 0 (Or.inl rfl)
  have t1 := hte 1 (Or.inr rfl)
  obtain ⟨d0, e0⟩ : ∃ d, d = termErr (Arith.u (Num float32)) (Arith.w (Num float32)) (2 * Arith.u (Num float32)) (1 / 2 ^ 27) (1 / 2)
    (softErr (Arith.u (Num float32)) (Arith.w (Num float32)) (2 * Arith.u (Num float32)) (1 / 2 ^ 27) 2 1 0) 0 0 := ⟨_, rfl⟩
  obtain ⟨d1, e1⟩ : ∃ d, d = termErr (Arith.u (Num float32)) (Arith.w (Num float32)) (2 * Arith.u (Num float32)) (1 / 2 ^ 27) (1 / 2)
    (softErr (Arith.u (Num float32)) (Arith.w (Num float32)) (2 * Arith.u (Num float32)) (1 / 2 ^ 27) 2 1 0) 1 0 := ⟨_, rfl⟩
  rw [← e0] at t0
  rw [← e1] at t1
  obtain ⟨v, v1, _, v3⟩ := cross_value (by have := Arith.u_nonneg (F := Num float32); linarith) hexp (by have := Arith.u_nonneg (F := Num float32); linarith) hlog exEps_val (by positivity) (by norm_num)
    (m := 1) (n := 2) (by norm_num) (by decide) le_rfl (exPair (ofInt 0) (ofInt 1)) (exPair (ofInt 0) (ofInt 0)) (k := 0) (V := fun _ c => if c = 0 then 0 else 1) (ν := fun _ _ => 0) (Y := fun _ _ => 0)
    (e := fun _ => 0) (R := fun _ => 1) (by
      intro r c hr hc
      have hwt := weight_exact exEps (n := 2) le_rfl (by decide) (if ([r, c] : List Nat).getLastD 0 = 0 then ofInt 0 else ofInt 1)
      refine ⟨hwt.1, ?_⟩
      rw [hwt.2]
      rcases (by omega : c = 0 ∨ c = 1) with rfl | rfl
      · simp [hlt0]
      · simp [hlt1]) (by
      intro r c hr hc
      simp only [ite_self]
      exact ⟨ofInt_fin _, by simp [ofInt_val]⟩) (by simp) (fun _ _ => hs) (fun _ _ => by linarith) rfl (by
      intro r c hr hc
      simp only [hprob, hmax, habs]
      generalize logErr _ _ _ _ _ = d at hle
      by_cases h : c = 0 <;> simp [h] <;> linarith) (by
      simp only [hprob, hmax, sum_range_one, sum_range_succ, sum_range_zero, if_true, one_ne_zero, if_false, zero_mul, one_mul, abs_zero, habs, zero_add, ← e0, ← e1]
      rw [float32_constants.1]
      norm_num
      linarith) rfl (by
      simp only [hprob, hmax, sum_range_one, sum_range_succ, sum_range_zero, if_true, one_ne_zero, if_false, zero_mul, one_mul, abs_zero, habs, zero_add, ← e0, ← e1]
      rw [float32_constants.1]
      simp only [hlog2, neg_neg, roundings]
      rw [abs_of_pos (show 0 < Real.log 2 by linarith)]
      norm_num
      linarith)
  refine ⟨v, v1, ?_⟩
  simp only [hprob, hmax, sum_range_one, sum_range_succ, sum_range_zero, if_true, one_ne_zero, if_false, zero_mul, one_mul, abs_zero, habs, zero_add, ← e0, ← e1, hlog2, neg_neg, Nat.cast_one, div_one,
    roundings, abs_neg] at v3
  rw [float32_constants.1, abs_of_pos (show 0 < Real.log 2 by linarith)] at v3
  refine v3.trans ?_
  norm_num
  linarith

/-- There is such an exponential, so the assumptions can be met. -/
example : ∃ exp : Num float32 → Num float32, ExpNear exp (2 * Arith.u (Num float32)) := exists_exp float32

/-- There is such a logarithm for `float`, with twice the error of one rounding. -/
theorem exists_log : ∃ log : Num float32 → Num float32, LogNear log (2 * Arith.u (Num float32)) := by
  have hr : ∀ q : ℚ, ∃ r : ℚ, 0 < q → q ≠ 1 → |(r : ℝ) - Real.log q| ≤ Arith.u (Num float32) / 2 * |Real.log q| := by
    intro q
    by_cases h : 0 < q ∧ q ≠ 1
    · have hq0 : (0 : ℝ) < (q : ℝ) := by exact_mod_cast h.1
      have hq1 : (q : ℝ) ≠ 1 := by exact_mod_cast h.2
      have hne : Real.log (q : ℝ) ≠ 0 := Real.log_ne_zero_of_pos_of_ne_one hq0 hq1
      have hpos : 0 < Arith.u (Num float32) / 2 * |Real.log (q : ℝ)| := by
        rw [float32_constants.1]
        have := abs_pos.mpr hne
        positivity
      obtain ⟨r, r1, r2⟩ := exists_rat_btwn (show Real.log (q : ℝ) < Real.log q + Arith.u (Num float32) / 2 * |Real.log (q : ℝ)| by linarith)
      exact ⟨r, fun _ _ => by rw [abs_of_pos (by linarith)]; linarith⟩
    · exact ⟨0, fun h1 h2 => absurd ⟨h1, h2⟩ h⟩
  choose r hr using hr
  refine ⟨fun a => match a with | .num q _ => if q = 1 then 0 else toNum float32 (r q) | _ => .nan, fun q g hq hq2 => ?_⟩
  dsimp only
  by_cases h1 : q = 1
  · subst h1
    rw [if_pos rfl]
    exact ⟨0, _, rfl, by simp; exact Arith.w_nonneg⟩
  rw [if_neg h1]
  have hrq := hr q hq h1
  have hq0 : (0 : ℝ) < (q : ℝ) := by exact_mod_cast hq
  -- the numbers of the format are multiples of its smallest one
  have hlow : (1 : ℝ) / 2 ^ 149 ≤ (q : ℝ) := by
    obtain ⟨k, hk⟩ := g
    have hk' : q = k * (2 : ℚ) ^ (-149 : ℤ) := hk
    have hk0 : 0 < k := by
      by_contra hc
      have : (k : ℚ) ≤ 0 := by exact_mod_cast not_lt.mp hc
      have h3 : (0 : ℚ) < (2 : ℚ) ^ (-149 : ℤ) := by positivity
      rw [hk'] at hq
      nlinarith
    have hk1 : (1 : ℚ) ≤ k := by exact_mod_cast hk0
    have h4 : (1 : ℚ) / 2 ^ 149 ≤ q := by
      rw [hk', show ((2 : ℚ) ^ (-149 : ℤ)) = 1 / 2 ^ 149 by norm_num]
      nlinarith [show (0 : ℚ) < 1 / 2 ^ 149 by positivity]
    have := (Rat.cast_le (K := ℝ)).mpr h4
    push_cast at this
    exact this
  have hL : |Real.log (q : ℝ)| ≤ 149 := by
    have h5 : Real.log (1 / 2 ^ 149) ≤ Real.log (q : ℝ) := Real.log_le_log (by positivity) hlow
    rw [one_div, Real.log_inv, Real.log_pow] at h5
    have h6 := Real.log_two_lt_d9
    have h7 : Real.log (q : ℝ) ≤ Real.log 2 := Real.log_le_log hq0 (by exact_mod_cast hq2)
    rw [abs_le]
    push_cast at h5
    constructor <;> linarith
  have hu := float32_constants.1
  have hbound : |(r q : ℝ)| ≤ |Real.log (q : ℝ)| * (1 + Arith.u (Num float32) / 2) := by
    have := abs_add_le ((r q : ℝ) - Real.log q) (Real.log q)
    rw [sub_add_cancel] at this
    linarith
  have hle : |rnd float32 (r q)| ≤ largest float32 := by
    refine rnd_le_largest float32 ?_
    have h8 : |(r q : ℝ)| ≤ 300 := by
      rw [hu] at hbound
      norm_num at hbound
      nlinarith
    have h9 : |r q| ≤ 300 := by exact_mod_cast h8
    refine h9.trans ?_
    rw [show largest float32 = (2 ^ 24 - 1) * 2 ^ 104 by unfold largest float32; norm_num]
    norm_num
  refine ⟨_, _, toNum_of hle, ?_⟩
  have h10 : |((rnd float32 (r q) : ℚ) : ℝ) - (r q : ℝ)| ≤ Arith.u (Num float32) * |(r q : ℝ)| + Arith.w (Num float32) := by
    have h := (Rat.cast_le (K := ℝ)).mpr (rnd_err float32 (r q))
    show _ ≤ (((1 / 2) ^ float32.p : ℚ) : ℝ) * |(r q : ℝ)| + (((2 : ℚ) ^ float32.emin / 2 : ℚ) : ℝ)
    push_cast at h ⊢
    exact h
  have h11 := abs_add_le (((rnd float32 (r q) : ℚ) : ℝ) - (r q : ℝ)) ((r q : ℝ) - Real.log q)
  rw [sub_add_sub_cancel] at h11
  have h13 := abs_nonneg (Real.log (q : ℝ))
  rw [hu] at hrq hbound h10 ⊢
  linarith

end Verif.Fp
