import Verif.Nan.Sums
import Mathlib.Analysis.SpecialFunctions.Log.Basic
import Mathlib.Analysis.SpecialFunctions.Trigonometric.DerivHyp
/-!
# Bounds on floating point numbers

Finite numbers between bounds, through the operations: rounding does not lead out of bounds that are themselves numbers of the format.
-/
namespace Verif.Finite
open Verif Fp Nan

variable {f : Fmt}

/-- A finite number of the format (the type also has multiples of the smallest number that no operation gives). -/
def Fin (a : Num f) : Prop := ∃ q h, a = .num q h ∧ toNum f q = .num q h

/-- A finite number of the format between `lo` and `hi`. -/
def In (lo hi : ℚ) (a : Num f) : Prop := ∃ q h, a = .num q h ∧ toNum f q = .num q h ∧ lo ≤ q ∧ q ≤ hi

theorem In.fin {lo hi : ℚ} {a : Num f} (h : In lo hi a) : Fin a := by
  obtain ⟨q, h, e, e', _⟩ := h
  exact ⟨q, h, e, e'⟩

theorem In.mono {lo hi lo' hi' : ℚ} {a : Num f} (h : In lo hi a) (h1 : lo' ≤ lo) (h2 : hi ≤ hi') : In lo' hi' a := by
  obtain ⟨q, h, e, e', a1, a2⟩ := h
  exact ⟨q, h, e, e', h1.trans a1, a2.trans h2⟩

/-- A bound that rounding keeps. -/
def Fixed (f : Fmt) (q : ℚ) : Prop := rnd f q = q ∧ |q| ≤ largest f

theorem rnd_rep {q : ℚ} (h : Representable f q) : rnd f q = q := by
  have := (rnd_nearest f q).2 q h
  rw [sub_self, abs_zero] at this
  have := abs_eq_zero.mp (le_antisymm this (abs_nonneg _))
  linarith

theorem rnd_rnd (x : ℚ) : rnd f (rnd f x) = rnd f x := rnd_rep (rnd_nearest f x).1

theorem rep_neg {q : ℚ} (h : Representable f q) : Representable f (-q) := by
  obtain ⟨k, e, h1, h2, rfl⟩ := h
  exact ⟨-k, e, by rw [abs_neg]; exact h1, h2, by push_cast; ring⟩

theorem Fixed.rep {q : ℚ} (h : Fixed f q) : Representable f q := h.1 ▸ (rnd_nearest f q).1

theorem Fixed.neg {q : ℚ} (h : Fixed f q) : Fixed f (-q) := ⟨rnd_rep (rep_neg h.rep), by rw [abs_neg]; exact h.2⟩

theorem Fixed.abs {q : ℚ} (h : Fixed f q) : Fixed f |q| := by
  rcases abs_choice q with e | e <;> rw [e]
  · exact h
  · exact h.neg

/-- Rounding does not change the order. -/
theorem rnd_mono {x y : ℚ} (h : x ≤ y) : rnd f x ≤ rnd f y := by
  rcases eq_or_lt_of_le h with rfl | h
  · exact le_rfl
  by_contra hc
  rw [not_le] at hc
  have h1 := (rnd_nearest f x).2 _ (rnd_nearest f y).1
  have h2 := (rnd_nearest f y).2 _ (rnd_nearest f x).1
  have a1 := abs_le.mp h1
  have a2 := abs_le.mp h2
  rcases abs_cases (rnd f y - x) with ⟨e, _⟩ | ⟨e, _⟩ <;> rcases abs_cases (rnd f x - y) with ⟨e', _⟩ | ⟨e', _⟩ <;> rw [e] at a1 <;> rw [e'] at a2 <;> linarith

theorem fixed_int {k : ℤ} (h : |k| < 2 ^ f.p) : Fixed f k := by
  have h' : |(k : ℚ)| < 2 ^ f.p := by exact_mod_cast h
  exact ⟨rnd_int f h', whole_le_largest f h' ⟨k, rfl⟩⟩

theorem fixed_zero : Fixed f 0 := ⟨rnd_zero f, by
  rw [abs_zero]; unfold largest
  have h4 : (0 : ℚ) < (2 : ℚ) ^ f.emax := zpow_pos (by norm_num) _
  have h5 : (1 : ℚ) ≤ 2 ^ f.p := one_le_pow₀ (by norm_num)
  nlinarith⟩

theorem fixed_one : Fixed f 1 := by
  have := f.hp
  have := fixed_int (f := f) (k := 1) (by rw [abs_one]; exact one_lt_pow₀ (by norm_num) (by omega))
  simpa using this

theorem toNum_of {x : ℚ} (h : |rnd f x| ≤ largest f) : toNum f x = .num (rnd f x) (rnd_grid f x) := by unfold toNum; rw [if_pos h]

theorem toNum_fixed {q : ℚ} (h : Fixed f q) {g : Grid f q} : toNum f q = .num q g := by
  rw [toNum_of (by rw [h.1]; exact h.2)]
  congr 1
  exact h.1

theorem fixed_of {q : ℚ} {g : Grid f q} (h : toNum f q = .num q g) : Fixed f q := by
  unfold toNum at h
  split at h
  · next hl =>
    injection h with h
    exact ⟨h, h ▸ hl⟩
  · cases h

/-- The number nearest to something between two numbers of the format is between them. -/
theorem toNum_in {x lo hi : ℚ} (hl : Fixed f lo) (hh : Fixed f hi) (h1 : lo ≤ x) (h2 : x ≤ hi) : In lo hi (toNum f x) := by
  have a1 : lo ≤ rnd f x := by have := rnd_mono (f := f) h1; rwa [hl.1] at this
  have a2 : rnd f x ≤ hi := by have := rnd_mono (f := f) h2; rwa [hh.1] at this
  have hle : |rnd f x| ≤ largest f := abs_le.mpr ⟨by have := (abs_le.mp hl.2).1; linarith, by have := (abs_le.mp hh.2).2; linarith⟩
  rw [toNum_of hle]
  refine ⟨_, _, rfl, ?_, a1, a2⟩
  exact toNum_fixed ⟨rnd_rnd x, hle⟩

theorem Fin.in {a : Num f} (h : Fin a) : ∃ q, Fixed f q ∧ In q q a := by
  obtain ⟨q, g, e, e'⟩ := h
  exact ⟨q, fixed_of e', q, g, e, e', le_rfl, le_rfl⟩

theorem zero_in : In 0 0 (0 : Num f) := ⟨0, _, rfl, toNum_fixed fixed_zero, le_rfl, le_rfl⟩

theorem one_in : In 1 1 (1 : Num f) := toNum_in fixed_one fixed_one le_rfl le_rfl

theorem neg_in {lo hi : ℚ} {a : Num f} (h : In lo hi a) : In (-hi) (-lo) (neg a) := by
  obtain ⟨q, g, rfl, e', a1, a2⟩ := h
  exact ⟨-q, _, rfl, toNum_fixed (fixed_of e').neg, by linarith, by linarith⟩

theorem add_in {l1 h1 l2 h2 lo hi : ℚ} {a b : Num f} (ha : In l1 h1 a) (hb : In l2 h2 b) (hl : Fixed f lo) (hh : Fixed f hi) (e1 : lo ≤ l1 + l2) (e2 : h1 + h2 ≤ hi) :
    In lo hi (a + b) := by
  obtain ⟨x, _, rfl, _, a1, a2⟩ := ha
  obtain ⟨y, _, rfl, _, b1, b2⟩ := hb
  exact toNum_in hl hh (by linarith) (by linarith)

theorem sub_in {l1 h1 l2 h2 lo hi : ℚ} {a b : Num f} (ha : In l1 h1 a) (hb : In l2 h2 b) (hl : Fixed f lo) (hh : Fixed f hi) (e1 : lo ≤ l1 - h2) (e2 : h1 - l2 ≤ hi) :
    In lo hi (a - b) := add_in ha (neg_in hb) hl hh (by linarith) (by linarith)

theorem mul_in {l1 h1 l2 h2 lo hi : ℚ} {a b : Num f} (ha : In l1 h1 a) (hb : In l2 h2 b) (hl : Fixed f lo) (hh : Fixed f hi)
    (e : ∀ x y : ℚ, l1 ≤ x → x ≤ h1 → l2 ≤ y → y ≤ h2 → lo ≤ x * y ∧ x * y ≤ hi) : In lo hi (a * b) := by
  obtain ⟨x, _, rfl, _, a1, a2⟩ := ha
  obtain ⟨y, _, rfl, _, b1, b2⟩ := hb
  have := e x y a1 a2 b1 b2
  exact toNum_in hl hh this.1 this.2

theorem div_in {l1 h1 l2 h2 lo hi : ℚ} {a b : Num f} (ha : In l1 h1 a) (hb : In l2 h2 b) (hb0 : 0 < l2 ∨ h2 < 0) (hl : Fixed f lo) (hh : Fixed f hi)
    (e : ∀ x y : ℚ, l1 ≤ x → x ≤ h1 → l2 ≤ y → y ≤ h2 → lo ≤ x / y ∧ x / y ≤ hi) : In lo hi (a / b) := by
  obtain ⟨x, _, rfl, _, a1, a2⟩ := ha
  obtain ⟨y, _, rfl, _, b1, b2⟩ := hb
  have := e x y a1 a2 b1 b2
  have hy : y ≠ 0 := by rcases hb0 with h | h <;> intro e <;> linarith
  show In lo hi (if y = 0 then (if x = 0 then .nan else .inf (decide (x < 0))) else toNum f (x / y))
  rw [if_neg hy]
  exact toNum_in hl hh this.1 this.2

/-- Not below `lo`, or `+∞`. -/
def Above (lo : ℚ) (a : Num f) : Prop := In lo (largest f) a ∨ a = .inf false

theorem Above.in {lo hi : ℚ} {a : Num f} (h : In lo hi a) : Above lo a := by
  obtain ⟨q, g, e, e', a1, a2⟩ := h
  exact Or.inl ⟨q, g, e, e', a1, (abs_le.mp (fixed_of e').2).2⟩

theorem toNum_above {x lo : ℚ} (hl : Fixed f lo) (h : lo ≤ x) (hx : 0 ≤ x) : Above lo (toNum f x) := by
  have a1 : lo ≤ rnd f x := by have := rnd_mono (f := f) h; rwa [hl.1] at this
  by_cases hle : |rnd f x| ≤ largest f
  · rw [toNum_of hle]
    exact Or.inl ⟨_, _, rfl, toNum_fixed ⟨rnd_rnd x, hle⟩, a1, (abs_le.mp hle).2⟩
  · right
    unfold toNum
    rw [if_neg hle, decide_eq_false (not_lt.mpr hx)]

theorem add_above {l1 l2 lo : ℚ} {a b : Num f} (ha : Above l1 a) (hb : Above l2 b) (hl : Fixed f lo) (e : lo ≤ l1 + l2) (h0 : 0 ≤ l1 + l2) : Above lo (a + b) := by
  rcases ha with ⟨x, _, rfl, _, a1, a2⟩ | rfl <;> rcases hb with ⟨y, _, rfl, _, b1, b2⟩ | rfl
  · exact toNum_above hl (by linarith) (by linarith)
  · exact Or.inr rfl
  · exact Or.inr rfl
  · exact Or.inr rfl

/-- A finite number divided by one that is at least 1, or infinite, is finite, and not larger. -/
theorem div_above {lo hi l h : ℚ} {a b : Num f} (ha : In lo hi a) (hb : Above 1 b) (hl : Fixed f l) (hh : Fixed f h) (h1 : l ≤ lo) (h2 : l ≤ 0) (h3 : hi ≤ h) (h4 : 0 ≤ h) :
    In l h (a / b) := by
  rcases hb with hb | rfl
  · refine div_in ha hb (Or.inl one_pos) hl hh (fun x y a1 a2 b1 _ => ?_)
    have hy : 0 < y := by linarith
    rw [le_div_iff₀ hy, div_le_iff₀ hy]
    constructor <;> nlinarith
  · obtain ⟨x, _, rfl, _, a1, a2⟩ := ha
    exact zero_in.mono h2 h4

/-! ### The functions of the mathematical library -/

/-- What is asked of a computed value `a` of the real number `r`: not NaN, on the same side of every small whole number, finite if `r` is not
too large, infinite if it is at least twice the largest number.  Rounding to nearest is of this kind, and any rounding to one of the two neighbours. -/
structure Computes (f : Fmt) (r : ℝ) (a : Num f) : Prop where
  num : |r| ≤ largest f → Fin a
  lower : ∀ m : ℤ, |m| < 2 ^ f.p → (m : ℝ) ≤ r → Above (m : ℚ) a ∨ a = .inf false
  upper : ∀ m : ℤ, |m| < 2 ^ f.p → r ≤ (m : ℝ) → (∃ q, In q (m : ℚ) a) ∨ a = .inf true
  over : 2 * (largest f : ℝ) ≤ r → a = .inf false

/-- `std::exp`, `std::log` and `std::tanh`. -/
structure Maths (f : Fmt) where
  exp : Num f → Num f
  log : Num f → Num f
  tanh : Num f → Num f
  exp_num : ∀ (x : ℚ) h, Computes f (Real.exp x) (exp (.num x h))
  exp_inf : ∀ s, exp (.inf s) = if s then 0 else .inf false
  log_num : ∀ (x : ℚ) h, 0 < x → Computes f (Real.log x) (log (.num x h))
  log_zero : ∀ h, log (.num 0 h) = .inf true
  log_neg : ∀ x h, x < 0 → log (.num x h) = .nan
  log_inf : log (.inf false) = .inf false
  log_nan : log .nan = .nan
  tanh_num : ∀ (x : ℚ) h, Computes f (Real.tanh x) (tanh (.num x h))
  tanh_inf : ∀ s, tanh (.inf s) = if s then neg 1 else 1

theorem in_of_bounds {lo hi q : ℚ} {a : Num f} (h1 : Above lo a) (h2 : In q hi a) : In lo hi a := by
  obtain ⟨x, g, rfl, e', b1, b2⟩ := h2
  rcases h1 with ⟨y, g', e, _, a1, _⟩ | e
  · injection e with e
    subst e
    exact ⟨x, g, rfl, e', a1, b2⟩
  · cases e

theorem Computes.between {r : ℝ} {a : Num f} (h : Computes f r a) {m n : ℤ} (hm : |m| < 2 ^ f.p) (hn : |n| < 2 ^ f.p) (h1 : (m : ℝ) ≤ r) (h2 : r ≤ (n : ℝ)) : In (m : ℚ) (n : ℚ) a := by
  rcases h.upper n hn h2 with ⟨q, h3⟩ | h3
  · rcases h.lower m hm h1 with h4 | h4
    · exact in_of_bounds h4 h3
    · obtain ⟨x, g, e, _⟩ := h3
      rw [e] at h4
      cases h4
  · rcases h.lower m hm h1 with (⟨x, g, e, _⟩ | h4) | h4 <;> simp_all

theorem exp_neg (M : Maths f) {x : ℚ} {h : Grid f x} (hx : x ≤ 0) : In 0 1 (M.exp (.num x h)) := by
  have h2 : (1 : ℤ) < 2 ^ f.p := one_lt_pow₀ (by norm_num) (by have := f.hp; omega)
  have := (M.exp_num x h).between (m := 0) (n := 1) (by simp) (by simpa using h2) (by simpa using (Real.exp_pos _).le) (by
    rw [Int.cast_one]; exact Real.exp_le_one_iff.mpr (by exact_mod_cast hx))
  simpa using this

theorem exp_zero (M : Maths f) {h : Grid f 0} : In 1 1 (M.exp (.num 0 h)) := by
  have h2 : (1 : ℤ) < 2 ^ f.p := one_lt_pow₀ (by norm_num) (by have := f.hp; omega)
  have := (M.exp_num 0 h).between (m := 1) (n := 1) (by simpa using h2) (by simpa using h2) (by simp) (by simp)
  simpa using this

theorem exp_above (M : Maths f) {a : Num f} (h : Fin a ∨ ∃ s, a = .inf s) : Above 0 (M.exp a) := by
  rcases h with ⟨q, g, rfl, _⟩ | ⟨s, rfl⟩
  · rcases (M.exp_num q g).lower 0 (by simp) (by simpa using (Real.exp_pos _).le) with h | h
    · simpa using h
    · exact Or.inr h
  · rw [M.exp_inf]
    cases s
    · exact Or.inr rfl
    · exact Above.in zero_in

theorem exp_nonpos (M : Maths f) {lo : ℚ} {a : Num f} (h : In lo 0 a ∨ a = .inf true) : In 0 1 (M.exp a) := by
  rcases h with ⟨q, g, rfl, _, _, h⟩ | rfl
  · exact exp_neg M h
  · rw [M.exp_inf]
    exact zero_in.mono le_rfl zero_le_one

/-! ### There are such functions -/

noncomputable section

/-- The smallest positive number. -/
def unit (f : Fmt) : ℚ := (2 : ℚ) ^ f.emin

theorem unit_pos : 0 < unit f := zpow_pos (by norm_num : (0 : ℚ) < 2) _

/-- The number at or below `r`, or infinity. -/
def down (f : Fmt) (r : ℝ) : Num f :=
  if (largest f : ℝ) < r then .inf false else if r < -(largest f : ℝ) then .inf true else toNum f (⌊r / (unit f : ℝ)⌋ * unit f)

theorem grid_int (m : ℤ) : ∃ k : ℤ, (m : ℚ) = k * unit f := by
  refine ⟨m * 2 ^ (-f.emin).toNat, ?_⟩
  have := f.hmin
  unfold unit
  push_cast
  rw [mul_assoc, ← zpow_natCast, ← zpow_add₀ (by norm_num), show ((-f.emin).toNat : ℤ) + f.emin = 0 by omega]
  simp

theorem grid_largest : ∃ k : ℤ, largest f = k * unit f := by
  refine ⟨(2 ^ f.p - 1) * 2 ^ (f.emax - f.emin).toNat, ?_⟩
  have := f.hmin
  have := f.hmax
  unfold largest unit
  push_cast
  rw [mul_assoc, ← zpow_natCast (2 : ℚ) (f.emax - f.emin).toNat, ← zpow_add₀ (by norm_num), show ((f.emax - f.emin).toNat : ℤ) + f.emin = f.emax by omega]

theorem fixed_largest : Fixed f (largest f) := by
  refine ⟨rnd_rep ⟨2 ^ f.p - 1, f.emax, ?_, f.hmin.trans f.hmax, by unfold largest; push_cast; rfl⟩, ?_⟩
  · have h1 : (1 : ℤ) ≤ 2 ^ f.p := one_le_pow₀ (by norm_num)
    rw [abs_of_nonneg (by omega)]; omega
  · have := fixed_zero (f := f)
    rw [abs_of_nonneg (by have := this.2; rwa [abs_zero] at this)]

theorem down_spec (r : ℝ) : Computes f r (down f r) := by
  have hu : (0 : ℝ) < (unit f : ℝ) := by exact_mod_cast unit_pos
  have hL0 : (0 : ℝ) ≤ largest f := by have := (fixed_zero (f := f)).2; rw [abs_zero] at this; exact_mod_cast this
  -- grid numbers at or below `r` are at or below its floor
  have fl : ∀ k : ℤ, ((k * unit f : ℚ) : ℝ) ≤ r → (k * unit f : ℚ) ≤ ⌊r / (unit f : ℝ)⌋ * unit f := by
    intro k hk
    have h1 : (k : ℝ) ≤ r / (unit f : ℝ) := by rw [le_div_iff₀ hu]; rw [Rat.cast_mul] at hk; exact_mod_cast hk
    have h2 : k ≤ ⌊r / (unit f : ℝ)⌋ := Int.le_floor.mpr h1
    have h3 : (k : ℚ) ≤ ⌊r / (unit f : ℝ)⌋ := by exact_mod_cast h2
    exact mul_le_mul_of_nonneg_right h3 (by exact_mod_cast hu.le)
  have le : ((⌊r / (unit f : ℝ)⌋ * unit f : ℚ) : ℝ) ≤ r := by
    have := Int.floor_le (r / (unit f : ℝ))
    rw [le_div_iff₀ hu] at this
    rw [Rat.cast_mul]
    exact_mod_cast this
  have mid : ¬ (largest f : ℝ) < r → ¬ r < -(largest f : ℝ) → -largest f ≤ ⌊r / (unit f : ℝ)⌋ * unit f ∧
      ⌊r / (unit f : ℝ)⌋ * unit f ≤ largest f := by
    intro h1 h2
    rw [not_lt] at h1 h2
    obtain ⟨k, hk⟩ := grid_largest (f := f)
    have := fl (-k) (by
      have e : (((-k : ℤ) : ℚ) * unit f : ℚ) = -largest f := by rw [hk]; push_cast; ring
      rw [e]; push_cast; linarith)
    constructor
    · rw [hk]; push_cast at this; linarith
    · have := le.trans h1
      exact_mod_cast this
  have small : ∀ m : ℤ, |m| < 2 ^ f.p → |(m : ℝ)| ≤ largest f := by
    intro m hm
    have := (fixed_int (f := f) hm).2
    exact_mod_cast this
  constructor
  · intro h
    unfold down
    have ⟨h1, h2⟩ := abs_le.mp h
    rw [if_neg (not_lt.mpr h2), if_neg (not_lt.mpr h1)]
    have := mid (not_lt.mpr h2) (not_lt.mpr h1)
    exact (toNum_in fixed_largest.neg fixed_largest this.1 this.2).fin
  · intro m hm h
    unfold down
    by_cases h1 : (largest f : ℝ) < r
    · rw [if_pos h1]; exact Or.inr rfl
    · have h2 : ¬ r < -(largest f : ℝ) := by
        have := (abs_le.mp (small m hm)).1
        rw [not_lt]; linarith
      rw [if_neg h1, if_neg h2]
      have := mid h1 h2
      obtain ⟨k, hk⟩ := grid_int (f := f) m
      refine Or.inl (Above.in (toNum_in (fixed_int hm) fixed_largest ?_ this.2))
      rw [hk]
      refine fl k ?_
      rw [← hk]
      push_cast
      exact h
  · intro m hm h
    unfold down
    have h1 : ¬ (largest f : ℝ) < r := by
      have := (abs_le.mp (small m hm)).2
      rw [not_lt]; linarith
    rw [if_neg h1]
    by_cases h2 : r < -(largest f : ℝ)
    · rw [if_pos h2]; exact Or.inr rfl
    · rw [if_neg h2]
      have := mid h1 h2
      refine Or.inl ⟨-largest f, toNum_in fixed_largest.neg (fixed_int hm) this.1 ?_⟩
      have := le.trans h
      exact_mod_cast this
  · intro h
    unfold down
    by_cases h0 : (largest f : ℝ) = 0
    · exfalso
      unfold largest at h0
      have h4 : (0 : ℚ) < (2 : ℚ) ^ f.emax := zpow_pos (by norm_num) _
      have h5 : (1 : ℚ) < 2 ^ f.p := one_lt_pow₀ (by norm_num) (by have := f.hp; omega)
      have h6 : ((2 : ℚ) ^ f.p - 1) * (2 : ℚ) ^ f.emax = 0 := by exact_mod_cast h0
      rcases mul_eq_zero.mp h6 with h | h <;> linarith
    · have : (0 : ℝ) < largest f := lt_of_le_of_ne hL0 (Ne.symm h0)
      rw [if_pos (by linarith)]

/-- Functions that round to the number below. -/
def roundsDown (f : Fmt) : Maths f where
  exp | .num x _ => down f (Real.exp x) | .inf s => if s then 0 else .inf false | .nan => .nan
  log | .num x _ => if x < 0 then .nan else if x = 0 then .inf true else down f (Real.log x) | .inf s => if s then .nan else .inf false | .nan => .nan
  tanh | .num x _ => down f (Real.tanh x) | .inf s => if s then neg 1 else 1 | .nan => .nan
  exp_num x h := down_spec _
  exp_inf s := rfl
  log_num x h hx := by
    show Computes f _ (if x < 0 then .nan else if x = 0 then .inf true else down f (Real.log x))
    rw [if_neg (not_lt.mpr hx.le), if_neg hx.ne']
    exact down_spec _
  log_zero h := by
    show (if (0 : ℚ) < 0 then (.nan : Num f) else if (0 : ℚ) = 0 then .inf true else down f (Real.log (0 : ℚ))) = _
    rw [if_neg (lt_irrefl _), if_pos rfl]
  log_neg x h hx := by
    show (if x < 0 then (.nan : Num f) else if x = 0 then .inf true else down f (Real.log x)) = _
    rw [if_pos hx]
  log_inf := rfl
  log_nan := rfl
  tanh_num x h := down_spec _
  tanh_inf s := rfl

end

end Verif.Finite
