import Verif.Text.Binary
import Verif.Fp.Spec
/-!
# Floating point numbers (model)

`float` and `double`, the elements of tensors (include/tensor.hpp line 44: `value_type`), as IEEE 754 binary numbers: finite numbers, two
infinities and NaN; sums and products are the exact ones rounded to nearest, ties to even, with gradual underflow, and are infinite when the
rounded result is too large.  The signs of zeros and the payloads of NaN are left out (no operation here looks at them).  `fma` is a product
and a sum with one rounding, which a compiler may use in place of the two.
-/
namespace Verif.Fp
open Verif Text

/-- A binary format: `p` significant bits, the last of which stands for at least `2^emin` and at most `2^emax`. -/
structure Fmt where
  p : Nat
  emin : ℤ
  emax : ℤ
  hp : 1 ≤ p
  hmin : emin ≤ 0
  hmax : 0 ≤ emax

/-- `float`. -/
def float32 : Fmt := ⟨24, -149, 104, by norm_num, by norm_num, by norm_num⟩

/-- `double`. -/
def float64 : Fmt := ⟨53, -1074, 971, by norm_num, by norm_num, by norm_num⟩

/-- The exponent of the last bit of `x`. -/
def expOf (f : Fmt) (x : ℚ) : ℤ := max (Int.log 2 |x| - ((f.p : ℤ) - 1)) f.emin

def ulp (f : Fmt) (x : ℚ) : ℚ := (2 : ℚ) ^ expOf f x

/-- Rounding, as if the exponent were not limited above. -/
def rnd (f : Fmt) (x : ℚ) : ℚ := (roundEven (x / ulp f x) : ℚ) * ulp f x

/-- The largest finite number. -/
def largest (f : Fmt) : ℚ := (2 ^ f.p - 1) * (2 : ℚ) ^ f.emax

/-- Multiples of the smallest positive number. -/
def Grid (f : Fmt) (q : ℚ) : Prop := ∃ k : ℤ, q = k * (2 : ℚ) ^ f.emin

inductive Num (f : Fmt) where
  | num (q : ℚ) (h : Grid f q)
  | inf (neg : Bool)
  | nan

theorem rnd_grid (f : Fmt) (x : ℚ) : Grid f (rnd f x) := by
  refine ⟨roundEven (x / ulp f x) * 2 ^ (expOf f x - f.emin).toNat, ?_⟩
  unfold rnd ulp
  push_cast
  rw [mul_assoc, ← zpow_natCast, ← zpow_add₀ (by norm_num)]
  congr 2
  have : f.emin ≤ expOf f x := le_max_right _ _
  omega

/-- The number nearest to `x`. -/
def toNum (f : Fmt) (x : ℚ) : Num f := if |rnd f x| ≤ largest f then .num (rnd f x) (rnd_grid f x) else .inf (x < 0)

instance (f : Fmt) : Zero (Num f) := ⟨.num 0 ⟨0, by simp⟩⟩

instance (f : Fmt) : Add (Num f) := ⟨fun a b =>
  match a, b with
  | .num x _, .num y _ => toNum f (x + y)
  | .nan, _ => .nan
  | _, .nan => .nan
  | .inf s, .num _ _ => .inf s
  | .num _ _, .inf s => .inf s
  | .inf s, .inf t => if s = t then .inf s else .nan⟩

instance (f : Fmt) : Mul (Num f) := ⟨fun a b =>
  match a, b with
  | .num x _, .num y _ => toNum f (x * y)
  | .nan, _ => .nan
  | _, .nan => .nan
  | .inf s, .num y _ => if y = 0 then .nan else .inf (xor s (decide (y < 0)))
  | .num x _, .inf s => if x = 0 then .nan else .inf (xor s (decide (x < 0)))
  | .inf s, .inf t => .inf (xor s t)⟩

/-- `a b + c` with one rounding. -/
def Num.fma {f : Fmt} (a b c : Num f) : Num f :=
  match a, b, c with
  | .num x _, .num y _, .num z _ => toNum f (x * y + z)
  | .num _ _, .num _ _, c => c
  | a, b, c => a * b + c

/-- The number a finite one stands for. -/
def Num.rat {f : Fmt} : Num f → ℚ
  | .num q _ => q
  | _ => 0

def Num.isNum {f : Fmt} : Num f → Prop
  | .num _ _ => True
  | _ => False

/-! ### It is an arithmetic with rounding -/

variable (f : Fmt)

theorem ulp_pos (x : ℚ) : 0 < ulp f x := zpow_pos (by norm_num) _

theorem rnd_near (x : ℚ) : |rnd f x - x| ≤ ulp f x / 2 := by
  have h := roundEven_near (x / ulp f x)
  have hp := ulp_pos f x
  have e : rnd f x - x = ((roundEven (x / ulp f x) : ℚ) - x / ulp f x) * ulp f x := by
    unfold rnd; field_simp
  rw [e, abs_mul, abs_of_pos hp]
  nlinarith

/-- A multiple of the last bit is not rounded. -/
theorem rnd_mult {x : ℚ} {k : ℤ} (h : x = k * ulp f x) : rnd f x = x := by
  have hp := ulp_pos f x
  have e : x / ulp f x = k := by rw [div_eq_iff hp.ne']; exact h
  unfold rnd
  rw [e, roundEven_int]
  exact h.symm

/-- The last bit is small against `x`, or as small as it gets. -/
theorem ulp_cases {x : ℚ} (hx : x ≠ 0) : ulp f x / 2 ≤ (1 / 2) ^ f.p * |x| ∨ (ulp f x = (2 : ℚ) ^ f.emin) := by
  unfold ulp expOf
  rcases le_total f.emin (Int.log 2 |x| - ((f.p : ℤ) - 1)) with h | h
  · left
    rw [max_eq_left h]
    have lo := Int.zpow_log_le_self (b := 2) (r := |x|) (by norm_num) (abs_pos.mpr hx)
    have e : (2 : ℚ) ^ (Int.log 2 |x| - ((f.p : ℤ) - 1)) / 2 = (1 / 2) ^ f.p * ((2 : ℕ) : ℚ) ^ (Int.log 2 |x|) := by
      push_cast
      rw [show Int.log 2 |x| - ((f.p : ℤ) - 1) = Int.log 2 |x| + (-(f.p : ℤ)) + 1 by ring, zpow_add₀ (by norm_num), zpow_add₀ (by norm_num), zpow_neg,
        zpow_natCast, zpow_one, one_div, inv_pow]
      ring
    rw [e]
    exact mul_le_mul_of_nonneg_left lo (by positivity)
  · right
    rw [max_eq_right h]

theorem rnd_zero : rnd f 0 = 0 := rnd_mult f (k := 0) (by simp)

theorem rnd_err (x : ℚ) : |rnd f x - x| ≤ (1 / 2) ^ f.p * |x| + (2 : ℚ) ^ f.emin / 2 := by
  by_cases hx : x = 0
  · subst hx; rw [rnd_zero]; simp
    exact div_nonneg (zpow_pos (show (0 : ℚ) < 2 by norm_num) _).le (by norm_num)
  · have h := rnd_near f x
    rcases ulp_cases f hx with h' | h'
    · have : (0 : ℚ) < (2 : ℚ) ^ f.emin := zpow_pos (by norm_num) _
      linarith
    · rw [h'] at h
      have : 0 ≤ (1 / 2 : ℚ) ^ f.p * |x| := by positivity
      linarith

theorem rnd_err_grid {x : ℚ} (hg : Grid f x) : |rnd f x - x| ≤ (1 / 2) ^ f.p * |x| := by
  by_cases hx : x = 0
  · subst hx; rw [rnd_zero]; simp
  · rcases ulp_cases f hx with h' | h'
    · exact (rnd_near f x).trans h'
    · obtain ⟨k, hk⟩ := hg
      rw [rnd_mult f (k := k) (by rw [h']; exact hk)]
      simp

theorem Grid.add {x y : ℚ} (hx : Grid f x) (hy : Grid f y) : Grid f (x + y) := by
  obtain ⟨a, rfl⟩ := hx
  obtain ⟨b, rfl⟩ := hy
  exact ⟨a + b, by push_cast; ring⟩

theorem largest_lt : largest f < (2 : ℚ) ^ ((f.p : ℤ) + f.emax) := by
  unfold largest
  rw [zpow_add₀ (by norm_num), zpow_natCast]
  have : (0 : ℚ) < (2 : ℚ) ^ f.emax := zpow_pos (by norm_num) _
  nlinarith

/-- Numbers up to the largest are not rounded above it. -/
theorem rnd_le_largest {x : ℚ} (h : |x| ≤ largest f) : |rnd f x| ≤ largest f := by
  have hp := ulp_pos f x
  have hexp : expOf f x ≤ f.emax := by
    unfold expOf
    refine max_le ?_ (f.hmin.trans f.hmax)
    by_cases hx : x = 0
    · subst hx
      have hp := f.hp
      have hm := f.hmax
      rw [abs_zero, Int.log_zero_right]
      omega
    · have := (Int.lt_zpow_iff_log_lt (b := 2) (x := (f.p : ℤ) + f.emax) (by norm_num) (abs_pos.mpr hx)).mp (by
        push_cast
        exact lt_of_le_of_lt h (largest_lt f))
      omega
  obtain ⟨d, hd⟩ := Int.eq_ofNat_of_zero_le (sub_nonneg.mpr hexp)
  have hL : largest f = (((2 ^ f.p - 1) * 2 ^ d : ℤ) : ℚ) * ulp f x := by
    unfold largest ulp
    push_cast
    rw [mul_assoc, ← zpow_natCast (2 : ℚ) d, ← zpow_add₀ (by norm_num)]
    congr 2
    omega
  rw [abs_le] at h ⊢
  unfold rnd
  constructor
  · have : -((2 ^ f.p - 1) * 2 ^ d : ℤ) ≤ roundEven (x / ulp f x) := by
      apply roundEven_mono_int
      rw [le_div_iff₀ hp]
      have := h.1
      rw [hL] at this
      push_cast at this ⊢
      linarith
    have : ((-((2 ^ f.p - 1) * 2 ^ d : ℤ) : ℤ) : ℚ) ≤ (roundEven (x / ulp f x) : ℚ) := by exact_mod_cast this
    rw [hL]
    push_cast at this ⊢
    nlinarith
  · have : roundEven (x / ulp f x) ≤ ((2 ^ f.p - 1) * 2 ^ d : ℤ) := by
      apply roundEven_le_int
      rw [div_le_iff₀ hp]
      have := h.2
      rw [hL] at this
      push_cast at this ⊢
      linarith
    have : (roundEven (x / ulp f x) : ℚ) ≤ (((2 ^ f.p - 1) * 2 ^ d : ℤ) : ℚ) := by exact_mod_cast this
    rw [hL]
    push_cast at this ⊢
    nlinarith

/-- Whole numbers below `2^p` are not rounded. -/
theorem rnd_int {k : ℤ} (h : |(k : ℚ)| < 2 ^ f.p) : rnd f k = k := by
  by_cases hk : k = 0
  · subst hk; simp [rnd_zero]
  · have hexp : expOf f k ≤ 0 := by
      unfold expOf
      refine max_le ?_ f.hmin
      have hk' : (k : ℚ) ≠ 0 := by exact_mod_cast hk
      have := (Int.lt_zpow_iff_log_lt (b := 2) (x := (f.p : ℤ)) (by norm_num) (abs_pos.mpr hk')).mp (by push_cast; rw [zpow_natCast]; exact h)
      omega
    refine rnd_mult f (k := k * 2 ^ (-expOf f k).toNat) ?_
    unfold ulp
    push_cast
    rw [mul_assoc, ← zpow_natCast, ← zpow_add₀ (by norm_num), show ((-expOf f k).toNat : ℤ) + expOf f k = 0 by omega]
    simp

theorem whole_le_largest {x : ℚ} (h : |x| < 2 ^ f.p) (hk : ∃ k : ℤ, x = k) : |x| ≤ largest f := by
  obtain ⟨k, rfl⟩ := hk
  have h1 : |k| < 2 ^ f.p := by exact_mod_cast h
  have h2 : |k| ≤ 2 ^ f.p - 1 := by omega
  have h3 : |(k : ℚ)| ≤ 2 ^ f.p - 1 := by exact_mod_cast h2
  unfold largest
  have h4 : (1 : ℚ) ≤ (2 : ℚ) ^ f.emax := one_le_zpow₀ (by norm_num) f.hmax
  have h5 : (0 : ℚ) ≤ 2 ^ f.p - 1 := le_trans (abs_nonneg _) h3
  nlinarith

theorem toNum_isNum {x : ℚ} : (toNum f x).isNum ↔ |rnd f x| ≤ largest f := by
  unfold toNum
  by_cases h : |rnd f x| ≤ largest f
  · rw [if_pos h]; exact ⟨fun _ => h, fun _ => trivial⟩
  · rw [if_neg h]; exact ⟨fun h' => h'.elim, fun h' => absurd h' h⟩

theorem toNum_rat {x : ℚ} (h : |rnd f x| ≤ largest f) : (toNum f x).rat = rnd f x := by
  unfold toNum; rw [if_pos h]; rfl

theorem add_isNum {a b : Num f} (h : (a + b).isNum) : ∃ x hx y hy, a = .num x hx ∧ b = .num y hy ∧ a + b = toNum f (x + y) := by
  match a, b, h with
  | .num x hx, .num y hy, _ => exact ⟨x, hx, y, hy, rfl, rfl, rfl⟩
  | .nan, .num _ _, h => exact h.elim
  | .nan, .inf _, h => exact h.elim
  | .nan, .nan, h => exact h.elim
  | .num _ _, .nan, h => exact h.elim
  | .inf _, .nan, h => exact h.elim
  | .inf _, .num _ _, h => exact h.elim
  | .num _ _, .inf _, h => exact h.elim
  | .inf s, .inf t, h =>
    have h : (if s = t then (Num.inf s : Num f) else .nan).isNum := h
    split_ifs at h <;> exact h.elim

theorem mul_isNum {a b : Num f} (h : (a * b).isNum) : ∃ x hx y hy, a = .num x hx ∧ b = .num y hy ∧ a * b = toNum f (x * y) := by
  match a, b, h with
  | .num x hx, .num y hy, _ => exact ⟨x, hx, y, hy, rfl, rfl, rfl⟩
  | .nan, .num _ _, h => exact h.elim
  | .nan, .inf _, h => exact h.elim
  | .nan, .nan, h => exact h.elim
  | .num _ _, .nan, h => exact h.elim
  | .inf _, .nan, h => exact h.elim
  | .inf s, .num y _, h =>
    have h : (if y = 0 then (Num.nan : Num f) else .inf (xor s (decide (y < 0)))).isNum := h
    split_ifs at h <;> exact h.elim
  | .num y _, .inf s, h =>
    have h : (if y = 0 then (Num.nan : Num f) else .inf (xor s (decide (y < 0)))).isNum := h
    split_ifs at h <;> exact h.elim
  | .inf _, .inf _, h => exact h.elim

theorem isNum_iff {a : Num f} (h : a.isNum) : ∃ x hx, a = .num x hx := by
  match a, h with
  | .num x hx, _ => exact ⟨x, hx, rfl⟩

noncomputable instance arith : Arith (Num f) where
  val a := (a.rat : ℝ)
  fin a := a.isNum
  u := (((1 / 2) ^ f.p : ℚ) : ℝ)
  w := (((2 : ℚ) ^ f.emin / 2 : ℚ) : ℝ)
  top := (largest f : ℝ)
  whole := ((2 ^ f.p : ℚ) : ℝ)
  u_nonneg := by exact_mod_cast (by positivity : (0 : ℚ) ≤ (1 / 2) ^ f.p)
  w_nonneg := by exact_mod_cast (div_nonneg (zpow_pos (by norm_num) _).le (by norm_num) : (0 : ℚ) ≤ (2 : ℚ) ^ f.emin / 2)
  fin_zero := trivial
  val_zero := by show (((0 : ℚ)) : ℝ) = 0; simp
  add_err a b h := by
    obtain ⟨x, hx, y, hy, rfl, rfl, e⟩ := add_isNum f h
    refine ⟨trivial, trivial, ?_⟩
    rw [e] at h ⊢
    rw [toNum_rat f ((toNum_isNum f).mp h)]
    exact_mod_cast rnd_err_grid f (hx.add f hy)
  add_fin a b ha hb h := by
    obtain ⟨x, hx, rfl⟩ := isNum_iff f ha
    obtain ⟨y, hy, rfl⟩ := isNum_iff f hb
    exact (toNum_isNum f).mpr (rnd_le_largest f (by exact_mod_cast h))
  mul_err a b h := by
    obtain ⟨x, hx, y, hy, rfl, rfl, e⟩ := mul_isNum f h
    refine ⟨trivial, trivial, ?_⟩
    rw [e] at h ⊢
    rw [toNum_rat f ((toNum_isNum f).mp h)]
    exact_mod_cast rnd_err f (x * y)
  mul_fin a b ha hb h := by
    obtain ⟨x, hx, rfl⟩ := isNum_iff f ha
    obtain ⟨y, hy, rfl⟩ := isNum_iff f hb
    exact (toNum_isNum f).mpr (rnd_le_largest f (by exact_mod_cast h))
  add_exact a b ha hb hk h := by
    obtain ⟨x, hx, rfl⟩ := isNum_iff f ha
    obtain ⟨y, hy, rfl⟩ := isNum_iff f hb
    have hk' : ∃ k : ℤ, x + y = k := by obtain ⟨k, hk⟩ := hk; exact ⟨k, by exact_mod_cast hk⟩
    have h' : |x + y| < 2 ^ f.p := by exact_mod_cast h
    have e : rnd f (x + y) = x + y := by obtain ⟨k, hk⟩ := hk'; rw [hk] at h' ⊢; exact rnd_int f h'
    have hl := whole_le_largest f h' hk'
    rw [← e] at hl
    refine ⟨(toNum_isNum f).mpr hl, ?_⟩
    show ((toNum f (x + y)).rat : ℝ) = _
    rw [toNum_rat f hl, e]
    push_cast
    rfl
  mul_exact a b ha hb hk h := by
    obtain ⟨x, hx, rfl⟩ := isNum_iff f ha
    obtain ⟨y, hy, rfl⟩ := isNum_iff f hb
    have hk' : ∃ k : ℤ, x * y = k := by obtain ⟨k, hk⟩ := hk; exact ⟨k, by exact_mod_cast hk⟩
    have h' : |x * y| < 2 ^ f.p := by exact_mod_cast h
    have e : rnd f (x * y) = x * y := by obtain ⟨k, hk⟩ := hk'; rw [hk] at h' ⊢; exact rnd_int f h'
    have hl := whole_le_largest f h' hk'
    rw [← e] at hl
    refine ⟨(toNum_isNum f).mpr hl, ?_⟩
    show ((toNum f (x * y)).rat : ℝ) = _
    rw [toNum_rat f hl, e]
    push_cast
    rfl

theorem fma_isNum {a b c : Num f} (h : (Num.fma a b c).isNum) :
    ∃ x hx y hy z hz, a = .num x hx ∧ b = .num y hy ∧ c = .num z hz ∧ Num.fma a b c = toNum f (x * y + z) := by
  match a, b, c, h with
  | .num x hx, .num y hy, .num z hz, _ => exact ⟨x, hx, y, hy, z, hz, rfl, rfl, rfl, rfl⟩
  | .num _ _, .num _ _, .inf _, h => exact h.elim
  | .num _ _, .num _ _, .nan, h => exact h.elim
  | .inf s, b, c, h =>
    obtain ⟨x, hx, y, hy, e1, _⟩ := add_isNum f (show ((Num.inf s : Num f) * b + c).isNum from h)
    obtain ⟨_, _, _, _, e2, _⟩ := mul_isNum f (a := Num.inf s) (b := b) (by rw [e1]; trivial)
    cases e2
  | .nan, b, c, h =>
    obtain ⟨x, hx, y, hy, e1, _⟩ := add_isNum f (show ((Num.nan : Num f) * b + c).isNum from h)
    obtain ⟨_, _, _, _, e2, _⟩ := mul_isNum f (a := Num.nan) (b := b) (by rw [e1]; trivial)
    cases e2
  | .num q hq, .inf s, c, h =>
    obtain ⟨x, hx, y, hy, e1, _⟩ := add_isNum f (show ((Num.num q hq : Num f) * .inf s + c).isNum from h)
    obtain ⟨_, _, _, _, _, e2, _⟩ := mul_isNum f (a := Num.num q hq) (b := .inf s) (by rw [e1]; trivial)
    cases e2
  | .num q hq, .nan, c, h =>
    obtain ⟨x, hx, y, hy, e1, _⟩ := add_isNum f (show ((Num.num q hq : Num f) * .nan + c).isNum from h)
    obtain ⟨_, _, _, _, _, e2, _⟩ := mul_isNum f (a := Num.num q hq) (b := .nan) (by rw [e1]; trivial)
    cases e2

noncomputable instance fused : Fused (Num f) where
  fma := Num.fma
  fma_err a b c h := by
    obtain ⟨x, hx, y, hy, z, hz, rfl, rfl, rfl, e⟩ := fma_isNum f h
    refine ⟨trivial, trivial, trivial, ?_⟩
    have h : (toNum f (x * y + z)).isNum := e ▸ h
    show |((Num.fma _ _ _).rat : ℝ) - ((x : ℝ) * (y : ℝ) + (z : ℝ))| ≤ (((1 / 2) ^ f.p : ℚ) : ℝ) * |(x : ℝ) * (y : ℝ) + (z : ℝ)| + (((2 : ℚ) ^ f.emin / 2 : ℚ) : ℝ)
    rw [e, toNum_rat f ((toNum_isNum f).mp h)]
    exact_mod_cast rnd_err f (x * y + z)
  fma_fin a b c ha hb hc h := by
    obtain ⟨x, hx, rfl⟩ := isNum_iff f ha
    obtain ⟨y, hy, rfl⟩ := isNum_iff f hb
    obtain ⟨z, hz, rfl⟩ := isNum_iff f hc
    have h : |(x : ℝ) * (y : ℝ) + (z : ℝ)| ≤ ((largest f : ℚ) : ℝ) := h
    exact (toNum_isNum f).mpr (rnd_le_largest f (by exact_mod_cast h))
  fma_exact a b c ha hb hc hk h := by
    obtain ⟨x, hx, rfl⟩ := isNum_iff f ha
    obtain ⟨y, hy, rfl⟩ := isNum_iff f hb
    obtain ⟨z, hz, rfl⟩ := isNum_iff f hc
    have h : |(x : ℝ) * (y : ℝ) + (z : ℝ)| < ((2 ^ f.p : ℚ) : ℝ) := h
    have hk' : ∃ k : ℤ, x * y + z = k := by
      obtain ⟨k, hk⟩ := hk
      have hk : (x : ℝ) * (y : ℝ) + (z : ℝ) = k := hk
      exact ⟨k, by exact_mod_cast hk⟩
    have h' : |x * y + z| < 2 ^ f.p := by exact_mod_cast h
    have e : rnd f (x * y + z) = x * y + z := by obtain ⟨k, hk⟩ := hk'; rw [hk] at h' ⊢; exact rnd_int f h'
    have hl := whole_le_largest f h' hk'
    rw [← e] at hl
    refine ⟨(toNum_isNum f).mpr hl, ?_⟩
    show ((toNum f (x * y + z)).rat : ℝ) = (x : ℝ) * (y : ℝ) + (z : ℝ)
    rw [toNum_rat f hl, e]
    push_cast
    rfl

end Verif.Fp
