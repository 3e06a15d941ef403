import Verif.Text.NumberProps
/-!
# Binary floating point numbers and how many decimal digits they need
-/
namespace Verif.Text
open Verif

/-- The last of `P` significant bits of `x` stands for this. -/
def bit (P : Nat) (x : ℚ) : ℚ := (2 : ℚ) ^ (Int.log 2 x - ((P : ℤ) - 1))

/-- Rounding to a binary floating point number of `P` significant bits (24 for `float`, 53 for `double`, 64 for `long double`), to nearest, ties to
even; the range of the exponent is not limited. -/
def bin (P : Nat) (x : ℚ) : ℚ :=
  if x = 0 then 0 else if x < 0 then -((roundEven (-x / bit P (-x)) : ℚ) * bit P (-x)) else (roundEven (x / bit P x) : ℚ) * bit P x

/-- The numbers of `P` significant bits. -/
def IsBin (P : Nat) (x : ℚ) : Prop := ∃ m k : ℤ, |m| < 2 ^ P ∧ x = (m : ℚ) * (2 : ℚ) ^ k

theorem bit_pos (P : Nat) (x : ℚ) : 0 < bit P x := zpow_pos (by norm_num) _

theorem bin_pos {P : Nat} {x : ℚ} (hx : 0 < x) : bin P x = (roundEven (x / bit P x) : ℚ) * bit P x := by
  unfold bin
  rw [if_neg hx.ne', if_neg (not_lt.mpr hx.le)]

theorem bin_neg (P : Nat) (x : ℚ) : bin P (-x) = -bin P x := by
  rcases lt_trichotomy x 0 with h | h | h
  · rw [bin_pos (by linarith)]
    unfold bin
    rw [if_neg h.ne, if_pos h, neg_neg]
  · subst h; simp [bin]
  · rw [bin_pos h]
    unfold bin
    rw [if_neg (by linarith), if_pos (by linarith), neg_neg]

theorem bin_zero (P : Nat) : bin P 0 = 0 := by simp [bin]

theorem roundEven_eq {q : ℚ} {n : ℤ} (h : |q - n| < 1 / 2) : roundEven q = n := by
  have h1 := roundEven_near q
  rw [abs_le] at h1
  rw [abs_lt] at h
  have a : (roundEven q : ℚ) < n + 1 := by linarith
  have b : (n : ℚ) < roundEven q + 1 := by linarith
  have a : roundEven q < n + 1 := by exact_mod_cast a
  have b : n < roundEven q + 1 := by exact_mod_cast b
  omega

theorem log_of_bounds {y : ℚ} {L : ℤ} (h1 : (2 : ℚ) ^ L ≤ y) (h2 : y < (2 : ℚ) ^ (L + 1)) : Int.log 2 y = L := by
  have hy : 0 < y := lt_of_lt_of_le (zpow_pos (by norm_num) _) h1
  apply le_antisymm
  · have := (Int.lt_zpow_iff_log_lt (b := 2) (x := L + 1) (by norm_num) hy).mp (by exact_mod_cast h2)
    omega
  · exact (Int.zpow_le_iff_le_log (b := 2) (by norm_num) hy).mp (by exact_mod_cast h1)

/-- Rounding with a known exponent. -/
theorem bin_at {P : Nat} {y : ℚ} {k n : ℤ} (h1 : (2 : ℚ) ^ (k + (P - 1)) ≤ y) (h2 : y < (2 : ℚ) ^ (k + P)) (h3 : |y - n * (2 : ℚ) ^ k| < (2 : ℚ) ^ k / 2) :
    bin P y = n * (2 : ℚ) ^ k := by
  have hy : 0 < y := lt_of_lt_of_le (zpow_pos (by norm_num) _) h1
  have hk : (0 : ℚ) < (2 : ℚ) ^ k := zpow_pos (by norm_num) _
  have hb : bit P y = (2 : ℚ) ^ k := by
    unfold bit
    rw [log_of_bounds (L := k + (P - 1)) h1 (by convert h2 using 2; ring)]
    congr 1
    ring
  rw [bin_pos hy, hb, roundEven_eq (n := n)]
  rw [show y / (2 : ℚ) ^ k - n = (y - n * (2 : ℚ) ^ k) / (2 : ℚ) ^ k by field_simp, abs_div, abs_of_pos hk, div_lt_iff₀ hk]
  linarith

/-- A positive number of `P` bits written with exactly `P` bits. -/
theorem normal {P : Nat} {x : ℚ} (hP : 1 ≤ P) (hx : 0 < x) (h : IsBin P x) : ∃ (M : Nat) (k : ℤ), 2 ^ (P - 1) ≤ M ∧ M < 2 ^ P ∧ x = (M : ℚ) * (2 : ℚ) ^ k := by
  obtain ⟨m, j, h1, h2⟩ := h
  have hj : (0 : ℚ) < (2 : ℚ) ^ j := zpow_pos (by norm_num) _
  have hm : 0 < m := by
    have : (0 : ℚ) < m := by
      rw [h2] at hx
      exact (pos_iff_pos_of_mul_pos hx).mpr hj
    exact_mod_cast this
  rw [abs_of_pos hm] at h1
  have hle : Int.log 2 x - ((P : ℤ) - 1) ≤ j := by
    have h3 : x < ((2 : ℕ) : ℚ) ^ (j + P) := by
      rw [h2, zpow_add₀ (by norm_num), zpow_natCast, mul_comm]
      push_cast
      have : (m : ℚ) < 2 ^ P := by exact_mod_cast h1
      gcongr
    have := (Int.lt_zpow_iff_log_lt (b := 2) (by norm_num) hx).mp h3
    omega
  have e : x = ((m * 2 ^ (j - (Int.log 2 x - ((P : ℤ) - 1))).toNat : ℤ) : ℚ) * (2 : ℚ) ^ (Int.log 2 x - ((P : ℤ) - 1)) := by
    push_cast
    rw [mul_assoc, ← zpow_natCast, ← zpow_add₀ (by norm_num)]
    conv_lhs => rw [h2]
    congr 2
    omega
  have hM : 0 < m * 2 ^ (j - (Int.log 2 x - ((P : ℤ) - 1))).toNat := by positivity
  obtain ⟨M, hM'⟩ := Int.eq_ofNat_of_zero_le hM.le
  rw [hM'] at e
  set k := Int.log 2 x - ((P : ℤ) - 1) with hkdef
  have hk : (0 : ℚ) < (2 : ℚ) ^ k := zpow_pos (by norm_num) _
  have lo := Int.zpow_log_le_self (b := 2) (by norm_num) hx
  have hi := Int.lt_zpow_succ_log_self (b := 2) (by norm_num) x
  refine ⟨M, k, ?_, ?_, by exact_mod_cast e⟩
  · have : ((2 : ℕ) : ℚ) ^ Int.log 2 x = 2 ^ (P - 1) * (2 : ℚ) ^ k := by
      rw [← zpow_natCast, ← zpow_add₀ (by norm_num)]
      push_cast
      congr 1
      omega
    rw [this] at lo
    conv_rhs at lo => rw [e]
    have := le_of_mul_le_mul_right lo hk
    exact_mod_cast this
  · have : ((2 : ℕ) : ℚ) ^ (Int.log 2 x + 1) = 2 ^ P * (2 : ℚ) ^ k := by
      rw [← zpow_natCast, ← zpow_add₀ (by norm_num)]
      push_cast
      congr 1
      omega
    rw [this] at hi
    conv_lhs at hi => rw [e]
    have := lt_of_mul_lt_mul_right hi hk.le
    exact_mod_cast this

/-- Enough decimal digits determine a binary number (Matula): if 2^P < 10^(p-1), a number of `P` bits printed with `p` digits and rounded to
`P` bits is itself. -/
theorem digits_suffice {P p : Nat} (hP : 2 ≤ P) (hp : 1 ≤ p) (hpP : 2 ^ P < 10 ^ (p - 1)) {x : ℚ} (hx : IsBin P x) : bin P (sig p x) = x := by
  have pos : ∀ x : ℚ, 0 < x → IsBin P x → bin P (sig p x) = x := by
    intro x hx hb
    obtain ⟨M, k, m1, m2, e⟩ := normal (by omega) hx hb
    have hk : (0 : ℚ) < (2 : ℚ) ^ k := zpow_pos (by norm_num) _
    have herr := sig_error hp x
    rw [abs_of_pos hx] at herr
    have hp' : (2 : ℚ) ^ P < 10 ^ (p - 1) := by exact_mod_cast hpP
    have hpos : (0 : ℚ) < 10 ^ (p - 1) := by positivity
    have m1' : (2 : ℚ) ^ (P - 1) ≤ M := by exact_mod_cast m1
    have m2' : (M : ℚ) + 1 ≤ 2 ^ P := by exact_mod_cast m2
    have hz1 : (2 : ℚ) ^ (k + ((P : ℤ) - 1)) = 2 ^ (P - 1) * (2 : ℚ) ^ k := by
      rw [← zpow_natCast, ← zpow_add₀ (by norm_num)]; congr 1; omega
    have hz2 : (2 : ℚ) ^ (k + (P : ℤ)) = 2 ^ P * (2 : ℚ) ^ k := by
      rw [← zpow_natCast, ← zpow_add₀ (by norm_num)]; congr 1; omega
    have hPP : (2 : ℚ) ^ P = 2 * 2 ^ (P - 1) := by rw [← pow_succ']; congr 1; omega
    have hP1 : (2 : ℚ) ≤ 2 ^ (P - 1) := by
      calc (2 : ℚ) = 2 ^ 1 := by norm_num
        _ ≤ 2 ^ (P - 1) := pow_le_pow_right₀ (by norm_num) (by omega)
    -- the error is less than x / (2 * 2^P)
    have herr2 : |sig p x - x| * (2 * 2 ^ P) < x := by
      rw [le_div_iff₀ (by positivity)] at herr
      by_cases h0 : |sig p x - x| = 0
      · rw [h0, zero_mul]; exact hx
      · have h0 : 0 < |sig p x - x| := lt_of_le_of_ne (abs_nonneg _) (Ne.symm h0)
        calc |sig p x - x| * (2 * 2 ^ P) < |sig p x - x| * (2 * 10 ^ (p - 1)) := by gcongr
          _ ≤ x := herr
    have hhalf : |sig p x - x| < (2 : ℚ) ^ k / 2 := by
      have : x ≤ 2 ^ P * (2 : ℚ) ^ k := by rw [e]; gcongr; linarith
      have h2P : (0 : ℚ) < 2 ^ P := by positivity
      have : |sig p x - x| * (2 * 2 ^ P) < (2 : ℚ) ^ k / 2 * (2 * 2 ^ P) := by
        calc _ < x := herr2
          _ ≤ 2 ^ P * (2 : ℚ) ^ k := this
          _ = _ := by ring
      exact lt_of_mul_lt_mul_right this (by positivity)
    have hab := abs_lt.mp hhalf
    by_cases hlow : (2 : ℚ) ^ (k + ((P : ℤ) - 1)) ≤ sig p x
    · have hn := bin_at (P := P) (y := sig p x) (k := k) (n := (M : ℤ)) hlow (by
        rw [hz2]
        have : x + (2 : ℚ) ^ k / 2 ≤ 2 ^ P * (2 : ℚ) ^ k := by
          have : ((M : ℚ) + 1) * (2 : ℚ) ^ k ≤ 2 ^ P * (2 : ℚ) ^ k := by gcongr
          rw [e]; linarith
        linarith) (by push_cast; rw [← e]; exact hhalf)
      rw [hn]
      push_cast
      exact e.symm
    · -- x is the smallest number with this exponent
      rw [hz1, not_le] at hlow
      have hM : M = 2 ^ (P - 1) := by
        by_contra hne
        have : (2 : ℚ) ^ (P - 1) + 1 ≤ M := by exact_mod_cast (by omega : 2 ^ (P - 1) + 1 ≤ M)
        have : ((2 : ℚ) ^ (P - 1) + 1) * (2 : ℚ) ^ k ≤ M * (2 : ℚ) ^ k := by gcongr
        rw [← e] at this
        linarith
      have hMq : (M : ℚ) = 2 ^ (P - 1) := by rw [hM]; push_cast; rfl
      have hk1 : (2 : ℚ) ^ (k - 1) = (2 : ℚ) ^ k / 2 := by rw [zpow_sub₀ (by norm_num), zpow_one]
      have hquarter : |sig p x - x| < (2 : ℚ) ^ (k - 1) / 2 := by
        rw [hk1]
        have : |sig p x - x| * (2 * 2 ^ P) < (2 : ℚ) ^ k / 2 / 2 * (2 * 2 ^ P) := by
          calc _ < x := herr2
            _ = _ := by rw [e, hMq, hPP]; ring
        exact lt_of_mul_lt_mul_right this (by positivity)
      have hab2 := abs_lt.mp hquarter
      rw [hk1] at hab2
      have hn := bin_at (P := P) (y := sig p x) (k := k - 1) (n := 2 ^ P) (by
          rw [show k - 1 + ((P : ℤ) - 1) = k + ((P : ℤ) - 1) - 1 by ring, zpow_sub₀ (by norm_num), zpow_one, hz1, ← hMq, ← e]
          have : (2 : ℚ) * (2 : ℚ) ^ k ≤ x := by rw [e, hMq]; gcongr
          linarith) (by
          rw [show k - 1 + (P : ℤ) = k + ((P : ℤ) - 1) by ring, hz1]
          exact hlow) (by
          push_cast
          rw [show (2 : ℚ) ^ P * (2 : ℚ) ^ (k - 1) = x by rw [e, hMq, hk1, hPP]; ring]
          exact hquarter)
      rw [hn]
      push_cast
      rw [e, hMq, hk1, hPP]; ring
  rcases lt_trichotomy x 0 with h | h | h
  · obtain ⟨m, k, h1, h2⟩ := hx
    have := pos (-x) (by linarith) ⟨-m, k, by rwa [abs_neg], by push_cast; rw [h2]; ring⟩
    rw [sig_neg, bin_neg, neg_inj] at this
    exact this
  · subst h; simp [sig, bin]
  · exact pos x h hx

end Verif.Text
