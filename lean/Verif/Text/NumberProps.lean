import Verif.Text.Number
import Verif.Text.Props
import Mathlib.Tactic.Linarith
import Mathlib.Tactic.Ring
import Mathlib.Tactic.FieldSimp
import Mathlib.Tactic.Positivity
import Mathlib.Tactic.NormNum
/-!
# What is left of a number after printing and reading it
-/
namespace Verif.Text
open Verif

/-- The number with `p` significant decimal digits nearest to `x`. -/
def sig (p : Nat) (x : ℚ) : ℚ :=
  if x = 0 then 0 else if x < 0 then -((roundEven (-x / unit p (-x)) : ℚ) * unit p (-x)) else (roundEven (x / unit p x) : ℚ) * unit p x

/-! ### rounding -/

theorem roundEven_int (n : ℤ) : roundEven (n : ℚ) = n := by
  unfold roundEven
  rw [Int.floor_intCast, if_pos (by norm_num)]

theorem roundEven_near (q : ℚ) : |(roundEven q : ℚ) - q| ≤ 1 / 2 := by
  have h0 := Int.floor_le q
  have h1 := Int.lt_floor_add_one q
  unfold roundEven
  rw [abs_le]
  split_ifs with a b c
  · constructor <;> linarith
  · push_cast; constructor <;> linarith
  · constructor <;> linarith
  · push_cast; constructor <;> linarith

theorem roundEven_mono_int {q : ℚ} {n : ℤ} (h : (n : ℚ) ≤ q) : n ≤ roundEven q := by
  have : n ≤ ⌊q⌋ := Int.le_floor.mpr h
  unfold roundEven
  split_ifs <;> omega

theorem roundEven_le_int {q : ℚ} {n : ℤ} (h : q ≤ (n : ℚ)) : roundEven q ≤ n := by
  by_contra hc
  have hc : n + 1 ≤ roundEven q := by omega
  have h1 := roundEven_near q
  rw [abs_le] at h1
  have : ((n + 1 : ℤ) : ℚ) ≤ roundEven q := by exact_mod_cast hc
  push_cast at this
  linarith

theorem unit_pos (p : Nat) (x : ℚ) : 0 < unit p x := zpow_pos (by norm_num) _

theorem scaled_ge {p : Nat} {x : ℚ} (hx : 0 < x) (hp : 1 ≤ p) : ((10 ^ (p - 1) : ℕ) : ℚ) ≤ x / unit p x := by
  rw [le_div_iff₀ (unit_pos p x)]
  have h := Int.zpow_log_le_self (b := 10) (by norm_num) hx
  refine le_trans (le_of_eq ?_) h
  unfold unit
  push_cast
  rw [← zpow_natCast, ← zpow_add₀ (by norm_num)]
  congr 1
  omega

theorem scaled_lt {p : Nat} {x : ℚ} : x / unit p x < ((10 ^ p : ℕ) : ℚ) := by
  rw [div_lt_iff₀ (unit_pos p x)]
  have h := Int.lt_zpow_succ_log_self (b := 10) (by norm_num) x
  refine lt_of_lt_of_le h (le_of_eq ?_)
  unfold unit
  push_cast
  rw [← zpow_natCast, ← zpow_add₀ (by norm_num)]
  congr 1
  ring

theorem mantissa_bounds {p : Nat} {x : ℚ} (hx : 0 < x) (hp : 1 ≤ p) :
    10 ^ (p - 1) ≤ (roundEven (x / unit p x)).toNat ∧ (roundEven (x / unit p x)).toNat ≤ 10 ^ p ∧ ((roundEven (x / unit p x)).toNat : ℤ) = roundEven (x / unit p x) := by
  have h1 := roundEven_mono_int (q := x / unit p x) (n := ((10 ^ (p - 1) : ℕ) : ℤ)) (by exact_mod_cast scaled_ge hx hp)
  have h2 := roundEven_le_int (q := x / unit p x) (n := ((10 ^ p : ℕ) : ℤ)) (by exact_mod_cast (scaled_lt (p := p) (x := x)).le)
  have h3 : (0 : ℤ) ≤ ((10 ^ (p - 1) : ℕ) : ℤ) := by positivity
  refine ⟨by omega, by omega, by omega⟩

/-- The digits and the exponent of a positive number. -/
theorem decimal_spec {p : Nat} {x : ℚ} (hx : 0 < x) (hp : 1 ≤ p) :
    10 ^ (p - 1) ≤ (decimal p x).1 ∧ (decimal p x).1 < 10 ^ p ∧
      ((decimal p x).1 : ℚ) * (10 : ℚ) ^ ((decimal p x).2 - ((p : ℤ) - 1)) = (roundEven (x / unit p x) : ℚ) * unit p x := by
  obtain ⟨h1, h2, h3⟩ := mantissa_bounds hx hp
  have h3' : (((roundEven (x / unit p x)).toNat : ℕ) : ℚ) = (roundEven (x / unit p x) : ℚ) := by exact_mod_cast h3
  unfold decimal
  split
  · rename_i he
    refine ⟨le_refl _, Nat.pow_lt_pow_right (by norm_num) (by omega), ?_⟩
    dsimp only
    rw [← h3', he]
    unfold unit
    push_cast
    rw [← zpow_natCast, ← zpow_natCast, ← zpow_add₀ (by norm_num), ← zpow_add₀ (by norm_num)]
    congr 1
    omega
  · exact ⟨h1, by dsimp only; omega, by dsimp only; rw [h3']; rfl⟩

/-! ### digits -/

theorem strip_spec (l : List Char) : ∃ k, l = strip l ++ List.replicate k '0' := by
  have h := List.takeWhile_append_dropWhile (p := (· = '0')) (l := l.reverse)
  refine ⟨(l.reverse.takeWhile (· = '0')).length, ?_⟩
  have hr : l.reverse.takeWhile (· = '0') = List.replicate (l.reverse.takeWhile (· = '0')).length '0' := by
    rw [List.eq_replicate_iff]
    refine ⟨rfl, fun c hc => ?_⟩
    have := List.all_eq_true.mp (List.all_takeWhile (p := (· = '0')) (l := l.reverse)) c hc
    simpa using this
  have : l = (l.reverse.takeWhile (· = '0') ++ l.reverse.dropWhile (· = '0')).reverse := by rw [h, List.reverse_reverse]
  conv_lhs => rw [this]
  rw [List.reverse_append, hr, List.reverse_replicate]
  simp [strip]

theorem strip_digits {l : List Char} (h : ∀ c ∈ l, c.isDigit = true) : ∀ c ∈ strip l, c.isDigit = true := by
  obtain ⟨k, hk⟩ := strip_spec l
  intro c hc
  refine h c ?_
  rw [hk]
  exact List.mem_append_left _ hc

theorem pointVal_strip (ip fp : List Char) : pointVal ip (strip fp) = pointVal ip fp := by
  obtain ⟨k, hk⟩ := strip_spec fp
  conv_rhs => rw [hk]
  unfold pointVal
  rw [← List.append_assoc, Nat.ofDigitChars_append (l := ip ++ strip fp), Nat.ofDigitChars_replicate_zero, List.length_append, List.length_replicate]
  push_cast
  rw [pow_add]
  field_simp

theorem pointVal_nil (ip : List Char) : pointVal ip [] = (Nat.ofDigitChars 10 ip 0 : ℚ) := by simp [pointVal]

theorem takeWhile_digits {l r : List Char} (h : ∀ c ∈ l, c.isDigit = true) (hr : ∀ c, r.head? = some c → c.isDigit = false) :
    (l ++ r).takeWhile Char.isDigit = l ∧ (l ++ r).dropWhile Char.isDigit = r := by
  rw [List.takeWhile_append_of_pos h, List.dropWhile_append_of_pos h]
  cases r with
  | nil => simp
  | cons c r =>
    have := hr c rfl
    simp [this]

theorem parseU_point {ip fp tail : List Char} (hip : ip ≠ []) (h1 : ∀ c ∈ ip, c.isDigit = true) (h2 : ∀ c ∈ fp, c.isDigit = true)
    (ht : ∀ c, tail.head? = some c → c.isDigit = false ∧ c ≠ '.') :
    parseU (point ip fp ++ tail) = (parseExp tail).map (fun e => pointVal ip fp * (10 : ℚ) ^ e) := by
  unfold parseU point
  dsimp only
  by_cases hs : strip fp = []
  · rw [if_pos hs]
    obtain ⟨t1, t2⟩ := takeWhile_digits h1 (fun c hc => (ht c hc).1)
    rw [t1, t2, if_neg (by simp [hip])]
    have hsp : splitPoint tail = ([], tail) := by
      unfold splitPoint
      split
      · rename_i r; exact absurd rfl (ht '.' rfl).2
      · rfl
    rw [hsp]
    dsimp only
    rw [← pointVal_strip ip fp, hs]
  · rw [if_neg hs, List.append_assoc]
    obtain ⟨t1, t2⟩ := takeWhile_digits (r := ('.' :: strip fp) ++ tail) h1 (fun c hc => by
      have : c = '.' := by simpa using hc.symm
      rw [this]; decide)
    rw [t1, t2, if_neg (by simp [hip])]
    obtain ⟨t3, t4⟩ := takeWhile_digits (strip_digits h2) (fun c hc => (ht c hc).1)
    have hsp : splitPoint (('.' :: strip fp) ++ tail) = (strip fp, tail) := by
      rw [List.cons_append]
      show (_, _) = _
      rw [t3, t4]
    rw [hsp]
    dsimp only
    rw [pointVal_strip]

theorem parseDigits_ok {w : List Char} (h : w ≠ []) (hd : ∀ c ∈ w, c.isDigit = true) : parseDigits w = some (Nat.ofDigitChars 10 w 0) := by
  unfold parseDigits
  rw [if_pos ⟨h, by rwa [List.all_eq_true]⟩]

theorem toDigits_digit {n : Nat} : ∀ c ∈ Nat.toDigits 10 n, c.isDigit = true := fun _ h => Nat.isDigit_of_mem_toDigits (by omega) (by omega) h

theorem parseExp_expo (e : ℤ) : parseExp ('e' :: expo e) = some e := by
  have hd : parseDigits (if (Nat.toDigits 10 e.natAbs).length < 2 then '0' :: Nat.toDigits 10 e.natAbs else Nat.toDigits 10 e.natAbs) = some e.natAbs := by
    split
    · rw [parseDigits_ok (by simp) (by
        intro c hc
        rcases List.mem_cons.mp hc with h | h
        · rw [h]; decide
        · exact toDigits_digit c h), Nat.ofDigitChars_cons]
      simp
    · rw [parseDigits_ok Nat.toDigits_ne_nil toDigits_digit, Nat.ofDigitChars_ten_toDigits]
  unfold expo
  by_cases h : e < 0
  · rw [if_pos h]
    unfold parseExp
    dsimp only
    rw [if_pos (Or.inl rfl)]
    show Option.map _ (parseDigits _) = _
    rw [hd, Option.map_some]
    congr 1
    omega
  · rw [if_neg h]
    unfold parseExp
    dsimp only
    rw [if_pos (Or.inl rfl)]
    show Option.map _ (parseDigits _) = _
    rw [hd, Option.map_some]
    congr 1
    omega

theorem toDigits_length {p m : Nat} (hp : 1 ≤ p) (h1 : 10 ^ (p - 1) ≤ m) (h2 : m < 10 ^ p) : (Nat.toDigits 10 m).length = p := by
  have h3 := (Nat.length_toDigits_le_iff (b := 10) (n := m) (k := p) (by norm_num) hp).mpr h2
  by_cases h : p = 1
  · have := Nat.length_toDigits_pos (b := 10) (n := m)
    omega
  · have := (Nat.length_toDigits_le_iff (b := 10) (n := m) (k := p - 1) (by norm_num) (by omega)).not.mpr (by omega)
    omega

/-- Reading a printed positive number. -/
theorem parseU_printPos {p m : Nat} {e : ℤ} (hp : 1 ≤ p) (h1 : 10 ^ (p - 1) ≤ m) (h2 : m < 10 ^ p) :
    parseU (printPos p m e) = some ((m : ℚ) * (10 : ℚ) ^ (e - ((p : ℤ) - 1))) := by
  have hl := toDigits_length hp h1 h2
  have hne : Nat.toDigits 10 m ≠ [] := Nat.toDigits_ne_nil
  have hv : ∀ k, k ≤ p → pointVal ((Nat.toDigits 10 m).take k) ((Nat.toDigits 10 m).drop k) = (m : ℚ) * (10 : ℚ) ^ (-((p : ℤ) - k)) := by
    intro k hk
    unfold pointVal
    rw [List.take_append_drop, Nat.ofDigitChars_ten_toDigits, List.length_drop, hl, div_eq_mul_inv, zpow_neg, ← zpow_natCast]
    congr 3
    omega
  have htake : ∀ k, (Nat.toDigits 10 m).take (k + 1) ≠ [] := by
    intro k h
    rw [List.take_eq_nil_iff] at h
    rcases h with h | h
    · omega
    · exact hne h
  have hd1 : ∀ k, ∀ c ∈ (Nat.toDigits 10 m).take k, c.isDigit = true := fun k c hc => toDigits_digit c (List.mem_of_mem_take hc)
  have hd2 : ∀ k, ∀ c ∈ (Nat.toDigits 10 m).drop k, c.isDigit = true := fun k c hc => toDigits_digit c (List.mem_of_mem_drop hc)
  unfold printPos
  dsimp only
  split_ifs with a b
  · rw [parseU_point (htake 0) (hd1 1) (hd2 1) (by
      intro c hc
      have : c = 'e' := by simpa using hc.symm
      rw [this]; decide), parseExp_expo, Option.map_some, hv 1 hp, mul_assoc, ← zpow_add₀ (by norm_num)]
    congr 3
    push_cast
    ring
  · have := parseU_point (tail := []) (htake e.toNat) (hd1 (e.toNat + 1)) (hd2 (e.toNat + 1)) (by simp)
    rw [List.append_nil] at this
    rw [this, hv (e.toNat + 1) (by omega)]
    show some _ = _
    dsimp only
    rw [zpow_zero, mul_one]
    congr 3
    push_cast
    omega
  · have := parseU_point (ip := ['0']) (fp := List.replicate (-e - 1).toNat '0' ++ Nat.toDigits 10 m) (tail := []) (by simp) (by decide) (by
      intro c hc
      rcases List.mem_append.mp hc with h | h
      · rw [(List.mem_replicate.mp h).2]; decide
      · exact toDigits_digit c h) (by simp)
    rw [List.append_nil] at this
    rw [this]
    show some _ = _
    dsimp only
    rw [zpow_zero, mul_one]
    congr 1
    unfold pointVal
    rw [Nat.ofDigitChars_append, Nat.ofDigitChars_append, Nat.ofDigitChars_replicate_zero, List.length_append, List.length_replicate, hl,
      div_eq_mul_inv, ← zpow_natCast, ← zpow_neg]
    congr 1
    · rw [show Nat.ofDigitChars 10 ['0'] 0 = 0 from rfl, Nat.mul_zero, Nat.ofDigitChars_ten_toDigits]
    · congr 1
      push_cast
      omega

theorem printPos_head {p m : Nat} {e : ℤ} : ∃ c cs, printPos p m e = c :: cs ∧ c.isDigit = true := by
  have key : ∀ (ip fp : List Char), ip ≠ [] → (∀ c ∈ ip, c.isDigit = true) → ∀ tail, ∃ c cs, point ip fp ++ tail = c :: cs ∧ c.isDigit = true := by
    intro ip fp h1 h2 tail
    obtain ⟨c, l, e⟩ := List.exists_cons_of_ne_nil h1
    subst e
    unfold point
    split
    · exact ⟨c, _, rfl, h2 c (by simp)⟩
    · exact ⟨c, _, rfl, h2 c (by simp)⟩
  have htake : ∀ k, (Nat.toDigits 10 m).take (k + 1) ≠ [] := by
    intro k h
    rw [List.take_eq_nil_iff] at h
    rcases h with h | h
    · omega
    · exact Nat.toDigits_ne_nil h
  unfold printPos
  dsimp only
  split_ifs with a b
  · exact key _ _ (htake 0) (fun c hc => toDigits_digit c (List.mem_of_mem_take hc)) _
  · have := key _ ((Nat.toDigits 10 m).drop (e.toNat + 1)) (htake e.toNat) (fun c hc => toDigits_digit c (List.mem_of_mem_take hc)) []
    rwa [List.append_nil] at this
  · have := key ['0'] (List.replicate (-e - 1).toNat '0' ++ Nat.toDigits 10 m) (by simp) (by decide) []
    rwa [List.append_nil] at this

/-- Reading a printed number gives the number rounded to `p` significant digits. -/
theorem parse_printG {p : Nat} (hp : 1 ≤ p) (x : ℚ) : parseDec (printG p x) = some (sig p x) := by
  unfold printG sig
  split_ifs with h0 h1
  · show parseU ['0'] = some 0
    have := parseU_point (ip := ['0']) (fp := []) (tail := []) (by simp) (by decide) (by simp) (by simp)
    have e : point ['0'] [] ++ [] = ['0'] := rfl
    rw [e] at this
    rw [this]
    show some _ = _
    congr 1
    rw [pointVal_nil]
    simp [Nat.ofDigitChars_cons]
  · obtain ⟨d1, d2, d3⟩ := decimal_spec (p := p) (x := -x) (by linarith) hp
    show Option.map _ (parseU _) = _
    rw [parseU_printPos hp d1 d2, Option.map_some, d3]
  · obtain ⟨d1, d2, d3⟩ := decimal_spec (p := p) (x := x) (lt_of_le_of_ne (not_lt.mp h1) (Ne.symm h0)) hp
    obtain ⟨c, cs, e, hc⟩ := printPos_head (p := p) (m := (decimal p x).1) (e := (decimal p x).2)
    have : parseDec (printPos p (decimal p x).1 (decimal p x).2) = parseU (printPos p (decimal p x).1 (decimal p x).2) := by
      rw [e]
      unfold parseDec
      split
      · rename_i h; cases h; exact absurd hc (by decide)
      · rename_i h; cases h; exact absurd hc (by decide)
      · rfl
    rw [this, parseU_printPos hp d1 d2, d3]

/-! ### printed numbers are words -/

theorem printPos_chars {p m : Nat} {e : ℤ} : ∀ c ∈ printPos p m e, c.isDigit = true ∨ c ∈ ['.', 'e', '+', '-'] := by
  have key : ∀ (ip fp : List Char), (∀ c ∈ ip, c.isDigit = true) → (∀ c ∈ fp, c.isDigit = true) → ∀ c ∈ point ip fp, c.isDigit = true ∨ c ∈ ['.', 'e', '+', '-'] := by
    intro ip fp h1 h2 c hc
    unfold point at hc
    split at hc
    · exact Or.inl (h1 c hc)
    · rcases List.mem_append.mp hc with h | h
      · exact Or.inl (h1 c h)
      · rcases List.mem_cons.mp h with h | h
        · right; simp [h]
        · exact Or.inl (strip_digits h2 c h)
  have hexp : ∀ c ∈ 'e' :: expo e, c.isDigit = true ∨ c ∈ ['.', 'e', '+', '-'] := by
    intro c hc
    rcases List.mem_cons.mp hc with h | h
    · right; simp [h]
    · unfold expo at h
      rcases List.mem_cons.mp h with h | h
      · right
        split at h <;> simp [h]
      · left
        split at h
        · rcases List.mem_cons.mp h with h | h
          · rw [h]; decide
          · exact toDigits_digit c h
        · exact toDigits_digit c h
  have hd1 : ∀ k, ∀ c ∈ (Nat.toDigits 10 m).take k, c.isDigit = true := fun k c hc => toDigits_digit c (List.mem_of_mem_take hc)
  have hd2 : ∀ k, ∀ c ∈ (Nat.toDigits 10 m).drop k, c.isDigit = true := fun k c hc => toDigits_digit c (List.mem_of_mem_drop hc)
  unfold printPos
  dsimp only
  split_ifs with a b
  · intro c hc
    rcases List.mem_append.mp hc with h | h
    · exact key _ _ (hd1 1) (hd2 1) c h
    · exact hexp c h
  · exact key _ _ (hd1 _) (hd2 _)
  · refine key _ _ (by decide) (fun c hc => ?_)
    rcases List.mem_append.mp hc with h | h
    · rw [(List.mem_replicate.mp h).2]; decide
    · exact toDigits_digit c h

theorem printG_chars {p : Nat} {x : ℚ} : ∀ c ∈ printG p x, c.isDigit = true ∨ c ∈ ['.', 'e', '+', '-'] := by
  unfold printG
  split_ifs
  · decide
  · intro c hc
    rcases List.mem_cons.mp hc with h | h
    · right; simp [h]
    · exact printPos_chars c h
  · exact printPos_chars

theorem printG_word (p : Nat) (x : ℚ) : Word (printG p x) := by
  refine ⟨?_, fun c hc => ?_⟩
  · unfold printG
    split_ifs
    · simp
    · simp
    · obtain ⟨c, cs, e, _⟩ := printPos_head (p := p) (m := (decimal p x).1) (e := (decimal p x).2)
      rw [e]; simp
  · rcases printG_chars c hc with h | h
    · exact isDigit_not_space h
    · exact (by decide : ∀ c ∈ ['.', 'e', '+', '-'], isSpace c = false) c h

theorem printG_byte {p : Nat} {x : ℚ} : ∀ c ∈ printG p x, c.toNat < 256 := by
  intro c hc
  rcases printG_chars c hc with h | h
  · rw [Char.isDigit_iff_toNat] at h
    simp at h
    omega
  · exact (by decide : ∀ c ∈ ['.', 'e', '+', '-'], c.toNat < 256) c h

/-! ### how good the rounding is -/

theorem sig_pos {p : Nat} {x : ℚ} (hx : 0 < x) : sig p x = (roundEven (x / unit p x) : ℚ) * unit p x := by
  unfold sig
  rw [if_neg hx.ne', if_neg (not_lt.mpr hx.le)]

theorem sig_neg (p : Nat) (x : ℚ) : sig p (-x) = -sig p x := by
  rcases lt_trichotomy x 0 with h | h | h
  · rw [sig_pos (by linarith)]
    unfold sig
    rw [if_neg h.ne, if_pos h, neg_neg]
  · subst h; simp [sig]
  · rw [sig_pos h]
    unfold sig
    rw [if_neg (by linarith), if_pos (by linarith), neg_neg]

/-- The relative error of `p` significant digits. -/
theorem sig_error {p : Nat} (hp : 1 ≤ p) (x : ℚ) : |sig p x - x| ≤ |x| / (2 * 10 ^ (p - 1)) := by
  have pos : ∀ x : ℚ, 0 < x → |sig p x - x| ≤ |x| / (2 * 10 ^ (p - 1)) := by
    intro x hx
    have hu := unit_pos p x
    have h1 := roundEven_near (x / unit p x)
    have h2 := scaled_ge hx hp
    push_cast at h2
    rw [sig_pos hx, abs_of_pos hx]
    have e : (roundEven (x / unit p x) : ℚ) * unit p x - x = ((roundEven (x / unit p x) : ℚ) - x / unit p x) * unit p x := by
      rw [sub_mul, div_mul_cancel₀ _ hu.ne']
    rw [e, abs_mul, abs_of_pos hu]
    have h3 : (10 : ℚ) ^ (p - 1) * unit p x ≤ x := by rwa [le_div_iff₀ hu] at h2
    have h4 : (0 : ℚ) < 10 ^ (p - 1) := by positivity
    rw [le_div_iff₀ (by positivity)]
    calc |(roundEven (x / unit p x) : ℚ) - x / unit p x| * unit p x * (2 * 10 ^ (p - 1)) ≤ 1 / 2 * unit p x * (2 * 10 ^ (p - 1)) := by gcongr
      _ = 10 ^ (p - 1) * unit p x := by ring
      _ ≤ x := h3
  rcases lt_trichotomy x 0 with h | h | h
  · have := pos (-x) (by linarith)
    rw [sig_neg, abs_neg] at this
    rwa [show -sig p x - -x = -(sig p x - x) by ring, abs_neg] at this
  · subst h; simp [sig]
  · exact pos x h

/-- Exactly the numbers of at most `p` significant digits survive. -/
theorem sig_exact_iff {p : Nat} (x : ℚ) : sig p x = x ↔ ∃ (m k : ℤ), |m| < 10 ^ p ∧ x = (m : ℚ) * (10 : ℚ) ^ k := by
  have pos : ∀ x : ℚ, 0 < x → (sig p x = x ↔ ∃ (m k : ℤ), |m| < 10 ^ p ∧ x = (m : ℚ) * (10 : ℚ) ^ k) := by
    intro x hx
    have hu := unit_pos p x
    constructor
    · intro h
      rw [sig_pos hx] at h
      refine ⟨roundEven (x / unit p x), _, ?_, h.symm⟩
      have e : (roundEven (x / unit p x) : ℚ) = x / unit p x := by rw [eq_div_iff hu.ne']; exact h
      have h1 := scaled_lt (p := p) (x := x)
      rw [← e] at h1
      have h2 : (0 : ℚ) < (roundEven (x / unit p x) : ℚ) := by rw [e]; positivity
      have h2 : 0 < roundEven (x / unit p x) := by exact_mod_cast h2
      rw [abs_of_pos h2]
      push_cast at h1
      exact_mod_cast h1
    · rintro ⟨m, k, h1, h2⟩
      have hk : (0 : ℚ) < (10 : ℚ) ^ k := zpow_pos (by norm_num) _
      have hm : 0 < m := by
        have : (0 : ℚ) < m := by
          rw [h2] at hx
          exact (pos_iff_pos_of_mul_pos hx).mpr hk
        exact_mod_cast this
      rw [abs_of_pos hm] at h1
      have hle : Int.log 10 x - ((p : ℤ) - 1) ≤ k := by
        have h3 : x < ((10 : ℕ) : ℚ) ^ (k + p) := by
          rw [h2, zpow_add₀ (by norm_num), zpow_natCast, mul_comm]
          push_cast
          have : (m : ℚ) < 10 ^ p := by exact_mod_cast h1
          gcongr
        have := (Int.lt_zpow_iff_log_lt (b := 10) (by norm_num) hx).mp h3
        omega
      have e : x / unit p x = ((m * 10 ^ (k - (Int.log 10 x - ((p : ℤ) - 1))).toNat : ℤ) : ℚ) := by
        rw [div_eq_iff hu.ne']
        unfold unit
        push_cast
        rw [mul_assoc, ← zpow_natCast, ← zpow_add₀ (by norm_num)]
        conv_lhs => rw [h2]
        congr 2
        omega
      rw [sig_pos hx, e, roundEven_int, ← e, div_mul_cancel₀ _ hu.ne']
  rcases lt_trichotomy x 0 with h | h | h
  · have := pos (-x) (by linarith)
    rw [sig_neg, neg_inj] at this
    rw [this]
    constructor
    · rintro ⟨m, k, h1, h2⟩
      exact ⟨-m, k, by rwa [abs_neg], by push_cast; linarith⟩
    · rintro ⟨m, k, h1, h2⟩
      exact ⟨-m, k, by rwa [abs_neg], by push_cast; linarith⟩
  · subst h
    refine ⟨fun _ => ⟨0, 0, by simp, by simp⟩, fun _ => by simp [sig]⟩
  · exact pos x h

end Verif.Text
