import Verif.Lzw.Model
/-!
# Bit streams as numbers (helper lemmas)

A bit sequence of length `n`, least significant bit first, is the number below `2^n` with these bits.
-/
namespace Verif.Lzw
open Verif Res

/-- Number whose little-endian base-256 digits are the bytes (reading of a byte stream; spec helper). -/
def bytesVal : List Byte → Nat
  | [] => 0
  | b :: bs => b.val + 256 * bytesVal bs

/-- Number denoted by a sequence of (code, width) pairs written one after the other (spec helper). -/
def codesVal : List (Nat × Nat) → Nat
  | [] => 0
  | (k, w) :: cs => k + 2 ^ w * codesVal cs

/-- Total width of a code sequence (spec helper). -/
def codesLen : List (Nat × Nat) → Nat
  | [] => 0
  | (_, w) :: cs => w + codesLen cs

theorem bytesVal_append (a b : List Byte) :
    bytesVal (a ++ b) = bytesVal a + 256 ^ a.length * bytesVal b := by
  induction a with
  | nil => simp [bytesVal]
  | cons x a ih =>
    simp only [List.cons_append, bytesVal, ih, List.length_cons, Nat.pow_succ, Nat.mul_add]
    rw [Nat.mul_comm (256 ^ a.length) 256, Nat.mul_assoc]; omega

theorem pow256 (n : Nat) : 256 ^ n = 2 ^ (8 * n) := by
  rw [Nat.pow_mul]

theorem bytesVal_lt (a : List Byte) : bytesVal a < 2 ^ (8 * a.length) := by
  induction a with
  | nil => simp [bytesVal]
  | cons x a ih =>
    have hx := x.isLt
    simp only [bytesVal, List.length_cons, Nat.mul_add, Nat.pow_add]
    rw [Nat.mul_comm (2 ^ (8 * a.length))]
    generalize 2 ^ (8 * a.length) = P at *
    omega

theorem codesVal_append (a b : List (Nat × Nat)) :
    codesVal (a ++ b) = codesVal a + 2 ^ codesLen a * codesVal b := by
  induction a with
  | nil => simp [codesVal, codesLen]
  | cons x a ih =>
    obtain ⟨k, w⟩ := x
    simp only [List.cons_append, codesVal, codesLen, ih, Nat.pow_add, Nat.mul_add, Nat.mul_assoc]
    omega

theorem codesLen_append (a b : List (Nat × Nat)) : codesLen (a ++ b) = codesLen a + codesLen b := by
  induction a with
  | nil => simp [codesLen]
  | cons x a ih => simp [codesLen, ih]; omega

/-- Or of a number below `2^n` with a number shifted by `n` is their sum. -/
theorem or_shift (a b n : Nat) (h : a < 2 ^ n) : a ||| (b <<< n) = a + 2 ^ n * b := by
  rw [Nat.shiftLeft_eq, Nat.or_comm, Nat.mul_comm, ← Nat.two_pow_add_eq_or_of_lt h]; omega

theorem toByte_val (k : Nat) : (toByte k).val = k % 256 := rfl

theorem writeRest_spec (fuel rem k : Nat) (hf : rem ≤ fuel) (hk : k < 2 ^ rem) :
    bytesVal (writeRest fuel rem k).1 + 256 ^ (writeRest fuel rem k).1.length * (writeRest fuel rem k).2.2 = k
    ∧ 8 * (writeRest fuel rem k).1.length + (writeRest fuel rem k).2.1 = rem
    ∧ (writeRest fuel rem k).2.1 < 8
    ∧ (writeRest fuel rem k).2.2 < 2 ^ (writeRest fuel rem k).2.1 := by
  induction fuel generalizing rem k with
  | zero =>
    have : rem = 0 := by omega
    subst this
    simp at hk; subst hk
    simp [writeRest, bytesVal]
  | succ fuel ih =>
    unfold writeRest
    split
    · subst_vars; simp at hk; subst hk; simp [bytesVal]
    · split
      · rename_i h0 h8
        have hk' : k >>> 8 < 2 ^ (rem - 8) := by
          rw [Nat.shiftRight_eq_div_pow, Nat.div_lt_iff_lt_mul (by decide), ← Nat.pow_add]
          have : rem - 8 + 8 = rem := by omega
          rwa [this]
        obtain ⟨h1, h2, h3, h4⟩ := ih (rem - 8) (k >>> 8) (by omega) hk'
        refine ⟨?_, ?_, h3, h4⟩
        · simp only [bytesVal, List.length_cons, Nat.pow_succ, toByte_val]
          rw [Nat.shiftRight_eq_div_pow] at *
          rw [Nat.mul_right_comm, Nat.mul_comm _ 256]
          have := Nat.mod_add_div k 256
          omega
        · simp only [List.length_cons]; omega
      · rename_i h0 h8
        have hlt : rem < 8 := by omega
        have : 2 ^ rem ≤ 2 ^ 7 := Nat.pow_le_pow_right (by decide) (by omega)
        have hk256 : k % 256 = k := Nat.mod_eq_of_lt (by omega)
        simp [bytesVal, hk256, hk, hlt]

/-- Well-formed writer: fewer than 8 cached bits, and only those bits set. -/
def Writer.Inv (w : Writer) : Prop :=
  w.used < 8 ∧ w.data < 2 ^ w.used ∧
  bytesVal w.out + 256 ^ w.out.length * w.data = codesVal w.log ∧
  8 * w.out.length + w.used = codesLen w.log

theorem Writer.init_inv : Writer.init.Inv := by
  simp [Writer.Inv, Writer.init, bytesVal, codesVal, codesLen]

theorem Writer.write_bits (w : Writer) (k : Nat) : (w.write k).bits = w.bits := by
  unfold Writer.write; split <;> rfl

theorem Writer.write_log (w : Writer) (k : Nat) : (w.write k).log = w.log ++ [(k, w.bits)] := by
  unfold Writer.write; split <;> rfl

theorem Writer.write_inv (w : Writer) (k : Nat) (h : w.Inv) (hb : 8 ≤ w.bits) (hk : k < 2 ^ w.bits) :
    (w.write k).Inv := by
  obtain ⟨hu, hd, hv, hl⟩ := h
  unfold Writer.write
  split
  · rename_i hne
    have hk' : k >>> (8 - w.used) < 2 ^ (w.bits - (8 - w.used)) := by
      rw [Nat.shiftRight_eq_div_pow, Nat.div_lt_iff_lt_mul (Nat.two_pow_pos _), ← Nat.pow_add]
      have : w.bits - (8 - w.used) + (8 - w.used) = w.bits := by omega
      rwa [this]
    obtain ⟨h1, h2, h3, h4⟩ := writeRest_spec _ (w.bits - (8 - w.used)) _ (Nat.le_refl _) hk'
    refine ⟨h3, h4, ?_, ?_⟩
    · simp only [codesVal_append, bytesVal_append, codesVal, bytesVal, List.length_append, List.length_cons,
        toByte_val, or_shift _ _ _ hd]
      rw [← hv, ← hl, Nat.pow_add 2 (8 * _), ← pow256, Nat.pow_add, Nat.pow_succ]
      simp only [Nat.mul_assoc, Nat.mul_zero, Nat.add_zero]
      rw [Nat.add_assoc, Nat.add_assoc, ← Nat.mul_add, ← Nat.mul_add, Nat.mul_comm (256 ^ _) (256 * _),
        Nat.mul_assoc, Nat.mul_comm _ (256 ^ _)]
      rw [Nat.add_assoc, ← Nat.mul_add, h1, Nat.shiftRight_eq_div_pow]
      congr 2
      have e : 256 = 2 ^ w.used * 2 ^ (8 - w.used) := by
        rw [← Nat.pow_add]; have : w.used + (8 - w.used) = 8 := by omega
        rw [this]
      have hm : (w.data + 2 ^ w.used * k) % 256 = w.data + 2 ^ w.used * (k % 2 ^ (8 - w.used)) := by
        rw [e, Nat.mod_mul]
        congr 1
        · rw [Nat.add_mul_mod_self_left, Nat.mod_eq_of_lt hd]
        · congr 2
          rw [Nat.add_mul_div_left _ _ (Nat.two_pow_pos _), Nat.div_eq_of_lt hd, Nat.zero_add]
      rw [hm, Nat.add_assoc]
      congr 1
      conv => lhs; arg 2; rw [e]
      rw [Nat.mul_assoc, ← Nat.mul_add, Nat.mod_add_div]
    · simp only [codesLen_append, codesLen, List.length_append, List.length_cons]
      omega
  · rename_i h0
    have h0 : w.used = 0 := by omega
    have hd0 : w.data = 0 := by rw [h0] at hd; omega
    obtain ⟨h1, h2, h3, h4⟩ := writeRest_spec _ w.bits _ (Nat.le_refl _) hk
    refine ⟨h3, h4, ?_, ?_⟩
    · simp only [codesVal_append, bytesVal_append, codesVal, List.length_append]
      rw [← hv, ← hl, h0, hd0, Nat.add_zero, ← pow256, Nat.pow_add, Nat.mul_assoc, Nat.add_assoc, ← Nat.mul_add, h1]
      simp
    · simp only [codesLen_append, codesLen, List.length_append]
      omega

theorem Writer.flushed_val (w : Writer) (h : w.Inv) :
    bytesVal w.flushed = codesVal w.log ∧ codesLen w.log ≤ 8 * w.flushed.length := by
  obtain ⟨hu, hd, hv, hl⟩ := h
  have h7 : 2 ^ w.used ≤ 2 ^ 7 := Nat.pow_le_pow_right (by decide) (by omega)
  unfold Writer.flushed
  split
  · rename_i hne
    refine ⟨?_, by simp; omega⟩
    have hm : w.data % 256 = w.data := Nat.mod_eq_of_lt (by omega)
    simp [bytesVal_append, bytesVal, toByte_val, hm, hv]
  · have h0 : w.used = 0 := by omega
    have hd0 : w.data = 0 := by rw [h0] at hd; omega
    rw [hd0] at hv
    exact ⟨by simpa using hv, by omega⟩

/-- Number held in a reader: cached bits, then the unread bytes (spec helper). -/
def Reader.val (r : Reader) : Nat := r.data + 2 ^ r.used * bytesVal r.inp
/-- Number of unread bits (spec helper). -/
def Reader.len (r : Reader) : Nat := r.used + 8 * r.inp.length
/-- Well-formed reader. -/
def Reader.Inv (r : Reader) : Prop := r.used < 8 ∧ r.data < 2 ^ r.used

theorem readLoop_spec (inp : List Byte) (rem offset k : Nat) (hk : k < 2 ^ offset) :
    (rem ≤ 8 * inp.length →
      (readLoop inp rem offset k).2.2 = true
      ∧ (readLoop inp rem offset k).1 = k + 2 ^ offset * (bytesVal inp % 2 ^ rem)
      ∧ (readLoop inp rem offset k).2.1.val = bytesVal inp / 2 ^ rem
      ∧ (readLoop inp rem offset k).2.1.len = 8 * inp.length - rem
      ∧ (readLoop inp rem offset k).2.1.Inv)
    ∧ (8 * inp.length < rem →
      (readLoop inp rem offset k).2.2 = false
      ∧ (readLoop inp rem offset k).1 = k + 2 ^ offset * bytesVal inp) := by
  fun_induction readLoop inp rem offset k with
  | case1 inp offset k =>
    simp [Reader.val, Reader.len, Reader.Inv, Nat.mod_one]
  | case2 rem offset k => simp [bytesVal]
  | case3 t inp rem offset k h8 ih =>
    rw [or_shift _ _ _ hk] at ih ⊢
    have ht := t.isLt
    have hlt : k + 2 ^ offset * t.val < 2 ^ (offset + 8) := by
      rw [Nat.pow_add]
      have : 2 ^ offset * (t.val + 1) ≤ 2 ^ offset * 2 ^ 8 := Nat.mul_le_mul_left _ (by omega)
      rw [Nat.mul_add] at this; omega
    obtain ⟨ihA, ihB⟩ := ih hlt
    have e : 2 ^ (rem + 1) = 256 * 2 ^ (rem + 1 - 8) := by
      have : rem + 1 = 8 + (rem + 1 - 8) := by omega
      conv => lhs; rw [this, Nat.pow_add]
    constructor
    · intro hr
      simp only [List.length_cons] at hr
      obtain ⟨h1, h2, h3, h4, h5⟩ := ihA (by omega)
      refine ⟨h1, ?_, ?_, ?_, h5⟩
      · rw [h2, bytesVal, e, Nat.mod_mul, Nat.add_mul_mod_self_left, Nat.mod_eq_of_lt ht,
          Nat.add_mul_div_left _ _ (by decide), Nat.div_eq_of_lt ht, Nat.zero_add, Nat.pow_add, Nat.mul_add,
          Nat.mul_assoc, Nat.add_assoc]
      · rw [h3, bytesVal, e, ← Nat.div_div_eq_div_mul, Nat.add_mul_div_left _ _ (by decide), Nat.div_eq_of_lt ht,
          Nat.zero_add]
      · rw [h4]; simp only [List.length_cons]; omega
    · intro hr
      simp only [List.length_cons] at hr
      obtain ⟨h1, h2⟩ := ihB (by omega)
      refine ⟨h1, ?_⟩
      rw [h2, bytesVal, Nat.pow_add, Nat.mul_add, Nat.mul_assoc, Nat.add_assoc]
  | case4 t inp rem offset k h8 =>
    have ht := t.isLt
    have hbv : bytesVal (t :: inp) = t.val + 256 * bytesVal inp := rfl
    have hlen : (t :: inp).length = inp.length + 1 := rfl
    rw [hbv, hlen]
    generalize t.val = t at *
    have hand : t &&& (2 ^ (rem + 1) - 1) = t % 2 ^ (rem + 1) := Nat.and_two_pow_sub_one_eq_mod _ _
    have e : 256 = 2 ^ (rem + 1) * 2 ^ (8 - (rem + 1)) := by
      rw [← Nat.pow_add]
      have : rem + 1 + (8 - (rem + 1)) = 8 := by omega
      rw [this]
    constructor
    · intro _
      refine ⟨rfl, ?_, ?_, ?_, ?_, ?_⟩
      · simp only [hand]
        rw [or_shift _ _ _ hk]
        congr 2
        conv => rhs; rw [e, Nat.mul_assoc, Nat.add_mul_mod_self_left]
      · simp only [Reader.val, Nat.shiftRight_eq_div_pow]
        conv => rhs; rw [e, Nat.mul_assoc, Nat.add_mul_div_left _ _ (Nat.two_pow_pos _)]
      · simp only [Reader.len]; omega
      · simp only; omega
      · simp only [Nat.shiftRight_eq_div_pow]
        rw [Nat.div_lt_iff_lt_mul (Nat.two_pow_pos _), Nat.mul_comm, ← e]; exact ht
    · intro hr; omega

/-- Complete read: exactly the next `b` bits. -/
theorem Reader.read_full (r : Reader) (b : Nat) (h : r.Inv) (hb : 8 ≤ b) (hl : b ≤ r.len) :
    (r.read b).k = r.val % 2 ^ b ∧ (r.read b).rdr.val = r.val / 2 ^ b ∧ (r.read b).rdr.len = r.len - b
    ∧ (r.read b).rdr.Inv ∧ (r.read b).feof = decide (r.val % 2 ^ b = eof)
    ∧ (r.read b).good = decide (r.val % 2 ^ b ≠ eof) := by
  obtain ⟨hu, hd⟩ := h
  obtain ⟨hA, -⟩ := readLoop_spec r.inp (b - r.used) r.used r.data hd
  unfold Reader.len at hl
  obtain ⟨h1, h2, h3, h4, h5⟩ := hA (by omega)
  have e : 2 ^ b = 2 ^ r.used * 2 ^ (b - r.used) := by
    rw [← Nat.pow_add]; congr 1; omega
  have hk : r.val % 2 ^ b = r.data + 2 ^ r.used * (bytesVal r.inp % 2 ^ (b - r.used)) := by
    rw [Reader.val, e, Nat.mod_mul, Nat.add_mul_mod_self_left, Nat.mod_eq_of_lt hd,
      Nat.add_mul_div_left _ _ (Nat.two_pow_pos _), Nat.div_eq_of_lt hd, Nat.zero_add]
  have hv : r.val / 2 ^ b = bytesVal r.inp / 2 ^ (b - r.used) := by
    rw [Reader.val, e, ← Nat.div_div_eq_div_mul,
      Nat.add_mul_div_left _ _ (Nat.two_pow_pos _), Nat.div_eq_of_lt hd, Nat.zero_add]
  rw [hv, hk, ← h2]
  unfold Reader.read
  simp only
  split
  · rename_i he
    rw [he]
    simp only
    exact ⟨trivial, h3, by rw [h4, Reader.len]; omega, h5, by simp, by simp⟩
  · rename_i he
    simp only
    exact ⟨trivial, h3, by rw [h4, Reader.len]; omega, h5, by simp [he], by simp [he, h1]⟩

/-- Read past the end: the remaining bits are the code, and the read fails. -/
theorem Reader.read_short (r : Reader) (b : Nat) (h : r.Inv) (hl : r.len < b) :
    (r.read b).good = false ∧ (r.read b).feof = decide (r.val = eof) := by
  obtain ⟨hu, hd⟩ := h
  obtain ⟨-, hB⟩ := readLoop_spec r.inp (b - r.used) r.used r.data hd
  unfold Reader.len at hl
  obtain ⟨h1, h2⟩ := hB (by omega)
  rw [Reader.val, ← h2]
  unfold Reader.read
  simp only
  split
  · rename_i he; simp [he]
  · rename_i he; simp [he, h1]

theorem Reader.val_lt (r : Reader) (h : r.Inv) : r.val < 2 ^ r.len := by
  have := bytesVal_lt r.inp
  rw [Reader.val, Reader.len, Nat.pow_add]
  have h2 : 2 ^ r.used * (bytesVal r.inp + 1) ≤ 2 ^ r.used * 2 ^ (8 * r.inp.length) := Nat.mul_le_mul_left _ this
  rw [Nat.mul_add] at h2
  have := h.2
  omega

end Verif.Lzw
