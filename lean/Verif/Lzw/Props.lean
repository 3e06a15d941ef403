import Verif.Lzw.Total
/-!
# C01-C04: properties of the LZW coder (include/utils/lzw.hpp)

`compress dms`/`decompress dms` are the model of `lzw::compress`/`lzw::decompress` with dictionary capacity `dms`
(`dmsRepo` in the code).  Outcome `ok` means: no undefined behaviour, no endless loop.
-/
namespace Verif.Lzw
open Verif Res

/-- **C01**, any capacity: decompressing what `compress` wrote gives back the input, and success is reported. -/
theorem lzw_round_trip_capacity (dms : Nat) (hdms : 258 ≤ dms) (s : List Byte) :
    ∃ z, compress dms s = ok z ∧ decompress dms z = ok (s, 0) := by
  obtain ⟨st, d, cs, wd, h1, -⟩ := finish_spec dms hdms s
  refine ⟨(encFinish dms st).flushed, by rw [compress, h1, bind_ok], ?_⟩
  obtain ⟨o, rc, a1, -, a3⟩ := decompress_take dms hdms s _ (by rw [compress, h1, bind_ok])
    (encFinish dms st).flushed.length
  obtain ⟨rfl, rfl⟩ := a3 (Nat.le_refl _)
  rwa [List.take_length] at a1

/-- **C01**: with the capacity of the code, every byte string survives the round trip. -/
theorem lzw_round_trip (s : List Byte) :
    ∃ z, compress dmsRepo s = ok z ∧ decompress dmsRepo z = ok (s, 0) :=
  lzw_round_trip_capacity dmsRepo (by decide) s

/- A run with a dictionary of capacity 260 that is filled and reset several times. -/
example : ∃ z, compress 260 [65, 66, 65, 66, 65, 66, 65, 200, 200, 200, 200, 200, 65, 66, 65] = ok z ∧ z.length = 15 ∧
    decompress 260 z = ok ([65, 66, 65, 66, 65, 66, 65, 200, 200, 200, 200, 200, 65, 66, 65], 0) := by
  exact ⟨[193, 132, 5, 12, 38, 44, 24, 146, 128, 1, 131, 9, 11, 6, 16], by decide +kernel, by decide +kernel, by decide +kernel⟩

/-- **C02**: compressing never leaves the dictionary (`ok`), the codes written are data codes that fit the width they are
written with and differ from the end marker, followed by exactly one end marker, which fits as well. -/
theorem lzw_encoder_safe (dms : Nat) (hdms : 258 ≤ dms) (s : List Byte) :
    ∃ st cs wd, encLoop dms (Enc.init dms) s = ok st ∧ (encFinish dms st).log = cs ++ [(256, wd)]
      ∧ 256 < 2 ^ wd ∧ ∀ k w, (k, w) ∈ cs → k < 2 ^ w ∧ k ≠ 256 := by
  obtain ⟨st, d, cs, wd, h1, h2, h3, h4, h5, -⟩ := finish_spec dms hdms s
  refine ⟨st, cs, wd, h1, h3, ?_, h5⟩
  exact Nat.lt_of_lt_of_le (by decide : 256 < 2 ^ 9) (Nat.pow_le_pow_right (by decide) h4)

example : (encLoop 300 (Enc.init 300) [7, 7, 7, 7] >>= fun st => ok (encFinish 300 st).log)
    = ok [(135, 9), (257, 9), (135, 9), (256, 9)] := by decide +kernel

/-- **C02**, bytes: the bytes in the stream are exactly the codes of the log, least significant bit first, each with its
width (so nothing is lost by the caching of partial bytes). -/
theorem lzw_encoder_stream (dms : Nat) (hdms : 258 ≤ dms) (s : List Byte) :
    ∃ st, encLoop dms (Enc.init dms) s = ok st ∧ compress dms s = ok (encFinish dms st).flushed ∧
      bytesVal (encFinish dms st).flushed = codesVal (encFinish dms st).log ∧
      codesLen (encFinish dms st).log ≤ 8 * (encFinish dms st).flushed.length := by
  obtain ⟨st, d, cs, wd, h1, h2, -⟩ := finish_spec dms hdms s
  obtain ⟨v1, v2⟩ := Writer.flushed_val _ h2
  exact ⟨st, h1, by rw [compress, h1, bind_ok], v1, v2⟩

/-- **C03** does not hold: on the two bytes 01 01 (first code 257) the decoder takes `front()` of an empty vector. -/
theorem lzw_decoder_total_violated : ∃ inp : List Byte, decompress dmsRepo inp = ub :=
  ⟨[1, 1], by decide +kernel⟩

/-- Second way **C03** fails: a stream that fills the dictionary and then refers to a code from before the reset
(shown with capacity 259, the decoder is the same). -/
theorem lzw_decoder_reset_violated : ∃ inp : List Byte, ¬ (inp.length ≥ 2 ∧ inp[0]? = some 1) ∧ decompress 259 inp = ub :=
  ⟨[10, 40, 4, 12, 8], by decide +kernel⟩

/-- **C03**, the part that holds: a stream whose first code is not 257 and that is too short to fill the dictionary
(about 1.18 MB for the capacity of the code) is decoded without undefined behaviour, whatever its bytes are.
Missing from the full statement: streams starting with code 257 and streams long enough for a reset (both violated above). -/
theorem lzw_decoder_total_partial (dms : Nat) (inp : List Byte) (hsize : 8 * inp.length < 9 * (dms - 257))
    (hfirst : ∀ b0 b1 rest, inp = b0 :: b1 :: rest → ¬ (b0.val = 1 ∧ b1.val % 2 = 1)) :
    ∃ o st, decompress dms inp = ok (o, st) := by
  have hinit : DInv dms (Dec.init dms) [] := ⟨by simp [Dec.init], EWf.nil, by simp [Dec.init], Or.inl ⟨rfl, rfl⟩⟩
  have ht : ((Dec.init dms).top dms).bits = 9 := by
    rw [top_ne (by simp only [Dec.init, resetDict_length]; omega)]
    simp [Dec.init, resetDict_length, requiredBits_257]
  refine decLoop_total hinit ⟨inp, 0, 0⟩ (by simp [Reader.Inv]) _ (by simp [Reader.len]) (by simp [Reader.len]; omega) ?_
  intro _ hl
  rw [ht] at hl ⊢
  simp only [Reader.len, Reader.val, Nat.zero_add, Nat.pow_zero, Nat.one_mul] at hl ⊢
  match inp, hl, hfirst with
  | [], hl, _ => simp at hl
  | [b], hl, _ => simp at hl
  | b0 :: b1 :: rest, _, hfirst =>
    have h0 := b0.isLt
    have := hfirst b0 b1 rest rfl
    simp only [bytesVal]
    intro he
    apply this
    omega

example : (8 * ([3, 76, 129, 255, 0, 12] : List Byte).length < 9 * (dmsRepo - 257)) ∧
    decompress dmsRepo [3, 76, 129, 255, 0, 12] = ok ([131, 38], -1) := by decide +kernel

/-- **C04**: decompressing the first `n` bytes of a compressed string yields a prefix of the string. -/
theorem lzw_truncated_prefix (dms : Nat) (hdms : 258 ≤ dms) (s z : List Byte) (hz : compress dms s = ok z) (n : Nat) :
    ∃ o st, decompress dms (z.take n) = ok (o, st) ∧ o <+: s := by
  obtain ⟨o, st, h1, h2, -⟩ := decompress_take dms hdms s z hz n
  exact ⟨o, st, h1, h2⟩

example : ∃ z, compress 260 [65, 66, 65, 66, 65, 66, 65] = ok z ∧
    decompress 260 (z.take 4) = ok ([65, 66, 65, 66], -1) := by
  exact ⟨[193, 132, 5, 12, 38, 44, 24, 64], by decide +kernel, by decide +kernel⟩

end Verif.Lzw
