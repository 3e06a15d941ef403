import Verif.Lzw.Sim
/-!
# Decoder on arbitrary streams (helper lemmas)
-/
namespace Verif.Lzw
open Verif Res

/-- Decoder invariant away from resets. -/
structure DInv (dms : Nat) (d : Dec) (dents : List (Nat × Byte)) : Prop where
  dict : d.dict = resetDict dms ++ dents
  wf : EWf dents
  bits : 9 ≤ d.bits
  idx : (d.i = dms ∧ dents = []) ∨ (d.i < 257 + dents.length ∧ d.i ≠ 256)

theorem DInv.top {dms d dents} (h : DInv dms d dents) (hc : 257 + dents.length < dms) :
    DInv dms (d.top dms) dents := by
  have hl : d.dict.length = 257 + dents.length := by rw [h.dict, List.length_append, resetDict_length]
  have hb := h.bits
  rw [top_ne (by omega)]
  exact ⟨h.dict, h.wf, by simp only; split <;> omega, h.idx⟩

theorem exists_front {s : List Byte} (h : s ≠ []) : ∃ b, front s = ok b := by
  cases s with
  | nil => exact absurd rfl h
  | cons b s => exact ⟨b, rfl⟩

theorem DInv.take {dms d dents} (h : DInv dms d dents) (hc : 257 + dents.length < dms) (k : Nat)
    (hk : k ≤ d.dict.length) (hk' : k ≠ 256) (hfirst : d.i = dms → k ≠ 257) :
    ∃ d' dents', d.take dms k = ok d' ∧ DInv dms d' dents' ∧ dents'.length ≤ dents.length + 1 ∧ d'.i ≠ dms := by
  have hl : d.dict.length = 257 + dents.length := by rw [h.dict, List.length_append, resetDict_length]
  by_cases hkl : k = d.dict.length
  · rcases h.idx with ⟨h1, rfl⟩ | ⟨h1, h2⟩
    · simp only [List.length_nil] at hl
      exact absurd (by omega) (hfirst h1)
    · have hrb := rebuild_eq dms dents h.wf (by omega) d.i (d.dict.length + 1) [] h1 h2 (by omega)
      rw [← h.dict, List.append_nil] at hrb
      obtain ⟨b, hb⟩ := exists_front (expand_ne_nil dents h.wf d.i h1 h2)
      have hwf' : EWf (dents ++ [(d.i, b)]) := h.wf.snoc h1 h2
      have hrb2 := rebuild_eq dms (dents ++ [(d.i, b)]) hwf' (by simp; omega) k
        ((d.dict ++ [(d.i, b)]).length + 1) [] (by simp; omega) hk' (by simp; omega)
      rw [← List.append_assoc, ← h.dict] at hrb2
      obtain ⟨b2, hb2⟩ := exists_front (expand_ne_nil _ hwf' k (by simp; omega) hk')
      refine ⟨{ d with dict := d.dict ++ [(d.i, b)], i := k, out := d.out ++ expand (dents ++ [(d.i, b)]) k }, dents ++ [(d.i, b)], by
        rw [Dec.take, if_pos hkl, hrb, bind_ok, hb, bind_ok]; simp only [hrb2, List.append_nil, bind_ok]; rw [hb2, bind_ok],
        ⟨?_, hwf', h.bits, Or.inr ⟨by simp; omega, hk'⟩⟩, by simp, by simp only; omega⟩
      simp only; rw [h.dict, List.append_assoc]
  · have hrb := rebuild_eq dms dents h.wf (by omega) k (d.dict.length + 1) [] (by omega) hk' (by omega)
    rw [← h.dict, List.append_nil] at hrb
    obtain ⟨b, hb⟩ := exists_front (expand_ne_nil dents h.wf k (by omega) hk')
    rcases h.idx with ⟨h1, rfl⟩ | ⟨h1, h2⟩
    · refine ⟨{ d with i := k, out := d.out ++ expand [] k }, [], ?_, ⟨h.dict, EWf.nil, h.bits, Or.inr ⟨?_, hk'⟩⟩, by simp, by simp only; omega⟩
      · rw [Dec.take, if_neg hkl, hrb, bind_ok, hb, bind_ok]; simp [h1]
      · simp only [List.length_nil]; simp only [List.length_nil] at hl; omega
    · have hne : d.i ≠ dms := by omega
      refine ⟨{ d with dict := d.dict ++ [(d.i, b)], i := k, out := d.out ++ expand dents k }, dents ++ [(d.i, b)], ?_,
        ⟨?_, h.wf.snoc h1 h2, h.bits, Or.inr ⟨?_, hk'⟩⟩, by simp, by simp only; omega⟩
      · rw [Dec.take, if_neg hkl, hrb, bind_ok, hb, bind_ok]; simp [hne]
      · simp only; rw [h.dict, List.append_assoc]
      · simp; omega

theorem decLoop_total {dms d dents} (h : DInv dms d dents) (r : Reader) (hr : r.Inv) (fuel : Nat) (hf : r.len < fuel)
    (hsize : 9 * (257 + dents.length) + r.len < 9 * dms)
    (hfirst : d.i = dms → (d.top dms).bits ≤ r.len → r.val % 2 ^ (d.top dms).bits ≠ 257) :
    ∃ o st, decLoop dms fuel d r = ok (o, st) := by
  induction fuel generalizing d dents r with
  | zero => omega
  | succ fuel ih =>
    have hc : 257 + dents.length < dms := by omega
    have ht := h.top hc
    have hti := top_i dms d
    rw [decLoop]
    split
    · exact ⟨_, _, rfl⟩
    · rename_i hg
      split
      · exact ⟨_, _, rfl⟩
      · rename_i hk
        by_cases hl : (d.top dms).bits ≤ r.len
        · have hb := ht.bits
          obtain ⟨b1, b2, b3, b4, b5, b6⟩ := r.read_full (d.top dms).bits hr (by omega) hl
          have hke : r.val % 2 ^ (d.top dms).bits ≠ eof := by
            intro he; rw [b6] at hg; simp [he] at hg
          rw [b1] at hk ⊢
          obtain ⟨d', dents', t1, t2, t3, t4⟩ := ht.take hc (r.val % 2 ^ (d.top dms).bits) (by omega) hke
            (fun hi => hfirst (by rw [← hti]; exact hi) hl)
          rw [t1, bind_ok]
          exact ih t2 _ b4 (by omega) (by omega) (fun hi => absurd hi t4)
        · obtain ⟨b1, _⟩ := r.read_short (d.top dms).bits hr (by omega)
          exact absurd b1 hg

end Verif.Lzw
