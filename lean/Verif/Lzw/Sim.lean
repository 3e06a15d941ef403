import Verif.Lzw.Dict
/-!
# Encoder/decoder simulation (helper lemmas)
-/
namespace Verif.Lzw
open Verif Res

/-- Code-level run of the decoder loop: it accepts the codes one by one, each read with the width it expects. -/
inductive Steps (dms : Nat) : Dec → List (Nat × Nat) → Dec → Prop
  | nil (d : Dec) : Steps dms d [] d
  | cons (d d1 d2 : Dec) (k w : Nat) (cs : List (Nat × Nat)) :
      (d.top dms).bits = w → k ≠ eof → k < 2 ^ w → 9 ≤ w → k ≤ (d.top dms).dict.length →
      (d.top dms).take dms k = ok d1 → Steps dms d1 cs d2 → Steps dms d ((k, w) :: cs) d2

theorem Steps.snoc {dms : Nat} {d d1 d2 : Dec} {k w : Nat} {cs : List (Nat × Nat)} (h : Steps dms d cs d1)
    (h1 : (d1.top dms).bits = w) (h2 : k ≠ eof) (h3 : k < 2 ^ w) (h4 : 9 ≤ w) (h5 : k ≤ (d1.top dms).dict.length)
    (h6 : (d1.top dms).take dms k = ok d2) : Steps dms d (cs ++ [(k, w)]) d2 := by
  induction h with
  | nil d => exact .cons _ _ _ _ _ _ h1 h2 h3 h4 h5 h6 (.nil _)
  | cons d e1 e2 k' w' cs a1 a2 a3 a4 a5 a6 _ ih =>
    exact .cons _ _ _ _ _ _ a1 a2 a3 a4 a5 a6 (ih h1 h5 h6)

theorem top_out (dms : Nat) (d : Dec) : (d.top dms).out = d.out := by
  unfold Dec.top; split <;> simp only <;> split <;> rfl

theorem top_i (dms : Nat) (d : Dec) : (d.top dms).i = d.i := by
  unfold Dec.top; split <;> simp only <;> split <;> rfl

theorem top_ne {dms : Nat} {d : Dec} (h : d.dict.length ≠ dms) :
    d.top dms = { d with bits := if requiredBits d.dict.length > d.bits then d.bits + 1 else d.bits } := by
  simp only [Dec.top, if_neg h]
  split <;> rfl

theorem top_full {dms : Nat} {d : Dec} (h : d.dict.length = dms) :
    d.top dms = { d with dict := resetDict dms, bits := 9 } := by
  simp only [Dec.top, if_pos h, resetDict_length, requiredBits_257]
  rfl

theorem take_out (dms : Nat) (d d' : Dec) (k : Nat) (h : d.take dms k = ok d') : d.out <+: d'.out := by
  unfold Dec.take at h
  split at h
  · simp only [bind_eq_ok] at h
    obtain ⟨_, _, _, _, _, _, _, _, h⟩ := h
    cases h; exact List.prefix_append _ _
  · simp only [bind_eq_ok] at h
    obtain ⟨_, _, _, _, h⟩ := h
    cases h; exact List.prefix_append _ _

theorem Steps.out_prefix {dms : Nat} {d d' : Dec} {cs : List (Nat × Nat)} (h : Steps dms d cs d') :
    d.out <+: d'.out := by
  induction h with
  | nil d => exact List.prefix_rfl
  | cons d d1 d2 k w cs _ _ _ _ _ h6 _ ih =>
    have := take_out _ _ _ _ h6
    rw [top_out] at this
    exact this.trans ih

theorem mod_codes (k w n : Nat) (C : Nat) (hk : k < 2 ^ w) (hw : w ≤ n) :
    ((k + 2 ^ w * C) % 2 ^ n) % 2 ^ w = k ∧ ((k + 2 ^ w * C) % 2 ^ n) / 2 ^ w = C % 2 ^ (n - w) := by
  have e : 2 ^ n = 2 ^ w * 2 ^ (n - w) := by rw [← Nat.pow_add]; congr 1; omega
  rw [e]
  constructor
  · rw [Nat.mod_mul_right_mod, Nat.add_mul_mod_self_left, Nat.mod_eq_of_lt hk]
  · rw [Nat.mod_mul_right_div_self, Nat.add_mul_div_left _ _ (Nat.two_pow_pos _), Nat.div_eq_of_lt hk, Nat.zero_add]

/-- The bit-level decoder loop follows the code-level run on a possibly cut stream. -/
theorem decLoop_stream {dms : Nat} {d d' : Dec} {cs : List (Nat × Nat)} (h : Steps dms d cs d')
    (tail : List (Nat × Nat)) (r : Reader) (fuel : Nat) (hi : r.Inv) (hf : r.len < fuel)
    (hv : r.val = codesVal (cs ++ tail) % 2 ^ r.len) :
    (codesLen cs ≤ r.len ∧ ∃ r' fuel', decLoop dms fuel d r = decLoop dms fuel' d' r'
        ∧ r'.val = codesVal tail % 2 ^ r'.len ∧ r'.len = r.len - codesLen cs ∧ r'.len < fuel' ∧ r'.Inv)
    ∨ (r.len < codesLen cs ∧ ∃ o st, decLoop dms fuel d r = ok (o, st) ∧ o <+: d'.out) := by
  induction h generalizing r fuel with
  | nil d =>
    left
    exact ⟨by simp [codesLen], r, fuel, rfl, by simpa using hv, by simp [codesLen], hf, hi⟩
  | cons d d1 d2 k w cs h1 h2 h3 h4 h5 h6 h7 ih =>
    obtain ⟨fuel, rfl⟩ : ∃ f, fuel = f + 1 := ⟨fuel - 1, by omega⟩
    simp only [List.cons_append, codesVal, codesLen] at hv ⊢
    rw [decLoop]
    simp only [h1]
    by_cases hl : w ≤ r.len
    · obtain ⟨a1, a2, a3, a4, a5, a6⟩ := r.read_full w hi (by omega) hl
      obtain ⟨m1, m2⟩ := mod_codes k w r.len (codesVal (cs ++ tail)) h3 hl
      rw [← hv] at m1 m2
      rw [m1] at a1 a6
      rw [m2] at a2
      have hg : (r.read w).good = true := by rw [a6]; simpa using h2
      have hk : ¬ k > (d.top dms).dict.length := by omega
      simp only [hg, a1, hk, Bool.true_eq_false, if_false]
      rw [h6, bind_ok]
      rcases ih (r.read w).rdr fuel a4 (by omega) (by rw [a2, a3]) with ⟨hA, r', fuel', b1, b2, b3, b4, b5⟩ | ⟨hA, o, s, b1, b2⟩
      · exact Or.inl ⟨by omega, r', fuel', b1, b2, by omega, b4, b5⟩
      · exact Or.inr ⟨by omega, o, s, b1, b2⟩
    · right
      obtain ⟨a1, a2⟩ := r.read_short w hi (by omega)
      simp only [a1, if_true]
      refine ⟨by omega, _, _, rfl, ?_⟩
      have := (Steps.cons d d1 d2 k w cs h1 h2 h3 h4 h5 h6 h7).out_prefix
      rwa [top_out]

/-- State of the encoder after `consumed`, against the decoder that has processed all codes written so far. -/
structure Sim (dms : Nat) (consumed : List Byte) (st : Enc) (d : Dec) (ents dents : List (Nat × Byte)) : Prop where
  node : NodeInv dms st.vn ents
  winv : st.w.Inv
  steps : Steps dms (Dec.init dms) st.w.log d
  dict : (d.top dms).dict = resetDict dms ++ dents
  dbits : (d.top dms).bits = st.w.bits
  wbits : st.w.bits = requiredBits (257 + dents.length)
  idx : (st.i = dms ∧ consumed = [] ∧ ents = [] ∧ dents = [] ∧ d.out = [])
    ∨ (st.i < 257 + ents.length ∧ st.i ≠ 256 ∧ consumed = d.out ++ expand ents st.i
        ∧ (st.vn.length = dms → st.i < 256)
        ∧ ((d.i = dms ∧ ents = [] ∧ dents = [])
          ∨ (d.i < 257 + dents.length ∧ d.i ≠ 256 ∧
              ∃ c, ents = dents ++ [(d.i, c)] ∧ (expand ents st.i).head? = some c)))

theorem Sim.dents_wf {dms consumed st d ents dents} (h : Sim dms consumed st d ents dents) : EWf dents := by
  rcases h.idx with ⟨_, _, _, rfl, _⟩ | ⟨_, _, _, _, ⟨_, _, rfl⟩ | ⟨_, _, c, he, _⟩⟩
  · exact EWf.nil
  · exact EWf.nil
  · have := h.node.wf
    rw [he] at this
    exact this.prefix

theorem Sim.le_ents {dms consumed st d ents dents} (h : Sim dms consumed st d ents dents) :
    dents.length ≤ ents.length ∧ ents.length ≤ dents.length + 1 := by
  rcases h.idx with ⟨_, _, rfl, rfl, _⟩ | ⟨_, _, _, _, ⟨_, rfl, rfl⟩ | ⟨_, _, c, rfl, _⟩⟩ <;> simp

theorem front_of_head? {s : List Byte} {c : Byte} (h : s.head? = some c) : front s = ok c := by
  cases s with
  | nil => simp at h
  | cons a s => simp at h; subst h; rfl

/-- The decoder accepts the code the encoder is about to write. -/
theorem Sim.take {dms consumed st d ents dents} (h : Sim dms consumed st d ents dents)
    (hi : st.i ≠ dms) :
    ∃ d1, (d.top dms).take dms st.i = ok d1 ∧ d1.dict = resetDict dms ++ ents ∧ d1.i = st.i
      ∧ d1.out = consumed ∧ d1.bits = st.w.bits ∧ st.i ≤ (d.top dms).dict.length ∧ st.i ≠ 256 := by
  have hdwf := h.dents_wf
  have hlen := h.node.len
  have hcap := h.node.cap
  have hwf := h.node.wf
  obtain ⟨hle1, hle2⟩ := h.le_ents
  rcases h.idx with ⟨h1, _⟩ | ⟨h1, h2, h3, h4, h5⟩
  · exact absurd h1 hi
  have hdl : (d.top dms).dict.length = 257 + dents.length := by
    rw [h.dict, List.length_append, resetDict_length]
  have hti : (d.top dms).i = d.i := top_i dms d
  have hto : (d.top dms).out = d.out := top_out dms d
  rcases h5 with ⟨h5, h6, h7⟩ | ⟨h5, h6, c, h7, h8⟩
  · -- first code
    subst h6 h7
    simp only [List.length_nil] at *
    have hne : st.i ≠ (d.top dms).dict.length := by omega
    have hrb := rebuild_eq dms [] EWf.nil (by simp only [List.length_nil]; omega) st.i
      ((d.top dms).dict.length + 1) [] (by simpa using h1) h2 (by omega)
    rw [← h.dict, List.append_nil] at hrb
    rcases hx : expand [] st.i with _ | ⟨b, s⟩
    · exact absurd hx (expand_ne_nil [] EWf.nil _ (by simpa using h1) h2)
    refine ⟨{ (d.top dms) with i := st.i, out := (d.top dms).out ++ b :: s }, ?_, h.dict, rfl, ?_, h.dbits, by omega, h2⟩
    · rw [Dec.take, if_neg hne, hrb, bind_ok, hx]
      simp [front, hti, h5]
    · simp only; rw [hto, h3, hx]
  · -- later codes
    have hlast : ents[dents.length]? = some (d.i, c) := by rw [h7]; simp
    have hdi : d.i ≠ dms := by omega
    by_cases hk : st.i = (d.top dms).dict.length
    · -- the code not yet in the decoder's dictionary
      have hk' : st.i = 257 + dents.length := by omega
      have hrb := rebuild_eq dms dents hdwf (by omega) d.i ((d.top dms).dict.length + 1) [] h5 h6 (by omega)
      rw [← h.dict, List.append_nil] at hrb
      have hxe : expand ents st.i = expand dents d.i ++ [c] := by
        rw [hk', expand_entry ents hwf _ _ _ hlast, h7, expand_append dents _ hdwf d.i h5 h6]
      have hne := expand_ne_nil dents hdwf d.i h5 h6
      have hh : (expand dents d.i).head? = some c := by
        rw [hxe] at h8
        rcases hx : expand dents d.i with _ | ⟨b, s⟩
        · exact absurd hx hne
        · rw [hx] at h8; simpa using h8
      have hdict : (d.top dms).dict ++ [((d.top dms).i, c)] = resetDict dms ++ ents := by
        rw [h.dict, hti, h7, List.append_assoc]
      have hrb2 := rebuild_eq dms ents hwf (by omega) st.i ((resetDict dms ++ ents).length + 1) [] h1 h2
        (by rw [List.length_append, resetDict_length]; omega)
      rw [List.append_nil] at hrb2
      refine ⟨{ (d.top dms) with dict := resetDict dms ++ ents, i := st.i, out := (d.top dms).out ++ expand ents st.i },
        ?_, rfl, rfl, ?_, h.dbits, by omega, h2⟩
      · rw [Dec.take, if_pos hk]
        simp only [hti] at hdict ⊢
        rw [hrb, bind_ok, front_of_head? hh, bind_ok]
        simp only [hdict]
        rw [hrb2, bind_ok, front_of_head? h8, bind_ok]
      · simp only; rw [hto, h3]
    · have hk' : st.i < 257 + dents.length := by
        rw [h7] at h1; simp at h1; omega
      have hrb := rebuild_eq dms dents hdwf (by omega) st.i ((d.top dms).dict.length + 1) [] hk' h2 (by omega)
      rw [← h.dict, List.append_nil] at hrb
      have hxe : expand dents st.i = expand ents st.i := by
        rw [h7, expand_append dents _ hdwf st.i hk' h2]
      rw [hxe] at hrb
      refine ⟨{ (d.top dms) with dict := (d.top dms).dict ++ [(d.i, c)], i := st.i, out := (d.top dms).out ++ expand ents st.i },
        ?_, ?_, rfl, ?_, h.dbits, by omega, h2⟩
      · rw [Dec.take, if_neg hk, hrb, bind_ok, front_of_head? h8, bind_ok]
        simp only [hti, ne_eq, hdi, not_false_eq_true, if_true]
      · simp only; rw [h.dict, h7, List.append_assoc]
      · simp only; rw [hto, h3]

theorem Sim.code_fits {dms consumed st d ents dents} (h : Sim dms consumed st d ents dents)
    (hi : st.i ≠ dms) : st.i < 2 ^ st.w.bits ∧ 9 ≤ st.w.bits := by
  obtain ⟨hle1, hle2⟩ := h.le_ents
  rcases h.idx with ⟨h1, _⟩ | ⟨h1, h2, h3, h4, h5⟩
  · exact absurd h1 hi
  rw [h.wbits]
  constructor
  · have := lt_two_pow_requiredBits (257 + dents.length); omega
  · rw [← requiredBits_257]; exact requiredBits_mono (by omega)

theorem Sim.init (dms : Nat) (h : 258 ≤ dms) : Sim dms [] (Enc.init dms) (Dec.init dms) [] [] := by
  have ht : (Dec.init dms).top dms = Dec.init dms := by
    rw [top_ne (by simp only [Dec.init, resetDict_length]; omega)]
    simp [Dec.init, resetDict_length, requiredBits_257]
  refine ⟨NodeInv.reset dms (by omega), Writer.init_inv, Steps.nil _, ?_, ?_, ?_, ?_⟩
  · rw [ht]; simp [Dec.init]
  · rw [ht]; rfl
  · simp [Enc.init, Writer.init, requiredBits_257]
  · left; simp [Enc.init, Dec.init]

theorem width_step {b n m : Nat} (hb : b = requiredBits (257 + n)) (hm1 : n ≤ m) (hm2 : m ≤ n + 1) :
    (if requiredBits (257 + m) > b then b + 1 else b) = requiredBits (257 + m) := by
  have hm := requiredBits_mono (m := 257 + n) (n := 257 + m) (by omega)
  have hs := requiredBits_succ (257 + n)
  have h2 := requiredBits_mono (m := 257 + m) (n := 257 + n + 1) (by omega)
  split <;> omega

/-- Decoder state at the top of the loop after a code. -/
theorem top_after {dms : Nat} {d1 : Dec} {ents : List (Nat × Byte)} {n : Nat}
    (hd : d1.dict = resetDict dms ++ ents) (hb : d1.bits = requiredBits (257 + n))
    (hn : n ≤ ents.length ∧ ents.length ≤ n + 1) :
    (257 + ents.length ≠ dms → (d1.top dms).dict = resetDict dms ++ ents ∧ (d1.top dms).bits = requiredBits (257 + ents.length))
    ∧ (257 + ents.length = dms → (d1.top dms).dict = resetDict dms ∧ (d1.top dms).bits = 9) := by
  have hl : d1.dict.length = 257 + ents.length := by rw [hd, List.length_append, resetDict_length]
  constructor
  · intro hne
    rw [top_ne (by omega), hl]
    exact ⟨hd, width_step hb hn.1 hn.2⟩
  · intro he
    rw [top_full (by omega)]
    exact ⟨rfl, rfl⟩

theorem Sim.step {dms consumed st d ents dents} (hdms : 258 ≤ dms) (h : Sim dms consumed st d ents dents) (c : Byte) :
    ∃ st' d' ents' dents', encStep dms st c = ok st' ∧ Sim dms (consumed ++ [c]) st' d' ents' dents' := by
  have hlen := h.node.len
  have hcap := h.node.cap
  have hwf := h.node.wf
  obtain ⟨hle1, hle2⟩ := h.le_ents
  by_cases hfirst : st.i = dms
  · -- first byte
    rcases h.idx with ⟨h1, rfl, rfl, rfl, h5⟩ | ⟨h1, _⟩
    · simp only [List.length_nil] at hlen
      have hne : ¬ st.vn.length = dms := by omega
      have hini := initials_lt c
      have hnei : ¬ initials c = dms := by omega
      refine ⟨⟨st.vn, initials c, st.w⟩, d, [], [], ?_, h.node, h.winv, h.steps, h.dict, h.dbits, h.wbits, Or.inr ?_⟩
      · simp [encStep, searchAndInsert, hfirst, hne, hnei]
      · refine ⟨by simp only [List.length_nil]; omega, by simp only; omega, ?_, fun _ => hini, Or.inl ⟨?_, rfl, rfl⟩⟩
        · simp only; rw [h5, expand_initials]
        · -- no code was processed yet
          have hlog : st.w.log = [] ∨ st.w.log ≠ [] := by
            cases st.w.log <;> simp
          have hst := h.steps
          rcases hlog with hlog | hlog
          · rw [hlog] at hst
            cases hst
            rfl
          · -- a processed code produces output, but `d.out = []`
            exfalso
            obtain ⟨⟨k, w⟩, cs, hcs⟩ := List.exists_cons_of_ne_nil hlog
            rw [hcs] at hst
            cases hst with
            | cons _ d1 _ _ _ _ a1 a2 a3 a4 a5 a6 a7 =>
              have hp := a7.out_prefix
              rw [h5] at hp
              have hd1 : d1.out = [] := List.prefix_nil.mp hp
              unfold Dec.take at a6
              split at a6
              · simp only [bind_eq_ok] at a6
                obtain ⟨_, _, _, _, s, _, _, hf, a6⟩ := a6
                cases a6
                simp at hd1
                rw [hd1.2] at hf; cases hf
              · simp only [bind_eq_ok] at a6
                obtain ⟨s, _, _, hf, a6⟩ := a6
                cases a6
                simp at hd1
                rw [hd1.2] at hf; cases hf
    · omega
  · obtain ⟨d1, t1, t2, t3, t4, t5, t6, t7⟩ := h.take hfirst
    obtain ⟨f1, f2⟩ := h.code_fits hfirst
    rcases h.idx with ⟨h1, _⟩ | ⟨h1, h2, h3, h4, h5⟩
    · exact absurd h1 hfirst
    have hini := initials_lt c
    have hnei : ¬ initials c = dms := by omega
    have hwrite := st.w.write_inv st.i h.winv (by omega) f1
    have hsteps : Steps dms (Dec.init dms) (st.w.log ++ [(st.i, st.w.bits)]) d1 :=
      h.steps.snoc h.dbits t7 f1 f2 t6 t1
    obtain ⟨topA, topB⟩ := top_after t2 (by rw [t5]; exact h.wbits) ⟨hle1, hle2⟩
    by_cases hfull : st.vn.length = dms
    · -- dictionary reset
      have hi256 := h4 hfull
      have hres := NodeInv.reset dms (by omega)
      rcases searchAndInsert_spec hres (by rw [resetNodes_length]; omega) st.i c (by simp only [List.length_nil]; omega) h2 with
        ⟨j', hj', _⟩ | ⟨vn', hv1, hv2⟩
      · simp at hj'
      · obtain ⟨topB1, topB2⟩ := topB (by omega)
        have hv2l := hv2.len
        simp only [List.nil_append] at hv2
        refine ⟨⟨vn', initials c, { (if requiredBits (vn'.length - 1) > (st.w.write st.i).bits then
              { (st.w.write st.i) with bits := (st.w.write st.i).bits + 1 } else st.w.write st.i) with bits := 9 }⟩,
            d1, [(st.i, c)], [], ?_, ?_⟩
        · simp [encStep, hfull, hv1]
        · refine ⟨hv2, ?_, ?_, ?_, topB2, by simp [requiredBits_257], Or.inr ?_⟩
          · simp only; split <;> exact hwrite
          · simp only
            have : ∀ p : Prop, ∀ [Decidable p], (if p then { (st.w.write st.i) with bits := (st.w.write st.i).bits + 1 } else st.w.write st.i).log
                = st.w.log ++ [(st.i, st.w.bits)] := by
              intro p _; split <;> simp [Writer.write_log]
            rw [this]; exact hsteps
          · rw [topB1]; simp
          · refine ⟨by simp only [List.length_singleton]; omega, by simp only; omega, ?_, fun _ => hini, Or.inr ⟨by rw [t3]; simp only [List.length_nil]; omega, by rw [t3]; exact h2, c, ?_, ?_⟩⟩
            · simp only; rw [t4, expand_initials]
            · simp [t3]
            · simp only; rw [expand_initials]; rfl
    · rcases searchAndInsert_spec h.node (by omega) st.i c h1 h2 with ⟨j', hj', hs⟩ | ⟨vn', hv1, hv2⟩
      · -- the longer string is in the dictionary
        have hjl := (List.getElem?_eq_some_iff.mp hj').1
        have hjne : ¬ 257 + j' = dms := by omega
        have hxe := expand_entry ents hwf j' _ _ hj'
        refine ⟨⟨st.vn, 257 + j', st.w⟩, d, ents, dents, ?_, h.node, h.winv, h.steps, h.dict, h.dbits, h.wbits, Or.inr ?_⟩
        · simp [encStep, hfull, hs, hjne]
        · refine ⟨by simp only; omega, by simp only; omega, ?_, fun hh => absurd hh hfull, ?_⟩
          · simp only; rw [hxe, h3, List.append_assoc]
          · rcases h5 with h5 | ⟨h5, h6, b, h7, h8⟩
            · exact Or.inl h5
            · refine Or.inr ⟨h5, h6, b, h7, ?_⟩
              simp only; rw [hxe, List.head?_append, h8]; rfl
      · -- new entry, the code is written
        have hv2l := hv2.len
        simp only [List.length_append, List.length_singleton] at hv2l
        obtain ⟨topA1, topA2⟩ := topA (by omega)
        have hvl : vn'.length - 1 = 257 + ents.length := by omega
        have hws := width_step h.wbits hle1 hle2
        refine ⟨⟨vn', initials c, { (st.w.write st.i) with bits := requiredBits (257 + ents.length) }⟩,
            d1, ents ++ [(st.i, c)], ents, ?_, ?_⟩
        · simp only [encStep, hfull, decide_false, if_false, hv1, bind_ok, if_true, hvl, Bool.false_eq_true]
          have hw : ∀ w : Writer, w.bits = st.w.bits →
              (if requiredBits (257 + ents.length) > w.bits then { w with bits := w.bits + 1 } else w)
              = { w with bits := requiredBits (257 + ents.length) } := by
            intro w hw
            rw [← hw] at hws
            split at hws
            · rename_i hc; rw [if_pos hc, hws]
            · rename_i hc; rw [if_neg hc, ← hws]
          rw [hw _ (Writer.write_bits _ _)]
        · refine ⟨hv2, hwrite, ?_, topA1, topA2, rfl, Or.inr ?_⟩
          · simp only [Writer.write_log]; exact hsteps
          · refine ⟨by simp only [List.length_append, List.length_singleton]; omega, by simp only; omega, ?_, fun _ => hini, Or.inr ⟨by rw [t3]; exact h1, by rw [t3]; exact h2, c, by rw [t3], ?_⟩⟩
            · simp only; rw [t4, expand_initials]
            · simp only; rw [expand_initials]; rfl

theorem Sim.loop {dms consumed st d ents dents} (hdms : 258 ≤ dms) (h : Sim dms consumed st d ents dents) (s : List Byte) :
    ∃ st' d' ents' dents', encLoop dms st s = ok st' ∧ Sim dms (consumed ++ s) st' d' ents' dents' := by
  induction s generalizing consumed st d ents dents with
  | nil => exact ⟨st, d, ents, dents, rfl, by simpa using h⟩
  | cons c s ih =>
    obtain ⟨st1, d1, e1, g1, a1, a2⟩ := h.step hdms c
    obtain ⟨st2, d2, e2, g2, b1, b2⟩ := ih a2
    refine ⟨st2, d2, e2, g2, ?_, by simpa using b2⟩
    rw [encLoop, a1, bind_ok, b1]

/-- Everything about the end of an encoder run: the codes written are data codes that the decoder accepts and that
reproduce the input, then one Eof. -/
theorem finish_spec (dms : Nat) (hdms : 258 ≤ dms) (s : List Byte) :
    ∃ st d cs wd, encLoop dms (Enc.init dms) s = ok st ∧ (encFinish dms st).Inv ∧
      (encFinish dms st).log = cs ++ [(eof, wd)] ∧ 9 ≤ wd ∧ (∀ k w, (k, w) ∈ cs → k < 2 ^ w ∧ k ≠ eof) ∧
      Steps dms (Dec.init dms) cs d ∧ d.out = s ∧ 9 ≤ (d.top dms).bits := by
  obtain ⟨st, d, ents, dents, h1, h2⟩ := (Sim.init dms hdms).loop hdms s
  rw [List.nil_append] at h2
  have h9 : 9 ≤ st.w.bits := by
    rw [h2.wbits, ← requiredBits_257]; exact requiredBits_mono (by omega)
  have heof : eof < 2 ^ st.w.bits :=
    Nat.lt_of_lt_of_le (by decide : eof < 2 ^ 9) (Nat.pow_le_pow_right (by decide) h9)
  have hsteps : ∀ {d d' : Dec} {cs : List (Nat × Nat)}, Steps dms d cs d' → ∀ k w, (k, w) ∈ cs → k < 2 ^ w ∧ k ≠ eof := by
    intro d d' cs h
    induction h with
    | nil => simp
    | cons d d1 d2 k w cs a1 a2 a3 a4 a5 a6 a7 ih =>
      intro k' w' hm
      rcases List.mem_cons.mp hm with hm | hm
      · cases hm; exact ⟨a3, a2⟩
      · exact ih k' w' hm
  by_cases hi : st.i = dms
  · refine ⟨st, d, st.w.log, st.w.bits, h1, ?_, ?_, h9, hsteps h2.steps, h2.steps, ?_, by rw [h2.dbits]; exact h9⟩
    · simp only [encFinish, hi, ne_eq, not_true_eq_false, if_false]
      exact st.w.write_inv eof h2.winv (by omega) heof
    · simp [encFinish, hi, Writer.write_log]
    · rcases h2.idx with ⟨_, rfl, _, _, h⟩ | ⟨h, _⟩
      · exact h
      · have := h2.node.len; have := h2.node.cap; omega
  · obtain ⟨d1, t1, t2, t3, t4, t5, t6, t7⟩ := h2.take hi
    obtain ⟨f1, f2⟩ := h2.code_fits hi
    have hs := h2.steps.snoc h2.dbits t7 f1 f2 t6 t1
    refine ⟨st, d1, _, st.w.bits, h1, ?_, ?_, h9, hsteps hs, hs, t4, ?_⟩
    · simp only [encFinish, hi, ne_eq, not_false_eq_true, if_true]
      exact Writer.write_inv _ eof (st.w.write_inv st.i h2.winv (by omega) f1)
        (by rw [Writer.write_bits]; omega) (by rw [Writer.write_bits]; exact heof)
    · simp [encFinish, hi, Writer.write_log, Writer.write_bits]
    · obtain ⟨hle1, hle2⟩ := h2.le_ents
      obtain ⟨topA, topB⟩ := top_after t2 (by rw [t5]; exact h2.wbits) ⟨hle1, hle2⟩
      by_cases hx : 257 + ents.length = dms
      · rw [(topB hx).2]; omega
      · rw [(topA hx).2, ← requiredBits_257]; exact requiredBits_mono (by omega)

theorem bytesVal_take (l : List Byte) (n : Nat) : bytesVal (l.take n) = bytesVal l % 2 ^ (8 * (l.take n).length) := by
  have h := bytesVal_append (l.take n) (l.drop n)
  rw [List.take_append_drop] at h
  rw [h, pow256, Nat.add_mul_mod_self_left, Nat.mod_eq_of_lt (bytesVal_lt _)]

/-- Decoding a byte prefix of the compressed form. -/
theorem decompress_take (dms : Nat) (hdms : 258 ≤ dms) (s out : List Byte) (h : compress dms s = ok out) (n : Nat) :
    ∃ o st, decompress dms (out.take n) = ok (o, st) ∧ o <+: s ∧ (out.length ≤ n → o = s ∧ st = 0) := by
  obtain ⟨est, d, cs, wd, h1, h2, h3, h4, h5, h6, h7, h8⟩ := finish_spec dms hdms s
  rw [compress, h1, bind_ok] at h
  cases h
  obtain ⟨v1, v2⟩ := Writer.flushed_val _ h2
  generalize hout : (encFinish dms est).flushed = out at *
  rw [h3] at v1 v2
  have hlen : (⟨out.take n, 0, 0⟩ : Reader).len = 8 * (out.take n).length := by simp [Reader.len]
  have hval : (⟨out.take n, 0, 0⟩ : Reader).val = codesVal (cs ++ [(eof, wd)]) % 2 ^ (⟨out.take n, 0, 0⟩ : Reader).len := by
    rw [hlen, ← v1, ← bytesVal_take]; simp [Reader.val]
  have hs := decLoop_stream h6 [(eof, wd)] ⟨out.take n, 0, 0⟩ (8 * (out.take n).length + 1)
    (by simp [Reader.Inv]) (by rw [hlen]; omega) hval
  rw [codesLen_append] at v2
  simp only [codesLen] at v2
  rcases hs with ⟨a0, r', fuel', a1, a2, a3, a4, a5⟩ | ⟨a0, o, st, a1, a2⟩
  · simp only [codesVal, Nat.mul_zero, Nat.add_zero] at a2
    obtain ⟨fuel', rfl⟩ : ∃ f, fuel' = f + 1 := ⟨fuel' - 1, by omega⟩
    rw [decompress, a1, decLoop]
    by_cases hl : (d.top dms).bits ≤ r'.len
    · obtain ⟨b1, b2, b3, b4, b5, b6⟩ := r'.read_full _ a5 (by omega) hl
      have e1 : r'.val = eof := by
        rw [a2]; apply Nat.mod_eq_of_lt
        exact Nat.lt_of_lt_of_le (by decide : eof < 2 ^ 9) (Nat.pow_le_pow_right (by decide) (by omega))
      have e2 : r'.val % 2 ^ (d.top dms).bits = eof := by
        rw [e1]; apply Nat.mod_eq_of_lt
        exact Nat.lt_of_lt_of_le (by decide : eof < 2 ^ 9) (Nat.pow_le_pow_right (by decide) (by omega))
      rw [e2] at b5 b6
      simp only [b6, b5, ne_eq, not_true_eq_false, decide_false, if_true, decide_true]
      exact ⟨_, _, rfl, by rw [top_out, h7]; exact List.prefix_rfl, fun _ => ⟨by rw [top_out, h7], rfl⟩⟩
    · obtain ⟨b1, b2⟩ := r'.read_short (d.top dms).bits a5 (by omega)
      simp only [b1, if_true]
      refine ⟨_, _, rfl, by rw [top_out, h7]; exact List.prefix_rfl, fun hn => ⟨by rw [top_out, h7], ?_⟩⟩
      have e1 : r'.val = eof := by
        rw [a2]; apply Nat.mod_eq_of_lt
        have : 9 ≤ r'.len := by
          rw [a3, hlen, List.take_of_length_le hn]; omega
        exact Nat.lt_of_lt_of_le (by decide : eof < 2 ^ 9) (Nat.pow_le_pow_right (by decide) this)
      rw [b2, e1]; rfl
  · refine ⟨o, st, a1, by rw [← h7]; exact a2, fun hn => ?_⟩
    rw [hlen, List.take_of_length_le hn] at a0
    omega

end Verif.Lzw
