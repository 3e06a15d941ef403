import Verif.Lzw.Props
/-!
# When exactly the decoder is undefined (C03)

The streams on which `lzw::decompress` has undefined behaviour, told from the codes in the stream alone.
-/
namespace Verif.Lzw
open Verif Res

/-! ### the specification -/

/-- The number of entries the dictionary has when code number `j` of a stream is read: 257 at the first two codes, one more at every further one, and 257 again
whenever the capacity is reached. -/
def sizeAt (dms j : Nat) : Nat := 257 + (j - 1) % (dms - 257)

/-- The codes in `len` bits that stand for the number `v`, from code number `j` on: each has as many bits as it takes to write the number of entries. -/
def codes (dms j v len : Nat) : List Nat :=
  if h : len < requiredBits (sizeAt dms j) ∨ requiredBits (sizeAt dms j) = 0 then []
  else v % 2 ^ requiredBits (sizeAt dms j) :: codes dms (j + 1) (v / 2 ^ requiredBits (sizeAt dms j)) (len - requiredBits (sizeAt dms j))
termination_by len
decreasing_by omega

/-- The codes that are decoded: up to the end code 256, or to one that is larger than the number of entries. -/
def decoded (dms : Nat) : Nat → List Nat → List Nat
  | _, [] => []
  | j, k :: ks => if k = 256 ∨ sizeAt dms j < k then [] else k :: decoded dms (j + 1) ks

/-- The codes of a stream that are decoded. -/
def streamCodes (dms : Nat) (inp : List Byte) : List Nat := decoded dms 0 (codes dms 0 (bytesVal inp) (8 * inp.length))

/-- The first code is 257; or some later code is 257, and the code read last before the dictionary was last emptied is 257, or is one that the dictionary does
not have yet. -/
def Dangling (dms : Nat) (cs : List Nat) : Prop :=
  cs[0]? = some 257 ∨ ∃ j p, 1 ≤ j ∧ cs[j]? = some 257 ∧ cs[j - (sizeAt dms j - 257) - 1]? = some p ∧ (p = 257 ∨ sizeAt dms j ≤ p)

/-! ### chains -/

/-- The entries since the dictionary was emptied, when the code read last before was `p`. -/
structure Chains (ents : List (Nat × Byte)) (p : Nat) : Prop where
  zero : ∀ e, ents[0]? = some e → e.1 = p
  later : ∀ m e, 1 ≤ m → ents[m]? = some e → e.1 < 257 + m ∧ e.1 ≠ 256
  clean : 257 ≤ p → ∀ m e, 1 ≤ m → ents[m]? = some e → e.1 = 257 → p < 257 + m ∧ p ≠ 257
  pne : p ≠ 256

/-- Codes whose text can be put together. -/
def Sound (n p k : Nat) : Prop := k < 257 + n ∧ k ≠ 256 ∧ (k = 257 → p < 256 ∨ (257 < p ∧ p < 257 + n))

/-- Decreases along chains. -/
def depth (p k : Nat) : Nat :=
  if k < 256 then 0 else if p < 256 then k - 256 else if k = 257 then p - 256 else if k ≤ p then k - 257 else k - 256

theorem depth_self {p : Nat} (h : 257 < p) : depth p p = p - 257 := by
  unfold depth
  rw [if_neg (show ¬ p < 256 by omega), if_neg (show ¬ p < 256 by omega), if_neg (show ¬ p = 257 by omega), if_pos (Nat.le_refl p)]

theorem depth_257 {p : Nat} (h : 257 < p) : depth p 257 = p - 256 := by
  unfold depth
  rw [if_neg (show ¬ 257 < 256 by omega), if_neg (show ¬ p < 256 by omega), if_pos rfl]

theorem depth_step {p e k : Nat} (hek : e < k) (hk : 257 < k) (he : e ≠ 256) (hp : p ≠ 256) (hc : 257 ≤ p → e = 257 → p < k) : depth p e < depth p k := by
  unfold depth
  rw [if_neg (show ¬ k < 256 by omega), if_neg (show ¬ k = 257 by omega)]
  by_cases h1 : e < 256
  · rw [if_pos h1]
    by_cases h2 : p < 256
    · rw [if_pos h2]
      omega
    · rw [if_neg h2]
      by_cases h3 : k ≤ p
      · rw [if_pos h3]
        omega
      · rw [if_neg h3]
        omega
  · rw [if_neg h1]
    by_cases h2 : p < 256
    · rw [if_pos h2, if_pos h2]
      omega
    · rw [if_neg h2, if_neg h2]
      by_cases h4 : e = 257
      · have := hc (by omega) h4
        rw [if_pos h4, if_neg (by omega)]
        omega
      · rw [if_neg h4]
        by_cases h3 : k ≤ p
        · rw [if_pos h3, if_pos (by omega)]
          omega
        · rw [if_neg h3]
          split <;> omega

theorem chain_ok {dms : Nat} {ents : List (Nat × Byte)} {p : Nat} (h : Chains ents p) (hd : 257 + ents.length ≤ dms) :
    ∀ (fuel k : Nat) (acc : List Byte), Sound ents.length p k → depth p k + 1 < fuel → ∃ s, s ≠ [] ∧ rebuild dms (resetDict dms ++ ents) fuel k acc = ok (s ++ acc) := by
  intro fuel
  induction fuel with
  | zero => intro k acc _ hf; omega
  | succ fuel ih =>
    intro k acc hk hf
    obtain ⟨k1, k2, k3⟩ := hk
    have hfin : ∀ acc : List Byte, 1 ≤ fuel → rebuild dms (resetDict dms ++ ents) fuel dms acc = ok acc := by
      intro acc hf
      obtain ⟨f, rfl⟩ : ∃ f, fuel = f + 1 := ⟨fuel - 1, by omega⟩
      rw [rebuild, if_pos rfl]
    rw [rebuild, if_neg (by omega)]
    by_cases hb : k < 256
    · rw [rd_ok (by rw [List.getElem?_append_left (by rw [resetDict_length]; omega)]; exact resetDict_get dms k hb), bind_ok]
      dsimp only
      rw [hfin _ (by omega)]
      exact ⟨[_], by simp, rfl⟩
    · have hlt : k - 257 < ents.length := by omega
      obtain ⟨⟨e, b⟩, he⟩ : ∃ e, ents[k - 257]? = some e := ⟨_, List.getElem?_eq_getElem hlt⟩
      rw [rd_ok (v := (e, b)) (by rw [List.getElem?_append_right (by rw [resetDict_length]; omega), resetDict_length]; exact he), bind_ok]
      dsimp only
      have hs : Sound ents.length p e ∧ depth p e < depth p k := by
        by_cases h0 : k = 257
        · subst h0
          have hep : e = p := h.zero _ he
          subst hep
          have hp := h.pne
          rcases k3 rfl with h1 | ⟨h1, h2⟩
          · refine ⟨⟨by omega, by omega, by omega⟩, ?_⟩
            unfold depth
            rw [if_pos h1, if_neg (by omega), if_pos h1]
            omega
          · refine ⟨⟨h2, by omega, by omega⟩, ?_⟩
            have a1 := depth_self h1
            have a2 := depth_257 h1
            omega
        · have hl := h.later (k - 257) _ (by omega) he
          dsimp only at hl
          have hc := fun hp => h.clean hp (k - 257) _ (by omega) he
          dsimp only at hc
          refine ⟨⟨?_, hl.2, ?_⟩, ?_⟩
          · have := hl.1
            omega
          · intro e1
            by_cases hp : p < 256
            · exact Or.inl hp
            · have hpn := h.pne
              have := hc (by omega) e1
              exact Or.inr ⟨by omega, by omega⟩
          · have hpne := h.pne
            have hcc : 257 ≤ p → e = 257 → p < k := fun hp e1 => by have := hc hp e1; omega
            have hek : e < k := by omega
            have hk7 : 257 < k := by omega
            have he6 := hl.2
            clear hc ih hfin hl k3 hf he
            exact depth_step hek hk7 he6 hpne hcc
      obtain ⟨s, hs0, hs1⟩ := ih e (b :: acc) hs.1 (by omega)
      exact ⟨s ++ [b], by simp, by rw [hs1]; simp⟩

theorem depth_lt {p k n : Nat} (h : Sound n p k) : depth p k ≤ n := by
  obtain ⟨h1, h2, h3⟩ := h
  unfold depth
  split
  · omega
  · split
    · omega
    · split
      · rename_i h4
        rcases h3 h4 with h5 | h5 <;> omega
      · split <;> omega

theorem text_ok {dms : Nat} {ents : List (Nat × Byte)} {p : Nat} (h : Chains ents p) (hd : 257 + ents.length ≤ dms) {k : Nat} (hk : Sound ents.length p k) :
    ∃ s b, rebuild dms (resetDict dms ++ ents) ((resetDict dms ++ ents).length + 1) k [] = ok s ∧ front s = ok b := by
  have := depth_lt hk
  obtain ⟨s, h1, h2⟩ := chain_ok h hd ((resetDict dms ++ ents).length + 1) k [] hk (by rw [List.length_append, resetDict_length]; omega)
  obtain ⟨b, hb⟩ := exists_front h1
  exact ⟨s, b, by rw [h2, List.append_nil], hb⟩

/-- A chain that leads out of the dictionary, or to itself. -/
theorem text_ub {dms : Nat} {ents : List (Nat × Byte)} {p : Nat} (h : Chains ents p) (hd : 257 + ents.length < dms) (hn : ents ≠ []) (hpd : p < dms) (hp : p = 257 ∨ 257 + ents.length ≤ p) :
    ∀ (fuel : Nat) (acc : List Byte), rebuild dms (resetDict dms ++ ents) fuel 257 acc = ub := by
  intro fuel
  induction fuel with
  | zero => intro acc; rfl
  | succ fuel ih =>
    intro acc
    have hlt : 0 < ents.length := List.length_pos_iff.mpr hn
    obtain ⟨⟨e, b⟩, he⟩ : ∃ e, ents[0]? = some e := ⟨_, List.getElem?_eq_getElem hlt⟩
    have hep : e = p := h.zero _ he
    subst hep
    rw [rebuild, if_neg (by omega), rd_ok (v := (e, b)) (by rw [List.getElem?_append_right (by rw [resetDict_length]; exact Nat.le_refl _), resetDict_length]; exact he), bind_ok]
    dsimp only
    rcases hp with rfl | hp
    · exact ih _
    · cases fuel with
      | zero => rfl
      | succ f =>
        rw [rebuild, if_neg (by omega), rd_ub (by rw [List.length_append, resetDict_length]; omega)]
        rfl

/-! ### the loop -/

/-- The state after `top`, when code number `j` is read; `p` is the code read last before the dictionary was emptied. -/
structure At (dms j p : Nat) (d : Dec) (ents : List (Nat × Byte)) : Prop where
  dict : d.dict = resetDict dms ++ ents
  len : 257 + ents.length = sizeAt dms j
  bits : d.bits = requiredBits (sizeAt dms j)
  chains : Chains ents p
  first : j = 0 → d.i = dms ∧ ents = []
  pend : 1 ≤ j → d.i < dms ∧ d.i ≠ 256 ∧ p < dms ∧ (ents = [] → d.i = p) ∧ (ents ≠ [] → d.i < 257 + ents.length ∧ (d.i = 257 → 257 ≤ p → p + 1 < 257 + ents.length ∧ p ≠ 257))

theorem size_lt {dms : Nat} (hd : 258 ≤ dms) (j : Nat) : sizeAt dms j < dms := by
  unfold sizeAt
  have := Nat.mod_lt (j - 1) (show 0 < dms - 257 by omega)
  omega

/-- The size at the next code. -/
theorem size_next {dms : Nat} (hd : 258 ≤ dms) {j : Nat} (hj : 1 ≤ j) :
    (sizeAt dms j + 1 = dms → sizeAt dms (j + 1) = 257) ∧ (sizeAt dms j + 1 ≠ dms → sizeAt dms (j + 1) = sizeAt dms j + 1) := by
  unfold sizeAt
  obtain ⟨i, rfl⟩ : ∃ i, j = i + 1 := ⟨j - 1, by omega⟩
  simp only [Nat.add_sub_cancel]
  have hP : 0 < dms - 257 := by omega
  generalize hPd : dms - 257 = P at hP ⊢
  have h1 := Nat.add_mod i 1 P
  have hm := Nat.mod_lt i hP
  constructor
  · intro h
    have hi : i % P + 1 = P := by omega
    have h2 : (i + 1) % P = (i % P + 1) % P := by rw [Nat.mod_add_mod]
    rw [h2, hi, Nat.mod_self]
  · intro h
    have h2 : (i + 1) % P = (i % P + 1) % P := by rw [Nat.mod_add_mod]
    rw [h2, Nat.mod_eq_of_lt (by omega)]
    omega

/-- One code, when it is decoded. -/
def Bad (dms j p k : Nat) : Prop := k = 257 ∧ (j = 0 ∨ p = 257 ∨ sizeAt dms j ≤ p)

theorem take_ub {dms j p k : Nat} (hd : 258 ≤ dms) {d : Dec} {ents : List (Nat × Byte)} (h : At dms j p d ents) (hb : Bad dms j p k) : d.take dms k = ub := by
  obtain ⟨rfl, hb⟩ := hb
  have hs := size_lt hd j
  have hl := h.len
  have hdl : d.dict.length = 257 + ents.length := by rw [h.dict, List.length_append, resetDict_length]
  by_cases hj : j = 0
  · obtain ⟨h1, h2⟩ := h.first hj
    subst h2
    rw [Dec.take, if_pos (by rw [hdl]; rfl), h1, rebuild, if_pos rfl]
    rfl
  · obtain ⟨q1, q2, q3, q4, q5⟩ := h.pend (by omega)
    have hb : p = 257 ∨ sizeAt dms j ≤ p := by omega
    by_cases he : ents = []
    · subst he
      simp only [List.length_nil, Nat.add_zero] at hl hdl
      rw [Dec.take, if_pos (by rw [hdl]), q4 rfl, rebuild, if_neg (by omega), rd_ub (by rw [hdl]; omega)]
      rfl
    · have hpos := List.length_pos_iff.mpr he
      rw [Dec.take, if_neg (by rw [hdl]; omega), h.dict, text_ub h.chains (by omega) he q3 (by omega)]
      rfl

theorem take_ok {dms j p k : Nat} (hd : 258 ≤ dms) {d : Dec} {ents : List (Nat × Byte)} (h : At dms j p d ents) (hk : k ≤ sizeAt dms j) (hk6 : k ≠ 256) (hb : ¬ Bad dms j p k) :
    ∃ d' p' ents', d.take dms k = ok d' ∧ At dms (j + 1) p' (d'.top dms) ents' ∧ p' = if sizeAt dms (j + 1) = 257 then k else p := by
  have hs := size_lt hd j
  have hl := h.len
  have hdl : d.dict.length = 257 + ents.length := by rw [h.dict, List.length_append, resetDict_length]
  by_cases hj : j = 0
  · -- the first code
    obtain ⟨h1, h2⟩ := h.first hj
    subst h2
    subst hj
    have hk7 : k ≠ 257 := fun e => hb ⟨e, Or.inl rfl⟩
    simp only [List.length_nil, Nat.add_zero] at hl hdl
    have hsz1 : sizeAt dms 1 = 257 := by unfold sizeAt; simp
    obtain ⟨s, b, t1, t2⟩ := text_ok (dms := dms) h.chains (by simp; omega) (k := k) ⟨by simp; omega, hk6, by omega⟩
    refine ⟨{ d with i := k, out := d.out ++ s }, k, [], ?_, ⟨?_, by simp [hsz1], ?_, ?_, by omega, ?_⟩, by rw [hsz1]; rfl⟩
    · rw [Dec.take, if_neg (by omega), h.dict, t1, bind_ok, t2, bind_ok]
      simp [h1]
    · rw [top_ne (by simp only; omega)]
      exact h.dict
    · rw [top_ne (by simp only; omega)]
      have := h.bits
      rw [← hl] at this
      simp only [hdl, hsz1, this]
      simp
    · exact ⟨by simp, by simp, by simp, hk6⟩
    · intro _
      rw [top_i]
      refine ⟨by simp only; omega, hk6, by omega, fun _ => rfl, fun hc => absurd rfl hc⟩
  · obtain ⟨q1, q2, q3, q4, q5⟩ := h.pend (by omega)
    have hnb : k = 257 → ¬ (p = 257 ∨ sizeAt dms j ≤ p) := fun e hc => hb ⟨e, Or.inr hc⟩
    have hpne := h.chains.pne
    -- the entry that is added
    have chains' : ∀ b, Chains (ents ++ [(d.i, b)]) p := by
      intro b
      refine ⟨?_, ?_, ?_, hpne⟩
      · intro e he
        by_cases h0 : ents = []
        · subst h0
          simp only [List.nil_append, List.getElem?_cons_zero, Option.some.injEq] at he
          rw [← he]
          exact q4 rfl
        · rw [List.getElem?_append_left (List.length_pos_iff.mpr h0)] at he
          exact h.chains.zero e he
      · intro m e hm he
        by_cases hlt : m < ents.length
        · rw [List.getElem?_append_left hlt] at he
          exact h.chains.later m e hm he
        · have hme : m = ents.length := by
            have := (List.getElem?_eq_some_iff.mp he).1
            simp at this
            omega
          subst hme
          rw [List.getElem?_append_right (Nat.le_refl _)] at he
          simp only [Nat.sub_self, List.getElem?_cons_zero, Option.some.injEq] at he
          rw [← he]
          exact ⟨(q5 (by intro h0; rw [h0] at hm; simp at hm)).1, q2⟩
      · intro hp m e hm he e7
        by_cases hlt : m < ents.length
        · rw [List.getElem?_append_left hlt] at he
          exact h.chains.clean hp m e hm he e7
        · have hme : m = ents.length := by
            have := (List.getElem?_eq_some_iff.mp he).1
            simp at this
            omega
          subst hme
          rw [List.getElem?_append_right (Nat.le_refl _)] at he
          simp only [Nat.sub_self, List.getElem?_cons_zero, Option.some.injEq] at he
          rw [← he] at e7
          have := (q5 (by intro h0; rw [h0] at hm; simp at hm)).2 e7 hp
          omega
    -- the result
    have fin : ∀ (b : Byte) (o : List Byte), ∃ p' ents', At dms (j + 1) p' (({ d with dict := d.dict ++ [(d.i, b)], i := k, out := o } : Dec).top dms) ents' ∧ p' = if sizeAt dms (j + 1) = 257 then k else p := by
      intro b o
      obtain ⟨n1, n2⟩ := size_next hd (show 1 ≤ j by omega)
      obtain ⟨u1, u2⟩ := top_after (dms := dms) (d1 := { d with dict := d.dict ++ [(d.i, b)], i := k, out := o }) (ents := ents ++ [(d.i, b)]) (n := ents.length)
        (by simp only; rw [h.dict, List.append_assoc]) (by simp only; rw [h.bits, hl]) (by simp)
      have hlen : 257 + (ents ++ [(d.i, b)]).length = sizeAt dms j + 1 := by simp; omega
      rw [hlen] at u1 u2
      by_cases hfull : sizeAt dms j + 1 = dms
      · refine ⟨k, [], ⟨by rw [(u2 hfull).1]; simp, by simp [n1 hfull], by rw [(u2 hfull).2, n1 hfull, requiredBits_257], ⟨by simp, by simp, by simp, hk6⟩, by omega, ?_⟩, by rw [n1 hfull]; rfl⟩
        intro _
        rw [top_i]
        exact ⟨by simp only; omega, hk6, by omega, fun _ => rfl, fun hc => absurd rfl hc⟩
      · have hne : sizeAt dms (j + 1) ≠ 257 := by rw [n2 hfull]; omega
        refine ⟨p, ents ++ [(d.i, b)], ⟨(u1 hfull).1, by rw [hlen, n2 hfull], by rw [(u1 hfull).2, n2 hfull], chains' b, by omega, ?_⟩, by rw [if_neg hne]⟩
        intro _
        rw [top_i]
        refine ⟨by simp only; omega, hk6, q3, fun hc => by simp at hc, fun _ => ⟨by simp only; omega, fun e7 hp => ?_⟩⟩
        have := hnb e7
        simp only [List.length_append, List.length_singleton]
        omega
    by_cases hks : k = d.dict.length
    · -- the code that is not there yet
      have hi : Sound ents.length p d.i := by
        by_cases h0 : ents = []
        · have hip := q4 h0
          subst h0
          simp only [List.length_nil, Nat.add_zero] at hl hdl
          have := hnb (by omega)
          exact ⟨by simp; omega, q2, by omega⟩
        · obtain ⟨r1, r2⟩ := q5 h0
          refine ⟨r1, q2, fun e7 => ?_⟩
          by_cases hp : p < 256
          · exact Or.inl hp
          · have := r2 e7 (by omega)
            exact Or.inr ⟨by omega, by omega⟩
      obtain ⟨s, b, t1, t2⟩ := text_ok (dms := dms) h.chains (by omega) hi
      have hk2 : Sound (ents ++ [(d.i, b)]).length p k := by
        refine ⟨by simp; omega, hk6, fun e7 => ?_⟩
        have := hnb e7
        by_cases hp : p < 256
        · exact Or.inl hp
        · omega
      obtain ⟨s', b', t3, t4⟩ := text_ok (dms := dms) (chains' b) (by simp; omega) hk2
      obtain ⟨p', ents', f1, f2⟩ := fin b (d.out ++ s')
      refine ⟨_, p', ents', ?_, f1, f2⟩
      rw [Dec.take, if_pos hks, h.dict, t1, bind_ok, t2, bind_ok]
      simp only [List.append_assoc]
      rw [t3, bind_ok, t4, bind_ok]
    · have hk2 : Sound ents.length p k := by
        refine ⟨by omega, hk6, fun e7 => ?_⟩
        have := hnb e7
        by_cases hp : p < 256
        · exact Or.inl hp
        · exact Or.inr ⟨by omega, by omega⟩
      obtain ⟨s, b, t1, t2⟩ := text_ok (dms := dms) h.chains (by omega) hk2
      obtain ⟨p', ents', f1, f2⟩ := fin b (d.out ++ s)
      refine ⟨_, p', ents', ?_, f1, f2⟩
      rw [Dec.take, if_neg hks, h.dict, t1, bind_ok, t2, bind_ok]
      simp only [show d.i ≠ dms by omega, ne_eq, not_false_eq_true, if_true]

/-- Some code from number `j` on makes the decoder undefined; `p` as in `At`. -/
def BadFrom (dms : Nat) : Nat → Nat → List Nat → Prop
  | _, _, [] => False
  | j, p, k :: ks => Bad dms j p k ∨ BadFrom dms (j + 1) (if sizeAt dms (j + 1) = 257 then k else p) ks

theorem bits_ge {dms : Nat} (j : Nat) : 9 ≤ requiredBits (sizeAt dms j) := by
  rw [← requiredBits_257]
  exact requiredBits_mono (by unfold sizeAt; omega)

theorem loop_exact {dms : Nat} (hd : 258 ≤ dms) (fuel : Nat) {j p : Nat} {d : Dec} {ents : List (Nat × Byte)} (h : At dms j p (d.top dms) ents) (r : Reader) (hr : r.Inv) (hf : r.len < fuel) :
    (BadFrom dms j p (decoded dms j (codes dms j r.val r.len)) → decLoop dms fuel d r = ub) ∧
    (¬ BadFrom dms j p (decoded dms j (codes dms j r.val r.len)) → ∃ o st, decLoop dms fuel d r = ok (o, st)) := by
  induction fuel generalizing j p d ents r with
  | zero => omega
  | succ fuel ih =>
    have hw := bits_ge (dms := dms) j
    have hdl : (d.top dms).dict.length = sizeAt dms j := by rw [h.dict, List.length_append, resetDict_length, h.len]
    rw [decLoop, codes]
    rw [h.bits, hdl]
    by_cases hl : r.len < requiredBits (sizeAt dms j)
    · rw [dif_pos (Or.inl hl), (r.read_short _ hr hl).1]
      exact ⟨fun hc => hc.elim, fun _ => ⟨_, _, rfl⟩⟩
    · rw [dif_neg (by omega)]
      obtain ⟨b1, b2, b3, b4, b5, b6⟩ := r.read_full (requiredBits (sizeAt dms j)) hr (by omega) (by omega)
      rw [b1, b6, decoded]
      generalize hk : r.val % 2 ^ requiredBits (sizeAt dms j) = k at *
      by_cases hk6 : k = 256
      · rw [if_pos (show k = 256 ∨ sizeAt dms j < k from Or.inl hk6), if_pos (show decide (k ≠ eof) = false by simp [hk6, eof])]
        exact ⟨fun hc => hc.elim, fun _ => ⟨_, _, rfl⟩⟩
      · rw [if_neg (show ¬ decide (k ≠ eof) = false by simp [hk6, eof])]
        by_cases hks : sizeAt dms j < k
        · rw [if_pos (Or.inr hks), if_pos hks]
          exact ⟨fun hc => hc.elim, fun _ => ⟨_, _, rfl⟩⟩
        · rw [if_neg (show ¬ (k = 256 ∨ sizeAt dms j < k) from fun hc => hc.elim hk6 hks), if_neg hks, BadFrom]
          by_cases hb : Bad dms j p k
          · rw [take_ub hd h hb]
            exact ⟨fun _ => rfl, fun hc => absurd (Or.inl hb) hc⟩
          · obtain ⟨d', p', ents', t1, t2, t3⟩ := take_ok hd h (by omega) hk6 hb
            rw [t1, bind_ok, ← t3, ← b2, ← b3]
            have := ih t2 (r.read (requiredBits (sizeAt dms j))).rdr b4 (by omega)
            exact ⟨fun hc => this.1 (hc.resolve_left hb), fun hc => this.2 fun h2 => hc (Or.inr h2)⟩

/-- `BadFrom` in terms of places in the whole list. -/
theorem badFrom_iff {dms : Nat} (hd : 258 ≤ dms) (pre ks : List Nat) (p : Nat)
    (hp : 1 ≤ pre.length → pre[pre.length - (sizeAt dms pre.length - 257) - 1]? = some p) :
    BadFrom dms pre.length p ks ↔ ∃ m, pre.length ≤ m ∧ (pre ++ ks)[m]? = some 257 ∧
      (m = 0 ∨ ∃ q, (pre ++ ks)[m - (sizeAt dms m - 257) - 1]? = some q ∧ (q = 257 ∨ sizeAt dms m ≤ q)) := by
  induction ks generalizing pre p with
  | nil =>
    simp only [BadFrom, List.append_nil, false_iff]
    rintro ⟨m, h1, h2, _⟩
    rw [List.getElem?_eq_none h1] at h2
    cases h2
  | cons k ks ih =>
    rw [BadFrom]
    have hlen : (pre ++ [k]).length = pre.length + 1 := by simp
    have happ : pre ++ k :: ks = (pre ++ [k]) ++ ks := by simp
    have hsz : sizeAt dms pre.length - 257 ≤ pre.length - 1 := by
      unfold sizeAt
      have := Nat.mod_le (pre.length - 1) (dms - 257)
      omega
    have hnext := ih (pre ++ [k]) (if sizeAt dms (pre.length + 1) = 257 then k else p) (by
      intro _
      rw [hlen]
      by_cases h7 : sizeAt dms (pre.length + 1) = 257
      · rw [if_pos h7, h7, show pre.length + 1 - (257 - 257) - 1 = pre.length by omega]
        simp
      · rw [if_neg h7]
        by_cases h0 : pre.length = 0
        · exfalso
          apply h7
          rw [h0]
          unfold sizeAt
          simp
        · obtain ⟨n1, n2⟩ := size_next hd (show 1 ≤ pre.length by omega)
          by_cases hfull : sizeAt dms pre.length + 1 = dms
          · exact absurd (n1 hfull) h7
          · have hge : 257 ≤ sizeAt dms pre.length := by unfold sizeAt; omega
            rw [n2 hfull, show pre.length + 1 - (sizeAt dms pre.length + 1 - 257) - 1 = pre.length - (sizeAt dms pre.length - 257) - 1 by omega,
              List.getElem?_append_left (by omega)]
            exact hp (by omega))
    rw [hlen] at hnext
    rw [hnext, happ]
    have hbad : Bad dms pre.length p k ↔ (pre ++ [k] ++ ks)[pre.length]? = some 257 ∧
        (pre.length = 0 ∨ ∃ q, (pre ++ [k] ++ ks)[pre.length - (sizeAt dms pre.length - 257) - 1]? = some q ∧ (q = 257 ∨ sizeAt dms pre.length ≤ q)) := by
      unfold Bad
      have hk : (pre ++ [k] ++ ks)[pre.length]? = some k := by simp
      rw [hk, Option.some.injEq]
      by_cases h0 : pre.length = 0
      · simp [h0]
      · have := hp (by omega)
        rw [List.append_assoc, List.getElem?_append_left (by omega), this]
        simp [h0]
    rw [hbad]
    constructor
    · rintro (⟨h1, h2⟩ | ⟨m, h1, h2, h3⟩)
      · exact ⟨pre.length, Nat.le_refl _, h1, h2⟩
      · exact ⟨m, by omega, h2, h3⟩
    · rintro ⟨m, h1, h2, h3⟩
      by_cases hm : m = pre.length
      · subst hm
        exact Or.inl ⟨h2, h3⟩
      · exact Or.inr ⟨m, by omega, h2, h3⟩

theorem dangling_iff {dms : Nat} (hd : 258 ≤ dms) (cs : List Nat) (p : Nat) : Dangling dms cs ↔ BadFrom dms 0 p cs := by
  have := badFrom_iff hd [] cs p (by simp)
  simp only [List.length_nil, List.nil_append] at this
  rw [this]
  unfold Dangling
  constructor
  · rintro (h | ⟨j, q, h1, h2, h3, h4⟩)
    · exact ⟨0, Nat.le_refl _, h, Or.inl rfl⟩
    · exact ⟨j, by omega, h2, Or.inr ⟨q, h3, h4⟩⟩
  · rintro ⟨m, _, h2, h3⟩
    by_cases hm : m = 0
    · subst hm
      exact Or.inl h2
    · obtain ⟨q, h4, h5⟩ := h3.resolve_left hm
      exact Or.inr ⟨m, q, by omega, h2, h4, h5⟩

theorem init_at {dms : Nat} (hd : 258 ≤ dms) : At dms 0 0 ((Dec.init dms).top dms) [] := by
  have hs : sizeAt dms 0 = 257 := by unfold sizeAt; simp
  have hl : (Dec.init dms).dict.length = 257 := resetDict_length dms
  refine ⟨?_, by simp [hs], ?_, ⟨by simp, by simp, by simp, by decide⟩, fun _ => ⟨?_, rfl⟩, by omega⟩
  · rw [top_ne (by omega)]
    simp [Dec.init]
  · rw [top_ne (by omega)]
    simp only [hl, hs, requiredBits_257]
    simp [Dec.init]
  · rw [top_i]
    rfl

/-! ### C03 -/

/-- C03, refuted in general: on every stream whose codes dangle, the decoder reads an empty string, reads outside its dictionary, or never ends. -/
theorem lzw_decoder_dangling_violated (dms : Nat) (hdms : 258 ≤ dms) (inp : List Byte) (h : Dangling dms (streamCodes dms inp)) : decompress dms inp = ub := by
  have := (loop_exact hdms (8 * inp.length + 1) (init_at hdms) ⟨inp, 0, 0⟩ ⟨by simp, by simp⟩ (by simp [Reader.len])).1
  rw [← dangling_iff hdms] at this
  have h2 := this (by simpa [Reader.val, Reader.len, streamCodes] using h)
  exact h2

/-- C03 for all other streams: the decoder ends, with a status. -/
theorem lzw_decoder_exact_partial (dms : Nat) (hdms : 258 ≤ dms) (inp : List Byte) (h : ¬ Dangling dms (streamCodes dms inp)) : ∃ o st, decompress dms inp = ok (o, st) := by
  have := (loop_exact hdms (8 * inp.length + 1) (init_at hdms) ⟨inp, 0, 0⟩ ⟨by simp, by simp⟩ (by simp [Reader.len])).2
  rw [← dangling_iff hdms] at this
  obtain ⟨o, st, h2⟩ := this (by simpa [Reader.val, Reader.len, streamCodes] using h)
  exact ⟨o, st, h2⟩

/-- The streams of the other two refutations of C03 dangle. -/
example : streamCodes dmsRepo [1, 1] = [257] := by decide +kernel

example : streamCodes 259 [10, 40, 4, 12, 8] = [10, 20, 257, 257] := by decide +kernel

/-- The dictionary of capacity 259 is emptied at the fourth code; the code before is 257. -/
example : Dangling 259 [10, 20, 257, 257] := Or.inr ⟨3, 257, by decide, rfl, by decide, Or.inl rfl⟩

/-- A stream that empties the dictionary, uses 257 afterwards, and is decoded. -/
example : streamCodes 259 [10, 40, 120, 8, 136, 2, 32] = [10, 20, 30, 257, 40] ∧ decompress 259 [10, 40, 120, 8, 136, 2, 32] = ok ([138, 148, 158, 158, 158, 168], 0) := by
  decide +kernel

example : ¬ Dangling 259 [10, 20, 30, 257, 40] := by
  rw [dangling_iff (by decide) _ 0]
  simp [BadFrom, Bad, sizeAt]

/-- A stream whose 257 hangs on the code 258, read before the dictionary was emptied: undefined while the dictionary has no entry 258, defined afterwards. -/
example : Dangling 260 [10, 20, 30, 258, 257] ∧ ¬ Dangling 261 [10, 20, 30, 40, 258, 7, 8, 257] := by
  rw [dangling_iff (by decide) _ 0, dangling_iff (by decide) _ 0]
  simp [BadFrom, Bad, sizeAt]

/-- Undefined behaviour in terms of the codes, both ways. -/
theorem lzw_decoder_undefined_iff_partial (dms : Nat) (hdms : 258 ≤ dms) (inp : List Byte) : decompress dms inp = ub ↔ Dangling dms (streamCodes dms inp) := by
  refine ⟨fun h => ?_, lzw_decoder_dangling_violated dms hdms inp⟩
  by_cases hd : Dangling dms (streamCodes dms inp)
  · exact hd
  · obtain ⟨o, st, h2⟩ := lzw_decoder_exact_partial dms hdms inp hd
    rw [h] at h2
    cases h2

end Verif.Lzw
