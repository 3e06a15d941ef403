import Verif.Lzw.Props
/-!
# Property C148: the codes written are those of the textbook

LZW as textbooks have it, on strings: the encoder keeps a list of strings, extends the current string as long as it is in the list, and otherwise writes its code, adds
the extended string to the list and goes on with the last byte.  The encoder of lzw.hpp keeps a tree instead; what it writes is the same.
-/
namespace Verif.Lzw
open Verif Res

/-! ### specification -/

/-- The code of a string: that of a byte (counted from -128 on), or 257 and the position in the dictionary. -/
def codeOf (dict : List (List Byte)) : List Byte → Nat
  | [b] => (b.val + 128) % 256
  | w => 257 + dict.idxOf w

/-- The number of binary digits of the largest code in use. -/
def width (dict : List (List Byte)) : Nat := Nat.log2 (256 + dict.length) + 1

/-- The codes that textbook LZW writes, with their numbers of bits: `dict` are the strings of the codes from 257 on, `w` is the current string.  A dictionary with
`dms` codes is emptied before the next byte. -/
def textbookFrom (dms : Nat) : List (List Byte) → List Byte → List Byte → List (Nat × Nat)
  | dict, w, [] => [(codeOf dict w, width dict), (256, width dict)]
  | dict, w, c :: s =>
    let dict' := if 257 + dict.length = dms then [] else dict
    if w ++ [c] ∈ dict' then textbookFrom dms dict' (w ++ [c]) s
    else (codeOf dict w, width dict) :: textbookFrom dms (dict' ++ [w ++ [c]]) [c] s

/-- The codes that textbook LZW writes for `s`, the last being the end marker. -/
def textbook (dms : Nat) : List Byte → List (Nat × Nat)
  | [] => [(256, 9)]
  | c :: s => textbookFrom dms [] [c] s

/-! ### the tree finds what is in it -/

/-- The search for `c` from node `x` on comes to node `y`. -/
inductive Reach (vn : List Node) (c : Byte) : Nat → Nat → Prop
  | here {x : Nat} {n : Node} : vn[x]? = some n → n.c = c → Reach vn c x x
  | left {x y : Nat} {n : Node} : vn[x]? = some n → sc c < sc n.c → Reach vn c n.left y → Reach vn c x y
  | right {x y : Nat} {n : Node} : vn[x]? = some n → sc n.c < sc c → Reach vn c n.right y → Reach vn c x y

theorem Reach.lt {vn : List Node} {c : Byte} {x y : Nat} (h : Reach vn c x y) : x < vn.length := by
  cases h with
  | here h _ => exact (List.getElem?_eq_some_iff.mp h).1
  | left h _ _ => exact (List.getElem?_eq_some_iff.mp h).1
  | right h _ _ => exact (List.getElem?_eq_some_iff.mp h).1

theorem Reach.descend {vn : List Node} {c : Byte} {x y dms : Nat} (h : Reach vn c x y) (hl : vn.length ≤ dms) (fuel : Nat) {r : Sum Nat (List Node)}
    (hr : Lzw.descend dms vn c fuel x = ok r) : r = .inl y := by
  induction h generalizing fuel with
  | here h1 h2 =>
    cases fuel with
    | zero => cases hr
    | succ fuel =>
      rw [Lzw.descend, rd_ok h1, bind_ok, h2, if_neg (by omega), if_neg (by omega)] at hr
      cases hr
      rfl
  | left h1 h2 h3 ih =>
    cases fuel with
    | zero => cases hr
    | succ fuel =>
      have := h3.lt
      rw [Lzw.descend, rd_ok h1, bind_ok, if_pos h2, if_neg (by omega)] at hr
      exact ih fuel hr
  | right h1 h2 h3 ih =>
    cases fuel with
    | zero => cases hr
    | succ fuel =>
      have := h3.lt
      rw [Lzw.descend, rd_ok h1, bind_ok, if_neg (by omega), if_pos (by omega), if_neg (by omega)] at hr
      exact ih fuel hr

/-- One node more, and no link taken away. -/
def Grows (vn vn' : List Node) : Prop :=
  ∀ (x : Nat) (n : Node), vn[x]? = some n → ∃ n' : Node, vn'[x]? = some n' ∧ n'.c = n.c ∧ (n.left < vn.length → n'.left = n.left) ∧ (n.right < vn.length → n'.right = n.right) ∧
    (n.first < vn.length → n'.first = n.first)

theorem Reach.grow {vn vn' : List Node} {c : Byte} {x y : Nat} (h : Reach vn c x y) (hg : Grows vn vn') : Reach vn' c x y := by
  induction h with
  | here h1 h2 =>
    obtain ⟨n', e1, e2, _⟩ := hg _ _ h1
    exact .here e1 (by rw [e2, h2])
  | left h1 h2 h3 ih =>
    obtain ⟨n', e1, e2, e3, _⟩ := hg _ _ h1
    exact .left e1 (by rw [e2]; exact h2) (by rw [e3 h3.lt]; exact ih)
  | right h1 h2 h3 ih =>
    obtain ⟨n', e1, e2, _, e3, _⟩ := hg _ _ h1
    exact .right e1 (by rw [e2]; exact h2) (by rw [e3 h3.lt]; exact ih)

theorem grows_set {vn : List Node} {x : Nat} {n n' : Node} (m : Node) (hx : vn[x]? = some n) (hc : n'.c = n.c) (hl : n.left < vn.length → n'.left = n.left)
    (hr : n.right < vn.length → n'.right = n.right) (hf : n.first < vn.length → n'.first = n.first) : Grows vn (vn.set x n' ++ [m]) := by
  intro i k hi
  have hil := (List.getElem?_eq_some_iff.mp hi).1
  rw [List.getElem?_append_left (by simpa using hil)]
  by_cases h : x = i
  · subst h
    rw [hx] at hi
    obtain rfl : n = k := by simpa using hi
    exact ⟨n', List.getElem?_set_self hil, hc, hl, hr, hf⟩
  · rw [List.getElem?_set_ne h]
    exact ⟨k, hi, rfl, fun _ => rfl, fun _ => rfl, fun _ => rfl⟩

theorem descend_lt {dms : Nat} {vn : List Node} {c : Byte} {fuel x : Nat} {r : Sum Nat (List Node)} (h : descend dms vn c fuel x = ok r) : x < vn.length := by
  cases fuel with
  | zero => cases h
  | succ fuel =>
    rw [descend, bind_eq_ok] at h
    obtain ⟨n, h, _⟩ := h
    refine Decidable.byContradiction (fun hx => ?_)
    rw [rd_ub (by simpa using hx)] at h
    cases h

theorem descend_grows {dms : Nat} {vn : List Node} {c : Byte} (hcap : vn.length < dms) {fuel x : Nat} {vn' : List Node} (h : descend dms vn c fuel x = ok (.inr vn')) :
    Grows vn (vn' ++ [mkNode dms c]) ∧ vn'.length = vn.length ∧ Reach (vn' ++ [mkNode dms c]) c x vn.length := by
  induction fuel generalizing x with
  | zero => cases h
  | succ fuel ih =>
    have hx := descend_lt h
    have hn : vn[x]? = some vn[x] := List.getElem?_eq_getElem hx
    generalize vn[x] = n at hn
    have hnew : ∀ n' : Node, (vn.set x n' ++ [mkNode dms c])[vn.length]? = some (mkNode dms c) := fun n' => by simp
    have hset : ∀ n' : Node, (vn.set x n' ++ [mkNode dms c])[x]? = some n' := fun n' => by
      rw [List.getElem?_append_left (by simpa using hx)]
      exact List.getElem?_set_self hx
    rw [descend, rd_ok hn, bind_ok] at h
    split at h
    · rename_i h1
      split at h
      · rename_i h2
        cases h
        refine ⟨grows_set _ hn rfl (fun hlt => by omega) (fun _ => rfl) (fun _ => rfl), by simp, ?_⟩
        exact .left (hset _) h1 (.here (hnew _) rfl)
      · obtain ⟨i1, i2, i3⟩ := ih h
        obtain ⟨n', e1, e2, e3, _⟩ := i1 _ _ hn
        exact ⟨i1, i2, .left e1 (by rw [e2]; exact h1) (by rw [e3 (descend_lt h)]; exact i3)⟩
    · split at h
      · rename_i h1
        split at h
        · rename_i h2
          cases h
          refine ⟨grows_set _ hn rfl (fun _ => rfl) (fun hlt => by omega) (fun _ => rfl), by simp, ?_⟩
          exact .right (hset _) h1 (.here (hnew _) rfl)
        · obtain ⟨i1, i2, i3⟩ := ih h
          obtain ⟨n', e1, e2, _, e3, _⟩ := i1 _ _ hn
          exact ⟨i1, i2, .right e1 (by rw [e2]; exact h1) (by rw [e3 (descend_lt h)]; exact i3)⟩
      · cases h

/-- Every entry is found by the search from its parent. -/
def Complete (vn : List Node) (ents : List (Nat × Byte)) : Prop :=
  ∀ (j p : Nat) (c : Byte), ents[j]? = some (p, c) → ∃ n : Node, vn[p]? = some n ∧ Reach vn c n.first (257 + j)

/-- `search_and_insert` finds the pair if it is in the dictionary; else it becomes the next code. -/
theorem searchAndInsert_complete {dms : Nat} {vn : List Node} {ents : List (Nat × Byte)} (h : NodeInv dms vn ents) (hC : Complete vn ents) (hcap : vn.length < dms) (i : Nat) (c : Byte)
    (hi : i < 257 + ents.length) (hi' : i ≠ 256) :
    (∃ j' : Nat, ents[j']? = some (i, c) ∧ searchAndInsert dms vn i c = ok (257 + j', vn)) ∨
    ((∀ j' : Nat, ents[j']? ≠ some (i, c)) ∧ ∃ vn', searchAndInsert dms vn i c = ok (dms, vn') ∧ NodeInv dms vn' (ents ++ [(i, c)]) ∧ Complete vn' (ents ++ [(i, c)])) := by
  rcases searchAndInsert_spec h hcap i c hi hi' with h1 | ⟨vn', h1, h2⟩
  · exact Or.inl h1
  right
  have hlen := h.len
  have hilt : i < vn.length := by omega
  have hn : vn[i]? = some vn[i] := List.getElem?_eq_getElem hilt
  generalize vn[i] = n at hn
  have hs := h1
  rw [searchAndInsert, if_neg (by omega), rd_ok hn, bind_ok] at hs
  refine ⟨fun j' hj' => ?_, vn', h1, h2, ?_⟩
  · obtain ⟨n1, e1, e2⟩ := hC j' i c hj'
    rw [hn] at e1
    obtain rfl : n = n1 := by simpa using e1
    have := e2.lt
    rw [if_pos (by omega), bind_eq_ok] at hs
    obtain ⟨r, k1, k2⟩ := hs
    rw [e2.descend (by omega) _ k1] at k2
    have hj := (List.getElem?_eq_some_iff.mp hj').1
    simp only [ok.injEq, Prod.mk.injEq] at k2
    omega
  · have key : Grows vn vn' ∧ ∃ n', vn'[i]? = some n' ∧ Reach vn' c n'.first vn.length := by
      split at hs
      · rename_i hf
        rw [bind_eq_ok] at hs
        obtain ⟨r, k1, k2⟩ := hs
        cases r with
        | inl ci =>
          simp only [ok.injEq, Prod.mk.injEq] at k2
          obtain ⟨k2, rfl⟩ := k2
          have := h2.len
          simp only [List.length_append, List.length_singleton] at this
          omega
        | inr v =>
          simp only [ok.injEq, Prod.mk.injEq, true_and] at k2
          subst k2
          obtain ⟨g1, g2, g3⟩ := descend_grows hcap k1
          obtain ⟨n', e1, _, _, _, e2⟩ := g1 _ _ hn
          exact ⟨g1, n', e1, by rw [e2 (descend_lt k1)]; exact g3⟩
      · rename_i hf
        simp only [ok.injEq, Prod.mk.injEq, true_and] at hs
        subst hs
        refine ⟨grows_set _ hn rfl (fun _ => rfl) (fun _ => rfl) (fun hlt => by omega), { n with first := vn.length }, ?_, ?_⟩
        · rw [List.getElem?_append_left (by simpa using hilt)]
          exact List.getElem?_set_self hilt
        · exact .here (n := mkNode dms c) (by simp) rfl
    obtain ⟨hg, n', e1, e2⟩ := key
    intro j p b hj
    by_cases hjl : j < ents.length
    · rw [List.getElem?_append_left hjl] at hj
      obtain ⟨m, m1, m2⟩ := hC j p b hj
      obtain ⟨m', k1, _, _, _, k2⟩ := hg _ _ m1
      exact ⟨m', k1, by rw [k2 m2.lt]; exact m2.grow hg⟩
    · have hje : j = ents.length := by
        have := (List.getElem?_eq_some_iff.mp hj).1
        simp at this; omega
      subst hje
      simp at hj
      obtain ⟨rfl, rfl⟩ := hj
      exact ⟨n', e1, by rw [← hlen]; exact e2⟩

/-! ### strings and codes -/

theorem nthChar_inj : ∀ a b : Fin 256, nthChar a = nthChar b → a = b := by
  intro a b h
  unfold nthChar at h
  have ha := a.isLt
  have hb := b.isLt
  have := congrArg Fin.val h
  simp only [Fin.val_add] at this
  apply Fin.ext
  have h128 : ((128 : Fin 256) : Nat) = 128 := rfl
  rw [h128] at this
  omega

theorem expand_length {ents : List (Nat × Byte)} (h : EWf ents) {j : Nat} (hj : j < ents.length) : 2 ≤ (expand ents (257 + j)).length := by
  rcases hx : ents[j] with ⟨p, c⟩
  have hj' : ents[j]? = some (p, c) := by rw [List.getElem?_eq_getElem hj, hx]
  rw [expand_entry ents h j p c hj', List.length_append, List.length_singleton]
  have hp := h _ _ _ hj'
  have := expand_ne_nil ents h p (by omega) hp.2
  have := List.length_pos_iff.mpr this
  omega

/-- Different codes stand for different strings. -/
theorem expand_inj {ents : List (Nat × Byte)} (h : EWf ents) (hd : ents.Nodup) : ∀ k k', k < 257 + ents.length → k' < 257 + ents.length → k ≠ 256 → k' ≠ 256 →
    expand ents k = expand ents k' → k = k' := by
  have small : ∀ k (hk : k < 256), expand ents k = [nthChar ⟨k, hk⟩] := fun k hk => by rw [expand, dif_pos hk]
  intro k
  induction k using Nat.strongRecOn with
  | ind k ih =>
    intro k' hk hk' hne hne' he
    by_cases h1 : k < 256 <;> by_cases h2 : k' < 256
    · rw [small k h1, small k' h2] at he
      have := nthChar_inj _ _ (List.singleton_inj.mp he)
      exact Fin.mk.inj this
    · exfalso
      have := expand_length h (j := k' - 257) (by omega)
      rw [show 257 + (k' - 257) = k' by omega, ← he, small k h1] at this
      simp at this
    · exfalso
      have := expand_length h (j := k - 257) (by omega)
      rw [show 257 + (k - 257) = k by omega, he, small k' h2] at this
      simp at this
    · obtain ⟨j, rfl⟩ := Nat.exists_eq_add_of_le (show 257 ≤ k by omega)
      obtain ⟨j', rfl⟩ := Nat.exists_eq_add_of_le (show 257 ≤ k' by omega)
      have hj : j < ents.length := Nat.lt_of_add_lt_add_left hk
      have hj' : j' < ents.length := Nat.lt_of_add_lt_add_left hk'
      rcases hx : ents[j] with ⟨p, c⟩
      rcases hx' : ents[j'] with ⟨p', c'⟩
      have g1 : ents[j]? = some (p, c) := by rw [List.getElem?_eq_getElem hj, hx]
      have g2 : ents[j']? = some (p', c') := by rw [List.getElem?_eq_getElem hj', hx']
      have e1 := expand_entry ents h _ p c g1
      have e2 := expand_entry ents h _ p' c' g2
      rw [e1, e2] at he
      obtain ⟨he1, he2⟩ := List.append_inj' he rfl
      have w1 := h _ _ _ g1
      have w2 := h _ _ _ g2
      have hp : p = p' := ih p (by omega) p' (by omega) (by omega) w1.2 w2.2 he1
      have hc : c = c' := by simpa using he2
      subst hp hc
      have := (List.getElem_inj (h₀ := hj) (h₁ := hj') hd).mp (by rw [hx, hx'])
      omega

/-- The strings of the codes from 257 on. -/
def strings (ents : List (Nat × Byte)) : List (List Byte) := (List.range ents.length).map (fun j => expand ents (257 + j))

theorem strings_snoc {ents : List (Nat × Byte)} (h : EWf ents) {p : Nat} {c : Byte} (hp : p < 257 + ents.length) (hp' : p ≠ 256) :
    strings (ents ++ [(p, c)]) = strings ents ++ [expand ents p ++ [c]] := by
  unfold strings
  rw [List.length_append, List.length_singleton, List.range_succ, List.map_append, List.map_singleton]
  congr 1
  · refine List.map_congr_left (fun j hj => ?_)
    rw [List.mem_range] at hj
    exact expand_append ents _ h _ (by omega) (by omega)
  · rw [expand_entry (ents ++ [(p, c)]) (h.snoc hp hp') ents.length p c (by simp), expand_append ents _ h p hp hp']

theorem mem_strings {ents : List (Nat × Byte)} (h : EWf ents) (hd : ents.Nodup) {i : Nat} {c : Byte} (hi : i < 257 + ents.length) (hi' : i ≠ 256) :
    expand ents i ++ [c] ∈ strings ents ↔ ∃ j : Nat, ents[j]? = some (i, c) := by
  unfold strings
  simp only [List.mem_map, List.mem_range]
  constructor
  · rintro ⟨j, hj, he⟩
    rcases hx : ents[j] with ⟨p, b⟩
    have g : ents[j]? = some (p, b) := by rw [List.getElem?_eq_getElem hj, hx]
    rw [expand_entry ents h j p b g] at he
    obtain ⟨he1, he2⟩ := List.append_inj' he rfl
    have w := h _ _ _ g
    have := expand_inj h hd p i (by omega) hi w.2 hi' he1
    subst this
    obtain rfl : b = c := by simpa using he2
    exact ⟨j, g⟩
  · rintro ⟨j, hj⟩
    exact ⟨j, (List.getElem?_eq_some_iff.mp hj).1, expand_entry ents h j i c hj⟩

theorem codeOf_expand {ents : List (Nat × Byte)} (h : EWf ents) (hd : ents.Nodup) {i : Nat} (hi : i < 257 + ents.length) (hi' : i ≠ 256) : codeOf (strings ents) (expand ents i) = i := by
  by_cases h1 : i < 256
  · rw [expand, dif_pos h1]
    simp only [codeOf, nthChar, Fin.val_add]
    have h128 : ((128 : Fin 256) : Nat) = 128 := rfl
    rw [h128]
    omega
  · have hj : i - 257 < ents.length := by omega
    have hlen := expand_length h hj
    rw [show 257 + (i - 257) = i by omega] at hlen
    have : codeOf (strings ents) (expand ents i) = 257 + (strings ents).idxOf (expand ents i) := by
      match expand ents i, hlen with
      | a :: b :: l, _ => rfl
    rw [this]
    have hnd : (strings ents).Nodup := by
      unfold strings
      rw [List.Nodup, List.pairwise_map]
      refine List.Pairwise.imp_of_mem (fun {a b} ha hb hne e => ?_) List.nodup_range
      rw [List.mem_range] at ha hb
      have := expand_inj h hd _ _ (by omega) (by omega) (by omega) (by omega) e
      omega
    have hl : i - 257 < (strings ents).length := by simpa [strings] using hj
    have hg : (strings ents)[i - 257] = expand ents i := by
      simp only [strings, List.getElem_map, List.getElem_range]
      rw [show 257 + (i - 257) = i by omega]
    rw [← hg, hnd.idxOf_getElem]
    omega

theorem requiredBits_log (n : Nat) : requiredBits n = Nat.log2 n + 1 := by
  fun_induction requiredBits n with
  | case1 n h => rw [Nat.log2_def, if_neg (by omega)]
  | case2 n h ih => rw [Nat.log2_def, if_pos (by omega), ih]

/-! ### the encoder -/

/-- State of the encoder after the first byte: its tree holds `ents`, without repetitions. -/
structure Holds (dms : Nat) (st : Enc) (ents : List (Nat × Byte)) : Prop where
  node : NodeInv dms st.vn ents
  full : Complete st.vn ents
  once : ents.Nodup
  lt : st.i < 257 + ents.length
  data : st.i ≠ 256
  cap : st.vn.length = dms → st.i < 256
  bits : st.w.bits = requiredBits (256 + ents.length)

theorem expand_small {a b : List (Nat × Byte)} {i : Nat} (h : i < 256) : expand a i = expand b i := by
  rw [expand, expand, dif_pos h, dif_pos h]

theorem strings_length (ents : List (Nat × Byte)) : (strings ents).length = ents.length := by simp [strings]

theorem width_strings (ents : List (Nat × Byte)) : width (strings ents) = requiredBits (256 + ents.length) := by
  rw [width, strings_length, requiredBits_log]

theorem bits_next (n : Nat) (w : Writer) (h : w.bits = requiredBits (256 + n)) :
    (if requiredBits (257 + n) > w.bits then { w with bits := w.bits + 1 } else w) = { w with bits := requiredBits (257 + n) } := by
  have h1 := requiredBits_mono (m := 256 + n) (n := 257 + n) (by omega)
  have h2 := requiredBits_succ (256 + n)
  rw [show 256 + n + 1 = 257 + n by omega] at h2
  split
  · rw [show w.bits + 1 = requiredBits (257 + n) by omega]
  · rw [show requiredBits (257 + n) = w.bits by omega]

theorem nodup_snoc {ents : List (Nat × Byte)} {p : Nat} {c : Byte} (h : ents.Nodup) (ha : ∀ j : Nat, ents[j]? ≠ some (p, c)) : (ents ++ [(p, c)]).Nodup := by
  rw [List.nodup_append]
  refine ⟨h, by simp, ?_⟩
  intro a hx b hb e
  rw [List.mem_singleton] at hb
  subst hb e
  obtain ⟨j, hj⟩ := List.mem_iff_getElem?.mp hx
  exact ha j hj

theorem holds_loop {dms : Nat} (hdms : 258 ≤ dms) (s : List Byte) {st : Enc} {ents : List (Nat × Byte)} (h : Holds dms st ents) :
    ∃ st', encLoop dms st s = ok st' ∧ (encFinish dms st').log = st.w.log ++ textbookFrom dms (strings ents) (expand ents st.i) s := by
  induction s generalizing st ents with
  | nil =>
    have := h.node.len
    have := h.node.cap
    have := h.lt
    have hne : st.i ≠ dms := by
      intro he
      have := h.cap (by omega)
      omega
    refine ⟨st, rfl, ?_⟩
    rw [encFinish, if_pos hne, Writer.write_log, Writer.write_log, Writer.write_bits, textbookFrom, codeOf_expand h.node.wf h.once h.lt h.data, width_strings, h.bits]
    simp [eof]
  | cons c s ih =>
    have hlen := h.node.len
    have hcap := h.node.cap
    have hlt := h.lt
    have hini := initials_lt c
    have hcode := codeOf_expand h.node.wf h.once h.lt h.data
    have hwid : width (strings ents) = st.w.bits := by rw [width_strings, h.bits]
    rw [encLoop]
    simp only [textbookFrom, strings_length, ← hlen]
    by_cases hfull : st.vn.length = dms
    · have hi := h.cap hfull
      have hres := NodeInv.reset dms (by omega)
      have hC : Complete (resetNodes dms) [] := by intro j p b hj; simp at hj
      rcases searchAndInsert_complete hres hC (by rw [resetNodes_length]; omega) st.i c (by simp only [List.length_nil]; omega) h.data with ⟨j', hj', _⟩ | ⟨_, vn', hv1, hv2, hv3⟩
      · simp at hj'
      · simp only [List.nil_append] at hv2 hv3
        have hv2l := hv2.len
        simp only [List.length_singleton] at hv2l
        let w1 : Writer := { (if requiredBits (vn'.length - 1) > (st.w.write st.i).bits then { (st.w.write st.i) with bits := (st.w.write st.i).bits + 1 } else st.w.write st.i) with bits := 9 }
        have hstep : encStep dms st c = ok ⟨vn', initials c, w1⟩ := by simp [encStep, hfull, hv1, w1]
        have hlog : w1.log = st.w.log ++ [(st.i, st.w.bits)] := by
          show (if requiredBits (vn'.length - 1) > (st.w.write st.i).bits then { (st.w.write st.i) with bits := (st.w.write st.i).bits + 1 } else st.w.write st.i).log = _
          split <;> simp [Writer.write_log]
        have hH : Holds dms ⟨vn', initials c, w1⟩ [(st.i, c)] :=
          ⟨hv2, hv3, by simp, by show initials c < _; omega, by show initials c ≠ _; omega, fun _ => hini, by show 9 = _; rw [List.length_singleton, requiredBits_257]⟩
        obtain ⟨st', e1, e2⟩ := ih hH
        refine ⟨st', by rw [hstep, bind_ok, e1], ?_⟩
        have hs : strings [(st.i, c)] = [expand ents st.i ++ [c]] := by
          have := strings_snoc EWf.nil (p := st.i) (c := c) (by simp only [List.length_nil]; omega) h.data
          rw [List.nil_append] at this
          rw [this, expand_small hi (b := ents)]
          rfl
        rw [e2, hlog, if_pos hfull, if_neg (by simp), hs, hcode, hwid]
        simp only [expand_initials, List.append_assoc, List.singleton_append, List.nil_append]
    · rw [if_neg hfull]
      rcases searchAndInsert_complete h.node h.full (by omega) st.i c h.lt h.data with ⟨j', hj', hs⟩ | ⟨habs, vn', hv1, hv2, hv3⟩
      · have hjl := (List.getElem?_eq_some_iff.mp hj').1
        have hjne : ¬ 257 + j' = dms := by omega
        have hstep : encStep dms st c = ok ⟨st.vn, 257 + j', st.w⟩ := by simp [encStep, hfull, hs, hjne]
        have hH : Holds dms ⟨st.vn, 257 + j', st.w⟩ ents :=
          ⟨h.node, h.full, h.once, by show 257 + j' < _; omega, by show 257 + j' ≠ _; omega, fun hx => absurd hx hfull, h.bits⟩
        obtain ⟨st', e1, e2⟩ := ih hH
        refine ⟨st', by rw [hstep, bind_ok, e1], ?_⟩
        rw [e2, if_pos ((mem_strings h.node.wf h.once h.lt h.data).mpr ⟨j', hj'⟩)]
        simp only [expand_entry ents h.node.wf j' _ _ hj']
      · have hv2l := hv2.len
        simp only [List.length_append, List.length_singleton] at hv2l
        have hstep : encStep dms st c = ok ⟨vn', initials c, { (st.w.write st.i) with bits := requiredBits (257 + ents.length) }⟩ := by
          have hvl : vn'.length - 1 = 257 + ents.length := by omega
          simp only [encStep, hfull, decide_false, if_false, hv1, bind_ok, if_true, hvl, Bool.false_eq_true]
          rw [bits_next _ _ (by rw [Writer.write_bits, h.bits])]
        have hH : Holds dms ⟨vn', initials c, { (st.w.write st.i) with bits := requiredBits (257 + ents.length) }⟩ (ents ++ [(st.i, c)]) := by
          refine ⟨hv2, hv3, nodup_snoc h.once habs, ?_, ?_, fun _ => hini, ?_⟩
          · show initials c < _; simp only [List.length_append]; omega
          · show initials c ≠ _; omega
          · show requiredBits _ = requiredBits _
            congr 1
            simp only [List.length_append, List.length_singleton]
            omega
        obtain ⟨st', e1, e2⟩ := ih hH
        refine ⟨st', by rw [hstep, bind_ok, e1], ?_⟩
        rw [e2, if_neg (fun hm => by
          obtain ⟨j, hj⟩ := (mem_strings h.node.wf h.once h.lt h.data).mp hm
          exact habs j hj), hcode, hwid, strings_snoc h.node.wf h.lt h.data]
        simp only [Writer.write_log, expand_initials, List.append_assoc, List.singleton_append]

theorem compress_log (dms : Nat) (hdms : 258 ≤ dms) (s : List Byte) : ∃ st, encLoop dms (Enc.init dms) s = ok st ∧ (encFinish dms st).log = textbook dms s := by
  cases s with
  | nil => exact ⟨_, rfl, by simp [encFinish, Enc.init, Writer.write_log, Writer.init, textbook, eof]⟩
  | cons c s =>
    have hini := initials_lt c
    have hstep : encStep dms (Enc.init dms) c = ok ⟨resetNodes dms, initials c, Writer.init⟩ := by
      have h1 : ¬ (resetNodes dms).length = dms := by rw [resetNodes_length]; omega
      have h2 : ¬ initials c = dms := by omega
      simp [encStep, Enc.init, searchAndInsert, h1, h2]
    have hH : Holds dms ⟨resetNodes dms, initials c, Writer.init⟩ [] :=
      ⟨NodeInv.reset dms (by omega), by intro j p b hj; simp at hj, by simp, by show initials c < _; omega, by show initials c ≠ _; omega, fun _ => hini, by
        show 9 = requiredBits (256 + 0)
        rw [requiredBits_log]
        decide⟩
    obtain ⟨st', e1, e2⟩ := holds_loop hdms s hH
    refine ⟨st', by rw [encLoop, hstep, bind_ok, e1], ?_⟩
    rw [e2, expand_initials]
    rfl

/-! ### C148 -/

/-- The bytes that `compress` writes are the binary digits, from the lowest on, of the codes that textbook LZW writes, filled up with at most seven zeros; every code
fits the bits it is written with, so that the bytes determine the codes. -/
theorem lzw_textbook (dms : Nat) (hdms : 258 ≤ dms) (s : List Byte) :
    ∃ out, compress dms s = ok out ∧ bytesVal out = codesVal (textbook dms s) ∧ codesLen (textbook dms s) ≤ 8 * out.length ∧ 8 * out.length < codesLen (textbook dms s) + 8 ∧
      ∀ k b, (k, b) ∈ textbook dms s → k < 2 ^ b := by
  obtain ⟨st, e1, e2⟩ := compress_log dms hdms s
  obtain ⟨st', d, cs, wd, f1, f2, f3, f4, f5, _⟩ := finish_spec dms hdms s
  rw [e1] at f1
  obtain rfl : st = st' := by simpa using f1
  obtain ⟨g1, g2⟩ := (encFinish dms st).flushed_val f2
  refine ⟨(encFinish dms st).flushed, by rw [compress, e1, bind_ok], by rw [g1, e2], by rw [← e2]; exact g2, ?_, ?_⟩
  · obtain ⟨hu, _, _, hl⟩ := f2
    rw [← e2, ← hl]
    unfold Writer.flushed
    split
    · simp only [List.length_append, List.length_singleton]; omega
    · omega
  · intro k b hm
    rw [← e2, f3] at hm
    rcases List.mem_append.mp hm with hm | hm
    · exact (f5 k b hm).1
    · obtain ⟨rfl, rfl⟩ : k = eof ∧ b = wd := by simpa using hm
      exact Nat.lt_of_lt_of_le (by decide : eof < 2 ^ 9) (Nat.pow_le_pow_right (by decide) f4)

/-- Two bytes, the capacity of the repository: the third `a` completes a string of the dictionary. -/
example : textbook dmsRepo [97, 97, 97, 98] = [(225, 9), (257, 9), (226, 9), (256, 9)] := by decide +kernel

/-- A dictionary of 259 codes is full after two entries and emptied before the next byte. -/
example : textbook 259 [1, 1, 1, 1, 1, 1] = [(129, 9), (257, 9), (129, 9), (257, 9), (256, 9)] := by decide +kernel

example : ∃ out, compress 259 [1, 1, 1, 1, 1, 1] = ok out ∧ bytesVal out = codesVal [(129, 9), (257, 9), (129, 9), (257, 9), (256, 9)] := by
  obtain ⟨out, h1, h2, _⟩ := lzw_textbook 259 (by omega) [1, 1, 1, 1, 1, 1]
  exact ⟨out, h1, by rw [h2]; decide +kernel⟩

theorem textbookFrom_len (dms : Nat) (s : List Byte) (dict : List (List Byte)) (w : List Byte) (h : 257 + dict.length ≤ dms) (hd : 258 ≤ dms) :
    codesLen (textbookFrom dms dict w s) ≤ (s.length + 2) * (Nat.log2 (dms - 1) + 1) := by
  have hw : ∀ dict : List (List Byte), 257 + dict.length ≤ dms → width dict ≤ Nat.log2 (dms - 1) + 1 := by
    intro dict h
    rw [width, ← requiredBits_log, ← requiredBits_log]
    exact requiredBits_mono (by omega)
  induction s generalizing dict w with
  | nil =>
    have := hw dict h
    simp only [textbookFrom, codesLen, List.length_nil]
    omega
  | cons c s ih =>
    have h0 := hw dict h
    rw [textbookFrom, List.length_cons, show s.length + 1 + 2 = (s.length + 2) + 1 by omega, Nat.succ_mul]
    have h1 : 257 + (if 257 + dict.length = dms then [] else dict : List (List Byte)).length < dms := by
      split
      · simp only [List.length_nil]; omega
      · omega
    generalize (if 257 + dict.length = dms then [] else dict : List (List Byte)) = d at h1
    split
    · have := ih d (w ++ [c]) (by omega)
      omega
    · have := ih (d ++ [w ++ [c]]) [c] (by simp only [List.length_append, List.length_singleton]; omega)
      simp only [codesLen]
      omega

/-- The output for `n` bytes has at most `n + 1` codes, none longer than the largest code of the dictionary. -/
theorem lzw_size (dms : Nat) (hdms : 258 ≤ dms) (s : List Byte) :
    ∃ out, compress dms s = ok out ∧ 8 * out.length < (s.length + 1) * (Nat.log2 (dms - 1) + 1) + 8 := by
  obtain ⟨out, h1, _, _, h2, _⟩ := lzw_textbook dms hdms s
  refine ⟨out, h1, ?_⟩
  cases s with
  | nil =>
    have : 9 ≤ Nat.log2 (dms - 1) + 1 := by
      rw [← requiredBits_log, ← requiredBits_257]
      exact requiredBits_mono (by omega)
    simp only [textbook, codesLen] at h2
    simp only [List.length_nil]
    omega
  | cons c s =>
    have := textbookFrom_len dms s [] [c] (by simp only [List.length_nil]; omega) hdms
    simp only [textbook] at h2
    rw [List.length_cons, show s.length + 1 + 1 = s.length + 2 by omega]
    omega

/-- With the capacity of the repository a file grows by at most three halves of its size and three bytes. -/
theorem lzw_size_repo (s : List Byte) : ∃ out, compress dmsRepo s = ok out ∧ 2 * out.length ≤ 5 * s.length + 6 := by
  obtain ⟨out, h1, h2⟩ := lzw_size dmsRepo (by decide) s
  refine ⟨out, h1, ?_⟩
  rw [show Nat.log2 (dmsRepo - 1) + 1 = 20 by rw [← requiredBits_log]; decide +kernel] at h2
  omega

example : ∃ out, compress dmsRepo [7, 7, 9] = ok out ∧ 2 * out.length ≤ 21 := lzw_size_repo [7, 7, 9]

end Verif.Lzw
