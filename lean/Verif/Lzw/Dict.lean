import Verif.Lzw.Bits
/-!
# Dictionary lemmas: `expand`, decoder chains, encoder tree invariant (helper lemmas)
-/
namespace Verif.Lzw
open Verif Res

/-- The string a code stands for, given the entries `(parent, last byte)` of codes 257, 258, ... (spec helper). -/
def expand (ents : List (Nat × Byte)) (k : Nat) : List Byte :=
  if h : k < 256 then [nthChar ⟨k, h⟩]
  else match ents[k - 257]? with
    | some (p, c) => if p < k ∧ k ≠ 256 then expand ents p ++ [c] else []
    | none => []
termination_by k
decreasing_by omega

/-- Entries refer only to earlier data codes. -/
def EWf (ents : List (Nat × Byte)) : Prop :=
  ∀ j p c, ents[j]? = some (p, c) → p < 257 + j ∧ p ≠ 256

theorem EWf.nil : EWf [] := by intro j p c h; simp at h

theorem EWf.snoc {ents : List (Nat × Byte)} {p : Nat} {c : Byte} (h : EWf ents)
    (hp : p < 257 + ents.length) (hp' : p ≠ 256) : EWf (ents ++ [(p, c)]) := by
  intro j q b hj
  rw [List.getElem?_append] at hj
  split at hj
  · exact h j q b hj
  · have : j = ents.length := by
      have := (List.getElem?_eq_some_iff.mp hj).1
      simp at this; omega
    subst this
    simp at hj
    obtain ⟨rfl, rfl⟩ := hj
    exact ⟨hp, hp'⟩

theorem EWf.prefix {a b : List (Nat × Byte)} (h : EWf (a ++ b)) : EWf a := by
  intro j p c hj
  apply h j p c
  rw [List.getElem?_append_left (List.getElem?_eq_some_iff.mp hj).1]; exact hj

theorem expand_append (a b : List (Nat × Byte)) (h : EWf a) (k : Nat) (hk : k < 257 + a.length) (hk' : k ≠ 256) :
    expand (a ++ b) k = expand a k := by
  induction k using Nat.strongRecOn with
  | ind k ih =>
    rw [expand, expand]
    split
    · rfl
    · rename_i h256
      have hlt : k - 257 < a.length := by omega
      rw [List.getElem?_append_left hlt]
      rcases hx : a[k - 257]? with _ | ⟨p, c⟩
      · rfl
      · obtain ⟨hp, hp'⟩ := h _ _ _ hx
        have hpk : p < k := by omega
        simp only [hpk, hk', ne_eq, not_false_eq_true, and_self, if_true]
        rw [ih p hpk (by omega) hp']

theorem expand_entry (ents : List (Nat × Byte)) (h : EWf ents) (j p : Nat) (c : Byte) (hj : ents[j]? = some (p, c)) :
    expand ents (257 + j) = expand ents p ++ [c] := by
  rw [expand]
  have h1 : ¬ (257 + j < 256) := by omega
  have h2 : 257 + j - 257 = j := by omega
  obtain ⟨hp, -⟩ := h _ _ _ hj
  rw [dif_neg h1, h2, hj]
  have : p < 257 + j ∧ 257 + j ≠ 256 := ⟨by omega, by omega⟩
  simp [this]

theorem expand_ne_nil (ents : List (Nat × Byte)) (h : EWf ents) (k : Nat) (hk : k < 257 + ents.length) (hk' : k ≠ 256) :
    expand ents k ≠ [] := by
  rw [expand]
  split
  · simp
  · rename_i h256
    have hlt : k - 257 < ents.length := by omega
    rw [List.getElem?_eq_getElem hlt]
    rcases hx : ents[k - 257] with ⟨p, c⟩
    obtain ⟨hp, hp'⟩ := h (k - 257) p c (by rw [List.getElem?_eq_getElem hlt, hx])
    have : p < k ∧ k ≠ 256 := ⟨by omega, hk'⟩
    simp [this]

theorem nthChar_initials (c : Byte) : nthChar (c + 128) = c := by
  revert c; decide +kernel

theorem initials_lt (c : Byte) : initials c < 256 := (c + 128 : Fin 256).isLt

theorem expand_initials (ents : List (Nat × Byte)) (c : Byte) : expand ents (initials c) = [c] := by
  rw [expand, dif_pos (initials_lt c)]
  show [nthChar (c + 128)] = [c]
  rw [nthChar_initials]

/-! ### decoder chains -/

theorem resetDict_length (dms : Nat) : (resetDict dms).length = 257 := by simp [resetDict]

theorem resetDict_get (dms k : Nat) (h : k < 256) : (resetDict dms)[k]? = some (dms, nthChar ⟨k, h⟩) := by
  unfold resetDict
  rw [List.getElem?_append_left (by simpa using h), List.getElem?_map,
    List.getElem?_eq_getElem (by simpa using h), List.getElem_finRange, Option.map_some]
  congr 2

theorem dict_get_entry (dms : Nat) (ents : List (Nat × Byte)) (j : Nat) :
    (resetDict dms ++ ents)[257 + j]? = ents[j]? := by
  rw [List.getElem?_append_right (by rw [resetDict_length]; omega), resetDict_length, Nat.add_sub_cancel_left]

theorem rebuild_eq (dms : Nat) (ents : List (Nat × Byte)) (h : EWf ents) (hd : 257 + ents.length ≤ dms)
    (k fuel : Nat) (acc : List Byte) (hk : k < 257 + ents.length) (hk' : k ≠ 256) (hf : k + 2 ≤ fuel) :
    rebuild dms (resetDict dms ++ ents) fuel k acc = ok (expand ents k ++ acc) := by
  induction k using Nat.strongRecOn generalizing fuel acc with
  | ind k ih =>
    obtain ⟨fuel, rfl⟩ : ∃ f, fuel = f + 1 := ⟨fuel - 1, by omega⟩
    have hne : k ≠ dms := by omega
    rw [rebuild, if_neg hne]
    by_cases h256 : k < 256
    · have : (resetDict dms ++ ents)[k]? = some (dms, nthChar ⟨k, h256⟩) := by
        rw [List.getElem?_append_left (by rw [resetDict_length]; omega), resetDict_get]
      rw [rd_ok this, bind_ok, expand, dif_pos h256]
      obtain ⟨fuel, rfl⟩ : ∃ f, fuel = f + 1 := ⟨fuel - 1, by omega⟩
      simp [rebuild]
    · obtain ⟨j, rfl⟩ : ∃ j, k = 257 + j := ⟨k - 257, by omega⟩
      have hj : j < ents.length := by omega
      rcases hx : ents[j] with ⟨p, c⟩
      have hx' : ents[j]? = some (p, c) := by rw [List.getElem?_eq_getElem hj, hx]
      obtain ⟨hp, hp'⟩ := h j p c hx'
      rw [rd_ok (by rw [dict_get_entry]; exact hx'), bind_ok, ih p (by omega) fuel (c :: acc) (by omega) hp' (by omega)]
      rw [expand_entry ents h j p c hx']
      simp

/-! ### encoder tree -/

/-- A child link: empty, or a later node whose entry has parent `p`. -/
def LinkOk (dms : Nat) (ents : List (Nat × Byte)) (p lo x : Nat) : Prop :=
  x = dms ∨ ∃ j c, x = 257 + j ∧ lo < x ∧ ents[j]? = some (p, c)

/-- Invariant of `EncoderDictionary` relating the node vector to the entries it represents. -/
structure NodeInv (dms : Nat) (vn : List Node) (ents : List (Nat × Byte)) : Prop where
  len : vn.length = 257 + ents.length
  cap : vn.length ≤ dms
  wf : EWf ents
  chr : ∀ (j p : Nat) (c : Byte), ents[j]? = some (p, c) → ∃ n, vn[257 + j]? = some n ∧ n.c = c
    ∧ LinkOk dms ents p (257 + j) n.left ∧ LinkOk dms ents p (257 + j) n.right
  first : ∀ (i : Nat) (n : Node), vn[i]? = some n → LinkOk dms ents i i n.first

theorem resetNodes_length (dms : Nat) : (resetNodes dms).length = 257 := by simp [resetNodes]

theorem resetNodes_mem (dms : Nat) (n : Node) (h : n ∈ resetNodes dms) : n.first = dms := by
  unfold resetNodes at h
  simp [mkNode] at h
  rcases h with ⟨a, rfl⟩ | rfl <;> rfl

theorem NodeInv.reset (dms : Nat) (h : 257 ≤ dms) : NodeInv dms (resetNodes dms) [] := by
  refine ⟨by simp [resetNodes_length], by simpa [resetNodes_length] using h, EWf.nil, ?_, ?_⟩
  · intro j p c hj; simp at hj
  · intro i n hn
    exact Or.inl (resetNodes_mem dms n (List.mem_of_getElem? hn))

theorem LinkOk.mono {dms : Nat} {ents : List (Nat × Byte)} {p lo x : Nat} (h : LinkOk dms ents p lo x)
    (e : Nat × Byte) : LinkOk dms (ents ++ [e]) p lo x := by
  rcases h with h | ⟨j, c, h1, h2, h3⟩
  · exact Or.inl h
  · refine Or.inr ⟨j, c, h1, h2, ?_⟩
    rw [List.getElem?_append_left (List.getElem?_eq_some_iff.mp h3).1]; exact h3

theorem sc_inj (a b : Byte) (h1 : ¬ sc a < sc b) (h2 : ¬ sc a > sc b) : a = b := by
  have h : sc a = sc b := by omega
  unfold sc at h
  have ha := a.isLt
  have hb := b.isLt
  apply Fin.ext
  split at h <;> split at h <;> omega

/-- Inserting a new node `(p, c)` and linking it from node `x` through one link. -/
theorem NodeInv.insert {dms : Nat} {vn : List Node} {ents : List (Nat × Byte)} (h : NodeInv dms vn ents)
    (hcap : vn.length < dms) {p x : Nat} {c : Byte} (hp : p < 257 + ents.length) (hp' : p ≠ 256)
    {n n' : Node} (hx : vn[x]? = some n) (hc : n'.c = n.c)
    (hf : n'.first = n.first ∨ (x = p ∧ n'.first = vn.length))
    (hl : n'.left = n.left ∨ (n'.left = vn.length ∧ ∃ j b, x = 257 + j ∧ ents[j]? = some (p, b)))
    (hr : n'.right = n.right ∨ (n'.right = vn.length ∧ ∃ j b, x = 257 + j ∧ ents[j]? = some (p, b))) :
    NodeInv dms (vn.set x n' ++ [mkNode dms c]) (ents ++ [(p, c)]) := by
  have hxlt : x < vn.length := (List.getElem?_eq_some_iff.mp hx).1
  have hlen := h.len
  have hnew : (ents ++ [(p, c)])[ents.length]? = some (p, c) := by simp
  refine ⟨by simp [hlen]; omega, by simp; omega, h.wf.snoc hp hp', ?_, ?_⟩
  · intro j q b hj
    by_cases hjl : j < ents.length
    · rw [List.getElem?_append_left hjl] at hj
      obtain ⟨m, hm, hmc, hml, hmr⟩ := h.chr j q b hj
      have hidx : 257 + j < vn.length := by omega
      by_cases hxj : x = 257 + j
      · subst hxj
        rw [hx] at hm
        obtain rfl : n = m := by simpa using hm
        refine ⟨n', ?_, by rw [hc, hmc], ?_, ?_⟩
        · rw [List.getElem?_append_left (by simpa using hidx)]
          simp [hidx]
        · rcases hl with hl | ⟨hl, j', b', hj', hb'⟩
          · rw [hl]; exact hml.mono _
          · have : j' = j := by omega
            subst this
            rw [hj] at hb'
            obtain ⟨rfl, rfl⟩ : q = p ∧ b = b' := by simpa using hb'
            exact Or.inr ⟨ents.length, c, by omega, by omega, hnew⟩
        · rcases hr with hl | ⟨hl, j', b', hj', hb'⟩
          · rw [hl]; exact hmr.mono _
          · have : j' = j := by omega
            subst this
            rw [hj] at hb'
            obtain ⟨rfl, rfl⟩ : q = p ∧ b = b' := by simpa using hb'
            exact Or.inr ⟨ents.length, c, by omega, by omega, hnew⟩
      · refine ⟨m, ?_, hmc, hml.mono _, hmr.mono _⟩
        rw [List.getElem?_append_left (by simpa using hidx), List.getElem?_set_ne hxj]
        exact hm
    · have hje : j = ents.length := by
        have := (List.getElem?_eq_some_iff.mp hj).1
        simp at this; omega
      subst hje
      rw [hnew] at hj
      obtain ⟨rfl, rfl⟩ : p = q ∧ c = b := by simpa using hj
      refine ⟨mkNode dms c, ?_, rfl, Or.inl rfl, Or.inl rfl⟩
      rw [List.getElem?_append_right (by simp; omega)]
      simp [hlen]
  · intro i m hm
    by_cases hi : i < vn.length
    · rw [List.getElem?_append_left (by simpa using hi)] at hm
      by_cases hxi : x = i
      · subst hxi
        rw [List.getElem?_set_self hi] at hm
        obtain rfl : n' = m := by simpa using hm
        rcases hf with hf | ⟨rfl, hf⟩
        · rw [hf]; exact (h.first x n hx).mono _
        · exact Or.inr ⟨ents.length, c, by omega, by omega, hnew⟩
      · rw [List.getElem?_set_ne hxi] at hm
        exact (h.first i m hm).mono _
    · have hie : i = vn.length := by
        have := (List.getElem?_eq_some_iff.mp hm).1
        simp at this; omega
      subst hie
      rw [List.getElem?_append_right (by simp)] at hm
      simp at hm
      subst hm
      exact Or.inl rfl

theorem descend_spec {dms : Nat} {vn : List Node} {ents : List (Nat × Byte)} (h : NodeInv dms vn ents)
    (hcap : vn.length < dms) (c : Byte) (p : Nat) (hp : p < 257 + ents.length) (hp' : p ≠ 256)
    (fuel j : Nat) (b : Byte) (hj : ents[j]? = some (p, b)) (hf : vn.length < fuel + (257 + j)) :
    (∃ j', ents[j']? = some (p, c) ∧ descend dms vn c fuel (257 + j) = ok (.inl (257 + j')))
    ∨ (∃ vn', descend dms vn c fuel (257 + j) = ok (.inr vn')
        ∧ NodeInv dms (vn' ++ [mkNode dms c]) (ents ++ [(p, c)])) := by
  induction fuel generalizing j b with
  | zero =>
    have := (List.getElem?_eq_some_iff.mp hj).1
    have := h.len
    omega
  | succ fuel ih =>
    obtain ⟨n, hn, hnc, hnl, hnr⟩ := h.chr j p b hj
    have hlen := h.len
    rw [descend, rd_ok hn, bind_ok]
    split
    · split
      · right
        exact ⟨_, rfl, h.insert hcap hp hp' hn rfl (Or.inl rfl) (Or.inr ⟨rfl, j, b, rfl, hj⟩) (Or.inl rfl)⟩
      · rename_i hne
        rcases hnl with hnl | ⟨j', b', h1, h2, h3⟩
        · exact absurd hnl hne
        · rw [h1]
          exact ih j' b' h3 (by omega)
    · split
      · split
        · right
          exact ⟨_, rfl, h.insert hcap hp hp' hn rfl (Or.inl rfl) (Or.inl rfl) (Or.inr ⟨rfl, j, b, rfl, hj⟩)⟩
        · rename_i hne
          rcases hnr with hnr | ⟨j', b', h1, h2, h3⟩
          · exact absurd hnr hne
          · rw [h1]
            exact ih j' b' h3 (by omega)
      · rename_i h1 h2
        left
        have := sc_inj c n.c h1 h2
        refine ⟨j, ?_, rfl⟩
        rw [this, hnc]; exact hj

/-- `search_and_insert`: either the pair is in the dictionary, or it is inserted as the next code. -/
theorem searchAndInsert_spec {dms : Nat} {vn : List Node} {ents : List (Nat × Byte)} (h : NodeInv dms vn ents)
    (hcap : vn.length < dms) (i : Nat) (c : Byte) (hi : i < 257 + ents.length) (hi' : i ≠ 256) :
    (∃ j', ents[j']? = some (i, c) ∧ searchAndInsert dms vn i c = ok (257 + j', vn))
    ∨ (∃ vn', searchAndInsert dms vn i c = ok (dms, vn') ∧ NodeInv dms vn' (ents ++ [(i, c)])) := by
  have hlen := h.len
  have hilt : i < vn.length := by omega
  have hne : i ≠ dms := by omega
  rw [searchAndInsert, if_neg hne, rd_ok (List.getElem?_eq_getElem hilt), bind_ok]
  have hn : vn[i]? = some vn[i] := List.getElem?_eq_getElem hilt
  generalize vn[i] = n at *
  split
  · rename_i hf
    rcases h.first i n hn with hf' | ⟨j, b, h1, h2, h3⟩
    · exact absurd hf' hf
    · rcases descend_spec h hcap c i hi hi' (vn.length + 1) j b h3 (by omega) with ⟨j', h4, h5⟩ | ⟨vn', h4, h5⟩
      · left; exact ⟨j', h4, by rw [h1, h5]; rfl⟩
      · right; exact ⟨_, by rw [h1, h4]; rfl, h5⟩
  · right
    exact ⟨_, rfl, h.insert hcap hi hi' hn rfl (Or.inr ⟨rfl, rfl⟩) (Or.inl rfl) (Or.inl rfl)⟩

/-! ### code widths -/

theorem lt_two_pow_requiredBits (n : Nat) : n < 2 ^ requiredBits n := by
  fun_induction requiredBits n with
  | case1 n h => omega
  | case2 n h ih => rw [Nat.pow_succ]; omega

theorem requiredBits_mono {m n : Nat} (h : m ≤ n) : requiredBits m ≤ requiredBits n := by
  fun_induction requiredBits n generalizing m with
  | case1 n h0 => rw [requiredBits, if_pos (by omega)]; omega
  | case2 n h0 ih =>
    rw [requiredBits]
    split
    · omega
    · have := ih (m := m / 2) (by omega); omega

theorem requiredBits_double (n : Nat) : requiredBits (2 * n + 1) ≤ requiredBits n + 1 := by
  rw [requiredBits]
  split
  · omega
  · have : (2 * n + 1) / 2 = n := by omega
    rw [this]; omega

theorem requiredBits_succ (n : Nat) : requiredBits (n + 1) ≤ requiredBits n + 1 := by
  by_cases h : n = 0
  · subst h; exact requiredBits_double 0
  · exact Nat.le_trans (requiredBits_mono (by omega)) (requiredBits_double n)

theorem requiredBits_257 : requiredBits 257 = 9 := by decide +kernel

end Verif.Lzw
