import Verif.Tensor.Lemmas
/-!
# Helper lemmas: sizes along histories
-/
namespace Verif.Tensor
open Verif Res

variable {α : Type}

theorem SizesMatch.of_sameLens {e : List Tn} {h h' : Heap α} (hm : SizesMatch (e, h)) (hs : SameLens h h') :
    SizesMatch (e, h') := by
  intro t ht
  have := hm t ht
  rw [sizeT_eq] at this ⊢
  rw [hs.get]; exact this

theorem sizeT_append {h : Heap α} {t : Tn} {n : Nat} (e : sizeT h t = ok n) (b : List (List α)) : sizeT (h ++ b) t = ok n := by
  rw [sizeT_eq, Option.map_eq_some_iff] at e
  obtain ⟨x, hx, hn⟩ := e
  rw [sizeT_eq, List.getElem?_append_left (List.getElem?_eq_some_iff.mp hx).1, hx]
  simp [hn]

theorem sizesMatch_push {e : List Tn} {h : Heap α} (hm : SizesMatch (e, h)) {b : List α} {s : List Nat} (hb : b.length = size s) :
    SizesMatch (e ++ [⟨s, h.length⟩], h ++ [b]) := by
  intro t ht
  rcases List.mem_append.mp ht with ht | ht
  · exact sizeT_append (hm t ht) _
  · simp only [List.mem_singleton] at ht
    subst ht
    rw [sizeT_eq]; simp [hb]

/-- Replacing the variable `i` by one with the same storage, whose length now fits the new shape. -/
theorem sizesMatch_set {e : List Tn} {h : Heap α} (hm : SizesMatch (e, h)) {i : Nat} {t : Tn} (ht : e[i]? = some t)
    {b b' : List α} (hb : h[t.loc]? = some b) {s : List Nat} (hs : b'.length = size s)
    (hu : b'.length = b.length ∨ Unshared (e, h) i) : SizesMatch (e.set i ⟨s, t.loc⟩, h.set t.loc b') := by
  have hl : t.loc < h.length := (List.getElem?_eq_some_iff.mp hb).1
  have hi : i < e.length := (List.getElem?_eq_some_iff.mp ht).1
  intro u hu'
  obtain ⟨j, hj⟩ := List.mem_iff_getElem?.mp hu'
  rw [List.getElem?_set] at hj
  rw [sizeT_eq]
  by_cases hij : i = j
  · subst hij
    rw [if_pos rfl, if_pos hi] at hj
    cases hj
    simp only
    rw [List.getElem?_set_self hl]; simp [hs]
  · rw [if_neg hij] at hj
    have hmem : u ∈ e := List.mem_iff_getElem?.mpr ⟨j, hj⟩
    have hsz := hm u hmem
    rw [sizeT_eq] at hsz
    by_cases hul : u.loc = t.loc
    · rcases hu with hu | hu
      · simp only at hsz ⊢
        rw [hul] at hsz ⊢
        rw [List.getElem?_set_self hl]
        rw [hb] at hsz
        simp only [Option.map_some] at hsz ⊢
        rw [hu]; exact hsz
      · exact absurd (hu t ht j u hj hul).symm hij
    · simp only
      rw [List.getElem?_set_ne (Ne.symm hul)]; exact hsz

theorem vecResize_length [Zero α] (b : List α) (n : Nat) : (vecResize b n).length = n := by
  unfold vecResize; split <;> simp_all

theorem resize_ok [Zero α] {h : Heap α} {t : Tn} {b : List α} (hb : h[t.loc]? = some b) (s : List Nat) :
    resize h t s = ok (⟨s, t.loc⟩, h.set t.loc (vecResize b (size s))) := by
  simp only [resize, rd_ok hb, bind_ok, wr_ok (List.getElem?_eq_some_iff.mp hb).1, pure_eq]

theorem resize_eq_ok [Zero α] {h : Heap α} {t : Tn} {s : List Nat} {r : Tn × Heap α} (e : resize h t s = ok r) :
    ∃ b, h[t.loc]? = some b ∧ r = (⟨s, t.loc⟩, h.set t.loc (vecResize b (size s))) := by
  simp only [resize, bind_eq_ok, rd_eq_ok, wr_eq_ok, pure_eq, ok.injEq] at e
  obtain ⟨b, hb, _, ⟨_, rfl⟩, rfl⟩ := e
  exact ⟨b, hb, rfl⟩

theorem size_dropLast_append (s : List Nat) (n : Nat) : size (s.dropLast ++ [n]) = size s.dropLast * n := by
  rw [size_append]; simp

theorem step_sizesMatch [Zero α] {s s' : State α} {c : Cmd α} (hm : SizesMatch s) (hd : Disciplined s c) (e : step s c = ok s') :
    SizesMatch s' := by
  obtain ⟨env, h⟩ := s
  cases c with
  | new shape v =>
    simp only [step, newT, ok.injEq] at e
    subst e
    exact sizesMatch_push hm (by simp)
  | init shape vs =>
    simp only [step, newInit, bind_eq_ok, Res.assert, pure_eq, ok.injEq] at e
    obtain ⟨r, ⟨_, ha, rfl⟩, rfl⟩ := e
    split at ha
    · next hl => exact sizesMatch_push hm hl
    · cases ha
  | copy i =>
    simp only [step, bind_eq_ok, rd_eq_ok, pure_eq, ok.injEq] at e
    obtain ⟨t, ht, rfl⟩ := e
    intro u hu
    rcases List.mem_append.mp hu with hu | hu
    · exact hm u hu
    · simp only [List.mem_singleton] at hu
      subst hu
      exact hm u (List.mem_iff_getElem?.mpr ⟨i, ht⟩)
  | assign i j =>
    simp only [step, bind_eq_ok, rd_eq_ok, wr_eq_ok, pure_eq, ok.injEq] at e
    obtain ⟨t, ht, _, ⟨_, rfl⟩, rfl⟩ := e
    intro u hu
    rcases List.mem_or_eq_of_mem_set hu with hu | rfl
    · exact hm u hu
    · exact hm u (List.mem_iff_getElem?.mpr ⟨j, ht⟩)
  | resize i shape =>
    simp only [step, bind_eq_ok, rd_eq_ok, wr_eq_ok, pure_eq, ok.injEq] at e
    obtain ⟨t, ht, r, hr, _, ⟨_, rfl⟩, rfl⟩ := e
    obtain ⟨b, hb, rfl⟩ := resize_eq_ok hr
    refine sizesMatch_set hm ht hb (vecResize_length _ _) ?_
    rcases hd with ⟨t', b', h1, h2, h3⟩ | hd
    · left
      simp only at h1 h2
      rw [ht] at h1; cases h1
      rw [hb] at h2; cases h2
      rw [vecResize_length, h3]
    · exact Or.inr hd
  | reshape i shape =>
    simp only [step, bind_eq_ok, rd_eq_ok, wr_eq_ok, pure_eq, ok.injEq] at e
    obtain ⟨t, ht, r, hr, _, ⟨_, rfl⟩, rfl⟩ := e
    have hd' : ∀ b, h[t.loc]? = some b → b.length = askedSize b.length shape ∨ Unshared (env, h) i := by
      intro b hb
      rcases hd with ⟨t', b', h1, h2, h3⟩ | hd
      · left
        simp only at h1 h2
        rw [ht] at h1; cases h1
        rw [hb] at h2; cases h2
        exact h3
      · exact Or.inr hd
    simp only [Tensor.reshape, bind_eq_ok, rd_eq_ok] at hr
    obtain ⟨b, hb, _, _, hr⟩ := hr
    have key : ∀ s' : List Nat, size s' = askedSize b.length shape →
        (if b.length ≠ size s' then Tensor.resize h t s' else pure (⟨s', t.loc⟩, h)) = ok r →
        SizesMatch (env.set i r.1, r.2) := by
      intro s' hs hr
      split at hr
      · next hne =>
        obtain ⟨b', hb', rfl⟩ := resize_eq_ok hr
        rw [hb] at hb'; cases hb'
        refine sizesMatch_set hm ht hb (vecResize_length _ _) ?_
        rcases hd' b hb with hd | hd
        · rw [hs] at hne; exact absurd hd hne
        · exact Or.inr hd
      · next hne =>
        simp only [pure_eq, ok.injEq] at hr
        subst hr
        have := sizesMatch_set hm ht hb (b' := b) (s := s') (not_not.mp hne) (Or.inl rfl)
        rw [set_self_of_getElem? hb] at this
        exact this
    split at hr
    · next hlast =>
      simp only [bind_eq_ok] at hr
      obtain ⟨_, _, hr⟩ := hr
      exact key _ (by rw [size_dropLast_append, askedSize, if_pos hlast]) hr
    · next hlast =>
      exact key _ (by rw [askedSize, if_neg hlast]) hr
  | deepCopy i =>
    simp only [step, Tensor.deepCopy, newT, bind_eq_ok, rd_eq_ok, wr_eq_ok, pure_eq, ok.injEq] at e
    obtain ⟨t, ht, r, ⟨b, hb, d, hd, _, ⟨hl, rfl⟩, rfl⟩, rfl⟩ := e
    have hlen := copyN_length hd
    have : (h ++ [List.replicate (size t.shape) (0:α)]).set h.length d = h ++ [d] := by
      rw [List.set_append_right _ _ (Nat.le_refl _)]; simp
    simp only [this]
    exact sizesMatch_push hm (by rw [hlen]; simp)
  | deepCopyFrom i j =>
    simp only [step, bind_eq_ok, rd_eq_ok, wr_eq_ok, pure_eq, ok.injEq] at e
    obtain ⟨t, ht, o, ho, r, hr, _, ⟨_, rfl⟩, rfl⟩ := e
    simp only [Tensor.deepCopyFrom, bind_eq_ok, rd_eq_ok, wr_eq_ok, pure_eq, ok.injEq] at hr
    obtain ⟨r', hr', dst, hdst, src, hsrc, d, hcp, _, ⟨hl, rfl⟩, rfl⟩ := hr
    obtain ⟨b, hb, rfl⟩ := resize_eq_ok hr'
    have hlen := copyN_length hcp
    have hlt : t.loc < h.length := (List.getElem?_eq_some_iff.mp hb).1
    simp only [List.getElem?_set_self hlt, Option.some.injEq] at hdst
    subst hdst
    rw [vecResize_length] at hlen
    simp only [List.set_set]
    refine sizesMatch_set hm ht hb hlen ?_
    rcases hd with ⟨t', o', b', h1, h2, h3, h4⟩ | hd
    · left
      simp only at h1 h2 h3
      rw [ht] at h1; cases h1
      rw [ho] at h2; cases h2
      rw [hb] at h3; cases h3
      rw [hlen, h4]
    · exact Or.inr hd
  | opAssign f i j =>
    simp only [step, Tensor.opAssign, bind_eq_ok, rd_eq_ok, pure_eq, ok.injEq] at e
    obtain ⟨t, ht, o, ho, h', ⟨_, _, hz⟩, rfl⟩ := e
    exact hm.of_sameLens (zipInto_sameLens hz)
  | map f i =>
    simp only [step, bind_eq_ok, rd_eq_ok, pure_eq, ok.injEq] at e
    obtain ⟨t, ht, h', hz, rfl⟩ := e
    exact hm.of_sameLens (mapT_sameLens hz)
  | reset i v =>
    simp only [step, Tensor.reset, bind_eq_ok, rd_eq_ok, wr_eq_ok, pure_eq, ok.injEq] at e
    obtain ⟨t, ht, h', ⟨b, hb, _, rfl⟩, rfl⟩ := e
    exact hm.of_sameLens (sameLens_set hb (by simp))
  | set i k v =>
    simp only [step, bind_eq_ok, rd_eq_ok, pure_eq, ok.injEq] at e
    obtain ⟨t, ht, h', hz, rfl⟩ := e
    exact hm.of_sameLens (setT_sameLens hz)

end Verif.Tensor
