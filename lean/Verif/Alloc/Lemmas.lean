import Verif.Alloc.Spec
namespace Verif.Alloc
open Verif Res

structure Inv (s : St) : Prop where
  perm : (s.allocated ++ s.reserved).Perm s.live
  own : s.owned.Perm s.allocated
  disj : s.live.Pairwise Disjoint
  pos : ∀ b ∈ s.live, 0 < b.1
  log : s.obtained.Perm s.live
  rel : s.released = []

theorem Disjoint.symm {a b : Block} (h : Disjoint a b) : Disjoint b a := Or.symm h

theorem Inv.nodup {s : St} (h : Inv s) : s.live.Nodup := by
  refine h.disj.imp_of_mem ?_
  intro a b ha hb hd he
  subst he
  have := h.pos a ha
  unfold Disjoint at hd; omega

theorem Inv.init : Inv St.init := by
  refine ⟨by simp [St.init], by simp [St.init], by simp [St.init], by simp [St.init], by simp [St.init], rfl⟩

theorem setInsert_new {l : List Block} {b : Block} (h : b ∉ l) : setInsert l b = b :: l := by
  simp [setInsert, h]

/-- Two different live blocks do not overlap. -/
theorem Inv.disj_of_ne {s : St} (h : Inv s) {a b : Block} (ha : a ∈ s.live) (hb : b ∈ s.live) (hne : a ≠ b) : Disjoint a b := by
  obtain ⟨i, hi, rfl⟩ := List.getElem_of_mem ha
  obtain ⟨j, hj, rfl⟩ := List.getElem_of_mem hb
  have hp := List.pairwise_iff_getElem.mp h.disj
  rcases Nat.lt_trichotomy i j with hlt | heq | hgt
  · exact hp i j hi hj hlt
  · subst heq; exact absurd rfl hne
  · exact (hp j i hj hi hgt).symm

/-- Outcome of a legal allocation. -/
theorem Inv.allocate {s : St} (h : Inv s) {size pick : Nat} {sys1 sys2 : Option Nat} (hs : 0 < size)
    (hf : FreshAnswer s size sys1) (hok : sys1 = none → s.reserved = []) :
    (sys1 = none ∧ allocate s size pick sys1 sys2 = abort) ∨
    ∃ s' a, allocate s size pick sys1 sys2 = ok (s', a) ∧ Inv s' ∧ s'.owned = (size, a) :: s.owned
      ∧ (∀ b ∈ s.owned, Disjoint (size, a) b) ∧ (size, a) ∈ s'.live
      ∧ (∀ x, Inside (size, a) x → s'.mem x = 0) ∧ (∀ x, ¬ Inside (size, a) x → s'.mem x = s.mem x) := by
  have hnd := h.nodup
  rcases hfil : (s.reserved.filter (fun b => b.1 = size))[pick % (s.reserved.filter (fun b => b.1 = size)).length]? with _ | b
  · -- no reserved block
    cases hsys : sys1 with
    | none =>
      left
      refine ⟨rfl, ?_⟩
      simp only [Alloc.allocate, cacheAllocate, hfil, gc]
      rw [if_pos (hok hsys)]
      rfl
    | some a =>
      right
      have hfresh := hf a hsys
      have hnl : (size, a) ∉ s.live := by
        intro hm
        have := hfresh _ hm
        unfold Disjoint at this; simp at this; omega
      have hna : (size, a) ∉ s.allocated := by
        intro hm; exact hnl (h.perm.subset (List.mem_append_left _ hm))
      refine ⟨{ s with
          allocated := (size, a) :: s.allocated, live := (size, a) :: s.live, obtained := s.obtained ++ [(size, a)],
          owned := (size, a) :: s.owned, mem := fun x => if a ≤ x ∧ x < a + size then 0 else s.mem x },
        a, by simp [Alloc.allocate, cacheAllocate, hfil, obtain, memset0, setInsert_new hna], ?_, rfl, ?_, ?_, ?_, ?_⟩
      · refine ⟨?_, ?_, ?_, ?_, ?_, h.rel⟩
        · simpa using h.perm
        · exact h.own.cons _
        · exact List.pairwise_cons.mpr ⟨hfresh, h.disj⟩
        · intro b hb
          rcases List.mem_cons.mp hb with rfl | hb
          · exact hs
          · exact h.pos b hb
        · exact (List.perm_append_singleton _ _).trans (h.log.cons _)
      · intro b hb
        exact hfresh b (h.perm.subset (List.mem_append_left _ (h.own.subset hb)))
      · simp
      · intro x hx; simp only [Inside] at hx; simp [hx]
      · intro x hx; simp only [Inside] at hx; simp only [hx, if_false]
  · -- a reserved block is used again
    right
    have hmf := List.mem_of_getElem? hfil
    rw [List.mem_filter] at hmf
    obtain ⟨hbr, hbs⟩ := hmf
    have hbs : b.1 = size := by simpa using hbs
    have hbe : (size, b.2) = b := by rw [← hbs]
    have hblive : b ∈ s.live := h.perm.subset (List.mem_append_right _ hbr)
    have hnd2 : (s.allocated ++ s.reserved).Nodup := h.perm.nodup_iff.mpr hnd
    have hna : b ∉ s.allocated := by
      intro hm
      exact (List.nodup_append.mp hnd2).2.2 b hm b hbr rfl
    refine ⟨{ s with
        allocated := b :: s.allocated, reserved := s.reserved.erase b, owned := b :: s.owned,
        mem := fun x => if b.2 ≤ x ∧ x < b.2 + size then 0 else s.mem x }, b.2,
      by simp [Alloc.allocate, cacheAllocate, hfil, memset0, hbe, hblive, setInsert_new hna], ?_, ?_, ?_, ?_, ?_, ?_⟩
    · refine ⟨?_, h.own.cons _, h.disj, h.pos, h.log, h.rel⟩
      refine List.Perm.trans ?_ h.perm
      have := (List.perm_cons_erase hbr).symm
      rw [List.cons_append]
      exact (List.perm_middle.symm.trans (List.Perm.append_left _ this))
    · simp [hbe]
    · intro c hc
      rw [hbe]
      have hca := h.own.subset hc
      refine h.disj_of_ne hblive (h.perm.subset (List.mem_append_left _ hca)) ?_
      rintro rfl; exact hna hca
    · simpa [hbe] using hblive
    · intro x hx
      simp only [Inside] at hx
      simp [hx]
    · intro x hx
      simp only [Inside] at hx
      simp only [hx, if_false]

theorem Inv.deallocate {s : St} (h : Inv s) {b : Block} (hb : b ∈ s.owned) : Inv (deallocate s b) := by
  have hba : b ∈ s.allocated := h.own.subset hb
  refine ⟨?_, ?_, h.disj, h.pos, h.log, h.rel⟩
  · refine List.Perm.trans ?_ h.perm
    simp only [Alloc.deallocate]
    refine List.perm_middle.trans ?_
    rw [← List.cons_append]
    exact (List.perm_cons_erase hba).symm.append_right _
  · simp only [Alloc.deallocate]
    exact h.own.erase b

theorem Inv.step {s s' : St} (h : Inv s) {o : Op} (ho : LegalF s o) (hs : Alloc.step s o = ok s') : Inv s' := by
  cases o with
  | allocate size pick sys1 sys2 =>
    obtain ⟨h1, h2, h3⟩ := ho
    rcases h.allocate (pick := pick) (sys2 := sys2) h1 h3 h2 with ⟨_, hx⟩ | ⟨s2, a, hx, hi, -⟩
    · simp [Alloc.step, hx] at hs
    · simp only [Alloc.step, hx, bind_ok] at hs; cases hs; exact hi
  | deallocate b => simp only [Alloc.step] at hs; cases hs; exact h.deallocate ho
  | write x v => simp only [Alloc.step] at hs; cases hs; exact ⟨h.perm, h.own, h.disj, h.pos, h.log, h.rel⟩

theorem Legal.toF {s : St} {o : Op} (h : Legal s o) : LegalF s o := by
  cases o with
  | allocate size pick sys1 sys2 => exact ⟨h.1, fun hn => absurd hn h.2.1, h.2.2⟩
  | deallocate b => exact h
  | write x v => exact h

theorem ReachF.inv {s : St} (h : ReachF s) : Inv s := by
  induction h with
  | init => exact Inv.init
  | step _ hl hs ih => exact ih.step hl hs

theorem Reach.inv {s : St} (h : Reach s) : Inv s := by
  induction h with
  | init => exact Inv.init
  | step _ hl hs ih => exact ih.step hl.toF hs

/-- Releasing live blocks one by one. -/
theorem sysFreeAll_ok (l : List Block) (s : St) (rest : List Block) (h : s.live.Perm (l ++ rest)) :
    ∃ s', sysFreeAll s l = ok s' ∧ s'.live.Perm rest ∧ s'.released = s.released ++ l ∧ s'.obtained = s.obtained
      ∧ s'.reserved = s.reserved := by
  induction l generalizing s with
  | nil => exact ⟨s, rfl, by simpa using h, by simp, rfl, rfl⟩
  | cons b l ih =>
    have hb : b ∈ s.live := h.mem_iff.mpr (by simp)
    have h2 : (s.live.erase b).Perm (l ++ rest) := by
      have := h.erase b
      simpa using this
    obtain ⟨s', a1, a2, a3, a4, a5⟩ := ih { s with live := s.live.erase b, released := s.released ++ [b] } h2
    refine ⟨s', ?_, a2, by simpa using a3, a4, a5⟩
    rw [sysFreeAll, sysFree, if_pos hb, bind_ok, a1]

end Verif.Alloc
