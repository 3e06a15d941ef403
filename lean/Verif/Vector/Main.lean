import Verif.Vector.Props
/-!
# Programs with vectors
-/
namespace Verif.Vector
open Verif Res

variable {w : Nat}

/-- No vector yet. -/
def noVals (w : Nat) : Vals w := fun _ => none

theorem R.init : R w St.init (noVals w) [] [] :=
  ⟨Alloc.Inv.init, List.nodup_nil, fun x => by simp [St.init],
    by simp [blocks, St.init, Alloc.St.init], fun _ _ => rfl, fun _ _ h => by cases h⟩

theorem R.holds {s : St} {σ : Vals w} {ns L} (h : R w s σ ns L) : Holds w s σ := by
  intro x
  cases hv : s.vec x with
  | none => rw [h.none x hv]; trivial
  | some v =>
    obtain ⟨l, e, h1, h2⟩ := h.some x v hv
    rw [e]
    exact ⟨h1, fun i hi k => congrFun (h2 i hi) k⟩

/-- The blocks of two vectors with elements do not overlap, and both are held. -/
def Apart (w : Nat) (s : St) : Prop :=
  ∀ x v, s.vec x = some v → v.size ≠ 0 → v.block w ∈ s.a.owned ∧
    ∀ y u, y ≠ x → s.vec y = some u → u.size ≠ 0 → Alloc.Disjoint (v.block w) (u.block w)

theorem R.apart {s : St} {σ : Vals w} {ns L} (h : R w s σ ns L) : Apart w s := by
  intro x v hx hv
  have g := h.focus hx
  refine ⟨g.mem hv, fun y u hyx hy hu => g.disj hv _ (other hy ?_ hu)⟩
  exact (List.mem_erase_of_ne hyx).mpr ((h.names y).mpr (by rw [hy]; simp))

/-- Blocks nobody points to. -/
def Orphan (w : Nat) (s : St) (b : Alloc.Block) : Prop :=
  b ∈ s.a.owned ∧ ∀ x v, s.vec x = some v → v.size ≠ 0 → v.block w ≠ b

theorem owned_nodup {a : Alloc.St} (h : Alloc.Inv a) : a.owned.Nodup := by
  have h1 : (a.allocated ++ a.reserved).Nodup := h.perm.nodup_iff.mpr h.nodup
  exact h.own.nodup_iff.mpr (List.nodup_append.mp h1).1

theorem R.orphan {s : St} {σ : Vals w} {ns L} (h : R w s σ ns L) (b : Alloc.Block) :
    Orphan w s b ↔ b ∈ L := by
  constructor
  · rintro ⟨h1, h2⟩
    rcases List.mem_append.mp (h.own.symm.subset h1) with h3 | h3
    · exfalso
      obtain ⟨x, -, hb⟩ := List.mem_flatMap.mp h3
      unfold blkOf at hb
      cases hv : s.vec x with
      | none => rw [hv] at hb; cases hb
      | some v =>
        rw [hv] at hb
        by_cases h0 : v.size = 0
        · simp [blk, h0] at hb
        · simp only [blk, if_neg h0, List.mem_singleton] at hb
          exact h2 x v hv h0 hb.symm
    · exact h3
  · intro hb
    refine ⟨h.own.subset (List.mem_append_right _ hb), fun x v hx hv e => ?_⟩
    have hn := h.own.nodup_iff.mpr (owned_nodup h.inv)
    have hx' : x ∈ ns := (h.names x).mpr (by rw [hx]; simp)
    have hm : v.block w ∈ blocks w s.vec ns :=
      List.mem_flatMap.mpr ⟨x, hx', by simp [blkOf, hx, blk, hv]⟩
    exact (List.nodup_append.mp hn).2.2 _ hm _ hb e

theorem run_append (E : Env) (s : St) (p q : List (Op w)) :
    run E s (p ++ q) = run E s p >>= fun s => run E s q := by
  induction p generalizing s with
  | nil => rfl
  | cons o p ih =>
    rw [List.cons_append]
    simp only [run]
    cases step E s o with
    | ok s => simp only [bind_ok]; exact ih s
    | abort => rfl
    | ub => rfl

theorem meanings_append (σ : Vals w) (p q : List (Op w)) :
    meanings σ (p ++ q) = (meanings σ p).bind fun σ => meanings σ q := by
  induction p generalizing σ with
  | nil => rfl
  | cons o p ih =>
    rw [List.cons_append]
    simp only [meanings]
    cases meaning σ o with
    | none => rfl
    | some σ => exact ih σ

/-- A program; blocks once lost stay lost. -/
theorem run_ok {E : Env} (hE : E.Fresh) (hw : 0 < w) (ops : List (Op w)) {s : St} {σ σ' : Vals w}
    {ns L} (h : R w s σ ns L) (hm : meanings σ ops = some σ') (hs : ∀ o ∈ ops, ¬ SelfMove o) :
    ∃ s' ns' L', run E s ops = ok s' ∧ R w s' σ' ns' (L' ++ L) ∧
      (NoMoveOver σ ops → L' = []) := by
  induction ops generalizing s σ ns L with
  | nil => cases hm; exact ⟨s, ns, [], rfl, h, fun _ => rfl⟩
  | cons o ops ih =>
    obtain ⟨σ1, h1, h2⟩ := Option.bind_eq_some_iff.mp hm
    obtain ⟨s1, ns1, e1, r1⟩ := step_ok hE hw h h1 (fun x => absurd x (hs o List.mem_cons_self))
    obtain ⟨s2, ns2, L2, e2, r2, n2⟩ := ih r1 h2 (fun o ho => hs o (List.mem_cons_of_mem _ ho))
    refine ⟨s2, ns2, L2 ++ lost s o, by simp only [run, e1, bind_ok, e2], ?_, fun hn => ?_⟩
    · rw [List.append_assoc]; exact r2
    · rw [n2 (hn.2 σ1 h1), List.nil_append]
      have hn1 := hn.1
      cases o with
      | moveAssign x y =>
        have hx : σ x = some [] := by
          by_contra hc; exact hn1 hc
        obtain ⟨v, hv, hl, -⟩ := h.of_val hx
        have h0 : v.size = 0 := hl.1
        simp [lost, blkOf, hv, blk, h0]
      | _ => rfl

/-- Full statement: for every program that has a meaning.  Missing: programs that move a vector to
itself. -/
theorem vectors_are_values_partial {E : Env} (hE : E.Fresh) (hw : 0 < w) (ops : List (Op w))
    {σ : Vals w} (hm : meanings (noVals w) ops = some σ) (hs : ∀ o ∈ ops, ¬ SelfMove o) :
    ∃ s, run E St.init ops = ok s ∧ Holds w s σ ∧ Apart w s := by
  obtain ⟨s, ns, L, e, r, -⟩ := run_ok hE hw ops R.init hm hs
  exact ⟨s, e, r.holds, r.apart⟩

/-- Full statement: for every program that has a meaning.  Missing: programs that move into a vector
that has elements. -/
theorem vectors_give_back_partial {E : Env} (hE : E.Fresh) (hw : 0 < w) (ops : List (Op w))
    {σ : Vals w} (hm : meanings (noVals w) ops = some σ) (hs : ∀ o ∈ ops, ¬ SelfMove o)
    (hn : NoMoveOver (noVals w) ops) :
    ∃ s, run E St.init ops = ok s ∧ (∀ b, ¬ Orphan w s b) ∧
      ((∀ x, σ x = none) → s.a.owned = []) := by
  obtain ⟨s, ns, L, e, r, n⟩ := run_ok hE hw ops R.init hm hs
  rw [n hn] at r
  refine ⟨s, e, fun b hb => ?_, fun hx => ?_⟩
  · exact absurd ((r.orphan b).mp hb) (by simp)
  · have : ns = [] := by
      refine List.eq_nil_iff_forall_not_mem.mpr fun x hm => ?_
      exact (r.of_none (hx x)).2 hm
    subst this
    exact (List.nil_perm.mp (by simpa [blocks] using r.own))

/-- Moving into a vector that has elements: its block is lost; whatever the program does afterwards
(even when no vector is left), the block stays held and no vector points to it. -/
theorem move_assign_violated {E : Env} (hE : E.Fresh) (hw : 0 < w) (ops more : List (Op w))
    {x y : Nat} (hxy : x ≠ y) {σ σ' : Vals w} {l : List (Elem w)}
    (hm : meanings (noVals w) ops = some σ) (hx : σ x = some l) (hl : l ≠ [])
    (hm' : meanings (noVals w) (ops ++ .moveAssign x y :: more) = some σ')
    (hs : ∀ o ∈ ops ++ more, ¬ SelfMove o) :
    ∃ s' b, run E St.init (ops ++ .moveAssign x y :: more) = ok s' ∧ b.1 = l.length * w ∧
      Orphan w s' b := by
  rw [meanings_append, hm, Option.bind_some] at hm'
  obtain ⟨σ1, h1, h2⟩ := Option.bind_eq_some_iff.mp hm'
  obtain ⟨s, ns, L, e, r, -⟩ :=
    run_ok hE hw ops R.init hm (fun o ho => hs o (List.mem_append_left _ ho))
  obtain ⟨s1, ns1, e1, r1⟩ := step_ok (o := .moveAssign x y) hE hw r h1 (fun h => absurd h hxy)
  obtain ⟨s2, ns2, L2, e2, r2, -⟩ :=
    run_ok hE hw more r1 h2 (fun o ho => hs o (List.mem_append_right _ ho))
  obtain ⟨v, hv, hvl, -⟩ := r.of_val hx
  have h0 : v.size ≠ 0 := by
    rw [hvl.1]; exact fun h => hl (List.length_eq_zero_iff.mp h)
  refine ⟨s2, v.block w, ?_, by rw [← hvl.1]; rfl, (r2.orphan _).mpr ?_⟩
  · rw [run_append, e, bind_ok]
    simp only [run, e1, bind_ok, e2]
  · simp [lost, blkOf, hv, blk, h0]

/-- Moving a vector that has elements to itself leaves it empty and its block to nobody, while its
contents are meant to stay. -/
theorem self_move_violated {E : Env} (hE : E.Fresh) (hw : 0 < w) (ops : List (Op w)) {x : Nat}
    {σ : Vals w} {l : List (Elem w)} (hm : meanings (noVals w) ops = some σ) (hx : σ x = some l)
    (hl : l ≠ []) (hs : ∀ o ∈ ops, ¬ SelfMove o) :
    meanings (noVals w) (ops ++ [.moveAssign x x]) = some σ ∧
    ∃ s b, run E St.init (ops ++ [.moveAssign x x]) = ok s ∧ s.vec x = some Vec.null ∧
      ¬ Holds w s σ ∧ b.1 = l.length * w ∧ Orphan w s b := by
  obtain ⟨s, ns, L, e, r, -⟩ := run_ok hE hw ops R.init hm hs
  obtain ⟨v, hv, hvl, -⟩ := r.of_val hx
  have h0 : v.size ≠ 0 := by
    rw [hvl.1]; exact fun h => hl (List.length_eq_zero_iff.mp h)
  have r1 := r.self hv
  constructor
  · rw [meanings_append, hm]
    simp only [meanings, meaning, Option.bind_some, hx, Option.map_some, put_put]
    congr 1
    funext y; unfold put; split
    · rename_i h; subst h; exact hx.symm
    · rfl
  · refine ⟨_, v.block w, ?_, ?_, ?_, by rw [← hvl.1]; rfl, (r1.orphan _).mpr ?_⟩
    · rw [run_append, e, bind_ok]
      simp only [run, step, get_ok hv, bind_ok, pure_eq, put_put]
    · exact put_self _ _ _
    · intro hh
      have := hh x
      simp only [put_self, hx] at this
      exact hl (List.length_eq_zero_iff.mp this.1.symm)
    · simp [blk, h0]

/-! ## Examples -/

/-- A system that always answers with an address behind all its blocks. -/
def env0 : Env := ⟨fun a _ => (a.live.map fun b => b.2 + b.1).foldr max 1, fun _ _ => 0⟩

theorem le_foldr_max (l : List Nat) (m : Nat) : ∀ x ∈ l, x ≤ l.foldr max m := by
  induction l with
  | nil => intro x h; cases h
  | cons y l ih =>
    intro x h
    rcases List.mem_cons.mp h with rfl | h
    · exact le_max_left _ _
    · exact (ih x h).trans (le_max_right _ _)

theorem env0_fresh : env0.Fresh := by
  intro a n p hp b hb
  cases hp
  right
  exact le_foldr_max _ _ _ (List.mem_map.mpr ⟨b, hb, rfl⟩)

/-- A program with two vectors of elements of two bytes. -/
def demo : List (Op 2) :=
  [.make 0 3 (fun _ => 7), .copyMake 1 0, .set 1 2 (fun k => k.val), .resize 0 2, .assign 0 1,
   .assign 0 0, .moveMake 2 1]

theorem demo_meaning : ∃ σ, meanings (noVals 2) demo = some σ ∧
    σ 0 = some [fun _ => 7, fun _ => 7, fun k => k.val] ∧ σ 1 = some [] ∧
    σ 2 = some [fun _ => 7, fun _ => 7, fun k => k.val] :=
  ⟨_, rfl, rfl, rfl, rfl⟩

theorem demo_noSelf : ∀ o ∈ demo, ¬ SelfMove o := by
  intro o ho
  simp only [demo, List.mem_cons, List.not_mem_nil, or_false] at ho
  rcases ho with rfl | rfl | rfl | rfl | rfl | rfl | rfl <;> exact id

theorem demo_noMoveOver : NoMoveOver (noVals 2) demo := by
  refine ⟨id, fun _ _ => ⟨id, fun _ _ => ⟨id, fun _ _ => ⟨id, fun _ _ => ⟨id, fun _ _ =>
    ⟨id, fun _ _ => ⟨id, fun _ _ => trivial⟩⟩⟩⟩⟩⟩⟩

example : ∃ s σ, run env0 St.init demo = ok s ∧ Holds 2 s σ ∧ Apart 2 s ∧ ∀ b, ¬ Orphan 2 s b := by
  obtain ⟨σ, h, -⟩ := demo_meaning
  obtain ⟨s, e, h1, h2⟩ := vectors_are_values_partial env0_fresh (by decide) demo h demo_noSelf
  obtain ⟨s', e', h3, -⟩ :=
    vectors_give_back_partial env0_fresh (by decide) demo h demo_noSelf demo_noMoveOver
  rw [e] at e'
  cases e'
  exact ⟨s, σ, e, h1, h2, h3⟩

/-- Moving over vector `0` and destroying all vectors leaves six bytes held by nobody. -/
example : ∃ s' b, run env0 St.init
    (demo ++ .moveAssign 0 2 :: [.destroy 0, .destroy 1, .destroy 2]) = ok s' ∧ b.1 = 6 ∧
    Orphan 2 s' b := by
  obtain ⟨σ, h, h0, -⟩ := demo_meaning
  refine move_assign_violated env0_fresh (by decide) demo [.destroy 0, .destroy 1, .destroy 2]
    (by decide) h h0 (by simp) (σ' := _) rfl ?_
  intro o ho
  rcases List.mem_append.mp ho with ho | ho
  · exact demo_noSelf o ho
  · simp only [List.mem_cons, List.not_mem_nil, or_false] at ho
    rcases ho with rfl | rfl | rfl <;> exact id

example : ∃ s b, run env0 St.init (demo ++ [.moveAssign 0 0]) = ok s ∧
    s.vec 0 = some Vec.null ∧ Orphan 2 s b := by
  obtain ⟨σ, h, h0, -⟩ := demo_meaning
  obtain ⟨-, s, b, h1, h2, -, -, h3⟩ :=
    self_move_violated env0_fresh (by decide) demo h h0 (by simp) demo_noSelf
  exact ⟨s, b, h1, h2, h3⟩

end Verif.Vector
