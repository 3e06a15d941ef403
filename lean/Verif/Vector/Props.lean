import Verif.Vector.Lemmas
/-!
# Vectors are values; who gives back the blocks
-/
namespace Verif.Vector
open Verif Res

variable {w : Nat}

/-- The block of the vector called `x`. -/
def blkOf (w : Nat) (f : Nat → Option Vec) (x : Nat) : List Alloc.Block :=
  match f x with
  | some v => blk w v
  | none => []

/-- The blocks of some vectors. -/
def blocks (w : Nat) (f : Nat → Option Vec) (ns : List Nat) : List Alloc.Block :=
  ns.flatMap (blkOf w f)

/-- The vectors called `ns` hold the contents `σ`; the blocks held are theirs, one each, and those
of `L`, which no vector points to. -/
structure R (w : Nat) (s : St) (σ : Vals w) (ns : List Nat) (L : List Alloc.Block) : Prop where
  inv : Alloc.Inv s.a
  nodup : ns.Nodup
  names : ∀ x, x ∈ ns ↔ s.vec x ≠ none
  own : (blocks w s.vec ns ++ L).Perm s.a.owned
  none : ∀ x, s.vec x = none → σ x = none
  some : ∀ x v, s.vec x = some v → ∃ l, σ x = some l ∧ HasV s.a v l

theorem put_self {β : Type} (f : Nat → β) (x : Nat) (b : β) : put f x b x = b := by simp [put]
theorem put_ne {β : Type} (f : Nat → β) {x y : Nat} (b : β) (h : y ≠ x) : put f x b y = f y := by
  simp [put, h]

theorem blocks_put {f : Nat → Option Vec} {x : Nat} {o : Option Vec} {ns : List Nat} (h : x ∉ ns) :
    blocks w (put f x o) ns = blocks w f ns := by
  unfold blocks
  refine List.flatMap_congr fun y hy => ?_
  unfold blkOf
  rw [put_ne]
  rintro rfl; exact h hy

theorem blkOf_put (f : Nat → Option Vec) (x : Nat) (v : Vec) :
    blkOf w (put f x (Option.some v)) x = blk w v := by
  unfold blkOf; rw [put_self]

theorem blocks_perm (f : Nat → Option Vec) {ns ms : List Nat} (h : ns.Perm ms) :
    (blocks w f ns).Perm (blocks w f ms) := h.flatMap_right _

theorem blocks_cons (f : Nat → Option Vec) (x : Nat) (ns : List Nat) :
    blocks w f (x :: ns) = blkOf w f x ++ blocks w f ns := rfl

/-- The contents of an object that exists. -/
theorem R.of_val {s : St} {σ : Vals w} {ns L} (h : R w s σ ns L) {x : Nat} {l : List (Elem w)}
    (hx : σ x = Option.some l) : ∃ v, s.vec x = Option.some v ∧ HasV s.a v l ∧ x ∈ ns := by
  cases hv : s.vec x with
  | none => rw [h.none x hv] at hx; cases hx
  | some v =>
    obtain ⟨l', e, hl⟩ := h.some x v hv
    rw [hx] at e
    cases e
    exact ⟨v, rfl, hl, (h.names x).mpr (by rw [hv]; simp)⟩

theorem R.of_none {s : St} {σ : Vals w} {ns L} (h : R w s σ ns L) {x : Nat} (hx : σ x = Option.none) :
    s.vec x = Option.none ∧ x ∉ ns := by
  cases hv : s.vec x with
  | none => exact ⟨rfl, fun hm => (h.names x).mp hm hv⟩
  | some v =>
    obtain ⟨l', e, -⟩ := h.some x v hv
    rw [hx] at e; cases e

/-- A vector and the others. -/
theorem R.focus {s : St} {σ : Vals w} {ns L} (h : R w s σ ns L) {x : Nat} {v : Vec}
    (hx : s.vec x = Option.some v) : G w s.a v (blocks w s.vec (ns.erase x) ++ L) := by
  have hm : x ∈ ns := (h.names x).mpr (by rw [hx]; simp)
  refine ⟨h.inv, List.Perm.trans ?_ h.own⟩
  have := (blocks_perm (w := w) s.vec (List.perm_cons_erase hm)).symm
  rw [blocks_cons, blkOf, hx] at this
  rw [← List.append_assoc]
  exact this.append_right _

/-- A vector still to be made. -/
theorem R.focus_new {s : St} {σ : Vals w} {ns L} (h : R w s σ ns L) :
    G w s.a Vec.null (blocks w s.vec ns ++ L) :=
  ⟨h.inv, by simpa [blk, Vec.null] using h.own⟩

/-- The block of another vector is among those of the others. -/
theorem other {s : St} {L : List Alloc.Block} {ms : List Nat} {y : Nat} {u : Vec}
    (hy : s.vec y = Option.some u) (hm : y ∈ ms) (hu : u.size ≠ 0) :
    u.block w ∈ blocks w s.vec ms ++ L := by
  refine List.mem_append_left _ (List.mem_flatMap.mpr ⟨y, hm, ?_⟩)
  simp [blkOf, hy, blk, hu]

/-- A new object. -/
theorem R.make {s : St} {σ : Vals w} {ns L} (h : R w s σ ns L) {x : Nat} (hx : σ x = Option.none)
    {a : Alloc.St} {v : Vec} {l : List (Elem w)} (g : G w a v (blocks w s.vec ns ++ L))
    (k : Keep s.a a (blocks w s.vec ns ++ L)) (hv : HasV a v l) :
    R w ⟨a, put s.vec x (Option.some v)⟩ (put σ x (Option.some l)) (x :: ns) L := by
  obtain ⟨h1, h2⟩ := h.of_none hx
  refine ⟨g.inv, List.nodup_cons.mpr ⟨h2, h.nodup⟩, fun y => ?_, ?_, fun y hy => ?_, fun y u hy => ?_⟩
  · by_cases hyx : y = x
    · subst hyx; simp [put_self]
    · simp only [List.mem_cons, hyx, false_or, put_ne _ _ hyx]; exact h.names y
  · rw [blocks_cons, blocks_put h2, blkOf_put, List.append_assoc]
    exact g.own
  · by_cases hyx : y = x
    · subst hyx; simp [put_self] at hy
    · simp only [put_ne _ _ hyx] at hy ⊢; exact h.none y hy
  · by_cases hyx : y = x
    · subst hyx
      simp only [put_self] at hy ⊢
      cases hy
      exact ⟨l, rfl, hv⟩
    · simp only [put_ne _ _ hyx] at hy ⊢
      obtain ⟨l', e, hl⟩ := h.some y u hy
      exact ⟨l', e, hl.keep k (other hy ((h.names y).mpr (by rw [hy]; simp)))⟩

/-- An object changes. -/
theorem R.change {s : St} {σ : Vals w} {ns L} (h : R w s σ ns L) {x : Nat} {v0 : Vec}
    (hx : s.vec x = Option.some v0)
    {a : Alloc.St} {v : Vec} {l : List (Elem w)} (g : G w a v (blocks w s.vec (ns.erase x) ++ L))
    (k : Keep s.a a (blocks w s.vec (ns.erase x) ++ L)) (hv : HasV a v l) :
    R w ⟨a, put s.vec x (Option.some v)⟩ (put σ x (Option.some l)) ns L := by
  have hm : x ∈ ns := (h.names x).mpr (by rw [hx]; simp)
  have hne : x ∉ ns.erase x := h.nodup.not_mem_erase
  refine ⟨g.inv, h.nodup, fun y => ?_, ?_, fun y hy => ?_, fun y u hy => ?_⟩
  · by_cases hyx : y = x
    · subst hyx; simp [put_self, hm]
    · simp only [put_ne _ _ hyx]; exact h.names y
  · refine List.Perm.trans (List.Perm.append_right _ (blocks_perm _ (List.perm_cons_erase hm))) ?_
    rw [blocks_cons, blocks_put hne, blkOf_put, List.append_assoc]
    exact g.own
  · by_cases hyx : y = x
    · subst hyx; simp [put_self] at hy
    · simp only [put_ne _ _ hyx] at hy ⊢; exact h.none y hy
  · by_cases hyx : y = x
    · subst hyx
      simp only [put_self] at hy ⊢
      cases hy
      exact ⟨l, rfl, hv⟩
    · simp only [put_ne _ _ hyx] at hy ⊢
      obtain ⟨l', e, hl⟩ := h.some y u hy
      refine ⟨l', e, hl.keep k (other hy ?_)⟩
      exact (List.mem_erase_of_ne hyx).mpr ((h.names y).mpr (by rw [hy]; simp))

/-- An object ends. -/
theorem R.remove {s : St} {σ : Vals w} {ns L} (h : R w s σ ns L) {x : Nat} {v0 : Vec}
    (hx : s.vec x = Option.some v0) {a : Alloc.St}
    (g : G w a Vec.null (blocks w s.vec (ns.erase x) ++ L)) (hmem : a.mem = s.a.mem) :
    R w ⟨a, put s.vec x Option.none⟩ (put σ x Option.none) (ns.erase x) L := by
  have hm : x ∈ ns := (h.names x).mpr (by rw [hx]; simp)
  have hne : x ∉ ns.erase x := h.nodup.not_mem_erase
  refine ⟨g.inv, h.nodup.erase _, fun y => ?_, ?_, fun y hy => ?_, fun y u hy => ?_⟩
  · by_cases hyx : y = x
    · subst hyx; simp [put_self, hne]
    · simp only [put_ne _ _ hyx, List.mem_erase_of_ne hyx]; exact h.names y
  · rw [blocks_put hne]
    simpa [blk, Vec.null] using g.own
  · by_cases hyx : y = x
    · subst hyx; simp [put_self]
    · simp only [put_ne _ _ hyx] at hy ⊢; exact h.none y hy
  · by_cases hyx : y = x
    · subst hyx; simp [put_self] at hy
    · simp only [put_ne _ _ hyx] at hy ⊢
      obtain ⟨l', e, hl⟩ := h.some y u hy
      exact ⟨l', e, hl.keep (O := blocks w s.vec ns ++ L) (fun _ _ _ _ => by rw [hmem])
        (other hy ((h.names y).mpr (by rw [hy]; simp)))⟩

theorem put_put {β : Type} (f : Nat → β) (x : Nat) (b c : β) : put (put f x b) x c = put f x c := by
  funext y; unfold put; split <;> rfl

theorem put_comm {β : Type} (f : Nat → β) {x y : Nat} (h : x ≠ y) (b c : β) :
    put (put f x b) y c = put (put f y c) x b := by
  funext z
  unfold put
  by_cases h1 : z = x
  · subst h1; simp [h]
  · simp [h1]

/-- Moving from one vector to another: the block of the target is lost. -/
theorem R.move {s : St} {σ : Vals w} {ns L} (h : R w s σ ns L) {x y : Nat} (hxy : x ≠ y)
    {l : List (Elem w)} {v u : Vec} (hx : s.vec x = Option.some v) (hy : s.vec y = Option.some u)
    (hl : HasV s.a u l) :
    R w ⟨s.a, put (put s.vec x (Option.some u)) y (Option.some Vec.null)⟩
      (put (put σ y (Option.some [])) x (Option.some l)) ns (blk w v ++ L) := by
  have mx : x ∈ ns := (h.names x).mpr (by rw [hx]; simp)
  have my : y ∈ ns := (h.names y).mpr (by rw [hy]; simp)
  have hp : ns.Perm (x :: y :: (ns.erase x).erase y) :=
    (List.perm_cons_erase mx).trans
      ((List.perm_cons_erase ((List.mem_erase_of_ne hxy.symm).mpr my)).cons x)
  have n1 : x ∉ (ns.erase x).erase y := fun hh => h.nodup.not_mem_erase (List.mem_of_mem_erase hh)
  have n2 : y ∉ (ns.erase x).erase y := (h.nodup.erase x).not_mem_erase
  refine ⟨h.inv, h.nodup, fun z => ?_, ?_, fun z hz => ?_, fun z t hz => ?_⟩
  · by_cases h1 : z = y
    · subst h1; simp [put_self, my]
    · by_cases h2 : z = x
      · subst h2; simp [put_ne _ _ h1, put_self, mx]
      · simp only [put_ne _ _ h1, put_ne _ _ h2]; exact h.names z
  · refine List.Perm.trans ?_ h.own
    have q1 := blocks_perm (w := w) s.vec hp
    have q2 := blocks_perm (w := w) (put (put s.vec x (Option.some u)) y (Option.some Vec.null)) hp
    rw [blocks_cons, blocks_cons] at q1 q2
    rw [blocks_put n2, blocks_put n1, blkOf_put, put_comm _ hxy, blkOf_put] at q2
    have e1 : blkOf w s.vec x = blk w v := by unfold blkOf; rw [hx]
    have e2 : blkOf w s.vec y = blk w u := by unfold blkOf; rw [hy]
    rw [e1, e2] at q1
    rw [put_comm _ hxy]
    rw [List.perm_iff_count] at q1 q2 ⊢
    intro b
    have := q1 b
    have := q2 b
    simp only [List.count_append, blk, Vec.null, if_true, List.count_nil] at *
    omega
  · by_cases h1 : z = y
    · subst h1; simp [put_self] at hz
    · by_cases h2 : z = x
      · subst h2; simp [put_ne _ _ h1, put_self] at hz
      · simp only [put_ne _ _ h1, put_ne _ _ h2] at hz ⊢; exact h.none z hz
  · by_cases h1 : z = y
    · subst h1
      simp only [put_self, put_ne _ _ (Ne.symm hxy)] at hz ⊢
      cases hz
      exact ⟨[], rfl, HasV.nil _⟩
    · by_cases h2 : z = x
      · subst h2
        simp only [put_ne _ _ h1, put_self] at hz ⊢
        cases hz
        exact ⟨l, rfl, hl⟩
      · simp only [put_ne _ _ h1, put_ne _ _ h2] at hz ⊢; exact h.some z t hz

/-- Moving a vector to itself: its block is lost, and with it its contents. -/
theorem R.self {s : St} {σ : Vals w} {ns L} (h : R w s σ ns L) {x : Nat} {v : Vec}
    (hx : s.vec x = Option.some v) :
    R w ⟨s.a, put s.vec x (Option.some Vec.null)⟩ (put σ x (Option.some [])) ns (blk w v ++ L) := by
  have g := h.focus hx
  have hm : x ∈ ns := (h.names x).mpr (by rw [hx]; simp)
  have hne : x ∉ ns.erase x := h.nodup.not_mem_erase
  refine ⟨h.inv, h.nodup, fun y => ?_, ?_, fun y hy => ?_, fun y u hy => ?_⟩
  · by_cases hyx : y = x
    · subst hyx; simp [put_self, hm]
    · simp only [put_ne _ _ hyx]; exact h.names y
  · refine List.Perm.trans (List.Perm.append_right _ (blocks_perm _ (List.perm_cons_erase hm))) ?_
    rw [blocks_cons, blocks_put hne, blkOf_put]
    refine List.Perm.trans ?_ g.own
    rw [List.perm_iff_count]
    intro b
    simp only [List.count_append, blk, Vec.null, if_true, List.count_nil]
    omega
  · by_cases hyx : y = x
    · subst hyx; simp [put_self] at hy
    · simp only [put_ne _ _ hyx] at hy ⊢; exact h.none y hy
  · by_cases hyx : y = x
    · subst hyx
      simp only [put_self] at hy ⊢
      cases hy
      exact ⟨[], rfl, HasV.nil _⟩
    · simp only [put_ne _ _ hyx] at hy ⊢; exact h.some y u hy

/-- The block an operation leaves to nobody. -/
def lost (s : St) : Op w → List Alloc.Block
  | .moveAssign x _ => blkOf w s.vec x
  | _ => []

theorem get_ok {s : St} {x : Nat} {v : Vec} (h : s.vec x = Option.some v) : s.get x = ok v := by
  unfold St.get; rw [h]

theorem hasV_zero {a : Alloc.St} {v : Vec} (hv : v.size = 0) : HasV (w := w) a v [] :=
  ⟨hv, fun i hi => absurd hi (Nat.not_lt_zero i)⟩

/-- One operation, unless it moves a vector with elements to itself. -/
theorem step_ok {E : Env} (hE : E.Fresh) (hw : 0 < w) {s : St} {σ σ' : Vals w} {ns L}
    (h : R w s σ ns L) {o : Op w} (hm : meaning σ o = some σ')
    (hs : SelfMove o → ¬ MoveOver σ o) :
    ∃ s' ns', step E s o = ok s' ∧ R w s' σ' ns' (lost s o ++ L) := by
  cases o with
  | make x n e =>
    simp only [meaning] at hm
    split at hm
    · rename_i hx
      cases hm
      obtain ⟨a, v, e1, g1, k1, z1, -, -⟩ := resize_ok hE hw (h.focus_new) n
      simp only [step, require_true (h.of_none hx).1, bind_ok, e1]
      by_cases h0 : v.size = 0
      · rw [if_neg (by simpa using h0)]
        have : n = 0 := by omega
        subst this
        exact ⟨_, _, rfl, h.make hx g1 k1 (hasV_zero h0)⟩
      · rw [if_pos h0]
        obtain ⟨a2, e2, g2, k2, v2⟩ := fill_ok g1 e
        rw [e2, bind_ok]
        rw [z1] at v2
        exact ⟨_, _, rfl, h.make hx g2 (k1.trans k2) v2⟩
    · cases hm
  | makeList x l =>
    simp only [meaning] at hm
    split at hm
    · rename_i hx
      cases hm
      obtain ⟨a, v, e1, g1, k1, z1, -, -⟩ := resize_ok hE hw (h.focus_new) l.length
      simp only [step, require_true (h.of_none hx).1, bind_ok, e1]
      by_cases h0 : v.size = 0
      · rw [if_neg (by simpa using h0)]
        have : l = [] := List.length_eq_zero_iff.mp (by omega)
        subst this
        exact ⟨_, _, rfl, h.make hx g1 k1 (hasV_zero h0)⟩
      · rw [if_pos h0]
        obtain ⟨a2, e2, g2, k2, v2⟩ := copyList_ok g1 l z1
        rw [e2, bind_ok]
        exact ⟨_, _, rfl, h.make hx g2 (k1.trans k2) v2⟩
    · cases hm
  | copyMake x y =>
    simp only [meaning] at hm
    split at hm
    · rename_i hx
      obtain ⟨l, hl, rfl⟩ := Option.map_eq_some_iff.mp hm
      obtain ⟨u, hy, hu, my⟩ := h.of_val hl
      obtain ⟨a, v, e1, g1, k1, z1, -, -⟩ := resize_ok hE hw (h.focus_new) u.size
      simp only [step, require_true (h.of_none hx).1, bind_ok, get_ok hy, e1]
      by_cases h0 : v.size = 0
      · rw [if_neg (by simpa using h0)]
        have : l = [] := List.length_eq_zero_iff.mp (by rw [← hu.1]; omega)
        subst this
        exact ⟨_, _, rfl, h.make hx g1 k1 (hasV_zero h0)⟩
      · rw [if_pos h0]
        have ho : u.size ≠ 0 → u.block w ∈ blocks w s.vec ns ++ L := other hy my
        obtain ⟨a2, e2, g2, k2, v2⟩ := copyN_ok g1 l (z1.trans hu.1) (hu.keep k1 ho)
          (fun hz => Or.inl (ho hz))
        rw [e2, bind_ok]
        exact ⟨_, _, rfl, h.make hx g2 (k1.trans k2) v2⟩
    · cases hm
  | moveMake x y =>
    simp only [meaning] at hm
    split at hm
    · rename_i hx
      obtain ⟨l, hl, rfl⟩ := Option.map_eq_some_iff.mp hm
      obtain ⟨u, hy, hu, my⟩ := h.of_val hl
      have hxy : x ≠ y := by rintro rfl; rw [hx] at hl; cases hl
      simp only [step, require_true (h.of_none hx).1, bind_ok, get_ok hy]
      have h1 := h.make hx h.focus_new (Keep.refl _ _) (HasV.nil s.a)
      have h2 := h1.move hxy (put_self _ _ _) (by
        show put s.vec x _ y = Option.some u
        rw [put_ne _ _ hxy.symm]; exact hy) hu
      have e1 : put (put (put σ x (Option.some [])) y (Option.some [])) x (Option.some l) =
          put (put σ y (Option.some [])) x (Option.some l) := by
        rw [put_comm _ hxy, put_put]
      have e2 : put (put (put s.vec x (Option.some Vec.null)) x (Option.some u)) y
          (Option.some Vec.null) = put (put s.vec x (Option.some u)) y (Option.some Vec.null) := by
        rw [put_put]
      rw [e1] at h2
      simp only [e2] at h2
      exact ⟨_, _, rfl, h2⟩
    · cases hm
  | assign x y =>
    simp only [meaning] at hm
    obtain ⟨l0, hl0, hm⟩ := Option.bind_eq_some_iff.mp hm
    obtain ⟨l, hl, rfl⟩ := Option.map_eq_some_iff.mp hm
    obtain ⟨v0, hx, hv0, mx⟩ := h.of_val hl0
    obtain ⟨u, hy, hu, my⟩ := h.of_val hl
    obtain ⟨a, v, e1, g1, k1, z1, same, -⟩ := resize_ok hE hw (h.focus hx) u.size
    simp only [step, bind_ok, get_ok hx, get_ok hy, e1]
    by_cases h0 : v.size = 0
    · rw [if_neg (by simpa using h0)]
      have : l = [] := List.length_eq_zero_iff.mp (by rw [← hu.1]; omega)
      subst this
      exact ⟨_, _, rfl, h.change hx g1 k1 (hasV_zero h0)⟩
    · rw [if_pos h0]
      by_cases hxy : y = x
      · subst hxy
        rw [hx] at hy
        cases hy
        obtain ⟨rfl, rfl⟩ := same rfl
        obtain ⟨a2, e2, g2, k2, v2⟩ := copyN_ok g1 l hu.1 hu (fun _ => Or.inr rfl)
        rw [e2, bind_ok]
        exact ⟨_, _, rfl, h.change hx g2 k2 v2⟩
      · have ho : u.size ≠ 0 → u.block w ∈ blocks w s.vec (ns.erase x) ++ L :=
          other hy ((List.mem_erase_of_ne hxy).mpr my)
        obtain ⟨a2, e2, g2, k2, v2⟩ := copyN_ok g1 l (z1.trans hu.1) (hu.keep k1 ho)
          (fun hz => Or.inl (ho hz))
        rw [e2, bind_ok]
        exact ⟨_, _, rfl, h.change hx g2 (k1.trans k2) v2⟩
  | moveAssign x y =>
    simp only [meaning] at hm
    obtain ⟨l0, hl0, hm⟩ := Option.bind_eq_some_iff.mp hm
    obtain ⟨l, hl, rfl⟩ := Option.map_eq_some_iff.mp hm
    obtain ⟨v0, hx, hv0, mx⟩ := h.of_val hl0
    obtain ⟨u, hy, hu, my⟩ := h.of_val hl
    have e0 : blkOf w s.vec x = blk w v0 := by unfold blkOf; rw [hx]
    simp only [step, bind_ok, get_ok hx, get_ok hy, lost, e0]
    by_cases hxy : x = y
    · subst hxy
      have hempty : σ x = Option.some [] := by
        by_contra hc
        exact hs rfl hc
      rw [hempty] at hl
      cases hl
      rw [put_put, put_put]
      exact ⟨_, _, rfl, h.self hx⟩
    · exact ⟨_, _, rfl, h.move hxy hx hy hu⟩
  | resize x n =>
    simp only [meaning] at hm
    obtain ⟨l, hl, rfl⟩ := Option.map_eq_some_iff.mp hm
    obtain ⟨v0, hx, hv0, mx⟩ := h.of_val hl
    obtain ⟨a, v, e1, g1, k1, z1, same, zero⟩ := resize_ok hE hw (h.focus hx) n
    simp only [step, bind_ok, get_ok hx, e1]
    refine ⟨_, _, rfl, h.change hx g1 k1 ?_⟩
    by_cases hn : n = l.length
    · rw [if_pos hn]
      obtain ⟨rfl, rfl⟩ := same (hn.trans hv0.1.symm)
      exact hv0
    · rw [if_neg hn]
      exact zero (fun hh => hn (hh.trans hv0.1))
  | clear x =>
    simp only [meaning] at hm
    obtain ⟨l, hl, rfl⟩ := Option.map_eq_some_iff.mp hm
    obtain ⟨v0, hx, hv0, mx⟩ := h.of_val hl
    obtain ⟨a, e1, g1, m1⟩ := clear_ok (h.focus hx)
    simp only [step, bind_ok, get_ok hx, e1]
    exact ⟨_, _, rfl, h.change hx g1 (fun _ _ _ _ => by rw [m1]) (HasV.nil _)⟩
  | set x i e =>
    simp only [meaning] at hm
    obtain ⟨l, hl, hm⟩ := Option.bind_eq_some_iff.mp hm
    split at hm
    · rename_i hi
      cases hm
      obtain ⟨v0, hx, hv0, mx⟩ := h.of_val hl
      obtain ⟨a, e1, g1, k1, d1⟩ := write_ok (h.focus hx) (hv0.1 ▸ hi : i < v0.size) e
      simp only [step, bind_ok, get_ok hx, e1]
      have hv : HasV a v0 (l.set i e) := by
        refine ⟨by rw [List.length_set]; exact hv0.1, fun j hj => ?_⟩
        rw [List.length_set] at hj
        rw [d1 j, List.getElem_set]
        by_cases hji : j = i
        · rw [if_pos hji, if_pos hji.symm]
        · rw [if_neg hji, if_neg (Ne.symm hji)]; exact hv0.2 j hj
      have h2 := h.change hx g1 k1 hv
      have e2 : put s.vec x (Option.some v0) = s.vec := by
        funext y; unfold put; split
        · rename_i hyx; subst hyx; exact hx.symm
        · rfl
      rw [e2] at h2
      exact ⟨_, _, rfl, h2⟩
    · cases hm
  | destroy x =>
    simp only [meaning] at hm
    obtain ⟨l, hl, rfl⟩ := Option.map_eq_some_iff.mp hm
    obtain ⟨v0, hx, hv0, mx⟩ := h.of_val hl
    obtain ⟨a, e1, g1, m1⟩ := clear_ok (h.focus hx)
    simp only [step, bind_ok, get_ok hx, e1]
    exact ⟨_, _, rfl, h.remove hx g1 m1⟩

end Verif.Vector
