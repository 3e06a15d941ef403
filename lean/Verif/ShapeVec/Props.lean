import Verif.ShapeVec.Spec
/-!
# The vector that keeps a tensor's shape (proofs)
-/
namespace Verif.ShapeVec
open Verif Res

/-! ### Memory -/

/-- The word at `p[i]`. -/
def val (s : St) (p : Ptr) (i : Nat) : Nat :=
  match p with
  | .null => 0
  | .cache y => match s.vec y with
    | none => 0
    | some v => v.cache i
  | .heap a => match s.heap a with
    | none => 0
    | some b => b.data i

/-- There are `n` words at `p`. -/
def Room (s : St) (p : Ptr) (n : Nat) : Prop :=
  n = 0 ∨ match p with
  | .null => False
  | .cache y => (∃ v, s.vec y = some v) ∧ n ≤ 32
  | .heap a => ∃ b, s.heap a = some b ∧ n ≤ b.count

def fields (v : Vec) : Ptr × Nat × Nat := (v.ptr, v.size, v.cap)

/-- Only the words at `p` may have changed. -/
structure Frame (p : Ptr) (s t : St) : Prop where
  next : t.next = s.next
  vec : ∀ y, (t.vec y).map fields = (s.vec y).map fields
  heap : ∀ a, (t.heap a).map Block.count = (s.heap a).map Block.count
  val : ∀ q, q ≠ p → val t q = val s q

theorem Frame.refl (p : Ptr) (s : St) : Frame p s s := ⟨rfl, fun _ => rfl, fun _ => rfl, fun _ _ => rfl⟩

theorem Frame.trans {p : Ptr} {s t u : St} (h : Frame p s t) (g : Frame p t u) : Frame p s u :=
  ⟨g.next.trans h.next, fun y => (g.vec y).trans (h.vec y), fun a => (g.heap a).trans (h.heap a), fun q hq => (g.val q hq).trans (h.val q hq)⟩

theorem alive_of_map {s t : St} {y : Name} (h : (t.vec y).map fields = (s.vec y).map fields) {v : Vec} (hv : s.vec y = some v) :
    ∃ w, t.vec y = some w ∧ w.ptr = v.ptr ∧ w.size = v.size ∧ w.cap = v.cap := by
  rw [hv] at h
  cases hw : t.vec y with
  | none => rw [hw] at h; cases h
  | some w =>
    rw [hw] at h
    simp only [Option.map_some, Option.some.injEq, fields, Prod.mk.injEq] at h
    exact ⟨w, rfl, h.1, h.2.1, h.2.2⟩

theorem block_of_map {s t : St} {a : Nat} (h : (t.heap a).map Block.count = (s.heap a).map Block.count) {b : Block} (hb : s.heap a = some b) :
    ∃ c, t.heap a = some c ∧ c.count = b.count := by
  rw [hb] at h
  cases hc : t.heap a with
  | none => rw [hc] at h; cases h
  | some c => rw [hc] at h; simp only [Option.map_some, Option.some.injEq] at h; exact ⟨c, rfl, h⟩

theorem Room.frame {p q : Ptr} {s t : St} {n : Nat} (f : Frame q s t) (h : Room s p n) : Room t p n := by
  rcases h with h | h
  · exact Or.inl h
  · refine Or.inr ?_
    cases p with
    | null => exact h
    | cache y =>
      obtain ⟨⟨v, hv⟩, hn⟩ := h
      obtain ⟨w, hw, _⟩ := alive_of_map (f.vec y) hv
      exact ⟨⟨w, hw⟩, hn⟩
    | heap a =>
      obtain ⟨b, hb, hn⟩ := h
      obtain ⟨c, hc, e⟩ := block_of_map (f.heap a) hb
      exact ⟨c, hc, by omega⟩

theorem read_ok {s : St} {p : Ptr} {n i : Nat} (h : Room s p n) (hi : i < n) : read s p i = ok (val s p i) := by
  rcases h with h | h
  · omega
  · cases p with
    | null => exact h.elim
    | cache y =>
      obtain ⟨⟨v, hv⟩, hn⟩ := h
      simp only [read, val, hv]
      rw [if_pos (show i < words from by unfold words; omega)]
    | heap a =>
      obtain ⟨b, hb, hn⟩ := h
      simp only [read, val, hb]
      rw [if_pos (by omega)]

theorem put_same {β : Type} (f : Nat → Option β) (x : Nat) (v : Option β) : put f x v x = v := if_pos rfl
theorem put_ne {β : Type} (f : Nat → Option β) {x y : Nat} (v : Option β) (h : y ≠ x) : put f x v y = f y := if_neg h

theorem write_ok {s : St} {p : Ptr} {n i : Nat} (e : Nat) (h : Room s p n) (hi : i < n) :
    ∃ t, write s p i e = ok t ∧ Frame p s t ∧ val t p = wset (val s p) i e := by
  rcases h with h | h
  · omega
  · cases p with
    | null => exact h.elim
    | cache y =>
      obtain ⟨⟨v, hv⟩, hn⟩ := h
      refine ⟨{ s with vec := put s.vec y (some { v with cache := wset v.cache i e }) }, ?_, ⟨rfl, fun z => ?_, fun _ => rfl, fun q hq => ?_⟩, ?_⟩
      · simp only [write, hv]
        rw [if_pos (show i < words from by unfold words; omega)]
      · by_cases hz : z = y
        · subst hz; show (put s.vec z _ z).map fields = _; rw [put_same, hv]; rfl
        · show (put s.vec y _ z).map fields = _; rw [put_ne _ _ hz]
      · funext k
        cases q with
        | null => rfl
        | cache z =>
          have hz : z ≠ y := fun e => hq (by rw [e])
          simp only [val, put_ne _ _ hz]
        | heap a => rfl
      · funext k
        simp only [val, put_same, hv, wset]
    | heap a =>
      obtain ⟨b, hb, hn⟩ := h
      refine ⟨{ s with heap := put s.heap a (some { b with data := wset b.data i e }) }, ?_, ⟨rfl, fun _ => rfl, fun z => ?_, fun q hq => ?_⟩, ?_⟩
      · simp only [write, hb]
        rw [if_pos (by omega)]
      · by_cases hz : z = a
        · subst hz; show (put s.heap z _ z).map Block.count = _; rw [put_same, hb]; rfl
        · show (put s.heap a _ z).map Block.count = _; rw [put_ne _ _ hz]
      · funext k
        cases q with
        | null => rfl
        | cache z => rfl
        | heap c =>
          have hz : c ≠ a := fun e => hq (by rw [e])
          simp only [val, put_ne _ _ hz]
      · funext k
        simp only [val, put_same, hb, wset]

theorem writeList_ok {s : St} {p : Ptr} {l : List Nat} (h : Room s p l.length) :
    ∃ t, writeList s p l = ok t ∧ Frame p s t ∧ ∀ i (hi : i < l.length), val t p i = l[i] := by
  obtain ⟨t, e, f, hv⟩ := loop_inv (n := l.length) (body := fun i s => do let e ← rd l i; write s p i e) (s := s)
    (fun k t => Frame p s t ∧ ∀ i (hi : i < l.length), i < k → val t p i = l[i]) ⟨Frame.refl _ _, fun i hi h => absurd h (by omega)⟩
    (fun k t hk ⟨f, hv⟩ => by
      obtain ⟨u, hu, g, gv⟩ := write_ok (l[k]) (h.frame f) hk
      refine ⟨u, by rw [rd_ok (List.getElem?_eq_getElem hk), bind_ok, hu], f.trans g, fun i hi hlt => ?_⟩
      rw [gv]; unfold wset
      by_cases e : i = k
      · subst e; rw [if_pos rfl]
      · rw [if_neg e]; exact hv i hi (by omega))
  exact ⟨t, e, f, fun i hi => hv i hi hi⟩

theorem copyN_ok {s : St} {src dst : Ptr} {n : Nat} (hs : Room s src n) (hd : Room s dst n) :
    ∃ t, copyN s src n dst = ok t ∧ Frame dst s t ∧ ∀ i, val t dst i = if i < n then val s src i else val s dst i := by
  obtain ⟨t, e, f, hv⟩ := loop_inv (n := n) (body := fun i s => do let e ← read s src i; write s dst i e) (s := s)
    (fun k t => Frame dst s t ∧ ∀ i, val t dst i = if i < k then val s src i else val s dst i) ⟨Frame.refl _ _, fun i => by simp⟩
    (fun k t hk ⟨f, hv⟩ => by
      have hr : val t src k = val s src k := by
        by_cases e : src = dst
        · subst e; rw [hv k]; simp
        · rw [f.val _ e]
      obtain ⟨u, hu, g, gv⟩ := write_ok (val t src k) (hd.frame f) hk
      refine ⟨u, by rw [read_ok (hs.frame f) hk, bind_ok, hu], f.trans g, fun i => ?_⟩
      rw [gv]; unfold wset
      by_cases e : i = k
      · subst e; rw [if_pos rfl, if_pos (by omega), hr]
      · rw [if_neg e, hv i]
        by_cases hlt : i < k
        · rw [if_pos hlt, if_pos (by omega)]
        · rw [if_neg hlt, if_neg (by omega)])
  exact ⟨t, e, f, hv⟩

theorem zeroN_ok {s : St} {p : Ptr} {k n : Nat} (h : Room s p (k + n)) :
    ∃ t, zeroN s p k n = ok t ∧ Frame p s t := by
  obtain ⟨t, e, f⟩ := loop_inv (n := n) (body := fun i s => write s p (k + i) 0) (s := s)
    (fun _ t => Frame p s t) (Frame.refl _ _)
    (fun i t hi f => by
      obtain ⟨u, hu, g, _⟩ := write_ok 0 (h.frame f) (show k + i < k + n by omega)
      exact ⟨u, hu, f.trans g⟩)
  exact ⟨t, e, f⟩

/-! ### The invariant -/

/-- `p` is the block of capacity `c` of the vector `x`. -/
def IsPtr (s : St) (x : Name) (p : Ptr) (c : Nat) : Prop :=
  (c = 0 ∧ p = .null) ∨ (0 < c ∧ c ≤ 32 ∧ p = .cache x) ∨
  (32 < c ∧ ∃ a b, p = .heap a ∧ a < s.next ∧ s.heap a = some b ∧ b.count = 8 * c)

/-- What a name stands for. -/
def CellOk (s : St) (x : Name) : Option Cell → Prop
  | none => s.vec x = none
  | some (l, c) => ∃ v, s.vec x = some v ∧ v.size = l.length ∧ v.cap = c ∧ l.length ≤ c ∧ IsPtr s x v.ptr c ∧
      ∀ i (hi : i < l.length), val s v.ptr i = l[i]

def ptrOf (s : St) (x : Name) : Option Ptr := (s.vec x).map Vec.ptr

structure Rel (s : St) (A : Name → Option Cell) : Prop where
  cell : ∀ x, CellOk s x (A x)
  apart : ∀ x y a, x ≠ y → ptrOf s x = some (.heap a) → ptrOf s y ≠ some (.heap a)

theorem rel_start : Rel start (fun _ => none) := ⟨fun _ => rfl, fun _ _ _ _ h => by cases h⟩

theorem Rel.isSome {s : St} {A : Name → Option Cell} (r : Rel s A) {x : Name} {l : List Nat} {c : Nat} (h : A x = some (l, c)) :
    ∃ v, s.vec x = some v ∧ v.size = l.length ∧ v.cap = c ∧ l.length ≤ c ∧ IsPtr s x v.ptr c ∧
      ∀ i (hi : i < l.length), val s v.ptr i = l[i] := by
  have := r.cell x
  rw [h] at this
  exact this

theorem Rel.isNone {s : St} {A : Name → Option Cell} (r : Rel s A) {x : Name} (h : A x = none) : s.vec x = none := by
  have := r.cell x
  rw [h] at this
  exact this

theorem IsPtr.room {s : St} {x : Name} {p : Ptr} {c n : Nat} (h : IsPtr s x p c) (ha : ∃ v, s.vec x = some v) (hn : n ≤ c) : Room s p n := by
  rcases h with ⟨h, rfl⟩ | ⟨_, h, rfl⟩ | ⟨_, a, b, rfl, _, hb, e⟩
  · exact Or.inl (by omega)
  · exact Or.inr ⟨ha, by omega⟩
  · exact Or.inr ⟨b, hb, by omega⟩

/-- A step that changes what `x` stands for. -/
theorem rel_of {s t : St} {A : Name → Option Cell} {x : Name} {c' : Option Cell} (r : Rel s A) (hn : s.next ≤ t.next)
    (hf : ∀ y, y ≠ x → (t.vec y).map fields = (s.vec y).map fields)
    (hv : ∀ y p, y ≠ x → ptrOf s y = some p → val t p = val s p)
    (hh : ∀ y a, y ≠ x → ptrOf s y = some (.heap a) → (t.heap a).map Block.count = (s.heap a).map Block.count)
    (hx : CellOk t x c')
    (hd : ∀ y a, y ≠ x → ptrOf t x = some (.heap a) → ptrOf s y ≠ some (.heap a)) :
    Rel t (put A x c') := by
  have hp : ∀ y, y ≠ x → ptrOf t y = ptrOf s y := fun y hy => by
    have := congrArg (Option.map Prod.fst) (hf y hy)
    simp only [Option.map_map] at this
    exact this
  constructor
  · intro y
    by_cases hy : y = x
    · subst hy; rw [put_same]; exact hx
    · rw [put_ne _ _ hy]
      have hc := r.cell y
      cases hA : A y with
      | none =>
        rw [hA] at hc
        have := hf y hy
        rw [show s.vec y = none from hc] at this
        cases h : t.vec y with
        | none => exact h
        | some w => rw [h] at this; cases this
      | some lc =>
        obtain ⟨l, c⟩ := lc
        obtain ⟨v, h1, h2, h3, h4, h5, h6⟩ := r.isSome hA
        obtain ⟨w, w1, w2, w3, w4⟩ := alive_of_map (hf y hy) h1
        have hpy : ptrOf s y = some v.ptr := by unfold ptrOf; rw [h1]; rfl
        refine ⟨w, w1, w3.trans h2, w4.trans h3, h4, ?_, fun i hi => ?_⟩
        · rw [w2]
          rcases h5 with h5 | h5 | ⟨h5, a, b, e1, e2, e3, e4⟩
          · exact Or.inl h5
          · exact Or.inr (Or.inl h5)
          · obtain ⟨b', hb', eb⟩ := block_of_map (hh y a hy (by rw [hpy, e1])) e3
            exact Or.inr (Or.inr ⟨h5, a, b', e1, by omega, hb', by omega⟩)
        · rw [w2, hv y _ hy hpy]; exact h6 i hi
  · intro y z a hyz h
    by_cases hy : y = x
    · subst hy
      rw [hp z (Ne.symm hyz)]
      exact hd z a (Ne.symm hyz) h
    · rw [hp y hy] at h
      by_cases hz : z = x
      · subst hz
        intro h'
        exact hd y a hy h' h
      · rw [hp z hz]
        exact r.apart y z a hyz h

/-- Pointers of other vectors. -/
theorem Rel.other {s : St} {A : Name → Option Cell} (r : Rel s A) {y : Name} {p : Ptr} (h : ptrOf s y = some p) :
    p = .null ∨ p = .cache y ∨ ∃ a, p = .heap a ∧ a < s.next := by
  cases hA : A y with
  | none => have := r.isNone hA; unfold ptrOf at h; rw [this] at h; cases h
  | some lc =>
    obtain ⟨v, h1, _, _, _, h5, _⟩ := r.isSome (l := lc.1) (c := lc.2) hA
    unfold ptrOf at h
    rw [h1] at h
    simp only [Option.map_some, Option.some.injEq] at h
    subst h
    rcases h5 with ⟨_, e⟩ | ⟨_, _, e⟩ | ⟨_, a, _, e, e2, _⟩
    · exact Or.inl e
    · exact Or.inr (Or.inl e)
    · exact Or.inr (Or.inr ⟨a, e, e2⟩)

/-- From `s` one comes to `t`, in which `p` is a block of capacity `c` for `x` that no other vector uses. -/
structure Pre (s t : St) (x : Name) (p : Ptr) (c : Nat) : Prop where
  next : s.next ≤ t.next
  vec : ∀ y, y ≠ x → t.vec y = s.vec y
  alive : ∃ v, t.vec x = some v
  heap : ∀ a, a < s.next → t.heap a = s.heap a
  isPtr : IsPtr t x p c
  fresh : ∀ y a, y ≠ x → p = .heap a → ptrOf s y ≠ some (.heap a)

theorem Rel.heap_lt {s : St} {A : Name → Option Cell} (r : Rel s A) {y : Name} {a : Nat} (h : ptrOf s y = some (.heap a)) : a < s.next := by
  rcases r.other h with h | h | ⟨b, h, hb⟩
  · cases h
  · cases h
  · injection h with h; omega

/-- An allocation for `x`, which may have been given an object just before. -/
theorem pre_alloc {s s1 : St} {A : Name → Option Cell} (r : Rel s A) (junk : Nat → Nat) {x : Name} (n : Nat) (hv : ∀ y, y ≠ x → s1.vec y = s.vec y)
    (ha : ∃ v, s1.vec x = some v) (hn : s1.next = s.next) (hh : s1.heap = s.heap) :
    Pre s (vAllocate junk s1 x n).1 x (vAllocate junk s1 x n).2 n := by
  unfold vAllocate allocate
  by_cases h0 : n = 0
  · rw [if_pos h0]
    exact ⟨by dsimp only; omega, hv, ha, fun _ _ => by dsimp only; rw [hh], Or.inl ⟨h0, rfl⟩, fun _ a _ h => by cases h⟩
  · rw [if_neg h0]
    dsimp only
    by_cases h : 8 * n ≤ 256
    · rw [if_pos h]
      exact ⟨by dsimp only; omega, hv, ha, fun _ _ => by dsimp only; rw [hh], Or.inr (Or.inl ⟨by omega, by omega, rfl⟩), fun _ a _ h => by cases h⟩
    · rw [if_neg h]
      refine ⟨by dsimp only; omega, hv, ha, fun a ha => ?_, Or.inr (Or.inr ⟨by omega, s1.next, _, rfl, Nat.lt_succ_self _,
        put_same _ _ _, rfl⟩), fun y a _ h hy => ?_⟩
      · show put s1.heap s1.next _ a = _
        rw [put_ne _ _ (by omega), hh]
      · injection h with h
        have := r.heap_lt hy
        omega

/-- The block a vector has. -/
theorem pre_old {s : St} {A : Name → Option Cell} (r : Rel s A) {x : Name} {v : Vec} (hv : s.vec x = some v) {c : Nat} (hp : IsPtr s x v.ptr c) :
    Pre s s x v.ptr c :=
  ⟨le_refl _, fun _ _ => rfl, ⟨v, hv⟩, fun _ _ => rfl, hp, fun y a hy h =>
    r.apart x y a (Ne.symm hy) (by unfold ptrOf; rw [hv, ← h]; rfl)⟩

/-- Giving back a block that lies in the object does nothing; a larger one is undefined behaviour. -/
theorem vDeallocate_iff {s : St} {x : Name} {p : Ptr} {c : Nat} (h : IsPtr s x p c) :
    vDeallocate s p c = if Small c then ok s else ub := by
  unfold vDeallocate deallocate
  rcases h with ⟨h, rfl⟩ | ⟨_, h, rfl⟩ | ⟨h, a, b, rfl, _, hb, e⟩
  · rw [if_pos rfl, if_pos (show Small c from by unfold Small; omega)]
  · rw [if_neg (by simp), if_pos (show Small c from h)]; dsimp only; rw [if_pos (by omega)]
  · rw [if_neg (by simp), if_neg (show ¬ Small c from by unfold Small; omega)]
    dsimp only
    rw [if_neg (by omega)]
    rw [hb]
    dsimp only
    rw [require_false (by omega)]
    rfl

theorem IsPtr.frame {s t : St} {x : Name} {p q : Ptr} {c : Nat} (f : Frame q s t) (h : IsPtr s x p c) : IsPtr t x p c := by
  rcases h with h | h | ⟨h, a, b, e, e1, e2, e3⟩
  · exact Or.inl h
  · exact Or.inr (Or.inl h)
  · obtain ⟨b', hb, eb⟩ := block_of_map (f.heap a) e2
    exact Or.inr (Or.inr ⟨h, a, b', e, by rw [f.next]; exact e1, hb, by omega⟩)

/-- The other vectors do not see what is written into the block of `x`. -/
theorem Pre.others {s t u : St} {A : Name → Option Cell} {x : Name} {p : Ptr} {c : Nat} (r : Rel s A) (h : Pre s t x p c) (f : Frame p t u)
    {y : Name} {q : Ptr} (hy : y ≠ x) (hq : ptrOf s y = some q) : val u q = val s q := by
  rcases r.other hq with rfl | rfl | ⟨a, rfl, ha⟩
  · rfl
  · rw [f.val _ (fun e => ?_)]
    · funext k; simp only [val, h.vec y hy]
    · rcases h.isPtr with ⟨_, e'⟩ | ⟨_, _, e'⟩ | ⟨_, a, _, e', _⟩
      · rw [e'] at e; cases e
      · rw [e'] at e; injection e with e; exact hy e
      · rw [e'] at e; cases e
  · rw [f.val _ (fun e => h.fresh y a hy e.symm hq)]
    funext k; simp only [val, h.heap a ha]

/-- The last step of every operation: the three pointers of `x` are set. -/
theorem finish {s t u : St} {A : Name → Option Cell} {x : Name} {p : Ptr} {l : List Nat} {c : Nat} (r : Rel s A)
    (h : Pre s t x p c) (f : Frame p t u) (hl : l.length ≤ c) (hv : ∀ i (hi : i < l.length), val u p i = l[i]) :
    ∃ w, setFields u x p l.length c = ok w ∧ Rel w (put A x (some (l, c))) := by
  obtain ⟨v0, hv0⟩ := h.alive
  obtain ⟨v1, hv1, -⟩ := alive_of_map (f.vec x) hv0
  have hval : ∀ q, val { u with vec := put u.vec x (some { v1 with ptr := p, size := l.length, cap := c }) } q = val u q := by
    intro q
    funext k
    cases q with
    | null => rfl
    | cache y =>
      by_cases hy : y = x
      · subst hy; simp only [val, put_same, hv1]
      · simp only [val, put_ne _ _ hy]
    | heap a => rfl
  refine ⟨_, by unfold setFields get; rw [hv1]; rfl, ?_⟩
  refine rel_of r ?_ (fun y hy => ?_) (fun y q hy hq => ?_) (fun y a hy ha => ?_) ?_ (fun y a hy ha => ?_)
  · show s.next ≤ u.next
    rw [f.next]; exact h.next
  · show (put u.vec x _ y).map fields = _
    rw [put_ne _ _ hy, f.vec y, h.vec y hy]
  · rw [hval]; exact h.others r f hy hq
  · show (u.heap a).map _ = _
    rw [f.heap a, h.heap a (r.heap_lt ha)]
  · refine ⟨_, put_same _ _ _, rfl, rfl, hl, ?_, fun i hi => ?_⟩
    · exact (show IsPtr u x p c from h.isPtr.frame f)
    · rw [hval]; exact hv i hi
  · refine h.fresh y a hy ?_
    have : ptrOf { u with vec := put u.vec x (some { v1 with ptr := p, size := l.length, cap := c }) } x = some p := by
      show (put u.vec x _ x).map Vec.ptr = _
      rw [put_same]; rfl
    rw [this] at ha
    injection ha

/-- Writing into the block of `x` only. -/
theorem finish_write {s u : St} {A : Name → Option Cell} {x : Name} {v : Vec} {l : List Nat} {c : Nat} (r : Rel s A) (hx : s.vec x = some v)
    (hp : IsPtr s x v.ptr c) (hs : v.size = l.length) (hc : v.cap = c) (f : Frame v.ptr s u) (hl : l.length ≤ c)
    (hv : ∀ i (hi : i < l.length), val u v.ptr i = l[i]) : Rel u (put A x (some (l, c))) := by
  have h := pre_old r hx hp
  obtain ⟨w, hw, e1, e2, e3⟩ := alive_of_map (f.vec x) hx
  refine rel_of r ?_ (fun y hy => f.vec y) (fun y q hy hq => h.others r f hy hq) (fun y a hy ha => f.heap a) ?_ (fun y a hy ha => ?_)
  · rw [f.next]
  · refine ⟨w, hw, e2.trans hs, e3.trans hc, hl, ?_, fun i hi => ?_⟩
    · rw [e1]; exact hp.frame f
    · rw [e1]; exact hv i hi
  · refine h.fresh y a hy ?_
    unfold ptrOf at ha
    rw [hw] at ha
    injection ha with ha
    rw [← e1, ha]

/-! ### The operations -/

theorem make_ok {s : St} {A : Name → Option Cell} (r : Rel s A) (junk : Nat → Nat) {x : Name} (l : List Nat) (hx : A x = none) :
    ∃ w, make junk x l s = ok w ∧ Rel w (put A x (some (l, l.length))) := by
  have h := pre_alloc r junk (s1 := { s with vec := put s.vec x (some ⟨junk, .null, 0, 0⟩) }) (x := x) l.length
    (fun y hy => put_ne _ _ hy) ⟨_, put_same _ _ _⟩ rfl rfl
  obtain ⟨u, hu, f, hv⟩ := writeList_ok (h.isPtr.room h.alive (le_refl _))
  obtain ⟨w, hw, rw'⟩ := finish r h f (le_refl _) hv
  refine ⟨w, ?_, rw'⟩
  unfold make
  rw [require_true (r.isNone hx), bind_ok]
  dsimp only
  rw [hu, bind_ok, hw]

/-- The elements of another vector, after an allocation for `x`. -/
theorem Pre.src {s t : St} {A : Name → Option Cell} {x y : Name} {p : Ptr} {c d : Nat} {l : List Nat} (r : Rel s A) (h : Pre s t x p c) (hy : y ≠ x)
    {v : Vec} (h1 : s.vec y = some v) (h4 : l.length ≤ d) (h5 : IsPtr s y v.ptr d) (h6 : ∀ i (hi : i < l.length), val s v.ptr i = l[i]) :
    Room t v.ptr l.length ∧ ∀ i (hi : i < l.length), val t v.ptr i = l[i] := by
  refine ⟨?_, fun i hi => by rw [h.others r (Frame.refl p t) hy (by unfold ptrOf; rw [h1]; rfl)]; exact h6 i hi⟩
  rcases h5 with ⟨h5, e⟩ | ⟨_, h5, e⟩ | ⟨h5, a, b, e, e1, e2, e3⟩
  · exact Or.inl (by omega)
  · rw [e]; exact Or.inr ⟨⟨v, by rw [h.vec y hy, h1]⟩, by omega⟩
  · rw [e]; exact Or.inr ⟨b, by rw [h.heap a e1, e2], by omega⟩

theorem copy_ok {s : St} {A : Name → Option Cell} (r : Rel s A) (junk : Nat → Nat) {x y : Name} {l : List Nat} {c : Nat} (hx : A x = none)
    (hy : A y = some (l, c)) : ∃ w, copyMake junk x y s = ok w ∧ Rel w (put A x (some (l, l.length))) := by
  obtain ⟨v, h1, h2, h3, h4, h5, h6⟩ := r.isSome hy
  have hxy : y ≠ x := fun e => by rw [e, hx] at hy; cases hy
  have h := pre_alloc r junk (s1 := { s with vec := put s.vec x (some ⟨v.cache, .null, 0, 0⟩) }) (x := x) l.length
    (fun y hy => put_ne _ _ hy) ⟨_, put_same _ _ _⟩ rfl rfl
  obtain ⟨hr, hv⟩ := h.src r hxy h1 h4 h5 h6
  obtain ⟨u, hu, f, fv⟩ := copyN_ok hr (h.isPtr.room h.alive (le_refl _))
  obtain ⟨w, hw, rw'⟩ := finish r h f (le_refl l.length) (fun i hi => by rw [fv i, if_pos hi]; exact hv i hi)
  refine ⟨w, ?_, rw'⟩
  unfold copyMake get
  rw [require_true (r.isNone hx), bind_ok, h1, bind_ok, h2]
  dsimp only
  rw [hu, bind_ok, hw]

theorem assign_fit {s : St} {A : Name → Option Cell} (r : Rel s A) (junk : Nat → Nat) {x y : Name} {l m : List Nat} {c d : Nat}
    (hx : A x = some (m, d)) (hy : A y = some (l, c)) (hd : l.length ≤ d) :
    ∃ w, assign junk x y s = ok w ∧ Rel w (put A x (some (l, d))) := by
  obtain ⟨u, g1, g2, g3, g4, g5, g6⟩ := r.isSome hy
  obtain ⟨v, h1, h2, h3, h4, h5, h6⟩ := r.isSome hx
  unfold assign get
  rw [h1, bind_ok, g1, bind_ok]
  by_cases hxy : x = y
  · rw [if_pos hxy]
    subst hxy
    rw [hx] at hy
    injection hy with hy
    have e1 : m = l := congrArg Prod.fst hy
    subst e1
    have : put A x (some (m, d)) = A := by
      funext z
      by_cases hz : z = x
      · subst hz; rw [put_same, hx]
      · rw [put_ne _ _ hz]
    exact ⟨s, rfl, by rw [this]; exact r⟩
  · rw [if_neg hxy, if_neg (by omega)]
    have h := pre_old r h1 h5
    obtain ⟨hr, hv⟩ := h.src r (Ne.symm hxy) g1 g4 g5 g6
    obtain ⟨u', hu, f, fv⟩ := copyN_ok hr (h.isPtr.room h.alive hd)
    obtain ⟨w, hw, rw'⟩ := finish r h f hd (fun i hi => by rw [fv i, if_pos hi]; exact hv i hi)
    refine ⟨w, ?_, rw'⟩
    rw [g2, h3, hu, bind_ok, hw]

theorem assign_grow {s : St} {A : Name → Option Cell} (r : Rel s A) (junk : Nat → Nat) {x y : Name} {l m : List Nat} {c d : Nat}
    (hx : A x = some (m, d)) (hy : A y = some (l, c)) (hd : ¬ l.length ≤ d) :
    if Small d then ∃ w, assign junk x y s = ok w ∧ Rel w (put A x (some (l, l.length))) else assign junk x y s = ub := by
  obtain ⟨u, g1, g2, g3, g4, g5, g6⟩ := r.isSome hy
  obtain ⟨v, h1, h2, h3, h4, h5, h6⟩ := r.isSome hx
  have hxy : x ≠ y := by
    rintro rfl
    rw [hx] at hy
    injection hy with hy
    have e1 : m = l := congrArg Prod.fst hy
    subst e1
    exact hd h4
  have h := pre_alloc r junk (s1 := s) (x := x) l.length (fun _ _ => rfl) ⟨_, h1⟩ rfl rfl
  obtain ⟨hr, hv⟩ := h.src r (Ne.symm hxy) g1 g4 g5 g6
  obtain ⟨u', hu, f, fv⟩ := copyN_ok hr (h.isPtr.room h.alive (le_refl _))
  have h5' : IsPtr u' x v.ptr d := by
    refine IsPtr.frame f ?_
    rcases h5 with h5 | h5 | ⟨h5, a, b, e, e1, e2, e3⟩
    · exact Or.inl h5
    · exact Or.inr (Or.inl h5)
    · exact Or.inr (Or.inr ⟨h5, a, b, e, by have := h.next; omega, by rw [h.heap a e1, e2], e3⟩)
  have key : assign junk x y s = (do
      let t ← vDeallocate u' v.ptr d
      setFields t x (vAllocate junk s x l.length).2 l.length l.length) := by
    unfold assign get
    rw [h1, bind_ok, g1, bind_ok, if_neg hxy, if_pos (by omega), g2, h3]
    dsimp only
    rw [hu, bind_ok]
  rw [key, vDeallocate_iff h5']
  by_cases hs : Small d
  · rw [if_pos hs, if_pos hs, bind_ok]
    exact finish r h f (le_refl l.length) (fun i hi => by rw [fv i, if_pos hi]; exact hv i hi)
  · rw [if_neg hs, if_neg hs]; rfl

/-- `resize`: what the elements are is left open. -/
theorem resize_ok {s : St} {A : Name → Option Cell} (r : Rel s A) (junk : Nat → Nat) {x : Name} {m : List Nat} {d : Nat}
    (hx : A x = some (m, d)) (n : Nat) :
    if n ≤ d ∨ Small d then ∃ w l, resize junk x n s = ok w ∧ l.length = n ∧ Rel w (put A x (some (l, grown m.length d n)))
    else resize junk x n s = ub := by
  obtain ⟨v, h1, h2, h3, h4, h5, h6⟩ := r.isSome hx
  have hlen : ∀ u : St, ∀ p, ((List.range n).map (val u p)).length = n := fun u p => by simp
  have hval : ∀ u : St, ∀ p, ∀ i (hi : i < ((List.range n).map (val u p)).length), val u p i = ((List.range n).map (val u p))[i] := by
    intro u p i hi
    simp
  by_cases hn : n ≤ d
  · rw [if_pos (Or.inl hn)]
    have h := pre_old r h1 h5
    have hg : grown m.length d n = d := if_pos hn
    rw [hg]
    by_cases hlt : m.length < n
    · obtain ⟨u, hu, f⟩ := zeroN_ok (s := s) (p := v.ptr) (k := m.length) (n := n - m.length) (h.isPtr.room h.alive (by omega))
      obtain ⟨w, hw, rw'⟩ := finish r h f (l := (List.range n).map (val u v.ptr)) (by simpa using hn) (hval u v.ptr)
      refine ⟨w, _, ?_, hlen u v.ptr, rw'⟩
      rw [hlen] at hw
      unfold resize get
      rw [h1, bind_ok, h2, h3, if_pos hlt, if_pos hn, hu, bind_ok, hw]
    · obtain ⟨w, hw, rw'⟩ := finish r h (Frame.refl _ _) (l := (List.range n).map (val s v.ptr)) (by simpa using hn) (hval s v.ptr)
      refine ⟨w, _, ?_, hlen s v.ptr, rw'⟩
      rw [hlen] at hw
      unfold resize get
      rw [h1, bind_ok, h2, h3, if_neg hlt, hw]
  · have hg : grown m.length d n = m.length + max m.length (n - m.length) := if_neg hn
    have hge : n ≤ grown m.length d n := by rw [hg]; omega
    have h := pre_alloc r junk (s1 := s) (x := x) (grown m.length d n) (fun _ _ => rfl) ⟨_, h1⟩ rfl rfl
    obtain ⟨u, hu, f⟩ := zeroN_ok (k := m.length) (n := n - m.length) (h.isPtr.room h.alive (show m.length + (n - m.length) ≤ _ by omega))
    have hsame : IsPtr (vAllocate junk s x (grown m.length d n)).1 x v.ptr d := by
      rcases h5 with h5 | h5 | ⟨h5, a, b, e, e1, e2, e3⟩
      · exact Or.inl h5
      · exact Or.inr (Or.inl h5)
      · exact Or.inr (Or.inr ⟨h5, a, b, e, by have := h.next; omega, by rw [h.heap a e1, e2], e3⟩)
    obtain ⟨u', hu', f', -⟩ := copyN_ok (n := m.length) (Room.frame f (hsame.room h.alive h4))
      (Room.frame f (h.isPtr.room h.alive (show m.length ≤ grown m.length d n by omega)))
    have key : resize junk x n s = (do
        let t ← vDeallocate u' v.ptr d
        setFields t x (vAllocate junk s x (grown m.length d n)).2 n (grown m.length d n)) := by
      unfold resize get
      rw [h1, bind_ok, h2, h3, if_pos (by omega), if_neg hn]
      dsimp only
      rw [← hg, hu, bind_ok, hu', bind_ok]
    rw [key, vDeallocate_iff (IsPtr.frame (f.trans f') hsame)]
    by_cases hs : Small d
    · rw [if_pos (Or.inr hs), if_pos hs, bind_ok]
      obtain ⟨w, hw, rw'⟩ := finish r h (f.trans f') (l := (List.range n).map (val u' (vAllocate junk s x (grown m.length d n)).2))
        (by simpa using hge) (hval u' _)
      rw [hlen] at hw
      exact ⟨w, _, hw, hlen u' _, rw'⟩
    · rw [if_neg (by tauto), if_neg hs]; rfl

theorem put_put {β : Type} (f : Nat → Option β) (x : Nat) (v w : Option β) : put (put f x v) x w = put f x w := by
  funext y; unfold put; by_cases h : y = x
  · rw [if_pos h, if_pos h]
  · rw [if_neg h, if_neg h, if_neg h]

theorem setShape_ok {s : St} {A : Name → Option Cell} (r : Rel s A) (junk : Nat → Nat) {x : Name} {m : List Nat} {d : Nat}
    (hx : A x = some (m, d)) (l : List Nat) :
    if l.length ≤ d ∨ Small d then ∃ w, setShape junk x l s = ok w ∧ Rel w (put A x (some (l, grown m.length d l.length)))
    else setShape junk x l s = ub := by
  have h := resize_ok r junk hx l.length
  unfold setShape
  by_cases hc : l.length ≤ d ∨ Small d
  · rw [if_pos hc] at h ⊢
    obtain ⟨w, l', hw, hl, r'⟩ := h
    obtain ⟨v, h1, h2, h3, h4, h5, h6⟩ := r'.isSome (put_same _ _ _)
    rw [hl] at h2 h4
    obtain ⟨u, hu, f, hv⟩ := writeList_ok (h5.room ⟨v, h1⟩ h4)
    refine ⟨u, by unfold get; rw [hw, bind_ok, h1, bind_ok, hu], ?_⟩
    have := finish_write r' h1 h5 h2 h3 f h4 hv
    rwa [put_put] at this
  · rw [if_neg hc] at h ⊢
    rw [h]; rfl

theorem destroy_ok {s : St} {A : Name → Option Cell} (r : Rel s A) {x : Name} {m : List Nat} {d : Nat} (hx : A x = some (m, d)) :
    if Small d then ∃ w, destroy x s = ok w ∧ Rel w (put A x none) else destroy x s = ub := by
  obtain ⟨v, h1, h2, h3, h4, h5, h6⟩ := r.isSome hx
  unfold destroy get
  rw [h1, bind_ok, h3, vDeallocate_iff h5]
  by_cases hs : Small d
  · rw [if_pos hs, if_pos hs]
    refine ⟨_, rfl, rel_of r (le_refl _) (fun y hy => ?_) (fun y p hy hp => ?_) (fun _ _ _ _ => rfl) (put_same _ _ _) (fun y a _ ha => ?_)⟩
    · show (put s.vec x none y).map fields = _
      rw [put_ne _ _ hy]
    · rcases r.other hp with rfl | rfl | ⟨a, rfl, _⟩
      · rfl
      · funext k; simp only [val, put_ne _ _ hy]
      · rfl
    · have e : ptrOf { s with vec := put s.vec x none } x = none := by
        show (put s.vec x none x).map Vec.ptr = none
        rw [put_same]; rfl
      rw [e] at ha
      cases ha
  · rw [if_neg hs, if_neg hs]; rfl

/-! ### Programs -/

theorem step_rel (junk : Nat → Nat) {s : St} {A : Name → Option Cell} (r : Rel s A) (c : Cmd) :
    match capStep c A with
    | some B => ∃ t, step junk c s = ok t ∧ Rel t B
    | none => step junk c s = ub := by
  have dead : ∀ x, A x = none → get s x = ub := fun x hx => by unfold get; rw [r.isNone hx]
  have live : ∀ x lc, A x = some lc → ¬ s.vec x = none := fun x lc hx e => by
    obtain ⟨v, h1, _⟩ := r.isSome (l := lc.1) (c := lc.2) hx
    rw [h1] at e; cases e
  cases c with
  | make x l =>
    simp only [capStep, step]
    cases hx : A x with
    | none => rw [if_pos rfl]; exact make_ok r junk l hx
    | some lc => rw [if_neg (by simp)]; dsimp only; unfold make; rw [require_false (live x lc hx)]; rfl
  | copy x y =>
    simp only [capStep, step]
    cases hx : A x with
    | none =>
      rw [if_pos rfl]
      cases hy : A y with
      | none =>
        show copyMake junk x y s = ub
        unfold copyMake; rw [require_true (r.isNone hx), bind_ok, dead y hy]; rfl
      | some lc => exact copy_ok r junk hx hy
    | some lc => rw [if_neg (by simp)]; dsimp only; unfold copyMake; rw [require_false (live x lc hx)]; rfl
  | assign x y =>
    simp only [capStep, step]
    cases hx : A x with
    | none => show assign junk x y s = ub; unfold assign; rw [dead x hx]; rfl
    | some md =>
      cases hy : A y with
      | none =>
        show assign junk x y s = ub
        obtain ⟨v, h1, _⟩ := r.isSome (l := md.1) (c := md.2) hx
        unfold assign
        rw [show get s x = ok v from by unfold get; rw [h1], bind_ok, dead y hy]; rfl
      | some lc =>
        simp only [Option.bind_some]
        by_cases hd : lc.1.length ≤ md.2
        · rw [if_pos hd]; exact assign_fit r junk hx hy hd
        · rw [if_neg hd]
          have := assign_grow r junk hx hy hd
          by_cases hs : Small md.2
          · rw [if_pos hs] at this ⊢; exact this
          · rw [if_neg hs] at this ⊢; exact this
  | set x l =>
    simp only [capStep, step]
    cases hx : A x with
    | none => show setShape junk x l s = ub; unfold setShape resize; rw [dead x hx]; rfl
    | some md =>
      simp only [Option.bind_some]
      have := setShape_ok r junk hx l
      by_cases hd : l.length ≤ md.2
      · rw [if_pos hd]
        rw [if_pos (Or.inl hd), show grown md.1.length md.2 l.length = md.2 from if_pos hd] at this
        exact this
      · rw [if_neg hd]
        by_cases hs : Small md.2
        · rw [if_pos hs]; rw [if_pos (Or.inr hs)] at this; exact this
        · rw [if_neg hs]; rw [if_neg (by tauto)] at this; exact this
  | destroy x =>
    simp only [capStep, step]
    cases hx : A x with
    | none => show destroy x s = ub; unfold destroy; rw [dead x hx]; rfl
    | some md =>
      simp only [Option.bind_some]
      have := destroy_ok r hx
      by_cases hs : Small md.2
      · rw [if_pos hs] at this ⊢; exact this
      · rw [if_neg hs] at this ⊢; exact this

theorem run_rel (junk : Nat → Nat) (cs : List Cmd) : ∀ {s : St} {A : Name → Option Cell}, Rel s A →
    match capRun cs A with
    | some B => ∃ t, run junk cs s = ok t ∧ Rel t B
    | none => run junk cs s = ub := by
  induction cs with
  | nil => exact fun r => ⟨_, rfl, r⟩
  | cons c cs ih =>
    intro s A r
    have h := step_rel junk r c
    unfold capRun run
    cases hc : capStep c A with
    | none => rw [hc] at h; show (step junk c s >>= _) = ub; rw [h]; rfl
    | some B =>
      rw [hc] at h
      obtain ⟨t, ht, r'⟩ := h
      rw [ht]
      exact ih r'

theorem shapeOf_ok {s : St} {A : Name → Option Cell} (r : Rel s A) {x : Name} {l : List Nat} {c : Nat} (hx : A x = some (l, c)) :
    shapeOf x s = ok l := by
  obtain ⟨v, h1, h2, h3, h4, h5, h6⟩ := r.isSome hx
  have hr := h5.room ⟨v, h1⟩ h4
  obtain ⟨t, ht, hI⟩ := loop_inv (n := l.length) (body := fun i acc => do let e ← read s v.ptr i; pure (acc ++ [e])) (s := ([] : List Nat))
    (fun k t => t = l.take k) (by simp)
    (fun k t hk ht => ⟨_, by rw [read_ok hr hk, bind_ok]; rfl, by rw [ht, h6 k hk, List.take_add_one, List.getElem?_eq_getElem hk]; rfl⟩)
  unfold shapeOf get
  rw [h1, bind_ok, h2, ht, hI, List.take_length]

/-! ### The claims -/

/-- Every program on shapes does exactly what the account with capacities says: it runs and every name holds its list, or it gives back a
block of more than 32 elements (or uses a name wrongly), which is undefined behaviour. -/
theorem shape_program (junk : Nat → Nat) (cs : List Cmd) :
    match capRun cs (fun _ => none) with
    | some B => ∃ t, run junk cs start = ok t ∧ ∀ x,
        match B x with
        | some (l, c) => shapeOf x t = ok l ∧ ∃ v, t.vec x = some v ∧ v.cap = c
        | none => t.vec x = none
    | none => run junk cs start = ub := by
  have h := run_rel junk cs rel_start
  cases hc : capRun cs (fun _ => none) with
  | none => rw [hc] at h; exact h
  | some B =>
    rw [hc] at h
    obtain ⟨t, ht, r⟩ := h
    refine ⟨t, ht, fun x => ?_⟩
    cases hx : B x with
    | none => exact r.isNone hx
    | some lc =>
      obtain ⟨v, h1, _, h3, _⟩ := r.isSome (l := lc.1) (c := lc.2) hx
      exact ⟨shapeOf_ok r hx, v, h1, h3⟩

/-- Rank at most 16, capacity at most 32. -/
def Tame (A : Name → Option Cell) : Prop := ∀ x l c, A x = some (l, c) → l.length ≤ 16 ∧ c ≤ 32

theorem Tame.put {A : Name → Option Cell} (h : Tame A) {x : Name} {l : List Nat} {c : Nat} (hl : l.length ≤ 16) (hc : c ≤ 32) :
    Tame (put A x (some (l, c))) := by
  intro y m d hy
  by_cases e : y = x
  · subst e
    rw [put_same] at hy
    injection hy with hy
    injection hy with e1 e2
    subst e1 e2
    exact ⟨hl, hc⟩
  · rw [put_ne _ _ e] at hy; exact h y m d hy

theorem put_map {A : Name → Option Cell} (x : Name) (v : Option Cell) :
    (fun y => (put A x v y).map Prod.fst) = put (fun y => (A y).map Prod.fst) x (v.map Prod.fst) := by
  funext y
  by_cases e : y = x
  · subst e; rw [put_same, put_same]
  · rw [put_ne _ _ e, put_ne _ _ e]

theorem tame_step {c : Cmd} {A : Name → Option Cell} {M : Name → Option (List Nat)} (h : Tame A) (hk : c.RankLe 16)
    (hm : meanStep c (fun x => (A x).map Prod.fst) = some M) :
    ∃ B, capStep c A = some B ∧ Tame B ∧ M = fun x => (B x).map Prod.fst := by
  cases c with
  | make x l =>
    simp only [meanStep, capStep] at hm ⊢
    cases hx : A x with
    | some lc => rw [if_neg (by simp [hx])] at hm; cases hm
    | none =>
      rw [if_pos (by simp [hx])] at hm
      rw [if_pos rfl]
      injection hm with hm
      have hl : l.length ≤ 16 := hk
      exact ⟨_, rfl, h.put hl (by omega), by rw [put_map, ← hm]; rfl⟩
  | copy x y =>
    simp only [meanStep, capStep] at hm ⊢
    cases hx : A x with
    | some lc => rw [if_neg (by simp [hx])] at hm; cases hm
    | none =>
      rw [if_pos (by simp [hx])] at hm
      rw [if_pos rfl]
      cases hy : A y with
      | none => rw [hy] at hm; cases hm
      | some lc =>
        rw [hy] at hm
        simp only [Option.map_some, Option.bind_some, Option.some.injEq] at hm ⊢
        have hl := (h y lc.1 lc.2 hy).1
        exact ⟨_, rfl, h.put hl (by omega), by rw [put_map, ← hm]; rfl⟩
  | assign x y =>
    simp only [meanStep, capStep] at hm ⊢
    cases hx : A x with
    | none => rw [hx] at hm; cases hm
    | some md =>
      cases hy : A y with
      | none => rw [hx, hy] at hm; cases hm
      | some lc =>
        rw [hx, hy] at hm
        simp only [Option.map_some, Option.bind_some, Option.some.injEq] at hm ⊢
        have hl := (h y lc.1 lc.2 hy).1
        have hd := (h x md.1 md.2 hx).2
        by_cases e : lc.1.length ≤ md.2
        · rw [if_pos e]; exact ⟨_, rfl, h.put hl hd, by rw [put_map, ← hm]; rfl⟩
        · rw [if_neg e, if_pos (show Small md.2 from hd)]
          exact ⟨_, rfl, h.put hl (by omega), by rw [put_map, ← hm]; rfl⟩
  | set x l =>
    simp only [meanStep, capStep] at hm ⊢
    cases hx : A x with
    | none => rw [hx] at hm; cases hm
    | some md =>
      rw [hx] at hm
      simp only [Option.map_some, Option.bind_some, Option.some.injEq] at hm ⊢
      have hl : l.length ≤ 16 := hk
      obtain ⟨hm', hd⟩ := h x md.1 md.2 hx
      by_cases e : l.length ≤ md.2
      · rw [if_pos e]; exact ⟨_, rfl, h.put hl hd, by rw [put_map, ← hm]; rfl⟩
      · rw [if_neg e, if_pos (show Small md.2 from hd)]
        refine ⟨_, rfl, h.put hl ?_, by rw [put_map, ← hm]; rfl⟩
        unfold grown
        rw [if_neg e]
        omega
  | destroy x =>
    simp only [meanStep, capStep] at hm ⊢
    cases hx : A x with
    | none => rw [hx] at hm; cases hm
    | some md =>
      rw [hx] at hm
      simp only [Option.map_some, Option.bind_some, Option.some.injEq] at hm ⊢
      have hd := (h x md.1 md.2 hx).2
      rw [if_pos (show Small md.2 from hd)]
      refine ⟨_, rfl, fun y l c hy => ?_, by rw [put_map, ← hm]; rfl⟩
      by_cases e : y = x
      · subst e; rw [put_same] at hy; cases hy
      · rw [put_ne _ _ e] at hy; exact h y l c hy

theorem tame_run (cs : List Cmd) : ∀ {A : Name → Option Cell} {M : Name → Option (List Nat)}, Tame A → (∀ c ∈ cs, c.RankLe 16) →
    meaning cs (fun x => (A x).map Prod.fst) = some M → ∃ B, capRun cs A = some B ∧ Tame B ∧ M = fun x => (B x).map Prod.fst := by
  induction cs with
  | nil => intro A M h _ hm; injection hm with hm; exact ⟨A, rfl, h, hm.symm⟩
  | cons c cs ih =>
    intro A M h hk hm
    unfold meaning at hm
    cases hc : meanStep c (fun x => (A x).map Prod.fst) with
    | none => rw [hc] at hm; cases hm
    | some M' =>
      rw [hc] at hm
      obtain ⟨B, hB, tB, e⟩ := tame_step h (hk c (List.mem_cons_self ..)) hc
      subst e
      obtain ⟨D, hD, tD, eD⟩ := ih tB (fun c' hc' => hk c' (List.mem_cons_of_mem _ hc')) hm
      exact ⟨D, by unfold capRun; rw [hB]; exact hD, tD, eD⟩

/-- Shapes are values: a program that makes, copies, assigns, sets and destroys shapes of rank at most 16 runs without undefined behaviour,
every tensor's shape reads the list it should, and lies in the tensor itself.  (The full claim, without the bound on the rank, is violated.) -/
theorem shapes_are_values_partial (junk : Nat → Nat) (cs : List Cmd) (M : Name → Option (List Nat)) (hk : ∀ c ∈ cs, c.RankLe 16)
    (hm : meaning cs (fun _ => none) = some M) :
    ∃ t, run junk cs start = ok t ∧ ∀ x,
      match M x with
      | some l => shapeOf x t = ok l ∧ ∃ v, t.vec x = some v ∧ (v.ptr = .null ∨ v.ptr = .cache x)
      | none => t.vec x = none := by
  obtain ⟨B, hB, tB, e⟩ := tame_run cs (A := fun _ => none) (fun x l c h => by cases h) hk hm
  have h := run_rel junk cs rel_start
  rw [hB] at h
  obtain ⟨t, ht, r⟩ := h
  refine ⟨t, ht, fun x => ?_⟩
  subst e
  dsimp only
  cases hx : B x with
  | none => exact r.isNone hx
  | some lc =>
    obtain ⟨v, h1, _, _, _, h5, _⟩ := r.isSome (l := lc.1) (c := lc.2) hx
    refine ⟨shapeOf_ok r hx, v, h1, ?_⟩
    have hd := (tB x lc.1 lc.2 hx).2
    rcases h5 with ⟨_, e⟩ | ⟨_, _, e⟩ | ⟨h5, _⟩
    · exact Or.inl e
    · exact Or.inr e
    · omega

/-- Two tensors, the second moved over the first, reshaped, the second gone. -/
example : (meaning [.make 0 [2, 3], .make 1 [4, 5, 6], .assign 0 1, .set 0 [8, 3, 5, 1], .destroy 1] (fun _ => none)).map
    (fun M => (M 0, M 1)) = some (some [8, 3, 5, 1], none) := rfl

theorem capRun_append (cs ds : List Cmd) : ∀ A, capRun (cs ++ ds) A = (capRun cs A).bind (capRun ds) := by
  induction cs with
  | nil => exact fun A => rfl
  | cons c cs ih =>
    intro A
    show (capStep c A).bind (capRun (cs ++ ds)) = ((capStep c A).bind (capRun cs)).bind (capRun ds)
    cases capStep c A with
    | none => rfl
    | some B => exact ih B

/-- After any program that runs, a tensor of more than 32 extents cannot be destroyed. -/
theorem big_shape_violated (junk : Nat → Nat) (cs : List Cmd) (A : Name → Option Cell) (hA : capRun cs (fun _ => none) = some A)
    (x : Name) (hx : A x = none) (l : List Nat) (hl : 32 < l.length) :
    run junk (cs ++ [.make x l, .destroy x]) start = ub := by
  have h := shape_program junk (cs ++ [.make x l, .destroy x])
  have e : capRun (cs ++ [.make x l, .destroy x]) (fun _ => none) = none := by
    rw [capRun_append, hA]
    simp only [Option.bind_some, capRun, capStep, hx, if_true, put_same]
    rw [if_neg (show ¬ Small l.length from by unfold Small; omega)]
    rfl
  rw [e] at h
  exact h

/-- Nor can one of 17 to 32 extents that was given more by `reshape` or `resize`. -/
theorem growth_violated (junk : Nat → Nat) (cs : List Cmd) (A : Name → Option Cell) (hA : capRun cs (fun _ => none) = some A)
    (x : Name) (hx : A x = none) (l m : List Nat) (hl : 16 < l.length) (hl' : l.length ≤ 32) (hm : l.length < m.length) :
    run junk (cs ++ [.make x l, .set x m, .destroy x]) start = ub := by
  have h := shape_program junk (cs ++ [.make x l, .set x m, .destroy x])
  have e : capRun (cs ++ [.make x l, .set x m, .destroy x]) (fun _ => none) = none := by
    rw [capRun_append, hA]
    simp only [Option.bind_some, capRun, capStep, hx, if_true, put_same]
    rw [if_neg (by omega), if_pos (show Small l.length from hl')]
    simp only [Option.bind_some, put_same]
    rw [if_neg (show ¬ Small (grown l.length l.length m.length) from by unfold Small grown; rw [if_neg (by omega)]; omega)]
    rfl
  rw [e] at h
  exact h

/-- A tensor of 33 ones; and one of 17 ones made 18. -/
example : capRun [.make 0 [2, 3]] (fun _ => none) = some (put (fun _ => none) 0 (some ([2, 3], 2))) ∧ 32 < (List.replicate 33 1).length ∧
    16 < (List.replicate 17 1).length ∧ (List.replicate 17 1).length < (List.replicate 18 1).length := ⟨rfl, by decide, by decide, by decide⟩

end Verif.ShapeVec
