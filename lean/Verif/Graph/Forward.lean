import Verif.Graph.Spec
/-!
# Evaluation of expressions (proofs, C55)
-/
namespace Verif.Graph
open Verif Res

variable {α : Type}

theorem upd_same {κ β : Type} [DecidableEq κ] (f : κ → β) (k : κ) (b : β) : upd f k b k = b := if_pos rfl

theorem upd_ne {κ β : Type} [DecidableEq κ] (f : κ → β) {k k' : κ} (b : β) (h : k' ≠ k) : upd f k b k' = f k' := if_neg h

theorem mem_occs_self (e : Ex α) (s : Slot) : (s, e) ∈ occs e s := by
  cases e <;> simp [occs]

theorem occs_child_un {e t : Ex α} {s sl : Slot} {i : Nat} {op : UOp α} (h : (sl, Ex.un i op t) ∈ occs e s) : (some (i, false), t) ∈ occs e s := by
  induction e generalizing s with
  | leaf k => simp [occs] at h
  | var v c => simp [occs] at h
  | un j op' e ih =>
    simp only [occs, List.mem_cons] at h ⊢
    rcases h with h | h
    · simp only [Prod.mk.injEq, Ex.un.injEq] at h
      obtain ⟨_, rfl, rfl, rfl⟩ := h
      exact Or.inr (mem_occs_self _ _)
    · exact Or.inr (ih h)
  | bin j op' l r ihl ihr =>
    simp only [occs, List.mem_cons, List.mem_append] at h ⊢
    rcases h with h | h | h
    · simp at h
    · exact Or.inr (Or.inl (ihl h))
    · exact Or.inr (Or.inr (ihr h))

theorem occs_child_bin {e l r : Ex α} {s sl : Slot} {i : Nat} {op : BOp α} (h : (sl, Ex.bin i op l r) ∈ occs e s) :
    (some (i, false), l) ∈ occs e s ∧ (some (i, true), r) ∈ occs e s := by
  induction e generalizing s with
  | leaf k => simp [occs] at h
  | var v c => simp [occs] at h
  | un j op' e ih =>
    simp only [occs, List.mem_cons] at h ⊢
    rcases h with h | h
    · simp at h
    · exact ⟨Or.inr (ih h).1, Or.inr (ih h).2⟩
  | bin j op' l' r' ihl ihr =>
    simp only [occs, List.mem_cons, List.mem_append] at h ⊢
    rcases h with h | h | h
    · simp only [Prod.mk.injEq, Ex.bin.injEq] at h
      obtain ⟨_, rfl, rfl, rfl, rfl⟩ := h
      exact ⟨Or.inr (Or.inl (mem_occs_self _ _)), Or.inr (Or.inr (mem_occs_self _ _))⟩
    · exact ⟨Or.inr (Or.inl (ihl h).1), Or.inr (Or.inl (ihl h).2)⟩
    · exact ⟨Or.inr (Or.inr (ihr h).1), Or.inr (Or.inr (ihr h).2)⟩

/-- The operand of operator `t` on side `b`. -/
def Ex.child? : Ex α → Bool → Option (Ex α)
  | .un _ _ e, false => some e
  | .bin _ _ l _, false => some l
  | .bin _ _ _ r, true => some r
  | _, _ => none

/-- Every occurrence is the root or the operand of an occurring operator. -/
theorem occs_parent {e t : Ex α} {s sl : Slot} (h : (sl, t) ∈ occs e s) :
    (sl, t) = (s, e) ∨ ∃ i b sl' u, sl = some (i, b) ∧ (sl', u) ∈ occs e s ∧ u.id? = some i ∧ u.child? b = some t := by
  induction e generalizing s with
  | leaf k => left; simpa [occs] using h
  | var v c => left; simpa [occs] using h
  | un j op' e ih =>
    simp only [occs, List.mem_cons] at h ⊢
    rcases h with h | h
    · exact Or.inl h
    · right
      rcases ih h with h | ⟨i, b, sl', u, h1, h2, h3⟩
      · simp only [Prod.mk.injEq] at h
        exact ⟨j, false, s, .un j op' e, h.1, Or.inl rfl, rfl, by rw [h.2]; rfl⟩
      · exact ⟨i, b, sl', u, h1, Or.inr h2, h3⟩
  | bin j op' l r ihl ihr =>
    simp only [occs, List.mem_cons, List.mem_append] at h ⊢
    rcases h with h | h | h
    · exact Or.inl h
    · right
      rcases ihl h with h | ⟨i, b, sl', u, h1, h2, h3⟩
      · simp only [Prod.mk.injEq] at h
        exact ⟨j, false, s, .bin j op' l r, h.1, Or.inl rfl, rfl, by rw [h.2]; rfl⟩
      · exact ⟨i, b, sl', u, h1, Or.inr (Or.inl h2), h3⟩
    · right
      rcases ihr h with h | ⟨i, b, sl', u, h1, h2, h3⟩
      · simp only [Prod.mk.injEq] at h
        exact ⟨j, true, s, .bin j op' l r, h.1, Or.inl rfl, rfl, by rw [h.2]; rfl⟩
      · exact ⟨i, b, sl', u, h1, Or.inr (Or.inr h2), h3⟩

/-- An object holds one expression only. -/
theorem slot_unique {e t u : Ex α} {sl : Slot} (hc : Consistent e) (h1 : (sl, t) ∈ occs e none) (h2 : (sl, u) ∈ occs e none) : t = u := by
  rcases occs_parent h1 with h1 | ⟨i, b, s1, u1, e1, m1, i1, c1⟩ <;> rcases occs_parent h2 with h2 | ⟨j, c, s2, u2, e2, m2, i2, c2⟩
  · simp only [Prod.mk.injEq] at h1 h2; rw [h1.2, h2.2]
  · simp only [Prod.mk.injEq] at h1; rw [h1.1] at e2; simp at e2
  · simp only [Prod.mk.injEq] at h2; rw [h2.1] at e1; simp at e1
  · rw [e1] at e2
    simp only [Option.some.injEq, Prod.mk.injEq] at e2
    obtain ⟨rfl, rfl⟩ := e2
    have := hc _ m1 _ m2 i i1 i2
    simp only at this
    rw [this, c2] at c1
    simpa using c1.symm

/-! ### The invariant of evaluation -/

section
variable (e : Ex α) (L D : Nat → Ten α)

/-- The object `sl` holding `u` has been evaluated. -/
def Done (s : St α) (sl : Slot) (u : Ex α) : Prop :=
  ∀ i, u.id? = some i → (s.cache i).isSome ∧ eval L D u = ok (s.obj sl).out

/-- The operand field on one side. -/
def side (f : Fields α) : Bool → Ten α
  | false => f.inL
  | true => f.inR

/-- The operand field of `sl` on side `b` holds the value of the operand. -/
def InOk (s : St α) (sl : Slot) (u : Ex α) (b : Bool) : Prop := ∀ c, u.child? b = some c → eval L D c = ok (side (s.obj sl) b)

/-- The gradient of a variable is zero and the copy in the object is marked as changed. -/
def Zeroed [Zero α] (s : St α) (v : Slot × Nat) : Prop := (∀ x ∈ (s.grad v.2).data, x = 0) ∧ s.sync v.1 = false

structure Inv [Zero α] (s : St α) : Prop where
  leaf : s.leaf = L
  data : s.data = D
  value : ∀ p ∈ occs e none, ∀ i y, p.2.id? = some i → s.cache i = some y → eval L D p.2 = ok y
  child : ∀ p ∈ occs e none, ∀ i, p.2.id? = some i → (s.cache i).isSome → ∀ b c, p.2.child? b = some c → Done L D s (some (i, b)) c
  inputs : ∀ p ∈ occs e none, ∀ i, p.2.id? = some i → (s.cache i).isSome →
    (∀ q ∈ occs e none, q.2.id? = some i → q.1 = p.1) → ∀ b, InOk L D s p.1 p.2 b
  zero : s.training = true → ∀ p ∈ occs e none, ∀ i, p.2.id? = some i → (s.cache i).isSome → ∀ v ∈ varOccs p.2 p.1, Zeroed s v

/-- What evaluation keeps. -/
structure Mono [Zero α] (s s' : St α) : Prop where
  done : ∀ p ∈ occs e none, Done L D s p.1 p.2 → Done L D s' p.1 p.2
  inOk : ∀ p ∈ occs e none, ∀ b, InOk L D s p.1 p.2 b → InOk L D s' p.1 p.2 b
  cache : ∀ i, (s.cache i).isSome → (s'.cache i).isSome
  zeroed : ∀ v, Zeroed s v → Zeroed s' v
  training : s'.training = s.training
  gshape : ∀ v, (s'.grad v).shape = (s.grad v).shape ∧ (s'.grad v).data.length = (s.grad v).data.length

variable {e L D}

theorem Mono.refl [Zero α] (s : St α) : Mono e L D s s := ⟨fun _ _ h => h, fun _ _ _ h => h, fun _ h => h, fun _ h => h, rfl, fun _ => ⟨rfl, rfl⟩⟩

theorem Mono.trans [Zero α] {s s' s'' : St α} (h1 : Mono e L D s s') (h2 : Mono e L D s' s'') : Mono e L D s s'' :=
  ⟨fun p hp h => h2.done p hp (h1.done p hp h), fun p hp b h => h2.inOk p hp b (h1.inOk p hp b h), fun i h => h2.cache i (h1.cache i h),
    fun v h => h2.zeroed v (h1.zeroed v h), h2.training.trans h1.training,
    fun v => ⟨(h2.gshape v).1.trans (h1.gshape v).1, (h2.gshape v).2.trans (h1.gshape v).2⟩⟩

/-- Result of evaluating at an object: that of `eval`, and in case of success a property of the new state. -/
def Ends (r : Res (Ten α × St α)) (v : Res (Ten α)) (P : St α → Prop) : Prop :=
  match v with
  | ok y => ∃ s', r = ok (y, s') ∧ P s'
  | abort => r = abort
  | ub => r = ub

/-- Writing fields of one object. -/
def setObj (s : St α) (sl : Slot) (f : Fields α) : St α := { s with obj := upd s.obj sl f }

theorem side_out (f : Fields α) (q : Ten α) (b : Bool) : side { f with out := q } b = side f b := by cases b <;> rfl

theorem inOk_setOut {s : St α} {sl : Slot} {q : Ten α} {p : Slot × Ex α} {b : Bool} (h : InOk L D s p.1 p.2 b) :
    InOk L D (setObj s sl { s.obj sl with out := q }) p.1 p.2 b := by
  intro c hc
  rw [h c hc]
  congr 1
  unfold setObj
  dsimp only
  by_cases hp : p.1 = sl
  · rw [hp, upd_same]; exact (side_out (s.obj sl) q b).symm
  · rw [upd_ne _ _ hp]

/-- Writing the result of the cache query to the object. -/
theorem step_query [Zero α] (hc : Consistent e) {s : St α} (hi : Inv e L D s) {sl : Slot} {t : Ex α} {i : Nat} (ho : (sl, t) ∈ occs e none)
    (ht : t.id? = some i) :
    Inv e L D (setObj s sl { s.obj sl with out := query s.cache i }) ∧ Mono e L D s (setObj s sl { s.obj sl with out := query s.cache i }) ∧
      ∀ y, s.cache i = some y → Done L D (setObj s sl { s.obj sl with out := query s.cache i }) sl t := by
  have hq : ∀ y, s.cache i = some y → query s.cache i = y := fun y hy => by unfold query; rw [hy]; rfl
  have hdone : ∀ p ∈ occs e none, Done L D s p.1 p.2 → Done L D (setObj s sl { s.obj sl with out := query s.cache i }) p.1 p.2 := by
    intro p hp h j hj
    obtain ⟨h1, h2⟩ := h j hj
    refine ⟨h1, ?_⟩
    by_cases hps : p.1 = sl
    · obtain rfl : p.2 = t := slot_unique hc (sl := sl) (by rw [← hps]; exact hp) ho
      rw [ht] at hj
      obtain rfl : i = j := by simpa using hj
      obtain ⟨y, hy⟩ := Option.isSome_iff_exists.mp h1
      rw [hi.value _ hp i y ht hy]
      unfold setObj
      dsimp only
      rw [hps, upd_same, hq y hy]
    · unfold setObj
      dsimp only
      rw [upd_ne _ _ hps]; exact h2
  refine ⟨⟨hi.leaf, hi.data, hi.value, ?_, ?_, hi.zero⟩, ⟨hdone, fun p _ b h => inOk_setOut h, fun _ h => h, fun _ h => h, rfl, fun _ => ⟨rfl, rfl⟩⟩, ?_⟩
  · intro p hp j hj hs b c hcb
    have hmem : (some (j, b), c) ∈ occs e none := by
      obtain ⟨sl', u⟩ := p
      cases u with
      | leaf k => simp [Ex.id?] at hj
      | var v c => simp [Ex.id?] at hj
      | un i' op x =>
        simp only [Ex.id?, Option.some.injEq] at hj
        subst hj
        cases b with
        | false => simp only [Ex.child?, Option.some.injEq] at hcb; subst hcb; exact occs_child_un hp
        | true => simp [Ex.child?] at hcb
      | bin i' op l r =>
        simp only [Ex.id?, Option.some.injEq] at hj
        subst hj
        cases b with
        | false => simp only [Ex.child?, Option.some.injEq] at hcb; subst hcb; exact (occs_child_bin hp).1
        | true => simp only [Ex.child?, Option.some.injEq] at hcb; subst hcb; exact (occs_child_bin hp).2
    exact hdone _ hmem (hi.child p hp j hj hs b c hcb)
  · intro p hp j hj hs hx b
    exact inOk_setOut (hi.inputs p hp j hj hs hx b)
  · intro y hy j hj
    rw [ht] at hj
    obtain rfl : i = j := by simpa using hj
    refine ⟨by show (s.cache i).isSome = true; rw [hy]; rfl, ?_⟩
    rw [hi.value _ ho i y ht hy]
    unfold setObj
    dsimp only
    rw [upd_same, hq y hy]

theorem child_mem {p : Slot × Ex α} {j : Nat} {b : Bool} {c : Ex α} (hp : p ∈ occs e none) (hj : p.2.id? = some j)
    (hcb : p.2.child? b = some c) : (some (j, b), c) ∈ occs e none := by
  obtain ⟨sl', u⟩ := p
  cases u with
  | leaf k => simp [Ex.id?] at hj
  | var v c => simp [Ex.id?] at hj
  | un i' op x =>
    simp only [Ex.id?, Option.some.injEq] at hj
    subst hj
    cases b with
    | false => simp only [Ex.child?, Option.some.injEq] at hcb; subst hcb; exact occs_child_un hp
    | true => simp [Ex.child?] at hcb
  | bin i' op l r =>
    simp only [Ex.id?, Option.some.injEq] at hj
    subst hj
    cases b with
    | false => simp only [Ex.child?, Option.some.injEq] at hcb; subst hcb; exact (occs_child_bin hp).1
    | true => simp only [Ex.child?, Option.some.injEq] at hcb; subst hcb; exact (occs_child_bin hp).2

/-- Setting an operand field. -/
def setSide (f : Fields α) (b : Bool) (x : Ten α) : Fields α :=
  match b with
  | false => { f with inL := x }
  | true => { f with inR := x }

theorem side_setSide (f : Fields α) (b b' : Bool) (x : Ten α) : side (setSide f b x) b' = if b' = b then x else side f b' := by
  cases b <;> cases b' <;> rfl

theorem out_setSide (f : Fields α) (b : Bool) (x : Ten α) : (setSide f b x).out = f.out := by cases b <;> rfl

theorem step_input [Zero α] (hc : Consistent e) {s : St α} (hi : Inv e L D s) {sl : Slot} {t c : Ex α} (ho : (sl, t) ∈ occs e none) {b : Bool}
    (hb : t.child? b = some c) {x : Ten α} (hx : eval L D c = ok x) :
    Inv e L D (setObj s sl (setSide (s.obj sl) b x)) ∧ Mono e L D s (setObj s sl (setSide (s.obj sl) b x)) ∧
      InOk L D (setObj s sl (setSide (s.obj sl) b x)) sl t b := by
  have hdone : ∀ p : Slot × Ex α, Done L D s p.1 p.2 → Done L D (setObj s sl (setSide (s.obj sl) b x)) p.1 p.2 := by
    intro p h j hj
    obtain ⟨h1, h2⟩ := h j hj
    refine ⟨h1, ?_⟩
    rw [h2]
    unfold setObj
    dsimp only
    by_cases hps : p.1 = sl
    · rw [hps, upd_same, out_setSide]
    · rw [upd_ne _ _ hps]
  have hin : ∀ p ∈ occs e none, ∀ b', InOk L D s p.1 p.2 b' → InOk L D (setObj s sl (setSide (s.obj sl) b x)) p.1 p.2 b' := by
    intro p hp b' h d hd
    have := h d hd
    unfold setObj
    dsimp only
    by_cases hps : p.1 = sl
    · obtain rfl : p.2 = t := slot_unique hc (sl := sl) (by rw [← hps]; exact hp) ho
      rw [hps, upd_same, side_setSide]
      by_cases hbb : b' = b
      · subst hbb
        rw [hb] at hd
        obtain rfl : c = d := by simpa using hd
        rw [if_pos rfl, hx]
      · rw [if_neg hbb, this, hps]
    · rw [upd_ne _ _ hps]; exact this
  refine ⟨⟨hi.leaf, hi.data, hi.value, ?_, ?_, hi.zero⟩, ⟨fun p _ => hdone p, hin, fun _ h => h, fun _ h => h, rfl, fun _ => ⟨rfl, rfl⟩⟩, ?_⟩
  · intro p hp j hj hs b' d hd
    exact hdone (some (j, b'), d) (hi.child p hp j hj hs b' d hd)
  · intro p hp j hj hs hxx b'
    exact hin p hp b' (hi.inputs p hp j hj hs hxx b')
  · intro d hd
    rw [hb] at hd
    obtain rfl : c = d := by simpa using hd
    unfold setObj
    dsimp only
    rw [upd_same, side_setSide, if_pos rfl, hx]

theorem varOccs_op {t : Ex α} {i : Nat} (h : t.id? = some i) (a b : Slot) : varOccs t a = varOccs t b := by
  cases t with
  | leaf k => simp [Ex.id?] at h
  | var v c => simp [Ex.id?] at h
  | un j op c => rfl
  | bin j op l r => rfl

/-- The state after the forward action of operator `i` in object `sl`. -/
def finish (s : St α) (sl : Slot) (i : Nat) (y : Ten α) : St α :=
  { s with obj := upd s.obj sl { s.obj sl with out := y }, cache := upd s.cache i (some y), done := i :: s.done }

theorem step_finish [Zero α] (hc : Consistent e) {s : St α} (hi : Inv e L D s) {sl : Slot} {t : Ex α} {i : Nat} (ho : (sl, t) ∈ occs e none)
    (ht : t.id? = some i) {y : Ten α} (hy : eval L D t = ok y) (hch : ∀ b c, t.child? b = some c → Done L D s (some (i, b)) c)
    (hin : ∀ b, InOk L D s sl t b) (hz : s.training = true → ∀ v ∈ varOccs t sl, Zeroed s v) :
    Inv e L D (finish s sl i y) ∧ Mono e L D s (finish s sl i y) ∧ Done L D (finish s sl i y) sl t := by
  have hcache : ∀ j, (s.cache j).isSome → ((finish s sl i y).cache j).isSome := by
    intro j h
    unfold finish
    dsimp only
    by_cases hj : j = i
    · rw [hj, upd_same]; rfl
    · rw [upd_ne _ _ hj]; exact h
  have hdone : ∀ p ∈ occs e none, Done L D s p.1 p.2 → Done L D (finish s sl i y) p.1 p.2 := by
    intro p hp h j hj
    obtain ⟨h1, h2⟩ := h j hj
    refine ⟨hcache j h1, ?_⟩
    by_cases hps : p.1 = sl
    · obtain rfl : p.2 = t := slot_unique hc (sl := sl) (by rw [← hps]; exact hp) ho
      unfold finish
      dsimp only
      rw [hps, upd_same, hy]
    · unfold finish
      dsimp only
      rw [upd_ne _ _ hps]; exact h2
  have hinOk : ∀ p : Slot × Ex α, ∀ b, InOk L D s p.1 p.2 b → InOk L D (finish s sl i y) p.1 p.2 b :=
    fun p b h => inOk_setOut (p := p) (q := y) (sl := sl) h
  refine ⟨⟨hi.leaf, hi.data, ?_, ?_, ?_, ?_⟩, ⟨hdone, fun p _ => hinOk p, hcache, fun _ h => h, rfl, fun _ => ⟨rfl, rfl⟩⟩, ?_⟩
  · intro p hp j z hj hz
    unfold finish at hz
    dsimp only at hz
    by_cases hji : j = i
    · subst hji
      rw [upd_same] at hz
      have := hc p hp _ ho j hj ht
      simp only at this
      rw [this, hy]; congr 1; simpa using hz
    · rw [upd_ne _ _ hji] at hz
      exact hi.value p hp j z hj hz
  · intro p hp j hj hs b c hcb
    have hmem := child_mem hp hj hcb
    by_cases hji : j = i
    · subst hji
      have := hc p hp _ ho j hj ht
      simp only at this
      rw [this] at hcb
      exact hdone _ hmem (hch b c hcb)
    · refine hdone _ hmem (hi.child p hp j hj ?_ b c hcb)
      unfold finish at hs
      dsimp only at hs
      rwa [upd_ne _ _ hji] at hs
  · intro p hp j hj hs hx b
    by_cases hji : j = i
    · subst hji
      have := hc p hp _ ho j hj ht
      have hsl := hx _ ho ht
      simp only at this hsl
      have h := hinOk (sl, t) b (hin b)
      dsimp only at h
      rw [this, ← hsl]; exact h
    · refine hinOk p b (hi.inputs p hp j hj ?_ hx b)
      unfold finish at hs
      dsimp only at hs
      rwa [upd_ne _ _ hji] at hs
  · intro htr p hp j hj hs v hv
    by_cases hji : j = i
    · subst hji
      have := hc p hp _ ho j hj ht
      simp only at this
      rw [varOccs_op hj p.1 sl, this] at hv
      exact hz htr v hv
    · refine hi.zero htr p hp j hj ?_ v hv
      unfold finish at hs
      dsimp only at hs
      rwa [upd_ne _ _ hji] at hs
  · intro j hj
    rw [ht] at hj
    obtain rfl : i = j := by simpa using hj
    unfold finish
    dsimp only
    exact ⟨by rw [upd_same]; rfl, by rw [upd_same, hy]⟩

theorem query_nonempty {cache : Nat → Option (Ten α)} {i : Nat} (h : (query cache i).data ≠ []) : cache i = some (query cache i) := by
  unfold query at h ⊢
  cases hc : cache i with
  | none => rw [hc] at h; exact absurd rfl h
  | some y => rfl

/-- Evaluation of any occurrence of a sub-expression, from any state in which what is cached is right. -/
theorem forward_spec [Zero α] (hc : Consistent e) (t : Ex α) : ∀ (sl : Slot) (s : St α), (sl, t) ∈ occs e none → Inv e L D s →
    Ends (forward t sl s) (eval L D t) (fun s' => Inv e L D s' ∧ Mono e L D s s' ∧ Done L D s' sl t ∧
      (s.training = true → ∀ v ∈ varOccs t sl, Zeroed s' v) ∧ ∀ v, v ∉ vars t → s'.grad v = s.grad v) := by
  induction t with
  | leaf k =>
    intro sl s ho hi
    unfold forward eval
    rw [hi.leaf]
    by_cases h : (L k).data ≠ []
    · rw [assert_true h, bind_ok, bind_ok]
      exact ⟨s, rfl, hi, Mono.refl s, fun i hi => by simp [Ex.id?] at hi, fun _ v hv => by simp [varOccs] at hv, fun _ _ => rfl⟩
    · rw [assert_false h]; rfl
  | var v c =>
    intro sl s ho hi
    unfold forward eval varForward
    by_cases htr : s.training = true
    · rw [if_pos htr]
      have hmono : Mono e L D s { s with grad := upd s.grad v ⟨(s.grad v).shape, (s.grad v).data.map (fun _ => 0)⟩, sync := upd s.sync sl false } := by
        refine ⟨fun _ _ h => h, fun _ _ _ h => h, fun _ h => h, ?_, rfl, ?_⟩
        · intro w hw
          refine ⟨?_, ?_⟩
          · dsimp only
            by_cases hwv : w.2 = v
            · rw [hwv, upd_same]
              intro x hx
              simp only [List.mem_map] at hx
              obtain ⟨_, _, h⟩ := hx; exact h.symm
            · rw [upd_ne _ _ hwv]; exact hw.1
          · dsimp only
            by_cases hwv : w.1 = sl
            · rw [hwv, upd_same]
            · rw [upd_ne _ _ hwv]; exact hw.2
        · intro w
          dsimp only
          by_cases hwv : w = v
          · rw [hwv, upd_same]; exact ⟨rfl, by simp⟩
          · rw [upd_ne _ _ hwv]; exact ⟨rfl, rfl⟩
      refine ⟨{ s with grad := upd s.grad v ⟨(s.grad v).shape, (s.grad v).data.map (fun _ => 0)⟩, sync := upd s.sync sl false },
        by rw [show s.data v = D v by rw [hi.data]], ⟨hi.leaf, hi.data, hi.value, hi.child, hi.inputs, ?_⟩, hmono, fun i hi => by simp [Ex.id?] at hi, ?_, ?_⟩
      · intro h p hp i hpi hs w hw
        exact hmono.zeroed w (hi.zero htr p hp i hpi hs w hw)
      · intro _ w hw
        simp only [varOccs, List.mem_singleton] at hw
        subst hw
        refine ⟨?_, ?_⟩
        · dsimp only
          rw [upd_same]
          intro x hx
          simp only [List.mem_map] at hx
          obtain ⟨_, _, h⟩ := hx; exact h.symm
        · dsimp only
          rw [upd_same]
      · intro w hw
        simp only [vars, List.mem_singleton] at hw
        dsimp only
        rw [upd_ne _ _ hw]
    · rw [if_neg htr]
      exact ⟨s, by rw [show s.data v = D v by rw [hi.data]], hi, Mono.refl s, fun i hi => by simp [Ex.id?] at hi, fun h => absurd h htr, fun _ _ => rfl⟩
  | un i op c ih =>
    intro sl s ho hi
    obtain ⟨q1, q2, q3⟩ := step_query hc hi ho (i := i) rfl
    unfold forward
    dsimp only
    by_cases hq : (query s.cache i).data = []
    · rw [if_pos hq]
      have h := ih (some (i, false)) _ (occs_child_un ho) q1
      change Ends (do
        let r ← forward c (some (i, false)) (setObj s sl { s.obj sl with out := query s.cache i })
        match r with
        | (x, s) => do
          let s := setObj s sl (setSide (s.obj sl) false x)
          let y ← op.fwd x
          pure (y, finish s sl i y)) (eval L D c >>= fun x => op.fwd x) _
      revert h
      cases hx : eval L D c with
      | abort => intro h; rw [show forward c (some (i, false)) _ = abort from h]; rfl
      | ub => intro h; rw [show forward c (some (i, false)) _ = ub from h]; rfl
      | ok x =>
        intro h
        obtain ⟨s1, h1, h2, h3, h4, h5, h6⟩ := h
        rw [h1, bind_ok, bind_ok]
        dsimp only
        obtain ⟨r1, r2, r3⟩ := step_input hc h2 ho (b := false) (c := c) rfl hx
        have hev : eval L D (.un i op c) = op.fwd x := by unfold eval; rw [hx, bind_ok]
        cases hy : op.fwd x with
        | abort => rfl
        | ub => rfl
        | ok y =>
          rw [bind_ok]
          have hch := occs_child_un ho
          obtain ⟨f1, f2, f3⟩ := step_finish hc r1 ho (i := i) (y := y) rfl (by rw [hev, hy])
            (by
              intro b d hd
              cases b with
              | false =>
                simp only [Ex.child?, Option.some.injEq] at hd; subst hd
                exact r2.done _ hch h4
              | true => simp [Ex.child?] at hd)
            (by
              intro b
              cases b with
              | false => exact r3
              | true => intro d hd; simp [Ex.child?] at hd)
            (by
              intro htr v hv
              refine r2.zeroed v (h5 ?_ v hv)
              rw [← htr, r2.training, h3.training])
          refine ⟨_, rfl, f1, ((q2.trans h3).trans r2).trans f2, f3, ?_, ?_⟩
          · intro htr v hv
            exact f2.zeroed v (r2.zeroed v (h5 (by rw [← htr]; exact q2.training) v hv))
          · intro v hv
            exact h6 v hv
    · rw [if_neg hq]
      have hy := query_nonempty hq
      have hv := hi.value _ ho i _ rfl hy
      simp only at hv
      rw [hv]
      refine ⟨_, rfl, q1, q2, q3 _ hy, ?_, fun _ _ => rfl⟩
      intro htr v hv
      exact hi.zero htr _ ho i rfl (by rw [hy]; rfl) v hv
  | bin i op l r ihl ihr =>
    intro sl s ho hi
    obtain ⟨q1, q2, q3⟩ := step_query hc hi ho (i := i) rfl
    unfold forward
    dsimp only
    by_cases hq : (query s.cache i).data = []
    · rw [if_pos hq]
      obtain ⟨hcl, hcr⟩ := occs_child_bin ho
      have h := ihl (some (i, false)) _ hcl q1
      change Ends (do
        let p ← forward l (some (i, false)) (setObj s sl { s.obj sl with out := query s.cache i })
        match p with
        | (x, s) => do
          let s := setObj s sl (setSide (s.obj sl) false x)
          let p ← forward r (some (i, true)) s
          match p with
          | (y, s) => do
            let s := setObj s sl (setSide (s.obj sl) true y)
            let z ← op.fwd x y
            pure (z, finish s sl i z)) (eval L D l >>= fun x => eval L D r >>= fun y => op.fwd x y) _
      revert h
      cases hx : eval L D l with
      | abort => intro h; rw [show forward l (some (i, false)) _ = abort from h]; rfl
      | ub => intro h; rw [show forward l (some (i, false)) _ = ub from h]; rfl
      | ok x =>
        intro h
        obtain ⟨s1, h1, h2, h3, h4, h5, h6⟩ := h
        rw [h1, bind_ok, bind_ok]
        dsimp only
        obtain ⟨r1, r2, r3⟩ := step_input hc h2 ho (b := false) (c := l) rfl hx
        have k := ihr (some (i, true)) _ hcr r1
        revert k
        cases hy : eval L D r with
        | abort => intro k; rw [show forward r (some (i, true)) _ = abort from k]; rfl
        | ub => intro k; rw [show forward r (some (i, true)) _ = ub from k]; rfl
        | ok y =>
          intro k
          obtain ⟨s2, k1, k2, k3, k4, k5, k6⟩ := k
          rw [k1, bind_ok, bind_ok]
          dsimp only
          obtain ⟨m1, m2, m3⟩ := step_input hc k2 ho (b := true) (c := r) rfl hy
          have hev : eval L D (.bin i op l r) = op.fwd x y := by unfold eval; rw [hx, bind_ok, hy, bind_ok]
          cases hz : op.fwd x y with
          | abort => rfl
          | ub => rfl
          | ok z =>
            rw [bind_ok]
            have tl : s1.training = s.training := h3.training
            obtain ⟨f1, f2, f3⟩ := step_finish hc m1 ho (i := i) (y := z) rfl (by rw [hev, hz])
              (by
                intro b d hd
                cases b with
                | false =>
                  simp only [Ex.child?, Option.some.injEq] at hd; subst hd
                  exact m2.done _ hcl (k3.done _ hcl (r2.done _ hcl h4))
                | true =>
                  simp only [Ex.child?, Option.some.injEq] at hd; subst hd
                  exact m2.done _ hcr k4)
              (by
                intro b
                cases b with
                | false => exact m2.inOk _ ho false (k3.inOk _ ho false r3)
                | true => exact m3)
              (by
                intro htr v hv
                have t1 : s2.training = true := by rw [← htr]; exact m2.training.symm
                have t2 : s1.training = true := by rw [← t1, k3.training, r2.training]
                simp only [varOccs, List.mem_append] at hv
                rcases hv with hv | hv
                · exact m2.zeroed v (k3.zeroed v (r2.zeroed v (h5 (by rw [← t2]; exact h3.training.symm) v hv)))
                · exact m2.zeroed v (k5 (by rw [r2.training]; exact t2) v hv))
            refine ⟨_, rfl, f1, ((((q2.trans h3).trans r2).trans k3).trans m2).trans f2, f3, ?_, ?_⟩
            · intro htr v hv
              simp only [varOccs, List.mem_append] at hv
              rcases hv with hv | hv
              · exact f2.zeroed v (m2.zeroed v (k3.zeroed v (r2.zeroed v (h5 (by rw [← htr]; exact q2.training) v hv))))
              · exact f2.zeroed v (m2.zeroed v (k5 (by rw [r2.training, tl, htr]) v hv))
            · intro v hv
              simp only [vars, List.mem_append, not_or] at hv
              exact (k6 v hv.2).trans (h6 v hv.1)
    · rw [if_neg hq]
      have hy := query_nonempty hq
      have hv := hi.value _ ho i _ rfl hy
      simp only at hv
      rw [hv]
      refine ⟨_, rfl, q1, q2, q3 _ hy, ?_, fun _ _ => rfl⟩
      intro htr v hv
      exact hi.zero htr _ ho i rfl (by rw [hy]; rfl) v hv

/-- The invariant at the start of a run: nothing is cached. -/
theorem inv_start [Zero α] (s : St α) : Inv e s.leaf s.data { s with cache := fun _ => none } :=
  ⟨rfl, rfl, fun _ _ _ _ _ h => by simp at h, fun _ _ _ _ h => by simp at h, fun _ _ _ _ h => by simp at h, fun _ _ _ _ _ h => by simp at h⟩

/-- C55, fresh: whatever earlier runs left in the cache, in the objects and in the gradients, `run` returns the value of the expression
for the current place holders and variables, and stops exactly when evaluation of the expression stops. -/
theorem run_fresh_partial [Zero α] (e : Ex α) (hc : Consistent e) (s : St α) :
    (∀ y, eval s.leaf s.data e = ok y → ∃ s', run e s = ok (y, s')) ∧ (eval s.leaf s.data e = abort → run e s = abort) ∧
    (eval s.leaf s.data e = ub → run e s = ub) := by
  have h := forward_spec hc e none { s with cache := fun _ => none } (mem_occs_self e none) (inv_start s)
  refine ⟨fun y hy => ?_, fun hy => ?_, fun hy => ?_⟩ <;> rw [hy] at h
  · obtain ⟨s', h1, _⟩ := h
    exact ⟨s', h1⟩
  · exact h
  · exact h

end

end Verif.Graph
