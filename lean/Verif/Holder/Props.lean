import Verif.Holder.Model
import Mathlib.Tactic.Common

/-!
# Place holders hold the tensor that was bound last (C127)
-/
namespace Verif.Holder
open Res

variable {α : Type}

/-! ## Specification

Programs over place holders: the tensor last bound at a place is read off the program, without states. -/

/-- What a program may do with place holders.  Sessions are numbered. -/
inductive Cmd (α : Type) where
  /-- `p.bind( t )`, or `rebind` of a session -/
  | bind (p : Ph) (t : Ten α)
  /-- `bind` of session `s` -/
  | sbind (s : Nat) (p : Ph) (t : Ten α)
  | reset (p : Ph)
  | hint (p : Ph) (shape : List Nat)
  /-- the end of session `s` -/
  | close (s : Nat)

/-- The states, and `place_holders_` of the sessions. -/
structure World (α : Type) where
  heap : Heap α
  bound : Nat → List Ph

/-- Executes a command. -/
def step (w : World α) : Cmd α → Res (World α)
  | .bind p t => do
    let (h, _) ← sRebind w.heap [] p t
    .ok { w with heap := h }
  | .sbind s p t => do
    let (h, b) ← sBind w.heap (w.bound s) p t
    .ok { heap := h, bound := fun k => if k = s then b else w.bound k }
  | .reset p => do
    let h ← reset w.heap p
    .ok { w with heap := h }
  | .hint p sh => do
    let h ← setShape w.heap p sh
    .ok { w with heap := h }
  | .close s => do
    let h ← close w.heap (w.bound s)
    .ok { heap := h, bound := fun k => if k = s then [] else w.bound k }

/-- Executes a program. -/
def run (w : World α) : List (Cmd α) → Res (World α)
  | [] => .ok w
  | c :: cs => do
    let w ← step w c
    run w cs

/-- What a program without ends of sessions binds at place `a`, if it does (`some (some t)`: bound to `t`, `some none`: reset). -/
def last (a : Nat) : List (Cmd α) → Option (Option (Ten α))
  | [] => none
  | c :: cs => match last a cs with
    | some r => some r
    | none => match c with
      | .bind p t => if p.ptr = some a then some (some t) else none
      | .sbind _ p t => if p.ptr = some a then some (some t) else none
      | .reset p => if p.ptr = some a then some none else none
      | _ => none

/-- The shape a program without ends of sessions last gives to place `a`, if it does: that of the tensor bound, that of a hint, or none in particular. -/
def lastShape (a : Nat) : List (Cmd α) → Option (List Nat)
  | [] => none
  | c :: cs => match lastShape a cs with
    | some r => some r
    | none => match c with
      | .bind p t => if p.ptr = some a then some t.shape else none
      | .sbind _ p t => if p.ptr = some a then some t.shape else none
      | .reset p => if p.ptr = some a then some [minusOne] else none
      | .hint p sh => if p.ptr = some a then some sh else none
      | _ => none

/-! ## Single calls -/

theorem deref_ok {h : Heap α} {p : Ph} {a : Nat} {s : State α} (hp : p.ptr = some a) (hs : h[a]? = some s) : deref h p = .ok s := by
  simp [deref, hp, hs]

theorem store_ok {h : Heap α} {p : Ph} {a : Nat} (s : State α) (hp : p.ptr = some a) (ha : a < h.length) : store h p s = .ok (h.set a s) := by
  simp [store, hp, ha]

theorem bind_eq {h : Heap α} {p : Ph} {a : Nat} (t : Ten α) (hp : p.ptr = some a) (ha : a < h.length) : bind h p t = .ok (h.set a ⟨t, t.shape⟩) := by
  have hs : h[a]? = some h[a] := List.getElem?_eq_getElem ha
  simp [bind, hp, deref_ok hp hs, store_ok _ hp ha]

theorem reset_eq {h : Heap α} {p : Ph} {a : Nat} (hp : p.ptr = some a) (ha : a < h.length) : reset h p = .ok (h.set a ⟨noTen, [minusOne]⟩) := by
  have hs : h[a]? = some h[a] := List.getElem?_eq_getElem ha
  simp [reset, deref_ok hp hs, store_ok _ hp ha]

theorem setShape_eq {h : Heap α} {p : Ph} {a : Nat} (sh : List Nat) (hp : p.ptr = some a) (ha : a < h.length) :
    setShape h p sh = .ok (h.set a ⟨h[a].data, sh⟩) := by
  have hs : h[a]? = some h[a] := List.getElem?_eq_getElem ha
  simp [setShape, deref_ok hp hs, store_ok _ hp ha]

theorem isEmpty_eq (t : Ten α) : isEmpty t = t.data.isEmpty := by
  unfold isEmpty
  cases t.data <;> rfl

theorem forward_eq {h : Heap α} {p : Ph} {a : Nat} {s : State α} (hp : p.ptr = some a) (hs : h[a]? = some s) :
    forward h p = if isEmpty s.data then .abort else .ok s.data := by
  simp only [forward, hp, Option.isSome_some, Res.assert_true, deref_ok hp hs, Res.bind_ok]
  cases isEmpty s.data <;> simp

theorem shape_eq {h : Heap α} {p : Ph} {a : Nat} {s : State α} (hp : p.ptr = some a) (hs : h[a]? = some s) :
    shape h p = if isEmpty s.data then .ok s.hint else .ok s.data.shape := by
  simp only [shape, deref_ok hp hs, Res.bind_ok]
  cases isEmpty s.data <;> simp

/-- C127: a place holder evaluates to the tensor bound to it, and has its shape, whichever copy it was bound with. -/
theorem forward_bind (h h' : Heap α) (p q : Ph) (t : Ten α) (ht : t.data ≠ []) (hpq : q.ptr = p.ptr) (hb : bind h p t = .ok h') :
    forward h' q = .ok t ∧ shape h' q = .ok t.shape := by
  cases hp : p.ptr with
  | none => simp [bind, hp] at hb
  | some a =>
    by_cases ha : a < h.length
    · rw [bind_eq t hp ha] at hb
      cases hb
      have hs : (h.set a ⟨t, t.shape⟩)[a]? = some ⟨t, t.shape⟩ := by simp [ha]
      rw [forward_eq (hpq.trans hp) hs, shape_eq (hpq.trans hp) hs]
      simp [isEmpty_eq, ht]
    · simp [bind, hp, deref, List.getElem?_eq_none (Nat.le_of_not_lt ha)] at hb

/-- C127: a copy of a place holder is the same place holder: it has its identity, and what is bound to one is bound to the other. -/
theorem copy_same (h h' : Heap α) (p : Ph) (t : Ten α) (ht : t.data ≠ []) :
    (copy p).2.id = p.id ∧ (copy p).1 = p ∧ (bind h (copy p).2 t = .ok h' → forward h' p = .ok t ∧ shape h' p = .ok t.shape) ∧
      (bind h p t = .ok h' → forward h' (copy p).2 = .ok t ∧ shape h' (copy p).2 = .ok t.shape) :=
  ⟨rfl, rfl, fun hb => forward_bind h h' _ p t ht rfl hb, fun hb => forward_bind h h' p _ t ht rfl hb⟩

/-- C127: a new place holder has no tensor, and a shape that says nothing. -/
theorem make_fresh (h : Heap α) (id : Nat) :
    forward (make h id).1 (make h id).2 = .abort ∧ shape (make h id).1 (make h id).2 = .ok [minusOne] := by
  have hs : (h ++ [⟨noTen, [minusOne]⟩])[h.length]? = some (⟨noTen, [minusOne]⟩ : State α) := by simp
  have hp : (make h id).2.ptr = some h.length := rfl
  have e : (make h id).1 = h ++ [⟨noTen, [minusOne]⟩] := rfl
  rw [e, forward_eq hp hs, shape_eq hp hs]
  exact ⟨rfl, rfl⟩

/-- C127: a place holder made with a hint has the shape of the hint, with a batch of 1 before it unless the length of the batch is left open. -/
theorem makeHint_shape_partial (h : Heap α) (id n : Nat) (ns : List Nat) :
    ∃ h' p, makeHint h id (n :: ns) = .ok (h', p) ∧ p.id = id ∧ forward h' p = .abort ∧ shape h' p = .ok (if n = minusOne then n :: ns else 1 :: n :: ns) ∧
      ∀ q : Ph, (∃ a, q.ptr = some a ∧ a < h.length) → forward h' q = forward h q ∧ shape h' q = shape h q := by
  refine ⟨_, _, rfl, rfl, ?_, ?_, ?_⟩
  · have hs : ∀ sh, (h ++ [⟨noTen, sh⟩])[h.length]? = some (⟨noTen, sh⟩ : State α) := by simp
    rw [forward_eq (a := h.length) rfl (hs _)]
    rfl
  · have hs : ∀ sh, (h ++ [⟨noTen, sh⟩])[h.length]? = some (⟨noTen, sh⟩ : State α) := by simp
    rw [shape_eq (a := h.length) rfl (hs _)]
    by_cases hn : n = minusOne
    · simp [hn, isEmpty, noTen]
    · simp [hn, isEmpty, noTen]
  · rintro q ⟨a, hq, ha⟩
    have hs : h[a]? = some h[a] := List.getElem?_eq_getElem ha
    have hs' : ∀ s, (h ++ [s])[a]? = some h[a] := fun s => by rw [List.getElem?_append_left ha, hs]
    rw [forward_eq hq hs, forward_eq hq (hs' _), shape_eq hq hs, shape_eq hq (hs' _)]
    exact ⟨rfl, rfl⟩

/-- An empty hint, that of a scalar, is read beyond its end. -/
theorem makeHint_empty_violated (h : Heap α) (id : Nat) : makeHint h id [] = .ub := rfl

/-- A moved place holder stops `bind` and `forward` with a message, but its shape and `reset` read through a null pointer. -/
theorem moved_violated (h : Heap α) (p : Ph) (t : Ten α) (sh : List Nat) :
    bind h (move p).1 t = .abort ∧ forward h (move p).1 = .abort ∧ shape h (move p).1 = .ub ∧ reset h (move p).1 = .ub ∧ setShape h (move p).1 sh = .ub := by
  refine ⟨?_, ?_, ?_, ?_, ?_⟩ <;> simp [bind, forward, shape, reset, setShape, move, deref]

/-! ## Programs -/

theorem close_spec (ps : List Ph) : ∀ (h h' : Heap α), close h ps = .ok h' →
    h'.length = h.length ∧ ∀ a, h'[a]? = if a < h.length ∧ ∃ p ∈ ps, p.ptr = some a then some ⟨noTen, [minusOne]⟩ else h[a]? := by
  induction ps with
  | nil =>
    intro h h' e
    cases e
    simp
  | cons p ps ih =>
    intro h h' e
    simp only [close] at e
    obtain ⟨h1, e1, e2⟩ := Res.bind_eq_ok.1 e
    cases hp : p.ptr with
    | none => simp [reset, deref, hp] at e1
    | some b =>
      by_cases hb : b < h.length
      · rw [reset_eq hp hb] at e1
        cases e1
        obtain ⟨i1, i2⟩ := ih _ _ e2
        rw [List.length_set] at i1
        refine ⟨i1, fun a => ?_⟩
        rw [i2 a]
        simp only [List.length_set, List.mem_cons, exists_eq_or_imp, hp, Option.some.injEq]
        by_cases hab : b = a
        · subst hab
          simp [hb]
        · rw [List.getElem?_set_ne hab]
          simp [hab]
      · simp [reset, deref, hp, List.getElem?_eq_none (Nat.le_of_not_lt hb)] at e1

/-- What a command does to the state at a place. -/
theorem step_spec {w w' : World α} {c : Cmd α} (e : step w c = .ok w') (a : Nat) (ha : a < w.heap.length) (hc : ∀ s, c = .close s → ∀ p ∈ w.bound s, p.ptr ≠ some a) :
    w'.heap.length = w.heap.length ∧ ∃ s s', w.heap[a]? = some s ∧ w'.heap[a]? = some s' ∧
      (s'.data = match last a [c] with
        | some (some t) => t
        | some none => noTen
        | none => s.data) ∧ s'.hint = (lastShape a [c]).getD s.hint := by
  have hs : w.heap[a]? = some w.heap[a] := List.getElem?_eq_getElem ha
  -- a command that writes the state `f` of place holder `p`
  have wr : ∀ (p : Ph) (h' : Heap α) (v : State α → State α), (∀ b (hb : b < w.heap.length), p.ptr = some b → h' = w.heap.set b (v w.heap[b])) →
      (∃ b, p.ptr = some b ∧ b < w.heap.length) → h'.length = w.heap.length ∧ ∃ s', h'[a]? = some s' ∧ s' = if p.ptr = some a then v w.heap[a] else w.heap[a] := by
    rintro p h' v hv ⟨b, hp, hb⟩
    rw [hv b hb hp]
    refine ⟨by simp, ?_⟩
    by_cases hab : b = a
    · subst hab
      exact ⟨v w.heap[b], by simp [hb], by simp [hp]⟩
    · exact ⟨w.heap[a], by rw [List.getElem?_set_ne hab, hs], by simp [hp, hab]⟩
  have ptr : ∀ (p : Ph) {β : Type} (k : State α → Res β) (r : β), (do let s ← deref w.heap p; k s) = Res.ok r → ∃ b, p.ptr = some b ∧ b < w.heap.length := by
    intro p β k r h
    cases hp : p.ptr with
    | none => simp [deref, hp] at h
    | some b =>
      refine ⟨b, rfl, ?_⟩
      by_contra hb
      simp [deref, hp, List.getElem?_eq_none (Nat.le_of_not_lt hb)] at h
  cases c with
  | bind p t =>
    simp only [step, sRebind] at e
    obtain ⟨⟨h1, b1⟩, e1, e2⟩ := Res.bind_eq_ok.1 e
    cases e2
    obtain ⟨h2, e3, e4⟩ := Res.bind_eq_ok.1 e1
    cases e4
    have hp : ∃ b, p.ptr = some b ∧ b < w.heap.length := by
      unfold Holder.bind at e3
      obtain ⟨_, _, e5⟩ := Res.bind_eq_ok.1 e3
      exact ptr p _ _ e5
    obtain ⟨k1, s', k2, k3⟩ := wr p h1 (fun _ => ⟨t, t.shape⟩) (fun b hb hpb => by rw [bind_eq t hpb hb] at e3; exact (Res.ok.inj e3).symm) hp
    refine ⟨k1, _, s', hs, k2, ?_⟩
    subst k3
    by_cases hpa : p.ptr = some a <;> simp [last, lastShape, hpa]
  | sbind s p t =>
    simp only [step, sBind] at e
    obtain ⟨⟨h1, b1⟩, e1, e2⟩ := Res.bind_eq_ok.1 e
    cases e2
    obtain ⟨h2, e3, e4⟩ := Res.bind_eq_ok.1 e1
    cases e4
    have hp : ∃ b, p.ptr = some b ∧ b < w.heap.length := by
      unfold Holder.bind at e3
      obtain ⟨_, _, e5⟩ := Res.bind_eq_ok.1 e3
      exact ptr p _ _ e5
    obtain ⟨k1, s', k2, k3⟩ := wr p h1 (fun _ => ⟨t, t.shape⟩) (fun b hb hpb => by rw [bind_eq t hpb hb] at e3; exact (Res.ok.inj e3).symm) hp
    refine ⟨k1, _, s', hs, k2, ?_⟩
    subst k3
    by_cases hpa : p.ptr = some a <;> simp [last, lastShape, hpa]
  | reset p =>
    simp only [step] at e
    obtain ⟨h1, e1, e2⟩ := Res.bind_eq_ok.1 e
    cases e2
    have hp := ptr p _ _ (show (do let s ← deref w.heap p; store w.heap p { s with data := noTen, hint := [minusOne] }) = Res.ok h1 from e1)
    obtain ⟨k1, s', k2, k3⟩ := wr p h1 (fun _ => ⟨noTen, [minusOne]⟩) (fun b hb hpb => by rw [reset_eq hpb hb] at e1; exact (Res.ok.inj e1).symm) hp
    refine ⟨k1, _, s', hs, k2, ?_⟩
    subst k3
    by_cases hpa : p.ptr = some a <;> simp [last, lastShape, hpa]
  | hint p sh =>
    simp only [step] at e
    obtain ⟨h1, e1, e2⟩ := Res.bind_eq_ok.1 e
    cases e2
    have hp := ptr p _ _ (show (do let s ← deref w.heap p; store w.heap p { s with hint := sh }) = Res.ok h1 from e1)
    obtain ⟨k1, s', k2, k3⟩ := wr p h1 (fun s => ⟨s.data, sh⟩) (fun b hb hpb => by rw [setShape_eq sh hpb hb] at e1; exact (Res.ok.inj e1).symm) hp
    refine ⟨k1, _, s', hs, k2, ?_⟩
    subst k3
    by_cases hpa : p.ptr = some a <;> simp [last, lastShape, hpa]
  | close s =>
    simp only [step] at e
    obtain ⟨h1, e1, e2⟩ := Res.bind_eq_ok.1 e
    cases e2
    obtain ⟨k1, k2⟩ := close_spec _ _ _ e1
    refine ⟨k1, _, _, hs, ?_, rfl, rfl⟩
    rw [k2 a, if_neg, hs]
    rintro ⟨_, p, hp, hpa⟩
    exact hc s rfl p hp hpa

/-- The sessions that end in a program. -/
def closes : List (Cmd α) → List Nat
  | [] => []
  | .close s :: cs => s :: closes cs
  | _ :: cs => closes cs

/-- The place holders a program binds in session `s`. -/
def binds (s : Nat) : List (Cmd α) → List Ph
  | [] => []
  | .sbind k p _ :: cs => if k = s then p :: binds s cs else binds s cs
  | _ :: cs => binds s cs

theorem bound_step {w w' : World α} {c : Cmd α} (e : step w c = .ok w') (s : Nat) : ∀ p ∈ w'.bound s, p ∈ w.bound s ∨ p ∈ binds s [c] := by
  cases c with
  | bind p t =>
    simp only [step] at e
    obtain ⟨_, _, e2⟩ := Res.bind_eq_ok.1 e
    cases e2
    exact fun _ h => .inl h
  | sbind k p t =>
    simp only [step, sBind] at e
    obtain ⟨⟨h1, b1⟩, e1, e2⟩ := Res.bind_eq_ok.1 e
    cases e2
    obtain ⟨h2, e3, e4⟩ := Res.bind_eq_ok.1 e1
    cases e4
    intro q hq
    dsimp only at hq
    split at hq
    · next h =>
      subst h
      simp only [List.mem_append, List.mem_singleton] at hq
      exact hq.imp_right fun h => by simp [binds, h]
    · exact .inl hq
  | reset p =>
    simp only [step] at e
    obtain ⟨_, _, e2⟩ := Res.bind_eq_ok.1 e
    cases e2
    exact fun _ h => .inl h
  | hint p sh =>
    simp only [step] at e
    obtain ⟨_, _, e2⟩ := Res.bind_eq_ok.1 e
    cases e2
    exact fun _ h => .inl h
  | close k =>
    simp only [step] at e
    obtain ⟨_, _, e2⟩ := Res.bind_eq_ok.1 e
    cases e2
    intro q hq
    dsimp only at hq
    split at hq
    · cases hq
    · exact .inl hq

theorem binds_cons (s : Nat) (c : Cmd α) (cs : List (Cmd α)) : binds s (c :: cs) = binds s [c] ++ binds s cs := by
  cases c <;> simp [binds]
  split <;> rfl

theorem closes_cons (c : Cmd α) (cs : List (Cmd α)) : closes (c :: cs) = closes [c] ++ closes cs := by
  cases c <;> simp [closes]

theorem run_spec (cs : List (Cmd α)) : ∀ (w w' : World α) (a : Nat), run w cs = .ok w' → a < w.heap.length →
    (∀ s ∈ closes cs, ∀ p, p ∈ w.bound s ∨ p ∈ binds s cs → p.ptr ≠ some a) →
    ∃ s s', w.heap[a]? = some s ∧ w'.heap[a]? = some s' ∧
      (s'.data = match last a cs with
        | some (some t) => t
        | some none => noTen
        | none => s.data) ∧ s'.hint = (lastShape a cs).getD s.hint := by
  induction cs with
  | nil =>
    intro w w' a e ha _
    cases e
    exact ⟨_, _, List.getElem?_eq_getElem ha, List.getElem?_eq_getElem ha, rfl, rfl⟩
  | cons c cs ih =>
    intro w w' a e ha hc
    simp only [run] at e
    obtain ⟨w1, e1, e2⟩ := Res.bind_eq_ok.1 e
    obtain ⟨k0, s, s1, k1, k2, k3, k4⟩ := step_spec e1 a ha (by
      rintro k rfl p hp
      exact hc k (by simp [closes]) p (.inl hp))
    obtain ⟨s2, s', l1, l2, l3, l4⟩ := ih w1 w' a e2 (by rw [k0]; exact ha) (by
      intro k hk p hp
      refine hc k (by rw [closes_cons]; exact List.mem_append_right _ hk) p ?_
      rw [binds_cons]
      rcases hp with hp | hp
      · rcases bound_step e1 k p hp with h | h
        · exact .inl h
        · exact .inr (List.mem_append_left _ h)
      · exact .inr (List.mem_append_right _ hp))
    rw [k2] at l1
    cases l1
    refine ⟨s, s', k1, l2, ?_, ?_⟩
    · rw [l3]
      simp only [last]
      cases last a cs with
      | some r => cases r <;> rfl
      | none => exact k3
    · rw [l4]
      simp only [lastShape]
      cases lastShape a cs with
      | some r => rfl
      | none => exact k4

/-- Partial (C127): however a program binds, resets and hints place holders, directly or in sessions, a place holder evaluates to the tensor that was bound last at
its state, and stops with a message if it was reset since; provided no session ends in which it was ever bound. -/
theorem forward_last_partial (cs : List (Cmd α)) (w w' : World α) (q : Ph) (a : Nat) (hq : q.ptr = some a) (ha : a < w.heap.length) (e : run w cs = .ok w')
    (hc : ∀ s ∈ closes cs, ∀ p, p ∈ w.bound s ∨ p ∈ binds s cs → p.ptr ≠ some a) :
    forward w'.heap q = match last a cs with
      | some (some t) => if t.data.isEmpty then .abort else .ok t
      | some none => .abort
      | none => forward w.heap q := by
  obtain ⟨s, s', h1, h2, h3, _⟩ := run_spec cs w w' a e ha hc
  rw [forward_eq hq h2, h3]
  cases hl : last a cs with
  | none => exact (forward_eq hq h1).symm
  | some r =>
    cases r with
    | none => rfl
    | some t =>
      dsimp only
      rw [isEmpty_eq]

/-- Partial (C127): in the same programs its shape is that of the tensor it evaluates to, and without one the shape last given to it. -/
theorem shape_last_partial (cs : List (Cmd α)) (w w' : World α) (q : Ph) (a : Nat) (hq : q.ptr = some a) (ha : a < w.heap.length) (e : run w cs = .ok w')
    (hc : ∀ s ∈ closes cs, ∀ p, p ∈ w.bound s ∨ p ∈ binds s cs → p.ptr ≠ some a) :
    (∀ t, forward w'.heap q = .ok t → shape w'.heap q = .ok t.shape) ∧
      ∀ sh, forward w'.heap q = .abort → lastShape a cs = some sh → shape w'.heap q = .ok sh := by
  obtain ⟨s, s', h1, h2, h3, h4⟩ := run_spec cs w w' a e ha hc
  rw [forward_eq hq h2, shape_eq hq h2]
  refine ⟨fun t h => ?_, fun sh h hl => ?_⟩
  · cases he : isEmpty s'.data with
    | true => simp [he] at h
    | false =>
      simp only [he, Bool.false_eq_true, if_false, Res.ok.injEq] at h
      simp [h]
  · cases he : isEmpty s'.data with
    | true => simp [h4, hl]
    | false => simp [he] at h

/-- The full statement, without the condition on the sessions, fails: the end of a session takes away the tensor that was bound later and elsewhere. -/
theorem close_takes_violated (w : World α) (s : Nat) (p : Ph) (a : Nat) (hp : p.ptr = some a) (ha : a < w.heap.length) (t u : Ten α)
    (hw : w.bound s = []) :
    ∃ w', run w [.sbind s p t, .bind p u, .close s] = .ok w' ∧ forward w'.heap p = .abort := by
  have h1 : (w.heap.set a ⟨t, t.shape⟩).length = w.heap.length := by simp
  have ha1 : a < (w.heap.set a ⟨t, t.shape⟩).length := by simpa using ha
  have ha2 : a < ((w.heap.set a ⟨t, t.shape⟩).set a ⟨u, u.shape⟩).length := by simpa using ha
  refine ⟨⟨((w.heap.set a ⟨t, t.shape⟩).set a ⟨u, u.shape⟩).set a ⟨noTen, [minusOne]⟩, fun k => if k = s then [] else if k = s then [p] else w.bound k⟩, ?_, ?_⟩
  · simp only [run, step, sBind, sRebind, bind_eq t hp ha, Res.bind_ok, hw, List.nil_append, bind_eq u hp ha1, if_true, close, reset_eq hp ha2]
  · rw [forward_eq hp (s := ⟨noTen, [minusOne]⟩) (by simp [ha])]
    rfl

/-- A session keeps a copy of the place holder for every call of `bind`: after the batches of a training run there are as many as batches. -/
theorem bound_grows_violated (ts : List (Ten α)) : ∀ (h h' : Heap α) (b b' : List Ph) (p : Ph), sBinds h b p ts = .ok (h', b') →
    b' = b ++ List.replicate ts.length p := by
  induction ts with
  | nil =>
    intro h h' b b' p e
    cases e
    simp
  | cons t ts ih =>
    intro h h' b b' p e
    simp only [sBinds] at e
    obtain ⟨⟨h1, b1⟩, e1, e2⟩ := Res.bind_eq_ok.1 e
    simp only [sBind] at e1
    obtain ⟨h2, e3, e4⟩ := Res.bind_eq_ok.1 e1
    cases e4
    rw [ih _ _ _ _ _ e2, List.append_assoc, List.length_cons, List.replicate_succ]
    rfl

/-- At the end of a session all place holders bound in it have lost their tensors, the others are as before. -/
theorem close_resets (h h' : Heap α) (ps : List Ph) (e : close h ps = .ok h') (q : Ph) (a : Nat) (hq : q.ptr = some a) (ha : a < h.length) :
    forward h' q = if ∃ p ∈ ps, p.ptr = q.ptr then .abort else forward h q := by
  obtain ⟨_, k⟩ := close_spec ps h h' e
  have hs : h[a]? = some h[a] := List.getElem?_eq_getElem ha
  have k := k a
  by_cases hc : ∃ p ∈ ps, p.ptr = some a
  · rw [if_pos ⟨ha, hc⟩] at k
    have hc' : ∃ p ∈ ps, p.ptr = q.ptr := by rw [hq]; exact hc
    rw [if_pos hc', forward_eq hq k]
    rfl
  · rw [if_neg (fun h => hc h.2), hs] at k
    have hc' : ¬ ∃ p ∈ ps, p.ptr = q.ptr := by rw [hq]; exact hc
    rw [if_neg hc', forward_eq hq k, forward_eq hq hs]

/-! ## Examples -/

/-- C127: a tensor bound with `rebind` of a session outlives the session, unless another `bind` of it had the place holder or a copy of it. -/
theorem rebind_outlives (h h1 h2 : Heap α) (b b1 : List Ph) (p q : Ph) (t : Ten α) (ht : t.data ≠ []) (hpq : q.ptr = p.ptr) (hb : ∀ r ∈ b, r.ptr ≠ p.ptr)
    (e1 : sRebind h b p t = .ok (h1, b1)) (e2 : close h1 b1 = .ok h2) : forward h2 q = .ok t := by
  obtain ⟨h3, e3, e4⟩ := Res.bind_eq_ok.1 e1
  cases e4
  have hf := (forward_bind h h1 p q t ht hpq e3).1
  cases hp : p.ptr with
  | none => simp [bind, hp] at e3
  | some a =>
    by_cases ha : a < h1.length
    · rw [close_resets h1 h2 _ e2 q a (hpq.trans hp) ha, if_neg, hf]
      rintro ⟨r, hr, hrq⟩
      exact hb r hr (hrq.trans hpq)
    · simp [forward, deref, hpq, hp, List.getElem?_eq_none (Nat.le_of_not_lt ha)] at hf

example : ∃ h1 b1 h2, sRebind [⟨noTen, []⟩, ⟨noTen, []⟩] [⟨2, some 1⟩] ⟨1, some 0⟩ ⟨[2], [4, 5]⟩ = .ok (h1, b1) ∧ close h1 b1 = .ok h2 ∧
    forward h2 ⟨1, some 0⟩ = .ok ⟨[2], [4, 5]⟩ := by
  refine ⟨_, _, _, rfl, rfl, ?_⟩
  exact rebind_outlives [⟨noTen, []⟩, ⟨noTen, []⟩] [⟨⟨[2], [4, 5]⟩, [2]⟩, ⟨noTen, []⟩] _ [⟨2, some 1⟩] [⟨2, some 1⟩] ⟨1, some 0⟩ ⟨1, some 0⟩ ⟨[2], [4, 5]⟩ (by simp) rfl (by simp) rfl rfl

/-- Two place holders; the first is copied, the copy bound after it, the second bound in a session that ends. -/
def sampleWorld : World Nat := ⟨(make (make ([] : Heap Nat) 1).1 2).1, fun _ => []⟩

def sampleCmds : List (Cmd Nat) :=
  [.bind ⟨1, some 0⟩ ⟨[2], [4, 5]⟩, .sbind 7 ⟨2, some 1⟩ ⟨[1], [3]⟩, .bind (copy ⟨1, some 0⟩).2 ⟨[1, 2], [8, 9]⟩, .close 7]

example : ∃ w', run sampleWorld sampleCmds = .ok w' ∧ forward w'.heap ⟨1, some 0⟩ = .ok ⟨[1, 2], [8, 9]⟩ := by
  refine ⟨_, rfl, ?_⟩
  refine (forward_last_partial sampleCmds sampleWorld _ ⟨1, some 0⟩ 0 rfl (by decide) rfl ?_).trans rfl
  intro s hs p hp
  simp only [sampleCmds, closes, List.mem_singleton] at hs
  subst hs
  rcases hp with hp | hp
  · cases hp
  · simp only [sampleCmds, binds, if_true, List.mem_singleton] at hp
    subst hp
    decide

/-- A hint after a binding does not change the shape, until the tensor is gone. -/
example : ∃ w', run sampleWorld [.bind ⟨1, some 0⟩ ⟨[2], [4, 5]⟩, .hint ⟨1, some 0⟩ [7, 7]] = .ok w' ∧ shape w'.heap ⟨1, some 0⟩ = .ok [2] := by
  refine ⟨_, rfl, ?_⟩
  exact (shape_last_partial [.bind ⟨1, some 0⟩ ⟨[2], [4, 5]⟩, .hint ⟨1, some 0⟩ [7, 7]] sampleWorld _ ⟨1, some 0⟩ 0 rfl (by decide) rfl (by simp [closes])).1 ⟨[2], [4, 5]⟩ rfl

example : ∃ w', run sampleWorld [.bind ⟨1, some 0⟩ ⟨[2], [4, 5]⟩, .reset ⟨1, some 0⟩, .hint ⟨1, some 0⟩ [7, 7]] = .ok w' ∧ shape w'.heap ⟨1, some 0⟩ = .ok [7, 7] := by
  refine ⟨_, rfl, ?_⟩
  exact (shape_last_partial [.bind ⟨1, some 0⟩ ⟨[2], [4, 5]⟩, .reset ⟨1, some 0⟩, .hint ⟨1, some 0⟩ [7, 7]] sampleWorld _ ⟨1, some 0⟩ 0 rfl (by decide) rfl (by simp [closes])).2 [7, 7] rfl rfl

example : ∃ h' p, makeHint ([] : Heap Nat) 1 [28, 28, 1] = .ok (h', p) ∧ shape h' p = .ok [1, 28, 28, 1] := by
  obtain ⟨h', p, h1, _, _, h2, _⟩ := makeHint_shape_partial ([] : Heap Nat) 1 28 [28, 1]
  exact ⟨h', p, h1, by rw [h2]; rfl⟩

end Verif.Holder
