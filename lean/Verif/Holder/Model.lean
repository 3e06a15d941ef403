import Verif.Basic.Axis

/-!
# Place holders, and the sessions they are bound in (model)

`include/place_holder.hpp` lines 16-85, `include/utils/state.hpp` lines 20-26, `include/session.hpp` lines 25-47, 170-179.

A place holder has its state behind a shared pointer.  Copies (lines 29, 31) share it, moving a place holder (lines 30, 32) leaves it without one.  The states are
kept in a list, a pointer is a place in it.  Lengths are of 64 bits.
-/
namespace Verif.Holder

variable {α : Type}

/-- `-1UL`. -/
def minusOne : Nat := 2 ^ 64 - 1

/-- `place_holder_state` (include/place_holder.hpp lines 16-21). -/
structure State (α : Type) where
  data : Ten α
  hint : List Nat
deriving DecidableEq

/-- `Tsor{}` (include/tensor.hpp line 58). -/
def noTen : Ten α := ⟨[], []⟩

/-- `tensor::empty` (include/tensor.hpp lines 259-262). -/
def isEmpty (t : Ten α) : Bool := t.data.length == 0

/-- A place holder: its identity, and the pointer to its state. -/
structure Ph where
  id : Nat
  ptr : Option Nat
deriving DecidableEq

/-- The states. -/
abbrev Heap (α : Type) := List (State α)

/-- `*(*this).state_`: undefined without a state. -/
def deref (h : Heap α) (p : Ph) : Res (State α) :=
  match p.ptr with
  | none => .ub
  | some a => match h[a]? with
    | some s => .ok s
    | none => .ub

/-- Writes the state. -/
def store (h : Heap α) (p : Ph) (s : State α) : Res (Heap α) :=
  match p.ptr with
  | none => .ub
  | some a => if a < h.length then .ok (h.set a s) else .ub

/-- `place_holder()` (lines 34-38). -/
def make (h : Heap α) (id : Nat) : Heap α × Ph := (h ++ [⟨noTen, [minusOne]⟩], ⟨id, some h.length⟩)

/-- `place_holder( shape_hint )` (lines 40-49): the length of a batch, 1, is put before the hint unless it begins with `-1`. -/
def makeHint (h : Heap α) (id : Nat) (hint : List Nat) : Res (Heap α × Ph) := do
  let first ← rd hint 0
  let hint' := if first ≠ minusOne then 1 :: hint else hint
  .ok (h ++ [⟨noTen, hint'⟩], ⟨id, some h.length⟩)

/-- `bind` (lines 51-56). -/
def bind (h : Heap α) (p : Ph) (t : Ten α) : Res (Heap α) := do
  Res.assert p.ptr.isSome
  let s ← deref h p
  store h p { s with data := t, hint := t.shape }

/-- `forward` (lines 58-63). -/
def forward (h : Heap α) (p : Ph) : Res (Ten α) := do
  Res.assert p.ptr.isSome
  let s ← deref h p
  Res.assert (!isEmpty s.data)
  .ok s.data

/-- `reset` (lines 65-69). -/
def reset (h : Heap α) (p : Ph) : Res (Heap α) := do
  let s ← deref h p
  store h p { s with data := noTen, hint := [minusOne] }

/-- `shape( shape_hint )` (lines 73-76). -/
def setShape (h : Heap α) (p : Ph) (hint : List Nat) : Res (Heap α) := do
  let s ← deref h p
  store h p { s with hint := hint }

/-- `shape()` (lines 78-84). -/
def shape (h : Heap α) (p : Ph) : Res (List Nat) := do
  let s ← deref h p
  if !isEmpty s.data then .ok s.data.shape else .ok s.hint

/-- Copying and moving a place holder (lines 29-32): what becomes of the source, and the new one. -/
def copy (p : Ph) : Ph × Ph := (p, p)
def move (p : Ph) : Ph × Ph := (⟨p.id, none⟩, p)

/-- `session::bind( p_holder, value )` (include/session.hpp lines 42-47); `bound` is `place_holders_`. -/
def sBind (h : Heap α) (bound : List Ph) (p : Ph) (t : Ten α) : Res (Heap α × List Ph) := do
  let h ← bind h p t
  .ok (h, bound ++ [p])

/-- `session::rebind( p_holder, value )` (include/session.hpp lines 36-40). -/
def sRebind (h : Heap α) (bound : List Ph) (p : Ph) (t : Ten α) : Res (Heap α × List Ph) := do
  let h ← bind h p t
  .ok (h, bound)

/-- The loop of `~session()` (include/session.hpp lines 170-173). -/
def close : Heap α → List Ph → Res (Heap α)
  | h, [] => .ok h
  | h, p :: ps => do
    let h ← reset h p
    close h ps

/-- `n` batches bound one after the other, as `fit` does (include/model.hpp lines 187-188). -/
def sBinds (h : Heap α) (bound : List Ph) (p : Ph) : List (Ten α) → Res (Heap α × List Ph)
  | [] => .ok (h, bound)
  | t :: ts => do
    let (h, bound) ← sBind h bound p t
    sBinds h bound p ts

end Verif.Holder
