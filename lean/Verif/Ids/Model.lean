import Verif.Basic.Res
/-!
# Identities (model)

`include/utils/id.hpp` lines 19-42, `include/place_holder.hpp` lines 100-134.  All expressions get their identity from `enable_id`; copying,
moving and assigning are the default operations, which copy `id_`.
-/
namespace Verif.Ids
open Verif Res

/-- The largest `int`. -/
def maxInt : Nat := 2 ^ 31 - 1

/-- The counter and the identities of the objects made so far, in order. -/
structure St where
  next : Nat
  objs : List Nat

/-- `generate_uid` (include/utils/id.hpp lines 19-25): incrementing the largest `int` is undefined. -/
def generateUid (s : St) : Res (Nat × St) := do
  let ans := s.next
  require (s.next < maxInt)
  pure (ans, { s with next := s.next + 1 })

/-- What a program does with expression objects. -/
inductive Op where
  /-- a new expression: a variable, a place holder, an operator, ... -/
  | create
  /-- a copy of object `k`; also a move -/
  | copy (k : Nat)
  /-- object `k` is assigned object `j` -/
  | assign (k j : Nat)

/-- include/utils/id.hpp lines 28-37. -/
def exec (s : St) : Op → Res St
  | .create => do
    let (i, s) ← generateUid s
    pure { s with objs := s.objs ++ [i] }
  | .copy k => do
    let i ← rd s.objs k
    pure { s with objs := s.objs ++ [i] }
  | .assign k j => do
    let i ← rd s.objs j
    let o ← wr s.objs k i
    pure { s with objs := o }

/-- A program. -/
def run (h : List Op) : Res St := h.foldlM exec ⟨0, []⟩

/-- The comparisons of place holders, whose identities are `p` and `q` (include/place_holder.hpp lines 100-134). -/
def phEq (p q : Nat) : Bool := p == q
def phNe (p q : Nat) : Bool := p != q
def phLt (p q : Nat) : Bool := decide (p < q)
def phGt (p q : Nat) : Bool := decide (p < q)
def phLe (p q : Nat) : Bool := decide (p ≤ q)
def phGe (p q : Nat) : Bool := decide (p ≥ q)

end Verif.Ids
