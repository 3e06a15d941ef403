import Verif.Graph.Model
import Verif.Data.Bridge
/-!
# Forward passes on shared storages (model)

`Verif.Graph` passes tensors by value.  Here a tensor is what it is in the code: a shape and a pointer to a storage that other tensors
may share (`Verif.Tensor`), so that writing into an operand is visible everywhere.  `include/operation.hpp` lines 75-88, 168-197 (forward of
operators), 526-538 (`plus`), `include/variable.hpp` lines 72-83, `include/place_holder.hpp` lines 58-63, `include/session.hpp` lines 58-63,
181-197.

The fields `input_data_` / `output_data_` of the operator objects are tensors sharing the storages of the cached tensors; gradients are in
`Verif.Graph`.

Simplified: an operator with a cache of its own reads its operands and then overwrites the cache (in the code it may do so element by
element; the operands are never the operator's own cache unless an operator is its own operand).  Operators returning their operand's
storage under another shape (`reshape`, `flatten`) are not in this model.
-/
namespace Verif.Alias
open Verif Res Tensor Data Graph

variable {α : Type}

/-- Where an operator leaves its result: in a cache created with the operator (`context_cast`, e.g. include/operation.hpp lines 603-605,
include/activation.hpp lines 256-261), in a new tensor (`deep_copy`, e.g. include/operation.hpp lines 1042-1044), or - `plus`, lines
531-538 - wherever `add` leaves it, which is the left operand's storage if the left operand need not be expanded. -/
inductive Kind where
  | own | fresh | plus
  deriving DecidableEq

/-- The state of the program as far as forward passes go. -/
structure HSt (α : Type) where
  heap : Heap α
  /-- tensors bound to place holders or held by constants -/
  leafT : Nat → Tn
  /-- `variable_state::data_` -/
  varT : Nat → Tn
  /-- storage of each operator's own cache -/
  opc : Nat → Nat
  /-- `session::forward_cache_` -/
  cache : Nat → Option Tn

/-- Reading all of a tensor. -/
def readT (h : Heap α) (t : Tn) : Res (Ten α) := do
  let b ← rd h t.loc
  pure ⟨t.shape, b⟩

/-- `query_forward_cache` and the test `empty()` (include/operation.hpp lines 78-80, 171-173, include/session.hpp lines 181-187). -/
def hquery (s : HSt α) (i : Nat) : Res (Option Tn) :=
  match s.cache i with
  | none => ok none
  | some t => do
    let b ← rd s.heap t.loc
    pure (if b = [] then none else some t)

/-- Leave a result and remember it (include/operation.hpp lines 83-84, 192-193). -/
def store (kind : Nat → Kind) (i : Nat) (y : Ten α) (s : HSt α) : Res (Tn × HSt α) :=
  match kind i with
  | .own => do
    let h ← wr s.heap (s.opc i) y.data
    pure (⟨y.shape, s.opc i⟩, { s with heap := h, cache := upd s.cache i (some ⟨y.shape, s.opc i⟩) })
  | _ => ok (⟨y.shape, s.heap.length⟩, { s with heap := s.heap ++ [y.data], cache := upd s.cache i (some ⟨y.shape, s.heap.length⟩) })

/-- `forward` (include/operation.hpp lines 75-88, 168-197). -/
def hforward [Zero α] [Add α] (kind : Nat → Kind) : Ex α → HSt α → Res (Tn × HSt α)
  | .leaf k, s => do
    let b ← rd s.heap (s.leafT k).loc
    Res.assert (b ≠ [])
    pure (s.leafT k, s)
  | .var v _, s => ok (s.varT v, s)
  | .un i op e, s => do
    let q ← hquery s i
    match q with
    | some t => pure (t, s)
    | none => do
      let (x, s) ← hforward kind e s
      let xv ← readT s.heap x
      let y ← op.fwd xv
      store kind i y s
  | .bin i op l r, s => do
    let q ← hquery s i
    match q with
    | some t => pure (t, s)
    | none => do
      let (x, s) ← hforward kind l s
      let (y, s) ← hforward kind r s
      if kind i = .plus then do
        let (t, h) ← addLike (· + ·) s.heap x y
        pure (t, { s with heap := h, cache := upd s.cache i (some t) })
      else do
        let xv ← readT s.heap x
        let yv ← readT s.heap y
        let z ← op.fwd xv yv
        store kind i z s

/-- `session::run` (include/session.hpp lines 58-63). -/
def hrun [Zero α] [Add α] (kind : Nat → Kind) (e : Ex α) (s : HSt α) : Res (Tn × HSt α) := hforward kind e { s with cache := fun _ => none }

end Verif.Alias
