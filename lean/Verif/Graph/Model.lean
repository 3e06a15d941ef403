import Verif.Data.Flip
import Verif.Data.Model
/-!
# Expressions, the session cache, forward and backward (model)

`include/operation.hpp` lines 53-117 (`unary_operator`), 144-240 (`binary_operator`), `include/session.hpp` lines 58-63, 181-197,
`include/variable.hpp` lines 26-112, `include/place_holder.hpp` lines 51-71, `include/constant.hpp` lines 20-36.

An expression object is a handle: an identity, a shared pointer to a state holding the operand *objects* and the actions, and its own
fields `input_data_` / `output_data_`.  Copies of an object share the state but not the fields.  So the objects of a program are: the
handle `run` is called on (`none`) and, for every operator identity `i`, the operand objects in its state (`some (i, side)`).
An expression is a tree whose nodes carry the identities; an operator used twice is a node occurring twice with the same identity.

Simplified: tensors are passed by value here.  The operations that write into the storage of an operand (the in-place `plus`) and
the caches operators write their results to are in `Verif.Alias`.  An operator with a `value` operand is a unary operator.
-/
namespace Verif.Graph
open Verif Res View Data

variable {α : Type}

/-- Forward and backward action of a unary operator (include/operation.hpp lines 61-62). -/
structure UOp (α : Type) where
  fwd : Ten α → Res (Ten α)
  bwd : Ten α → Ten α → Ten α → Res (Ten α)

/-- Forward and backward action of a binary operator (include/operation.hpp lines 153-154). -/
structure BOp (α : Type) where
  fwd : Ten α → Ten α → Res (Ten α)
  bwd : Ten α → Ten α → Ten α → Ten α → Res (Ten α × Ten α)

/-- What each copy of a variable has of its own (include/variable.hpp lines 38-40, 52-53): the regularisation coefficients and the
trainable flag.  `synchronized_` is in the state, as it changes. -/
structure Cfg (α : Type) where
  l1 : α
  l2 : α
  trainable : Bool

/-- Expressions.  `leaf k` is a place holder or a constant, `var v c` a copy of variable `v`. -/
inductive Ex (α : Type) where
  | leaf (k : Nat)
  | var (v : Nat) (c : Cfg α)
  | un (id : Nat) (op : UOp α) (e : Ex α)
  | bin (id : Nat) (op : BOp α) (l r : Ex α)

/-- An expression object: the root handle, or the left (`false`; also the only operand) or right (`true`) operand in the state of an
operator. -/
abbrev Slot := Option (Nat × Bool)

/-- The fields of an operator object (include/operation.hpp lines 70-71, 161-163). -/
structure Fields (α : Type) where
  inL : Ten α
  inR : Ten α
  out : Ten α

/-- The state of the program.  `done` is not in the code: it lists the identities of the operators whose forward action was performed,
most recent first. -/
structure St (α : Type) where
  /-- the tensors bound to place holders or held by constants -/
  leaf : Nat → Ten α
  /-- `variable_state::data_`, shared by all copies of a variable -/
  data : Nat → Ten α
  /-- `variable_state::gradient_` -/
  grad : Nat → Ten α
  /-- `regularizer_.synchronized_` of the variable in an object -/
  sync : Slot → Bool
  /-- fields of the operator in an object -/
  obj : Slot → Fields α
  /-- `session::forward_cache_` -/
  cache : Nat → Option (Ten α)
  /-- `learning_phase == 1` -/
  training : Bool
  done : List Nat

/-- Changing one place. -/
def upd {κ β : Type} [DecidableEq κ] (f : κ → β) (k : κ) (b : β) : κ → β := fun k' => if k' = k then b else f k'

/-- `tensor_type{}` (include/session.hpp line 184). -/
def noTensor : Ten α := ⟨[], []⟩

/-- `query_forward_cache` (include/session.hpp lines 181-187). -/
def query (cache : Nat → Option (Ten α)) (id : Nat) : Ten α := (cache id).getD noTensor

/-- `variable::forward` (include/variable.hpp lines 72-83). -/
def varForward [Zero α] (v : Nat) (slot : Slot) (s : St α) : Ten α × St α :=
  if s.training = true then
    (s.data v, { s with grad := upd s.grad v ⟨(s.grad v).shape, (s.grad v).data.map (fun _ => 0)⟩, sync := upd s.sync slot false })
  else (s.data v, s)

/-- `forward` of an expression in an object (include/operation.hpp lines 75-88, 168-197; include/place_holder.hpp
lines 58-63; a constant does not check that its tensor is not empty, empty constants are outside the model). -/
def forward [Zero α] : Ex α → Slot → St α → Res (Ten α × St α)
  | .leaf k, _, s => do
    Res.assert ((s.leaf k).data ≠ [])
    pure (s.leaf k, s)
  | .var v _, slot, s => ok (varForward v slot s)
  | .un id op e, slot, s => do
    let q := query s.cache id
    let s := { s with obj := upd s.obj slot { s.obj slot with out := q } }
    if q.data = [] then do
      let (x, s) ← forward e (some (id, false)) s
      let s := { s with obj := upd s.obj slot { s.obj slot with inL := x } }
      let y ← op.fwd x
      pure (y, { s with obj := upd s.obj slot { s.obj slot with out := y }, cache := upd s.cache id (some y), done := id :: s.done })
    else pure (q, s)
  | .bin id op l r, slot, s => do
    let q := query s.cache id
    let s := { s with obj := upd s.obj slot { s.obj slot with out := q } }
    if q.data = [] then do
      let (x, s) ← forward l (some (id, false)) s
      let s := { s with obj := upd s.obj slot { s.obj slot with inL := x } }
      let (y, s) ← forward r (some (id, true)) s
      let s := { s with obj := upd s.obj slot { s.obj slot with inR := y } }
      let z ← op.fwd x y
      pure (z, { s with obj := upd s.obj slot { s.obj slot with out := z }, cache := upd s.cache id (some z), done := id :: s.done })
    else pure (q, s)

/-- `session::run` (include/session.hpp lines 58-63). -/
def run [Zero α] (e : Ex α) (s : St α) : Res (Ten α × St α) := forward e none { s with cache := fun _ => none }

/-- `gradient_ += grad` (include/variable.hpp lines 90-94, include/tensor.hpp lines 407-413): resize if the shapes differ, then an
element-wise sum. -/
def addGrad [Zero α] [Add α] (g data inc : Ten α) : Res (Ten α) := do
  let g := if g.shape ≠ data.shape then resizeV g data.shape else g
  Res.assert (g.shape = inc.shape)
  let d ← loop g.data.length (fun i o => do
    let x ← rd o i
    let y ← rd inc.data i
    wr o i (x + y)) g.data
  pure ⟨g.shape, d⟩

/-- One regulariser: adding `f d` to each element of the gradient (include/variable.hpp lines 99-108). -/
def addReg [Add α] (f : α → α) (data g : Ten α) : Res (Ten α) := do
  let d ← loop data.data.length (fun i o => do
    let d ← rd data.data i
    let x ← rd o i
    wr o i (x + f d)) g.data
  pure ⟨g.shape, d⟩

/-- The L1 and L2 terms (include/variable.hpp lines 97-111); `eps` is `ceras::eps`. -/
def regularise [Zero α] [One α] [Add α] [Mul α] [Neg α] [LE α] [DecidableLE α] (eps : α) (c : Cfg α) (data g : Ten α) : Res (Ten α) := do
  let g ← if eps ≤ c.l1 then addReg (fun d => if 0 ≤ d then c.l1 else -c.l1) data g else ok g
  if eps ≤ c.l2 then addReg (fun d => (1 + 1) * d * c.l2) data g else ok g

/-- `variable::backward` (include/variable.hpp lines 85-112). -/
def varBackward [Zero α] [One α] [Add α] [Mul α] [Neg α] [LE α] [DecidableLE α] (eps : α) (v : Nat) (c : Cfg α) (slot : Slot)
    (inc : Ten α) (s : St α) : Res (St α) :=
  if c.trainable = false then ok s
  else do
    let g ← addGrad (s.grad v) (s.data v) inc
    if s.sync slot = false then do
      let g ← regularise eps c (s.data v) g
      pure { s with grad := upd s.grad v g, sync := upd s.sync slot true }
    else pure { s with grad := upd s.grad v g }

/-- `backward` of an expression in an object (include/operation.hpp lines 90-94, 202-207; place holders and constants ignore the
gradient). -/
def backward [Zero α] [One α] [Add α] [Mul α] [Neg α] [LE α] [DecidableLE α] (eps : α) : Ex α → Slot → Ten α → St α → Res (St α)
  | .leaf _, _, _, s => ok s
  | .var v c, slot, g, s => varBackward eps v c slot g s
  | .un id op e, slot, g, s => do
    let d ← op.bwd (s.obj slot).inL (s.obj slot).out g
    backward eps e (some (id, false)) d s
  | .bin id op l r, slot, g, s => do
    let d ← op.bwd (s.obj slot).inL (s.obj slot).inR (s.obj slot).out g
    let s ← backward eps l (some (id, false)) d.1 s
    backward eps r (some (id, true)) d.2 s

end Verif.Graph
