import Verif.Alias.Model
/-!
# Training passes on shared storages (model)

`Verif.Graph` passes tensors by value.  Here a whole training pass - forward, then backward - works on tensors as they are in the code: a shape and a
pointer to a storage other tensors may share.  `include/operation.hpp` lines 53-117 (`unary_operator`), 144-240 (`binary_operator`), 526-557 (`plus`),
1115-1283 (`reshape`, `flatten`, `expand_dims`, `squeeze`), `include/activation.hpp`, `include/variable.hpp` lines 72-112, `include/place_holder.hpp`
lines 58-63, `include/session.hpp` lines 58-63, 181-197.

The fields `input_data_` / `output_data_` of the operator objects are tensors sharing the storages of the results, so what a later operator writes into
its operand is what backward of an earlier operator reads.

Simplified: an operator reads its operands (in backward: its fields and the gradient) and then overwrites its cache or the gradient's storage (in the code
it may do so element by element).  While an operator waits for its operands its field `output_data_` holds an empty tensor of its own; here the field
keeps its old tensor until the result is there (nothing reads it in between).
-/
namespace Verif.Train
open Verif Res View Tensor Data Graph
open Verif.Alias (HSt readT hquery)

variable {α : Type}

/-- Where an operator leaves its result: in a cache created with the operator (`context_cast`, e.g. include/operation.hpp lines 603-605), in a new tensor
(`deep_copy`, e.g. include/operation.hpp lines 1042-1044), wherever `add` leaves it (`plus`, lines 531-538), or in its operand's storage under another shape
(`reshape`, `flatten`, `expand_dims`: include/operation.hpp lines 1139-1146, 1199-1205, 1241-1254). -/
inductive FKind where
  | own | fresh | plus | share
  deriving DecidableEq

/-- Where an operator leaves the gradient of an operand: in a cache of its own (e.g. include/operation.hpp lines 616-630), in a new tensor (e.g. lines
541-552), in the storage of the incoming gradient (`Tsor ans = grad;` and a loop, e.g. `relu`, include/activation.hpp lines 300-310), or it passes the
incoming gradient on under another shape (`reshape`, include/operation.hpp lines 1148-1153). -/
inductive BKind where
  | own | fresh | inplace | pass
  deriving DecidableEq

/-- The fields of an operator object (include/operation.hpp lines 70-71, 161-163). -/
structure HFields where
  inL : Tn
  inR : Tn
  out : Tn

/-- The state of the program. -/
structure TSt (α : Type) extends HSt α where
  /-- `variable_state::gradient_` -/
  gradT : Nat → Tn
  /-- storages of each operator's own caches for the gradients of its left (`false`) and right operand -/
  bopc : Nat → Bool → Nat
  /-- fields of the operator in an object -/
  obj : Slot → HFields
  /-- `regularizer_.synchronized_` of the variable in an object -/
  sync : Slot → Bool
  /-- `learning_phase == 1` -/
  training : Bool

/-- Overwrite a storage. -/
def leaveAt (h : Heap α) (l : Nat) (y : Ten α) : Res (Tn × Heap α) := do
  let h ← wr h l y.data
  pure (⟨y.shape, l⟩, h)

/-- A new tensor. -/
def leaveNew (h : Heap α) (y : Ten α) : Tn × Heap α := (⟨y.shape, h.length⟩, h ++ [y.data])

/-- Leave the result of a unary operator with operand `x`.  (`reshape` calls `resize` on the shared storage if the numbers of elements differ,
include/tensor.hpp lines 335-343, 354-368; otherwise what is written is what is there.) -/
def put (fk : Nat → FKind) (i : Nat) (x : Tn) (y : Ten α) (s : TSt α) : Res (Tn × Heap α) :=
  match fk i with
  | .own => leaveAt s.heap (s.opc i) y
  | .share => leaveAt s.heap x.loc y
  | _ => ok (leaveNew s.heap y)

/-- Leave the result of a binary operator. -/
def put2 (fk : Nat → FKind) (i : Nat) (y : Ten α) (s : TSt α) : Res (Tn × Heap α) :=
  match fk i with
  | .own => leaveAt s.heap (s.opc i) y
  | _ => ok (leaveNew s.heap y)

/-- The forward action of a binary operator (include/operation.hpp line 192; `plus` lines 531-538). -/
def apply2 [Zero α] [Add α] (fk : Nat → FKind) (i : Nat) (op : BOp α) (x y : Tn) (s : TSt α) : Res (Tn × Heap α) :=
  if fk i = .plus then addLike (· + ·) s.heap x y
  else do
    let xv ← readT s.heap x
    let yv ← readT s.heap y
    let z ← op.fwd xv yv
    put2 fk i z s

/-- `variable::forward` (include/variable.hpp lines 72-83). -/
def hvarForward [Zero α] (v : Nat) (slot : Slot) (s : TSt α) : Res (Tn × TSt α) :=
  if s.training = true then do
    let g ← rd s.heap (s.gradT v).loc
    let h ← wr s.heap (s.gradT v).loc (g.map (fun _ => 0))
    pure (s.varT v, { s with heap := h, sync := upd s.sync slot false })
  else ok (s.varT v, s)

/-- `forward` of an expression in an object (include/operation.hpp lines 75-88, 168-197; include/place_holder.hpp lines 58-63). -/
def hforward [Zero α] [Add α] (fk : Nat → FKind) : Ex α → Slot → TSt α → Res (Tn × TSt α)
  | .leaf k, _, s => do
    let b ← rd s.heap (s.leafT k).loc
    Res.assert (b ≠ [])
    pure (s.leafT k, s)
  | .var v _, slot, s => hvarForward v slot s
  | .un i op e, slot, s => do
    let q ← hquery s.toHSt i
    match q with
    | some t => pure (t, { s with obj := upd s.obj slot { s.obj slot with out := t } })
    | none => do
      let (x, s) ← hforward fk e (some (i, false)) s
      let xv ← readT s.heap x
      let y ← op.fwd xv
      let (t, h) ← put fk i x y s
      pure (t, { s with heap := h, cache := upd s.cache i (some t), obj := upd s.obj slot { s.obj slot with inL := x, out := t } })
  | .bin i op l r, slot, s => do
    let q ← hquery s.toHSt i
    match q with
    | some t => pure (t, { s with obj := upd s.obj slot { s.obj slot with out := t } })
    | none => do
      let (x, s) ← hforward fk l (some (i, false)) s
      let (y, s) ← hforward fk r (some (i, true)) s
      let (t, h) ← apply2 fk i op x y s
      pure (t, { s with heap := h, cache := upd s.cache i (some t), obj := upd s.obj slot ⟨x, y, t⟩ })

/-- `session::run` (include/session.hpp lines 58-63). -/
def hrun [Zero α] [Add α] (fk : Nat → FKind) (e : Ex α) (s : TSt α) : Res (Tn × TSt α) := hforward fk e none { s with cache := fun _ => none }

/-- Leave the gradient a unary operator sends to its operand; `g` is the incoming gradient. -/
def give (k : BKind) (own : Nat) (g : Tn) (d : Ten α) (h : Heap α) : Res (Tn × Heap α) :=
  match k with
  | .own => leaveAt h own d
  | .fresh => ok (leaveNew h d)
  | .inplace => leaveAt h g.loc d
  | .pass => leaveAt h g.loc d

/-- Leave one of the gradients of a binary operator: in a cache or in a new tensor. -/
def give2 (k : BKind) (own : Nat) (d : Ten α) (h : Heap α) : Res (Tn × Heap α) :=
  match k with
  | .own => leaveAt h own d
  | _ => ok (leaveNew h d)

/-- `variable::backward` (include/variable.hpp lines 85-112). -/
def hvarBackward [Zero α] [One α] [Add α] [Mul α] [Neg α] [LE α] [DecidableLE α] (eps : α) (v : Nat) (c : Cfg α) (slot : Slot)
    (inc : Tn) (s : TSt α) : Res (TSt α) :=
  if c.trainable = false then ok s
  else do
    let gv ← readT s.heap (s.gradT v)
    let dv ← readT s.heap (s.varT v)
    let iv ← readT s.heap inc
    let g ← addGrad gv dv iv
    if s.sync slot = false then do
      let g ← regularise eps c dv g
      let h ← wr s.heap (s.gradT v).loc g.data
      pure { s with heap := h, gradT := upd s.gradT v ⟨g.shape, (s.gradT v).loc⟩, sync := upd s.sync slot true }
    else do
      let h ← wr s.heap (s.gradT v).loc g.data
      pure { s with heap := h, gradT := upd s.gradT v ⟨g.shape, (s.gradT v).loc⟩ }

/-- `backward` of an expression in an object (include/operation.hpp lines 90-94, 202-207). -/
def hbackward [Zero α] [One α] [Add α] [Mul α] [Neg α] [LE α] [DecidableLE α] (eps : α) (bk : Nat → Bool → BKind) : Ex α → Slot → Tn → TSt α → Res (TSt α)
  | .leaf _, _, _, s => ok s
  | .var v c, slot, g, s => hvarBackward eps v c slot g s
  | .un i op e, slot, g, s => do
    let x ← readT s.heap (s.obj slot).inL
    let y ← readT s.heap (s.obj slot).out
    let gv ← readT s.heap g
    let d ← op.bwd x y gv
    let (t, h) ← give (bk i false) (s.bopc i false) g d s.heap
    hbackward eps bk e (some (i, false)) t { s with heap := h }
  | .bin i op l r, slot, g, s => do
    let x ← readT s.heap (s.obj slot).inL
    let y ← readT s.heap (s.obj slot).inR
    let z ← readT s.heap (s.obj slot).out
    let gv ← readT s.heap g
    let d ← op.bwd x y z gv
    let (tl, h) ← give2 (bk i false) (s.bopc i false) d.1 s.heap
    let (tr, h) ← give2 (bk i true) (s.bopc i true) d.2 h
    let s ← hbackward eps bk l (some (i, false)) tl { s with heap := h }
    hbackward eps bk r (some (i, true)) tr s

/-- A training pass as the optimizers start it (include/optimizer.hpp lines 45-47, 88-90, 139-141, 191-193, 267-269, 336-338): run, then backward from a new tensor holding `g`. -/
def hpass [Zero α] [One α] [Add α] [Mul α] [Neg α] [LE α] [DecidableLE α] (eps : α) (fk : Nat → FKind) (bk : Nat → Bool → BKind) (e : Ex α) (g : Ten α) (s : TSt α) :
    Res (Tn × TSt α) := do
  let (x, s) ← hrun fk e s
  let (t, h) := leaveNew s.heap g
  let s ← hbackward eps bk e none t { s with heap := h }
  pure (x, s)

end Verif.Train
