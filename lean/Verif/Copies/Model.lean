import Verif.Runs.Model
/-!
# Copies of compiled models (model)

`compiled_model` (include/model.hpp lines 71-277) as an object: it holds the loss expression and an optimizer that refers to that member.
`include/model.hpp` lines 78-86, 247-258; the optimizers' `Loss& loss_` (include/optimizer.hpp lines 31, 76, 126, 180, 253, 326); `include/operation.hpp`
lines 66, 70-71, 158, 161-163 (what an operator object holds).

`Verif.Graph` has one root handle, the object in slot `none`.  Here every compiled model has its own: copies of an operator object share its state, with the
operands and actions, but each has its own `input_data_` and `output_data_`.  Objects have addresses.  The copy and move constructors of `compiled_model` are those
of the compiler: members are copied or moved one by one, and the reference in the optimizer stays what it is; assignment is deleted because of that reference.
Moving an operator object empties its shared pointer `state_`.

Simplified: tensors by value as in `Verif.Graph` (in the code, a prediction the original holds may share its storage with the prediction the copy makes); the model, the place holders and the optimizer's factory are the same in all copies.
-/
namespace Verif.Copies
open Verif Res View Data Graph Optim Fit Runs

noncomputable section

/-- A compiled model: the fields of the root of `loss_` (nothing if `loss_` was moved from), the optimizer, and the address of the compiled model whose `loss_`
the optimizer refers to (include/model.hpp lines 78-86). -/
structure Cm (O : Type) where
  root : Option (Fields ℝ)
  opt : O
  ref : Nat

/-- The program: the compiled models at their addresses, and everything else. -/
structure World (O : Type) where
  cms : Nat → Option (Cm O)
  os : OSt

variable {O : Type}

/-- The fields of an operator that has not run (include/tensor.hpp line 58). -/
def noFields : Fields ℝ := ⟨noTensor, noTensor, noTensor⟩

/-- The object at an address; there is none before construction and after destruction. -/
def lookup (w : World O) (p : Nat) : Res (Cm O) :=
  match w.cms p with
  | some c => ok c
  | none => ub

/-- `state_->` of the root of a loss (include/operation.hpp lines 104-107, 225-230). -/
def stateOf (c : Cm O) : Res (Fields ℝ) :=
  match c.root with
  | some f => ok f
  | none => ub

/-- The constructor (include/model.hpp lines 84-85); `make_compiled_model` returns the object without copying it. -/
def compileAt (p : Nat) (o : O) (w : World O) : World O := { w with cms := upd w.cms p (some ⟨some noFields, o, p⟩) }

/-- The copy constructor: the reference of the copy's optimizer is to the loss of the original. -/
def copyAt (p q : Nat) (w : World O) : Res (World O) := do
  let c ← lookup w p
  pure { w with cms := upd w.cms q (some c) }

/-- The move constructor. -/
def moveAt (p q : Nat) (w : World O) : Res (World O) := do
  let c ← lookup w p
  pure { w with cms := upd (upd w.cms p (some { c with root := none })) q (some c) }

/-- The destructor. -/
def destroyAt (p : Nat) (w : World O) : World O := { w with cms := upd w.cms p none }

/-- The root handle in use. -/
def withRoot (f : Fields ℝ) (s : OSt) : OSt := { s with st := { s.st with obj := upd s.st.obj none f } }

/-- `s.run( loss_ )` of the compiled model at `p` (include/model.hpp lines 130, 207, 254). -/
def runLoss (e : Ex ℝ) (p : Nat) (w : World O) : Res (Ten ℝ × World O) := do
  let c ← lookup w p
  let f ← stateOf c
  let (y, st) ← run e (withRoot f w.os).st
  pure (y, ⟨upd w.cms p (some { c with root := some (st.obj none) }), { w.os with st := st }⟩)

/-- `s.run( compiled_optimizer_ )` of the compiled model at `p` (include/model.hpp lines 212, 256): `loss_.backward` runs on the loss the optimizer refers to. -/
def runOpt (M : Opt O) (eps : ℝ) (e : Ex ℝ) (p : Nat) (w : World O) : Res (World O) := do
  let c ← lookup w p
  let r ← lookup w c.ref
  let f ← stateOf r
  let (o, os) ← M.step eps e c.opt (withRoot f w.os)
  pure ⟨upd w.cms p (some { c with opt := o }), os⟩

/-- The compiled model at `p`, as `train_on_batch`, `fit` and `evaluate` use it. -/
def machine (M : Opt O) (eps : ℝ) (e : Ex ℝ) (inp gt p : Nat) : Machine (World O) ℝ where
  bind x y w := { w with os := { w.os with st := { w.os.st with leaf := upd (upd w.os.st.leaf inp x) gt y } } }
  phase b w := { w with os := { w.os with st := { w.os.st with training := b } } }
  loss w := runLoss e p w
  step w := runOpt M eps e p w

end

end Verif.Copies
