import Verif.Graph.Operators
import Verif.Pool.Reduce
/-!
# Loss functions and the dense layer (model)

`include/loss.hpp`: the losses that are expressions made of other operators (`cross_entropy_loss` is an operator of its own, see
`Verif.Softmax`), and `Dense` of `include/layer.hpp`.  Elements are real numbers.  The identities of the operators made are taken one after the
other from the given one on; the code makes them in another order, but they only have to differ.
-/
namespace Verif.Loss
open Verif Res View Data Ops Graph

/-- What the operators of an expression hold: the contents of their caches when the action starts (anything), the function standing for
`std::reduce`, and a bound on the rounds of the loop removing leading extents. -/
structure Kit where
  cacheF : Ten ℝ
  cacheB : Ten ℝ
  cacheB' : Ten ℝ
  red : List ℝ → ℝ
  fuel : Nat

/-- `value::forward` (include/value.hpp lines 39-45): a tensor of the other operand's shape, filled with the value. -/
def valueLike {α : Type} [One α] [Mul α] (v : α) (t : Ten α) : Res (Ten α) := do
  let d ← loop (size t.shape) (fun i o => do let x ← rd o i; wr o i (x * v)) (List.replicate (size t.shape) 1)
  pure ⟨t.shape, d⟩

/-- A binary operator whose left operand is a `value` (include/operation.hpp lines 177-181, 202-207): the right operand is evaluated first, and
the value makes its tensor from it; the value ignores its gradient.  The tensor kept in `lhs_input_data_` is made again here in backward. -/
def valueLeft {α : Type} [One α] [Mul α] (v : α) (op : BOp α) : UOp α where
  fwd r := do
    let l ← valueLike v r
    op.fwd l r
  bwd r o g := do
    let l ← valueLike v r
    let d ← op.bwd l r o g
    pure d.2

/-- The operator `mean_reduce` (include/operation.hpp lines 960-981). -/
noncomputable def opMean : UOp ℝ := ⟨meanReduce, fun x _ g => meanReduceBack x g⟩

/-- The operator `maximum` (include/operation.hpp lines 2476-2513).  The mask left by forward is made again here in backward. -/
noncomputable def opMax (K : Kit) : BOp ℝ where
  fwd l r := do
    let um ← Pool.maximumFwd l r K.cacheF K.cacheB
    pure um.1
  bwd l r _ g := do
    let um ← Pool.maximumFwd l r K.cacheF K.cacheB
    Pool.maximumBack l r g um.2 K.cacheB K.cacheB'

/-- The operator `ones_like` (include/operation.hpp lines 2630-2639): ones, and zeros for a gradient. -/
def opOnes : UOp ℝ := ⟨fun x => ok ⟨x.shape, List.replicate (size x.shape) 1⟩, fun _ _ g => ok ⟨g.shape, List.replicate (size g.shape) 0⟩⟩

noncomputable section

/-- An element-wise operator. -/
def el (K : Kit) (i : Nat) (op : EOp) (e : Ex ℝ) : Ex ℝ := .un i (opElem op K.cacheF K.cacheB) e

/-- `plus` (include/operation.hpp lines 526-577). -/
def plusE (K : Kit) (i : Nat) (l r : Ex ℝ) : Ex ℝ := .bin i (opPlus K.red K.fuel) l r

/-- `minus` (include/operation.hpp lines 1001-1012), for a right operand that is not a value. -/
def minusE (K : Kit) (i : Nat) (l r : Ex ℝ) : Ex ℝ := plusE K (i + 1) l (el K i .negative r)

/-- `hadamard_product` (include/operation.hpp lines 877-881). -/
def hadE (K : Kit) (i : Nat) (l r : Ex ℝ) : Ex ℝ := .bin i (opEwp K.red K.fuel) l r

/-- `squared_loss` (include/loss.hpp lines 17-21). -/
def squaredLoss (K : Kit) (i : Nat) (l r : Ex ℝ) : Ex ℝ := .un (i + 3) opSum (el K (i + 2) .square (minusE K i l r))

/-- `mean_squared_error`, `mse` (include/loss.hpp lines 23-33, `MeanSquaredError` lines 157-166). -/
def mse (K : Kit) (i : Nat) (l r : Ex ℝ) : Ex ℝ := .un (i + 3) opMean (el K (i + 2) .square (minusE K i l r))

/-- `abs_loss` (include/loss.hpp lines 35-39). -/
def absLoss (K : Kit) (i : Nat) (l r : Ex ℝ) : Ex ℝ := .un (i + 3) opSum (el K (i + 2) .abs (minusE K i l r))

/-- `mean_absolute_error`, `mae` (include/loss.hpp lines 41-51, `MeanAbsoluteError` lines 189-198). -/
def mae (K : Kit) (i : Nat) (l r : Ex ℝ) : Ex ℝ := .un (i + 3) opMean (el K (i + 2) .abs (minusE K i l r))

/-- `log( value{1.0} + clip(eps)(ex) )` (include/loss.hpp line 14); `top` is the largest number, the default upper bound of `clip`. -/
def logOf (K : Kit) (top : ℝ) (i : Nat) (e : Ex ℝ) : Ex ℝ := el K (i + 2) .log (.un (i + 1) (valueLeft 1 (opPlus K.red K.fuel)) (el K i (.clip epsC top) e))

/-- `mean_squared_logarithmic_error` (include/loss.hpp lines 11-15). -/
def msle (K : Kit) (top : ℝ) (i : Nat) (l r : Ex ℝ) : Ex ℝ :=
  .un (i + 9) opSum (el K (i + 8) .square (minusE K (i + 6) (logOf K top i l) (logOf K top (i + 3) r)))

/-- `cross_entropy` (include/loss.hpp lines 53-57). -/
def crossEntropy (K : Kit) (i : Nat) (l r : Ex ℝ) : Ex ℝ := el K (i + 3) .negative (.un (i + 2) opSum (hadE K (i + 1) l (el K i .log r)))

/-- What `binary_cross_entropy_loss` takes the mean of (include/loss.hpp lines 121-122).  `ones` occurs twice. -/
def bceError (K : Kit) (i : Nat) (t p : Ex ℝ) : Ex ℝ :=
  let ones := Ex.un i opOnes t
  el K (i + 10) .negative (plusE K (i + 9)
    (hadE K (i + 2) t (el K (i + 1) .log p))
    (hadE K (i + 8) (minusE K (i + 3) ones t) (el K (i + 7) .log (minusE K (i + 5) ones p))))

/-- `binary_cross_entropy_loss` (include/loss.hpp lines 118-124). -/
def bce (K : Kit) (i : Nat) (t p : Ex ℝ) : Ex ℝ := .un (i + 11) opMean (bceError K i t p)

/-- What `hinge_loss` takes the mean of (include/loss.hpp line 138). -/
def hingeError (K : Kit) (i : Nat) (l r : Ex ℝ) : Ex ℝ :=
  .un (i + 3) (valueLeft 0 (opMax K)) (.un (i + 2) (valueLeft 1 (opPlus K.red K.fuel)) (el K (i + 1) .negative (hadE K i l r)))

/-- `hinge_loss` (include/loss.hpp lines 135-139). -/
def hinge (K : Kit) (i : Nat) (l r : Ex ℝ) : Ex ℝ := .un (i + 4) opMean (hingeError K i l r)

/-- `Dense` (include/layer.hpp lines 235-245): variable `w` of shape `[input size, output size]` and variable `b` of shape
`[1, output size]`, which is not trained unless `use_bias`. -/
def dense (K : Kit) (i : Nat) (w b : Nat) (cw cb : Cfg ℝ) (e : Ex ℝ) : Ex ℝ :=
  plusE K (i + 1) (.bin i (opMatmul K.cacheF K.cacheB K.cacheB') e (.var w cw)) (.var b cb)

end
end Verif.Loss
