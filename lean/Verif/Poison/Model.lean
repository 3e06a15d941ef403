import Verif.Nan.Model
/-!
# Optimizers on numbers with NaN (model)

The loops of include/optimizer.hpp over the elements of one variable, for the numbers of `Verif/Nan`: the same statements in the same order
as in the code, with `+`, `-`, `*`, `/` of the numbers.  `sqrt` is any function that maps NaN to NaN.  A step is what the body of the loop
over the variables does with one of them; the variables do not influence each other.  The learning rate of a step (after the division by
`1.0 + decay_ * iterations_`), and for adam also the corrected rate `lr` of line 294, are arguments.  Simplified: `1.0 - rho_` and the products with
it are computed in `T` (the code computes them in `double` and rounds the result).
-/
namespace Verif.Poison
open Verif Res Nan

variable {F : Type} [Floats F]

/-- Data, gradient and contexts of a variable (include/variable.hpp lines 26-32). -/
structure Var (F : Type) where
  data : Ten F
  grad : Ten F
  ctx : List (Ten F)

/-- `for_each` over the elements of a tensor that is changed and one that is read (include/utils/for_each.hpp lines 44-60). -/
def each2 (n : Nat) (f : F → F → F) (o a : Ten F) : Res (Ten F) := do
  let d ← loop n (fun i d => do
    let x ← rd d i
    let y ← rd a.data i
    wr d i (f x y)) o.data
  pure ⟨o.shape, d⟩

/-- The same with two tensors that are read. -/
def each3 (n : Nat) (f : F → F → F → F) (o a b : Ten F) : Res (Ten F) := do
  let d ← loop n (fun i d => do
    let x ← rd d i
    let y ← rd a.data i
    let z ← rd b.data i
    wr d i (f x y z)) o.data
  pure ⟨o.shape, d⟩

/-- `zeros_like` (include/tensor.tcc lines 982-986). -/
def zerosLike (t : Ten F) : Ten F := ⟨t.shape, List.replicate (size t.shape) 0⟩

/-- `gradient.reset()` (include/tensor.hpp lines 275-279). -/
def resetT (t : Ten F) : Ten F := ⟨t.shape, t.data.map (fun _ => 0)⟩

/-- `if ( contexts.empty() ) contexts.push_back( zeros_like( data ) )`, `n` times (include/optimizer.hpp lines 57-58, 101-102, 152-153, 203-209, 278-284). -/
def memory (n : Nat) (v : Var F) : List (Ten F) := if v.ctx.isEmpty then List.replicate n (zerosLike v.data) else v.ctx

/-- sgd (include/optimizer.hpp lines 54-64). -/
def sgdStep (mom lr : F) (nesterov : Bool) (v : Var F) : Res (Var F) := do
  let c := memory 1 v
  let m ← rd c 0
  let m ← each2 m.data.length (fun m g => m * mom - lr * g) m v.grad
  let c ← wr c 0 m
  let d ← (if nesterov = false then each3 m.data.length (fun d m g => d + (mom * m - lr * g)) v.data m v.grad else do
    Res.assert (v.data.shape = m.shape)
    each2 v.data.data.length (fun x y => x + y) v.data m)
  pure ⟨d, resetT v.grad, c⟩

/-- adagrad (include/optimizer.hpp lines 98-111). -/
def adagradStep (sqrt : F → F) (eps lr : F) (v : Var F) : Res (Var F) := do
  let c := memory 1 v
  let m ← rd c 0
  let m ← each2 m.data.length (fun m g => m + g * g) m v.grad
  let c ← wr c 0 m
  let d ← each3 v.data.data.length (fun d g m => d - lr * g / (eps + sqrt m)) v.data v.grad m
  pure ⟨d, resetT v.grad, c⟩

/-- rmsprop (include/optimizer.hpp lines 149-165). -/
def rmspropStep (sqrt : F → F) (eps lr rho : F) (iter : Nat) (v : Var F) : Res (Var F) := do
  let c := memory 1 v
  let m ← rd c 0
  let m ← (if iter = 0 then each2 m.data.length (fun _ g => g * g) m v.grad else each2 m.data.length (fun m g => m * rho + g * g * (1 - rho)) m v.grad)
  let c ← wr c 0 m
  let d ← each3 v.data.data.length (fun d g m => d - lr * g / (eps + sqrt m)) v.data v.grad m
  pure ⟨d, resetT v.grad, c⟩

/-- adadelta (include/optimizer.hpp lines 200-238): `moments` and `delta` are both `contexts[0]`. -/
def adadeltaStep (sqrt : F → F) (eps lr rho : F) (v : Var F) : Res (Var F) := do
  let c := memory 2 v
  let m ← rd c 0
  let m ← each2 m.data.length (fun m g => m * rho + g * g * (1 - rho)) m v.grad
  let g ← each3 v.grad.data.length (fun g d m => g * (lr * sqrt ((d + eps) / (m + eps)))) v.grad m m
  Res.assert (v.data.shape = g.shape)
  let d ← each2 v.data.data.length (fun x y => x - y) v.data g
  let m ← each2 m.data.length (fun d g => d * rho + (1 - rho) * g * g) m g
  let c ← wr c 0 m
  pure ⟨d, resetT g, c⟩

/-- adam (include/optimizer.hpp lines 275-301); `lrt` is the `lr` of line 294. -/
def adamStep (sqrt : F → F) (eps lr lrt b1 b2 : F) (iter : Nat) (v : Var F) : Res (Var F) := do
  let c := memory 2 v
  let m ← rd c 0
  let w ← rd c 1
  let m ← each2 m.data.length (fun m g => m * b1 + g * (1 - b1)) m v.grad
  let c ← wr c 0 m
  let w ← each2 w.data.length (fun w g => w * b2 + g * g * (1 - b2)) w v.grad
  let c ← wr c 1 w
  let d ← (if 1 < iter then each3 v.data.data.length (fun d m w => d - lrt * m / (eps + sqrt w)) v.data m w
    else each2 v.data.data.length (fun d g => d - lr * g) v.data v.grad)
  pure ⟨d, resetT v.grad, c⟩

/-- gradient_descent (include/optimizer.hpp lines 345-358); `checks`: whether `better_assert` does something (not with `NDEBUG`). -/
def gdStep (checks : Bool) (lr : F) (v : Var F) : Res (Var F) := do
  Res.assert (checks = true → hasNan v.grad = false)
  let lg : Ten F := ⟨v.grad.shape, v.grad.data.map (fun x => lr * x)⟩
  Res.assert (v.data.shape = lg.shape)
  let d ← each2 v.data.data.length (fun x y => x - y) v.data lg
  pure ⟨d, resetT v.grad, v.ctx⟩

/-- `gradient_descent( loss, batch_size, learning_rate )`: the rate it works with (include/optimizer.hpp lines 330-333). -/
def gdRate (batch : Nat) (lr : F) : F := lr / (batch : F)

/-- All of them, with the parameters of one step. -/
inductive Opt (F : Type) where
  | sgd (mom lr : F) (nesterov : Bool)
  | adagrad (lr : F)
  | rmsprop (lr rho : F) (iter : Nat)
  | adadelta (lr rho : F)
  | adam (lr lrt b1 b2 : F) (iter : Nat)
  | gradientDescent (checks : Bool) (lr : F)

def Opt.step (sqrt : F → F) (eps : F) : Opt F → Var F → Res (Var F)
  | .sgd mom lr nesterov => sgdStep mom lr nesterov
  | .adagrad lr => adagradStep sqrt eps lr
  | .rmsprop lr rho iter => rmspropStep sqrt eps lr rho iter
  | .adadelta lr rho => adadeltaStep sqrt eps lr rho
  | .adam lr lrt b1 b2 iter => adamStep sqrt eps lr lrt b1 b2 iter
  | .gradientDescent checks lr => gdStep checks lr

end Verif.Poison
