import Verif.Ops.Scalar
/-!
# Step functions as operators (model)

`include/operation.hpp` lines 2631-2741 (`ones_like`, `zeros_like`, `equal`, `sign`) and the rounding operators between lines 3906 and
4838.  Elements are real numbers.  The `shared_ptr<any>` caches are explicit arguments.  `std::rint`, `std::nearbyint`, `std::lrint` and
`std::llrint` follow the rounding mode, which nothing in the library changes: to nearest, ties to even.
-/
namespace Verif.Step
open Verif Res View Data

/-- The rounding operators. -/
inductive SOp where
  | ceil | floor | trunc | round | rint | nearbyint | lrint | llrint | lround | llround
  deriving DecidableEq, Repr

/-- `std::trunc`: towards zero. -/
noncomputable def truncF (x : ℝ) : ℤ := if 0 ≤ x then ⌊x⌋ else ⌈x⌉

/-- `std::round`: to nearest, ties away from zero. -/
noncomputable def roundF (x : ℝ) : ℤ := if 0 ≤ x then ⌊x + 1 / 2⌋ else -⌊-x + 1 / 2⌋

/-- `std::rint` in the default rounding mode: to nearest, ties to even. -/
noncomputable def rintF (x : ℝ) : ℤ :=
  if x - ⌊x⌋ < 1 / 2 then ⌊x⌋ else if 1 / 2 < x - ⌊x⌋ then ⌊x⌋ + 1 else if Even ⌊x⌋ then ⌊x⌋ else ⌊x⌋ + 1

/-- Conversion of a rounded value to `long` / `long long` (64 bits): outside the range the result is unspecified; `u` stands for
whatever it is. -/
noncomputable def toLong (u : ℤ → ℤ) (n : ℤ) : ℤ := if -2 ^ 63 ≤ n ∧ n < 2 ^ 63 then n else u n

/-- The function the forward action applies to each element (include/operation.hpp lines 3914 `ceil`, 4227 `floor`, 4264 `llrint`,
4297 `llround`, 4476 `lrint`, 4509 `lround`, 4542 `nearbyint`, 4575 `rint`, 4608 `round`, 4822 `trunc`). -/
noncomputable def SOp.fwd (u : ℤ → ℤ) : SOp → ℝ → ℝ
  | ceil, x => (⌈x⌉ : ℤ)
  | floor, x => (⌊x⌋ : ℤ)
  | trunc, x => truncF x
  | round, x => roundF x
  | rint, x => rintF x
  | nearbyint, x => rintF x
  | lrint, x => toLong u (rintF x)
  | llrint, x => toLong u (rintF x)
  | lround, x => toLong u (roundF x)
  | llround, x => toLong u (roundF x)

/-- The forward action of a rounding operator on a tensor: resize the cache, one pass over the input (e.g. include/operation.hpp lines
3910-3916). -/
noncomputable def stepForward (u : ℤ → ℤ) (op : SOp) (cache t : Ten ℝ) : Res (Ten ℝ) := Ops.mapT (op.fwd u) cache t

/-- The backward action of every rounding operator: the gradient as it comes (include/operation.hpp lines 3917-3920, 4230-4233,
4267-4270, 4300-4303, 4479-4482, 4512-4515, 4545-4548, 4578-4581, 4611-4614, 4825-4828). -/
def stepBackward (_op : SOp) (_input _output grad : Ten ℝ) : Res (Ten ℝ) := ok grad

/-- The condition as a number. -/
def bit (b : Bool) : ℝ := if b then 1 else 0

/-- `sign`, one element (include/operation.hpp line 2728). -/
noncomputable def signF (x : ℝ) : ℝ := bit (decide (0 < x)) - bit (decide (x < 0))

/-- `sign`, forward (include/operation.hpp lines 2723-2730). -/
noncomputable def signForward (cache t : Ten ℝ) : Res (Ten ℝ) := Ops.mapT signF cache t

/-- `sign`, backward (include/operation.hpp lines 2731-2738): the cache, resized to the input's shape and filled with zeros. -/
def signBackward (cache input _output _grad : Ten ℝ) : Res (Ten ℝ) := do
  let ans := resizeV cache input.shape
  let d ← Gemm.fillN ans.data.length 0 ans.data
  pure ⟨input.shape, d⟩

/-- `ones_like`, forward (include/operation.hpp line 2635, include/tensor.tcc lines 989-1000). -/
def onesForward (t : Ten ℝ) : Res (Ten ℝ) := do
  let d ← Gemm.fillN (size t.shape) 1 (List.replicate (size t.shape) 0)
  pure ⟨t.shape, d⟩

/-- `zeros_like`, forward (include/operation.hpp line 2655, include/tensor.tcc lines 982-986). -/
def zerosForward (t : Ten ℝ) : Res (Ten ℝ) := ok ⟨t.shape, List.replicate (size t.shape) 0⟩

/-- `ones_like` and `zeros_like`, backward (include/operation.hpp lines 2636, 2656): zeros of the gradient's shape. -/
def constBackward (_input _output grad : Ten ℝ) : Res (Ten ℝ) := ok ⟨grad.shape, List.replicate (size grad.shape) 0⟩

/-- `equal`, one pair of elements (include/operation.hpp line 2689), for any numbers. -/
def equalOf {α : Type} [LT α] [DecidableLT α] [Sub α] [Zero α] [One α] (abs : α → α) (threshold l r : α) : α :=
  if abs (l - r) > threshold then 0 else 1

/-- Over the reals. -/
noncomputable def equalF (threshold l r : ℝ) : ℝ := equalOf (fun x => |x|) threshold l r

/-- `equal`, forward (include/operation.hpp lines 2682-2691), for any numbers. -/
def equalForwardOf {α : Type} [LT α] [DecidableLT α] [Sub α] [Zero α] [One α] (abs : α → α) (threshold : α) (cache lhs rhs : Ten α) : Res (Ten α) := do
  Res.assert (lhs.shape = rhs.shape)
  let d ← loop lhs.data.length (fun i o => do
    let l ← rd lhs.data i
    let r ← rd rhs.data i
    wr o i (equalOf abs threshold l r)) (resizeV cache lhs.shape).data
  pure ⟨lhs.shape, d⟩

/-- Over the reals. -/
noncomputable def equalForward (threshold : ℝ) (cache lhs rhs : Ten ℝ) : Res (Ten ℝ) := equalForwardOf (fun x => |x|) threshold cache lhs rhs

/-- `equal`, backward (include/operation.hpp lines 2692-2699): one tensor of zeros, of the shape of the left operand, for both. -/
def equalBackward (cache lhs _rhs _output _grad : Ten ℝ) : Res (Ten ℝ × Ten ℝ) := do
  let ans := resizeV cache lhs.shape
  let d ← Gemm.fillN ans.data.length 0 ans.data
  pure (⟨lhs.shape, d⟩, ⟨lhs.shape, d⟩)

end Verif.Step
