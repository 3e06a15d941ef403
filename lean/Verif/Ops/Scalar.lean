import Verif.Data.Flip
import Mathlib.Analysis.SpecialFunctions.Arcosh
import Mathlib.Analysis.SpecialFunctions.Arsinh
import Mathlib.Analysis.SpecialFunctions.Artanh
import Mathlib.Analysis.SpecialFunctions.ExpDeriv
import Mathlib.Analysis.SpecialFunctions.Log.Base
import Mathlib.Analysis.SpecialFunctions.Pow.Deriv
import Mathlib.Analysis.SpecialFunctions.Trigonometric.ArctanDeriv
import Mathlib.Analysis.SpecialFunctions.Trigonometric.InverseDeriv
import Mathlib.MeasureTheory.Integral.IntervalIntegral.Basic
/-!
# Element-wise operators on real numbers (model)

`include/operation.hpp` lines 673-834, 1037-1105, 3600-4925 and `include/activation.hpp` lines 119-610.  Elements are real numbers:
rounding, overflow and NaN are outside the model, and the decimal literals for `2/sqrt(pi)`, `log 2`, `log 10` stand for the numbers
they approximate.  `std::erf` and the other library functions are the mathematical functions.
The step functions (`ceil`, `floor`, `round`, `sign`, `equal`, ...) are in `Verif.Step`.
The `shared_ptr<any>` caches are explicit arguments; where the code writes into the gradient itself (relu, relu6, leaky_relu, elu,
exponential, hard_sigmoid, gelu, clip), the value returned is modelled here and the sharing in `Verif.Alias`.
-/
namespace Verif.Ops
open Verif Res View Data

/-- `ceras::eps` (include/config.hpp line 57). -/
noncomputable def epsC : ℝ := 1 / 10 ^ 8

/-- `std::erf`. -/
noncomputable def erfF (x : ℝ) : ℝ := 2 / √Real.pi * ∫ t in (0 : ℝ)..x, Real.exp (-t * t)

/-- `std::cbrt`. -/
noncomputable def cbrtF (x : ℝ) : ℝ := if 0 ≤ x then x ^ (1 / 3 : ℝ) else -((-x) ^ (1 / 3 : ℝ))

/-- `_gelu` (include/activation.hpp lines 572-576). -/
noncomputable def geluF (x : ℝ) : ℝ := 0.5 * x * (1.0 + Real.tanh (√(2 / Real.pi) * x * (1.0 + 0.044715 * x * x)))

/-- `_dgelu` (include/activation.hpp lines 577-587). -/
noncomputable def dgeluF (x : ℝ) : ℝ :=
  let s := √(2 / Real.pi) * x
  let xx := x * x
  0.5 * (1.0 + Real.tanh (s * (1.0 + 0.044715 * xx))) +
    s * (1.0 - Real.tanh (s * (1.0 + 0.044715 * xx) * (1.0 + 0.134145 * xx)) ^ 2)

/-- The element-wise unary operators. -/
inductive EOp where
  | negative | addC (a : ℝ) | mulC (a : ℝ) | inverse | square | clip (lower upper : ℝ)
  | abs | acos | acosh | asin | asinh | atan | atanh | cbrt | cos | cosh | erf | erfc | exp | exp2 | expm1 | log | log10 | log1p | log2
  | sin | sinh | sqrt | tan | tanh | pow (e : ℝ)
  | selu | softplus | softsign | sigmoid | relu | relu6 | leakyRelu (factor : ℝ) | elu (alpha : ℝ) | exponential | hardSigmoid | gelu

/-- The function the forward action applies to each element (include/operation.hpp lines 678, 702, 754, 821, 1043, 1089 and the first
of each pair of lines 3618-4912; include/activation.hpp lines 147, 189, 226, 263, 293, 351, 413, 467, 504, 541, 574). -/
noncomputable def EOp.fwd : EOp → ℝ → ℝ
  | negative, x => -x
  | addC a, x => x + a
  | mulC a, x => x * a
  | inverse, x => if x > 0 then 1 / max epsC x else 1 / min (-epsC) x
  | square, x => x * x
  | clip lo up, x => max lo (min x up)
  | abs, x => |x|
  | acos, x => Real.arccos x
  | acosh, x => Real.arcosh x
  | asin, x => Real.arcsin x
  | asinh, x => Real.arsinh x
  | atan, x => Real.arctan x
  | atanh, x => Real.artanh x
  | cbrt, x => cbrtF x
  | cos, x => Real.cos x
  | cosh, x => Real.cosh x
  | erf, x => erfF x
  | erfc, x => 1 - erfF x
  | exp, x => Real.exp x
  | exp2, x => 2 ^ x
  | expm1, x => Real.exp x - 1
  | log, x => Real.log x
  | log10, x => Real.logb 10 x
  | log1p, x => Real.log (1 + x)
  | log2, x => Real.logb 2 x
  | sin, x => Real.sin x
  | sinh, x => Real.sinh x
  | sqrt, x => √x
  | tan, x => Real.tan x
  | tanh, x => Real.tanh x
  | pow e, x => x ^ e
  | selu, x => if x ≥ 0 then 1.0507 * x else 1.0507 * 1.67326 * (Real.exp x - 1)
  | softplus, x => Real.log (1 + Real.exp x)
  | softsign, x => x / (1 + |x|)
  | sigmoid, x => 1 / (1 + Real.exp (-x))
  | relu, x => max x 0
  | relu6, x => min 6 (max x 0)
  | leakyRelu f, x => max x (f * x)
  | elu α, x => if x > 0 then x else α * (Real.exp x - 1)
  | exponential, x => Real.exp x
  | hardSigmoid, x => if x > 1 then 1 else if x < -1 then 0 else (x + 1) / 2
  | gelu, x => geluF x

/-- What the backward action computes from the element `x` of the input, `o` of the output and `g` of the gradient
(include/operation.hpp lines 684, 710, 766, 829, 1050-1052, 1097-1100 and the second of each pair of lines 3625-4919;
include/activation.hpp lines 159, 196, 233, 269, 311, 368, 421, 475, 511, 548, 604). -/
noncomputable def EOp.bwd : EOp → ℝ → ℝ → ℝ → ℝ
  | negative, _, _, g => -g
  | addC _, _, _, g => g
  | mulC a, _, _, g => g * a
  | inverse, x, _, g => -g / max (x * x) epsC
  | square, x, _, g => x * g * 2
  | clip lo up, x, _, g => if x < lo then 0 else if x > up then 0 else g
  | abs, x, _, g => g * (if x > 0 then 1 else if x < 0 then -1 else 0)
  | acos, x, _, g => -g / √(1 - x * x)
  | acosh, x, _, g => g / √(x * x - 1)
  | asin, x, _, g => g / √(1 - x * x)
  | asinh, x, _, g => g / √(1 + x * x)
  | atan, x, _, g => g / (1 + x * x)
  | atanh, x, _, g => g / (1 - x * x)
  | cbrt, _, o, g => g / (3 * o * o)
  | cos, x, _, g => -g * Real.sin x
  | cosh, x, _, g => g * Real.sinh x
  | erf, x, _, g => 2 / √Real.pi * g * Real.exp (-x * x)
  | erfc, x, _, g => -(2 / √Real.pi) * g * Real.exp (-x * x)
  | exp, _, o, g => g * o
  | exp2, _, o, g => Real.log 2 * g * o
  | expm1, _, o, g => g * (o + 1)
  | log, x, _, g => g / x
  | log10, x, _, g => g / (Real.log 10 * x)
  | log1p, x, _, g => g / x
  | log2, x, _, g => g / (Real.log 2 * x)
  | sin, x, _, g => g * Real.cos x
  | sinh, x, _, g => g * Real.cosh x
  | sqrt, _, o, g => g / (o + o)
  | tan, _, o, g => g * (1 + o * o)
  | tanh, _, o, g => g * (1 - o * o)
  | pow e, x, _, g => e * g * x ^ (e - 1)
  | selu, x, _, g => if x ≥ 0 then g * 1.0507 else g * 1.0507 * 1.67326 * Real.exp x
  | softplus, x, _, g => g / (1 - Real.exp (-x))
  | softsign, x, _, g => g / ((1 + |x|) * (1 + |x|))
  | sigmoid, _, o, g => g * o * (1 - o)
  | relu, x, _, g => g * (if x > 0 then 1 else 0)
  | relu6, x, _, g => if x ≤ 0 ∨ x ≥ 6 then 0 else g
  | leakyRelu f, x, _, g => if x > 0 then g else f * g
  | elu α, x, _, g => if x ≥ 0 then g else α * Real.exp g
  | exponential, _, o, g => g * o
  | hardSigmoid, x, _, g => if x > 1 ∨ x < -1 then 0 else g / 2
  | gelu, _, _, g => dgeluF g

/-- The forward action on a tensor (e.g. include/operation.hpp lines 3616-3619): resize the cache to the input's shape, then one pass
over the input. -/
def mapT {α : Type} [Zero α] (f : α → α) (cache t : Ten α) : Res (Ten α) := do
  let d ← loop t.data.length (fun i o => do
    let x ← rd t.data i
    wr o i (f x)) (resizeV cache t.shape).data
  pure ⟨t.shape, d⟩

/-- The backward action on tensors (e.g. include/operation.hpp lines 3882-3885): resize the cache to the input's shape, then one pass
over input, output and gradient. -/
def zipT {α : Type} [Zero α] (f : α → α → α → α) (cache input output grad : Ten α) : Res (Ten α) := do
  let d ← loop input.data.length (fun i o => do
    let x ← rd input.data i
    let y ← rd output.data i
    let g ← rd grad.data i
    wr o i (f x y g)) (resizeV cache input.shape).data
  pure ⟨input.shape, d⟩

end Verif.Ops
