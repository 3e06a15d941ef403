import Verif.Finite.Interval
import Verif.Softmax.Model
import Verif.Act.Model
/-!
# Activations on floating point numbers (model)

The element-wise forward functions are those of `Verif/Nan` (`Op.fwd`); here are the others, and the functions of the backward passes that
divide.  `sigmoid`, `softplus` and `gelu` are written with literals of type `double`: for `float` the sums and quotients around `std::exp` are
computed in `double` and rounded once more; here everything is computed in the format of the elements.
-/
namespace Verif.Finite
open Verif Res Data Fp Nan

/-- Forward action of the operator `softmax` (include/activation.hpp lines 92-107), for any numbers. -/
def softmaxForwardOf {α : Type} [LT α] [DecidableLT α] [Zero α] [Add α] [Sub α] [Div α] (exp : α → α) (t : Ten α) : Res (Ten α) := do
  Res.assert (t.data ≠ [])
  let n := t.shape.getLastD 0
  require (n ≠ 0)
  let d ← loop (t.data.length / n) (fun i d => do
    let mx ← Softmax.maxElement d (i * n) n
    let d ← Softmax.eachRow (fun v => exp (v - mx)) (i * n) n d
    let sum ← Softmax.accumulateRow (fun v => v) (i * n) n d
    Softmax.eachRow (fun v => v / sum) (i * n) n d) t.data
  pure ⟨t.shape, d⟩

/-- Over the reals it is the function of `Verif/Softmax`. -/
theorem softmaxForwardOf_real (t : Ten ℝ) : softmaxForwardOf Real.exp t = Softmax.softmaxForward t := rfl

variable {F : Type} [Floats F]

/-- Forward functions of `gaussian` (include/activation.hpp lines 69-72: `exp( negative( square ) )`), `swish` (lines 619-623:
`hadamard_product( ex, sigmoid( ex ) )`) and `gelu` (lines 572-576). -/
def gaussianF (exp : F → F) (x : F) : F := exp (0 - x * x)
@[inherit_doc gaussianF] def swishF (exp : F → F) (x : F) : F := x * (1 / (1 + exp (0 - x)))
@[inherit_doc gaussianF] def geluF (tanh : F → F) (x : F) : F := lit 0.5 * x * (1 + tanh (lit 0.79788456080286535588 * x * (1 + lit 0.044715 * x * x)))

/-- Backward functions: `softplus` (include/activation.hpp line 194), `softsign` (line 231), `sigmoid` (line 269), `softmax` (line 112). -/
def softplusB (exp : F → F) (x g : F) : F := g / (1 - exp (0 - x))
@[inherit_doc softplusB] def softsignB (abs : F → F) (x g : F) : F := g / ((1 + abs x) * (1 + abs x))
@[inherit_doc softplusB] def sigmoidB (o g : F) : F := g * o * (1 - o)
@[inherit_doc softplusB] def softmaxB (o a : F) : F := a * (o * (1 - o))

end Verif.Finite
