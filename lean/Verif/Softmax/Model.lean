import Verif.Data.Model
import Mathlib.Analysis.SpecialFunctions.Log.Basic
/-!
# softmax and the cross entropy loss (model)

`softmax` of `include/tensor.tcc` lines 1071-1087, the operator `softmax` of `include/activation.hpp` lines 90-117 and `cross_entropy_loss` of
`include/loss.hpp` lines 59-133.  Numbers are reals; `eps` (`include/config.hpp` line 57, 1e-8) is a parameter.
-/
namespace Verif.Softmax
open Verif Res Data

noncomputable section

/-- `*std::max_element( begin, end )` of the row of `n` elements from `b` (include/tensor.tcc line 1081, include/activation.hpp line 101); of an empty row
undefined. -/
def maxElement {α : Type} [LT α] [DecidableLT α] (d : List α) (b n : Nat) : Res α := do
  let m ← rd d b
  loop (n - 1) (fun k m => do
    let v ← rd d (b + (k + 1))
    pure (if m < v then v else m)) m

/-- `for_each` over a row, changing each element (include/tensor.tcc lines 1082, 1084, include/activation.hpp lines 102, 104). -/
def eachRow {α : Type} (φ : α → α) (b n : Nat) (d : List α) : Res (List α) :=
  loop n (fun j d => do
    let v ← rd d (b + j)
    wr d (b + j) (φ v)) d

/-- `std::accumulate` over a row (include/tensor.tcc line 1083, include/activation.hpp line 103). -/
def accumulateRow {α : Type} [Zero α] [Add α] (φ : α → α) (b n : Nat) (d : List α) : Res α :=
  loop n (fun j s => do
    let v ← rd d (b + j)
    pure (s + φ v)) 0

/-- The tensor function `softmax` (include/tensor.tcc lines 1071-1087), for any numbers. -/
def softmaxOf {α : Type} [LT α] [DecidableLT α] [Zero α] [Add α] [Sub α] [Div α] (exp : α → α) (eps : α) (t : Ten α) : Res (Ten α) := do
  Res.assert (t.data ≠ [])
  let n := t.shape.getLastD 0
  require (n ≠ 0)
  let d ← loop (t.data.length / n) (fun i d => do
    let mx ← maxElement d (i * n) n
    let d ← eachRow (fun v => v - mx) (i * n) n d
    let ac ← accumulateRow exp (i * n) n d
    eachRow (fun v => exp v / (ac + eps)) (i * n) n d) t.data
  pure ⟨t.shape, d⟩

/-- Over the reals. -/
def softmax (eps : ℝ) (t : Ten ℝ) : Res (Ten ℝ) := softmaxOf Real.exp eps t

/-- Forward action of the operator `softmax` (include/activation.hpp lines 92-107). -/
def softmaxForward (t : Ten ℝ) : Res (Ten ℝ) := do
  Res.assert (t.data ≠ [])
  let n := t.shape.getLastD 0
  require (n ≠ 0)
  let d ← loop (t.data.length / n) (fun i d => do
    let mx ← maxElement d (i * n) n
    let d ← eachRow (fun v => Real.exp (v - mx)) (i * n) n d
    let sum ← accumulateRow (fun v => v) (i * n) n d
    eachRow (fun v => v / sum) (i * n) n d) t.data
  pure ⟨t.shape, d⟩

/-- Backward action of the operator `softmax` (include/activation.hpp lines 108-114). -/
def softmaxBackward (output grad : Ten ℝ) : Res (Ten ℝ) := do
  let d ← loop grad.data.length (fun i d => do
    let a ← rd d i
    let o ← rd output.data i
    wr d i (a * (o * (1 - o)))) grad.data
  pure ⟨grad.shape, d⟩

/-- The weight of a label (include/loss.hpp lines 72-73, 77, 96-97, 106): `1 - f` for labels above eps, `f / (n-1)` for the others. -/
def weightOf {α : Type} [LT α] [DecidableLT α] [One α] [Sub α] [Div α] [NatCast α] (eps f : α) (n : Nat) (g : α) : α :=
  if eps < g then 1 - f else f / ((n - 1 : Nat) : α)

/-- Over the reals. -/
def weight (eps f : ℝ) (n : Nat) (g : ℝ) : ℝ := weightOf eps f n g

/-- `std::max( a, b )`. -/
def stdMax {α : Type} [LT α] [DecidableLT α] (a b : α) : α := if a < b then b else a

/-- Forward action of `cross_entropy_loss` (include/loss.hpp lines 66-83), for any numbers.  A last dimension of 1 divides by zero and is
left out. -/
def crossForwardOf {α : Type} [LT α] [DecidableLT α] [Zero α] [One α] [Add α] [Sub α] [Mul α] [Div α] [NatCast α] (exp log : α → α) (eps f : α)
    (truth pred : Ten α) : Res (Ten α) := do
  let sm ← softmaxOf exp eps pred
  require (truth.shape ≠ [])
  let n := truth.shape.getLastD 0
  require (n ≠ 1)
  let ans ← loop truth.data.length (fun i ans => do
    let g ← rd truth.data i
    let s ← rd sm.data i
    pure (ans - weightOf eps f n g * log (stdMax eps s))) 0
  pure ⟨[1], [ans / ((truth.shape.headD 0 : Nat) : α)]⟩

/-- Over the reals. -/
def crossForward (eps f : ℝ) (truth pred : Ten ℝ) : Res (Ten ℝ) := crossForwardOf Real.exp Real.log eps f truth pred

/-- Backward action of `cross_entropy_loss` (include/loss.hpp lines 89-112): the gradients for the labels and for the prediction. -/
def crossBackward (eps f : ℝ) (truth pred grad : Ten ℝ) : Res (Ten ℝ × Ten ℝ) := do
  let factor ← rd grad.data 0
  require (truth.shape ≠ [])
  let n := truth.shape.getLastD 0
  require (n ≠ 1)
  let sm ← softmax eps pred
  let d ← loop truth.data.length (fun i d => do
    let g ← rd truth.data i
    let s ← rd d i
    wr d i (factor * (s - weight eps f n g))) sm.data
  pure (⟨truth.shape, truth.data.map (fun x => x * factor)⟩, ⟨sm.shape, d⟩)

end
end Verif.Softmax
