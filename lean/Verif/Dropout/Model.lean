import Verif.Basic.Inplace
import Mathlib.Data.Real.Basic
/-!
# Dropout (model)

`drop_out` of `include/operation.hpp` lines 1878-1939.  The lambdas of one call `drop_out( factor )` share one mask; the state of the
model is that mask.  `rnd` are the numbers drawn by `random` for the elements, one after the other.  Numbers are reals.
-/
namespace Verif.Dropout
open Verif Res

noncomputable section

/-- The mask drawn in the first run (include/operation.hpp lines 1900-1909); a new tensor holds zeros. -/
def drawMask (factor : ℝ) (rnd : Nat → ℝ) (input : Ten ℝ) : Res (Ten ℝ) := do
  let r : List ℝ := (List.range (size input.shape)).map rnd
  let m ← loop input.data.length (fun i m => do
    let x ← rd r i
    if factor < x then wr m i 1 else pure m) (List.replicate (size input.shape) 0)
  pure ⟨input.shape, m⟩

/-- The mask to use (include/operation.hpp lines 1899-1911). -/
def maskFor (factor : ℝ) (rnd : Nat → ℝ) (input : Ten ℝ) : Option (Ten ℝ) → Res (Ten ℝ)
  | some m => ok m
  | none => drawMask factor rnd input

/-- The constructor's assertions (include/operation.hpp lines 1881-1882). -/
def make (factor : ℝ) : Res (Option (Ten ℝ)) := do
  Res.assert (factor < 1)
  Res.assert (0 < factor)
  pure none

/-- Forward action (include/operation.hpp lines 1892-1918).  `phase` is `learning_phase` (include/config.hpp). -/
def forward (phase : Int) (factor : ℝ) (rnd : Nat → ℝ) (input : Ten ℝ) (mask : Option (Ten ℝ)) : Res (Ten ℝ × Option (Ten ℝ)) :=
  if phase = 0 then ok (input, mask)
  else do
    let m ← maskFor factor rnd input mask
    let d ← loop input.data.length (fun i d => do
      let x ← rd d i
      let y ← rd m.data i
      wr d i (x * (y / (1 - factor)))) input.data
    pure (⟨input.shape, d⟩, some m)

/-- Backward action (include/operation.hpp lines 1919-1932).  `any_cast` of an empty `any` throws in a `noexcept` function: the program stops. -/
def backward (phase : Int) (grad : Ten ℝ) (mask : Option (Ten ℝ)) : Res (Ten ℝ) :=
  if phase = 0 then ok grad
  else match mask with
    | none => abort
    | some m => do
      let d ← loop grad.data.length (fun i d => do
        let x ← rd d i
        let y ← rd m.data i
        wr d i (x * y)) grad.data
      pure ⟨grad.shape, d⟩

end
end Verif.Dropout
