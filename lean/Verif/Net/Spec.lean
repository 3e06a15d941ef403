import Verif.Net.Model
import Verif.Pool.Pad
import Verif.Conv.Trans
/-!
# Layers (specification)

What each layer does to the elements of its operand, independently of the code: shapes, values, and where a derivative exists.
-/
namespace Verif.Net
open Verif View Data Ops

noncomputable section

/-- The same numbers in row-major order, under another shape. -/
def reidx (s s' : List Nat) (a : List Nat → ℝ) : List Nat → ℝ := fun is => a (unflat s (flat s' is))

/-- Means of the windows of side `n`. -/
def windowMean (n : Nat) (a : List Nat → ℝ) : List Nat → ℝ := fun is =>
  (∑ i ∈ Finset.range n, ∑ j ∈ Finset.range n, a [is.getD 0 0, is.getD 1 0 * n + i, is.getD 2 0 * n + j, is.getD 3 0]) / ((n * n : Nat) : ℝ)

/-- Maxima of the windows of side `n`. -/
def windowMax (n : Nat) (a : List Nat → ℝ) : List Nat → ℝ := fun is =>
  ⨆ p : Fin n × Fin n, a [is.getD 0 0, is.getD 1 0 * n + p.1, is.getD 2 0 * n + p.2, is.getD 3 0]

/-- Every pixel repeated `n` times in both directions. -/
def repeated (n : Nat) (a : List Nat → ℝ) : List Nat → ℝ := fun is => a [is.getD 0 0, is.getD 1 0 / n, is.getD 2 0 / n, is.getD 3 0]

/-- Row `r`, column `j` of `x W + b`. -/
def affine (k : Nat) (W b : List Nat → ℝ) (a : List Nat → ℝ) : List Nat → ℝ := fun is =>
  ∑ p ∈ Finset.range k, a [is.getD 0 0, p] * W [p, is.getD 1 0] + b [0, is.getD 1 0]

/-- The convolution plus a bias for each output channel. -/
def convBias (g : Conv.Geo) (R C CH : Nat) (w : Nat → Nat → Nat → Nat → ℝ) (b : List Nat → ℝ) (a : List Nat → ℝ) : List Nat → ℝ := fun is =>
  Conv.direct g R C CH a w (is.getD 0 0) (is.getD 1 0) (is.getD 2 0) (is.getD 3 0) + b [0, 0, is.getD 3 0]

/-- How the code reads a filter: the storage of `[NC, kr, kc, CH]` as if its shape were `[NC, CH, kr, kc]` (see C78). -/
def asStored (NC kr kc CH : Nat) (w : List Nat → ℝ) (n tr tc ch : Nat) : ℝ := reidx [NC, kr, kc, CH] [NC, CH, kr, kc] w [n, ch, tr, tc]

/-- The filter with both directions reversed. -/
def reversed (kr kc : Nat) (w : List Nat → ℝ) : List Nat → ℝ := fun is => w [is.getD 0 0, kr - 1 - is.getD 1 0, kc - 1 - is.getD 2 0, is.getD 3 0]

/-- One-dimensional convolution plus a bias for each output channel. -/
def conv1Bias (k s d CH : Nat) (w : Nat → Nat → Nat → ℝ) (b : List Nat → ℝ) (a : List Nat → ℝ) : List Nat → ℝ := fun is =>
  ∑ ch ∈ Finset.range CH, ∑ t ∈ Finset.range k, w (is.getD 2 0) t ch * a [is.getD 0 0, is.getD 1 0 * s + t * d, ch] + b [0, 0, is.getD 2 0]

end
end Verif.Net
