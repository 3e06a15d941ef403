import Verif.Basic.Grid
/-!
# Convolution (specification)

Independent of the code: what a padded, strided, dilated convolution is.
-/
namespace Verif.Conv
open Verif

variable {α : Type}

/-- Geometry of a convolution: kernel, padding, stride, dilation in both directions. -/
structure Geo where
  kr : Nat
  kc : Nat
  pr : Nat
  pc : Nat
  sr : Nat
  sc : Nat
  dr : Nat
  dc : Nat
  deriving DecidableEq, Repr

/-- Number of positions at which a dilated kernel fits a padded line: the usual formula. -/
def outDim (len k p s d : Nat) : Nat := (len + 2 * p - (d * (k - 1) + 1)) / s + 1

/-- The geometry is meaningful for an image of `R` rows and `C` columns: non-empty kernel, positive strides, and the dilated
kernel fits into the padded image. -/
def Geo.Fits (g : Geo) (R C : Nat) : Prop :=
  1 ≤ g.kr ∧ 1 ≤ g.kc ∧ 1 ≤ g.sr ∧ 1 ≤ g.sc ∧ g.dr * (g.kr - 1) + 1 ≤ R + 2 * g.pr ∧ g.dc * (g.kc - 1) + 1 ≤ C + 2 * g.pc

/-- Pixel `(y, x)` of channel `ch` of image `b`, zero outside the image. -/
def pixel [Zero α] (a : List Nat → α) (R C b : Nat) (y x : Int) (ch : Nat) : α :=
  if 0 ≤ y ∧ y < R ∧ 0 ≤ x ∧ x < C then a [b, y.toNat, x.toNat, ch] else 0

/-- The image row under kernel row `t` when the output row is `i`. -/
def tapRow (g : Geo) (i t : Nat) : Int := (i * g.sr : Int) - g.pr + t * g.dr

/-- The image column under kernel column `t` when the output column is `j`. -/
def tapCol (g : Geo) (j t : Nat) : Int := (j * g.sc : Int) - g.pc + t * g.dc

/-- The direct convolution: output `(b, i, j, n)` is the sum over channels and kernel taps of the padded image times the
filter `w n tr tc ch`. -/
def direct [CommSemiring α] (g : Geo) (R C CH : Nat) (a : List Nat → α) (w : Nat → Nat → Nat → Nat → α) (b i j n : Nat) : α :=
  ∑ ch ∈ Finset.range CH, ∑ tr ∈ Finset.range g.kr, ∑ tc ∈ Finset.range g.kc,
    w n tr tc ch * pixel a R C b (tapRow g i tr) (tapCol g j tc) ch

end Verif.Conv
