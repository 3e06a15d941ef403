import Verif.Step.Model
/-!
# Step functions (specification)

What each rounding operator has to return, by bounds that determine the integer; where it jumps; and the gradient of an element-wise
operator from the mathematical derivative.
-/
namespace Verif.Step
open Verif

/-- Nearest: no integer is closer. -/
def Nearest (x : ℝ) (n : ℤ) : Prop := ∀ m : ℤ, |x - n| ≤ |x - m|

/-- Two integers are equally close. -/
def Tie (x : ℝ) : Prop := ∃ m : ℤ, x = m + 1 / 2

/-- `n` is what the operator has to return for `x`. -/
def SOp.Gives : SOp → ℝ → ℤ → Prop
  | .ceil, x, n => x ≤ n ∧ ∀ m : ℤ, x ≤ m → n ≤ m
  | .floor, x, n => (n : ℝ) ≤ x ∧ ∀ m : ℤ, (m : ℝ) ≤ x → m ≤ n
  | .trunc, x, n => |(n : ℝ)| ≤ |x| ∧ 0 ≤ x * n ∧ ∀ m : ℤ, |(m : ℝ)| ≤ |x| → |m| ≤ |n|
  | .round, x, n | .lround, x, n | .llround, x, n => Nearest x n ∧ (Tie x → |x| < |(n : ℝ)|)
  | .rint, x, n | .nearbyint, x, n | .lrint, x, n | .llrint, x, n => Nearest x n ∧ (Tie x → Even n)

/-- The operators whose result passes through a 64-bit integer. -/
def SOp.Long : SOp → Prop
  | .lrint | .llrint | .lround | .llround => True
  | _ => False

/-- The arguments whose rounded value fits a 64-bit integer, with a margin. -/
def InLong (x : ℝ) : Prop := |x| < 2 ^ 63 - 1

/-- Where the operator's function is discontinuous. -/
def SOp.Jump : SOp → ℝ → Prop
  | .ceil, x | .floor, x => ∃ n : ℤ, x = n
  | .trunc, x => ∃ n : ℤ, n ≠ 0 ∧ x = n
  | _, x => Tie x

end Verif.Step
