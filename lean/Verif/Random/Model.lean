import Verif.Basic.Axis
import Mathlib.Analysis.Real.Sqrt
/-!
# Random tensors and the initial weights of layers (model)

`include/tensor.tcc` lines 826-857 (`randn`, `truncated_normal`), 869-906 (`random`, `rand`, `random_like`, `randn_like`, `glorot_uniform`).

`random_generator` and a distribution object are a sequence of numbers and the position of the next one.  As libstdc++ does, `uniform_real_distribution( a, b )` is
`u * ( b - a ) + a` with `u` the next number of `generate_canonical`, `normal_distribution( m, s )` is `z * s + m` with `z` the next standard normal number.
Which numbers come is left open (any sequence).
-/
namespace Verif.Random
open Verif Res

noncomputable section

/-- `std::generate` over a new tensor: `f` of the next numbers; also the position afterwards. -/
def generate (f : ℝ → ℝ) (u : Nat → ℝ) (k : Nat) (shape : List Nat) : Res (Ten ℝ × Nat) := do
  let d ← loop (size shape) (fun i o => wr o i (f (u (k + i)))) (List.replicate (size shape) 0)
  pure (⟨shape, d⟩, k + size shape)

/-- `random( shape, min, max )` (include/tensor.tcc lines 869-876); `rand`, `random_like` call it (lines 878-888).  A distribution with `min > max` is undefined. -/
def random (u : Nat → ℝ) (k : Nat) (shape : List Nat) (min max : ℝ) : Res (Ten ℝ × Nat) := do
  require (min ≤ max)
  generate (fun x => x * (max - min) + min) u k shape

/-- `randn( shape, mean, stddev )` (include/tensor.tcc lines 826-833); `randn_like` calls it (lines 890-894).  `stddev` must be positive. -/
def randn (z : Nat → ℝ) (k : Nat) (shape : List Nat) (mean stddev : ℝ) : Res (Ten ℝ × Nat) := do
  require (0 < stddev)
  generate (fun x => x * stddev + mean) z k shape

/-- The endless loop of `truncated_normal` (include/tensor.tcc lines 842-850): the first acceptable number from position `k` on and the position after it;
`none` if there is none among the next `fuel` ones. -/
def pick (z : Nat → ℝ) (mean stddev lower upper : ℝ) : Nat → Nat → Option (ℝ × Nat)
  | 0, _ => none
  | fuel + 1, k =>
    let x := z k * stddev + mean
    if x ≥ lower ∧ x ≤ upper then some (x, k + 1) else pick z mean stddev lower upper fuel (k + 1)

/-- The elements of `truncated_normal( shape, mean, stddev, lower, upper )` (include/tensor.tcc lines 835-857), as far as `fuel` steps per element go. -/
def truncatedElems (z : Nat → ℝ) (mean stddev lower upper : ℝ) (fuel : Nat) : Nat → Nat → Option (List ℝ × Nat)
  | 0, k => some ([], k)
  | n + 1, k =>
    match pick z mean stddev lower upper fuel k with
    | none => none
    | some (x, k) =>
      match truncatedElems z mean stddev lower upper fuel n k with
      | none => none
      | some (l, k) => some (x :: l, k)

/-- `truncated_normal`. -/
def truncatedNormal (z : Nat → ℝ) (k : Nat) (shape : List Nat) (mean stddev lower upper : ℝ) (fuel : Nat) : Option (Ten ℝ × Nat) :=
  match truncatedElems z mean stddev lower upper fuel (size shape) k with
  | none => none
  | some (l, k) => some (⟨shape, l⟩, k)

/-- `glorot_uniform( shape )` (include/tensor.tcc lines 899-906): the first two extents are read from the list without checking its length. -/
def glorotUniform (u : Nat → ℝ) (k : Nat) (shape : List Nat) : Res (Ten ℝ × Nat) := do
  let prev ← rd shape 0
  let next ← rd shape 1
  let bound := Real.sqrt (6 / max 1 ((prev : ℝ) + next))
  random u k shape (-bound) bound

end
end Verif.Random
