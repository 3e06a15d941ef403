import Verif.Net.Props
import Verif.Concat.Model
/-!
# Networks that branch (model)

`Add`, `Subtract`, `Multiply` and `Concatenate` of `include/layer.hpp`, and programs that give names to intermediate values and use them any number of times, as in

    auto x1 = Dense( 8 )( input );
    auto x2 = Dense( 8 )( input );
    auto x3 = Add()( x1, x2 );

Simplified as in `Verif.Net`: tensors are by value and the shape an expression announces is the shape of its value.
-/
namespace Verif.Branch
open Verif Res View Data Ops Graph Loss Net

noncomputable section

/-- One statement of a program: a layer of earlier values, which are given by number (0 is the input). -/
inductive Node where
  | layer (k : Kind) (x : Nat)
  | add (x y : Nat)
  | sub (x y : Nat)
  | mul (x y : Nat)
  | concat (axe : Nat) (x y : Nat)

/-- The shape of the result of `concatenate` (include/operation.hpp lines 2437-2445). -/
def catShape (axe : Nat) (l r : List Nat) : List Nat :=
  let ax := if axe = minusOne then l.length - 1 else axe
  l.set ax (l.getD ax 0 + r.getD ax 0)

/-- The expression a statement makes from the expressions `E` made before, with their shapes; its operators have the identities from `i` on.
`Add` (include/layer.hpp lines 349-355) is `plus`, `Subtract` (lines 370-376) is `minus`, `Multiply` (lines 390-396) is `hadamard_product`, `Concatenate`
(lines 329-335) is `concatenate( axis )`. -/
def Node.expr (K : Kit) (i : Nat) (E : Nat → List Nat × Ex ℝ) : Node → List Nat × Ex ℝ
  | .layer k x => (outShape (E x).1 k, build K i (E x).1 (E x).2 k)
  | .add x y => ((E x).1, plusE K i (E x).2 (E y).2)
  | .sub x y => ((E x).1, minusE K i (E x).2 (E y).2)
  | .mul x y => ((E x).1, hadE K i (E x).2 (E y).2)
  | .concat axe x y => (catShape axe (E x).1 (E y).1, .bin i (Concat.opConcat axe) (E x).2 (E y).2)

/-- What a program has named: the input, a place holder of shape `s`, then one value for each statement. -/
def exprs (K : Kit) (s : List Nat) (inp : Nat) (ns : List Node) : List (List Nat × Ex ℝ) :=
  ns.foldl (fun E n => E ++ [n.expr K (9 * E.length) (fun x => E.getD x (s, .leaf inp))]) [(s, .leaf inp)]

/-- The expression of value number `x`. -/
def exprOf (K : Kit) (s : List Nat) (inp : Nat) (ns : List Node) (x : Nat) : Ex ℝ := ((exprs K s inp ns).getD x (s, .leaf inp)).2

end
end Verif.Branch
