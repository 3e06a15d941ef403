import Verif.Branch.Model
/-!
# Networks that branch (specification)
-/
namespace Verif.Branch
open Verif View Data Ops Loss Net Pool

noncomputable section

/-- Elements of two tensors joined along axis `ax`, where the first has extent `n`. -/
def joined (ax n : Nat) (a b : List Nat → ℝ) : List Nat → ℝ := fun is => if is.getD ax 0 < n then a is else b (is.set ax (is.getD ax 0 - n))

/-- The operands of a statement. -/
def Node.operands : Node → List Nat
  | .layer _ x => [x]
  | .add x y => [x, y]
  | .sub x y => [x, y]
  | .mul x y => [x, y]
  | .concat _ x y => [x, y]

/-- Shape and elements of the result of a statement. -/
def Node.val (D : Nat → Ten ℝ) (V : Nat → List Nat × (List Nat → ℝ)) : Node → List Nat × (List Nat → ℝ)
  | .layer k x => (outShape (V x).1 k, Net.val D (V x).1 (V x).2 k)
  | .add x y => ((V x).1, fun is => (V x).2 is + (V y).2 is)
  | .sub x y => ((V x).1, fun is => (V x).2 is - (V y).2 is)
  | .mul x y => ((V x).1, fun is => (V x).2 is * (V y).2 is)
  | .concat axe x y =>
    let ax := if axe = minusOne then (V x).1.length - 1 else axe
    ((V x).1.set ax ((V x).1.getD ax 0 + (V y).1.getD ax 0), joined ax ((V x).1.getD ax 0) (V x).2 (V y).2)

/-- The values of a program. -/
def vals (D : Nat → Ten ℝ) (s : List Nat) (a : List Nat → ℝ) (ns : List Node) : List (List Nat × (List Nat → ℝ)) :=
  ns.foldl (fun V n => V ++ [n.val D (fun x => V.getD x (s, a))]) [(s, a)]

/-- Shape and elements of value number `x`. -/
def valOf (D : Nat → Ten ℝ) (s : List Nat) (a : List Nat → ℝ) (ns : List Node) (x : Nat) : List Nat × (List Nat → ℝ) := (vals D s a ns).getD x (s, a)

/-- Where a statement can be applied to the values before it: they exist; layers as in C105; the operands of `Add`, `Subtract` and `Multiply` have the same
shape, those of `Concatenate` agree off the axis. -/
def Node.Ok (K : Kit) (D : Nat → Ten ℝ) (len : Nat) (V : Nat → List Nat × (List Nat → ℝ)) (n : Node) : Prop :=
  (∀ x ∈ n.operands, x < len) ∧
  match n with
  | .layer k x => Net.Ok K D (V x).1 k
  | .add x y => (V y).1 = (V x).1 ∧ Fits1 K (V x).1
  | .sub x y => (V y).1 = (V x).1 ∧ Fits1 K (V x).1
  | .mul x y => (V y).1 = (V x).1 ∧ Fits1 K (V x).1
  | .concat axe x y => ∃ pre n m post, (V x).1 = pre ++ n :: post ∧ (V y).1 = pre ++ m :: post ∧ size pre ≠ 0 ∧
      (axe = pre.length ∧ axe ≠ minusOne ∨ axe = minusOne ∧ post = [])

/-- Where a statement can be differentiated: `Concatenate` cannot (C76). -/
def Node.Dom (V : Nat → List Nat × (List Nat → ℝ)) : Node → Prop
  | .layer k x => Net.Dom (V x).1 (V x).2 k
  | .concat _ _ _ => False
  | _ => True

/-- Every statement can be applied. -/
def AllOk (K : Kit) (D : Nat → Ten ℝ) (s : List Nat) (a : List Nat → ℝ) (ns : List Node) : Prop :=
  ∀ pre n, pre ++ [n] <+: ns → n.Ok K D (pre.length + 1) (valOf D s a pre)

/-- Every statement can be differentiated. -/
def AllDom (D : Nat → Ten ℝ) (s : List Nat) (a : List Nat → ℝ) (ns : List Node) : Prop := ∀ pre n, pre ++ [n] <+: ns → n.Dom (valOf D s a pre)

/-- Every value but the input is used at most once. -/
def Once (ns : List Node) : Prop := ((ns.flatMap Node.operands).filter (· ≠ 0)).Nodup

/-- The variables of a statement. -/
def Node.params : Node → List (Nat × Graph.Cfg ℝ)
  | .layer k _ => Net.params k
  | _ => []

end
end Verif.Branch
