import Verif.Graph.Model
/-!
# Expressions: specification

What an expression denotes, without sessions, caches and objects, and what reverse-mode differentiation of the written-out
expression sends to each occurrence of a variable.
-/
namespace Verif.Graph
open Verif Res

variable {α : Type}

/-- The value of an expression for given place holders and variables. -/
def eval (leaf data : Nat → Ten α) : Ex α → Res (Ten α)
  | .leaf k => do
    Res.assert ((leaf k).data ≠ [])
    pure (leaf k)
  | .var v _ => ok (data v)
  | .un _ op e => do
    let x ← eval leaf data e
    op.fwd x
  | .bin _ op l r => do
    let x ← eval leaf data l
    let y ← eval leaf data r
    op.fwd x y

/-- The identity of an operator. -/
def Ex.id? : Ex α → Option Nat
  | .leaf _ => none
  | .var _ _ => none
  | .un i _ _ => some i
  | .bin i _ _ _ => some i

/-- All occurrences of sub-expressions, each with the object it lives in. -/
def occs : Ex α → Slot → List (Slot × Ex α)
  | .leaf k, s => [(s, .leaf k)]
  | .var v c, s => [(s, .var v c)]
  | .un i op e, s => (s, .un i op e) :: occs e (some (i, false))
  | .bin i op l r, s => (s, .bin i op l r) :: (occs l (some (i, false)) ++ occs r (some (i, true)))

/-- Identities are unique: operators with the same identity are the same operator on the same operands. -/
def Consistent (e : Ex α) : Prop :=
  ∀ p ∈ occs e none, ∀ q ∈ occs e none, ∀ i, p.2.id? = some i → q.2.id? = some i → p.2 = q.2

/-- The backward action does not look at the operands (only at the result and the gradient). -/
def Ex.IgnoresInput : Ex α → Prop
  | .leaf _ => True
  | .var _ _ => True
  | .un _ op _ => ∀ x x' y g, op.bwd x y g = op.bwd x' y g
  | .bin _ op _ _ => ∀ x x' y y' z g, op.bwd x y z g = op.bwd x' y' z g

/-- No operator whose backward action looks at its operands lives in two objects. -/
def Unshared (e : Ex α) : Prop :=
  ∀ p ∈ occs e none, ∀ q ∈ occs e none, ∀ i, p.2.id? = some i → q.2.id? = some i → p.1 = q.1 ∨ p.2.IgnoresInput

/-- One gradient arriving at an occurrence of a variable. -/
structure Arrival (α : Type) where
  v : Nat
  cfg : Cfg α
  slot : Slot
  inc : Ten α

/-- Reverse-mode differentiation of the written-out expression: the gradients arriving at the occurrences of variables, in the order
in which they arrive. -/
def arrivals (leaf data : Nat → Ten α) : Ex α → Slot → Ten α → Res (List (Arrival α))
  | .leaf _, _, _ => ok []
  | .var v c, s, g => ok [⟨v, c, s, g⟩]
  | .un i op e, _, g => do
    let x ← eval leaf data e
    let y ← op.fwd x
    let d ← op.bwd x y g
    arrivals leaf data e (some (i, false)) d
  | .bin i op l r, _, g => do
    let x ← eval leaf data l
    let y ← eval leaf data r
    let z ← op.fwd x y
    let d ← op.bwd x y z g
    let a ← arrivals leaf data l (some (i, false)) d.1
    let b ← arrivals leaf data r (some (i, true)) d.2
    pure (a ++ b)

/-- The variables of an expression. -/
def vars : Ex α → List Nat
  | .leaf _ => []
  | .var v _ => [v]
  | .un _ _ e => vars e
  | .bin _ _ l r => vars l ++ vars r

/-- The occurrences of variables, each with the object it lives in. -/
def varOccs : Ex α → Slot → List (Slot × Nat)
  | .leaf _, _ => []
  | .var v _, s => [(s, v)]
  | .un i _ e, _ => varOccs e (some (i, false))
  | .bin i _ l r, _ => varOccs l (some (i, false)) ++ varOccs r (some (i, true))

end Verif.Graph
