import Verif.Alloc.Spec
import Verif.Vector.Model
/-!
# Vectors as values (specification)

Every vector is a list of elements; an operation that needs an object that does not exist has no result.
-/
namespace Verif.Vector
open Verif

variable {w : Nat}

/-- Contents of all vectors. -/
abbrev Vals (w : Nat) := Nat → Option (List (Elem w))

/-- What an operation means. -/
def meaning (σ : Vals w) : Op w → Option (Vals w)
  | .make x n e => if σ x = none then some (put σ x (some (List.replicate n e))) else none
  | .makeList x l => if σ x = none then some (put σ x (some l)) else none
  | .copyMake x y => if σ x = none then (σ y).map fun l => put σ x (some l) else none
  | .moveMake x y => if σ x = none then (σ y).map fun l => put (put σ y (some [])) x (some l) else none
  | .assign x y => (σ x).bind fun _ => (σ y).map fun l => put σ x (some l)
  | .moveAssign x y => (σ x).bind fun _ => (σ y).map fun l => put (put σ y (some [])) x (some l)
  | .resize x n => (σ x).map fun l =>
      put σ x (some (if n = l.length then l else List.replicate n (fun _ => 0)))
  | .clear x => (σ x).map fun _ => put σ x (some [])
  | .set x i e => (σ x).bind fun l => if i < l.length then some (put σ x (some (l.set i e))) else none
  | .destroy x => (σ x).map fun _ => put σ x none

/-- What a program means. -/
def meanings (σ : Vals w) : List (Op w) → Option (Vals w)
  | [] => some σ
  | o :: os => (meaning σ o).bind fun σ => meanings σ os

/-- The system answers with blocks that overlap no block it handed out. -/
def Env.Fresh (E : Env) : Prop :=
  ∀ (a : Alloc.St) (n : Nat), Alloc.FreshAnswer a n (some (E.sys a n))

/-- The vectors hold the contents. -/
def Holds (w : Nat) (s : St) (σ : Vals w) : Prop :=
  ∀ x, match s.vec x, σ x with
  | none, none => True
  | some v, some l => v.size = l.length ∧
      ∀ i (h : i < l.length) (k : Fin w), s.a.mem (v.data + i * w + k.val) = l[i] k
  | _, _ => False

/-- An operation that moves a vector to itself. -/
def SelfMove : Op w → Prop
  | .moveAssign x y => x = y
  | _ => False

/-- An operation that moves into a vector that is not empty. -/
def MoveOver (σ : Vals w) : Op w → Prop
  | .moveAssign x _ => σ x ≠ some []
  | _ => False

/-- No operation of the program moves into a vector that is not empty. -/
def NoMoveOver (σ : Vals w) : List (Op w) → Prop
  | [] => True
  | o :: os => ¬ MoveOver σ o ∧ ∀ σ', meaning σ o = some σ' → NoMoveOver σ' os

end Verif.Vector
