import Verif.ShapeVec.Model
/-!
# The vector that keeps a tensor's shape (specification)

A program on shapes, meant: every name is bound to a list.  And the same with the capacity of the `std::vector` written down, which decides
when a block is given back.
-/
namespace Verif.ShapeVec
open Verif

/-- The lists the names stand for; `none` if the program uses a name before making it, or makes one that exists. -/
def meanStep : Cmd → (Name → Option (List Nat)) → Option (Name → Option (List Nat))
  | .make x l, A => if A x = none then some (put A x (some l)) else none
  | .copy x y, A => if A x = none then (A y).bind (fun l => some (put A x (some l))) else none
  | .assign x y, A => (A x).bind (fun _ => (A y).bind (fun l => some (put A x (some l))))
  | .set x l, A => (A x).bind (fun _ => some (put A x (some l)))
  | .destroy x, A => (A x).bind (fun _ => some (put A x none))

def meaning : List Cmd → (Name → Option (List Nat)) → Option (Name → Option (List Nat))
  | [], A => some A
  | c :: cs, A => (meanStep c A).bind (meaning cs)

/-- Ranks mentioned in a program. -/
def Cmd.RankLe (k : Nat) : Cmd → Prop
  | .make _ l | .set _ l => l.length ≤ k
  | _ => True

/-- A shape with the capacity of its vector. -/
abbrev Cell := List Nat × Nat

/-- The capacity after `resize( n )` of a vector of `size` elements and capacity `c`. -/
def grown (size c n : Nat) : Nat := if n ≤ c then c else size + max size (n - size)

/-- Giving back a block of capacity `c` is fine: it lies in the object. -/
def Small (c : Nat) : Prop := c ≤ 32

instance (c : Nat) : Decidable (Small c) := inferInstanceAs (Decidable (c ≤ 32))

/-- The same with capacities; `none` also when a block of more than 32 elements is given back. -/
def capStep : Cmd → (Name → Option Cell) → Option (Name → Option Cell)
  | .make x l, A => if A x = none then some (put A x (some (l, l.length))) else none
  | .copy x y, A => if A x = none then (A y).bind (fun u => some (put A x (some (u.1, u.1.length)))) else none
  | .assign x y, A => (A x).bind (fun v => (A y).bind (fun u =>
      if u.1.length ≤ v.2 then some (put A x (some (u.1, v.2)))
      else if Small v.2 then some (put A x (some (u.1, u.1.length))) else none))
  | .set x l, A => (A x).bind (fun v =>
      if l.length ≤ v.2 then some (put A x (some (l, v.2)))
      else if Small v.2 then some (put A x (some (l, grown v.1.length v.2 l.length))) else none)
  | .destroy x, A => (A x).bind (fun v => if Small v.2 then some (put A x none) else none)

def capRun : List Cmd → (Name → Option Cell) → Option (Name → Option Cell)
  | [], A => some A
  | c :: cs, A => (capStep c A).bind (capRun cs)

end Verif.ShapeVec
