import Verif.Alloc.Model
/-!
# What users of the allocator and the system promise (specification)
-/
namespace Verif.Alloc
open Verif Res

/-- The byte ranges of two blocks do not meet. -/
def Disjoint (a b : Block) : Prop := a.2 + a.1 ≤ b.2 ∨ b.2 + b.1 ≤ a.2

/-- `x` is a byte of block `b`. -/
def Inside (b : Block) (x : Nat) : Prop := b.2 ≤ x ∧ x < b.2 + b.1

/-- The system's answer is a block that does not overlap any block it handed out and has not got back. -/
def FreshAnswer (s : St) (size : Nat) (sys : Option Nat) : Prop :=
  ∀ a, sys = some a → ∀ b ∈ s.live, Disjoint (size, a) b

/-- Correct use: non-empty requests (vector.hpp asks for non-empty blocks only), a non-failing system, only blocks
one holds are given back, writes only inside blocks one holds. -/
def Legal (s : St) : Op → Prop
  | .allocate size _ sys1 _ => 0 < size ∧ sys1 ≠ none ∧ FreshAnswer s size sys1
  | .deallocate b => b ∈ s.owned
  | .write x _ => ∃ b ∈ s.owned, Inside b x

/-- States reached by correct use while memory never runs out. -/
inductive Reach : St → Prop
  | init : Reach St.init
  | step {s s' : St} {o : Op} : Reach s → Legal s o → step s o = ok s' → Reach s'

/-- Like `Legal`, but the first request may fail, provided the reserve is empty then. -/
def LegalF (s : St) : Op → Prop
  | .allocate size _ sys1 _ => 0 < size ∧ (sys1 = none → s.reserved = []) ∧ FreshAnswer s size sys1
  | o => Legal s o

/-- States reached when failures happen only with an empty reserve. -/
inductive ReachF : St → Prop
  | init : ReachF St.init
  | step {s s' : St} {o : Op} : ReachF s → LegalF s o → step s o = ok s' → ReachF s'

/-- Correct use of a whole history that does not give back `b`. -/
def LegalAll (b : Block) (s : St) : List Op → Prop
  | [] => True
  | o :: os => Legal s o ∧ o ≠ .deallocate b ∧ ∀ s', step s o = ok s' → LegalAll b s' os

/-- What was written to `x` last, or what was there before. -/
def lastWritten (x : Nat) : List Op → Nat → Nat
  | [], v => v
  | .write y w :: os, v => lastWritten x os (if x = y then w else v)
  | _ :: os, v => lastWritten x os v

end Verif.Alloc
