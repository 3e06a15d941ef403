import Verif.Fmt.Model
import Mathlib.Data.List.Infix
/-!
# `fmt::format`: what it should do
-/
namespace Verif.Fmt

/-- The text does not contain `{}`. -/
def Quiet (s : Str) : Prop := ¬ ['{', '}'] <:+: s

/-- A text with holes, given by the pieces between them, and the arguments put into the holes from left to right; holes that are left over stay, arguments that are left
over are ignored. -/
def fill : List Str → List Str → Str
  | [], _ => []
  | [p], _ => p
  | p :: q :: ps, [] => p ++ ['{', '}'] ++ fill (q :: ps) []
  | p :: q :: ps, a :: as => p ++ a ++ fill (q :: ps) as

/-- The part of the result up to the first hole that is left over. -/
def filled : List Str → List Str → Str
  | [], _ => []
  | [p], _ => p
  | p :: _ :: _, [] => p
  | p :: q :: ps, a :: as => p ++ a ++ filled (q :: ps) as

/-- A piece of a text whose holes have numbers. -/
inductive Piece where
  | lit (s : Str)
  | hole (i : Nat)

/-- The pieces, with the `i`-th argument in place of each hole `i`; a hole without argument stays. -/
def fillAt (ps : List Piece) (as : List Str) : Str :=
  ps.flatMap fun
    | .lit s => s
    | .hole i => match as[i]? with
      | some a => a
      | none => '{' :: (Nat.toDigits 10 i ++ ['}'])

end Verif.Fmt
