import Mathlib.Algebra.Field.Defs
import Mathlib.Algebra.Order.Field.Basic
/-!
# Decimal literals (specification)

The grammar of decimal literals and the number each of them stands for; nothing here refers to the model.
-/
namespace Verif.Decimal

/-- The character of a digit. -/
def dchar (d : Fin 10) : Char := Char.ofNat (48 + d.val)

/-- The number a string of digits stands for. -/
def natOf : List (Fin 10) → Nat
  | [] => 0
  | d :: ds => d.val * 10 ^ ds.length + natOf ds

/-- The sign of an exponent. -/
inductive Sgn where
  | none
  | plus
  | minus
  deriving DecidableEq

def Sgn.text : Sgn → List Char
  | .none => []
  | .plus => ['+']
  | .minus => ['-']

def Sgn.val : Sgn → ℤ
  | .minus => -1
  | _ => 1

/-- An exponent: `e` or `E`, a sign, digits. -/
structure Expo where
  upper : Bool
  sgn : Sgn
  ds : List (Fin 10)

def Expo.text (x : Expo) : List Char :=
  (if x.upper then 'E' else 'e') :: (x.sgn.text ++ x.ds.map dchar)

def Expo.val (x : Expo) : ℤ := x.sgn.val * (natOf x.ds : ℤ)

/-- A literal: spaces, signs, digits, possibly a point with digits, possibly an exponent. -/
structure Lit where
  spaces : Nat
  plus : Bool
  minus : Bool
  ip : List (Fin 10)
  fp : Option (List (Fin 10))
  ex : Option Expo

namespace Lit

/-- The digits behind the point. -/
def frac (l : Lit) : List (Fin 10) := l.fp.getD []

def fpText : Option (List (Fin 10)) → List Char
  | none => []
  | some ds => '.' :: ds.map dchar

def exText : Option Expo → List Char
  | none => []
  | some x => x.text

def text (l : Lit) : List Char :=
  List.replicate l.spaces ' ' ++ ((if l.plus then ['+'] else []) ++ ((if l.minus then ['-'] else []) ++ (l.ip.map dchar ++ (fpText l.fp ++ exText l.ex))))

def exVal (l : Lit) : ℤ := (l.ex.map Expo.val).getD 0

/-- The power of ten the digits are to be multiplied with. -/
def scale (l : Lit) : ℤ := l.exVal - (l.frac.length : ℤ)

/-- The number a literal stands for. -/
def value {α : Type} [Field α] (l : Lit) : α :=
  (if l.minus then -1 else 1) * ((natOf (l.ip ++ l.frac) : ℕ) : α) * (10 : α) ^ l.scale

/-- The digits of the exponent stand for a number. -/
def exNat (l : Lit) : Nat := (l.ex.map fun x => natOf x.ds).getD 0

/-- The numbers counted while reading the literal fit into an `int` of 32 bits. -/
def Fits (l : Lit) : Prop :=
  l.frac.length ≤ 2 ^ 31 ∧ l.exNat < 2 ^ 31 ∧ -2 ^ 31 ≤ l.scale ∧ l.scale < 2 ^ 31

instance (l : Lit) : Decidable l.Fits := by unfold Fits; infer_instance

/-- The character `c` does not continue the literal. -/
def Stops (l : Lit) (c : Char) : Prop :=
  match l.ex with
  | some x => (∀ d, c ≠ dchar d) ∧ (x.sgn = .none → x.ds = [] → c ≠ '+' ∧ c ≠ '-')
  | none => (∀ d, c ≠ dchar d) ∧ c ≠ 'e' ∧ c ≠ 'E' ∧
    (l.fp = none → c ≠ '.' ∧
      (l.ip = [] → l.minus = false → c ≠ '-' ∧ (l.plus = false → c ≠ '+' ∧ c ≠ ' ')))

end Lit
end Verif.Decimal
