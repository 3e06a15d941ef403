import Verif.Basic.Res
import Mathlib.Algebra.Field.Defs
/-!
# Decimal literals (model)

`string2float32` and `float32` (include/utils/float32.hpp lines 11-83 and 104-118).

A pointer into a string is the list of the characters from there to the end of the memory; reading at the end is undefined.  Simplified: `float` is a field (no
rounding, no infinities).  `int` has 32 bits, overflow is undefined.
-/
namespace Verif.Decimal
open Verif Res

/-- `'\0'`. -/
def nul : Char := Char.ofNat 0

/-- `isdigit` (include/utils/float32.hpp line 13). -/
def isDigit (c : Char) : Prop := '0' ≤ c ∧ c ≤ '9'

instance (c : Char) : Decidable (isDigit c) := by unfold isDigit; infer_instance

/-- `c - '0'`. -/
def digitVal (c : Char) : Nat := c.toNat - '0'.toNat

/-- `*s`. -/
def peek : List Char → Res Char
  | [] => ub
  | c :: _ => ok c

/-- `*s++`. -/
def next : List Char → Res (Char × List Char)
  | [] => ub
  | c :: s => ok (c, s)

/-- An `int` (32 bits). -/
def int (i : ℤ) : Res ℤ := do
  require (-2 ^ 31 ≤ i ∧ i < 2 ^ 31)
  pure i

/-- `while (*s && isspace(*s)) ++s;` (lines 14, 21-22). -/
def skipSpaces : List Char → Res (List Char)
  | [] => ub
  | c :: s => if c ≠ nul ∧ c = ' ' then skipSpaces s else ok (c :: s)

variable {α : Type} [Field α]

/-- The digits before the point (lines 33-36). -/
def whole (a : α) : List Char → Res (α × Char × List Char)
  | [] => ub
  | c :: s => if c ≠ nul ∧ isDigit c then whole (a * 10 + (digitVal c : α)) s else ok (a, c, s)

/-- The digits after the point (lines 40-44). -/
def fraction (a : α) (e : ℤ) : List Char → Res (α × ℤ × Char × List Char)
  | [] => ub
  | c :: s =>
    if c ≠ nul ∧ isDigit c then do
      let e ← int (e - 1)
      fraction (a * 10 + (digitVal c : α)) e s
    else ok (a, e, c, s)

/-- The digits of the exponent (lines 61-65); the list starts with the character `c` read last. -/
def expDigits (i : ℤ) : List Char → Res ℤ
  | [] => ub
  | c :: s =>
    if isDigit c then do
      let i ← int (i * 10 + (digitVal c : ℤ))
      expDigits i s
    else ok i

/-- The exponent (lines 47-68); `c` is the character read last, `s` the pointer behind it. -/
def exponent (e : ℤ) (c : Char) (s : List Char) : Res ℤ :=
  if c = 'e' ∨ c = 'E' then do
    let c ← peek s
    let sign : ℤ := if c = '-' then -1 else 1
    let i ← expDigits 0 (if c = '+' ∨ c = '-' then s.tail else s)
    int (e + i * sign)
  else ok e

/-- `string2float32` (lines 11-83); the loops of lines 70-80 run `e` or `-e` times. -/
def string2float (s : List Char) : Res α := do
  let s ← skipSpaces s
  let c ← peek s
  let s := if c = '+' then s.tail else s
  let c ← peek s
  let positive : Bool := !(c == '-')
  let s := if c = '-' then s.tail else s
  let (a, c, s) ← whole (0 : α) s
  let (a, e, c, s) ← if c = '.' then fraction a 0 s else pure (a, 0, c, s)
  let e ← exponent e c s
  let a ← loop e.toNat (fun _ a => ok (a * 10)) a
  let a ← loop (-e).toNat (fun _ a => ok (a * (1 / 10))) a
  pure (if positive then a else -a)

/-- `float32<N>` made from a pointer and converted to `float` (lines 104-118): `N` characters are copied to the front of `buf_`, which has `N + 1` characters, zero at first. -/
def float32 (N : Nat) (s : List Char) : Res α := do
  require (N ≤ s.length)
  string2float (s.take N ++ [nul])

end Verif.Decimal
