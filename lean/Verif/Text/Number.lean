import Mathlib.Data.Int.Log
import Mathlib.Data.Rat.Floor
import Verif.Text.Model
/-!
# Numbers as text (model)

What `operator <<` and `operator >>` of the C++ standard library do with a floating point number, called from `write_tensor` and
`read_tensor` (include/tensor.tcc lines 1214-1267).  A finite number is the rational it stands for.  Printing uses the default notation
(`%.pg`) with `p` significant digits: 6 for a new stream (`session::save_original`), 8, 15 and 25 in `save_tensor` (include/tensor.tcc
lines 1292-1304).  Reading takes a word in decimal notation and rounds its value with `rnd` to the type of the element.
-/
namespace Verif.Text
open Verif

/-- The nearest integer, of two equally near ones the even one. -/
def roundEven (q : ℚ) : ℤ :=
  if q - ⌊q⌋ < 1 / 2 then ⌊q⌋ else if 1 / 2 < q - ⌊q⌋ then ⌊q⌋ + 1 else if ⌊q⌋ % 2 = 0 then ⌊q⌋ else ⌊q⌋ + 1

/-- The last of the `p` significant digits of `x` stands for this. -/
def unit (p : Nat) (x : ℚ) : ℚ := (10 : ℚ) ^ (Int.log 10 x - ((p : ℤ) - 1))

/-- The `p` significant digits of a positive number, as a number, and the exponent of the first. -/
def decimal (p : Nat) (x : ℚ) : Nat × ℤ :=
  if (roundEven (x / unit p x)).toNat = 10 ^ p then (10 ^ (p - 1), Int.log 10 x + 1) else ((roundEven (x / unit p x)).toNat, Int.log 10 x)

/-- Without trailing zeros. -/
def strip (l : List Char) : List Char := (l.reverse.dropWhile (· = '0')).reverse

/-- Digits before and after the point. -/
def point (ip fp : List Char) : List Char := if strip fp = [] then ip else ip ++ '.' :: strip fp

/-- An exponent has at least two digits. -/
def expo (e : ℤ) : List Char :=
  (if e < 0 then '-' else '+') :: (if (Nat.toDigits 10 e.natAbs).length < 2 then '0' :: Nat.toDigits 10 e.natAbs else Nat.toDigits 10 e.natAbs)

/-- The digits `m` with the point at exponent `e`, of `p` digits. -/
def printPos (p m : Nat) (e : ℤ) : List Char :=
  let d := Nat.toDigits 10 m
  if e < -4 ∨ (p : ℤ) ≤ e then point (d.take 1) (d.drop 1) ++ 'e' :: expo e
  else if 0 ≤ e then point (d.take (e.toNat + 1)) (d.drop (e.toNat + 1))
  else point ['0'] (List.replicate (-e - 1).toNat '0' ++ d)

/-- `operator <<` of a finite number, with precision `p`. -/
def printG (p : Nat) (x : ℚ) : List Char :=
  if x = 0 then ['0']
  else if x < 0 then '-' :: printPos p (decimal p (-x)).1 (decimal p (-x)).2
  else printPos p (decimal p x).1 (decimal p x).2

/-- The value of digits `ip` before and `fp` after the point. -/
def pointVal (ip fp : List Char) : ℚ := (Nat.ofDigitChars 10 (ip ++ fp) 0 : ℚ) / 10 ^ fp.length

/-- The digits after the point, if there is one, and what follows. -/
def splitPoint (r : List Char) : List Char × List Char :=
  match r with
  | '.' :: r => (r.takeWhile Char.isDigit, r.dropWhile Char.isDigit)
  | r => ([], r)

/-- An unsigned number of any size. -/
def parseDigits (w : List Char) : Option Nat := if w ≠ [] ∧ w.all Char.isDigit then some (Nat.ofDigitChars 10 w 0) else none

/-- The exponent: nothing, or a letter, an optional sign and digits. -/
def parseExp (r : List Char) : Option ℤ :=
  match r with
  | [] => some 0
  | c :: r =>
    if c = 'e' ∨ c = 'E' then
      match r with
      | '-' :: r => (parseDigits r).map (fun n : Nat => -(n : ℤ))
      | '+' :: r => (parseDigits r).map (fun n : Nat => (n : ℤ))
      | r => (parseDigits r).map (fun n : Nat => (n : ℤ))
    else none

/-- An unsigned number. -/
def parseU (w : List Char) : Option ℚ :=
  let ip := w.takeWhile Char.isDigit
  let s := splitPoint (w.dropWhile Char.isDigit)
  if ip = [] ∧ s.1 = [] then none else (parseExp s.2).map (fun e => pointVal ip s.1 * (10 : ℚ) ^ e)

/-- A number. -/
def parseDec (w : List Char) : Option ℚ :=
  match w with
  | '-' :: w => (parseU w).map (fun x => -x)
  | '+' :: w => parseU w
  | w => parseU w

/-- `operator >>` of a type whose numbers are reached by the rounding `rnd`. -/
def parseF (rnd : ℚ → ℚ) (w : List Char) : Option ℚ := (parseDec w).map rnd

end Verif.Text
