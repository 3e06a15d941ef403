import Mathlib.Data.Real.Basic
import Mathlib.Algebra.BigOperators.Group.Finset.Basic
import Mathlib.Algebra.Order.BigOperators.Group.Finset
import Mathlib.Tactic.Ring
import Mathlib.Tactic.Linarith
import Mathlib.Tactic.Positivity
import Verif.Gemm.Spec
/-!
# Computing with rounding (specification)

What is asked of an arithmetic whose operations round: the numbers that are finite stand for reals, sums and products that come out finite are
within a relative error `u` (and, products, an absolute error `w` near zero) of the exact ones, and come out finite if the exact result is at
most `top` in absolute value.  Nothing is asked of the other numbers (infinities and NaN) but that no sum or product with one of them is
finite.  No law of algebra is asked for: addition need not be associative.
-/
namespace Verif.Fp
open Verif

class Arith (F : Type) extends Zero F, Add F, Mul F where
  val : F → ℝ
  fin : F → Prop
  u : ℝ
  w : ℝ
  top : ℝ
  whole : ℝ
  u_nonneg : 0 ≤ u
  w_nonneg : 0 ≤ w
  fin_zero : fin 0
  val_zero : val 0 = 0
  add_err : ∀ a b : F, fin (a + b) → fin a ∧ fin b ∧ |val (a + b) - (val a + val b)| ≤ u * |val a + val b|
  add_fin : ∀ a b : F, fin a → fin b → |val a + val b| ≤ top → fin (a + b)
  mul_err : ∀ a b : F, fin (a * b) → fin a ∧ fin b ∧ |val (a * b) - val a * val b| ≤ u * |val a * val b| + w
  mul_fin : ∀ a b : F, fin a → fin b → |val a * val b| ≤ top → fin (a * b)
  add_exact : ∀ a b : F, fin a → fin b → (∃ k : ℤ, val a + val b = k) → |val a + val b| < whole → fin (a + b) ∧ val (a + b) = val a + val b
  mul_exact : ∀ a b : F, fin a → fin b → (∃ k : ℤ, val a * val b = k) → |val a * val b| < whole → fin (a * b) ∧ val (a * b) = val a * val b

export Arith (val fin)

/-- `x1 y1 + ... + xn yn`, summed up from the left, starting from zero. -/
def dot {F : Type} [Zero F] [Add F] [Mul F] (x y : Nat → F) : Nat → F
  | 0 => 0
  | n + 1 => dot x y n + x n * y n

/-- The products. -/
def prods {F : Type} [Mul F] (x y : Nat → F) (n : Nat) : List F := (List.range n).map (fun i => x i * y i)

/-- The values of any way to add up the numbers of a list: in any order and with any brackets. -/
inductive Sums {F : Type} [Add F] : List F → F → Prop
  | one (x : F) : Sums [x] x
  | add {l m : List F} {a b : F} : Sums l a → Sums m b → Sums (l ++ m) (a + b)
  | perm {l m : List F} {a : F} : l.Perm m → Sums l a → Sums m a

/-- The error of a sum of `n` products of absolute values that add up to `S`. -/
def dotBound (u w : ℝ) (n : Nat) (S : ℝ) : ℝ := ((1 + u) ^ (n + 1) - 1) * S + n * (1 + u) ^ n * w

/-- The error of a sum, after `n` additions, of numbers whose absolute values add up to `S`. -/
def sumBound (u : ℝ) (n : Nat) (S : ℝ) : ℝ := ((1 + u) ^ n - 1) * S

open Finset in
/-- What a computed value `r` of `x1 y1 + ... + xn yn` may be relied on for, with the bound `B` for the error: if it is finite, so are all the
operands and it is within the bound; if the operands are finite and far enough from overflow it is finite; with whole numbers it is exact as
long as they stay small. -/
def AccurateTo {F : Type} [Arith F] (B : ℝ → ℝ) (x y : Nat → F) (n : Nat) (r : F) : Prop :=
  (fin r → (∀ i, i < n → fin (x i) ∧ fin (y i)) ∧
    |val r - ∑ i ∈ range n, val (x i) * val (y i)| ≤ B (∑ i ∈ range n, |val (x i)| * |val (y i)|)) ∧
  ((∀ i, i < n → fin (x i) ∧ fin (y i)) →
    (∑ i ∈ range n, |val (x i)| * |val (y i)|) + B (∑ i ∈ range n, |val (x i)| * |val (y i)|) ≤ Arith.top F → fin r) ∧
  ((∀ i, i < n → (fin (x i) ∧ fin (y i)) ∧ (∃ k : ℤ, val (x i) = k) ∧ ∃ k : ℤ, val (y i) = k) →
    ∑ i ∈ range n, |val (x i)| * |val (y i)| < Arith.whole F → fin r ∧ val r = ∑ i ∈ range n, val (x i) * val (y i))

def Accurate {F : Type} [Arith F] (x y : Nat → F) (n : Nat) (r : F) : Prop := AccurateTo (dotBound (Arith.u F) (Arith.w F) n) x y n r

/-- The same for a computed sum. -/
def AccurateSum {F : Type} [Arith F] (l : List F) (r : F) : Prop :=
  (fin r → (∀ x ∈ l, fin x) ∧ |val r - (l.map val).sum| ≤ sumBound (Arith.u F) l.length (l.map (fun x => |val x|)).sum) ∧
  ((∀ x ∈ l, fin x) → (l.map (fun x => |val x|)).sum + sumBound (Arith.u F) l.length (l.map (fun x => |val x|)).sum ≤ Arith.top F → fin r) ∧
  ((∀ x ∈ l, fin x ∧ ∃ k : ℤ, val x = k) → (l.map (fun x => |val x|)).sum < Arith.whole F → fin r ∧ val r = (l.map val).sum)

/-! ### products and sums in one operation -/

/-- An arithmetic that also has `fma a b c`, which is `a b + c` with one rounding. -/
class Fused (F : Type) extends Arith F where
  fma : F → F → F → F
  fma_err : ∀ a b c : F, fin (fma a b c) → fin a ∧ fin b ∧ fin c ∧ |val (fma a b c) - (val a * val b + val c)| ≤ u * |val a * val b + val c| + w
  fma_fin : ∀ a b c : F, fin a → fin b → fin c → |val a * val b + val c| ≤ top → fin (fma a b c)
  fma_exact : ∀ a b c : F, fin a → fin b → fin c → (∃ k : ℤ, val a * val b + val c = k) → |val a * val b + val c| < whole →
    fin (fma a b c) ∧ val (fma a b c) = val a * val b + val c

/-- The values of any way to compute the sum of the products of pairs: in any order, with any brackets, fused or not. -/
inductive Dots {F : Type} [Fused F] : List (F × F) → F → Prop
  | zero : Dots [(0, 0)] 0
  | mul (x y : F) : Dots [(x, y)] (x * y)
  | add {l m : List (F × F)} {a b : F} : Dots l a → Dots m b → Dots (l ++ m) (a + b)
  | fma {l : List (F × F)} {a : F} (x y : F) : Dots l a → Dots ((x, y) :: l) (Fused.fma x y a)
  | perm {l m : List (F × F)} {a : F} : l.Perm m → Dots l a → Dots m a

/-- The bound for these. -/
def fusedBound (u w : ℝ) (n : Nat) (S : ℝ) : ℝ := ((1 + u) ^ (n + 1) - 1) * S + (n + 1) * (1 + u) ^ n * w

end Verif.Fp
