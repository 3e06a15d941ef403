import Verif.Fp.Model
import Verif.Softmax.Model
import Verif.Step.Model
import Verif.Pool.Model
/-!
# Numbers with NaN (model)

What the code that compares relies on when elements may be NaN: comparisons with NaN are false, sums, differences, products and quotients
with NaN are NaN, the others are ordered.  Instance: the floating point numbers of `Verif/Fp`, with their order and quotient.

The functions with comparisons, written for such numbers: `has_nan`, `has_inf`, `is_valid` (include/tensor.tcc lines 1089-1105), the
activations and `inverse`.  `clip`, `max`, `min`, `softmax`, `cross_entropy_loss`, `maximum`, `minimum`, `equal`, `reduce_max`, `reduce_min`,
`max_pooling_2d`, `gemm` and `sum` are the models of the other areas, run on such numbers.  The compiler flag `-ffast-math` (Makefile line 6)
allows the compiler to assume that there is no NaN; what is said here is the meaning of the text without it.
-/
namespace Verif.Nan
open Verif Res Data Fp

/-- Numbers with NaN; `lit q` is the literal `q`. -/
class Floats (F : Type) extends Zero F, One F, Add F, Sub F, Mul F, Div F, LT F, NatCast F where
  decLt : DecidableLT F
  lit : ℚ → F
  isNan : F → Bool
  isInf : F → Bool
  zero_num : isNan 0 = false
  one_num : isNan 1 = false
  lit_num : ∀ q, isNan (lit q) = false
  lt_num : ∀ a b : F, a < b → isNan a = false ∧ isNan b = false
  lt_irrefl : ∀ a : F, ¬ a < a
  lt_trans : ∀ a b c : F, a < b → b < c → a < c
  not_lt_trans : ∀ a b c : F, isNan b = false → ¬ a < b → ¬ b < c → ¬ a < c
  add_nan : ∀ a b : F, isNan a = true ∨ isNan b = true → isNan (a + b) = true
  sub_nan : ∀ a b : F, isNan a = true ∨ isNan b = true → isNan (a - b) = true
  mul_nan : ∀ a b : F, isNan a = true ∨ isNan b = true → isNan (a * b) = true
  div_nan : ∀ a b : F, isNan a = true ∨ isNan b = true → isNan (a / b) = true

export Floats (lit isNan isInf)

instance {F : Type} [Floats F] : DecidableLT F := Floats.decLt

/-! ### Floating point numbers -/

instance (f : Fmt) : One (Num f) := ⟨toNum f 1⟩

instance (f : Fmt) : NatCast (Num f) := ⟨fun n => toNum f n⟩

/-- `-a`. -/
def neg {f : Fmt} : Num f → Num f
  | .num x h => .num (-x) (by obtain ⟨k, e⟩ := h; exact ⟨-k, by rw [e]; push_cast; ring⟩)
  | .inf s => .inf (!s)
  | .nan => .nan

instance (f : Fmt) : Sub (Num f) := ⟨fun a b => a + neg b⟩

/-- Quotients; `x / 0` has the sign of `x` (the sign of zeros is not modelled). -/
instance (f : Fmt) : Div (Num f) := ⟨fun a b =>
  match a, b with
  | .num x _, .num y _ => if y = 0 then (if x = 0 then .nan else .inf (x < 0)) else toNum f (x / y)
  | .nan, _ => .nan
  | _, .nan => .nan
  | .inf s, .num y _ => .inf (xor s (decide (y < 0)))
  | .num _ _, .inf _ => 0
  | .inf _, .inf _ => .nan⟩

/-- `a < b`. -/
def ltb {f : Fmt} : Num f → Num f → Bool
  | .num x _, .num y _ => decide (x < y)
  | .nan, _ => false
  | _, .nan => false
  | .inf s, .num _ _ => s
  | .num _ _, .inf s => !s
  | .inf s, .inf t => s && !t

instance (f : Fmt) : LT (Num f) := ⟨fun a b => ltb a b = true⟩

instance (f : Fmt) : DecidableLT (Num f) := fun a b => inferInstanceAs (Decidable (ltb a b = true))

/-- `std::isnan`. -/
def nanb {f : Fmt} : Num f → Bool
  | .nan => true
  | _ => false

/-- `std::isinf`. -/
def infb {f : Fmt} : Num f → Bool
  | .inf _ => true
  | _ => false

theorem toNum_num (f : Fmt) (q : ℚ) : nanb (toNum f q) = false := by
  unfold toNum; split <;> rfl

instance floats (f : Fmt) : Floats (Num f) where
  decLt := inferInstance
  lit q := toNum f q
  isNan := nanb
  isInf := infb
  zero_num := rfl
  one_num := toNum_num f 1
  lit_num := toNum_num f
  lt_num a b h := by
    change ltb a b = true at h
    cases a <;> cases b <;> simp_all [ltb, nanb]
  lt_irrefl a h := by
    change ltb a a = true at h
    cases a <;> simp_all [ltb]
  lt_trans a b c h h' := by
    change ltb a b = true at h
    change ltb b c = true at h'
    show ltb a c = true
    cases a <;> cases b <;> cases c <;> simp_all [ltb]
    exact _root_.lt_trans h h'
  not_lt_trans a b c hb h h' := by
    change ¬ ltb a b = true at h
    change ¬ ltb b c = true at h'
    show ¬ ltb a c = true
    cases a <;> cases b <;> cases c <;> simp_all [ltb, nanb]
    exact le_trans h' h
  add_nan a b h := by
    cases a <;> cases b <;> simp_all [nanb] <;> rfl
  sub_nan a b h := by
    cases a <;> cases b <;> simp_all [nanb] <;> rfl
  mul_nan a b h := by
    cases a <;> cases b <;> simp_all [nanb] <;> rfl
  div_nan a b h := by
    cases a <;> cases b <;> simp_all [nanb] <;> rfl

/-! ### The functions -/

variable {F : Type} [Floats F]

/-- `std::find_if( begin, end, p ) - begin`. -/
def findIf {α : Type} (p : α → Bool) : List α → Nat
  | [] => 0
  | x :: l => if p x = true then 0 else findIf p l + 1

/-- `has_nan( tsor )` (include/tensor.tcc lines 1089-1093). -/
def hasNan (t : Ten F) : Bool := t.data.length != findIf isNan t.data

/-- `has_inf( tsor )` (include/tensor.tcc lines 1095-1099). -/
def hasInf (t : Ten F) : Bool := t.data.length != findIf isInf t.data

/-- `is_valid( tsor )` (include/tensor.tcc lines 1101-1105). -/
def isValid (t : Ten F) : Bool := !hasNan t && !hasInf t

/-- `std::min( a, b )`. -/
def stdMin (a b : F) : F := if b < a then b else a

/-- The element-wise operators with a comparison, and those without that are sums, products, quotients and exponentials. -/
inductive Op (F : Type) where
  | negative | addC (a : F) | mulC (a : F) | square
  | relu | relu6 | leakyRelu (factor : F) | elu (alpha : F) | selu | hardSigmoid | softplus | softsign | sigmoid | inverse

/-- The forward function of each (include/operation.hpp lines 678, 701, 753, 1043; include/activation.hpp lines 291, 348, 411, 465, 146, 539, 187,
224, 260; include/operation.hpp line 821), in the order of `Op`.  `-x` is written `0 - x`; `x >= 0` is false for NaN.  `inverse` computes in `double`; here in the same numbers. -/
def Op.fwd (exp log abs : F → F) (eps meps : F) : Op F → F → F
  | negative, x => 0 - x
  | addC a, x => x + a
  | mulC a, x => x * a
  | square, x => x * x
  | relu, x => Softmax.stdMax x 0
  | relu6, x => stdMin (lit 6) (Softmax.stdMax x 0)
  | leakyRelu f, x => Softmax.stdMax x (f * x)
  | elu a, x => if 0 < x then x else a * (exp x - 1)
  | selu, x => if isNan x = false ∧ ¬ x < 0 then lit 1.0507 * x else lit 1.0507 * lit 1.67326 * (exp x - 1)
  | hardSigmoid, x => if 1 < x then 1 else if x < lit (-1) then 0 else (x + 1) / lit 2
  | softplus, x => log (1 + exp x)
  | softsign, x => x / (1 + abs x)
  | sigmoid, x => 1 / (1 + exp (0 - x))
  | inverse, x => if 0 < x then 1 / Softmax.stdMax eps x else 1 / stdMin meps x

/-- The forward action of the operator `clip( lower, upper )` (include/operation.hpp lines 1084-1090): asserts that the operand has no NaN, then clips
a copy. -/
def clipForward (lower upper : F) (t : Ten F) : Res (Ten F) := do
  Res.assert (hasNan t = false)
  Data.clip lower upper t

end Verif.Nan
