import Verif.Graph.Operators
/-!
# Complex expressions (model)

`include/complex_operator.hpp`: a complex expression is a pair of real expressions, and the operators on complex expressions build
expressions for the two parts.  The identities of the operators made are taken one after the other from the given one on (the order in
which the code makes them does not matter to anything proved here: they only have to differ).
-/
namespace Verif.Complex
open Verif Res Graph

variable {α : Type}

/-- The operators on real expressions that the complex ones are made of (`include/operation.hpp`, `plus` lines 526-577, `multiplication`
587-657, `elementwise_product` 804-885, `negative` 672-688, `square` 1037-1056, `cos`, `sin`, `sqrt`). -/
structure Kit (α : Type) where
  plus : BOp α
  mul : BOp α
  had : BOp α
  neg : UOp α
  square : UOp α
  sqrt : UOp α
  cos : UOp α
  sin : UOp α

/-- `complex` (include/complex_operator.hpp lines 9-14). -/
structure Cx (α : Type) where
  re : Ex α
  im : Ex α

/-- `operator -` on expressions, which is `minus` (include/operation.hpp lines 1004-1022), for a right operand that is not a constant. -/
def minusE (K : Kit α) (i : Nat) (l r : Ex α) : Ex α := .bin (i + 1) K.plus l (.un i K.neg r)

/-- `hypot` (include/operation.hpp lines 1073-1077). -/
def hypotE (K : Kit α) (i : Nat) (x y : Ex α) : Ex α := .un (i + 3) K.sqrt (.bin (i + 2) K.plus (.un i K.square x) (.un (i + 1) K.square y))

/-- `abs` (include/complex_operator.hpp lines 66-70). -/
def Cx.abs (K : Kit α) (i : Nat) (c : Cx α) : Ex α := hypotE K i c.re c.im

/-- `norm` (include/complex_operator.hpp lines 84-90). -/
def Cx.norm (K : Kit α) (i : Nat) (c : Cx α) : Ex α := .bin (i + 2) K.plus (.bin i K.had c.re c.re) (.bin (i + 1) K.had c.im c.im)

/-- `conj` (include/complex_operator.hpp lines 104-108). -/
def Cx.conj (K : Kit α) (i : Nat) (c : Cx α) : Cx α := ⟨c.re, .un i K.neg c.im⟩

/-- `polar` (include/complex_operator.hpp lines 122-126). -/
def polar (K : Kit α) (i : Nat) (em ep : Ex α) : Cx α := ⟨.bin (i + 1) K.had em (.un i K.cos ep), .bin (i + 3) K.had em (.un (i + 2) K.sin ep)⟩

/-- Unary `operator -` (include/complex_operator.hpp lines 162-166). -/
def Cx.neg (K : Kit α) (i : Nat) (c : Cx α) : Cx α := ⟨.un i K.neg c.re, .un (i + 1) K.neg c.im⟩

/-- `operator +` (include/complex_operator.hpp lines 172-176). -/
def Cx.add (K : Kit α) (i : Nat) (l r : Cx α) : Cx α := ⟨.bin i K.plus l.re r.re, .bin (i + 1) K.plus l.im r.im⟩

/-- `operator -` (include/complex_operator.hpp lines 182-186). -/
def Cx.sub (K : Kit α) (i : Nat) (l r : Cx α) : Cx α := ⟨minusE K i l.re r.re, minusE K (i + 2) l.im r.im⟩

/-- `operator *` (include/complex_operator.hpp lines 199-214). -/
def Cx.mul (K : Kit α) (i : Nat) (l r : Cx α) : Cx α :=
  let a := l.re
  let b := l.im
  let c := r.re
  let d := r.im
  let ac := .bin i K.mul a c
  let bd := .bin (i + 1) K.mul b d
  let a_b := .bin (i + 2) K.plus a b
  let c_d := .bin (i + 3) K.plus c d
  let abcd := .bin (i + 4) K.mul a_b c_d
  ⟨minusE K (i + 5) ac bd, minusE K (i + 9) (minusE K (i + 7) abcd ac) bd⟩

/-- `operator +` of a complex expression and an expression (include/complex_operator.hpp lines 220-224). -/
def Cx.addE (K : Kit α) (i : Nat) (c : Cx α) (e : Ex α) : Cx α := ⟨.bin i K.plus c.re e, c.im⟩

/-- `operator +` of an expression and a complex expression (include/complex_operator.hpp lines 229-233). -/
def eAdd (K : Kit α) (i : Nat) (e : Ex α) (c : Cx α) : Cx α := c.addE K i e

/-- `operator -` of a complex expression and an expression (include/complex_operator.hpp lines 239-243). -/
def Cx.subE (K : Kit α) (i : Nat) (c : Cx α) (e : Ex α) : Cx α := ⟨minusE K i c.re e, c.im⟩

/-- `operator -` of an expression and a complex expression (include/complex_operator.hpp lines 248-252). -/
def eSub (K : Kit α) (i : Nat) (e : Ex α) (c : Cx α) : Cx α := c.addE K i e

/-- `operator *` of a complex expression and an expression (include/complex_operator.hpp lines 257-261). -/
def Cx.mulE (K : Kit α) (i : Nat) (c : Cx α) (e : Ex α) : Cx α := ⟨.bin i K.mul c.re e, .bin (i + 1) K.mul c.im e⟩

/-- `operator *` of an expression and a complex expression (include/complex_operator.hpp lines 266-270). -/
def eMul (K : Kit α) (i : Nat) (e : Ex α) (c : Cx α) : Cx α := c.mulE K i e

/-- The operators over the reals (each with caches holding anything). -/
noncomputable def realKit (red : List ℝ → ℝ) (fuel : Nat) (o : Ten ℝ) : Kit ℝ where
  plus := opPlus red fuel
  mul := opMatmul o o o
  had := opEwp red fuel
  neg := opElem .negative o o
  square := opElem .square o o
  sqrt := opElem .sqrt o o
  cos := opElem .cos o o
  sin := opElem .sin o o

end Verif.Complex
