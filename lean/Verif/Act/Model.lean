import Verif.Loss.Model
import Verif.Concat.Model
/-!
# Activations and quotients made of other operators (model)

`include/activation.hpp` lines 25-49, 619-692 and `include/operation.hpp` lines 789-793, 895-913.  Each of them is an expression over operators modelled elsewhere; as in
`Verif.Loss`, the identities of the operators made are taken one after the other from the given one on.  Copying an operand copies the object, not the operator: both copies
keep the identity (`include/operation.hpp` lines 51-66).  `a / ex` with a number `a` (include/operation.hpp lines 795-799) is left out: it names `inverse` of a number, which does not exist.
-/
namespace Verif.Act
open Verif Res View Data Ops Graph Loss

noncomputable section

/-- `heaviside_step( f )` (include/activation.hpp lines 25-32): the product with a value is element-wise (include/operation.hpp lines 638-642). -/
def heavisideStep (K : Kit) (f : ℝ) (i : Nat) (e : Ex ℝ) : Ex ℝ := el K (i + 1) .sigmoid (.un i (valueLeft (f + f) (opEwp K.red K.fuel)) e)

/-- `soft_sign`, `unit_step`, `binary_step` (include/activation.hpp lines 34-56). -/
def unitStep (K : Kit) (i : Nat) (e : Ex ℝ) : Ex ℝ := heavisideStep K 20 i e

/-- `swish`, `silu` (include/activation.hpp lines 619-632). -/
def swish (K : Kit) (i : Nat) (e : Ex ℝ) : Ex ℝ := hadE K (i + 1) e (el K i .sigmoid e)

/-- `crelu` (include/activation.hpp lines 644-648). -/
def crelu (K : Kit) (i : Nat) (e : Ex ℝ) : Ex ℝ := .bin (i + 3) (Concat.opConcat minusOne) (el K i .relu e) (el K (i + 2) .relu (el K (i + 1) .negative e))

/-- `tank_shrink` (include/activation.hpp lines 658-662). -/
def tankShrink (K : Kit) (i : Nat) (e : Ex ℝ) : Ex ℝ := minusE K (i + 1) e (el K i .tanh e)

/-- `mish` (include/activation.hpp lines 673-677): `*` between two operators is the matrix product (include/operation.hpp lines 635-657). -/
def mish (K : Kit) (i : Nat) (e : Ex ℝ) : Ex ℝ :=
  .bin (i + 2) (opMatmul K.cacheF K.cacheB K.cacheB') e (el K (i + 1) .tanh (el K i .softplus e))

/-- `lisht` (include/activation.hpp lines 688-692). -/
def lisht (K : Kit) (i : Nat) (e : Ex ℝ) : Ex ℝ := .bin (i + 1) (opMatmul K.cacheF K.cacheB K.cacheB') e (el K i .tanh e)

/-- `divide` and `/` (include/operation.hpp lines 895-913). -/
def divide (K : Kit) (i : Nat) (l r : Ex ℝ) : Ex ℝ := hadE K (i + 1) l (el K i .inverse r)

/-- `ex / a` with a number `a` (include/operation.hpp lines 789-793). -/
def divideC (K : Kit) (i : Nat) (e : Ex ℝ) (a : ℝ) : Ex ℝ := el K i (.mulC (1 / a)) e

end
end Verif.Act
