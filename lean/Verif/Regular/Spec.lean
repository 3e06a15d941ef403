import Verif.Descent.Spec
/-!
# Regularised training (specification)

What the regularisation coefficients of a variable (include/layer.hpp lines 31-34, 222-225) mean: the objective is the loss plus the L1 and the L2 penalty of
every element of every variable.
-/
namespace Verif.Regular
open Verif Res View Data Ops Graph Optim

noncomputable section

/-- The penalty of an element `w` of a variable with coefficients `l1` and `l2`. -/
def pen (c : Cfg ℝ) (w : ℝ) : ℝ := c.l1 * |w| + c.l2 * w ^ 2

/-- The penalty of the variables `V`. -/
def penalty (V : List Nat) (cfg : Nat → Cfg ℝ) (D : Nat → Ten ℝ) : ℝ := ∑ v ∈ V.toFinset, sumIdx (D v).shape (fun is => pen (cfg v) ((D v).at is))

/-- A coefficient is not used, or not so small that the code ignores it. -/
def Coef (eps : ℝ) (c : Cfg ℝ) : Prop := (c.l1 = 0 ∨ eps ≤ c.l1) ∧ (c.l2 = 0 ∨ eps ≤ c.l2)

/-- The penalty has a derivative at `w`. -/
def Off (c : Cfg ℝ) (w : ℝ) : Prop := c.l1 ≠ 0 → w ≠ 0

end
end Verif.Regular
