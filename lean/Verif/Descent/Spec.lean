import Verif.Net.Props
import Verif.Fit.Batch
import Verif.Optim.Descent
/-!
# Training as descent (specification)

What training is, independently of the code: weights that are moved, batch after batch, by the rule of the optimizer applied to the partial derivatives of
the loss of the batch.
-/
namespace Verif.Descent
open Verif Res View Data Ops Graph Optim

noncomputable section

/-- The rule of an optimizer for one element: the number of the step (from 0), the element, what is remembered of it, and its derivative give the new element
and what is remembered now. -/
abbrev Law := Nat → ℝ → ℝ × ℝ → ℝ → ℝ × (ℝ × ℝ)

/-- Weights, and what is remembered of each of their elements. -/
structure Point where
  w : Nat → Ten ℝ
  mem : Nat → List Nat → ℝ × ℝ

/-- The partial derivative of `F` with respect to element `is` of variable `v`. -/
def partialAt (F : (Nat → Ten ℝ) → ℝ) (D : Nat → Ten ℝ) (v : Nat) (is : List Nat) : ℝ := deriv (fun h => F (upd D v (bump (D v) is h))) 0

/-- Step `t`: every element of the variables `V` is moved by the law, with `k` times the partial derivative of `F`. -/
def next (V : List Nat) (law : Law) (k : ℝ) (t : Nat) (F : (Nat → Ten ℝ) → ℝ) (p : Point) : Point where
  w v := if v ∈ V then tenOf (p.w v).shape (fun is => (law t ((p.w v).at is) (p.mem v is) (k * partialAt F p.w v is)).1) else p.w v
  mem v is := if v ∈ V then (law t ((p.w v).at is) (p.mem v is) (k * partialAt F p.w v is)).2 else p.mem v is

/-- Step `t` with any derivatives `g`. -/
def move (V : List Nat) (law : Law) (t : Nat) (g : Nat → List Nat → ℝ) (p : Point) : Point where
  w v := if v ∈ V then tenOf (p.w v).shape (fun is => (law t ((p.w v).at is) (p.mem v is) (g v is)).1) else p.w v
  mem v is := if v ∈ V then (law t ((p.w v).at is) (p.mem v is) (g v is)).2 else p.mem v is

/-- The weights before step `t`, if step `i` uses the loss `F i`. -/
def path (V : List Nat) (law : Law) (k : ℝ) (F : Nat → (Nat → Ten ℝ) → ℝ) (p : Point) : Nat → Point
  | 0 => p
  | t + 1 => next V law k t (F t) (path V law k F p t)

/-- Plain gradient descent with learning rate `η t` in step `t`. -/
def plainLaw (η : Nat → ℝ) : Law := fun t w m g => (w - η t * g, m)

/-- Documented: gradient descent with momentum. -/
def sgdLaw (mu : ℝ) (η : Nat → ℝ) (nesterov : Bool) : Law := fun t w m g => (sgdDoc mu (η t) nesterov w m.1 g, (mu * m.1 - η t * g, 0))

/-- Documented: adagrad. -/
def adagradLaw (eps : ℝ) (η : Nat → ℝ) : Law := fun t w m g => (adagradDoc eps (η t) w m.1 g, (m.1 + g ^ 2, 0))

/-- Documented: rmsprop. -/
def rmspropLaw (eps : ℝ) (η : Nat → ℝ) (rho : ℝ) : Law := fun t w m g => (rmspropDoc eps (η t) rho w m.1 g, (rho * m.1 + (1 - rho) * g ^ 2, 0))

/-- Documented: adam. -/
def adamLaw (eps lr b1 b2 : ℝ) : Law := fun t w m g =>
  (adamDoc eps lr b1 b2 (t + 1) w m.1 m.2 g, (b1 * m.1 + (1 - b1) * g, b2 * m.2 + (1 - b2) * g ^ 2))

end
end Verif.Descent
