import Verif.Optim.Model
/-!
# What the optimizers are documented to do

One element `w` of a variable, its gradient `g` and the optimizer's memory of it.  Keras' rules, whose names and parameters the library uses
(README.md; include/optimizer.hpp lines 18-24 for sgd).
-/
namespace Verif.Optim
open Verif Res Graph

noncomputable section

/-- Momentum `m' = mu m - lr g`; then `w + m'`, or `w + mu m' - lr g` with Nesterov's modification. -/
def sgdDoc (mu lr : ℝ) (nesterov : Bool) (w m g : ℝ) : ℝ :=
  if nesterov = true then w + mu * (mu * m - lr * g) - lr * g else w + (mu * m - lr * g)

/-- `a' = a + g²`, `w - lr g / (eps + √a')`. -/
def adagradDoc (eps lr w a g : ℝ) : ℝ := w - lr * g / (eps + √(a + g ^ 2))

/-- `a' = rho a + (1-rho) g²`, `w - lr g / (eps + √a')`. -/
def rmspropDoc (eps lr rho w a g : ℝ) : ℝ := w - lr * g / (eps + √(rho * a + (1 - rho) * g ^ 2))

/-- `a' = rho a + (1-rho) g²`, `w - lr √((x+eps)/(a'+eps)) g` with `x` the running average of squared updates. -/
def adadeltaDoc (eps lr rho w a x g : ℝ) : ℝ := w - lr * √((x + eps) / (rho * a + (1 - rho) * g ^ 2 + eps)) * g

/-- Step number `t` (from 1): `m' = b1 m + (1-b1) g`, `v' = b2 v + (1-b2) g²`,
`w - lr √(1-b2^t)/(1-b1^t) m' / (eps + √v')`. -/
def adamDoc (eps lr b1 b2 : ℝ) (t : Nat) (w m v g : ℝ) : ℝ :=
  w - lr * √(1 - b2 ^ t) / (1 - b1 ^ t) * (b1 * m + (1 - b1) * g) / (eps + √(b2 * v + (1 - b2) * g ^ 2))

/-- The learning rate in the step that comes next. -/
def Sched.rate (o : Sched) : ℝ := o.lr / (1 + o.decay * o.iter)

/-- One memory per element, `μ`; no context yet is all zeros. -/
def Ctx1 (c : List (Ten ℝ)) (sh : List Nat) (μ : List Nat → ℝ) : Prop :=
  (c = [] ∧ ∀ is, μ is = 0) ∨ ∃ m rest, c = m :: rest ∧ m.Has sh μ

/-- Two memories per element. -/
def Ctx2 (c : List (Ten ℝ)) (sh : List Nat) (μ ν : List Nat → ℝ) : Prop :=
  (c = [] ∧ ∀ is, μ is = 0 ∧ ν is = 0) ∨ ∃ m n rest, c = m :: n :: rest ∧ m.Has sh μ ∧ n.Has sh ν

/-- From `s` to `s'` every trainable variable of the session got the values `w'` and a gradient of zeros, its memory is now as `C` says, and
nothing else changed. -/
structure Updates (s s' : OSt) (sh : Nat → List Nat) (w' : Nat → List Nat → ℝ) (C : Nat → List (Ten ℝ) → Prop) : Prop where
  new : ∀ v, (v, true) ∈ s.reg → (s'.st.data v).Has (sh v) (w' v) ∧ (s'.st.grad v).Has (sh v) (fun _ => 0) ∧ C v (s'.ctx v)
  old : ∀ v, (v, true) ∉ s.reg → s'.st.data v = s.st.data v ∧ s'.st.grad v = s.st.grad v ∧ s'.ctx v = s.ctx v
  reg : s'.reg = s.reg
  rest : s'.st = { s.st with data := s'.st.data, grad := s'.st.grad }

/-- Data and gradient of the trainable variables, each variable known to the session once. -/
structure Ready (s : OSt) (sh : Nat → List Nat) (w g : Nat → List Nat → ℝ) : Prop where
  nodup : (s.reg.map (·.1)).Nodup
  data : ∀ v, (v, true) ∈ s.reg → (s.st.data v).Has (sh v) (w v)
  grad : ∀ v, (v, true) ∈ s.reg → (s.st.grad v).Has (sh v) (g v)

/-- `t` steps of an optimizer; between them the state of the program may change in any way. -/
inductive Hist {O : Type} (step : O → OSt → Res (O × OSt)) : O → Nat → O → Prop
  | zero (o : O) : Hist step o 0 o
  | succ {o o' o'' : O} {t : Nat} {s s' : OSt} : Hist step o t o' → step o' s = ok (o'', s') → Hist step o (t + 1) o''

end
end Verif.Optim
