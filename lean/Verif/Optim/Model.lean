import Verif.Graph.Model
import Mathlib.Analysis.SpecialFunctions.Pow.Real
/-!
# Optimizers (model)

`include/optimizer.hpp`.  A step back-propagates from the loss and then changes every trainable variable of the session.

Simplified: real numbers for `T`; `unordered_map::iterator` visits the variables in some order (`reg` is any list); tensors by value, which is
what they are here, as a variable's data, gradient and contexts are storages of their own.  `has_nan` (line 348) is false of real numbers.
-/
namespace Verif.Optim
open Verif Res Graph

noncomputable section

/-- The state of the program: that of `Verif.Graph`, the contexts of the variables (`variable_state::contexts_`, include/variable.hpp line 31)
and the variables of the session with the trainable flag of the session's copy (`session::variables_`, include/session.hpp lines 28, 51-56;
the loops of the optimizers look at that copy, e.g. include/optimizer.hpp lines 50-52). -/
structure OSt where
  st : St ℝ
  ctx : Nat → List (Ten ℝ)
  reg : List (Nat × Bool)

/-- `for_each( o.begin(), ..., a.begin(), f )` changing `n` elements of the first tensor (include/utils/for_each.hpp lines 44-60). -/
def each2 (n : Nat) (f : ℝ → ℝ → ℝ) (o a : Ten ℝ) : Res (Ten ℝ) := do
  let d ← loop n (fun i d => do
    let x ← rd d i
    let y ← rd a.data i
    wr d i (f x y)) o.data
  pure ⟨o.shape, d⟩

/-- The same with two tensors that are read. -/
def each3 (n : Nat) (f : ℝ → ℝ → ℝ → ℝ) (o a b : Ten ℝ) : Res (Ten ℝ) := do
  let d ← loop n (fun i d => do
    let x ← rd d i
    let y ← rd a.data i
    let z ← rd b.data i
    wr d i (f x y z)) o.data
  pure ⟨o.shape, d⟩

/-- `zeros_like` (include/tensor.tcc lines 982-986). -/
def zerosLike (t : Ten ℝ) : Ten ℝ := ⟨t.shape, List.replicate (size t.shape) 0⟩

/-- `gradient.reset()` (include/tensor.hpp lines 275-279). -/
def resetT (t : Ten ℝ) : Ten ℝ := ⟨t.shape, t.data.map (fun _ => 0)⟩

/-- What an optimizer does with a variable: data, gradient and contexts before to data, gradient and contexts after. -/
abbrev Rule := Ten ℝ → Ten ℝ → List (Ten ℝ) → Res (Ten ℝ × Ten ℝ × List (Ten ℝ))

/-- The body of the loop over the variables (include/optimizer.hpp lines 50-66, 95-113, 146-167, 196-240, 271-305, 341-360). -/
def updateVar (rule : Rule) (s : OSt) (p : Nat × Bool) : Res OSt :=
  if p.2 = true then do
    let (d, g, c) ← rule (s.st.data p.1) (s.st.grad p.1) (s.ctx p.1)
    pure { s with st := { s.st with data := upd s.st.data p.1 d, grad := upd s.st.grad p.1 (resetT g) }, ctx := upd s.ctx p.1 c }
  else ok s

/-- The loop over the variables. -/
def updateAll (rule : Rule) (s : OSt) : Res OSt := s.reg.foldlM (updateVar rule) s

/-- `ones<T>( {1, } )`, where every step starts (include/optimizer.hpp lines 47, 90, 141, 193, 269, 338). -/
def ones1 : Ten ℝ := ⟨[1], [1]⟩

/-- `loss_.backward( ones<T>( {1, } ) )`; `loss_` is a reference to the object that was run. -/
def backprop (eps : ℝ) (loss : Ex ℝ) (s : OSt) : Res OSt := do
  let st ← backward eps loss none ones1 s.st
  pure { s with st := st }

/-! ## Learning rate, decay and number of steps of sgd, adagrad and rmsprop -/

structure Sched where
  lr : ℝ
  decay : ℝ
  iter : Nat

/-- The constructors (include/optimizer.hpp lines 38-43, 81-86, 132-137). -/
def Sched.mk' (batch : Nat) (lr decay : ℝ) : Res Sched := do
  Res.assert (1 ≤ batch)
  pure ⟨lr / batch, max 0 decay, 0⟩

/-- `learning_rate_ /= ( 1.0 + decay_ * iterations_ )` (lines 48, 92, 143). -/
def Sched.decayed (o : Sched) : Sched := { o with lr := o.lr / (1 + o.decay * o.iter) }

/-- `++iterations_` (lines 67, 114, 168). -/
def Sched.tick (o : Sched) : Sched := { o with iter := o.iter + 1 }

/-! ## sgd -/

/-- include/optimizer.hpp lines 54-62. -/
def sgdRule (mom lr : ℝ) (nesterov : Bool) : Rule := fun d g c => do
  let c := if c = [] then [zerosLike d] else c
  let m ← rd c 0
  let m ← each2 m.data.length (fun m g => mom * m - lr * g) m g
  let c ← wr c 0 m
  if nesterov = false then do
    let d ← each3 m.data.length (fun v m g => v + (mom * m - lr * g)) d m g
    pure (d, g, c)
  else do
    Res.assert (d.shape = m.shape)
    let d ← each2 d.data.length (fun x y => x + y) d m
    pure (d, g, c)

structure Sgd where
  sch : Sched
  mom : ℝ
  nesterov : Bool

/-- include/optimizer.hpp lines 38-43. -/
def Sgd.mk' (batch : Nat) (lr mom decay : ℝ) (nesterov : Bool) : Res Sgd := do
  let sch ← Sched.mk' batch lr decay
  pure ⟨sch, max 0 mom, nesterov⟩

/-- include/optimizer.hpp lines 45-68. -/
def Sgd.step (eps : ℝ) (loss : Ex ℝ) (o : Sgd) (s : OSt) : Res (Sgd × OSt) := do
  let s ← backprop eps loss s
  let sch := o.sch.decayed
  let s ← updateAll (sgdRule o.mom sch.lr o.nesterov) s
  pure ({ o with sch := sch.tick }, s)

/-- A training step as the examples do it: run the loss, then the optimizer (README.md; include/session.hpp lines 58-63). -/
def trainSgd (eps : ℝ) (loss : Ex ℝ) (o : Sgd) (s : OSt) : Res (Ten ℝ × Sgd × OSt) := do
  let (y, st) ← run loss s.st
  let (o, s) ← Sgd.step eps loss o { s with st := st }
  pure (y, o, s)

/-! ## adagrad -/

/-- include/optimizer.hpp lines 99-109; `eps` is `ceras::eps`. -/
def adagradRule (eps lr : ℝ) : Rule := fun d g c => do
  let c := if c = [] then [zerosLike d] else c
  let m ← rd c 0
  let m ← each2 m.data.length (fun m g => m + g * g) m g
  let c ← wr c 0 m
  let d ← each3 d.data.length (fun d g m => d - lr * g / (eps + √m)) d g m
  pure (d, g, c)

/-- include/optimizer.hpp lines 88-115. -/
def adagradStep (eps : ℝ) (loss : Ex ℝ) (o : Sched) (s : OSt) : Res (Sched × OSt) := do
  let s ← backprop eps loss s
  let sch := o.decayed
  let s ← updateAll (adagradRule eps sch.lr) s
  pure (sch.tick, s)

/-! ## rmsprop -/

/-- include/optimizer.hpp lines 150-163. -/
def rmspropRule (eps lr rho : ℝ) (iter : Nat) : Rule := fun d g c => do
  let c := if c = [] then [zerosLike d] else c
  let m ← rd c 0
  let m ← if iter = 0 then each2 m.data.length (fun _ g => g * g) m g else each2 m.data.length (fun m g => rho * m + g * g * (1 - rho)) m g
  let c ← wr c 0 m
  let d ← each3 d.data.length (fun d g m => d - lr * g / (eps + √m)) d g m
  pure (d, g, c)

structure Rmsprop where
  sch : Sched
  rho : ℝ

/-- include/optimizer.hpp lines 139-169. -/
def Rmsprop.step (eps : ℝ) (loss : Ex ℝ) (o : Rmsprop) (s : OSt) : Res (Rmsprop × OSt) := do
  let s ← backprop eps loss s
  let sch := o.sch.decayed
  let s ← updateAll (rmspropRule eps sch.lr o.rho sch.iter) s
  pure ({ o with sch := sch.tick }, s)

/-! ## adadelta -/

/-- include/optimizer.hpp lines 200-236: `moments` and `delta` are both `contexts[0]`. -/
def adadeltaRule (eps lr rho : ℝ) : Rule := fun d g c => do
  let c := if c = [] then [zerosLike d, zerosLike d] else c
  let m ← rd c 0
  let m ← each2 m.data.length (fun m g => rho * m + g * g * (1 - rho)) m g
  let c ← wr c 0 m
  let delta ← rd c 0
  let m ← rd c 0
  let g ← each3 g.data.length (fun g d m => g * (lr * √((d + eps) / (m + eps)))) g delta m
  Res.assert (d.shape = g.shape)
  let d ← each2 d.data.length (fun x y => x - y) d g
  let delta ← rd c 0
  let delta ← each2 delta.data.length (fun d g => rho * d + (1 - rho) * g * g) delta g
  let c ← wr c 0 delta
  pure (d, g, c)

structure Adadelta where
  lr : ℝ
  rho : ℝ
  iter : Nat

/-- include/optimizer.hpp lines 185-189. -/
def Adadelta.mk' (batch : Nat) (rho : ℝ) : Res Adadelta := do
  Res.assert (1 ≤ batch)
  pure ⟨1 / batch, rho, 0⟩

/-- include/optimizer.hpp lines 191-242. -/
def Adadelta.step (eps : ℝ) (loss : Ex ℝ) (o : Adadelta) (s : OSt) : Res (Adadelta × OSt) := do
  let s ← backprop eps loss s
  let s ← updateAll (adadeltaRule eps o.lr o.rho) s
  pure ({ o with iter := o.iter + 1 }, s)

/-! ## adam -/

/-- include/optimizer.hpp lines 275-300. -/
def adamRule (eps lr b1 b2 : ℝ) (iter : Nat) : Rule := fun d g c => do
  let c := if c = [] then [zerosLike d, zerosLike d] else c
  let m ← rd c 0
  let v ← rd c 1
  let m ← each2 m.data.length (fun m g => b1 * m + g * (1 - b1)) m g
  let c ← wr c 0 m
  let v ← each2 v.data.length (fun v g => b2 * v + g * g * (1 - b2)) v g
  let c ← wr c 1 v
  let lrt := lr * √(1 - b2 ^ (iter + 1)) / (1 - b1 ^ (iter + 1))
  if 1 < iter then do
    let d ← each3 d.data.length (fun d m v => d - lrt * m / (eps + √v)) d m v
    pure (d, g, c)
  else do
    let d ← each2 d.data.length (fun d g => d - lr * g) d g
    pure (d, g, c)

structure Adam where
  lr : ℝ
  b1 : ℝ
  b2 : ℝ
  iter : Nat

/-- include/optimizer.hpp lines 260-265. -/
def Adam.mk' (batch : Nat) (lr b1 b2 : ℝ) : Res Adam := do
  Res.assert (1 ≤ batch)
  pure ⟨lr / batch, b1, b2, 0⟩

/-- include/optimizer.hpp lines 267-307. -/
def Adam.step (eps : ℝ) (loss : Ex ℝ) (o : Adam) (s : OSt) : Res (Adam × OSt) := do
  let s ← backprop eps loss s
  let s ← updateAll (adamRule eps o.lr o.b1 o.b2 o.iter) s
  pure ({ o with iter := o.iter + 1 }, s)

/-! ## gradient_descent -/

/-- include/optimizer.hpp lines 347-349 (the momentum is not used). -/
def gdRule (lr _mom : ℝ) : Rule := fun d g c => do
  let lg : Ten ℝ := ⟨g.shape, g.data.map (fun x => lr * x)⟩
  Res.assert (d.shape = lg.shape)
  let d ← each2 d.data.length (fun x y => x - y) d lg
  pure (d, g, c)

structure Gd where
  lr : ℝ
  mom : ℝ

/-- include/optimizer.hpp lines 330-333. -/
def Gd.mk' (batch : Nat) (lr mom : ℝ) : Gd := ⟨lr / batch, mom⟩

/-- include/optimizer.hpp lines 335-361. -/
def Gd.step (eps : ℝ) (loss : Ex ℝ) (o : Gd) (s : OSt) : Res (Gd × OSt) := do
  let s ← backprop eps loss s
  let s ← updateAll (gdRule o.lr o.mom) s
  pure (o, s)

/-! ## Variables, handles and the session -/

/-- The constructor of a variable: the session remembers a copy with its flag (include/variable.hpp lines 55-63, include/session.hpp
lines 51-56). -/
def createVar (v : Nat) (data : Ten ℝ) (trainable : Bool) (s : OSt) : OSt :=
  { s with
    st := { s.st with data := upd s.st.data v data, grad := upd s.st.grad v (zerosLike data) }
    ctx := upd s.ctx v []
    reg := if v ∈ s.reg.map (·.1) then s.reg else s.reg ++ [(v, trainable)] }

/-- A program with the flags of the handles the user holds (include/variable.hpp line 53). -/
structure Handles where
  flag : Nat → Bool
  s : OSt

/-- Using the handle in an expression copies it, with the flag it has then (e.g. include/operation.hpp lines 146-151). -/
def Handles.use (h : Handles) (v : Nat) (l1 l2 : ℝ) : Ex ℝ := .var v ⟨l1, l2, h.flag v⟩

/-- `variable::trainable( bool )` on the user's handle (include/variable.hpp lines 162-165). -/
def setTrainable (v : Nat) (b : Bool) (h : Handles) : Handles := { h with flag := upd h.flag v b }

end
end Verif.Optim
