import Verif.Train.Model
import Verif.Optim.Model
import Verif.Fit.Model
/-!
# Training runs on shared storages (model)

`compiled_model::fit`, `evaluate` and `train_on_batch` (include/model.hpp lines 94-258) with tensors as they are in the code: a shape and a pointer to a storage
other tensors may share.  `fit` and `evaluate` copy every batch into two tensors of their own, which are bound to the place holders once; `train_on_batch` binds
the tensors of its caller.

Simplified: as in `Verif.Train`, `Verif.Optim` and `Verif.Fit`; the storages an optimizer changes (a variable's elements, its gradient and its contexts) are read
before they are written.  What operators hold apart from their results (records, padded images) is kept by value, in `κ`.
-/
namespace Verif.Runs
open Verif Res View Tensor Data Graph Optim Fit Train
open Verif.Alias (readT)

noncomputable section

/-- The state of the program: storages, the tensors of the contexts of each variable (`variable_state::contexts_`, include/variable.hpp line 31) and the variables of
the session. -/
structure HO where
  t : TSt ℝ
  ctxT : Nat → List Tn
  reg : List (Nat × Bool)

/-- Reading tensors. -/
def readAll (h : Heap ℝ) : List Tn → Res (List (Ten ℝ))
  | [] => ok []
  | t :: ts => do
    let x ← readT h t
    let xs ← readAll h ts
    pure (x :: xs)

/-- Leaving the contexts of a variable: in the storages of the contexts that are there; the others are new (`zeros_like`, e.g. include/optimizer.hpp lines 56-57). -/
def leaveAll : List Tn → List (Ten ℝ) → Heap ℝ → Res (List Tn × Heap ℝ)
  | _, [], h => ok ([], h)
  | [], y :: ys, h => do
    let (ts, h') ← leaveAll [] ys (leaveNew h y).2
    pure ((leaveNew h y).1 :: ts, h')
  | t :: ts, y :: ys, h => do
    let (t, h) ← leaveAt h t.loc y
    let (ts, h) ← leaveAll ts ys h
    pure (t :: ts, h)

/-- The body of the loop over the variables (include/optimizer.hpp lines 50-66, 95-113, 146-167, 196-240, 271-305, 341-360). -/
def hupdateVar (rule : Rule) (s : HO) (p : Nat × Bool) : Res HO :=
  if p.2 = true then do
    let d ← readT s.t.heap (s.t.varT p.1)
    let g ← readT s.t.heap (s.t.gradT p.1)
    let c ← readAll s.t.heap (s.ctxT p.1)
    let (d, g, c) ← rule d g c
    let (dT, h) ← leaveAt s.t.heap (s.t.varT p.1).loc d
    let (gT, h) ← leaveAt h (s.t.gradT p.1).loc (resetT g)
    let (cT, h) ← leaveAll (s.ctxT p.1) c h
    pure { s with t := { s.t with heap := h, varT := upd s.t.varT p.1 dT, gradT := upd s.t.gradT p.1 gT }, ctxT := upd s.ctxT p.1 cT }
  else ok s

/-- The loop over the variables. -/
def hupdateAll (rule : Rule) (s : HO) : Res HO := s.reg.foldlM (hupdateVar rule) s

/-- An optimizer: what it does with a variable, and how it changes itself. -/
structure Opt (O : Type) where
  rule : O → Rule
  next : O → O

/-- A step of an optimizer, by value (include/optimizer.hpp lines 45-68, 88-115, 139-169, 191-242, 267-307, 335-361). -/
def Opt.step {O : Type} (m : Opt O) (eps : ℝ) (loss : Ex ℝ) (o : O) (s : OSt) : Res (O × OSt) := do
  let s ← backprop eps loss s
  let s ← updateAll (m.rule o) s
  pure (m.next o, s)

/-- `forward` of an optimizer: `loss_.backward( ones<T>( {1, } ) )` and the loop over the variables. -/
def hstep {O : Type} (m : Opt O) (eps : ℝ) (bk : Nat → Bool → BKind) (loss : Ex ℝ) (o : O) (s : HO) : Res (O × HO) := do
  let t ← hbackward eps bk loss none (leaveNew s.t.heap ones1).1 { s.t with heap := (leaveNew s.t.heap ones1).2 }
  let s ← hupdateAll (m.rule o) { s with t := t }
  pure (m.next o, s)

/-- include/optimizer.hpp lines 45-68. -/
def sgdOpt : Opt Sgd := ⟨fun o => sgdRule o.mom o.sch.decayed.lr o.nesterov, fun o => { o with sch := o.sch.decayed.tick }⟩

/-- include/optimizer.hpp lines 88-115. -/
def adagradOpt (eps : ℝ) : Opt Sched := ⟨fun o => adagradRule eps o.decayed.lr, fun o => o.decayed.tick⟩

/-- include/optimizer.hpp lines 139-169. -/
def rmspropOpt (eps : ℝ) : Opt Rmsprop := ⟨fun o => rmspropRule eps o.sch.decayed.lr o.rho o.sch.decayed.iter, fun o => { o with sch := o.sch.decayed.tick }⟩

/-- include/optimizer.hpp lines 191-242. -/
def adadeltaOpt (eps : ℝ) : Opt Adadelta := ⟨fun o => adadeltaRule eps o.lr o.rho, fun o => { o with iter := o.iter + 1 }⟩

/-- include/optimizer.hpp lines 267-307. -/
def adamOpt (eps : ℝ) : Opt Adam := ⟨fun o => adamRule eps o.lr o.b1 o.b2 o.iter, fun o => { o with iter := o.iter + 1 }⟩

/-- include/optimizer.hpp lines 335-361. -/
def gdOpt : Opt Gd := ⟨fun o => gdRule o.lr o.mom, fun o => o⟩

/-- What the tensors bound to the place holders hold. -/
def leafView (s : HO) (k : Nat) : Ten ℝ := (denote s.t.heap (s.t.leafT k)).getD noTensor

/-- What the variables hold. -/
def dataView (s : HO) (v : Nat) : Ten ℝ := (denote s.t.heap (s.t.varT v)).getD noTensor

/-- A compiled model: the loss, what a pass leaves in its operators, where they leave their results and gradients, its place holders and its optimizer
(include/model.hpp lines 70-89). -/
structure Prog (κ O : Type) where
  loss : κ → Ex ℝ
  adv : κ → (Nat → Ten ℝ) → (Nat → Ten ℝ) → Res κ
  fk : Nat → FKind
  bk : Nat → Bool → BKind
  eps : ℝ
  inp : Nat
  gt : Nat
  opt : Opt O

section
variable {κ O : Type}

/-- `s.run( loss_ )` (include/session.hpp lines 58-63). -/
def Prog.hrunLoss (M : Prog κ O) (s : κ × O × HO) : Res (Tn × (κ × O × HO)) := do
  let (x, t) ← hrun M.fk (M.loss s.1) s.2.2.t
  pure (x, (s.1, s.2.1, { s.2.2 with t := t }))

/-- `s.run( compiled_optimizer_ )`. -/
def Prog.hrunOpt (M : Prog κ O) (s : κ × O × HO) : Res (κ × O × HO) := do
  let q ← M.adv s.1 (leafView s.2.2) (dataView s.2.2)
  let (o, h) ← hstep M.opt M.eps M.bk (M.loss s.1) s.2.1 s.2.2
  pure (q, o, h)

/-- `s.bind` of both place holders (include/model.hpp lines 116-117, 187-188, 251-252; include/session.hpp lines 42-47). -/
def Prog.hbind (M : Prog κ O) (x y : Tn) (s : κ × O × HO) : κ × O × HO :=
  (s.1, s.2.1, { s.2.2 with t := { s.2.2.t with leafT := upd (upd s.2.2.t.leafT M.inp x) M.gt y } })

/-- `learning_phase = ...`. -/
def hphase (b : Bool) (s : κ × O × HO) : κ × O × HO := (s.1, s.2.1, { s.2.2 with t := { s.2.2.t with training := b } })

/-- The local variables of `fit` and `evaluate`; `log` is not in the code. -/
structure HFrame (κ O : Type) where
  s : κ × O × HO
  x : Tn
  y : Tn
  te : ℝ
  ve : ℝ
  log : List (Ev ℝ)
  trainErr : List ℝ
  valErr : List ℝ

/-- `std::copy_n` from one storage to another (include/model.hpp lines 127-128, 204-205). -/
def copyBatch (h : Heap ℝ) (src dst : Tn) (s n : Nat) : Res (List ℝ × Heap ℝ) := do
  let b ← rd h src.loc
  let d ← rd h dst.loc
  let d ← copyTo b s n d 0
  let h ← wr h dst.loc d
  pure (d, h)

/-- Another heap. -/
def withHeap (h : Heap ℝ) (s : κ × O × HO) : κ × O × HO := (s.1, s.2.1, { s.2.2 with t := { s.2.2.t with heap := h } })

/-- Feeding batch `l` and running the loss (include/model.hpp lines 127-130, 204-207). -/
def hfeed (M : Prog κ O) (inputs outputs : Tn) (nIn nOut l : Nat) (f : HFrame κ O) : Res (ℝ × HFrame κ O) := do
  let (dx, h) ← copyBatch f.s.2.2.t.heap inputs f.x (l * nIn) nIn
  let (dy, h) ← copyBatch h outputs f.y (l * nOut) nOut
  let (t, s) ← M.hrunLoss (withHeap h f.s)
  let v ← readT s.2.2.t.heap t
  let e ← asScalar v
  pure (e, { f with s := s, log := f.log ++ [.feed ⟨f.x.shape, dx⟩ ⟨f.y.shape, dy⟩, .loss e] })

/-- The body of the loop of `fit` (include/model.hpp lines 203-217). -/
def hfitBody (M : Prog κ O) (inputs outputs : Tn) (nIn nOut T l : Nat) (f : HFrame κ O) : Res (HFrame κ O) := do
  let (e, f) ← hfeed M inputs outputs nIn nOut l f
  if l ≤ T then do
    let s ← M.hrunOpt f.s
    pure { f with te := f.te + e, s := s, log := f.log ++ [.step] }
  else pure { f with ve := f.ve + e }

/-- A tensor for batches (include/model.hpp lines 102-105, 108-111, 173-176, 179-182). -/
def hbuffer (t : Tn) (bs : Nat) (h : Heap ℝ) : Res (Tn × Heap ℝ) := do
  let sh ← wr t.shape 0 bs
  pure (leaveNew h ⟨sh, List.replicate (size sh) 0⟩)

/-- `compiled_model::fit` (include/model.hpp lines 163-226). -/
def hfit (M : Prog κ O) (inputs outputs : Tn) (bs epochs : Nat) (split : ℚ) (s : κ × O × HO) : Res (HFrame κ O) := do
  let samples ← rd inputs.shape 0
  require (bs ≠ 0)
  let loops := samples / bs
  let T := trainingLoops split loops
  let (x, h) ← hbuffer inputs bs s.2.2.t.heap
  let (y, h) ← hbuffer outputs bs h
  loop epochs (fun _ f => do
    let f ← loop loops (hfitBody M inputs outputs (size x.shape) (size y.shape) T) { f with te := 0, ve := 0 }
    pure { f with trainErr := f.trainErr ++ [f.te / (T : ℝ)], valErr := f.valErr ++ [f.ve / ((loops - T : Nat) : ℝ)] })
    ⟨hphase true (M.hbind x y (withHeap h s)), x, y, 0, 0, [], [], []⟩

/-- `compiled_model::evaluate` (include/model.hpp lines 94-138). -/
def hevaluate (M : Prog κ O) (inputs outputs : Tn) (bs : Nat) (s : κ × O × HO) : Res (ℝ × HFrame κ O) := do
  let samples ← rd inputs.shape 0
  require (bs ≠ 0)
  let loops := samples / bs
  let (x, h) ← hbuffer inputs bs s.2.2.t.heap
  let (y, h) ← hbuffer outputs bs h
  let f ← loop loops (fun l f => do
    let (e, f) ← hfeed M inputs outputs (size x.shape) (size y.shape) l f
    pure { f with ve := f.ve + e })
    ⟨hphase false (M.hbind x y (withHeap h s)), x, y, 0, 0, [], [], []⟩
  pure (f.ve / ((loops : Nat) : ℝ), { f with s := hphase true f.s })

/-- `compiled_model::train_on_batch` (include/model.hpp lines 247-258). -/
def htrainOnBatch (M : Prog κ O) (input output : Tn) (s : κ × O × HO) : Res (ℝ × (κ × O × HO)) := do
  let (t, s) ← M.hrunLoss (M.hbind input output (hphase true s))
  let s ← M.hrunOpt s
  let v ← readT s.2.2.t.heap t
  let e ← asScalar v
  pure (e, s)

end
end
end Verif.Runs
