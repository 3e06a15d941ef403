import Verif.Data.Move
import Mathlib.Data.Rat.Floor
/-!
# fit and evaluate (model)

`include/model.hpp` lines 94-226.  What they do with the rest of the program goes through a `Machine`: the place holders, the learning
phase, running the loss and running the optimizer, whatever these are.

Simplified: `validation_split` is an exact number in its documented range [0, 1] (line 148), and `( 1.0 - validation_split ) * loops_per_epoch`
is not rounded before it is truncated.  Printing is left out.  Dividing by zero loops gives a floating-point NaN or infinity in the code; in a
field it gives 0.
-/
namespace Verif.Fit
open Verif Res View Data

variable {σ α : Type}

/-- The rest of the program, with states `σ`. -/
structure Machine (σ α : Type) where
  /-- the contents of the tensors bound to `input_place_holder_` and `ground_truth_place_holder_`: they share their storages with
  `input_samples` and `output_samples` (include/model.hpp lines 116-117, 187-188) -/
  bind : Ten α → Ten α → σ → σ
  /-- `learning_phase = 1` (`true`) or `learning_phase = 0` -/
  phase : Bool → σ → σ
  /-- `s.run( loss_ )` -/
  loss : σ → Res (Ten α × σ)
  /-- `s.run( compiled_optimizer_ )` -/
  step : σ → Res σ

/-- What happened; not in the code. -/
inductive Ev (α : Type) where
  /-- two batches were fed -/
  | feed (x y : Ten α)
  /-- the loss was run and gave this -/
  | loss (e : α)
  /-- the optimizer was run -/
  | step
  deriving DecidableEq

/-- The local variables of `fit` and `evaluate`, the rest of the program and the history. -/
structure Frame (σ α : Type) where
  s : σ
  x : Ten α
  y : Ten α
  te : α
  ve : α
  log : List (Ev α)
  trainErr : List α
  valErr : List α

/-- `as_scalar` (include/tensor.hpp lines 467-471). -/
def asScalar (t : Ten α) : Res α := do
  Res.assert (t.data.length = 1)
  rd t.data 0

/-- Feeding batch `l` and running the loss (include/model.hpp lines 127-130, 204-207). -/
def feed (m : Machine σ α) (inputs outputs : Ten α) (nIn nOut l : Nat) (f : Frame σ α) : Res (α × Frame σ α) := do
  let dx ← copyTo inputs.data (l * nIn) nIn f.x.data 0
  let dy ← copyTo outputs.data (l * nOut) nOut f.y.data 0
  let x : Ten α := ⟨f.x.shape, dx⟩
  let y : Ten α := ⟨f.y.shape, dy⟩
  let (t, s) ← m.loss (m.bind x y f.s)
  let e ← asScalar t
  pure (e, { f with s := s, x := x, y := y, log := f.log ++ [.feed x y, .loss e] })

/-- The body of the loop of `fit` (include/model.hpp lines 203-217). -/
def fitBody [Add α] (m : Machine σ α) (inputs outputs : Ten α) (nIn nOut T l : Nat) (f : Frame σ α) : Res (Frame σ α) := do
  let (e, f) ← feed m inputs outputs nIn nOut l f
  if l ≤ T then do
    let s ← m.step f.s
    pure { f with te := f.te + e, s := s, log := f.log ++ [.step] }
  else pure { f with ve := f.ve + e }

/-- `unsigned long const training_loops = ( 1.0 - validation_split ) * loops_per_epoch` (include/model.hpp line 169). -/
def trainingLoops (split : ℚ) (loops : Nat) : Nat := ⌊(1 - split) * loops⌋₊

/-- The tensor a batch is copied to (include/model.hpp lines 102-105, 108-111, 173-176, 179-182). -/
def batchBuffer [Zero α] (t : Ten α) (bs : Nat) : Res (Ten α) := do
  let sh ← wr t.shape 0 bs
  pure ⟨sh, List.replicate (size sh) 0⟩

/-- `compiled_model::fit` (include/model.hpp lines 163-226). -/
def fit [Zero α] [Add α] [Div α] [NatCast α] (m : Machine σ α) (inputs outputs : Ten α) (bs epochs : Nat) (split : ℚ) (s : σ) : Res (Frame σ α) := do
  let samples ← rd inputs.shape 0
  require (bs ≠ 0)
  let loops := samples / bs
  let T := trainingLoops split loops
  let x ← batchBuffer inputs bs
  let y ← batchBuffer outputs bs
  loop epochs (fun _ f => do
    let f ← loop loops (fitBody m inputs outputs x.data.length y.data.length T) { f with te := 0, ve := 0 }
    pure { f with trainErr := f.trainErr ++ [f.te / (T : α)], valErr := f.valErr ++ [f.ve / ((loops - T : Nat) : α)] })
    ⟨m.phase true (m.bind x y s), x, y, 0, 0, [], [], []⟩

/-- `compiled_model::evaluate` (include/model.hpp lines 94-138). -/
def evaluate [Zero α] [Add α] [Div α] [NatCast α] (m : Machine σ α) (inputs outputs : Ten α) (bs : Nat) (s : σ) : Res (α × Frame σ α) := do
  let samples ← rd inputs.shape 0
  require (bs ≠ 0)
  let loops := samples / bs
  let x ← batchBuffer inputs bs
  let y ← batchBuffer outputs bs
  let f ← loop loops (fun l f => do
    let (e, f) ← feed m inputs outputs x.data.length y.data.length l f
    pure { f with ve := f.ve + e })
    ⟨m.phase false (m.bind x y s), x, y, 0, 0, [], [], []⟩
  pure (f.ve / ((loops : Nat) : α), { f with s := m.phase true f.s })

/-- `compiled_model::train_on_batch` (include/model.hpp lines 247-258). -/
def trainOnBatch (m : Machine σ α) (input output : Ten α) (s : σ) : Res (α × σ) := do
  let (t, s) ← m.loss (m.bind input output (m.phase true s))
  let s ← m.step s
  let e ← asScalar t
  pure (e, s)

end Verif.Fit
