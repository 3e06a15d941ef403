import Verif.Basic.Res
/-!
# Model of include/utils/parallel.hpp and include/utils/for_each.hpp
-/
namespace Verif.Parallel

/-- Indices of `range(first, last)` in order (include/utils/range.hpp lines 23-165; for `first <= last`). -/
def rangeCalls (first last : Nat) : List Nat := List.range' first (last - first)

/-- `job_slice` (include/utils/parallel.hpp lines 46-51): the calls made by one worker. -/
def jobSlice (a b : Nat) : List Nat := if a ≥ b then [] else List.range' a (b - a)

/-- `tasks_per_thread` (include/utils/parallel.hpp line 54). -/
def tasksPerThread (cores first last : Nat) : Nat := (last - first + cores - 1) / cores

/-- `parallel( func, dim_first, dim_last, threshold )` (include/utils/parallel.hpp lines 13-70): the list of
threads, each the list of arguments it passes to `func`, in its order; the last one is the calling thread in the
slicing case.  `mode` is `parallel_mode` (include/config.hpp lines 42-46), `cores` is `hardware_concurrency()`.
Meant for `first <= last` (otherwise the C++ range never ends). -/
def parallelThreads (mode cores threshold first last : Nat) : List (List Nat) :=
  if mode = 0 then [rangeCalls first last]
  else if cores ≤ 1 ∨ last - first ≤ threshold then [rangeCalls first last]
  else if last - first ≤ cores then (rangeCalls first last).map (fun i => [i])
  else
    let t := tasksPerThread cores first last
    (List.range (cores - 1)).map (fun index =>
        let f := min (t * index + first) last
        let l := min (f + t) last
        jobSlice f l)
      ++ [jobSlice (t * (cores - 1)) last]

/-- `parallel( func, dim_last )` (include/utils/parallel.hpp lines 91-95): default threshold 8. -/
def parallel1 (mode cores last : Nat) : List (List Nat) := parallelThreads mode cores 8 0 last

/-! ### `for_each` with interleaved workers

`for_each( b0.begin(), b0.end(), b1.begin(), ..., f )` (include/utils/for_each.hpp lines 43-61) runs, for each index,
`f( b0[idx], b1[idx], ... )`.  The element function may read and write its `k` cells.  A worker executes one
load or one store at a time; `f` itself is pure between the loads and the stores. -/

/-- One worker: indices still to do (the first one is being worked on), micro-step within it, loaded values. -/
structure Thread (k : Nat) (α : Type) where
  todo : List Nat
  pc : Nat
  regs : Fin k → α

/-- Shared memory (`k` buffers) and the workers (include/utils/for_each.hpp lines 43-54). -/
structure Sys (m k : Nat) (α : Type) where
  mem : Fin k → Nat → α
  thr : Fin m → Thread k α

/-- Set one memory cell. -/
def setCell {k : Nat} {α : Type} (mem : Fin k → Nat → α) (b : Fin k) (i : Nat) (v : α) : Fin k → Nat → α :=
  fun b' i' => if b' = b ∧ i' = i then v else mem b' i'

/-- One micro-step of worker `t` (lambda in include/utils/for_each.hpp lines 48-51): micro-steps `0..k-1` load
the cells, micro-steps `k..2k-1` store the results, then the next index is taken.  A worker with nothing to do stays put. -/
def microStep {m k : Nat} {α : Type} (f : (Fin k → α) → (Fin k → α)) (s : Sys m k α) (t : Fin m) : Sys m k α :=
  let th := s.thr t
  match th.todo with
  | [] => s
  | i :: rest =>
    if h : th.pc < k then
      { s with thr := fun t' => if t' = t then
          { th with pc := th.pc + 1, regs := fun b => if b.val = th.pc then s.mem ⟨th.pc, h⟩ i else th.regs b } else s.thr t' }
    else if h : th.pc - k < k then
      { mem := setCell s.mem ⟨th.pc - k, h⟩ i (f th.regs ⟨th.pc - k, h⟩)
        thr := fun t' => if t' = t then { th with pc := th.pc + 1 } else s.thr t' }
    else
      { s with thr := fun t' => if t' = t then { th with todo := rest, pc := 0 } else s.thr t' }

/-- Run a schedule: which worker moves at each instant. -/
def runSchedule {m k : Nat} {α : Type} (f : (Fin k → α) → (Fin k → α)) (s : Sys m k α) (sched : List (Fin m)) : Sys m k α :=
  sched.foldl (microStep f) s

/-- Start of `for_each`: all workers created with their slices (include/utils/parallel.hpp lines 36-66). -/
def startSys {k : Nat} {α : Type} (threads : List (List Nat)) (mem : Fin k → Nat → α) (junk : α) : Sys threads.length k α :=
  { mem := mem, thr := fun t => ⟨threads[t], 0, fun _ => junk⟩ }

/-- All workers joined (include/utils/parallel.hpp lines 40-41, 67-68). -/
def Joined {m k : Nat} {α : Type} (s : Sys m k α) : Prop := ∀ t, (s.thr t).todo = []

end Verif.Parallel
