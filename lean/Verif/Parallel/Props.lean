import Verif.Parallel.Lemmas
/-!
# C05-C07: parallel and for_each

`parallelThreads` gives for every thread the list of arguments passed to `func`.
"Exactly once for each index" = the calls of all threads together are a permutation of the indices.
-/
namespace Verif.Parallel

/-- In the slicing regime the calls are these, in thread order. -/
theorem slicing_calls (mode cores threshold first last : Nat) (h : first ≤ last) (hm : mode ≠ 0)
    (hc : ¬ (cores ≤ 1 ∨ last - first ≤ threshold)) (hs : ¬ last - first ≤ cores) :
    (parallelThreads mode cores threshold first last).flatten
      = List.range' first (min (tasksPerThread cores first last * (cores - 1)) (last - first))
        ++ jobSlice (tasksPerThread cores first last * (cores - 1)) last := by
  simp only [parallelThreads, hm, if_false, hc, hs, List.flatten_append]
  rw [slices_prefix _ _ _ _ h]
  simp

/-- **C05** (and C06 where it holds): when the range starts at 0, every index is passed to `func` exactly once,
for every mode, core count and threshold. -/
theorem parallel_from_zero (mode cores threshold n : Nat) :
    (parallelThreads mode cores threshold 0 n).flatten.Perm (List.range n) := by
  rw [List.range_eq_range']
  by_cases hm : mode = 0
  · simp [parallelThreads, hm, rangeCalls]
  by_cases hc : cores ≤ 1 ∨ n - 0 ≤ threshold
  · simp [parallelThreads, hm, rangeCalls, ↓reduceIte]
    simp only [Nat.sub_zero] at hc
    simp [hc]
  by_cases hs : n - 0 ≤ cores
  · have : (parallelThreads mode cores threshold 0 n) = (rangeCalls 0 n).map (fun i => [i]) := by
      simp only [parallelThreads, hm, if_false, hc, hs, if_true]
    rw [this]
    simp only [Nat.sub_zero] at hs
    simp [rangeCalls, List.flatten_eq_flatMap, List.flatMap_map]
  · rw [slicing_calls mode cores threshold 0 n (Nat.zero_le _) hm hc hs]
    generalize tasksPerThread cores 0 n * (cores - 1) = x
    unfold jobSlice
    split
    · have : min x (n - 0) = n := by omega
      rw [this, List.append_nil]
    · have e : min x (n - 0) = x := by omega
      rw [e]
      have := range'_split 0 x (n - x)
      rw [Nat.zero_add] at this
      rw [this]
      have e2 : x + (n - x) = n := by omega
      rw [e2]

/-- **C05**: `parallel(f, n)` calls `f(i)` exactly once for each `i < n` and for no other `i`. -/
theorem parallel_each_once (mode cores n : Nat) :
    (∀ i, i < n → (parallel1 mode cores n).flatten.count i = 1) ∧
    (∀ i, n ≤ i → i ∉ (parallel1 mode cores n).flatten) := by
  have h := parallel_from_zero mode cores 8 n
  constructor
  · intro i hi
    rw [parallel1, h.count_eq, List.Nodup.count List.nodup_range, if_pos (List.mem_range.mpr hi)]
  · intro i hi hm
    have := h.mem_iff.mp hm
    rw [List.mem_range] at this
    omega

example : parallel1 1 4 11 = [[0, 1, 2], [3, 4, 5], [6, 7, 8], [9, 10]] := by decide

/-- **C06** does not hold: `parallel(f, 100, 110)` on 4 cores calls `f` with indices below 100 and with some
indices twice. -/
theorem parallel_range_violated :
    ¬ ((parallelThreads 1 4 8 100 110).flatten.Perm (List.range' 100 10)) ∧
    9 ∈ (parallelThreads 1 4 8 100 110).flatten ∧ (parallelThreads 1 4 8 100 110).flatten.count 105 = 2 := by
  refine ⟨fun h => ?_, by decide, by decide⟩
  have := h.count_eq 9
  revert this; decide

/-- **C06**, exactly when it holds in the slicing regime: the range starts at 0 or the last slice is empty. -/
theorem parallel_range_iff (mode cores threshold first last : Nat) (h : first ≤ last) (hm : mode ≠ 0)
    (hc : ¬ (cores ≤ 1 ∨ last - first ≤ threshold)) (hs : ¬ last - first ≤ cores) :
    (parallelThreads mode cores threshold first last).flatten.Perm (List.range' first (last - first))
      ↔ first = 0 ∨ last ≤ tasksPerThread cores first last * (cores - 1) := by
  constructor
  · intro hp
    have hl := hp.length_eq
    rw [slicing_calls mode cores threshold first last h hm hc hs, List.length_append, jobSlice_length,
      List.length_range', List.length_range'] at hl
    omega
  · rintro (rfl | hle)
    · have := parallel_from_zero mode cores threshold last
      rwa [List.range_eq_range'] at this
    · rw [slicing_calls mode cores threshold first last h hm hc hs]
      have e : min (tasksPerThread cores first last * (cores - 1)) (last - first) = last - first := by omega
      rw [e, jobSlice, if_pos (by omega), List.append_nil]

/-- **C06**, the part that holds: sequential mode, one core, at most `threshold` indices, at most one index per core, or a
range starting at 0.  Missing: larger ranges not starting at 0 (see `parallel_range_iff`). -/
theorem parallel_range_partial (mode cores threshold first last : Nat) (h : first ≤ last)
    (hok : mode = 0 ∨ cores ≤ 1 ∨ last - first ≤ threshold ∨ last - first ≤ cores ∨ first = 0) :
    (parallelThreads mode cores threshold first last).flatten.Perm (List.range' first (last - first)) := by
  by_cases hm : mode = 0
  · simp [parallelThreads, hm, rangeCalls]
  by_cases hc : cores ≤ 1 ∨ last - first ≤ threshold
  · simp only [parallelThreads, hm, if_false, hc, if_true]; simp [rangeCalls]
  by_cases hs : last - first ≤ cores
  · have : (parallelThreads mode cores threshold first last) = (rangeCalls first last).map (fun i => [i]) := by
      simp only [parallelThreads, hm, if_false, hc, hs, if_true]
    rw [this]
    simp [rangeCalls, List.flatten_eq_flatMap, List.flatMap_map]
  · exact (parallel_range_iff mode cores threshold first last h hm hc hs).mpr (Or.inl (by omega))

example : parallelThreads 1 16 8 100 110 = [[100], [101], [102], [103], [104], [105], [106], [107], [108], [109]] := by decide

/-- **C07**: `for_each` over `k` buffers of length `n` with an element function `f` on the `k` cells of one index,
executed by the threads of `parallel` under any interleaving `sched` of their loads and stores: once all threads are
joined, cell `i` of every buffer holds what `f` gives on the original cells `i` (the sequential result), for `i < n`, and
cells outside are untouched. -/
theorem for_each_schedule_independent {k : Nat} {α : Type} (mode cores n : Nat)
    (f : (Fin k → α) → (Fin k → α)) (mem : Fin k → Nat → α) (junk : α)
    (sched : List (Fin (parallel1 mode cores n).length))
    (hj : Joined (runSchedule f (startSys (parallel1 mode cores n) mem junk) sched)) :
    ∀ (b : Fin k) (i : Nat),
      (runSchedule f (startSys (parallel1 mode cores n) mem junk) sched).mem b i
        = if i < n then f (fun b' => mem b' i) b else mem b i := by
  have hp := parallel_from_zero mode cores 8 n
  have hnd : (parallel1 mode cores n).flatten.Nodup := hp.nodup_iff.mpr List.nodup_range
  obtain ⟨h1, h2⟩ := nodup_threads hnd
  have hinv := (startSys_inv (parallel1 mode cores n) f mem junk).run h1 h2 sched
  intro b i
  split
  · rename_i hi
    have hm : i ∈ (parallel1 mode cores n).flatten := hp.mem_iff.mpr (List.mem_range.mpr hi)
    obtain ⟨l, hl, hil⟩ := List.mem_flatten.mp hm
    obtain ⟨t, ht, rfl⟩ := List.getElem_of_mem hl
    exact hinv.fin ⟨t, ht⟩ i hil (by rw [hj]; simp) b
  · rename_i hi
    refine hinv.out i (fun t ht => hi ?_) b
    have : i ∈ (parallel1 mode cores n).flatten := List.mem_flatten.mpr ⟨_, List.getElem_mem _, ht⟩
    exact List.mem_range.mp (hp.mem_iff.mp this)

/-- Work left for one worker, in micro-steps. -/
def remaining {k : Nat} {α : Type} (th : Thread k α) : Nat := (k + k + 1) * th.todo.length - th.pc

/-- **C07**, progress: while a worker is not done, letting it move uses up one of its finitely many micro-steps, so every
fair schedule joins. -/
theorem for_each_progress {m k : Nat} {α : Type} (f : (Fin k → α) → (Fin k → α)) (s : Sys m k α) (t : Fin m)
    (hpc : (s.thr t).pc ≤ k + k) (hne : (s.thr t).todo ≠ []) :
    remaining ((microStep f s t).thr t) < remaining (s.thr t) ∧
    ∀ t', t' ≠ t → (microStep f s t).thr t' = s.thr t' := by
  rcases htodo : (s.thr t).todo with _ | ⟨i, rest⟩
  · exact absurd htodo hne
  · have hmul : (k + k + 1) * (rest.length + 1) = (k + k + 1) * rest.length + (k + k + 1) := Nat.mul_succ _ _
    unfold microStep
    simp only [htodo]
    split
    · refine ⟨?_, fun t' ht' => by simp [ht']⟩
      simp only [remaining, if_true, htodo, List.length_cons, hmul]; omega
    · split
      · refine ⟨?_, fun t' ht' => by simp [ht']⟩
        simp only [remaining, if_true, htodo, List.length_cons, hmul]; omega
      · refine ⟨?_, fun t' ht' => by simp [ht']⟩
        simp only [remaining, if_true, htodo, List.length_cons, hmul]; omega

/- Two buffers (k = 2), `g += 10*d`, nine indices on two cores, the two workers strictly alternating. -/
example :
    let f : (Fin 2 → Nat) → (Fin 2 → Nat) := fun x b => if b = 0 then x 0 else x 1 + 10 * x 0
    let s := runSchedule f (startSys (parallel1 1 2 9) (fun b i => if b = 0 then i else 1) 0)
      ((List.range 60).map (fun n => if n % 2 = 0 then ⟨0, by decide⟩ else ⟨1, by decide⟩))
    (∀ t, (s.thr t).todo = []) ∧ s.mem 1 8 = 81 ∧ s.mem 1 9 = 1 := by
  decide +kernel

end Verif.Parallel
