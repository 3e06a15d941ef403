import Verif.Parallel.Model
namespace Verif.Parallel

theorem jobSlice_length (a b : Nat) : (jobSlice a b).length = b - a := by
  unfold jobSlice; split <;> simp <;> omega

theorem range'_split (a m n : Nat) : List.range' a m ++ List.range' (a + m) n = List.range' a (m + n) := by
  rw [List.range'_append_1]

/-- First `m` slices together. -/
theorem slices_prefix (t first last m : Nat) (h : first ≤ last) :
    ((List.range m).map (fun index =>
        jobSlice (min (t * index + first) last) (min (min (t * index + first) last + t) last))).flatten
      = List.range' first (min (t * m) (last - first)) := by
  induction m with
  | zero => simp
  | succ m ih =>
    rw [List.range_succ, List.map_append, List.flatten_append, ih]
    simp only [List.map_cons, List.map_nil, List.flatten_cons, List.flatten_nil, List.append_nil]
    rw [Nat.mul_succ]
    generalize t * m = x
    unfold jobSlice
    split
    · have : min (x + t) (last - first) = min x (last - first) := by omega
      rw [this, List.append_nil]
    · have e1 : min (x + first) last = first + min x (last - first) := by omega
      rw [e1, range'_split]
      congr 1; omega

/-- The invariant behind schedule independence. -/
structure FInv {m k : Nat} {α : Type} (f : (Fin k → α) → (Fin k → α)) (progs : Fin m → List Nat)
    (orig : Fin k → Nat → α) (s : Sys m k α) : Prop where
  suffix : ∀ t, (s.thr t).todo <:+ progs t
  pend : ∀ t i rest, (s.thr t).todo = i :: rest → ∀ j ∈ rest, ∀ b, s.mem b j = orig b j
  cur : ∀ t i rest, (s.thr t).todo = i :: rest → ∀ b : Fin k,
    s.mem b i = if b.val + k < (s.thr t).pc then f (fun b => orig b i) b else orig b i
  regs : ∀ t i rest, (s.thr t).todo = i :: rest → ∀ b : Fin k, b.val < (s.thr t).pc → (s.thr t).regs b = orig b i
  fin : ∀ t, ∀ i ∈ progs t, i ∉ (s.thr t).todo → ∀ b, s.mem b i = f (fun b => orig b i) b
  out : ∀ i, (∀ t, i ∉ progs t) → ∀ b, s.mem b i = orig b i
  fresh : ∀ t, (s.thr t).todo = [] ∨ (s.thr t).pc ≤ k + k

variable {m k : Nat} {α : Type}

theorem FInv.step {f : (Fin k → α) → (Fin k → α)} {progs : Fin m → List Nat} {orig : Fin k → Nat → α}
    (hnd : ∀ t, (progs t).Nodup) (hdis : ∀ t t' i, i ∈ progs t → i ∈ progs t' → t = t')
    {s : Sys m k α} (h : FInv f progs orig s) (t : Fin m) : FInv f progs orig (microStep f s t) := by
  unfold microStep
  rcases htodo : (s.thr t).todo with _ | ⟨i, rest⟩
  · simpa [htodo] using h
  · simp only [htodo]
    have hsuf := h.suffix t
    have hmem : ∀ j ∈ (s.thr t).todo, j ∈ progs t := fun j hj => hsuf.subset hj
    have hnd' : (i :: rest).Nodup := by rw [← htodo]; exact (hsuf.sublist.nodup (hnd t))
    have hi : i ∈ progs t := hmem i (by simp [htodo])
    have hirest : i ∉ rest := (List.nodup_cons.mp hnd').1
    split
    · -- load
      rename_i hpc
      refine ⟨?_, ?_, ?_, ?_, ?_, h.out, ?_⟩
      · intro t'; by_cases e : t' = t
        · subst e; simpa [htodo] using hsuf
        · simpa [e] using h.suffix t'
      · intro t' i' rest'; by_cases e : t' = t
        · subst e; simpa [htodo] using h.pend t' i' rest'
        · simpa [e] using h.pend t' i' rest'
      · intro t' i' rest'; by_cases e : t' = t
        · subst e
          simp only [if_true]
          intro he b
          have := h.cur t' i rest htodo b
          obtain ⟨rfl, rfl⟩ := List.cons.inj he
          rw [this, if_neg (by omega), if_neg (by omega)]
        · simpa [e] using h.cur t' i' rest'
      · intro t' i' rest'; by_cases e : t' = t
        · subst e
          simp only [if_true]
          intro he b hb
          obtain ⟨rfl, rfl⟩ := List.cons.inj he
          by_cases hbb : b.val = (s.thr t').pc
          · rw [if_pos hbb]
            have hc := h.cur t' i rest htodo b
            rw [if_neg (by omega)] at hc
            have hbe : b = ⟨(s.thr t').pc, hpc⟩ := Fin.ext hbb
            rw [← hbe, hc]
          · rw [if_neg hbb]
            exact h.regs t' i rest htodo b (by omega)
        · simpa [e] using h.regs t' i' rest'
      · intro t' j hj; by_cases e : t' = t
        · subst e; simpa [htodo] using h.fin t' j hj
        · simpa [e] using h.fin t' j hj
      · intro t'; by_cases e : t' = t
        · subst e
          right; simp only [if_true]; omega
        · simpa [e] using h.fresh t'
    · rename_i hpc
      split
      · -- store
        rename_i hpk
        have hother : ∀ t', t' ≠ t → i ∉ (s.thr t').todo := by
          intro t' ht' hm
          exact ht' (hdis t' t i ((h.suffix t').subset hm) hi)
        have hset : ∀ b j, j ≠ i → setCell s.mem ⟨(s.thr t).pc - k, hpk⟩ i (f (s.thr t).regs ⟨(s.thr t).pc - k, hpk⟩) b j = s.mem b j := by
          intro b j hj; simp [setCell, hj]
        have hregs : (s.thr t).regs = fun b => orig b i := by
          funext b; exact h.regs t i rest htodo b (by omega)
        refine ⟨?_, ?_, ?_, ?_, ?_, ?_, ?_⟩
        · intro t'; by_cases e : t' = t
          · subst e; simpa [htodo] using hsuf
          · simpa [e] using h.suffix t'
        · intro t' i' rest'; by_cases e : t' = t
          · subst e
            simp only [if_true]
            intro he j hj b
            obtain ⟨rfl, rfl⟩ := List.cons.inj he
            rw [hset b j (by rintro rfl; exact hirest hj)]
            exact h.pend t' i rest htodo j hj b
          · simp only [e, if_false]
            intro he j hj b
            rw [hset b j (by rintro rfl; exact hother t' e (by rw [he]; simp [hj]))]
            exact h.pend t' i' rest' he j hj b
        · intro t' i' rest'; by_cases e : t' = t
          · subst e
            simp only [if_true]
            intro he b
            obtain ⟨rfl, rfl⟩ := List.cons.inj he
            have hc := h.cur t' i rest htodo b
            by_cases hb : b = ⟨(s.thr t').pc - k, hpk⟩
            · have hbv : b.val = (s.thr t').pc - k := by rw [hb]
              rw [if_pos (by omega)]
              simp only [setCell, hb, and_self, if_true, hregs]
            · have hbv : b.val ≠ (s.thr t').pc - k := fun hh => hb (Fin.ext hh)
              simp only [setCell, hb, false_and, if_false]
              rw [hc]
              by_cases hlt : b.val + k < (s.thr t').pc
              · rw [if_pos hlt, if_pos (by omega)]
              · rw [if_neg hlt, if_neg (by omega)]
          · simp only [e, if_false]
            intro he b
            rw [hset b i' (by rintro rfl; exact hother t' e (by rw [he]; simp))]
            exact h.cur t' i' rest' he b
        · intro t' i' rest'; by_cases e : t' = t
          · subst e
            simp only [if_true]
            intro he b _
            obtain ⟨rfl, rfl⟩ := List.cons.inj he
            rw [hregs]
          · simpa [e] using h.regs t' i' rest'
        · intro t' j hj; by_cases e : t' = t
          · subst e
            simp only [if_true]
            intro hn b
            rw [hset b j (by rintro rfl; simp at hn)]
            exact h.fin t' j hj (by rw [htodo]; exact hn) b
          · simp only [e, if_false]
            intro hn b
            rw [hset b j (by rintro rfl; exact e (hdis t' t j hj hi))]
            exact h.fin t' j hj hn b
        · intro j hj b
          simp only
          rw [hset b j (by rintro rfl; exact hj t hi)]
          exact h.out j hj b
        · intro t'; by_cases e : t' = t
          · subst e; right; simp only [if_true]; omega
          · simpa [e] using h.fresh t'
      · -- next index
        rename_i hpk
        have hpc2 : (s.thr t).pc = k + k := by
          rcases h.fresh t with hf | hf
          · rw [htodo] at hf; cases hf
          · omega
        refine ⟨?_, ?_, ?_, ?_, ?_, h.out, ?_⟩
        · intro t'; by_cases e : t' = t
          · subst e; simp only [if_true]
            exact (List.suffix_cons i rest).trans (htodo ▸ hsuf)
          · simpa [e] using h.suffix t'
        · intro t' i' rest'; by_cases e : t' = t
          · subst e
            simp only [if_true]
            intro he j hj b
            exact h.pend t' i rest htodo j (by rw [he]; simp [hj]) b
          · simpa [e] using h.pend t' i' rest'
        · intro t' i' rest'; by_cases e : t' = t
          · subst e
            simp only [if_true]
            intro he b
            rw [if_neg (by omega)]
            exact h.pend t' i rest htodo i' (by rw [he]; simp) b
          · simpa [e] using h.cur t' i' rest'
        · intro t' i' rest'; by_cases e : t' = t
          · subst e; simp
          · simpa [e] using h.regs t' i' rest'
        · intro t' j hj; by_cases e : t' = t
          · subst e
            simp only [if_true]
            intro hn b
            by_cases hji : j = i
            · subst hji
              have := h.cur t' j rest htodo b
              rwa [if_pos (by omega)] at this
            · exact h.fin t' j hj (by rw [htodo]; simp [hji, hn]) b
          · simpa [e] using h.fin t' j hj
        · intro t'; by_cases e : t' = t
          · subst e; right; simp
          · simpa [e] using h.fresh t'

theorem FInv.run {f : (Fin k → α) → (Fin k → α)} {progs : Fin m → List Nat} {orig : Fin k → Nat → α}
    (hnd : ∀ t, (progs t).Nodup) (hdis : ∀ t t' i, i ∈ progs t → i ∈ progs t' → t = t')
    (sched : List (Fin m)) {s : Sys m k α} (h : FInv f progs orig s) : FInv f progs orig (runSchedule f s sched) := by
  induction sched generalizing s with
  | nil => exact h
  | cons t sched ih => exact ih (h.step hnd hdis t)

theorem startSys_inv (threads : List (List Nat)) (f : (Fin k → α) → (Fin k → α)) (mem : Fin k → Nat → α) (junk : α) :
    FInv f (fun t : Fin threads.length => threads[t]) mem (startSys threads mem junk) := by
  refine ⟨fun t => List.suffix_rfl, fun _ _ _ _ _ _ _ => rfl, ?_, ?_, ?_, fun _ _ _ => rfl, ?_⟩
  · intro t i rest _ b; simp [startSys]
  · intro t i rest _ b hb; simp [startSys] at hb
  · intro t i hi hn; exact absurd hi hn
  · intro t; right; simp [startSys]

/-- Threads of a duplicate-free call list. -/
theorem nodup_threads {threads : List (List Nat)} (h : threads.flatten.Nodup) :
    (∀ t : Fin threads.length, (threads[t]).Nodup) ∧
    (∀ t t' : Fin threads.length, ∀ i, i ∈ threads[t] → i ∈ threads[t'] → t = t') := by
  rw [List.Nodup, List.pairwise_flatten] at h
  obtain ⟨h1, h2⟩ := h
  refine ⟨fun t => h1 _ (List.getElem_mem _), fun t t' i hi hi' => ?_⟩
  rw [List.pairwise_iff_getElem] at h2
  rcases Nat.lt_trichotomy t.val t'.val with hlt | heq | hgt
  · exact absurd rfl (h2 t.val t'.val t.isLt t'.isLt hlt i hi i hi')
  · exact Fin.ext heq
  · exact absurd rfl (h2 t'.val t.val t'.isLt t.isLt hgt i hi' i hi)

end Verif.Parallel
