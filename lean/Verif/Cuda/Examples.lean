import Verif.Cuda.Dispatch
/-!
# Property C123: examples
-/
namespace Verif.Cuda
open Verif Res Gemm

/-- A 2x3 by 3x2 product, the first operand transposed. -/
def job : Job Int := ⟨4, [1, 4, 2, 5, 3, 6], true, [7, 8, 9, 10, 11, 12], false, 2, 3, 2, [0, 0, 0, 0]⟩

theorem job_legal : job.Legal ∧ job.need ≤ 2 ^ 62 := by
  refine ⟨⟨Or.inl rfl, rfl, rfl, rfl, ?_, ?_, ?_⟩, ?_⟩ <;> simp [job, Job.need]

/-- A product in double, after which the block must grow. -/
def big : Job Int := ⟨8, List.replicate (300 * 200) 1, false, List.replicate (200 * 500) 2, true, 300, 200, 500, List.replicate (300 * 500) 0⟩

theorem big_legal : big.Legal ∧ big.need ≤ 2 ^ 62 := by
  refine ⟨⟨Or.inr rfl, List.length_replicate .., List.length_replicate .., List.length_replicate .., ?_, ?_, ?_⟩, ?_⟩
  · show 0 < 300 ∧ 300 < 2 ^ 31
    omega
  · show 0 < 200 ∧ 200 < 2 ^ 31
    omega
  · show 0 < 500 ∧ 500 < 2 ^ 31
    omega
  · show (300 * 200 + 200 * 500 + 300 * 500) * 8 ≤ 2 ^ 62
    omega

theorem good_start : Good (start (α := Int)) := Or.inl ⟨rfl, fun j b h => by simp [start] at h⟩

/-- `cuda_same_product`, `cuda_programs`: two products of different widths, the small one twice; with the library that exists, the results are the three products and no
block is left. -/
example : ∃ (cublas : Call → Block Int → Res (Block Int)) (Cs : List (List Int)) (d' : Dev Int), program (fun _ _ => true) cublas [job, big, job] start = ok (Cs, d') ∧
    Cs[0]? = some [58, 64, 139, 154] ∧ Cs[2]? = some [58, 64, 139, 154] ∧ ∀ (j : Nat) (b : Block Int), d'.blocks[j]? ≠ some (some b) := by
  obtain ⟨cublas, hcu⟩ := cublas_satisfiable
  obtain ⟨Cs, d', h1, h2, h3⟩ := cuda_programs cublas hcu (fun _ _ => true) (fun _ _ => rfl) [job, big, job]
    (fun j hj => by
      rcases List.mem_cons.mp hj with rfl | hj
      · exact job_legal
      rcases List.mem_cons.mp hj with rfl | hj
      · exact big_legal
      rcases List.mem_cons.mp hj with rfl | hj
      · exact job_legal
      · cases hj) start good_start (by simp [start])
  have hg : gemmCpu job.A job.aT job.B job.bT job.m job.n job.k job.C = ok [58, 64, 139, 154] := by decide
  obtain ⟨c1, _, e1, k2, rfl⟩ := List.forall₂_cons_left_iff.mp h2
  obtain ⟨c2, _, e2, k3, rfl⟩ := List.forall₂_cons_left_iff.mp k2
  obtain ⟨c3, _, e3, k4, rfl⟩ := List.forall₂_cons_left_iff.mp k3
  rw [hg] at e1 e3
  cases e1
  cases e3
  exact ⟨cublas, _, d', h1, rfl, rfl, h3⟩

/-- `gemm_any_backend`: the threshold unknown, the processor slower from 48 on. -/
example : ∃ (cublas : Call → Block Int → Res (Block Int)) (e' : Env Int), gemm (fun _ _ => true) cublas (fun dim => decide (48 ≤ dim)) 5 gemmCpu job.w job.A job.aT job.B job.bT
    job.m job.n job.k job.C ⟨start, 0⟩ = ok ([58, 64, 139, 154], e') := by
  obtain ⟨cublas, hcu⟩ := cublas_satisfiable
  obtain ⟨C', e', h1, h2, -⟩ := gemm_any_backend cublas hcu (fun _ _ => true) (fun _ _ => rfl) gemmCpu cpu_host (fun dim => decide (48 ≤ dim)) 5 job job_legal.1 job_legal.2
    ⟨start, 0⟩ good_start (by simp [start]) (fun _ => ⟨2, by decide, by omega, by omega⟩)
  have hg : gemmCpu job.A job.aT job.B job.bT job.m job.n job.k job.C = ok [58, 64, 139, 154] := by decide
  rw [hg] at h2
  cases h2
  exact ⟨cublas, e', h1⟩

/-- The hypotheses of `blas_host` can be met. -/
example : ∃ host, HostOk (α := Int) host := by
  obtain ⟨blas, h⟩ := blas_spec_satisfiable
  exact ⟨_, blas_host blas h⟩

/-- `cuda_no_memory_violated`: the small product on a device that grants nothing. -/
example (cublas : Call → Block Int → Res (Block Int)) : cudaGemm (fun _ _ => false) cublas 4 job.A true job.B false 2 3 2 job.C start = ub :=
  cuda_no_memory_violated cublas (fun _ _ => false) 4 _ _ _ _ _ 2 3 2 start good_start (by norm_num) (by simp [start]) (by simp [start]) rfl

/-- `cuda_rows_violated`: one column of 2^31 floats. -/
example : ∃ cublas : Call → Block Int → Res (Block Int), ∀ z, cudaGemm (fun _ _ => true) cublas 4 (List.replicate (2 ^ 31 * 1) 0) false [1] false (2 ^ 31) 1 1
    (List.replicate (2 ^ 31 * 1) 0) start ≠ ok z := by
  obtain ⟨cublas, hcu⟩ := cublas_satisfiable
  exact ⟨cublas, cuda_rows_violated cublas hcu (fun _ _ => true) (fun _ _ => rfl) 4 (by norm_num) _ _ _ false false (2 ^ 31) 1 1 (List.length_replicate ..) rfl
    (by omega) (by omega) (by omega) (by omega) (by omega) (by omega)⟩

/-- `gemm_threshold_violated`: the small product on a machine whose processor is always faster. -/
example (cublas : Call → Block Int → Res (Block Int)) (fuel : Nat) (z) :
    gemm (fun _ _ => true) cublas (fun _ => false) fuel gemmCpu 4 job.A true job.B false 2 3 2 job.C ⟨start, 0⟩ ≠ ok z :=
  gemm_threshold_violated _ _ _ (fun _ => rfl) _ _ _ _ _ _ _ _ _ _ _ fuel z

end Verif.Cuda
