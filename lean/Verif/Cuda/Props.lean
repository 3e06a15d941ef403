import Verif.Cuda.Lemmas
import Verif.Gemm.Props
/-!
# Property C123: matrix products on the device
-/
namespace Verif.Cuda
open Verif Res Gemm

variable {α : Type}

/-- Where entry `(l,i)` of a stored `n x k` matrix is. -/
def idx (t : Bool) (n k l i : Nat) : Nat := if t then i * n + l else l * k + i

theorem idx_lt {t : Bool} {n k l i : Nat} (hl : l < n) (hi : i < k) : idx t n k l i < n * k := by
  unfold idx
  cases t
  · exact lt_mul_of_lt hl hi
  · have := lt_mul_of_lt hi hl
    rw [Nat.mul_comm n k]
    exact this

theorem stores_at {B : List α} {t : Bool} {n k : Nat} {b : Nat → Nat → α} (h : Stores B t n k b) :
    B.length = n * k ∧ ∀ l i, l < n → i < k → B[idx t n k l i]? = some (b l i) := by
  unfold Stores at h
  unfold idx
  cases t
  · simp only [Bool.false_eq_true, if_false] at h ⊢; exact h
  · simp only [if_true] at h ⊢
    exact ⟨by rw [h.1, Nat.mul_comm], fun l i hl hi => h.2 i l hi hl⟩

/-- The state of the device memory before the call of cuBLAS. -/
theorem loaded {w m n k : Nat} (hw : 0 < w) {A B : List α} {fa fb : Nat → α} (hA : ∀ i, i < m * n → A[i]? = some (fa i)) (hB : ∀ i, i < n * k → B[i]? = some (fb i))
    (b : Block α) (hb : w * (m * n + n * k) ≤ b.bytes) :
    ∃ b1 b2, copyIn w (m * n) 0 A b = ok b1 ∧ copyIn w (n * k) (w * (m * n)) B b1 = ok b2 ∧ b2.bytes = b.bytes ∧
      (∀ i, i < m * n → b2.cells (w * i) = some (w, fa i)) ∧ (∀ i, i < n * k → b2.cells (w * (m * n) + w * i) = some (w, fb i)) ∧
      (∀ q, w * (m * n + n * k) ≤ q → b.cells q = none → b2.cells q = none) := by
  have e1 : m * n * w = w * (m * n) := Nat.mul_comm _ _
  have e2 : n * k * w = w * (n * k) := Nat.mul_comm _ _
  have e3 : w * (m * n + n * k) = w * (m * n) + w * (n * k) := Nat.mul_add _ _ _
  obtain ⟨b1, c1, c2, c3, c4, -⟩ := copyIn_ok (p := 0) hw hA (b := b) (by omega)
  obtain ⟨b2, d1, d2, d3, d4, d5⟩ := copyIn_ok (p := w * (m * n)) hw hB (b := b1) (by omega)
  refine ⟨b1, b2, c1, d1, d2.trans c2, fun i hi => ?_, fun i hi => ?_, fun q hq hn => ?_⟩
  · have h := c3 i hi
    rw [Nat.zero_add, Nat.mul_comm] at h
    have : w * (i + 1) ≤ w * (m * n) := Nat.mul_le_mul_left w hi
    rw [Nat.mul_add, Nat.mul_one] at this
    exact d5 _ _ _ h (Or.inl this) hw
  · have h := d3 i hi
    rwa [Nat.mul_comm i w] at h
  · exact d4 q (by omega) (c4 q (by omega) hn)

theorem gemmCall_sizes {w m n k : Nat} {aT bT : Bool} (hm : m < 2 ^ 31) (hn : n < 2 ^ 31) (hk : k < 2 ^ 31) :
    (gemmCall w aT bT m n k).M = k ∧ (gemmCall w aT bT m n k).N = m ∧ (gemmCall w aT bT m n k).K = n ∧
    (gemmCall w aT bT m n k).lda = ((if bT then n else k : Nat) : Int) ∧ (gemmCall w aT bT m n k).ldb = ((if aT then m else n : Nat) : Int) ∧
    (gemmCall w aT bT m n k).ldc = k := by
  refine ⟨toInt_small hk, toInt_small hm, toInt_small hn, toInt_small ?_, toInt_small ?_, toInt_small hk⟩
  · cases bT <;> simpa
  · cases aT <;> simpa

/-- The call of cuBLAS, and the copy back. -/
theorem gemm_block [CommSemiring α] {cublas : Call → Block α → Res (Block α)} (hcu : MeetsCublas cublas) {w m n k : Nat} {aT bT : Bool} (hw : 0 < w)
    (hm : 0 < m) (hn : 0 < n) (hk : 0 < k) (hm' : m < 2 ^ 31) (hn' : n < 2 ^ 31) (hk' : k < 2 ^ 31) {A B C : List α} {a b : Nat → Nat → α}
    (hA : Stores A aT m n a) (hB : Stores B bT n k b) (hC : C.length = m * k) (bl : Block α) (hb : w * (m * n + n * k + m * k) ≤ bl.bytes) :
    ∃ b1 b2 b3 C', copyIn w (m * n) 0 A bl = ok b1 ∧ copyIn w (n * k) (w * (m * n)) B b1 = ok b2 ∧ cublas (gemmCall w aT bT m n k) b2 = ok b3 ∧
      copyOut w (m * k) (w * (m * n + n * k)) b3 C = ok C' ∧ b3.bytes = bl.bytes ∧ Is2 C' m k (fun r c => ∑ l ∈ Finset.range n, a r l * b l c) := by
  obtain ⟨lA, sA⟩ := stores_at hA
  obtain ⟨lB, sB⟩ := stores_at hB
  have e3 : w * (m * n + n * k) = w * (m * n) + w * (n * k) := Nat.mul_add _ _ _
  have e4 : w * (m * n + n * k + m * k) = w * (m * n + n * k) + w * (m * k) := Nat.mul_add _ _ _
  have gA : ∀ i, i < m * n → A[i]? = some (A[i]?.getD 0) := fun i hi => by rw [List.getElem?_eq_getElem (by omega)]; rfl
  have gB : ∀ i, i < n * k → B[i]? = some (B[i]?.getD 0) := fun i hi => by rw [List.getElem?_eq_getElem (by omega)]; rfl
  obtain ⟨b1, b2, c1, c2, c3, c4, c5, -⟩ := loaded hw gA gB bl (by omega)
  obtain ⟨q1, q2, q3, q4, q5, q6⟩ := gemmCall_sizes (w := w) (aT := aT) (bT := bT) hm' hn' hk'
  have pA : ∀ i l, posA (gemmCall w aT bT m n k) i l = w * (m * n) + w * idx bT n k l i := by
    intro i l
    unfold posA
    rw [q4]
    unfold idx
    cases bT <;> simp [gemmCall, Nat.add_comm]
  have pB : ∀ l j, posB (gemmCall w aT bT m n k) l j = w * idx aT m n j l := by
    intro l j
    unfold posB
    rw [q5]
    unfold idx
    cases aT <;> simp [gemmCall, Nat.add_comm]
  have pC : ∀ i j, posC (gemmCall w aT bT m n k) i j = w * (m * n + n * k) + w * (j * k + i) := by
    intro i j
    unfold posC
    rw [q6]
    simp [gemmCall, Nat.add_comm]
  have step : ∀ {x y : Nat}, x < y → w * x + w ≤ w * y := fun {x y} h => by
    have := Nat.mul_le_mul_left w (Nat.succ_le_of_lt h)
    rwa [Nat.mul_succ] at this
  have hqw : (gemmCall w aT bT m n k).width = w := rfl
  have tA : (gemmCall w aT bT m n k).transA = bT := rfl
  have tB : (gemmCall w aT bT m n k).transB = aT := rfl
  obtain ⟨b3, r1, r2, r3, -⟩ := hcu.works (gemmCall w aT bT m n k) b2 (fun i l => b l i) (fun l j => a j l)
    (by
      unfold Illegal
      rw [q1, q2, q3, q4, q5, q6, tA, tB]
      cases aT <;> cases bT <;> simp <;> omega)
    hw
    (by
      rw [q1, q3, hqw]
      simp only [Int.toNat_natCast]
      intro i l hi hl
      rw [pA, c5 _ (idx_lt hl hi), sB l i hl hi]; rfl)
    (by
      rw [q2, q3, hqw]
      simp only [Int.toNat_natCast]
      intro l j hl hj
      rw [pB, c4 _ (idx_lt hj hl), sA j l hj hl]; rfl)
    (by
      rw [q1, q2, hqw]
      simp only [Int.toNat_natCast]
      intro i j hi hj
      rw [pC, c3]
      have := step (lt_mul_of_lt hj hi)
      omega)
    (by
      rw [q1, q2, q3, hqw]
      simp only [Int.toNat_natCast]
      intro i j i' l hi hj hi' hl
      rw [pC, pA]
      have := step (idx_lt (t := bT) hl hi')
      exact Or.inr (by omega))
    (by
      rw [q1, q2, q3, hqw]
      simp only [Int.toNat_natCast]
      intro i j l j' hi hj hl hj'
      rw [pC, pB]
      have := step (idx_lt (t := aT) hj' hl)
      exact Or.inr (by omega))
  rw [q1, q2, q3, hqw] at r3
  simp only [Int.toNat_natCast] at r3
  obtain ⟨C', o1, o2, o3⟩ := copyOut_ok (w := w) (n := m * k) (p := w * (m * n + n * k)) (b := b3)
    (f := fun p => prod n (fun i l => b l i) (fun l j => a j l) (p % k) (p / k)) (fun p hp => by
      have := r3 (p % k) (p / k) (Nat.mod_lt _ hk) (Nat.div_lt_of_lt_mul (by rwa [Nat.mul_comm] at hp))
      rw [pC, Nat.div_add_mod' p k] at this
      rw [Nat.mul_comm p w]
      exact this) C hC
  refine ⟨b1, b2, b3, C', c1, c2, r1, o1, r2.trans c3, o2, fun r c hr hc => ?_⟩
  rw [o3 _ (lt_mul_of_lt hr hc)]
  obtain ⟨d1, d2⟩ := div_mod_eq (i := r) (j := c) (m := k) hc
  simp only [d1, d2, prod]
  congr 1
  exact Finset.sum_congr rfl (fun l _ => mul_comm _ _)

/-- **C123** (one product). Whatever library is linked, if it does what is documented and memory is granted: for all matrices of `float` (`w = 4`) or `double` (`w = 8`),
all transpose flags, whatever the device held before, `cuda_gemm` leaves in C the product of `gemm_cpu`, never touches memory outside its block and has the only live
block afterwards. -/
theorem cuda_same_product [CommSemiring α] (cublas : Call → Block α → Res (Block α)) (hcu : MeetsCublas cublas) (grant : Grant) (w : Nat) (hw : w = 4 ∨ w = 8)
    (A B C : List α) (aT bT : Bool) (m n k : Nat) (a b : Nat → Nat → α) (hA : Stores A aT m n a) (hB : Stores B bT n k b) (hC : C.length = m * k)
    (hm : 0 < m) (hn : 0 < n) (hk : 0 < k) (hm' : m < 2 ^ 31) (hn' : n < 2 ^ 31) (hk' : k < 2 ^ 31) (d : Dev α) (hd : Good d)
    (hfit : (m * n + n * k + m * k) * w + d.size + 2 ^ 20 < 2 ^ 64)
    (hg : d.size < (m * n + n * k + m * k) * w → grant d.blocks.length ((1 + ((m * n + n * k + m * k) * w + d.size) / 2 ^ 20) * 2 ^ 20) = true) :
    ∃ C' d', cudaGemm grant cublas w A aT B bT m n k C d = ok (C', d') ∧ gemmCpu A aT B bT m n k C = ok C' ∧
      Is2 C' m k (fun r c => ∑ l ∈ Finset.range n, a r l * b l c) ∧ Good d' ∧ d'.size ≤ max d.size (2 * ((m * n + n * k + m * k) * w) + 2 ^ 20) := by
  have hw0 : 0 < w := by omega
  have hdvd : w ∣ 2 ^ 20 := by
    rcases hw with rfl | rfl
    · exact ⟨2 ^ 18, by norm_num⟩
    · exact ⟨2 ^ 17, by norm_num⟩
  have hpos : 0 < m * n + n * k + m * k := by
    have := Nat.mul_pos hm hn
    omega
  have hle : m * n + n * k + m * k ≤ (m * n + n * k + m * k) * w := Nat.le_mul_of_pos_right _ hw0
  obtain ⟨d', i, bl, s1, s2, s3, s4, s5, s6, s7⟩ := reserve_ok (grant := grant) hd hdvd (Nat.mul_pos hpos hw0) hfit hg
  obtain ⟨b1, b2, b3, C', c1, c2, c3, c4, c5, c6⟩ := gemm_block hcu hw0 hm hn hk hm' hn' hk' hA hB hC bl (by rw [Nat.mul_comm, s4]; exact s5)
  have hlt : i < d'.blocks.length := by
    by_contra hc
    rw [List.getElem?_eq_none (by omega)] at s3
    cases s3
  refine ⟨C', { d' with blocks := d'.blocks.set i (some b3) }, ?_, ?_, c6, Or.inr ⟨?_, i, b3, s2, ?_, ?_, fun j b' hj => ?_⟩, ?_⟩
  · unfold cudaGemm
    rw [wrap_lt (by omega), s1, bind_ok, s2]
    simp only [s3, c1, bind_ok, c2, c3, c4]
    rfl
  · obtain ⟨C2, h1, h2⟩ := gemm_is_matrix_product A B C aT bT m n k a b hA hB hC
    rw [h1]
    congr 1
    exact Is2.ext h2 c6
  · show 0 < d'.size
    have := Nat.mul_pos hpos hw0
    omega
  · exact List.getElem?_set_self hlt
  · exact c5.trans s4
  · show (d'.blocks.set i (some b3))[j]? ≠ _
    rw [List.getElem?_set_ne (Ne.symm hj)]
    exact s6 j b' hj
  · show d'.size ≤ _
    rcases s7 with ⟨-, rfl⟩ | ⟨h1, h2, -⟩
    · exact le_max_left _ _
    · rw [h2]
      have := roundUp ((m * n + n * k + m * k) * w + d.size)
      exact le_max_of_le_right (by omega)

/-! ### whole programs -/

/-- The arguments of one product. -/
structure Job (α : Type) where
  w : Nat
  A : List α
  aT : Bool
  B : List α
  bT : Bool
  m : Nat
  n : Nat
  k : Nat
  C : List α

/-- Bytes needed on the device. -/
def Job.need (j : Job α) : Nat := (j.m * j.n + j.n * j.k + j.m * j.k) * j.w

/-- A product a program may ask for: matrices in buffers of their size, not empty, sizes that are an `int`. -/
def Job.Legal (j : Job α) : Prop :=
  (j.w = 4 ∨ j.w = 8) ∧ j.A.length = j.m * j.n ∧ j.B.length = j.n * j.k ∧ j.C.length = j.m * j.k ∧
  (0 < j.m ∧ j.m < 2 ^ 31) ∧ (0 < j.n ∧ j.n < 2 ^ 31) ∧ (0 < j.k ∧ j.k < 2 ^ 31)

/-- A program that makes some products, one after the other, and ends. -/
def program (grant : Grant) (cublas : Call → Block α → Res (Block α)) : List (Job α) → Dev α → Res (List (List α) × Dev α)
  | [], d => do
    let d ← destroy d
    pure ([], d)
  | j :: js, d => do
    let (C, d) ← cudaGemm grant cublas j.w j.A j.aT j.B j.bT j.m j.n j.k j.C d
    let (Cs, d) ← program grant cublas js d
    pure (C :: Cs, d)

theorem stored [Zero α] {A : List α} {t : Bool} {m n : Nat} (h : A.length = m * n) : ∃ a, Stores A t m n a := by
  cases t
  · refine ⟨fun i j => A[i * n + j]?.getD 0, h, fun i j hi hj => ?_⟩
    have hl : i * n + j < A.length := by rw [h]; exact lt_mul_of_lt hi hj
    simp only [List.getElem?_eq_getElem hl, Option.getD_some]
  · refine ⟨fun i j => A[j * m + i]?.getD 0, by rw [h, Nat.mul_comm], fun i j hi hj => ?_⟩
    have hl : i * m + j < A.length := by rw [h, Nat.mul_comm m n]; exact lt_mul_of_lt hi hj
    simp only [List.getElem?_eq_getElem hl, Option.getD_some]

theorem destroy_ok {d : Dev α} (hd : Good d) : ∃ d', destroy d = ok d' ∧ ∀ (j : Nat) (b : Block α), d'.blocks[j]? ≠ some (some b) := by
  unfold destroy release
  by_cases hs : 0 < d.size
  · obtain ⟨d', h1, -, -, h4⟩ := good_release hd hs
    rw [if_pos hs, h1]
    exact ⟨_, rfl, h4⟩
  · rw [if_neg hs]
    rcases hd with ⟨-, h⟩ | ⟨h, -⟩
    · exact ⟨_, rfl, h⟩
    · omega

/-- **C123** (whole programs). Every program that makes any number of such products, of `float` and `double` in any order, gets from each of them what `gemm_cpu` computes;
when it ends, every block of device memory has been released, and none twice. -/
theorem cuda_programs [CommSemiring α] (cublas : Call → Block α → Res (Block α)) (hcu : MeetsCublas cublas) (grant : Grant) (hg : ∀ i n, grant i n = true)
    (js : List (Job α)) (hj : ∀ j ∈ js, j.Legal ∧ j.need ≤ 2 ^ 62) (d : Dev α) (hd : Good d) (hs : d.size ≤ 2 ^ 63 + 2 ^ 20) :
    ∃ Cs d', program grant cublas js d = ok (Cs, d') ∧ List.Forall₂ (fun j C' => gemmCpu j.A j.aT j.B j.bT j.m j.n j.k j.C = ok C') js Cs ∧
      ∀ (j : Nat) (b : Block α), d'.blocks[j]? ≠ some (some b) := by
  induction js generalizing d with
  | nil =>
    obtain ⟨d', h1, h2⟩ := destroy_ok hd
    exact ⟨[], d', by simp only [program, h1, bind_ok, pure_eq], .nil, h2⟩
  | cons j js ih =>
    obtain ⟨⟨hw, lA, lB, lC, ⟨hm, hm'⟩, ⟨hn, hn'⟩, hk, hk'⟩, hneed⟩ := hj j (by simp)
    obtain ⟨a, hA⟩ := stored (t := j.aT) lA
    obtain ⟨b, hB⟩ := stored (t := j.bT) lB
    unfold Job.need at hneed
    obtain ⟨C', d1, e1, e2, -, e4, e5⟩ := cuda_same_product cublas hcu grant j.w hw j.A j.B j.C j.aT j.bT j.m j.n j.k a b hA hB lC hm hn hk hm' hn' hk' d hd
      (by omega) (fun _ => hg _ _)
    obtain ⟨Cs, d', f1, f2, f3⟩ := ih (fun j' hj' => hj j' (by simp [hj'])) d1 e4 (by omega)
    exact ⟨C' :: Cs, d', by simp only [program, e1, bind_ok, f1, pure_eq], .cons e2 f2, f3⟩

/-! ### memory that is not granted, and sizes that are no `int` -/

/-- **C123** (violated: no memory). If the device has no memory left for a product, nothing is reported - neither by `cuda_gemm`, which asserts on all other calls, nor to
the caller: the copies go to an indeterminate address. -/
theorem cuda_no_memory_violated (cublas : Call → Block α → Res (Block α)) (grant : Grant) (w : Nat) (A B C : List α) (aT bT : Bool) (m n k : Nat) (d : Dev α) (hd : Good d)
    (hw : w ∣ 2 ^ 20) (hfit : (m * n + n * k + m * k) * w + d.size + 2 ^ 20 < 2 ^ 64) (hneed : d.size < (m * n + n * k + m * k) * w)
    (hg : grant d.blocks.length ((1 + ((m * n + n * k + m * k) * w + d.size) / 2 ^ 20) * 2 ^ 20) = false) :
    cudaGemm grant cublas w A aT B bT m n k C d = ub := by
  have hw0 : 0 < w := Nat.pos_of_dvd_of_pos hw (by norm_num)
  have hle : m * n + n * k + m * k ≤ (m * n + n * k + m * k) * w := Nat.le_mul_of_pos_right _ hw0
  obtain ⟨d1, e1, e2, e3, -⟩ : ∃ d1, release d = ok d1 ∧ d1.size = d.size ∧ d1.blocks.length = d.blocks.length ∧ ∀ (j : Nat) (b : Block α), d1.blocks[j]? ≠ some (some b) := by
    unfold release
    by_cases hs : 0 < d.size
    · rw [if_pos hs]; exact good_release hd hs
    · rw [if_neg hs]
      rcases hd with ⟨-, h⟩ | ⟨h, -⟩
      · exact ⟨d, rfl, rfl, rfl, h⟩
      · omega
  obtain ⟨r1, r2⟩ := roundUp ((m * n + n * k + m * k) * w + d.size)
  have hdiv : (1 + ((m * n + n * k + m * k) * w + d.size) / 2 ^ 20) * 2 ^ 20 / w * w = (1 + ((m * n + n * k + m * k) * w + d.size) / 2 ^ 20) * 2 ^ 20 :=
    Nat.div_mul_cancel (Dvd.dvd.mul_left hw _)
  unfold cudaGemm reserve
  rw [wrap_lt (show m * n + n * k + m * k < 2 ^ 64 by omega), wrap_lt (show (m * n + n * k + m * k) * w < 2 ^ 64 by omega), if_neg (by omega),
    wrap_lt (show (m * n + n * k + m * k) * w + d.size < 2 ^ 64 by omega), wrap_lt (show (1 + ((m * n + n * k + m * k) * w + d.size) / 2 ^ 20) * 2 ^ 20 < 2 ^ 64 by omega), e1]
  simp only [bind_ok, pure_eq, allocate, hdiv, wrap_lt (show (1 + ((m * n + n * k + m * k) * w + d.size) / 2 ^ 20) * 2 ^ 20 < 2 ^ 64 by omega), e3, hg, Bool.false_eq_true, if_false]

theorem toInt_cases (m : Nat) (h : 2 ^ 31 ≤ m) : toInt m < 0 ∨ ∃ m' : Nat, toInt m = m' ∧ m' < m ∧ m' < 2 ^ 31 := by
  unfold toInt
  by_cases hc : m % 2 ^ 32 < 2 ^ 31
  · rw [if_pos hc]
    exact Or.inr ⟨m % 2 ^ 32, rfl, by omega, hc⟩
  · rw [if_neg hc]
    left
    have := Nat.mod_lt m (show 0 < 2 ^ 32 by norm_num)
    omega

/-- **C123** (violated: many rows). With `2^31` rows or more - images times pixels, for a convolution - the number of rows is no `int`: the first product of a program never
returns a result, whatever the matrices. -/
theorem cuda_rows_violated [CommSemiring α] (cublas : Call → Block α → Res (Block α)) (hcu : MeetsCublas cublas) (grant : Grant) (hg : ∀ i n, grant i n = true) (w : Nat)
    (hw : w ∣ 2 ^ 20) (A B C : List α) (aT bT : Bool) (m n k : Nat) (lA : A.length = m * n) (lB : B.length = n * k) (hm : 2 ^ 31 ≤ m) (hn : 0 < n) (hk : 0 < k)
    (hn' : n < 2 ^ 31) (hk' : k < 2 ^ 31) (hfit : (m * n + n * k + m * k) * w + 2 ^ 20 < 2 ^ 64) (z : List α × Dev α) :
    cudaGemm grant cublas w A aT B bT m n k C start ≠ ok z := by
  intro h
  have hw0 : 0 < w := Nat.pos_of_dvd_of_pos hw (by norm_num)
  have hpos : 0 < m * n + n * k + m * k := by
    have := Nat.mul_pos hn hk
    omega
  have hle : m * n + n * k + m * k ≤ (m * n + n * k + m * k) * w := Nat.le_mul_of_pos_right _ hw0
  have hgood : Good (start : Dev α) := Or.inl ⟨rfl, fun j b => by simp [start]⟩
  have hs0 : (start : Dev α).size = 0 := rfl
  obtain ⟨d', i, bl, s1, s2, s3, s4, s5, -, s7⟩ := reserve_ok (grant := grant) (d := (start : Dev α)) hgood hw (Nat.mul_pos hpos hw0) (by omega) (fun _ => hg _ _)
  have hnone : ∀ p, bl.cells p = none := by
    rcases s7 with ⟨h1, -⟩ | ⟨-, -, h3⟩
    · have := Nat.mul_pos hpos hw0; omega
    · exact h3
  have e3 : w * (m * n + n * k) = w * (m * n) + w * (n * k) := Nat.mul_add _ _ _
  have e4 : w * (m * n + n * k + m * k) = w * (m * n + n * k) + w * (m * k) := Nat.mul_add _ _ _
  have hroom : w * (m * n + n * k + m * k) ≤ bl.bytes := by rw [Nat.mul_comm, s4]; exact s5
  have gA : ∀ i, i < m * n → A[i]? = some (A[i]?.getD 0) := fun i hi => by rw [List.getElem?_eq_getElem (by omega)]; rfl
  have gB : ∀ i, i < n * k → B[i]? = some (B[i]?.getD 0) := fun i hi => by rw [List.getElem?_eq_getElem (by omega)]; rfl
  obtain ⟨b1, b2, c1, c2, c3, c4, c5, c6⟩ := loaded hw0 gA gB bl (by omega)
  unfold cudaGemm at h
  rw [wrap_lt (by omega), s1, bind_ok, s2] at h
  simp only [s3, c1, bind_ok, c2] at h
  rw [bind_eq_ok] at h
  obtain ⟨b3, h3, h⟩ := h
  rw [bind_eq_ok] at h
  obtain ⟨C', h4, -⟩ := h
  have hread := copyOut_only h4
  by_cases hi : Illegal (gemmCall w aT bT m n k)
  · rw [hcu.illegal _ _ hi] at h3
    cases h3
  obtain ⟨m', q2, hlt, hm31⟩ : ∃ m' : Nat, toInt m = m' ∧ m' < m ∧ m' < 2 ^ 31 := by
    rcases toInt_cases m hm with h | h
    · exact absurd (Or.inr (Or.inl h)) hi
    · exact h
  have q1 : (gemmCall w aT bT m n k).M = k := toInt_small hk'
  have q2' : (gemmCall w aT bT m n k).N = m' := q2
  have q3 : (gemmCall w aT bT m n k).K = n := toInt_small hn'
  have q4 : (gemmCall w aT bT m n k).lda = ((if bT then n else k : Nat) : Int) := by
    refine toInt_small ?_
    cases bT <;> simpa
  have q5 : (gemmCall w aT bT m n k).ldb = ((if aT then m' else n : Nat) : Int) := by
    cases aT
    · exact toInt_small hn'
    · exact q2
  have q6 : (gemmCall w aT bT m n k).ldc = k := toInt_small hk'
  have hqw : (gemmCall w aT bT m n k).width = w := rfl
  have pA : ∀ i l, posA (gemmCall w aT bT m n k) i l = w * (m * n) + w * idx bT n k l i := by
    intro i l
    unfold posA
    rw [q4]
    unfold idx
    cases bT <;> simp [gemmCall, Nat.add_comm]
  have pB : ∀ l j, posB (gemmCall w aT bT m n k) l j = w * idx aT m' n j l := by
    intro l j
    unfold posB
    rw [q5]
    unfold idx
    cases aT <;> simp [gemmCall, Nat.add_comm]
  have pC : ∀ i j, posC (gemmCall w aT bT m n k) i j = w * (m * n + n * k) + w * (j * k + i) := by
    intro i j
    unfold posC
    rw [q6]
    simp [gemmCall, Nat.add_comm]
  have step : ∀ {x y : Nat}, x < y → w * x + w ≤ w * y := fun {x y} h => by
    have := Nat.mul_le_mul_left w (Nat.succ_le_of_lt h)
    rwa [Nat.mul_succ] at this
  have small : ∀ {l j}, j < m' → l < n → idx aT m' n j l < m * n := fun hj hl =>
    lt_of_lt_of_le (idx_lt hj hl) (Nat.mul_le_mul_right n hlt.le)
  obtain ⟨b3', r1, r2, r3, r4, -⟩ := hcu.works (gemmCall w aT bT m n k) b2 (fun i l => B[idx bT n k l i]?.getD 0) (fun l j => A[idx aT m' n j l]?.getD 0) hi hw0
    (by
      rw [q1, q3, hqw]
      simp only [Int.toNat_natCast]
      intro i l hi hl
      rw [pA, c5 _ (idx_lt hl hi)])
    (by
      rw [q2', q3, hqw]
      simp only [Int.toNat_natCast]
      intro l j hl hj
      rw [pB, c4 _ (small hj hl)])
    (by
      rw [q1, q2', hqw]
      simp only [Int.toNat_natCast]
      intro i j hi hj
      rw [pC, c3]
      have := step (lt_mul_of_lt (hj.trans hlt) hi)
      omega)
    (by
      rw [q1, q2', q3, hqw]
      simp only [Int.toNat_natCast]
      intro i j i' l hi hj hi' hl
      rw [pC, pA]
      have := step (idx_lt (t := bT) hl hi')
      exact Or.inr (by omega))
    (by
      rw [q1, q2', q3, hqw]
      simp only [Int.toNat_natCast]
      intro i j l j' hi hj hl hj'
      rw [pC, pB]
      have := step (small hj' hl)
      exact Or.inr (by omega))
  rw [h3] at r1
  cases r1
  rw [q1, q2'] at r4
  simp only [Int.toNat_natCast] at r4
  have hmk : (m - 1) * k + k = m * k := by
    rw [← Nat.succ_mul]
    congr 1
    omega
  obtain ⟨v, hv⟩ := hread ((m - 1) * k) (by omega)
  have hempty : b3.cells (w * (m * n + n * k) + (m - 1) * k * w) = none := by
    refine r4 _ (fun i j hi hj => ?_) (c6 _ (Nat.le_add_right _ _) (hnone _))
    rw [pC, Nat.mul_comm ((m - 1) * k) w]
    have : j * k + i < (m - 1) * k := by
      have h1 : j + 1 ≤ m - 1 := by omega
      have h2 := Nat.mul_le_mul_right k h1
      rw [Nat.succ_mul] at h2
      omega
    have := step this
    omega
  rw [get_none hempty] at hv
  cases hv

end Verif.Cuda
