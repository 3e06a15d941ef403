import Verif.Cuda.Props
/-!
# Property C123: the choice between processor and device
-/
namespace Verif.Cuda
open Verif Res Gemm

variable {α : Type}

/-- A product on the processor: what `gemm_cpu` computes. -/
def HostOk [CommSemiring α] (host : List α → Bool → List α → Bool → Nat → Nat → Nat → List α → Res (List α)) : Prop :=
  ∀ A aT B bT m n k C a b, Stores A aT m n a → Stores B bT n k b → C.length = m * k → 0 < m → 0 < n → 0 < k → host A aT B bT m n k C = gemmCpu A aT B bT m n k C

/-- `gemm_cpu` and, if it meets its specification, BLAS are such products. -/
theorem cpu_host [CommSemiring α] : HostOk (α := α) gemmCpu := fun _ _ _ _ _ _ _ _ _ _ _ _ _ _ _ _ => rfl

theorem blas_host [CommSemiring α] (blas : BlasCall α → List α) (h : MeetsBlasSpec blas) :
    HostOk (fun A aT B bT m n k C => ok (blas (cblasCall A aT B bT m n k C))) :=
  fun A aT B bT m n k C a b hA hB hC hm hn hk => (cblas_same_product blas h A B C aT bT m n k a b hA hB hC hm hn hk).symm

theorem square_ok [CommSemiring α] {cublas : Call → Block α → Res (Block α)} (hcu : MeetsCublas cublas) {grant : Grant} (hg : ∀ i n, grant i n = true) {dim : Nat}
    (h0 : 0 < dim) (h1 : dim ≤ 2 ^ 29) {d : Dev α} (hd : Good d) (hs : d.size ≤ 2 ^ 63 + 2 ^ 20) :
    ∃ C' d', cudaGemm grant cublas 4 (List.replicate (dim * dim) 0) false (List.replicate (dim * dim) 0) false dim dim dim (List.replicate (dim * dim) 0) d = ok (C', d') ∧
      Good d' ∧ d'.size ≤ 2 ^ 63 + 2 ^ 20 := by
  obtain ⟨a, hA⟩ := stored (A := List.replicate (dim * dim) (0 : α)) (t := false) (m := dim) (n := dim) (by simp)
  have hsq : dim * dim ≤ 2 ^ 29 * 2 ^ 29 := Nat.mul_le_mul h1 h1
  obtain ⟨C', d', e1, -, -, e4, e5⟩ := cuda_same_product cublas hcu grant 4 (Or.inl rfl) _ _ (List.replicate (dim * dim) 0) false false dim dim dim a a hA hA (by simp)
    h0 h0 h0 (by omega) (by omega) (by omega) d hd (by omega) (fun _ => hg _ _)
  exact ⟨C', d', e1, e4, by omega⟩

theorem search_ok [CommSemiring α] {cublas : Call → Block α → Res (Block α)} (hcu : MeetsCublas cublas) {grant : Grant} (hg : ∀ i n, grant i n = true)
    {slower : Nat → Bool} (r : Nat) : ∀ (fuel dim : Nat) (d : Dev α), slower (dim + 16 * r) = true → dim + 16 * r ≤ 2 ^ 29 → r < fuel → 0 < dim → Good d →
    d.size ≤ 2 ^ 63 + 2 ^ 20 → ∃ dim' d', search grant cublas slower fuel dim d = ok (dim', d') ∧ Good d' ∧ d'.size ≤ 2 ^ 63 + 2 ^ 20 := by
  induction r with
  | zero =>
    intro fuel dim d hs hd hf h0 hG hS
    obtain ⟨fuel, rfl⟩ : ∃ f, fuel = f + 1 := ⟨fuel - 1, by omega⟩
    obtain ⟨C', d', e1, e2, e3⟩ := square_ok hcu hg h0 (by omega) hG hS
    refine ⟨dim, d', ?_, e2, e3⟩
    simp only [search, e1, bind_ok]
    rw [if_pos (by simpa using hs)]
  | succ r ih =>
    intro fuel dim d hs hd hf h0 hG hS
    obtain ⟨fuel, rfl⟩ : ∃ f, fuel = f + 1 := ⟨fuel - 1, by omega⟩
    obtain ⟨C', d', e1, e2, e3⟩ := square_ok hcu hg h0 (by omega) hG hS
    simp only [search, e1, bind_ok]
    by_cases hc : slower dim = true
    · rw [if_pos hc]
      exact ⟨dim, d', rfl, e2, e3⟩
    · rw [if_neg hc]
      exact ih fuel (dim + 16) d' (by rw [show dim + 16 + 16 * r = dim + 16 * (r + 1) by omega]; exact hs) (by omega) (by omega) (by omega) e2 e3

/-- **C123** (the choice). In a program built for CUDA, `gemm` leaves in C what `gemm_cpu` computes, wherever the product is made - so whatever the clock said, whatever
the threshold is, and with or without BLAS - provided the search for the threshold ends. -/
theorem gemm_any_backend [CommSemiring α] (cublas : Call → Block α → Res (Block α)) (hcu : MeetsCublas cublas) (grant : Grant) (hg : ∀ i n, grant i n = true)
    (host : List α → Bool → List α → Bool → Nat → Nat → Nat → List α → Res (List α)) (hh : HostOk host) (slower : Nat → Bool) (fuel : Nat) (j : Job α) (hj : j.Legal)
    (hneed : j.need ≤ 2 ^ 62) (e : Env α) (hd : Good e.dev) (hs : e.dev.size ≤ 2 ^ 63 + 2 ^ 20)
    (hend : e.threshold = 0 → ∃ r, slower (16 + 16 * r) = true ∧ 16 + 16 * r ≤ 2 ^ 29 ∧ r < fuel) :
    ∃ C' e', gemm grant cublas slower fuel host j.w j.A j.aT j.B j.bT j.m j.n j.k j.C e = ok (C', e') ∧ gemmCpu j.A j.aT j.B j.bT j.m j.n j.k j.C = ok C' ∧
      Good e'.dev ∧ e'.dev.size ≤ 2 ^ 63 + 2 ^ 20 := by
  obtain ⟨hw, lA, lB, lC, ⟨hm, hm'⟩, ⟨hn, hn'⟩, hk, hk'⟩ := hj
  obtain ⟨a, hA⟩ := stored (t := j.aT) lA
  obtain ⟨b, hB⟩ := stored (t := j.bT) lB
  unfold Job.need at hneed
  obtain ⟨e1, h1, hd1, hs1⟩ : ∃ e1, (if e.threshold = 0 then updateThreshold grant cublas slower fuel e else ok e) = ok e1 ∧ Good e1.dev ∧ e1.dev.size ≤ 2 ^ 63 + 2 ^ 20 := by
    by_cases ht : e.threshold = 0
    · rw [if_pos ht]
      obtain ⟨r, r1, r2, r3⟩ := hend ht
      obtain ⟨C1, d1, a1, a2, a3⟩ := square_ok hcu hg (dim := 128) (by omega) (by omega) hd hs
      obtain ⟨dim, d2, b1, b2, b3⟩ := search_ok hcu hg r fuel 16 d1 r1 r2 r3 (by omega) a2 a3
      refine ⟨⟨d2, wrap (dim * dim * dim)⟩, ?_, b2, b3⟩
      unfold updateThreshold
      simp only [a1, bind_ok, b1, pure_eq]
    · rw [if_neg ht]
      exact ⟨e, rfl, hd, hs⟩
  obtain ⟨C', d', c1, c2, -, c4, c5⟩ := cuda_same_product cublas hcu grant j.w hw j.A j.B j.C j.aT j.bT j.m j.n j.k a b hA hB lC hm hn hk hm' hn' hk' e1.dev hd1
    (by omega) (fun _ => hg _ _)
  have hunf : gemm grant cublas slower fuel host j.w j.A j.aT j.B j.bT j.m j.n j.k j.C e =
      ((if e.threshold = 0 then updateThreshold grant cublas slower fuel e else ok e) >>= fun e =>
        if e.threshold ≤ wrap (j.m * j.n * j.k) then do
          let (C, d) ← cudaGemm grant cublas j.w j.A j.aT j.B j.bT j.m j.n j.k j.C e.dev
          pure (C, { e with dev := d })
        else do
          let C ← host j.A j.aT j.B j.bT j.m j.n j.k j.C
          pure (C, e)) := by
    unfold gemm
    split <;> rfl
  rw [hunf, h1, bind_ok]
  by_cases hc : e1.threshold ≤ wrap (j.m * j.n * j.k)
  · rw [if_pos hc, c1]
    exact ⟨C', _, rfl, c2, c4, by simp only; omega⟩
  · rw [if_neg hc, hh _ _ _ _ _ _ _ _ a b hA hB lC hm hn hk, c2]
    exact ⟨C', e1, rfl, rfl, hd1, hs1⟩

theorem search_endless [Zero α] (grant : Grant) (cublas : Call → Block α → Res (Block α)) (slower : Nat → Bool) (h : ∀ dim, slower dim = false) (fuel : Nat) :
    ∀ (dim : Nat) (d : Dev α) z, search grant cublas slower fuel dim d ≠ ok z := by
  induction fuel with
  | zero => intro dim d z hz; cases hz
  | succ fuel ih =>
    intro dim d z hz
    simp only [search, bind_eq_ok, h, Bool.false_eq_true, if_false] at hz
    obtain ⟨x, -, hz⟩ := hz
    exact ih _ _ z hz

/-- **C123** (violated: a fast processor). On a machine whose processor is never slower than the device, the first product of a program never returns. -/
theorem gemm_threshold_violated [Zero α] (grant : Grant) (cublas : Call → Block α → Res (Block α)) (slower : Nat → Bool) (h : ∀ dim, slower dim = false)
    (host : List α → Bool → List α → Bool → Nat → Nat → Nat → List α → Res (List α)) (w : Nat) (A B C : List α) (aT bT : Bool) (m n k : Nat) (d : Dev α) (fuel : Nat)
    (z : List α × Env α) : gemm grant cublas slower fuel host w A aT B bT m n k C ⟨d, 0⟩ ≠ ok z := by
  intro hz
  unfold gemm at hz
  simp only [if_true, bind_eq_ok] at hz
  obtain ⟨e, he, -⟩ := hz
  unfold updateThreshold at he
  simp only [bind_eq_ok] at he
  obtain ⟨_, -, x, hx, -⟩ := he
  exact search_endless grant cublas slower h fuel _ _ x hx

/-! ### the hypotheses can be met -/

/-- A library that meets the specification exists. -/
theorem cublas_satisfiable : ∃ cublas : Call → Block Int → Res (Block Int), MeetsCublas cublas := by
  classical
  let ent (q : Call) (b : Block Int) (i j : Nat) : Int := ∑ l ∈ Finset.range q.K.toNat,
    (((b.cells (posA q i l)).map Prod.snd).getD 0) * (((b.cells (posB q l j)).map Prod.snd).getD 0)
  let hit (q : Call) (p : Nat) : Prop := ∃ x : Nat × Nat, x.1 < q.M.toNat ∧ x.2 < q.N.toNat ∧ p = posC q x.1 x.2
  let cub (q : Call) (b : Block Int) : Block Int :=
    ⟨b.bytes, fun p => if h : hit q p then some (q.width, ent q b h.choose.1 h.choose.2) else
      match b.cells p with
      | some (u, v) => if ∀ i j, i < q.M.toNat → j < q.N.toNat → Apart (posC q i j) q.width p u then some (u, v) else none
      | none => none⟩
  refine ⟨fun q b => if Illegal q then abort else ok (cub q b), fun q b h => if_pos h, ?_⟩
  intro q b opA opB hl hw hA hB hC hCA hCB
  have hld : q.M.toNat ≤ q.ldc.toNat := by
    unfold Illegal at hl
    simp only [not_or, not_lt] at hl
    obtain ⟨h1, -, -, -, -, h6⟩ := hl
    have := (max_le_iff.mp h6).2
    omega
  have inj : ∀ i j i' j', i < q.M.toNat → i' < q.M.toNat → posC q i j = posC q i' j' → i = i' ∧ j = j' := by
    intro i j i' j' hi hi' h
    unfold posC at h
    have h' : i + j * q.ldc.toNat = i' + j' * q.ldc.toNat := Nat.eq_of_mul_eq_mul_left hw (by omega)
    have e1 := div_mod_eq (i := j) (j := i) (m := q.ldc.toNat) (by omega)
    have e2 := div_mod_eq (i := j') (j := i') (m := q.ldc.toNat) (by omega)
    rw [Nat.add_comm, Nat.add_comm i'] at h'
    rw [h'] at e1
    exact ⟨e1.2.symm.trans e2.2, e1.1.symm.trans e2.1⟩
  refine ⟨cub q b, if_neg hl, rfl, fun i j hi hj => ?_, fun p hp hn => ?_, fun p u v hv hu ha => ?_⟩
  · have hh : hit q (posC q i j) := ⟨(i, j), hi, hj, rfl⟩
    simp only [cub]
    rw [dif_pos hh]
    obtain ⟨k1, k2, k3⟩ := hh.choose_spec
    obtain ⟨e1, e2⟩ := inj _ _ _ _ hi k1 k3
    rw [← e1, ← e2]
    congr 2
    simp only [ent, prod]
    refine Finset.sum_congr rfl (fun l hl => ?_)
    rw [hA i l hi (Finset.mem_range.mp hl), hB l j (Finset.mem_range.mp hl) hj]
    rfl
  · simp only [cub]
    rw [dif_neg (fun ⟨x, h1, h2, h3⟩ => hp x.1 x.2 h1 h2 h3), hn]
  · simp only [cub]
    rw [dif_neg, hv]
    · simp only
      rw [if_pos ha]
    · rintro ⟨x, h1, h2, h3⟩
      subst h3
      have := ha x.1 x.2 h1 h2
      unfold Apart at this
      omega

end Verif.Cuda
