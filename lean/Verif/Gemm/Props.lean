import Verif.Gemm.Lemmas
import Verif.Tensor.Arith
/-!
# Properties C20-C22: matrix products
-/
namespace Verif.Gemm
open Verif Res View Tensor

variable {α : Type}

/-- C20: for all sizes, matrices, transpose flags and previous contents of C, `gemm_cpu` stays inside the buffers and
leaves in C exactly the product. -/
theorem gemm_is_matrix_product [CommSemiring α] (A B C : List α) (aT bT : Bool) (m n k : Nat) (a b : Nat → Nat → α)
    (hA : Stores A aT m n a) (hB : Stores B bT n k b) (hC : C.length = m * k) :
    ∃ C', gemmCpu A aT B bT m n k C = ok C' ∧ Is2 C' m k (fun r c => ∑ l ∈ Finset.range n, a r l * b l c) :=
  gemmCpu_ok hA hB hC

/-- A 2x3 matrix stored transposed times a 3x2 matrix, into a dirty buffer. -/
example : gemmCpu [1, 4, 2, 5, 3, (6 : Int)] true [7, 8, 9, 10, 11, 12] false 2 3 2 [99, 98, 97, 96] = ok [58, 64, 139, 154] := by
  decide

example : Stores [1, 4, 2, 5, 3, (6 : Int)] true 2 3 (fun i j => 3 * i + j + 1) ∧
    Stores [7, 8, 9, 10, 11, (12 : Int)] false 3 2 (fun i j => 2 * i + j + 7) := by
  refine ⟨⟨rfl, ?_⟩, ⟨rfl, ?_⟩⟩
  · intro i j hi hj
    match i, j, hi, hj with
    | 0, 0, _, _ => rfl
    | 0, 1, _, _ => rfl
    | 1, 0, _, _ => rfl
    | 1, 1, _, _ => rfl
    | 2, 0, _, _ => rfl
    | 2, 1, _, _ => rfl
  · intro i j hi hj
    match i, j, hi, hj with
    | 0, 0, _, _ => rfl
    | 0, 1, _, _ => rfl
    | 1, 0, _, _ => rfl
    | 1, 1, _, _ => rfl
    | 2, 0, _, _ => rfl
    | 2, 1, _, _ => rfl

/-- C22: whatever BLAS implementation is linked, if it meets the documented column-major specification, then the call
made by `cblas_gemm` is legal and leaves in C what `gemm_cpu` leaves there.  (Empty matrices make BLAS leading dimensions
illegal, hence the positivity hypotheses.) -/
theorem cblas_same_product [CommSemiring α] (blas : BlasCall α → List α) (hblas : MeetsBlasSpec blas)
    (A B C : List α) (aT bT : Bool) (m n k : Nat) (a b : Nat → Nat → α) (hA : Stores A aT m n a) (hB : Stores B bT n k b)
    (hC : C.length = m * k) (hm : 0 < m) (hn : 0 < n) (hk : 0 < k) :
    gemmCpu A aT B bT m n k C = ok (blas (cblasCall A aT B bT m n k C)) := by
  obtain ⟨C', h1, h2⟩ := gemmCpu_ok hA hB hC
  rw [h1]
  congr 1
  have hidx : ∀ i j, i < k → j < m → i + j * k < m * k := fun i j hi hj => by
    have := lt_mul_of_lt hj hi; omega
  obtain ⟨b1, b2, _⟩ := hblas (cblasCall A aT B bT m n k C)
    (by cases bT <;> simp [cblasCall] <;> omega) (by cases aT <;> simp [cblasCall] <;> omega) (by simp [cblasCall]; omega)
    (fun i l => b l i) (fun l j => a j l)
    (by
      intro i l hi hl
      simp only [cblasCall] at hi hl ⊢
      cases bT with
      | false =>
        simp only [Stores, Bool.false_eq_true, if_false] at hB ⊢
        rw [Nat.add_comm]; exact hB.2 l i hl hi
      | true =>
        simp only [Stores, if_true] at hB ⊢
        rw [Nat.add_comm]; exact hB.2 i l hi hl)
    (by
      intro l j hl hj
      simp only [cblasCall] at hl hj ⊢
      cases aT with
      | false =>
        simp only [Stores, Bool.false_eq_true, if_false] at hA ⊢
        rw [Nat.add_comm]; exact hA.2 j l hj hl
      | true =>
        simp only [Stores, if_true] at hA ⊢
        rw [Nat.add_comm]; exact hA.2 l j hl hj)
    (by intro i j hi hj; simp only [cblasCall] at hi hj ⊢; rw [hC]; exact hidx i j hi hj)
  refine Is2.ext h2 ⟨by rw [b1]; exact hC, fun r c hr hc => ?_⟩
  have := b2 c r hc hr
  simp only [cblasCall] at this ⊢
  rw [Nat.add_comm] at this
  rw [this]
  congr 1
  unfold prod
  exact Finset.sum_congr rfl (fun l _ => mul_comm _ _)

/-- A BLAS meeting the specification exists (the hypothesis of `cblas_same_product` is not empty). -/
theorem blas_spec_satisfiable : ∃ blas : BlasCall Int → List Int, MeetsBlasSpec blas := by
  classical
  let ent (q : BlasCall Int) (i j : Nat) : Int := ∑ l ∈ Finset.range q.K,
    (q.A[if q.transA then l + i * q.lda else i + l * q.lda]?.getD 0) * (q.B[if q.transB then j + l * q.ldb else l + j * q.ldb]?.getD 0)
  refine ⟨fun q => (List.range q.C.length).map (fun p =>
    if p % q.ldc < q.M ∧ p / q.ldc < q.N then ent q (p % q.ldc) (p / q.ldc) else q.C[p]?.getD 0), ?_⟩
  intro q _ _ hc opA opB hA hB hlen
  have dm : ∀ i j, i < q.M → j < q.N → (i + j * q.ldc) % q.ldc = i ∧ (i + j * q.ldc) / q.ldc = j := by
    intro i j hi _
    have := div_mod_eq (i := j) (j := i) (m := q.ldc) (by omega)
    rw [Nat.add_comm]; exact ⟨this.2, this.1⟩
  refine ⟨by simp, fun i j hi hj => ?_, fun p hp => ?_⟩
  · rw [List.getElem?_map, List.getElem?_range (hlen i j hi hj)]
    obtain ⟨e1, e2⟩ := dm i j hi hj
    simp only [Option.map_some, e1, e2, hi, hj, and_self, if_true, ent, prod]
    congr 1
    refine Finset.sum_congr rfl (fun l hl => ?_)
    rw [hA i l hi (Finset.mem_range.mp hl), hB l j (Finset.mem_range.mp hl) hj]; rfl
  · by_cases hlt : p < q.C.length
    · rw [List.getElem?_map, List.getElem?_range hlt, List.getElem?_eq_getElem hlt]
      simp only [Option.map_some]
      rw [if_neg]
      · rw [List.getElem?_eq_getElem hlt]; rfl
      · rintro ⟨h1, h2⟩
        exact hp _ _ h1 h2 (by rw [Nat.mul_comm]; exact (Nat.mod_add_div p q.ldc).symm)
    · rw [List.getElem?_eq_none (by simp; omega), List.getElem?_eq_none (by omega)]

/-! ## C21: tensor * tensor -/

theorem isT2_iff {A : List α} {m n : Nat} {a : List Nat → α} : IsT A [m, n] a ↔ Is2 A m n (fun i j => a [i, j]) := by
  constructor
  · rintro ⟨h1, h2⟩
    refine ⟨by simpa using h1, fun i j hi hj => ?_⟩
    have := h2 [i, j] ⟨hi, hj, trivial⟩
    simpa using this
  · rintro ⟨h1, h2⟩
    refine ⟨by simpa using h1, fun is hv => ?_⟩
    match is, hv with
    | [i, j], hv => have := h2 i j hv.1 hv.2.1; simpa using this

theorem multiply2_ok [CommSemiring α] {h : Heap α} {l r : Tn} {m n k : Nat} {a b : List Nat → α} (hl : Holds h l a) (hr : Holds h r b)
    (sl : l.shape = [m, n]) (sr : r.shape = [n, k]) :
    ∃ h', multiply2 (h ++ [[]]) l r ⟨[], h.length⟩ = ok (⟨[m, k], h.length⟩, h') ∧
      Holds h' ⟨[m, k], h.length⟩ (fun is => ∑ i ∈ Finset.range n, a [is[0]?.getD 0, i] * b [i, is[1]?.getD 0]) ∧
      ∀ q, q < h.length → h'[q]? = h[q]? := by
  obtain ⟨x, hx, hxT⟩ := hl
  obtain ⟨y, hy, hyT⟩ := hr
  rw [sl] at hxT; rw [sr] at hyT
  have hlx : l.loc < h.length := (List.getElem?_eq_some_iff.mp hx).1
  have hly : r.loc < h.length := (List.getElem?_eq_some_iff.mp hy).1
  have hz0 : (h ++ [[]])[(⟨[], h.length⟩ : Tn).loc]? = some [] := by simp
  have hset : ∀ z : List α, (h ++ [[]]).set h.length z = h ++ [z] := by
    intro z; rw [List.set_append_right _ _ (Nat.le_refl _)]; simp
  have hset2 : ∀ z w : List α, (h ++ [w]).set h.length z = h ++ [z] := by
    intro z w; rw [List.set_append_right _ _ (Nat.le_refl _)]; simp
  obtain ⟨C', g1, g2⟩ := gemmCpu_ok (aT := false) (bT := false) (C := vecResize [] (size [m, k])) (m := m) (n := n) (k := k)
    (A := x) (B := y) (by simpa [Stores] using isT2_iff.mp hxT) (by simpa [Stores] using isT2_iff.mp hyT)
    (by rw [vecResize_length]; simp)
  refine ⟨h ++ [C'], ?_, ⟨C', by simp, ?_⟩, fun q hq => List.getElem?_append_left hq⟩
  · unfold multiply2
    rw [assert_true (by rw [sr]; rfl), bind_ok, sl, sr]
    simp only [resize_ok hz0, bind_ok, hset]
    rw [rd_ok (v := x) (by rw [List.getElem?_append_left hlx]; exact hx), bind_ok,
      rd_ok (v := y) (by rw [List.getElem?_append_left hly]; exact hy), bind_ok, rd_ok (v := vecResize [] (size [m, k])) (by simp), bind_ok]
    simp only [gemmView, assert_true, bind_ok, g1]
    rw [wr_ok (by simp), bind_ok, hset2]; rfl
  · rw [isT2_iff]; exact g2

/-- C21 for 2-D operands: `a * b` is the `m x k` product in fresh storage; no existing tensor changes. -/
theorem multiply_matrices [CommSemiring α] (h : Heap α) (l r : Tn) (m n k : Nat) (a b : List Nat → α) (hl : Holds h l a)
    (hr : Holds h r b) (sl : l.shape = [m, n]) (sr : r.shape = [n, k]) :
    ∃ t h', multiply h l r = ok (t, h') ∧ t.shape = [m, k] ∧
      (∃ c : List Nat → α, Holds h' t c ∧ ∀ i j, i < m → j < k → c [i, j] = ∑ p ∈ Finset.range n, a [i, p] * b [p, j]) ∧
      ∀ o : Tn, o.loc < h.length → contents h' o = contents h o := by
  obtain ⟨h', e1, e2, e3⟩ := multiply2_ok hl hr sl sr
  refine ⟨_, h', ?_, rfl, ⟨_, e2, fun i j _ _ => by simp⟩, fun o ho => e3 o.loc ho⟩
  simp only [multiply, newDefault, sl, List.length_cons, List.length_nil, multiplyR, sr]
  simpa using e1

/-- C21: 2-D operands whose inner extents differ are rejected by an assertion, whatever they hold. -/
theorem multiply_rejects [CommSemiring α] (h : Heap α) (l r : Tn) (m n n' k : Nat) (a b : List Nat → α) (hl : Holds h l a)
    (hr : Holds h r b) (sl : l.shape = [m, n]) (sr : r.shape = [n', k]) (hne : n ≠ n') : multiply h l r = abort := by
  obtain ⟨x, hx, hxT⟩ := hl
  obtain ⟨y, hy, hyT⟩ := hr
  have hlx : l.loc < h.length := (List.getElem?_eq_some_iff.mp hx).1
  have hly : r.loc < h.length := (List.getElem?_eq_some_iff.mp hy).1
  have hz0 : (h ++ [[]])[(⟨[], h.length⟩ : Tn).loc]? = some [] := by simp
  have hset : ∀ z : List α, (h ++ [[]]).set h.length z = h ++ [z] := by
    intro z; rw [List.set_append_right _ _ (Nat.le_refl _)]; simp
  simp only [multiply, newDefault, sl, List.length_cons, List.length_nil, multiplyR, sr]
  rw [if_neg (by omega), if_neg (by omega)]
  unfold multiply2
  rw [assert_true (by rw [sr]; rfl), bind_ok, sl, sr]
  simp only [resize_ok hz0, bind_ok, hset]
  rw [rd_ok (v := x) (by rw [List.getElem?_append_left hlx]; exact hx), bind_ok,
    rd_ok (v := y) (by rw [List.getElem?_append_left hly]; exact hy), bind_ok, rd_ok (v := vecResize [] (size [m, k])) (by simp), bind_ok]
  simp only [gemmView, assert_true, bind_ok]
  rw [assert_false hne]; rfl

/-- C21, a 1-D left operand is a row vector: `v * b` is the `1 x k` product. -/
theorem multiply_row_vector [CommSemiring α] (h : Heap α) (l r : Tn) (n k : Nat) (a b : List Nat → α) (hl : Holds h l a)
    (hr : Holds h r b) (sl : l.shape = [n]) (sr : r.shape = [n, k]) (hn : n < minusOne) :
    ∃ t h', multiply h l r = ok (t, h') ∧ t.shape = [1, k] ∧
      (∃ c : List Nat → α, Holds h' t c ∧ ∀ j, j < k → c [0, j] = ∑ p ∈ Finset.range n, a [p] * b [p, j]) ∧
      ∀ o : Tn, o.loc < h.length → contents h' o = contents h o := by
  obtain ⟨x, hx, hxT⟩ := hl
  rw [sl] at hxT
  have hlx : l.loc < h.length := (List.getElem?_eq_some_iff.mp hx).1
  have hxl : x.length = n := by simpa using hxT.1
  have hH : Holds h ⟨[1, n], l.loc⟩ (fun is => a (is.drop 1)) := by
    refine ⟨x, hx, by simpa using hxT.1, fun is hv => ?_⟩
    match is, hv with
    | [i, j], hv =>
      have : i = 0 := by have := hv.1; omega
      subst this
      simpa using hxT.2 [j] ⟨hv.2.1, trivial⟩
  obtain ⟨h', e1, e2, e3⟩ := multiply2_ok hH hr rfl sr
  refine ⟨_, h', ?_, rfl, ⟨_, e2, fun j _ => by simp⟩, fun o ho => e3 o.loc ho⟩
  have hre : reshape (h ++ [[]]) l [1, n] = ok (⟨[1, n], l.loc⟩, h ++ [[]]) := by
    simp only [reshape, rd_ok (show (h ++ [[]])[l.loc]? = some x by rw [List.getElem?_append_left hlx]; exact hx), bind_ok]
    rw [require_true (by simp), bind_ok, if_neg (by simp; omega), if_neg (by simp [hxl])]; rfl
  have hsz : sizeT (h ++ [[]]) l = ok n := by
    simp only [sizeT, rd_ok (show (h ++ [[]])[l.loc]? = some x by rw [List.getElem?_append_left hlx]; exact hx), bind_ok, hxl, pure_eq]
  simp only [multiply, newDefault, sl, List.length_cons, List.length_nil, multiplyR, sr]
  simp only [Nat.zero_add, if_true, hsz, bind_ok, hre]
  simpa using e1

/-- C21 is false of the code for matrix times 1-D vector: for every matrix with `m >= 2` rows and `n >= 1` columns the call
stops in an assertion, because the vector is reshaped to `m*n x 1` instead of `n x 1`. -/
theorem multiply_matrix_vector_violated [CommSemiring α] (h : Heap α) (l r : Tn) (m n : Nat) (a b : List Nat → α) (hl : Holds h l a)
    (hr : Holds h r b) (sl : l.shape = [m, n]) (sr : r.shape = [n]) (hm : 2 ≤ m) (hn : 1 ≤ n) :
    multiply h l r = abort := by
  obtain ⟨x, hx, hxT⟩ := hl
  obtain ⟨y, hy, hyT⟩ := hr
  rw [sl] at hxT; rw [sr] at hyT
  have hlx : l.loc < h.length := (List.getElem?_eq_some_iff.mp hx).1
  have hly : r.loc < h.length := (List.getElem?_eq_some_iff.mp hy).1
  have hxl : x.length = m * n := by simpa using hxT.1
  have hyl : y.length = n := by simpa using hyT.1
  have hlt : n < m * n := by
    have : 2 * n ≤ m * n := Nat.mul_le_mul_right _ hm
    omega
  have hy' : (h ++ [[]])[r.loc]? = some y := by rw [List.getElem?_append_left hly]; exact hy
  have hx' : (h ++ [[]])[l.loc]? = some x := by rw [List.getElem?_append_left hlx]; exact hx
  have hre : reshape (h ++ [[]]) r [m * n, 1] = ok (⟨[m * n, 1], r.loc⟩, (h ++ [[]]).set r.loc (vecResize y (size [m * n, 1]))) := by
    simp only [reshape, rd_ok hy', bind_ok]
    rw [require_true (by simp), bind_ok, if_neg (by simp [minusOne]), if_pos (by simp [hyl]; omega), resize_ok hy']
  have hsz : sizeT (h ++ [[]]) l = ok (m * n) := by simp only [sizeT, rd_ok hx', bind_ok, hxl, pure_eq]
  simp only [multiply, newDefault, sl, List.length_cons, List.length_nil, multiplyR, sr]
  simp only [Nat.zero_add, if_true, hsz, bind_ok, hre]
  have hz : ((h ++ [[]]).set r.loc (vecResize y (size [m * n, 1])))[(⟨[], h.length⟩ : Tn).loc]? = some [] := by
    rw [List.getElem?_set_ne (by simp only; omega)]; simp
  simp only [multiply2, List.length_cons, List.length_nil, assert_true, bind_ok, sl, resize_ok hz]
  have rdok : ∀ q : Nat, q < h.length + 1 → ∃ w, rd ((((h ++ [[]]).set r.loc (vecResize y (size [m * n, 1]))).set h.length
      (vecResize [] (size [m, 1])))) q = ok w := by
    intro q hq
    exact ⟨_, rd_ok (List.getElem?_eq_getElem (by simpa using hq))⟩
  obtain ⟨w1, e1⟩ := rdok l.loc (by omega)
  obtain ⟨w2, e2⟩ := rdok r.loc (by omega)
  obtain ⟨w3, e3⟩ := rdok h.length (by omega)
  simp only [e1, e2, e3, bind_ok, gemmView, assert_true]
  rw [assert_false (by omega)]; simp

/-- C21, what holds of a 1-D right operand: when the left operand is itself 1-D of the same length (or a single row), the
result is the `1 x 1` dot product.  Missing: left operands with two or more rows (see the violation). -/
theorem multiply_vector_partial [CommSemiring α] (h : Heap α) (l r : Tn) (n : Nat) (a b : List Nat → α) (hl : Holds h l a)
    (hr : Holds h r b) (sl : l.shape = [n]) (sr : r.shape = [n]) (hn : n < minusOne) :
    ∃ t h', multiply h l r = ok (t, h') ∧ t.shape = [1, 1] ∧
      (∃ c : List Nat → α, Holds h' t c ∧ c [0, 0] = ∑ p ∈ Finset.range n, a [p] * b [p]) ∧
      ∀ o : Tn, o.loc < h.length → contents h' o = contents h o := by
  obtain ⟨x, hx, hxT⟩ := hl
  obtain ⟨y, hy, hyT⟩ := hr
  rw [sl] at hxT; rw [sr] at hyT
  have hlx : l.loc < h.length := (List.getElem?_eq_some_iff.mp hx).1
  have hly : r.loc < h.length := (List.getElem?_eq_some_iff.mp hy).1
  have hxl : x.length = n := by simpa using hxT.1
  have hyl : y.length = n := by simpa using hyT.1
  have hH : Holds h ⟨[1, n], l.loc⟩ (fun is => a (is.drop 1)) := by
    refine ⟨x, hx, by simpa using hxT.1, fun is hv => ?_⟩
    match is, hv with
    | [i, j], hv =>
      have : i = 0 := by have := hv.1; omega
      subst this
      simpa using hxT.2 [j] ⟨hv.2.1, trivial⟩
  have hR : Holds h ⟨[n, 1], r.loc⟩ (fun is => b (is.take 1)) := by
    refine ⟨y, hy, by simpa using hyT.1, fun is hv => ?_⟩
    match is, hv with
    | [i, j], hv =>
      have : j = 0 := by have := hv.2.1; omega
      subst this
      simpa using hyT.2 [i] ⟨hv.1, trivial⟩
  obtain ⟨h', e1, e2, e3⟩ := multiply2_ok hH hR rfl rfl
  refine ⟨_, h', ?_, rfl, ⟨_, e2, by simp⟩, fun o ho => e3 o.loc ho⟩
  have hx' : (h ++ [[]])[l.loc]? = some x := by rw [List.getElem?_append_left hlx]; exact hx
  have hy' : (h ++ [[]])[r.loc]? = some y := by rw [List.getElem?_append_left hly]; exact hy
  have hre : reshape (h ++ [[]]) l [1, n] = ok (⟨[1, n], l.loc⟩, h ++ [[]]) := by
    simp only [reshape, rd_ok hx', bind_ok]
    rw [require_true (by simp), bind_ok, if_neg (by simp; omega), if_neg (by simp [hxl])]; rfl
  have hre2 : reshape (h ++ [[]]) r [n, 1] = ok (⟨[n, 1], r.loc⟩, h ++ [[]]) := by
    simp only [reshape, rd_ok hy', bind_ok]
    rw [require_true (by simp), bind_ok, if_neg (by simp [minusOne]), if_neg (by simp [hyl])]; rfl
  have hsz : ∀ s, sizeT (h ++ [[]]) ⟨s, l.loc⟩ = ok n := by
    intro s; simp only [sizeT, rd_ok hx', bind_ok, hxl, pure_eq]
  have hsz' : sizeT (h ++ [[]]) l = ok n := hsz l.shape
  simp only [multiply, newDefault, sl, List.length_cons, List.length_nil, multiplyR, sr]
  simp only [if_true, hsz', bind_ok, hre, hsz, hre2]
  exact e1

example : multiply [[1, 2, 3, 4, 5, 6], [1, 0, 0, 1, 1, (1 : Int)]] ⟨[2, 3], 0⟩ ⟨[3, 2], 1⟩ =
      ok (⟨[2, 2], 2⟩, [[1, 2, 3, 4, 5, 6], [1, 0, 0, 1, 1, 1], [4, 5, 10, 11]]) ∧
    multiply [[1, 2, 3], [1, 0, 0, 1, 1, (1 : Int)]] ⟨[3], 0⟩ ⟨[3, 2], 1⟩ = ok (⟨[1, 2], 2⟩, [[1, 2, 3], [1, 0, 0, 1, 1, 1], [4, 5]]) ∧
    multiply [[1, 2, 3, 4, 5, 6], [1, 0, (1 : Int)]] ⟨[2, 3], 0⟩ ⟨[3], 1⟩ = abort ∧
    multiply [[1, 2, 3], [1, 0, (1 : Int)]] ⟨[3], 0⟩ ⟨[3], 1⟩ = ok (⟨[1, 1], 2⟩, [[1, 2, 3], [1, 0, 1], [4]]) := by decide

end Verif.Gemm
