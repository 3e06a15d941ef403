import Verif.Ops.Plus
import Verif.Data.Move
import Verif.Basic.Grid
import Verif.Gemm.Props
import Verif.Data.Flip
/-!
# Basic operators: matrix product, element-wise product, sum, mean, broadcast (proofs, C50, C52, C81, C82)
-/
namespace Verif.Ops
open Verif Res View Data
open Verif.Tensor (BroadcastsTo dimR bcIdx)

variable {α : Type}

theorem has2 {t : Ten α} {m n : Nat} {a : List Nat → α} (h : t.Has [m, n] a) :
    t.shape = [m, n] ∧ Is2 t.data m n (fun i j => a [i, j]) := ⟨h.1, Gemm.isT2_iff.mp h.2⟩

theorem mk_has2 {d : List α} {m n : Nat} {f : Nat → Nat → α} {a : List Nat → α} (h : Is2 d m n f)
    (e : ∀ i j, i < m → j < n → f i j = a [i, j]) : (⟨[m, n], d⟩ : Ten α).Has [m, n] a := by
  refine ⟨rfl, Gemm.isT2_iff.mpr ⟨h.1, fun i j hi hj => ?_⟩⟩
  rw [h.2 i j hi hj, e i j hi hj]

/-! ### C50 -/

/-- The forward action of the matrix product, whatever the cache holds. -/
theorem matmul_forward [CommSemiring α] (cache l r : Ten α) (m k n : Nat) (a b : List Nat → α) (hl : l.Has [m, k] a) (hr : r.Has [k, n] b)
    (hm : 0 < m) (hk : 0 < k) (hn : 0 < n) :
    ∃ t, matmul cache l r = ok t ∧ t.Has [m, n] (fun is => ∑ p ∈ Finset.range k, a [is[0]?.getD 0, p] * b [p, is[1]?.getD 0]) := by
  obtain ⟨sl, il⟩ := has2 hl
  obtain ⟨sr, ir⟩ := has2 hr
  have l1 : l.data.length ≠ 0 := by rw [il.1]; exact (Nat.mul_pos hm hk).ne'
  have l2 : r.data.length ≠ 0 := by rw [ir.1]; exact (Nat.mul_pos hk hn).ne'
  obtain ⟨d, h1, h2⟩ := Gemm.gemm_is_matrix_product l.data r.data (resizeV cache [m, n]).data false false m k n
    (fun i j => a [i, j]) (fun i j => b [i, j]) (by simpa [Gemm.Stores] using il) (by simpa [Gemm.Stores] using ir)
    (by rw [resizeV_length]; simp)
  refine ⟨⟨[m, n], d⟩, ?_, mk_has2 h2 (fun i j _ _ => by simp)⟩
  unfold matmul
  rw [assert_true l1, bind_ok, assert_true l2, bind_ok, sl, sr]
  simp only [Gemm.gemmView, assert_true, bind_ok, h1]
  rfl

/-- C50: backward of the matrix product is `g b^T` and `a^T g`, whatever the gradient caches hold. -/
theorem matmul_backward [CommSemiring α] (cacheL cacheR l r g : Ten α) (m k n : Nat) (a b γ : List Nat → α) (hl : l.Has [m, k] a)
    (hr : r.Has [k, n] b) (hg : g.Has [m, n] γ) :
    ∃ dl dr, matmulBack cacheL cacheR l r g = ok (dl, dr) ∧
      dl.Has [m, k] (fun is => ∑ j ∈ Finset.range n, γ [is[0]?.getD 0, j] * b [is[1]?.getD 0, j]) ∧
      dr.Has [k, n] (fun is => ∑ i ∈ Finset.range m, a [i, is[0]?.getD 0] * γ [i, is[1]?.getD 0]) := by
  obtain ⟨sl, il⟩ := has2 hl
  obtain ⟨sr, ir⟩ := has2 hr
  obtain ⟨sg, ig⟩ := has2 hg
  obtain ⟨d, h1, h2⟩ := Gemm.gemm_is_matrix_product g.data r.data (resizeV cacheL [m, k]).data false true m n k
    (fun i j => γ [i, j]) (fun i j => b [j, i]) (by simpa [Gemm.Stores] using ig) (by simpa [Gemm.Stores] using ir)
    (by rw [resizeV_length]; simp)
  obtain ⟨e, k1, k2⟩ := Gemm.gemm_is_matrix_product l.data g.data (resizeV cacheR [k, n]).data true false k m n
    (fun i j => a [j, i]) (fun i j => γ [i, j]) (by simpa [Gemm.Stores] using il) (by simpa [Gemm.Stores] using ig)
    (by rw [resizeV_length]; simp)
  refine ⟨⟨[m, k], d⟩, ⟨[k, n], e⟩, ?_, mk_has2 h2 (fun i j _ _ => by simp), mk_has2 k2 (fun i j _ _ => by simp)⟩
  unfold matmulBack
  have g0 : rd g.shape 0 = ok m := by rw [sg]; rfl
  have g1 : rd g.shape 1 = ok n := by rw [sg]; rfl
  rw [g0, bind_ok, g1, bind_ok, require_true (by rw [sl]; simp), bind_ok]
  simp only [sl, sr, List.getLastD_cons, List.getLastD_nil, h1, k1, bind_ok]
  rfl

/-- C50, as adjoints: pairing the two gradients with perturbations of the factors is pairing the output gradient with the first
order change of the product. -/
theorem matmul_adjoint [CommSemiring α] (cacheL cacheR l r g : Ten α) (m k n : Nat) (a b γ : List Nat → α) (hl : l.Has [m, k] a)
    (hr : r.Has [k, n] b) (hg : g.Has [m, n] γ) :
    ∃ dl dr δl δr, matmulBack cacheL cacheR l r g = ok (dl, dr) ∧ dl.Has [m, k] δl ∧ dr.Has [k, n] δr ∧
      ∀ x y : Nat → Nat → α,
        sumIdx [m, k] (fun is => δl is * x (is[0]?.getD 0) (is[1]?.getD 0)) + sumIdx [k, n] (fun is => δr is * y (is[0]?.getD 0) (is[1]?.getD 0)) =
        sumIdx [m, n] (fun is => γ is * (∑ p ∈ Finset.range k, (x (is[0]?.getD 0) p * b [p, is[1]?.getD 0] + a [is[0]?.getD 0, p] * y p (is[1]?.getD 0)))) := by
  obtain ⟨dl, dr, h1, h2, h3⟩ := matmul_backward cacheL cacheR l r g m k n a b γ hl hr hg
  refine ⟨dl, dr, _, _, h1, h2, h3, fun x y => ?_⟩
  simp only [sumIdx, List.getElem?_cons_zero, List.getElem?_cons_succ, Option.getD_some, Finset.sum_add_distrib, mul_add, Finset.mul_sum, Finset.sum_mul]
  congr 1
  · refine Finset.sum_congr rfl (fun i _ => ?_)
    rw [Finset.sum_comm]
    exact Finset.sum_congr rfl (fun j _ => Finset.sum_congr rfl (fun p _ => by ring))
  · calc _ = ∑ p ∈ Finset.range k, ∑ i ∈ Finset.range m, ∑ j ∈ Finset.range n, a [i, p] * γ [i, j] * y p j :=
        Finset.sum_congr rfl (fun p _ => Finset.sum_comm)
      _ = ∑ i ∈ Finset.range m, ∑ p ∈ Finset.range k, ∑ j ∈ Finset.range n, a [i, p] * γ [i, j] * y p j := Finset.sum_comm
      _ = _ := Finset.sum_congr rfl (fun i _ => by
        rw [Finset.sum_comm]
        exact Finset.sum_congr rfl (fun j _ => Finset.sum_congr rfl (fun p _ => by ring)))

/-- Dirty caches of any size. -/
example : matmulBack ⟨[9], [7, 7, 7, 7]⟩ ⟨[1], [5]⟩ ⟨[2, 2], [1, 2, 3, (4 : Int)]⟩ ⟨[2, 1], [5, 6]⟩ ⟨[2, 1], [1, 10]⟩ =
    ok (⟨[2, 2], [5, 6, 50, 60]⟩, ⟨[2, 1], [31, 42]⟩) := by decide

/-! ### sums -/

theorem onesTimes_ok [MulOneClass α] (input g : Ten α) (x : α) (hg : g.data = [x]) :
    onesTimes input g = ok ⟨input.shape, List.replicate (size input.shape) x⟩ := by
  unfold onesTimes
  rw [hg]
  have h0 : rd [x] 0 = ok x := rfl
  rw [h0, bind_ok]
  obtain ⟨o', h1, h2⟩ := loop_inv (n := size input.shape) (s := List.replicate (size input.shape) (1 : α))
    (body := fun i o => do let y ← rd o i; wr o i (y * x))
    (I := fun k o => o = List.replicate k x ++ List.replicate (size input.shape - k) 1) (by simp) (by
      rintro i t hi rfl
      refine ⟨_, ?_, rfl⟩
      have hr : rd (List.replicate i x ++ List.replicate (size input.shape - i) 1) i = ok (1 : α) := by
        apply rd_ok
        rw [List.getElem?_append_right (by simp), List.length_replicate, Nat.sub_self, List.getElem?_replicate, if_pos (by omega)]
      rw [hr, bind_ok, one_mul, wr_ok (by simp; omega)]
      congr 1
      rw [List.set_append_right _ _ (by simp), List.length_replicate, Nat.sub_self]
      obtain ⟨j, hj⟩ : ∃ j, size input.shape - i = j + 1 := ⟨size input.shape - i - 1, by omega⟩
      rw [hj, List.replicate_succ, List.set_cons_zero, show size input.shape - (i + 1) = j by omega, List.replicate_succ', List.append_assoc]
      rfl)
  rw [h1, bind_ok, h2]
  simp

/-- `sum_reduce` : the sum, and its gradient gives every element the incoming gradient. -/
theorem sum_reduce_adjoint [CommSemiring α] (t g : Ten α) (s : List Nat) (a : List Nat → α) (x : α) (ht : t.Has s a) (hs : size s ≠ 0)
    (hg : g.data = [x]) :
    sumReduce t = ok ⟨[1], [sumIdx s a]⟩ ∧ ∃ u, sumReduceBack t g = ok u ∧ u.Has s (fun _ => x) := by
  constructor
  · unfold sumReduce
    rw [sum_all, if_neg ((data_ne_nil ht).mpr hs), bind_ok]
    have : t.data.sum = sumIdx s a := by
      rw [sumIdx_eq_range, list_sum_pos (v := fun p => a (unflat s p)) (fun p hp => ht.2.pos (by rwa [ht.2.1] at hp)), ht.2.1]
    rw [this]; rfl
  · unfold sumReduceBack
    rw [assert_true (by rw [hg]; rfl), bind_ok, onesTimes_ok t g x hg]
    refine ⟨_, rfl, ht.1, by simp [ht.1], fun is hv => ?_⟩
    rw [ht.1, List.getElem?_replicate, if_pos (flat_lt hv)]

theorem divAll_ok [Div α] (d : List α) (c : α) :
    loop d.length (fun i o => do let x ← rd o i; wr o i (x / c)) d = ok (d.map (· / c)) := by
  obtain ⟨o', h1, h2⟩ := loop_inv (n := d.length) (s := d)
    (body := fun i o => do let x ← rd o i; wr o i (x / c))
    (I := fun k o => o = (d.take k).map (· / c) ++ d.drop k) (by simp) (by
      rintro i t hi rfl
      refine ⟨_, ?_, rfl⟩
      have hl : ((d.take i).map (· / c)).length = i := by simp; omega
      have hr : rd ((d.take i).map (· / c) ++ d.drop i) i = ok d[i] := by
        apply rd_ok
        rw [List.getElem?_append_right (by omega), hl, Nat.sub_self, List.drop_eq_getElem_cons hi]; rfl
      rw [hr, bind_ok, wr_ok (by simp; omega)]
      congr 1
      rw [List.set_append_right _ _ (by omega), hl, Nat.sub_self, List.drop_eq_getElem_cons hi, List.set_cons_zero,
        List.take_succ_eq_append_getElem hi, List.map_append, List.append_assoc]
      rfl)
  rw [h1, h2]; simp

theorem meanReduceBack_ok [Field α] (t g : Ten α) (s : List Nat) (a : List Nat → α) (x : α) (ht : t.Has s a) (hg : g.data = [x])
    {b : Nat} (hb : meanBatch s = ok b) :
    ∃ u, meanReduceBack t g = ok u ∧ u.Has s (fun _ => x / (b : α)) := by
  unfold meanReduceBack
  rw [assert_true (by rw [hg]; rfl), bind_ok, onesTimes_ok t g x hg, bind_ok, ht.1, hb, bind_ok]
  simp only [divAll_ok, bind_ok]
  refine ⟨_, rfl, rfl, by simp, fun is hv => ?_⟩
  simp [flat_lt hv]

/-- C52 is false of the code: the gradient of the mean of a tensor `[n, m, ...]` is `g/n` per element instead of
`g/size`; this is wrong for every gradient other than 0 unless the remaining extents multiply to one. -/
theorem mean_reduce_backward_violated [Field α] [CharZero α] (t g : Ten α) (n m : Nat) (s : List Nat) (a : List Nat → α) (x : α)
    (ht : t.Has (n :: m :: s) a) (hn : n ≠ 0) (hs : m * size s ≠ 1) (hg : g.data = [x]) (hx : x ≠ 0) :
    ∃ u b, meanReduceBack t g = ok u ∧ u.Has (n :: m :: s) b ∧
      ∀ is, ValidIdx (n :: m :: s) is → b is ≠ x / (size (n :: m :: s) : α) := by
  obtain ⟨u, h1, h2⟩ := meanReduceBack_ok t g _ a x ht hg (b := n) rfl
  refine ⟨u, _, h1, h2, fun is hv h => hs ?_⟩
  have hsz : size (n :: m :: s) ≠ 0 := by have := flat_lt hv; omega
  have hn' : (n : α) ≠ 0 := Nat.cast_ne_zero.mpr hn
  have hz : (size (n :: m :: s) : α) ≠ 0 := Nat.cast_ne_zero.mpr hsz
  rw [div_eq_div_iff hn' hz] at h
  have h' := mul_left_cancel₀ hx h
  have h2 : n * (m * size s) = n * 1 := by
    have := Nat.cast_injective h'
    simp only [size_cons] at this; omega
  exact Nat.eq_of_mul_eq_mul_left (by omega) h2

/-- C52 where it holds: rank one with one element, or all extents after the first equal to one.  The forward value is the mean.
Missing: everything else (see `mean_reduce_backward_violated`). -/
theorem mean_reduce_backward_partial [Field α] (t g : Ten α) (n : Nat) (s : List Nat) (a : List Nat → α) (x : α) (ht : t.Has (n :: s) a)
    (hn : n ≠ 0) (hs : size s = 1) (hs0 : s ≠ [] ∨ n = 1) (hg : g.data = [x]) :
    meanReduce t = ok ⟨[1], [sumIdx (n :: s) a / (size (n :: s) : α)]⟩ ∧
      ∃ u, meanReduceBack t g = ok u ∧ u.Has (n :: s) (fun _ => x / (size (n :: s) : α)) := by
  have hz : size (n :: s) = n := by rw [size_cons, hs, Nat.mul_one]
  constructor
  · unfold meanReduce
    rw [mean_all _ ((data_ne_nil ht).mpr (by rw [hz]; exact hn)), bind_ok]
    have : t.data.sum = sumIdx (n :: s) a := by
      rw [sumIdx_eq_range, list_sum_pos (v := fun p => a (unflat (n :: s) p)) (fun p hp => ht.2.pos (by rwa [ht.2.1] at hp)), ht.2.1]
    rw [this, ht.2.1]; rfl
  · rw [hz]
    apply meanReduceBack_ok t g _ a x ht hg
    by_cases h1 : s = []
    · subst h1
      rw [hs0.resolve_left (by simp)]; rfl
    · cases s with
      | nil => exact absurd rfl h1
      | cons m s => rfl

example : meanReduceBack ⟨[2, 2], [1, 2, 3, (4 : ℚ)]⟩ ⟨[1], [1]⟩ = ok ⟨[2, 2], [1/2, 1/2, 1/2, 1/2]⟩ ∧
    meanReduceBack ⟨[4], [1, 2, 3, (4 : ℚ)]⟩ ⟨[1], [1]⟩ = ok ⟨[4], [1, 1, 1, 1]⟩ ∧
    meanReduceBack ⟨[2, 1], [1, (2 : ℚ)]⟩ ⟨[1], [1]⟩ = ok ⟨[2, 1], [1/2, 1/2]⟩ := by decide +kernel

end Verif.Ops
