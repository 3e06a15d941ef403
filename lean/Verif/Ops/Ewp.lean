import Verif.Ops.Basic
/-!
# The operators `elementwise_product` and `broadcast` (proofs, C81, C82)
-/
namespace Verif.Ops
open Verif Res View Data
open Verif.Tensor (BroadcastsTo dimR bcIdx)

variable {α : Type}

theorem flat_append_mod {pre t is : List Nat} (hv : ValidIdx (pre ++ t) is) : flat (pre ++ t) is % size t = flat t (is.drop pre.length) ∧
    ValidIdx t (is.drop pre.length) := by
  obtain ⟨ip, iq, rfl, v1, v2⟩ := validIdx_split2 hv
  rw [flat_append v1.length_eq, ← v1.length_eq, List.drop_left]
  exact ⟨(div_mod_eq (flat_lt v2)).2, v2⟩

theorem size_suffix {pre t : List Nat} (h : size (pre ++ t) ≠ 0) : size pre ≠ 0 ∧ size t ≠ 0 ∧ size t ≤ size (pre ++ t) ∧ size t ∣ size (pre ++ t) := by
  rw [size_append] at h ⊢
  have h1 : size pre ≠ 0 := fun e => h (by rw [e, Nat.zero_mul])
  exact ⟨h1, fun e => h (by rw [e, Nat.mul_zero]), Nat.le_mul_of_pos_left _ (Nat.pos_of_ne_zero h1), Dvd.intro_left _ rfl⟩

/-- The tensor product of a tensor and one whose shape is a suffix: the small one is broadcast. -/
theorem ewp_suffix [CommMonoid α] {l r : Ten α} {pre t : List Nat} {a b : List Nat → α} (hl : l.Has (pre ++ t) a) (hr : r.Has t b)
    (hs : size (pre ++ t) ≠ 0) :
    ∃ u, elementwiseProduct l r = ok u ∧ u.Has (pre ++ t) (fun is => a is * b (is.drop pre.length)) := by
  obtain ⟨_, h2, h3, h4⟩ := size_suffix hs
  have ll := hl.2.1
  have lr := hr.2.1
  obtain ⟨u, e1, e2, e3, e4⟩ := elementwise_product_values l r (by omega) (by omega) (Or.inr (by rw [ll, lr]; exact h4))
  refine ⟨u, e1, ?_, ?_, fun is hv => ?_⟩
  · rw [e2, if_neg (by omega), hl.1]
  · rw [e3, ll, lr]; omega
  · obtain ⟨m1, m2⟩ := flat_append_mod hv
    have hlt := flat_lt hv
    refine e4 _ _ _ (by rw [ll, lr]; omega) ?_ ?_
    · rw [ll, Nat.mod_eq_of_lt hlt]; exact hl.2.2 is hv
    · rw [lr, m1]; exact hr.2.2 _ m2

/-- The tensor product of two tensors of equal shape. -/
theorem ewp_same [CommMonoid α] {l r : Ten α} {s : List Nat} {a b : List Nat → α} (hl : l.Has s a) (hr : r.Has s b) (hs : size s ≠ 0) :
    ∃ u, elementwiseProduct l r = ok u ∧ u.Has s (fun is => a is * b is) :=
  ewp_suffix (pre := []) hl hr hs

theorem bcIdx_suffix {pre t is : List Nat} (hv : ValidIdx (pre ++ t) is) : bcIdx t is = is.drop pre.length := by
  obtain ⟨ip, iq, rfl, v1, v2⟩ := validIdx_split2 hv
  unfold bcIdx
  have e : (ip ++ iq).length - t.length = pre.length := by simp [v1.length_eq, v2.length_eq]
  rw [e, ← v1.length_eq, List.drop_left]
  clear hv v1 e
  induction t generalizing iq with
  | nil => cases iq with
    | nil => rfl
    | cons _ _ => exact absurd v2 id
  | cons d t ih => cases iq with
    | nil => exact absurd v2 id
    | cons i iq =>
      rw [List.zipWith_cons_cons, ih iq v2.2]
      congr 1
      have := v2.1
      split <;> omega

theorem broadcastsTo_suffix (pre t : List Nat) : BroadcastsTo t (pre ++ t) := by
  refine ⟨by simp, fun k hk => Or.inl ?_⟩
  unfold dimR
  rw [dif_pos hk, dif_pos (by simp; omega)]
  simp only [List.length_append]
  rw [List.getElem_append_right (by omega)]
  congr 1; omega

theorem ewpGrad_eq [Zero α] [Mul α] (red : List α → α) (fuel : Nat) (shape : List Nat) (other g : Ten α) :
    ewpGrad red fuel shape other g = (elementwiseProduct g other >>= plusGrad red fuel shape) := rfl

/-! ### C81 -/

/-- C81, left operand of shape `pre ++ t`, right one of shape `t`: the forward value is the broadcast product, and the gradients pair
with perturbations `x`, `y` of the operands to what the output gradient gives on the first order change of the product. -/
theorem elementwise_product_backward_partial [CommSemiring α] (red : List α → α) (hred : Reduces (· + ·) red) (l r g : Ten α) (pre t : List Nat)
    (a b γ : List Nat → α) (ht : t ≠ []) (hl : l.Has (pre ++ t) a) (hr : r.Has t b) (hg : g.Has (pre ++ t) γ) (hs : size (pre ++ t) ≠ 0)
    (hm : ∀ d ∈ pre ++ t, d ≠ minusOne) (hrank : (pre ++ t).length < minusOne) (fuel : Nat) (hf : (pre ++ t).length ≤ fuel) :
    (∃ u, elementwiseProduct l r = ok u ∧ u.Has (pre ++ t) (fun is => a is * b (is.drop pre.length))) ∧
    ∃ dl dr δl δr, ewpBack red fuel l r g = ok (dl, dr) ∧ dl.Has (pre ++ t) δl ∧ dr.Has t δr ∧
      ∀ x y : List Nat → α, sumIdx (pre ++ t) (fun is => δl is * x is) + sumIdx t (fun is => δr is * y is) =
        sumIdx (pre ++ t) (fun is => γ is * (x is * b (is.drop pre.length) + a is * y (is.drop pre.length))) := by
  refine ⟨ewp_suffix hl hr hs, ?_⟩
  obtain ⟨p, p1, p2⟩ := ewp_suffix hg hr hs
  obtain ⟨u, h1, δ, h2, h3⟩ := plusGrad_ok hred (broadcastsTo_suffix [] (pre ++ t)) (Or.inl (by simp [ht])) hm hrank p2 hs fuel hf
  obtain ⟨q, q1, q2⟩ := ewp_same hg hl hs
  obtain ⟨v, k1, ε, k2, k3⟩ := plusGrad_ok hred (broadcastsTo_suffix pre t) (Or.inl ht) hm hrank q2 hs fuel hf
  refine ⟨u, v, δ, ε, ?_, h2, k2, fun x y => ?_⟩
  · unfold ewpBack
    rw [ewpGrad_eq, ewpGrad_eq, hl.1, hr.1, p1, bind_ok, q1, h1, bind_ok, bind_ok, k1, bind_ok]; rfl
  · rw [h3 x, k3 y, List.nil_append, ← sumIdx_add]
    refine sumIdx_congr (fun is hv => ?_)
    rw [bcIdx_suffix hv, bcIdx_suffix (pre := []) (t := pre ++ t) (is := is) hv]
    simp only [List.length_nil, List.drop_zero]
    ring

/-- C81 is false of the code when the shapes are only compatible dimension by dimension: for `[2,3]` and `[2,1]` the forward action
multiplies with the small operand repeated cyclically, while the backward action sums over the last axis, so the gradient of the small
operand is not the derivative of the value computed: the sum of products is linear in the small operand, with coefficient
`1 + 3 + 5 = 9` for its first element, but the gradient returned for it is `1 + 2 + 3 = 6`. -/
theorem elementwise_product_backward_violated :
    (∀ y : Int, (elementwiseProduct ⟨[2, 3], [1, 2, 3, 4, 5, (6 : Int)]⟩ ⟨[2, 1], [y, 0]⟩ >>= sumReduce) = ok ⟨[1], [9 * y]⟩) ∧
    ∀ y : Int, (do let p ← ewpBack List.sum 2 ⟨[2, 3], [1, 2, 3, 4, 5, (6 : Int)]⟩ ⟨[2, 1], [y, 0]⟩ ⟨[2, 3], [1, 1, 1, 1, 1, 1]⟩; pure p.2) =
      ok ⟨[2, 1], [6, 15]⟩ := by
  constructor
  · intro y
    have : elementwiseProduct ⟨[2, 3], [1, 2, 3, 4, 5, (6 : Int)]⟩ ⟨[2, 1], [y, 0]⟩ = ok ⟨[2, 3], [1 * y, 2 * 0, 3 * y, 4 * 0, 5 * y, 6 * 0]⟩ := by with_unfolding_all rfl
    rw [this, bind_ok]
    unfold sumReduce
    rw [sum_all, if_neg (by simp), bind_ok]
    simp only [pure_eq, List.sum_cons, List.sum_nil]
    congr 3; ring
  · intro y
    have e1 : ewpGrad List.sum 2 [2, 1] ⟨[2, 3], [1, 2, 3, 4, 5, (6 : Int)]⟩ ⟨[2, 3], [1, 1, 1, 1, 1, 1]⟩ = ok ⟨[2, 1], [6, 15]⟩ := by decide
    have e2 : ewpGrad List.sum 2 [2, 3] ⟨[2, 1], [y, 0]⟩ ⟨[2, 3], [1, 1, 1, 1, 1, (1 : Int)]⟩ =
      ok ⟨[2, 3], [1 * y, 1 * 0, 1 * y, 1 * 0, 1 * y, 1 * 0]⟩ := by with_unfolding_all rfl
    unfold ewpBack
    rw [e2, bind_ok, e1]; rfl

example : ewpBack List.sum 2 ⟨[2, 3], [1, 2, 3, 4, 5, (6 : Int)]⟩ ⟨[3], [1, 10, 100]⟩ ⟨[2, 3], [1, 1, 1, 1, 1, 1]⟩ =
    ok (⟨[2, 3], [1, 10, 100, 1, 10, 100]⟩, ⟨[3], [5, 7, 9]⟩) := by decide

/-! ### C82 -/

theorem broadcastOp_pos [Zero α] (new : List Nat) (cache t : Ten α) (a : List Nat → α) (ht : t.Has t.shape a) (hs : size t.shape ≠ 0)
    (hne : new ≠ t.shape) (hd : size t.shape ∣ size new) :
    ∃ d, broadcastOp new cache t = ok ⟨new, d⟩ ∧ d.length = size new ∧ ∀ p, p < size new → d[p]? = t.data[p % size t.shape]? := by
  obtain ⟨k, hk⟩ := hd
  have hlen := ht.2.1
  have hdiv : size new / size t.shape = k := by rw [hk]; exact Nat.mul_div_cancel_left _ (Nat.pos_of_ne_zero hs)
  obtain ⟨d, h1, h2⟩ := fill2 (m := k) (n := size t.shape) (out := (resizeV cache new).data)
    (body := fun idx i o => do
      let x ← rd t.data i
      wr o (idx * size t.shape + i) x)
    (g := fun _ i => a (unflat t.shape i)) (fun i j o hi hj _ => by rw [rd_ok (ht.2.pos hj), bind_ok])
    (by rw [resizeV_length, hk, Nat.mul_comm])
  refine ⟨d, ?_, by rw [h2.1, hk, Nat.mul_comm], fun p hp => ?_⟩
  · unfold broadcastOp
    rw [assert_true (by omega), bind_ok, if_neg hne]
    simp only [hdiv, hlen, h1, bind_ok]; rfl
  · obtain ⟨i, j, hi, hj, rfl⟩ := exists_div_mod (show p < k * size t.shape by rw [Nat.mul_comm, ← hk]; exact hp)
    rw [h2.2 i j hi hj, (div_mod_eq hj).2, ht.2.pos hj]

/-- C82, forward: an operand `(n...)` or `(1,...,1,n...)` is broadcast to any shape ending in its extents, whatever the cache holds. -/
theorem broadcast_op_values [Zero α] (ones : Nat) (pre s : List Nat) (cache t : Ten α) (a : List Nat → α) (hs : size s ≠ 0)
    (ht : t.Has (List.replicate ones 1 ++ s) a) (hlen : ones ≤ pre.length) :
    ∃ u, broadcastOp (pre ++ s) cache t = ok u ∧ u.Has (pre ++ s) (fun is => a (bcIdx (List.replicate ones 1 ++ s) is)) := by
  have hones : size (List.replicate ones 1) = 1 := by
    clear hlen ht
    induction ones with
    | zero => rfl
    | succ n ih => rw [List.replicate_succ, size_cons, ih]
  have hsz : size (List.replicate ones 1 ++ s) = size s := by rw [size_append, hones, Nat.one_mul]
  have hbc : ∀ is, ValidIdx (pre ++ s) is → bcIdx (List.replicate ones 1 ++ s) is = List.replicate ones 0 ++ is.drop pre.length := by
    intro is hv
    obtain ⟨ip, iq, rfl, v1, v2⟩ := validIdx_split2 hv
    have hl := v1.length_eq
    unfold bcIdx
    have e : (ip ++ iq).length - (List.replicate ones 1 ++ s).length = pre.length - ones := by simp [hl, v2.length_eq]; omega
    rw [e, List.drop_append_of_le_length (by omega), List.zipWith_append (by simp; omega), ← hl, List.drop_left]
    congr 1
    · apply List.ext_getElem (by simp; omega)
      intro n h1 h2
      simp
    · have := bcIdx_suffix (pre := []) (t := s) (is := iq) v2
      simpa [bcIdx, v2.length_eq] using this
  by_cases hne : pre ++ s = t.shape
  · refine ⟨t, ?_, ?_⟩
    · unfold broadcastOp
      rw [assert_true (by rw [ht.2.1, hsz]; exact hs), bind_ok, if_pos hne]
    · rw [ht.1] at hne
      rw [hne]
      refine ht.congr (fun is hv => ?_)
      rw [bcIdx_suffix (pre := []) (t := List.replicate ones 1 ++ s) hv]; rfl
  · have ht' : t.Has t.shape a := by rw [ht.1]; exact ht
    obtain ⟨d, h1, h2, h3⟩ := broadcastOp_pos (pre ++ s) cache t a ht' (by rw [ht.1, hsz]; exact hs) hne
      (by rw [ht.1, hsz, size_append]; exact Dvd.intro_left _ rfl)
    refine ⟨_, h1, rfl, h2, fun is hv => ?_⟩
    dsimp only
    rw [h3 _ (flat_lt hv), ht.1, hsz, hbc is hv]
    obtain ⟨m1, m2⟩ := flat_append_mod hv
    rw [m1]
    have v0 : ValidIdx (List.replicate ones 1) (List.replicate ones 0) := by
      clear hlen ht hbc hsz hones h3 hne
      induction ones with
      | zero => trivial
      | succ n ih => exact ⟨by omega, ih⟩
    have hv2 : ValidIdx (List.replicate ones 1 ++ s) (List.replicate ones 0 ++ is.drop pre.length) :=
      (validIdx_append v0.length_eq).mpr ⟨v0, m2⟩
    rw [← ht.2.2 _ hv2, flat_append v0.length_eq]
    have := flat_lt v0
    rw [hones] at this
    rw [show flat (List.replicate ones 1) (List.replicate ones 0) = 0 by omega, Nat.zero_mul, Nat.zero_add]

/-- C82, backward: for shapes whose sizes divide, pairing the gradient returned with any tensor of the operand's shape is pairing the
incoming gradient with that tensor's broadcast, whatever the two caches hold. -/
theorem broadcast_op_adjoint [CommSemiring α] (new : List Nat) (cache cacheB t g x out : Ten α) (a γ ξ : List Nat → α)
    (ht : t.Has t.shape a) (hx : x.Has t.shape ξ) (hs : size t.shape ≠ 0) (hn : size new ≠ 0) (hd : size t.shape ∣ size new)
    (hg : g.Has new γ) (ho : broadcastOp new cache t = ok out) :
    ∃ u y, broadcastOpBack cacheB t out g = ok u ∧ u.shape = t.shape ∧ broadcastOp new cache x = ok y ∧ dot u.data x.data = dot g.data y.data := by
  have hx' : x.Has x.shape ξ := by rw [hx.1]; exact hx
  have hl := ht.2.1
  have hlg := hg.2.1
  by_cases hne : new = t.shape
  · refine ⟨g, x, ?_, by rw [hg.1, hne], ?_, rfl⟩
    · unfold broadcastOp at ho
      rw [assert_true (by omega), bind_ok, if_pos hne] at ho
      obtain rfl : t = out := by simpa using ho
      unfold broadcastOpBack
      rw [assert_true (show t.data.length ≠ 0 by omega), bind_ok, bind_ok, assert_true (show g.data.length ≠ 0 by omega), bind_ok, if_pos rfl]
    · unfold broadcastOp
      rw [assert_true (by rw [hx.2.1]; exact hs), bind_ok, if_pos (by rw [hx.1, hne])]
  · obtain ⟨d, h1, h2, h3⟩ := broadcastOp_pos new cache t a ht hs hne hd
    obtain ⟨e, k1, k2, k3⟩ := broadcastOp_pos new cache x ξ hx' (by rw [hx.1]; exact hs) (by rw [hx.1]; exact hne) (by rw [hx.1]; exact hd)
    rw [h1] at ho
    obtain rfl : (⟨new, d⟩ : Ten α) = out := by simpa using ho
    obtain ⟨k, hk⟩ := hd
    have hdiv : size new / size t.shape = k := by rw [hk]; exact Nat.mul_div_cancel_left _ (Nat.pos_of_ne_zero hs)
    have hadds : Adds (fun o => loop k (fun idx o => loop (size t.shape) (fun i o => do
        let g ← rd g.data (idx * size t.shape + i)
        addAt o i g) o) o) (size t.shape)
        (fun p => ∑ idx ∈ Finset.range k, ∑ i ∈ Finset.range (size t.shape), if p = i then γ (unflat new (idx * size t.shape + i)) else 0) := by
      refine Adds.loop (fun idx hidx => Adds.loop (fun i hi => (adds_addAt hi).congr_prog (fun o _ => ?_)))
      have hp : idx * size t.shape + i < size new := by rw [hk, Nat.mul_comm (size t.shape)]; exact lt_mul_of_lt hidx hi
      rw [rd_ok (hg.2.pos hp), bind_ok]
    obtain ⟨o', m1, m2, m3⟩ := hadds.run (o := List.replicate (size t.shape) 0) (by simp) (g := fun _ => 0) (fun p hp => by simp [hp])
    refine ⟨⟨t.shape, o'⟩, ⟨new, e⟩, ?_, rfl, k1, ?_⟩
    · unfold broadcastOpBack
      rw [assert_true (show t.data.length ≠ 0 by omega), bind_ok, assert_true (show d.length ≠ 0 by omega), bind_ok,
        assert_true (show g.data.length ≠ 0 by omega), bind_ok, if_neg (fun h => hne h.symm),
        assert_true hg.1.symm, bind_ok]
      have hf : Gemm.fillN (resizeV cacheB t.shape).data.length 0 (resizeV cacheB t.shape).data = ok (List.replicate (size t.shape) 0) := by
        rw [Gemm.fillN_ok rfl, resizeV_length]
      simp only [hg.1, hf, bind_ok, hdiv, List.length_replicate, m1]; rfl
    · rw [dot_eq_sum m2 hx.2.1 m3 (fun p hp => hx.2.pos hp),
        dot_eq_sum hlg k2 (fun p hp => hg.2.pos hp) (b := fun p => ξ (unflat t.shape (p % size t.shape))) (fun p hp => by
          rw [k3 p hp, hx.1]; exact hx.2.pos (Nat.mod_lt _ (Nat.pos_of_ne_zero hs)))]
      rw [show size new = k * size t.shape by rw [hk, Nat.mul_comm], sum_range_mul, Finset.sum_comm]
      refine Finset.sum_congr rfl (fun p hp => ?_)
      rw [zero_add, Finset.sum_mul]
      refine Finset.sum_congr rfl (fun idx _ => ?_)
      rw [Finset.sum_ite_eq, if_pos hp, (div_mod_eq (Finset.mem_range.mp hp)).2]

example : broadcastOp [2, 3] ⟨[], []⟩ ⟨[1, 3], [1, 2, (3 : Int)]⟩ = ok ⟨[2, 3], [1, 2, 3, 1, 2, 3]⟩ ∧
    broadcastOpBack ⟨[3], [9, 9, 9]⟩ ⟨[1, 3], [1, 2, (3 : Int)]⟩ ⟨[2, 3], [1, 2, 3, 1, 2, 3]⟩ ⟨[2, 3], [1, 2, 3, 4, 5, 6]⟩ =
      ok ⟨[1, 3], [5, 7, 9]⟩ := by decide

end Verif.Ops
