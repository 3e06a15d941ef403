import Verif.Stats.Model
import Verif.Data.Reduce
import Verif.Tensor.Props
import Verif.Basic.Inplace
import Mathlib.Analysis.InnerProductSpace.PiL2
import Mathlib.Tactic.FieldSimp
import Mathlib.Tactic.Linarith
/-!
# Property C107: statistics
-/
namespace Verif.Stats
open Verif Res Data View
open Verif.Tensor (Holds bcIdx Compatible BroadcastsTo dimR rule)

variable {α : Type}

/-! ### specification -/

/-- The mean of `n` numbers. -/
def meanOf [Field α] (n : Nat) (f : Nat → α) : α := (∑ i ∈ Finset.range n, f i) / n

/-- The (population) variance of `n` numbers: the mean of the squared deviations from the mean. -/
def varOf [Field α] (n : Nat) (f : Nat → α) : α := meanOf n (fun i => (f i - meanOf n f) ^ 2)

/-! ### tensors -/

theorem has_map {β : Type} {t : Ten α} {s : List Nat} {a : List Nat → α} (h : t.Has s a) (g : α → β) : (⟨t.shape, t.data.map g⟩ : Ten β).Has s (fun is => g (a is)) := by
  refine ⟨h.1, by simp [h.2.1], fun is hv => ?_⟩
  rw [List.getElem?_map, h.2.2 is hv]; rfl

/-- `minus` of a tensor and one it broadcasts to. -/
theorem minusT_ok [Field α] {l r : Ten α} {ls rs : List Nat} {a b : List Nat → α} (hl : l.Has ls a) (hr : r.Has rs b) (hb : BroadcastsTo ls rs)
    (ml : ls.getLast? ≠ some minusOne) (mr : rs.getLast? ≠ some minusOne) :
    ∃ u, minusT l r = ok u ∧ u.Has rs (fun is => a (bcIdx ls is) - b (bcIdx rs is)) := by
  have hc : Compatible ls rs := by
    intro k
    by_cases hk : k < ls.length
    · rcases hb.2 k hk with h | h
      · exact Or.inl h
      · exact Or.inr (Or.inl h)
    · right; left
      exact Tensor.dimR_of_ge (by omega)
  obtain ⟨c, h1, h2, h3⟩ := Tensor.broadcastShape_ok hc
  have hcr : c = rs := by
    refine Tensor.dimR_ext (by rw [h2, max_eq_right hb.1]) (fun k => ?_)
    rw [h3, rule]
    by_cases h : dimR ls k = 1
    · rw [if_pos h]
    · rw [if_neg h]
      by_cases hk : k < ls.length
      · rcases hb.2 k hk with h' | h'
        · exact h'
        · exact absurd h' h
      · exact absurd (Tensor.dimR_of_ge (by omega)) h
  obtain ⟨c', t', h', k1, k2, k3, ⟨buf, k4, k5⟩, _⟩ := Tensor.addLike_ok (f := (· - ·)) (h := [l.data, r.data]) (l := ⟨ls, 0⟩) (r := ⟨rs, 1⟩)
    ⟨l.data, rfl, hl.2⟩ ⟨r.data, rfl, hr.2⟩ hc ml mr
  have hcc : c' = rs := by
    have k1' : Tensor.broadcastShape ls rs = ok c' := k1
    rw [h1] at k1'
    cases k1'
    exact hcr
  subst hcc
  refine ⟨⟨t'.shape, buf⟩, ?_, k3, by rw [k3] at k5; exact k5⟩
  unfold minusT
  rw [hl.1, hr.1, k2, bind_ok]
  dsimp only
  rw [rd_ok k4, bind_ok]; rfl

theorem dimR_append_cons (pre post : List Nat) (n k : Nat) : dimR (pre ++ n :: post) k = if k = post.length then n else dimR (pre ++ 0 :: post) k := by
  unfold dimR
  simp only [List.length_append, List.length_cons]
  split
  · rename_i h
    split
    · rename_i hk
      rw [List.getElem_append_right (by omega)]
      simp [hk]
    · rename_i hk
      by_cases h' : k < post.length
      · rw [List.getElem_append_right (by omega), List.getElem_append_right (by omega), List.getElem_cons, List.getElem_cons, dif_neg (by omega), dif_neg (by omega)]
      · rw [List.getElem_append_left (by omega), List.getElem_append_left (by omega)]
  · rw [if_neg (by omega)]

theorem broadcasts_axis (pre post : List Nat) (n : Nat) : BroadcastsTo (pre ++ 1 :: post) (pre ++ n :: post) := by
  refine ⟨by simp, fun k _ => ?_⟩
  rw [dimR_append_cons pre post 1, dimR_append_cons pre post n]
  split
  · exact Or.inr rfl
  · exact Or.inl rfl

theorem bcIdx_same {s is : List Nat} (h : ValidIdx s is) : bcIdx s is = is := by
  unfold bcIdx
  rw [h.length_eq, Nat.sub_self, List.drop_zero]
  induction s generalizing is with
  | nil => cases is with
    | nil => rfl
    | cons => simp [ValidIdx] at h
  | cons d s ih =>
    cases is with
    | nil => simp [ValidIdx] at h
    | cons i is =>
      have hv : i < d ∧ ValidIdx s is := by simpa [ValidIdx] using h
      rw [List.zipWith_cons_cons, ih hv.2]
      split
      · congr 1; omega
      · rfl

theorem bcIdx_axis {pre post is : List Nat} {n : Nat} (h : ValidIdx (pre ++ n :: post) is) : bcIdx (pre ++ 1 :: post) is = is.set pre.length 0 := by
  unfold bcIdx
  have hl := h.length_eq
  rw [show is.length - (pre ++ 1 :: post).length = 0 by rw [hl]; simp, List.drop_zero]
  induction pre generalizing is with
  | nil =>
    cases is with
    | nil => simp at h
    | cons i is =>
      have hv : i < n ∧ ValidIdx post is := by simpa [ValidIdx] using h
      have := bcIdx_same hv.2
      unfold bcIdx at this
      rw [hv.2.length_eq, Nat.sub_self, List.drop_zero] at this
      simp [this]
  | cons d pre ih =>
    cases is with
    | nil => simp at h
    | cons i is =>
      have hv : i < d ∧ ValidIdx (pre ++ n :: post) is := by simpa [ValidIdx] using h
      rw [List.cons_append, List.zipWith_cons_cons, ih hv.2 hv.2.length_eq]
      simp only [List.length_cons, List.set_cons_succ]
      split
      · congr 1; omega
      · rfl

theorem last_axis {pre post : List Nat} {n : Nat} (h : (pre ++ n :: post).getLast? ≠ some minusOne) : (pre ++ 1 :: post).getLast? ≠ some minusOne := by
  rw [List.getLast?_append_of_ne_nil _ (by simp)] at h ⊢
  cases post with
  | nil => simp [minusOne]
  | cons p post => simpa [List.getLast?_cons_cons] using h

section
variable [Field α] {red : List α → α} (hred : Reduces (· + ·) red) {t : Ten α} {pre post : List Nat} {n axis : Nat} {a : List Nat → α}
include hred

omit [Field α] hred in
/-- The axis as the code normalises it. -/
theorem axis_norm (ht : t.Has (pre ++ n :: post) a) (hax : axis = pre.length ∧ axis ≠ minusOne ∨ axis = minusOne ∧ post = []) :
    (if axis = minusOne then t.shape.length - 1 else axis) = pre.length ∧ (pre.length = pre.length ∧ pre.length ≠ minusOne ∨ pre.length = minusOne ∧ post = []) := by
  rcases hax with ⟨h1, h2⟩ | ⟨h1, h2⟩
  · rw [if_neg h2, h1]; exact ⟨rfl, Or.inl ⟨rfl, h1 ▸ h2⟩⟩
  · rw [if_pos h1, ht.1, h2]
    refine ⟨by simp, ?_⟩
    by_cases hm : pre.length = minusOne
    · exact Or.inr ⟨hm, rfl⟩
    · exact Or.inl ⟨rfl, hm⟩

/-- C107: the mean along an axis that is kept. -/
theorem mean_axis_keepdims (ht : t.Has (pre ++ n :: post) a) (hne : t.data ≠ []) (hax : axis = pre.length ∧ axis ≠ minusOne ∨ axis = minusOne ∧ post = []) :
    ∃ u, meanAxis red t axis true = ok u ∧ u.Has (pre ++ 1 :: post) (fun is => meanOf n (fun i => a (is.set pre.length i))) := by
  obtain ⟨hn, hx⟩ := axis_norm ht hax
  obtain ⟨u, k1, k2, _⟩ := sum_axis_keepdims red hred t pre post n pre.length a ht hne hx
  unfold meanAxis
  simp only []
  rw [hn, k1, bind_ok, ht.1, rd_ok (show (pre ++ n :: post)[pre.length]? = some n by simp), bind_ok]
  exact ⟨_, rfl, has_map k2 _⟩

/-- C107: the mean along an axis that is dropped, for tensors of rank two or more.  Missing: rank one, where `reduce` is undefined (C27). -/
theorem mean_axis_partial (ht : t.Has (pre ++ n :: post) a) (hne : t.data ≠ []) (hax : axis = pre.length ∧ axis ≠ minusOne ∨ axis = minusOne ∧ post = [])
    (hrank : pre ++ post ≠ []) (hlast : (pre ++ post).getLast? ≠ some minusOne) :
    ∃ u, meanAxis red t axis false = ok u ∧ u.Has (pre ++ post) (fun is => meanOf n (fun i => a (is.take pre.length ++ i :: is.drop pre.length))) := by
  obtain ⟨hn, hx⟩ := axis_norm ht hax
  obtain ⟨u, k1, k2, _⟩ := sum_axis_partial red hred t pre post n pre.length a ht hne hx hrank hlast
  unfold meanAxis
  simp only []
  rw [hn, k1, bind_ok, ht.1, rd_ok (show (pre ++ n :: post)[pre.length]? = some n by simp), bind_ok]
  exact ⟨_, rfl, has_map k2 _⟩

omit [Field α] hred in
theorem set_valid {is : List Nat} {i : Nat} (hv : ValidIdx (pre ++ 1 :: post) is) (hi : i < n) : ValidIdx (pre ++ n :: post) (is.set pre.length i) := by
  induction pre generalizing is with
  | nil =>
    cases is with
    | nil => simp at hv
    | cons j is =>
      have : j < 1 ∧ ValidIdx post is := by simpa [ValidIdx] using hv
      simpa [ValidIdx] using ⟨hi, this.2⟩
  | cons d pre ih =>
    cases is with
    | nil => simp at hv
    | cons j is =>
      have : j < d ∧ ValidIdx (pre ++ 1 :: post) is := by simpa [ValidIdx] using hv
      simpa [ValidIdx] using ⟨this.1, ih this.2⟩

omit [Field α] hred in
theorem ins_valid {is : List Nat} {i : Nat} (hv : ValidIdx (pre ++ post) is) (hi : i < n) : ValidIdx (pre ++ n :: post) (is.take pre.length ++ i :: is.drop pre.length) := by
  induction pre generalizing is with
  | nil => simpa [ValidIdx] using ⟨hi, hv⟩
  | cons d pre ih =>
    cases is with
    | nil => simp at hv
    | cons j is =>
      have : j < d ∧ ValidIdx (pre ++ post) is := by simpa [ValidIdx] using hv
      simpa [ValidIdx] using ⟨this.1, ih this.2⟩

/-- The squared deviations. -/
theorem deviations (ht : t.Has (pre ++ n :: post) a) (hne : t.data ≠ []) (hax : axis = pre.length ∧ axis ≠ minusOne ∨ axis = minusOne ∧ post = [])
    (hlast : (pre ++ n :: post).getLast? ≠ some minusOne) :
    ∃ u v, meanAxis red t axis true = ok u ∧ minusT u t = ok v ∧ v.data ≠ [] ∧
      (⟨v.shape, v.data.map (fun x => x * x)⟩ : Ten α).Has (pre ++ n :: post) (fun is => (a is - meanOf n (fun i => a (is.set pre.length i))) ^ 2) := by
  obtain ⟨u, h1, h2⟩ := mean_axis_keepdims hred ht hne hax
  obtain ⟨v, k1, k2⟩ := minusT_ok h2 ht (broadcasts_axis pre post n) (last_axis hlast) hlast
  refine ⟨u, v, h1, k1, ?_, (has_map k2 (fun x => x * x)).congr (fun is hv => ?_)⟩
  · intro he
    have e1 := k2.2.1
    rw [he, ← ht.2.1] at e1
    exact hne (List.length_eq_zero_iff.mp e1.symm)
  · rw [bcIdx_same hv, bcIdx_axis hv]
    simp only [List.set_set]
    ring

/-- C107: the variance along an axis that is kept. -/
theorem variance_keepdims (ht : t.Has (pre ++ n :: post) a) (hne : t.data ≠ []) (hax : axis = pre.length ∧ axis ≠ minusOne ∨ axis = minusOne ∧ post = [])
    (hlast : (pre ++ n :: post).getLast? ≠ some minusOne) :
    ∃ u, variance red t axis true = ok u ∧ u.Has (pre ++ 1 :: post) (fun is => varOf n (fun i => a (is.set pre.length i))) := by
  obtain ⟨u, v, h1, h2, h3, h4⟩ := deviations hred ht hne hax hlast
  obtain ⟨w, k1, k2⟩ := mean_axis_keepdims hred h4 (by simpa using h3) hax
  refine ⟨w, ?_, k2.congr (fun is hv => ?_)⟩
  · unfold variance
    rw [h1, bind_ok, h2, bind_ok]; exact k1
  · unfold varOf
    simp only [List.set_set]

/-- C107: the variance along an axis that is dropped, for tensors of rank two or more.  Missing: rank one, where `reduce` is undefined (C27). -/
theorem variance_partial (ht : t.Has (pre ++ n :: post) a) (hne : t.data ≠ []) (hax : axis = pre.length ∧ axis ≠ minusOne ∨ axis = minusOne ∧ post = [])
    (hlast : (pre ++ n :: post).getLast? ≠ some minusOne) (hrank : pre ++ post ≠ []) (hlast' : (pre ++ post).getLast? ≠ some minusOne) :
    ∃ u, variance red t axis false = ok u ∧ u.Has (pre ++ post) (fun is => varOf n (fun i => a (is.take pre.length ++ i :: is.drop pre.length))) := by
  obtain ⟨u, v, h1, h2, h3, h4⟩ := deviations hred ht hne hax hlast
  obtain ⟨w, k1, k2⟩ := mean_axis_partial hred h4 (by simpa using h3) hax hrank hlast'
  refine ⟨w, ?_, k2.congr (fun is hv => ?_)⟩
  · unfold variance
    rw [h1, bind_ok, h2, bind_ok]; exact k1
  · unfold varOf
    have hlen : (is.take pre.length).length = pre.length := by
      have := hv.length_eq
      simp only [List.length_take, this, List.length_append]; omega
    have hs : ∀ i j, (is.take pre.length ++ i :: is.drop pre.length).set pre.length j = is.take pre.length ++ j :: is.drop pre.length := fun i j => by
      rw [List.set_append_right _ _ (by omega), hlen, Nat.sub_self, List.set_cons_zero]
    simp only [hs]

/-- C107: the standard deviation along an axis is the root of the variance. -/
theorem standard_deviation_keepdims (root : α → α) (ht : t.Has (pre ++ n :: post) a) (hne : t.data ≠ [])
    (hax : axis = pre.length ∧ axis ≠ minusOne ∨ axis = minusOne ∧ post = []) (hlast : (pre ++ n :: post).getLast? ≠ some minusOne) :
    ∃ u, standardDeviation root red t axis true = ok u ∧ u.Has (pre ++ 1 :: post) (fun is => root (varOf n (fun i => a (is.set pre.length i)))) := by
  obtain ⟨u, h1, h2⟩ := variance_keepdims hred ht hne hax hlast
  exact ⟨_, by unfold standardDeviation; rw [h1, bind_ok]; rfl, has_map h2 root⟩

theorem standard_deviation_partial (root : α → α) (ht : t.Has (pre ++ n :: post) a) (hne : t.data ≠ [])
    (hax : axis = pre.length ∧ axis ≠ minusOne ∨ axis = minusOne ∧ post = []) (hlast : (pre ++ n :: post).getLast? ≠ some minusOne) (hrank : pre ++ post ≠ [])
    (hlast' : (pre ++ post).getLast? ≠ some minusOne) :
    ∃ u, standardDeviation root red t axis false = ok u ∧ u.Has (pre ++ post) (fun is => root (varOf n (fun i => a (is.take pre.length ++ i :: is.drop pre.length)))) := by
  obtain ⟨u, h1, h2⟩ := variance_partial hred ht hne hax hlast hrank hlast'
  exact ⟨_, by unfold standardDeviation; rw [h1, bind_ok]; rfl, has_map h2 root⟩

/-- `reduce_sum` and `reduce_mean`. -/
theorem reduce_mean_value : reduceSum red t = ⟨[1], [t.data.sum]⟩ ∧ reduceMean red t = ⟨[1], [t.data.sum / t.data.length]⟩ := by
  have h : red (0 :: t.data) = t.data.sum := by rw [(hred _ (by simp)).sum, List.sum_cons, zero_add]
  simp [reduceSum, reduceMean, divS, h]

end

/-! ### statistics of whole tensors -/

section
variable [Field α]

/-- The elements by position. -/
def elem (t : Ten α) (i : Nat) : α := t.data.getD i 0

theorem sum_elem (t : Ten α) : t.data.sum = ∑ i ∈ Finset.range t.data.length, elem t i :=
  list_sum_pos (fun p hp => by simp [elem, hp])

theorem sum_squares (d : List α) : loop d.length (fun i acc => do let v ← rd d i; pure (acc + v * v)) 0 = ok (∑ i ∈ Finset.range d.length, d.getD i 0 ^ 2) := by
  rw [loop_sum (g := fun i => d.getD i 0 ^ 2) 0 (fun i acc hi => by
    rw [rd_ok (List.getElem?_eq_getElem hi), bind_ok]
    simp [hi, pow_two]), zero_add]

/-- What `var( t )` is: the sum of the squared deviations. -/
theorem var_value (t : Ten α) (hne : t.data ≠ []) : var t = ok (∑ i ∈ Finset.range t.data.length, (elem t i - meanOf t.data.length (elem t)) ^ 2) := by
  unfold var
  rw [mean_all t hne, bind_ok]
  dsimp only
  rw [sum_squares, sum_elem]
  have hl : (subS t (meanOf t.data.length (elem t))).data.length = t.data.length := by simp [subS]
  show ok (∑ i ∈ Finset.range (subS t (meanOf t.data.length (elem t))).data.length, _) = _
  rw [hl]
  congr 1
  refine Finset.sum_congr rfl (fun i hi => ?_)
  have hi := Finset.mem_range.mp hi
  simp [subS, elem, meanOf, hi]

/-- The sum of the squared deviations is the number of elements times the variance. -/
theorem squares_eq [CharZero α] (n : Nat) (hn : n ≠ 0) (f : Nat → α) : ∑ i ∈ Finset.range n, (f i - meanOf n f) ^ 2 = n * varOf n f := by
  have h0 : (n : α) ≠ 0 := by simpa using hn
  unfold varOf
  conv_rhs => rw [meanOf, mul_div_cancel₀ _ h0]

end

section
variable [Field α] [LinearOrder α] [IsStrictOrderedRing α]

theorem varOf_nonneg (n : Nat) (f : Nat → α) : 0 ≤ varOf n f :=
  div_nonneg (Finset.sum_nonneg (fun _ _ => sq_nonneg _)) (Nat.cast_nonneg n)

/-- The variance is positive as soon as two of the numbers differ. -/
theorem varOf_pos {n i j : Nat} (f : Nat → α) (hi : i < n) (hj : j < n) (h : f i ≠ f j) : 0 < varOf n f := by
  refine div_pos ?_ (by exact_mod_cast (by omega : 0 < n))
  refine Finset.sum_pos' (fun _ _ => sq_nonneg _) ?_
  by_cases hm : f i = meanOf n f
  · exact ⟨j, Finset.mem_range.mpr hj, pow_pos_of_ne (fun e => h (hm.trans (sub_eq_zero.mp e).symm))⟩
  · exact ⟨i, Finset.mem_range.mpr hi, pow_pos_of_ne (fun e => hm (sub_eq_zero.mp e))⟩
where
  pow_pos_of_ne {x : α} (h : x ≠ 0) : 0 < x ^ 2 := by positivity

/-- C107 is false of `var`: for every tensor of two or more elements that are not all the same it is the number of elements times the variance, and so too large. -/
theorem var_violated (t : Ten α) {i j : Nat} (hi : i < t.data.length) (hj : j < t.data.length) (h : elem t i ≠ elem t j) :
    ∃ v, var t = ok v ∧ v = t.data.length * varOf t.data.length (elem t) ∧ varOf t.data.length (elem t) < v := by
  have hne : t.data ≠ [] := by rintro e; rw [e] at hi; simp at hi
  refine ⟨_, var_value t hne, squares_eq _ (by omega) _, ?_⟩
  rw [squares_eq _ (by omega)]
  have hp := varOf_pos (elem t) hi hj h
  have h2 : 2 ≤ t.data.length := by
    by_contra hc
    have : i = j := by omega
    exact h (by rw [this])
  have h2' : (2 : α) ≤ (t.data.length : α) := by exact_mod_cast h2
  nlinarith

/-- `var` and `variance` of one list of numbers differ. -/
theorem var_differs_violated (red : List α → α) (hred : Reduces (· + ·) red) (t : Ten α) (hs : t.shape = [t.data.length]) (hm : t.data.length ≠ minusOne) {i j : Nat} (hi : i < t.data.length)
    (hj : j < t.data.length) (h : elem t i ≠ elem t j) : ∃ v w, var t = ok v ∧ variance red t 0 true = ok ⟨[1], [w]⟩ ∧ w < v := by
  obtain ⟨v, h1, _, h3⟩ := var_violated t hi hj h
  have hne : t.data ≠ [] := by rintro e; rw [e] at hi; simp at hi
  have ht : t.Has ([] ++ t.data.length :: []) (fun is => elem t (is.getD 0 0)) := by
    refine ⟨hs, by simp [size], fun is hv => ?_⟩
    match is, hv with
    | [k], hv =>
      have hk : k < t.data.length := by simpa [ValidIdx] using hv
      simp [flat, size, elem, hk]
  obtain ⟨u, k1, k2⟩ := variance_keepdims (axis := 0) hred ht hne (Or.inl ⟨rfl, by simp [minusOne]⟩) (by simpa using hm)
  refine ⟨v, varOf t.data.length (elem t), h1, ?_, h3⟩
  rw [k1]
  congr 1
  refine k2.ext ⟨rfl, by simp [size], fun is hv => ?_⟩
  match is, hv with
  | [k], hv =>
    have hk : k < 1 := by simpa [ValidIdx] using hv
    obtain rfl : k = 0 := by omega
    simp [flat, size]

/-- C107 for `var` of one element, or of elements that are all the same: zero, as it should be.  Missing: everything else (see `var_violated`). -/
theorem var_partial (t : Ten α) (hne : t.data ≠ []) (h : ∀ i j, i < t.data.length → j < t.data.length → elem t i = elem t j) :
    var t = ok (varOf t.data.length (elem t)) ∧ varOf t.data.length (elem t) = 0 := by
  have hn : t.data.length ≠ 0 := by simpa using hne
  have hn' : (t.data.length : α) ≠ 0 := by exact_mod_cast hn
  have hz : varOf t.data.length (elem t) = 0 := by
    have hm : meanOf t.data.length (elem t) = elem t 0 := by
      unfold meanOf
      rw [Finset.sum_congr rfl (g := fun _ => elem t 0) (fun i hi => h i 0 (Finset.mem_range.mp hi) (by omega)), Finset.sum_const, Finset.card_range, nsmul_eq_mul, mul_div_cancel_left₀ _ hn']
    unfold varOf
    conv_lhs => rw [meanOf]
    rw [Finset.sum_eq_zero (fun i hi => by rw [hm, h i 0 (Finset.mem_range.mp hi) (by omega), sub_self]; ring), zero_div]
  rw [var_value t hne, squares_eq _ hn, hz, mul_zero]
  exact ⟨rfl, rfl⟩

end

/-- C107 is false of `std`: it is the root of the number of elements times the standard deviation. -/
theorem std_violated (t : Ten ℝ) {i j : Nat} (hi : i < t.data.length) (hj : j < t.data.length) (h : elem t i ≠ elem t j) :
    ∃ v, std Real.sqrt t = ok v ∧ v = Real.sqrt t.data.length * Real.sqrt (varOf t.data.length (elem t)) ∧ Real.sqrt (varOf t.data.length (elem t)) < v := by
  obtain ⟨v, h1, h2, h3⟩ := var_violated t hi hj h
  refine ⟨Real.sqrt v, by unfold std; rw [h1, bind_ok]; rfl, by rw [h2, Real.sqrt_mul (Nat.cast_nonneg _)], Real.sqrt_lt_sqrt (varOf_nonneg _ _) h3⟩

/-- What `norm( t )` is. -/
theorem norm_value [Field α] (root : α → α) (t : Ten α) (hne : t.data ≠ []) : norm root t = ok (root (∑ i ∈ Finset.range t.data.length, elem t i ^ 2) / t.data.length) := by
  unfold norm
  rw [assert_true (by simpa using hne), bind_ok, sum_squares, bind_ok]; rfl

/-- C107 is false of `norm`: for every tensor of two or more elements that are not all zero it is smaller than the Euclidean norm. -/
theorem norm_violated (t : Ten ℝ) {i : Nat} (hi : i < t.data.length) (h0 : elem t i ≠ 0) (h2 : 2 ≤ t.data.length) :
    ∃ v, norm Real.sqrt t = ok v ∧ v < ‖(WithLp.toLp 2 (fun i : Fin t.data.length => elem t i) : EuclideanSpace ℝ (Fin t.data.length))‖ := by
  have hne : t.data ≠ [] := by rintro e; rw [e] at hi; simp at hi
  refine ⟨_, norm_value _ t hne, ?_⟩
  rw [EuclideanSpace.norm_eq]
  simp only [Real.norm_eq_abs, sq_abs]
  rw [Finset.sum_range (f := fun i => elem t i ^ 2)]
  have hp : 0 < Real.sqrt (∑ i : Fin t.data.length, elem t i ^ 2) := Real.sqrt_pos.mpr (Finset.sum_pos' (fun _ _ => sq_nonneg _) ⟨⟨i, hi⟩, Finset.mem_univ _, by positivity⟩)
  refine div_lt_self hp ?_
  exact_mod_cast (by omega : 1 < t.data.length)

/-- `norm` is the Euclidean norm over the number of elements. -/
theorem norm_partial (t : Ten ℝ) (hne : t.data ≠ []) :
    norm Real.sqrt t = ok (‖(WithLp.toLp 2 (fun i : Fin t.data.length => elem t i) : EuclideanSpace ℝ (Fin t.data.length))‖ / t.data.length) := by
  rw [norm_value _ t hne, EuclideanSpace.norm_eq]
  simp only [Real.norm_eq_abs, sq_abs]
  rw [Finset.sum_range (f := fun i => elem t i ^ 2)]

/-! ### linspace -/

theorem linspace_ok [Field α] (start stop : α) (num : Nat) (endpoint : Bool) (h : 1 < num) :
    ∃ u, linspace start stop num endpoint = ok u ∧ u.shape = [num] ∧ u.data.length = num ∧
      ∀ i, i < num → elem u i = start + (stop - start) / ((if endpoint = true then num - 1 else num : Nat) : α) * i := by
  unfold linspace
  rw [assert_true h, bind_ok]
  dsimp only
  obtain ⟨d, h1, h2, h3⟩ := fill1 (n := num) (body := fun i o => wr o i (start + (stop - start) / ((if endpoint = true then num - 1 else num : Nat) : α) * i))
    (g := fun i => start + (stop - start) / ((if endpoint = true then num - 1 else num : Nat) : α) * i) (fun _ _ _ _ => rfl) (out := List.replicate num 0) (by simp)
  rw [h1, bind_ok]
  exact ⟨_, rfl, rfl, h2, fun i hi => by simp [elem, h3 i hi]⟩

/-- C107: `linspace` with its end point: from `start` to `stop` in equal steps. -/
theorem linspace_endpoint [Field α] [CharZero α] (start stop : α) (num : Nat) (h : 1 < num) :
    ∃ u, linspace start stop num true = ok u ∧ u.shape = [num] ∧ u.data.length = num ∧ elem u 0 = start ∧ elem u (num - 1) = stop ∧
      ∀ i, i + 1 < num → elem u (i + 1) - elem u i = (stop - start) / (num - 1) := by
  obtain ⟨u, h1, h2, h3, h4⟩ := linspace_ok start stop num true h
  have h0 : (num : α) - 1 ≠ 0 := by
    rw [sub_ne_zero]
    exact_mod_cast (by omega : num ≠ 1)
  have hc : ((num - 1 : Nat) : α) = num - 1 := by push_cast [Nat.cast_sub (show 1 ≤ num by omega)]; rfl
  simp only [if_true, hc] at h4
  refine ⟨u, h1, h2, h3, by rw [h4 0 (by omega)]; simp, ?_, fun i hi => ?_⟩
  · rw [h4 (num - 1) (by omega), hc, div_mul_cancel₀ _ h0]; ring
  · rw [h4 (i + 1) hi, h4 i (by omega)]; push_cast; ring

/-- C107: `linspace` without its end point: one more equal step would reach `stop`. -/
theorem linspace_open [Field α] [CharZero α] (start stop : α) (num : Nat) (h : 1 < num) :
    ∃ u, linspace start stop num false = ok u ∧ u.shape = [num] ∧ u.data.length = num ∧ elem u 0 = start ∧ elem u (num - 1) + (stop - start) / num = stop ∧
      ∀ i, i + 1 < num → elem u (i + 1) - elem u i = (stop - start) / num := by
  obtain ⟨u, h1, h2, h3, h4⟩ := linspace_ok start stop num false h
  have h0 : (num : α) ≠ 0 := by exact_mod_cast (by omega : num ≠ 0)
  have hc : ((num - 1 : Nat) : α) = num - 1 := by push_cast [Nat.cast_sub (show 1 ≤ num by omega)]; rfl
  simp only [Bool.false_eq_true, if_false] at h4
  refine ⟨u, h1, h2, h3, by rw [h4 0 (by omega)]; simp, ?_, fun i hi => ?_⟩
  · rw [h4 (num - 1) (by omega), hc]; field_simp; ring
  · rw [h4 (i + 1) hi, h4 i (by omega)]; push_cast; ring

/-! ### examples -/

example : variance List.sum ⟨[2, 3], [1, 2, 3, 4, 6, (8 : ℚ)]⟩ 1 false = ok ⟨[2], [2/3, 8/3]⟩ := by decide +kernel
example : meanAxis List.sum ⟨[2, 3], [1, 2, 3, 4, 6, (8 : ℚ)]⟩ minusOne true = ok ⟨[2, 1], [2, 6]⟩ := by decide +kernel
example : var (⟨[4], [1, 1, 3, 3]⟩ : Ten ℚ) = ok 4 ∧ variance List.sum (⟨[4], [1, 1, 3, 3]⟩ : Ten ℚ) 0 true = ok ⟨[1], [1]⟩ := by decide +kernel
example : linspace (-1) 1 5 true = ok (⟨[5], [-1, -1/2, 0, 1/2, 1]⟩ : Ten ℚ) ∧ linspace 0 6 6 false = ok (⟨[6], [0, 1, 2, 3, 4, 5]⟩ : Ten ℚ) := by decide +kernel
example : ∃ u, variance (fun l : List ℚ => match l with | [] => 0 | x :: xs => xs.foldl (· + ·) x) ⟨[2, 3], [1, 2, 3, 4, 6, 8]⟩ 1 true = ok u ∧ u.shape = [2, 1] := by
  have ht : (⟨[2, 3], [1, 2, 3, 4, 6, 8]⟩ : Ten ℚ).Has ([2] ++ 3 :: []) _ := Ten.WF.has rfl
  obtain ⟨u, h1, h2⟩ := variance_keepdims (axis := 1) (reduces_foldl (α := ℚ) (· + ·) 0) ht (by simp) (Or.inl ⟨rfl, by simp [minusOne]⟩) (by simp [minusOne])
  exact ⟨u, h1, h2.1⟩


end Verif.Stats
