import Verif.Data.Move
import Mathlib.Algebra.BigOperators.Group.List.Basic
import Mathlib.Algebra.Order.Ring.Rat
/-!
# C27-C30: reductions along an axis, max, min, clip
-/
namespace Verif.Data
open Verif Res View

variable {α : Type}

/-! ### sums over row-major tables -/

theorem sum_range_mul [AddCommMonoid α] (v : Nat → α) (m n : Nat) :
    ∑ p ∈ Finset.range (m * n), v p = ∑ i ∈ Finset.range m, ∑ j ∈ Finset.range n, v (i * n + j) := by
  induction m with
  | zero => simp
  | succ m ih => rw [Nat.succ_mul, Finset.sum_range_add, ih, Finset.sum_range_succ]

theorem list_sum_pos [AddCommMonoid α] {A : List α} {v : Nat → α} (h : ∀ p, p < A.length → A[p]? = some (v p)) :
    A.sum = ∑ p ∈ Finset.range A.length, v p := by
  induction A generalizing v with
  | nil => simp
  | cons x A ih =>
    have h0 := h 0 (by simp)
    simp at h0
    rw [List.sum_cons, List.length_cons, Finset.sum_range_succ', h0, add_comm,
      ih (v := fun p => v (p + 1)) (fun p hp => by have := h (p + 1) (by simp; omega); simpa using this)]

theorem _root_.Verif.Is2.sum [AddCommMonoid α] {A : List α} {m n : Nat} {a : Nat → Nat → α} (h : Is2 A m n a) :
    A.sum = ∑ i ∈ Finset.range m, ∑ j ∈ Finset.range n, a i j := by
  have hv : ∀ p, p < A.length → A[p]? = some (a (p / n) (p % n)) := by
    intro p hp
    rw [h.1] at hp
    obtain ⟨i, j, hi, hj, rfl⟩ := exists_div_mod hp
    rw [h.2 i j hi hj, (div_mod_eq hj).1, (div_mod_eq hj).2]
  rw [list_sum_pos hv, h.1, sum_range_mul]
  refine Finset.sum_congr rfl (fun i _ => Finset.sum_congr rfl (fun j hj => ?_))
  rw [(div_mod_eq (Finset.mem_range.mp hj)).1, (div_mod_eq (Finset.mem_range.mp hj)).2]

theorem _root_.Verif.Is3.toIs2 {A : List α} {l m n : Nat} {a : Nat → Nat → Nat → α} (h : Is3 A l m n a) :
    Is2 A (l * m) n (fun p j => a (p / m) (p % m) j) := by
  refine ⟨h.1, fun p j hp hj => ?_⟩
  obtain ⟨x, i, hx, hi, rfl⟩ := exists_div_mod hp
  dsimp only; rw [h.2 x i j hx hi hj, (div_mod_eq hi).1, (div_mod_eq hi).2]

theorem _root_.Verif.Is3.sum [AddCommMonoid α] {A : List α} {l m n : Nat} {a : Nat → Nat → Nat → α} (h : Is3 A l m n a) :
    A.sum = ∑ x ∈ Finset.range l, ∑ i ∈ Finset.range m, ∑ j ∈ Finset.range n, a x i j := by
  rw [h.toIs2.sum, sum_range_mul]
  refine Finset.sum_congr rfl (fun x _ => Finset.sum_congr rfl (fun i hi => ?_))
  rw [(div_mod_eq (Finset.mem_range.mp hi)).1, (div_mod_eq (Finset.mem_range.mp hi)).2]

theorem sum_map_range [AddCommMonoid α] (g : Nat → α) (n : Nat) : ((List.range n).map g).sum = ∑ i ∈ Finset.range n, g i := by
  rw [list_sum_pos (v := g) (fun p hp => by simp at hp; simp [hp])]; simp

/-! ### what `std::reduce` returns -/

theorem IsReduction.sum [AddCommMonoid α] {l : List α} {x : α} (h : IsReduction (· + ·) l x) : x = l.sum := by
  induction h with
  | single a => simp
  | node hp _ _ ih1 ih2 => rw [hp.sum_eq, List.sum_append, ih1, ih2]

theorem IsReduction.max [LinearOrder α] {l : List α} {x : α} (h : IsReduction (fun a b => if b < a then a else b) l x) :
    x ∈ l ∧ ∀ y ∈ l, y ≤ x := by
  induction h with
  | single a => simp
  | node hp _ _ ih1 ih2 =>
    obtain ⟨m1, b1⟩ := ih1
    obtain ⟨m2, b2⟩ := ih2
    rename_i l₁ l₂ a b _ _
    constructor
    · rw [hp.mem_iff, List.mem_append]
      split
      · exact Or.inl m1
      · exact Or.inr m2
    · intro y hy
      rw [hp.mem_iff, List.mem_append] at hy
      split
      · rcases hy with hy | hy
        · exact b1 y hy
        · exact le_trans (b2 y hy) (le_of_lt (by assumption))
      · rcases hy with hy | hy
        · exact le_trans (b1 y hy) (not_lt.mp (by assumption))
        · exact b2 y hy

theorem IsReduction.min [LinearOrder α] {l : List α} {x : α} (h : IsReduction (fun a b => if a < b then a else b) l x) :
    x ∈ l ∧ ∀ y ∈ l, x ≤ y := by
  induction h with
  | single a => simp
  | node hp _ _ ih1 ih2 =>
    obtain ⟨m1, b1⟩ := ih1
    obtain ⟨m2, b2⟩ := ih2
    rename_i l₁ l₂ a b _ _
    constructor
    · rw [hp.mem_iff, List.mem_append]
      split
      · exact Or.inl m1
      · exact Or.inr m2
    · intro y hy
      rw [hp.mem_iff, List.mem_append] at hy
      split
      · rcases hy with hy | hy
        · exact b1 y hy
        · exact le_trans (le_of_lt (by assumption)) (b2 y hy)
      · rcases hy with hy | hy
        · exact le_trans (not_lt.mp (by assumption)) (b1 y hy)
        · exact b2 y hy

/-- `std::reduce` with the operation `f`: on every non-empty list some generalised sum, otherwise unspecified. -/
def Reduces (f : α → α → α) (red : List α → α) : Prop := ∀ l, l ≠ [] → IsReduction f l (red l)

/-- Left to right is one possibility. -/
theorem reduces_foldl (f : α → α → α) (d : α) : Reduces f (fun l => match l with | [] => d | x :: xs => xs.foldl f x) := by
  intro l hl
  match l, hl with
  | x :: xs, _ =>
    simp only
    induction xs using List.reverseRecOn with
    | nil => exact .single x
    | append_singleton xs y ih =>
      rw [List.foldl_append]
      exact .node (l₁ := x :: xs) (l₂ := [y]) (by simp) (ih (by simp)) (.single y)

/-! ### the loop nest -/

theorem readStride_ok {A : List α} {P n Q : Nat} {f : Nat → Nat → Nat → α} (h : Is3 A P n Q f) {idx jdx : Nat} (hi : idx < P)
    (hj : jdx < Q) : ∀ k, k ≤ n → readStride A (idx * Q * n + jdx) Q k = ok ((List.range k).map (fun i => f idx i jdx)) := by
  intro k
  induction k with
  | zero => intro _; rfl
  | succ k ih =>
    intro hk
    have e : idx * Q * n + jdx + Q * k = (idx * n + k) * Q + jdx := by ring
    rw [readStride, ih (by omega), bind_ok, e, h.rd hi (by omega) hj, bind_ok, List.range_succ, List.map_append]; rfl

/-- The fibre of `a` through `is` along axis `k`, as a list. -/
def fibre (a : List Nat → α) (n k : Nat) (is : List Nat) : List α := (List.range n).map (fun i => a (is.set k i))

/-- The same when `is` lacks the axis coordinate. -/
def fibre' (a : List Nat → α) (n k : Nat) (is : List Nat) : List α := (List.range n).map (fun i => a (is.take k ++ i :: is.drop k))

theorem reduce_keep [Zero α] {red : List α → α} {t : Ten α} {pre post : List Nat} {n axis : Nat} {a : List Nat → α} {init : α}
    (ht : t.Has (pre ++ n :: post) a) (hne : t.data ≠ [])
    (hax : axis = pre.length ∧ axis ≠ minusOne ∨ axis = minusOne ∧ post = []) :
    ∃ d, (reduce red t axis init true = ok ⟨pre ++ 1 :: post, d⟩ ∧
      reduce red t axis init false = reshapeV ⟨pre ++ 1 :: post, d⟩ (pre ++ post)) ∧
      Is3 d (size pre) 1 (size post) (fun x _ j => red (init :: (List.range n).map (fun i => a (unflat pre x ++ i :: unflat post j)))) := by
  obtain ⟨hts, htT⟩ := ht
  have h3 := htT.is3
  obtain ⟨o', e1, e2⟩ := fill2 (m := size pre) (n := size post) (out := List.replicate (size (pre ++ 1 :: post)) (0 : α))
    (body := fun idx jdx o => do
      let xs ← readStride t.data (idx * size post * n + jdx) (size post) n
      wr o (idx * size post + jdx) (red (init :: xs)))
    (g := fun x j => red (init :: (List.range n).map (fun i => a (unflat pre x ++ i :: unflat post j))))
    (fun i j o hi hj _ => by rw [readStride_ok h3 hi hj n (Nat.le_refl _), bind_ok]) (by simp [size_append])
  have hax' : (if axis = minusOne then (pre ++ n :: post).length - 1 else axis) = pre.length := by
    rcases hax with ⟨h1, h2⟩ | ⟨h1, h2⟩
    · rw [if_neg h2, h1]
    · rw [if_pos h1, h2]; simp
  refine ⟨o', ⟨?_, ?_⟩, ⟨by rw [e2.1]; ring, fun x i j hx hi hj => ?_⟩⟩
  · unfold reduce
    rw [if_neg hne, hts]
    simp only [hax']
    rw [assert_true (by simp), bind_ok]
    simp only [rd_ok (getElem?_append_axis (rfl : pre.length = pre.length)), bind_ok,
      take_append_axis (rfl : pre.length = pre.length), drop_append_axis (rfl : pre.length = pre.length),
      set_append_axis (rfl : pre.length = pre.length)]
    rw [e1]; rfl
  · unfold reduce
    rw [if_neg hne, hts]
    simp only [hax']
    rw [assert_true (by simp), bind_ok]
    simp only [rd_ok (getElem?_append_axis (rfl : pre.length = pre.length)), bind_ok,
      take_append_axis (rfl : pre.length = pre.length), drop_append_axis (rfl : pre.length = pre.length),
      set_append_axis (rfl : pre.length = pre.length)]
    rw [e1]
    simp only [bind_ok, Bool.false_eq_true, if_false, eraseIdx_append_axis (rfl : pre.length = pre.length)]
  · have hi0 : i = 0 := by omega
    subst hi0
    rw [show (x * 1 + 0) * size post + j = x * size post + j by ring, e2.2 x j hx hj]

/-- General form: what `reduce` holds, both for `keepdims` and not. -/
theorem reduce_ok [Zero α] {red : List α → α} {t : Ten α} {pre post : List Nat} {n axis : Nat} {a : List Nat → α} {init : α}
    {keep : Bool} (ht : t.Has (pre ++ n :: post) a) (hne : t.data ≠ [])
    (hax : axis = pre.length ∧ axis ≠ minusOne ∨ axis = minusOne ∧ post = []) (hkeep : keep = true ∨ pre ++ post ≠ [])
    (hlast : (pre ++ post).getLast? ≠ some minusOne) :
    ∃ u, reduce red t axis init keep = ok u ∧
      (keep = true → u.Has (pre ++ 1 :: post) (fun is => red (init :: fibre a n pre.length is))) ∧
      (keep = false → u.Has (pre ++ post) (fun is => red (init :: fibre' a n pre.length is))) ∧
      Is3 u.data (size pre) 1 (size post) (fun x _ j => red (init :: (List.range n).map (fun i => a (unflat pre x ++ i :: unflat post j)))) := by
  obtain ⟨d, ⟨h1, h2⟩, h3⟩ := reduce_keep (red := red) (init := init) ht hne hax
  cases keep with
  | true =>
    refine ⟨_, h1, fun _ => ⟨rfl, Is3.isT h3 (fun ip i iq v1 hi v2 => ?_)⟩, fun h => by simp at h, h3⟩
    rw [unflat_flat v1, unflat_flat v2]
    simp only [fibre, set_append_axis v1.length_eq]
  | false =>
    have hs : pre ++ post ≠ [] := by
      rcases hkeep with h | h
      · simp at h
      · exact h
    have hlen : d.length = size (pre ++ post) := by rw [h3.1, size_append]; ring
    refine ⟨⟨pre ++ post, d⟩, ?_, fun h => by simp at h, fun _ => ⟨rfl, ?_⟩, h3⟩
    · rw [h2]; unfold reshapeV
      rw [require_true hs, bind_ok, if_neg hlast, if_neg (by simp [hlen])]; rfl
    · have h3' : Is2 d (size pre) (size post) (fun x j => red (init :: (List.range n).map (fun i => a (unflat pre x ++ i :: unflat post j)))) := by
        refine ⟨by rw [h3.1]; ring, fun x j hx hj => ?_⟩
        have := h3.2 x 0 j hx (by omega) hj
        rwa [show (x * 1 + 0) * size post + j = x * size post + j by ring] at this
      refine Is2.isT h3' (fun ip iq v1 v2 => ?_)
      rw [unflat_flat v1, unflat_flat v2]
      simp only [fibre', ← v1.length_eq, List.take_left, List.drop_left]

/-! ### C27 -/

/-- C27, keeping the axis: for every non-empty tensor, axis and evaluation order of `std::reduce`, the sum along the axis. -/
theorem sum_axis_keepdims [AddCommMonoid α] (red : List α → α) (hred : Reduces (· + ·) red) (t : Ten α) (pre post : List Nat)
    (n axis : Nat) (a : List Nat → α) (ht : t.Has (pre ++ n :: post) a) (hne : t.data ≠ [])
    (hax : axis = pre.length ∧ axis ≠ minusOne ∨ axis = minusOne ∧ post = []) :
    ∃ u, reduce red t axis 0 true = ok u ∧
      u.Has (pre ++ 1 :: post) (fun is => ∑ i ∈ Finset.range n, a (is.set pre.length i)) ∧ u.data.sum = t.data.sum := by
  obtain ⟨d, ⟨h1, _⟩, h3⟩ := reduce_keep (red := red) (init := (0 : α)) ht hne hax
  have hsum : ∀ g : Nat → α, red (0 :: (List.range n).map g) = ∑ i ∈ Finset.range n, g i := by
    intro g
    rw [(hred _ (by simp)).sum, List.sum_cons, zero_add, sum_map_range]
  refine ⟨_, h1, ⟨rfl, Is3.isT h3 (fun ip i iq v1 hi v2 => ?_)⟩, ?_⟩
  · rw [unflat_flat v1, unflat_flat v2, hsum]
    simp only [set_append_axis v1.length_eq]
  · rw [h3.sum, ht.2.is3.sum]
    refine Finset.sum_congr rfl (fun x _ => ?_)
    rw [Finset.sum_range_one, Finset.sum_comm]
    exact Finset.sum_congr rfl (fun j _ => hsum _)

/-- C27, dropping the axis, for tensors of rank two or more: the sum along the axis, and the total is kept.
Missing: rank one (see `sum_axis_violated`). -/
theorem sum_axis_partial [AddCommMonoid α] (red : List α → α) (hred : Reduces (· + ·) red) (t : Ten α) (pre post : List Nat)
    (n axis : Nat) (a : List Nat → α) (ht : t.Has (pre ++ n :: post) a) (hne : t.data ≠ [])
    (hax : axis = pre.length ∧ axis ≠ minusOne ∨ axis = minusOne ∧ post = []) (hrank : pre ++ post ≠ [])
    (hlast : (pre ++ post).getLast? ≠ some minusOne) :
    ∃ u, reduce red t axis 0 false = ok u ∧
      u.Has (pre ++ post) (fun is => ∑ i ∈ Finset.range n, a (is.take pre.length ++ i :: is.drop pre.length)) ∧
      u.data.sum = t.data.sum := by
  obtain ⟨u, h1, _, h2, h3⟩ := reduce_ok (red := red) (init := (0 : α)) (keep := false) ht hne hax (Or.inr hrank) hlast
  have hsum : ∀ g : Nat → α, red (0 :: (List.range n).map g) = ∑ i ∈ Finset.range n, g i := by
    intro g
    rw [(hred _ (by simp)).sum, List.sum_cons, zero_add, sum_map_range]
  refine ⟨u, h1, (h2 rfl).congr (fun is _ => hsum _), ?_⟩
  rw [h3.sum, ht.2.is3.sum]
  refine Finset.sum_congr rfl (fun x _ => ?_)
  rw [Finset.sum_range_one, Finset.sum_comm]
  exact Finset.sum_congr rfl (fun j _ => hsum _)

/-- C27 is false of the code for 1-D tensors with the axis dropped (the default): the result is reshaped to the empty shape
and `*rbegin()` is read from an empty vector. -/
theorem sum_axis_violated [Zero α] (red : List α → α) (init : α) (t : Ten α) (n : Nat) (a : List Nat → α) (ht : t.Has [n] a)
    (hne : t.data ≠ []) : reduce red t 0 init false = ub := by
  obtain ⟨d, ⟨_, h2⟩, _⟩ := reduce_keep (red := red) (init := init) (pre := []) (post := []) (axis := 0) ht hne
    (Or.inl ⟨rfl, by simp [minusOne]⟩)
  rw [h2]; simp [reshapeV]

/-- An axis that is too large is rejected. -/
theorem reduce_rejects [Zero α] (red : List α → α) (init : α) (t : Ten α) (axis : Nat) (keep : Bool) (hne : t.data ≠ [])
    (h1 : axis ≠ minusOne) (h2 : t.shape.length ≤ axis) : reduce red t axis init keep = abort := by
  unfold reduce
  rw [if_neg hne]
  simp only [if_neg h1]
  rw [assert_false (by omega)]; rfl

/-- An empty tensor comes back as it is, axis and all. -/
theorem reduce_empty [Zero α] (red : List α → α) (init : α) (t : Ten α) (axis : Nat) (keep : Bool) (h : t.data = []) :
    reduce red t axis init keep = ok t := by rw [reduce, if_pos h]

example : reduce List.sum ⟨[2, 3], [1, 2, 3, 4, 5, (6 : Int)]⟩ 0 0 false = ok ⟨[3], [5, 7, 9]⟩ ∧
    reduce List.sum ⟨[2, 3], [1, 2, 3, 4, 5, (6 : Int)]⟩ minusOne 0 true = ok ⟨[2, 1], [6, 15]⟩ ∧
    reduce List.sum ⟨[3], [1, 2, (3 : Int)]⟩ 0 0 false = ub := by decide

/-- `sum( t )` adds up all elements; the empty tensor is rejected. -/
theorem sum_all [AddCommMonoid α] (t : Ten α) : sumAll t = if t.data = [] then abort else ok t.data.sum := by
  unfold sumAll
  by_cases h : t.data = []
  · rw [assert_false (by simp [h]), if_pos h]; rfl
  · rw [assert_true (by simpa using h), bind_ok, if_neg h,
      loop_sum (g := fun i => t.data[i]?.getD 0) 0 (fun i acc hi => by
        rw [rd_ok (List.getElem?_eq_getElem hi), bind_ok, List.getElem?_eq_getElem hi]; rfl),
      zero_add, list_sum_pos (v := fun i => t.data[i]?.getD 0) (fun p hp => by rw [List.getElem?_eq_getElem hp]; rfl)]

/-- `mean( t )` is the sum over the number of elements. -/
theorem mean_all [DivisionRing α] (t : Ten α) (h : t.data ≠ []) : meanAll t = ok (t.data.sum / (t.data.length : α)) := by
  unfold meanAll
  rw [assert_true (by simpa using h), bind_ok, sum_all, if_neg h]; rfl

/-! ### C28, C29 -/

/-- Specification: `x` is the largest element of the list. -/
def IsLargest [LE α] (l : List α) (x : α) : Prop := x ∈ l ∧ ∀ y ∈ l, y ≤ x

/-- Specification: `x` is the smallest element of the list. -/
def IsSmallest [LE α] (l : List α) (x : α) : Prop := x ∈ l ∧ ∀ y ∈ l, x ≤ y

theorem maxAll_ok [LinearOrder α] (numMin : α) (t : Ten α) (hne : t.data ≠ []) :
    ∃ x, maxAll numMin t = ok x ∧ IsLargest (numMin :: t.data) x := by
  unfold maxAll
  rw [assert_true (by simpa using hne), bind_ok]
  obtain ⟨x, h1, h2⟩ := loop_inv (n := t.data.length)
    (body := fun i acc => do let x ← rd t.data i; pure (if x < acc then acc else x)) (s := numMin)
    (fun i acc => IsLargest (numMin :: t.data.take i) acc) (by simp [IsLargest]) (by
      intro i acc hi ⟨hm, hb⟩
      refine ⟨_, by rw [rd_ok (List.getElem?_eq_getElem hi), bind_ok]; rfl, ?_, fun y hy => ?_⟩
      · rw [List.take_succ_eq_append_getElem hi]
        split
        · rw [← List.cons_append]; exact List.mem_append_left _ hm
        · rw [← List.cons_append]; exact List.mem_append_right _ (List.mem_singleton.mpr rfl)
      · rw [List.take_succ_eq_append_getElem hi, ← List.cons_append, List.mem_append, List.mem_singleton] at hy
        split
        · rcases hy with hy | hy
          · exact hb y hy
          · rw [hy]; exact le_of_lt (by assumption)
        · rcases hy with hy | hy
          · exact le_trans (hb y hy) (not_lt.mp (by assumption))
          · rw [hy])
  exact ⟨x, h1, by simpa using h2⟩

theorem minAll_ok [LinearOrder α] (numMax : α) (t : Ten α) (hne : t.data ≠ []) :
    ∃ x, minAll numMax t = ok x ∧ IsSmallest (numMax :: t.data) x := by
  unfold minAll
  rw [assert_true (by simpa using hne), bind_ok]
  obtain ⟨x, h1, h2⟩ := loop_inv (n := t.data.length)
    (body := fun i acc => do let x ← rd t.data i; pure (if acc < x then acc else x)) (s := numMax)
    (fun i acc => IsSmallest (numMax :: t.data.take i) acc) (by simp [IsSmallest]) (by
      intro i acc hi ⟨hm, hb⟩
      refine ⟨_, by rw [rd_ok (List.getElem?_eq_getElem hi), bind_ok]; rfl, ?_, fun y hy => ?_⟩
      · rw [List.take_succ_eq_append_getElem hi]
        split
        · rw [← List.cons_append]; exact List.mem_append_left _ hm
        · rw [← List.cons_append]; exact List.mem_append_right _ (List.mem_singleton.mpr rfl)
      · rw [List.take_succ_eq_append_getElem hi, ← List.cons_append, List.mem_append, List.mem_singleton] at hy
        split
        · rcases hy with hy | hy
          · exact hb y hy
          · rw [hy]; exact le_of_lt (by assumption)
        · rcases hy with hy | hy
          · exact le_trans (not_lt.mp (by assumption)) (hb y hy)
          · rw [hy])
  exact ⟨x, h1, by simpa using h2⟩

theorem IsLargest.drop_init [LinearOrder α] {m x : α} {l : List α} (h : IsLargest (m :: l) x) (hm : ∃ y ∈ l, m ≤ y) : IsLargest l x := by
  obtain ⟨h1, h2⟩ := h
  refine ⟨?_, fun y hy => h2 y (by simp [hy])⟩
  rcases List.mem_cons.mp h1 with e | e
  · obtain ⟨y, hy, hmy⟩ := hm
    have := le_antisymm (h2 y (by simp [hy])) (e ▸ hmy)
    rw [← this]; exact hy
  · exact e

theorem IsSmallest.drop_init [LinearOrder α] {m x : α} {l : List α} (h : IsSmallest (m :: l) x) (hm : ∃ y ∈ l, y ≤ m) : IsSmallest l x := by
  obtain ⟨h1, h2⟩ := h
  refine ⟨?_, fun y hy => h2 y (by simp [hy])⟩
  rcases List.mem_cons.mp h1 with e | e
  · obtain ⟨y, hy, hmy⟩ := hm
    have := le_antisymm (e ▸ hmy) (h2 y (by simp [hy]))
    rw [← this]; exact hy
  · exact e

/-- C28 is false of the code: when every element is below `numeric_limits::min()` - for floating point types a positive number,
so for instance for every tensor of negative numbers - `max` returns that limit, which is not an element. -/
theorem max_violated [LinearOrder α] (numMin : α) (t : Ten α) (hne : t.data ≠ []) (h : ∀ x ∈ t.data, x < numMin) :
    maxAll numMin t = ok numMin ∧ numMin ∉ t.data := by
  obtain ⟨x, h1, h2, h3⟩ := maxAll_ok numMin t hne
  have hx : x = numMin := by
    rcases List.mem_cons.mp h2 with e | e
    · exact e
    · exact absurd (h3 numMin (by simp)) (not_le.mpr (h x e))
  rw [h1, hx]
  exact ⟨rfl, fun hc => absurd (h _ hc) (lt_irrefl _)⟩

/-- C28 holds when some element reaches `numeric_limits::min()`.  Missing: tensors of smaller elements only. -/
theorem max_partial [LinearOrder α] (numMin : α) (t : Ten α) (h : ∃ x ∈ t.data, numMin ≤ x) :
    ∃ m, maxAll numMin t = ok m ∧ IsLargest t.data m := by
  obtain ⟨x, hx, _⟩ := id h
  obtain ⟨m, h1, h2⟩ := maxAll_ok numMin t (List.ne_nil_of_mem hx)
  exact ⟨m, h1, h2.drop_init h⟩

/-- The float limit 2^-126 and a tensor of negative numbers. -/
example : maxAll (1 / 2 ^ 126 : ℚ) ⟨[2], [-1, -3]⟩ = ok (1 / 2 ^ 126) ∧ maxAll (1 / 2 ^ 126 : ℚ) ⟨[2], [-1, 3]⟩ = ok 3 := by
  decide +kernel

/-- C28 along an axis: the entry is the largest of `numeric_limits::min()` and the fibre; so it is the fibre's maximum exactly when
some element of the fibre reaches the limit. -/
theorem max_axis_partial [LinearOrder α] [Zero α] (red : List α → α) (hred : Reduces (fun a b => if b < a then a else b) red)
    (numMin : α) (t : Ten α) (pre post : List Nat) (n axis : Nat) (a : List Nat → α) (ht : t.Has (pre ++ n :: post) a)
    (hne : t.data ≠ []) (hax : axis = pre.length ∧ axis ≠ minusOne ∨ axis = minusOne ∧ post = []) :
    ∃ u m, maxAxis red numMin t axis true = ok u ∧ u.Has (pre ++ 1 :: post) m ∧
      ∀ is, ValidIdx (pre ++ 1 :: post) is → (IsLargest (fibre a n pre.length is) (m is) ↔ ∃ x ∈ fibre a n pre.length is, numMin ≤ x) := by
  obtain ⟨d, ⟨h1, _⟩, h3⟩ := reduce_keep (red := red) (init := numMin) ht hne hax
  refine ⟨_, fun is => red (numMin :: fibre a n pre.length is), h1, ⟨rfl, Is3.isT h3 (fun ip i iq v1 hi v2 => ?_)⟩, fun is _ => ?_⟩
  · rw [unflat_flat v1, unflat_flat v2]
    simp only [fibre, set_append_axis v1.length_eq]
  · have hl : IsLargest (numMin :: fibre a n pre.length is) (red (numMin :: fibre a n pre.length is)) := (hred _ (by simp)).max
    constructor
    · intro h
      exact ⟨_, h.1, hl.2 _ (by simp)⟩
    · exact hl.drop_init

/-- C29: for every non-empty tensor of values not above `numeric_limits::max()` (every finite value), `min` is its smallest element. -/
theorem min_smallest [LinearOrder α] (numMax : α) (t : Ten α) (hne : t.data ≠ []) (h : ∀ x ∈ t.data, x ≤ numMax) :
    ∃ m, minAll numMax t = ok m ∧ IsSmallest t.data m := by
  obtain ⟨m, h1, h2⟩ := minAll_ok numMax t hne
  obtain ⟨x, hx⟩ := List.exists_mem_of_ne_nil _ hne
  exact ⟨m, h1, h2.drop_init ⟨x, hx, h x hx⟩⟩

/-- C29 along an axis. -/
theorem min_axis_smallest [LinearOrder α] [Zero α] (red : List α → α) (hred : Reduces (fun a b => if a < b then a else b) red)
    (numMax : α) (t : Ten α) (pre post : List Nat) (n axis : Nat) (a : List Nat → α) (ht : t.Has (pre ++ n :: post) a) (hn : 0 < n)
    (hne : t.data ≠ []) (h : ∀ is, ValidIdx (pre ++ n :: post) is → a is ≤ numMax)
    (hax : axis = pre.length ∧ axis ≠ minusOne ∨ axis = minusOne ∧ post = []) :
    ∃ u m, minAxis red numMax t axis true = ok u ∧ u.Has (pre ++ 1 :: post) m ∧
      ∀ is, ValidIdx (pre ++ 1 :: post) is → IsSmallest (fibre a n pre.length is) (m is) := by
  obtain ⟨d, ⟨h1, _⟩, h3⟩ := reduce_keep (red := red) (init := numMax) ht hne hax
  refine ⟨_, fun is => red (numMax :: fibre a n pre.length is), h1, ⟨rfl, Is3.isT h3 (fun ip i iq v1 hi v2 => ?_)⟩, fun is hv => ?_⟩
  · rw [unflat_flat v1, unflat_flat v2]
    simp only [fibre, set_append_axis v1.length_eq]
  · have hl : IsSmallest (numMax :: fibre a n pre.length is) (red (numMax :: fibre a n pre.length is)) := (hred _ (by simp)).min
    obtain ⟨ip, i, iq, rfl, v1, hi, v2⟩ := validIdx_split hv
    refine hl.drop_init ⟨a (ip ++ 0 :: iq), ?_, h _ ((validIdx_append v1.length_eq).mpr ⟨v1, hn, v2⟩)⟩
    exact List.mem_map.mpr ⟨0, List.mem_range.mpr hn, by rw [set_append_axis v1.length_eq]⟩

/-- C28 and C29 with the axis dropped (rank two or more): the entries are those of the fibres. -/
theorem max_min_axis_dropped [LinearOrder α] [Zero α] (redMax redMin : List α → α)
    (hmax : Reduces (fun a b => if b < a then a else b) redMax) (hmin : Reduces (fun a b => if a < b then a else b) redMin)
    (numMin numMax : α) (t : Ten α) (pre post : List Nat) (n axis : Nat) (a : List Nat → α) (ht : t.Has (pre ++ n :: post) a) (hn : 0 < n)
    (hne : t.data ≠ []) (hax : axis = pre.length ∧ axis ≠ minusOne ∨ axis = minusOne ∧ post = []) (hrank : pre ++ post ≠ [])
    (hlast : (pre ++ post).getLast? ≠ some minusOne)
    (h : ∀ is, ValidIdx (pre ++ n :: post) is → numMin ≤ a is ∧ a is ≤ numMax) :
    ∃ u v m w, maxAxis redMax numMin t axis false = ok u ∧ minAxis redMin numMax t axis false = ok v ∧
      u.Has (pre ++ post) m ∧ v.Has (pre ++ post) w ∧
      ∀ is, ValidIdx (pre ++ post) is → IsLargest (fibre' a n pre.length is) (m is) ∧ IsSmallest (fibre' a n pre.length is) (w is) := by
  obtain ⟨u, h1, _, h2, _⟩ := reduce_ok (red := redMax) (init := numMin) (keep := false) ht hne hax (Or.inr hrank) hlast
  obtain ⟨v, g1, _, g2, _⟩ := reduce_ok (red := redMin) (init := numMax) (keep := false) ht hne hax (Or.inr hrank) hlast
  refine ⟨u, v, _, _, h1, g1, h2 rfl, g2 rfl, fun is hv => ?_⟩
  obtain ⟨ip, iq, rfl, v1, v2⟩ := validIdx_split2 hv
  have hmem : a (ip ++ 0 :: iq) ∈ fibre' a n pre.length (ip ++ iq) :=
    List.mem_map.mpr ⟨0, List.mem_range.mpr hn, by rw [← v1.length_eq]; simp⟩
  obtain ⟨b1, b2⟩ := h (ip ++ 0 :: iq) ((validIdx_append v1.length_eq).mpr ⟨v1, hn, v2⟩)
  exact ⟨IsLargest.drop_init (hmax _ (by simp)).max ⟨_, hmem, b1⟩, IsSmallest.drop_init (hmin _ (by simp)).min ⟨_, hmem, b2⟩⟩

example : minAll (1000 : Int) ⟨[3], [2, -5, 7]⟩ = ok (-5) ∧
    minAxis (fun l => l.foldr min 1000) (1000 : Int) ⟨[2, 2], [4, 3, 2, 1]⟩ 1 true = ok ⟨[2, 1], [3, 1]⟩ := by decide

/-! ### C30 -/

/-- C30: every element becomes `max lower (min upper x)`. -/
theorem clip_ok [LinearOrder α] (lower upper : α) (t : Ten α) :
    ∃ u, clip lower upper t = ok u ∧ u.shape = t.shape ∧ u.data.length = t.data.length ∧
      ∀ (i : Nat) (x : α), t.data[i]? = some x → u.data[i]? = some (max lower (min upper x)) := by
  obtain ⟨o', h1, h2, h3⟩ := upd1 (n := t.data.length) (o := t.data)
    (body := fun i o => do
      let v ← rd o i
      let v := if v < upper then v else upper
      let v := if lower < v then v else lower
      wr o i v) (φ := fun _ x => max lower (min upper x))
    (fun i o x _ _ hx => by
      rw [rd_ok hx, bind_ok]
      dsimp only
      congr 1
      have e1 : (if x < upper then x else upper) = min upper x := by
        split
        · exact (min_eq_right (le_of_lt (by assumption))).symm
        · exact (min_eq_left (not_lt.mp (by assumption))).symm
      rw [e1]
      split
      · exact (max_eq_right (le_of_lt (by assumption))).symm
      · exact (max_eq_left (not_lt.mp (by assumption))).symm) rfl
  exact ⟨⟨t.shape, o'⟩, by rw [clip, h1]; rfl, rfl, h2, fun i x hx => h3 i x hx⟩

/-- C30: with `lower <= upper` every element ends up in the interval, elements already inside stay, and a second clip changes nothing. -/
theorem clip_bounds_idempotent [LinearOrder α] (lower upper : α) (hlu : lower ≤ upper) (t : Ten α) :
    ∃ u, clip lower upper t = ok u ∧ u.shape = t.shape ∧ u.data.length = t.data.length ∧
      (∀ x ∈ u.data, lower ≤ x ∧ x ≤ upper) ∧
      (∀ (i : Nat) (x : α), t.data[i]? = some x → lower ≤ x → x ≤ upper → u.data[i]? = some x) ∧
      clip lower upper u = ok u := by
  obtain ⟨u, h1, h2, h3, h4⟩ := clip_ok lower upper t
  have hb : ∀ x ∈ u.data, lower ≤ x ∧ x ≤ upper := by
    intro x hx
    obtain ⟨i, hi, e⟩ := List.mem_iff_getElem.mp hx
    have hit : i < t.data.length := by omega
    have := h4 i _ (List.getElem?_eq_getElem hit)
    rw [List.getElem?_eq_getElem hi, Option.some.injEq, e] at this
    rw [this]
    exact ⟨le_max_left _ _, max_le hlu (min_le_left _ _)⟩
  refine ⟨u, h1, h2, h3, hb, fun i x hx h5 h6 => ?_, ?_⟩
  · rw [h4 i x hx, min_eq_right h6, max_eq_right h5]
  · obtain ⟨v, g1, g2, g3, g4⟩ := clip_ok lower upper u
    rw [g1]
    congr 1
    cases v with | mk vs vd =>
    cases u with | mk us ud =>
    simp only at *
    subst g2
    congr 1
    apply List.ext_getElem?
    intro p
    by_cases hp : p < ud.length
    · have := g4 p _ (List.getElem?_eq_getElem hp)
      obtain ⟨b1, b2⟩ := hb _ (List.getElem_mem hp)
      rw [this, min_eq_right b2, max_eq_right b1, List.getElem?_eq_getElem hp]
    · rw [List.getElem?_eq_none (by omega), List.getElem?_eq_none (by omega)]

example : clip 0 (10 : Int) ⟨[4], [-5, 3, 12, 10]⟩ = ok ⟨[4], [0, 3, 10, 10]⟩ := by decide

end Verif.Data
