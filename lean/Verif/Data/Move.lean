import Verif.Data.Model
import Verif.Basic.Upd
import Verif.Gemm.Lemmas
import Mathlib.Tactic.Linarith
/-!
# C23-C26: elementwise product, concatenate, repeat, repmat
-/
namespace Verif.Data
open Verif Res View

variable {α : Type}

/-! ### C23 -/

theorem ewpGo_ok [Mul α] {l r : Ten α} (hr : 0 < r.data.length) (hd : r.data.length ∣ l.data.length) :
    ∃ t, ewpGo l r = ok t ∧ t.shape = l.shape ∧ t.data.length = l.data.length ∧
      ∀ i x y, l.data[i]? = some x → r.data[i % r.data.length]? = some y → t.data[i]? = some (x * y) := by
  obtain ⟨k, hk⟩ := hd
  have hdiv : l.data.length / r.data.length = k := by rw [hk]; exact Nat.mul_div_cancel_left _ hr
  have hk' : l.data.length = k * r.data.length := by rw [hk, Nat.mul_comm]
  obtain ⟨o', h1, h2, h3⟩ := upd2 (m := k) (n := r.data.length) (o := l.data)
    (body := fun idx jdx d => do
      let x ← rd d (idx * r.data.length + jdx)
      let y ← rd r.data jdx
      wr d (idx * r.data.length + jdx) (x * y))
    (φ := fun p x => x * r.data[p % r.data.length]'(Nat.mod_lt _ hr))
    (fun i j o x _ hj _ hx => by
      rw [rd_ok hx, bind_ok, rd_ok (List.getElem?_eq_getElem hj), bind_ok]
      congr 2
      simp [div_mod_eq hj]) hk'
  refine ⟨⟨l.shape, o'⟩, ?_, rfl, by rw [h2, hk'], fun i x y hx hy => ?_⟩
  · unfold ewpGo
    simp only [hdiv]
    rw [require_true (by omega), bind_ok, assert_true hk.symm, bind_ok, h1]; rfl
  · rw [h3 i x hx]
    rw [List.getElem?_eq_getElem (Nat.mod_lt _ hr)] at hy
    simp at hy; rw [hy]

/-- C23: for all non-empty operands whose sizes divide, the product has the shape of the larger operand and element `i` is
`l[i mod |l|] * r[i mod |r|]`. -/
theorem elementwise_product_values [CommMonoid α] (l r : Ten α) (hl : 0 < l.data.length) (hr : 0 < r.data.length)
    (hd : l.data.length ∣ r.data.length ∨ r.data.length ∣ l.data.length) :
    ∃ t, elementwiseProduct l r = ok t ∧
      t.shape = (if l.data.length < r.data.length then r.shape else l.shape) ∧
      t.data.length = max l.data.length r.data.length ∧
      ∀ i x y, i < max l.data.length r.data.length → l.data[i % l.data.length]? = some x → r.data[i % r.data.length]? = some y →
        t.data[i]? = some (x * y) := by
  unfold elementwiseProduct
  by_cases hlt : l.data.length < r.data.length
  · have hdv : l.data.length ∣ r.data.length := by
      rcases hd with h | h
      · exact h
      · exact absurd (Nat.le_of_dvd hl h) (by omega)
    obtain ⟨t, h1, h2, h3, h4⟩ := ewpGo_ok hl hdv
    refine ⟨t, by rw [if_pos hlt, h1], by rw [if_pos hlt, h2], by rw [h3]; omega, fun i x y hi hx hy => ?_⟩
    rw [Nat.mod_eq_of_lt (by omega)] at hy
    rw [h4 i y x hy hx, mul_comm]
  · have hdv : r.data.length ∣ l.data.length := by
      rcases hd with h | h
      · have := Nat.le_of_dvd hr h
        rw [show l.data.length = r.data.length by omega]
      · exact h
    obtain ⟨t, h1, h2, h3, h4⟩ := ewpGo_ok hr hdv
    refine ⟨t, by rw [if_neg hlt, h1], by rw [if_neg hlt, h2], by rw [h3]; omega, fun i x y hi hx hy => ?_⟩
    rw [Nat.mod_eq_of_lt (by omega)] at hx
    rw [h4 i x y hx hy]

/-- C23: sizes that do not divide are rejected. -/
theorem elementwise_product_rejects [Mul α] (l r : Ten α) (hl : 0 < l.data.length) (hr : 0 < r.data.length)
    (h1 : ¬ l.data.length ∣ r.data.length) (h2 : ¬ r.data.length ∣ l.data.length) : elementwiseProduct l r = abort := by
  unfold elementwiseProduct
  split
  · unfold ewpGo
    rw [require_true (by omega), bind_ok]
    dsimp only
    rw [assert_false (fun h => h1 ⟨_, h.symm⟩)]; rfl
  · unfold ewpGo
    rw [require_true (by omega), bind_ok]
    dsimp only
    rw [assert_false (fun h => h2 ⟨_, h.symm⟩)]; rfl

/-- With an empty operand the code divides by zero. -/
theorem elementwise_product_empty_ub [Mul α] (l r : Ten α) (h : l.data = [] ∨ r.data = []) : elementwiseProduct l r = ub := by
  unfold elementwiseProduct
  rcases h with h | h
  · by_cases hr : 0 < r.data.length
    · rw [if_pos (by simpa [h] using hr)]; simp [ewpGo, h]
    · have : r.data = [] := List.length_eq_zero_iff.mp (by omega)
      simp [ewpGo, h, this]
  · rw [if_neg (by simp [h])]; simp [ewpGo, h]

example : elementwiseProduct ⟨[3], [1, 2, (3 : Int)]⟩ ⟨[2, 3], [1, 1, 1, 2, 2, 2]⟩ = ok ⟨[2, 3], [1, 2, 3, 2, 4, 6]⟩ ∧
    elementwiseProduct ⟨[3], [1, 2, (3 : Int)]⟩ ⟨[2], [1, 1]⟩ = abort := by decide

/-- `elementwise_divide` divides element by element. -/
theorem elementwise_divide_values [Zero α] [Div α] (l r : Ten α) (s : List Nat) (a b : List Nat → α) (hl : l.Has s a)
    (hr : r.Has s b) : ∃ t, elementwiseDivide l r = ok t ∧ t.Has s (fun is => a is / b is) := by
  obtain ⟨hls, hlT⟩ := hl
  obtain ⟨hrs, hrT⟩ := hr
  obtain ⟨o', h1, h2, h3⟩ := fill1 (n := size s) (out := List.replicate (size s) (0 : α))
    (body := fun i o => do
      let x ← rd l.data i
      let y ← rd r.data i
      wr o i (x / y)) (g := fun p => a (unflat s p) / b (unflat s p))
    (fun j o hj _ => by rw [rd_ok (hlT.pos hj), bind_ok, rd_ok (hrT.pos hj), bind_ok]) (by simp)
  refine ⟨⟨s, o'⟩, ?_, rfl, isT_of_pos h2 h3 (fun is hv => by rw [unflat_flat hv])⟩
  unfold elementwiseDivide
  rw [assert_true (by rw [hls, hrs]), bind_ok, hls, hlT.1, h1]; rfl

/-! ### C24, C25 -/

theorem copyTo_sets {src : List α} {s n d N : Nat} {v : Nat → α} (hN : d + n ≤ N)
    (hv : ∀ i, i < n → src[s + i]? = some (v (d + i))) :
    Sets (fun o => copyTo src s n o d) N (fun p => ∃ i, i < n ∧ p = d + i) v := by
  refine Sets.loop (fun i hi => ?_)
  simp only [rd_ok (hv i hi), bind_ok]
  exact sets_wr (by omega) rfl

/-- The alternating copy of two row-major tables of `P` rows. -/
theorem concat_loop {P L R : Nat} {A B : List α} {f g : Nat → Nat → α} (hA : Is2 A P L f) (hB : Is2 B P R g) {out : List α}
    (ho : out.length = P * (L + R)) :
    ∃ o', loop P (fun idx o => do
        let o ← copyTo A (L * idx) L o ((L + R) * idx)
        copyTo B (R * idx) R o ((L + R) * idx + L)) out = ok o' ∧
      Is2 o' P (L + R) (fun i j => if j < L then f i j else g i (j - L)) := by
  have hs : Sets (fun o => loop P (fun idx o => do
        let o ← copyTo A (L * idx) L o ((L + R) * idx)
        copyTo B (R * idx) R o ((L + R) * idx + L)) o) (P * (L + R))
      (fun p => ∃ idx, idx < P ∧ ((∃ i, i < L ∧ p = (L + R) * idx + i) ∨ (∃ i, i < R ∧ p = (L + R) * idx + L + i)))
      (fun p => if p % (L + R) < L then f (p / (L + R)) (p % (L + R)) else g (p / (L + R)) (p % (L + R) - L)) := by
    refine Sets.loop (fun idx hidx => ?_)
    have hb : (L + R) * idx + (L + R) ≤ P * (L + R) := by
      have := Nat.mul_le_mul_right (L + R) (show idx + 1 ≤ P by omega)
      rw [Nat.add_mul, Nat.one_mul, Nat.mul_comm] at this
      exact this
    refine Sets.seq (copyTo_sets (by omega) (fun i hi => ?_)) (copyTo_sets (by omega) (fun i hi => ?_))
    · have e := div_mod_eq (i := idx) (j := i) (m := L + R) (by omega)
      rw [Nat.mul_comm] at e
      rw [e.1, e.2, if_pos hi, Nat.mul_comm L idx]
      exact hA.2 idx i hidx hi
    · have e := div_mod_eq (i := idx) (j := L + i) (m := L + R) (by omega)
      rw [Nat.mul_comm, ← Nat.add_assoc] at e
      rw [e.1, e.2, if_neg (by omega), Nat.mul_comm R idx, Nat.add_sub_cancel_left]
      exact hB.2 idx i hidx hi
  obtain ⟨o', h1, h2, h3⟩ := hs.total (fun p hp => by
    obtain ⟨i, j, hi, hj, rfl⟩ := exists_div_mod hp
    refine ⟨i, hi, ?_⟩
    by_cases hjL : j < L
    · exact Or.inl ⟨j, hjL, by rw [Nat.mul_comm]⟩
    · exact Or.inr ⟨j - L, by omega, by rw [Nat.mul_comm i]; omega⟩) ho
  refine ⟨o', h1, h2, fun i j hi hj => ?_⟩
  rw [h3 _ (lt_mul_of_lt hi hj)]
  have e := div_mod_eq (i := i) (j := j) (m := L + R) hj
  rw [e.1, e.2]

theorem concatEq_ok [Zero α] {l r : Ten α} {pre post : List Nat} {n m axis : Nat} {a b : List Nat → α}
    (hl : l.Has (pre ++ n :: post) a) (hr : r.Has (pre ++ m :: post) b) (hpre : size pre ≠ 0)
    (hax : (if axis = minusOne then pre.length + post.length else axis) = pre.length) :
    ∃ t, concatEq l r axis = ok t ∧ t.Has (pre ++ (n + m) :: post) (fun is =>
      if is.getD pre.length 0 < n then a is else b (is.set pre.length (is.getD pre.length 0 - n))) := by
  obtain ⟨ls, lT⟩ := hl
  obtain ⟨rs, rT⟩ := hr
  have hA := IsT.is2 (pre := pre) (post := n :: post) lT
  have hB := IsT.is2 (pre := pre) (post := m :: post) rT
  simp only [size_cons] at hA hB
  obtain ⟨o', h1, h2⟩ := concat_loop hA hB (out := List.replicate (size (pre ++ (n + m) :: post)) (0 : α))
    (by simp [size_append]; left; ring)
  refine ⟨⟨pre ++ (n + m) :: post, o'⟩, ?_, rfl, ?_⟩
  · unfold concatEq
    rw [ls, rs]
    have hlen : (pre ++ n :: post).length - 1 = pre.length + post.length := by simp
    simp only [hlen, hax]
    rw [assert_true (by simp), bind_ok, assert_true (by simp), bind_ok, assert_true (by simp), bind_ok,
      assert_true (by rw [drop_append_axis rfl, drop_append_axis rfl]), bind_ok]
    simp only [take_append_axis (rfl : pre.length = pre.length), List.drop_left, size_cons,
      rd_ok (getElem?_append_axis (rfl : pre.length = pre.length)), bind_ok, set_append_axis (rfl : pre.length = pre.length)]
    rw [show max 1 (size pre) = size pre by omega, h1]; rfl
  · have h2' : Is2 o' (size pre) (size ((n + m) :: post)) (fun i j => if j < n * size post then a (unflat pre i ++ unflat (n :: post) j)
        else b (unflat pre i ++ unflat (m :: post) (j - n * size post))) := by
      rw [size_cons, Nat.add_mul]; exact h2
    refine Is2.isT h2' (fun ip iq v1 v2 => ?_)
    match iq, v2 with
    | i :: iq, v2 =>
      have hlt := flat_lt v2.2
      simp only [getD_append_axis v1.length_eq, set_append_axis v1.length_eq, flat_cons, unflat_flat v1]
      by_cases hi : i < n
      · rw [if_pos (lt_mul_of_lt hi hlt), if_pos hi]
        have := unflat_flat (s := n :: post) (is := i :: iq) ⟨hi, v2.2⟩
        simp only [flat_cons] at this
        rw [this]
      · have hle : n * size post ≤ i * size post := Nat.mul_le_mul_right _ (by omega)
        rw [if_neg (by omega), if_neg hi]
        have hv : ValidIdx (m :: post) ((i - n) :: iq) := ⟨by have := v2.1; omega, v2.2⟩
        have := unflat_flat hv
        simp only [flat_cons] at this
        rw [show i * size post + flat post iq - n * size post = (i - n) * size post + flat post iq by
          rw [Nat.sub_mul]; omega, this]

/-- C24, for tensors without a zero extent before the axis: `concatenate(l, r, axis)` adds the extents along the axis and
holds `l` where the axis coordinate is below `l`'s extent, else `r` at the shifted coordinate.  Missing: zero extents before
the axis (see `concatenate_violated`). -/
theorem concatenate_partial [Zero α] (l r : Ten α) (pre post : List Nat) (n m axis : Nat) (a b : List Nat → α)
    (hl : l.Has (pre ++ n :: post) a) (hr : r.Has (pre ++ m :: post) b) (hpre : size pre ≠ 0)
    (hax : axis = pre.length ∧ axis ≠ minusOne ∨ axis = minusOne ∧ post = []) :
    ∃ t, concatenate l r axis = ok t ∧ t.Has (pre ++ (n + m) :: post) (fun is =>
      if is.getD pre.length 0 < n then a is else b (is.set pre.length (is.getD pre.length 0 - n))) := by
  unfold concatenate concatenateB
  have hls : l.shape.length = r.shape.length := by rw [hl.1, hr.1]; simp
  rw [if_neg (by omega), if_neg (by omega)]
  refine concatEq_ok hl hr hpre ?_
  rcases hax with ⟨h1, h2⟩ | ⟨h1, h2⟩
  · rw [if_neg h2, h1]
  · rw [if_pos h1, h2]; simp

/-- C24: operands that differ off the axis are rejected. -/
theorem concatenate_rejects [Zero α] (l r : Ten α) (axis : Nat) (hlen : l.shape.length = r.shape.length) (ha : axis ≠ minusOne)
    (h : l.shape.take axis ≠ r.shape.take axis ∨ l.shape.drop (axis + 1) ≠ r.shape.drop (axis + 1) ∨ l.shape.length ≤ axis) :
    concatenate l r axis = abort := by
  unfold concatenate concatenateB
  rw [if_neg (by omega), if_neg (by omega)]
  unfold concatEq
  rw [assert_true hlen, bind_ok]
  simp only [if_neg ha]
  by_cases h1 : axis < l.shape.length
  · rw [assert_true h1, bind_ok]
    by_cases h2 : l.shape.take axis = r.shape.take axis
    · rw [assert_true h2, bind_ok, assert_false (by rcases h with h | h | h
                                                    · exact absurd h2 h
                                                    · exact h
                                                    · omega)]; rfl
    · rw [assert_false h2]; rfl
  · rw [assert_false h1]; rfl

/-- C24: `concatenate(l, r, axis)` of two tensors of equal rank, agreeing off the axis and not both empty, adds the extents along
the axis and holds `l` where the axis coordinate is below `l`'s extent, else `r` at the shifted coordinate. -/
theorem concatenate_values [Zero α] (l r : Ten α) (pre post : List Nat) (n m axis : Nat) (a b : List Nat → α)
    (hl : l.Has (pre ++ n :: post) a) (hr : r.Has (pre ++ m :: post) b) (hne : l.data ≠ [] ∨ r.data ≠ [])
    (hax : axis = pre.length ∧ axis ≠ minusOne ∨ axis = minusOne ∧ post = []) :
    ∃ t, concatenate l r axis = ok t ∧ t.Has (pre ++ (n + m) :: post) (fun is =>
      if is.getD pre.length 0 < n then a is else b (is.set pre.length (is.getD pre.length 0 - n))) := by
  refine concatenate_partial l r pre post n m axis a b hl hr (fun h0 => ?_) hax
  rcases hne with h | h
  · exact h (List.eq_nil_of_length_eq_zero (by rw [hl.2.1, size_append, h0, Nat.zero_mul]))
  · exact h (List.eq_nil_of_length_eq_zero (by rw [hr.2.1, size_append, h0, Nat.zero_mul]))

/-- C24 is false of the code when an extent before the axis is zero: `std::max( 1UL, ... )` makes one round of copies and
reads past the empty operands. -/
theorem concatenate_violated : ∃ l r : Ten Int, l.Has [0, 3] (fun _ => 0) ∧ r.Has [0, 2] (fun _ => 0) ∧ concatenate l r 1 = ub := by
  refine ⟨⟨[0, 3], []⟩, ⟨[0, 2], []⟩, ⟨rfl, rfl, fun is hv => ?_⟩, ⟨rfl, rfl, fun is hv => ?_⟩, by decide⟩
  · match is, hv with
    | i :: is, hv => exact absurd hv.1 (by omega)
  · match is, hv with
    | i :: is, hv => exact absurd hv.1 (by omega)

example : concatenate ⟨[2, 1], [1, (4 : Int)]⟩ ⟨[2, 2], [2, 3, 5, 6]⟩ 1 = ok ⟨[2, 3], [1, 2, 3, 4, 5, 6]⟩ ∧
    concatenate ⟨[2, 1], [1, (4 : Int)]⟩ ⟨[2, 2], [2, 3, 5, 6]⟩ minusOne = ok ⟨[2, 3], [1, 2, 3, 4, 5, 6]⟩ ∧
    concatenate ⟨[2, 1], [1, (4 : Int)]⟩ ⟨[2, 2], [2, 3, 5, 6]⟩ 0 = abort := by decide

/-- C25 is false of the code: for every two operands of different rank the call has undefined behaviour (iterators of two
different temporaries). -/
theorem concatenate_ranks_violated [Zero α] (l r : Ten α) (axis : Nat) (h : l.shape.length ≠ r.shape.length) :
    concatenate l r axis = ub := by
  unfold concatenate concatenateB
  have key : ∀ x y : Ten α, y.shape.length < x.shape.length → concatAlign false x y axis = ub := by
    intro x y hxy
    unfold concatAlign tempRange
    rw [if_neg]; · rfl
    rintro (h | h)
    · cases h
    · have := congrArg List.length h
      simp at this
      omega
  by_cases h1 : l.shape.length < r.shape.length
  · rw [if_pos h1, key _ _ h1]
  · rw [if_neg h1, if_pos (by omega), key _ _ (by omega)]

/-- C25, equal ranks: every element of `l` comes before the elements of `r` on its axis fibre.  Missing: different ranks,
where the code is undefined; and even if the two temporaries are read as one, the lower-rank operand is placed last although
it was given first (`concatenate_order_violated`). -/
theorem concatenate_order_partial [Zero α] (l r : Ten α) (pre post : List Nat) (n m : Nat) (a b : List Nat → α)
    (hl : l.Has (pre ++ n :: post) a) (hr : r.Has (pre ++ m :: post) b) (hpre : size pre ≠ 0) (hax : pre.length ≠ minusOne) :
    ∃ t c, concatenate l r pre.length = ok t ∧ t.Has (pre ++ (n + m) :: post) c ∧
      ∀ ip iq, ValidIdx pre ip → ValidIdx post iq → (∀ i, i < n → c (ip ++ i :: iq) = a (ip ++ i :: iq)) ∧
        (∀ i, i < m → c (ip ++ (n + i) :: iq) = b (ip ++ i :: iq)) := by
  obtain ⟨t, h1, h2⟩ := concatenate_partial l r pre post n m pre.length a b hl hr hpre (Or.inl ⟨rfl, hax⟩)
  refine ⟨t, _, h1, h2, fun ip iq v1 v2 => ⟨fun i hi => ?_, fun i hi => ?_⟩⟩
  · rw [getD_append_axis v1.length_eq, if_pos hi]
  · rw [getD_append_axis v1.length_eq, set_append_axis v1.length_eq, if_neg (by omega), Nat.add_sub_cancel_left]

/-- Even with the two temporaries read as one object, the operand order is lost when the left one has the lower rank. -/
theorem concatenate_order_violated :
    concatenateB true ⟨[2], [1, (2 : Int)]⟩ ⟨[1, 2], [3, 4]⟩ 0 = ok ⟨[2, 2], [3, 4, 1, 2]⟩ := by decide

/-! ### C26 -/

theorem repeat_loop {n m : Nat} {A : List α} (hA : A.length = m) {out : List α} (ho : out.length = n * m) :
    ∃ o', loop n (fun idx o => copyTo A 0 m o (idx * m)) out = ok o' ∧ o'.length = n * m ∧
      ∀ i j, i < n → j < m → o'[i * m + j]? = A[j]? := by
  by_cases hm : m = 0
  · subst hm
    refine ⟨out, ?_, ho, fun i j _ hj => by omega⟩
    have := loop_pure (n := n) (body := fun idx o => copyTo A 0 0 o (idx * 0)) (g := fun _ t => t) out (fun i t _ => rfl)
    rw [this]
    congr 1
    clear this ho
    induction n with
    | zero => rfl
    | succ n ih => exact ih
  · have hs : Sets (fun o => loop n (fun idx o => copyTo A 0 m o (idx * m)) o) (n * m)
        (fun p => ∃ idx, idx < n ∧ ∃ i, i < m ∧ p = idx * m + i)
        (fun p => A[p % m]'(by rw [hA]; exact Nat.mod_lt _ (by omega))) := by
      refine Sets.loop (fun idx hidx => copyTo_sets ?_ (fun i hi => ?_))
      · have := Nat.mul_le_mul_right m (show idx + 1 ≤ n by omega)
        rw [Nat.add_mul, Nat.one_mul] at this; exact this
      · rw [Nat.zero_add, List.getElem?_eq_getElem (by omega)]
        congr 2
        exact (div_mod_eq hi).2.symm
    obtain ⟨o', h1, h2, h3⟩ := hs.total (fun p hp => by
      obtain ⟨i, j, hi, hj, rfl⟩ := exists_div_mod hp
      exact ⟨i, hi, j, hj, rfl⟩) ho
    refine ⟨o', h1, h2, fun i j hi hj => ?_⟩
    rw [h3 _ (lt_mul_of_lt hi hj), List.getElem?_eq_getElem (by omega)]
    congr 2
    exact (div_mod_eq hj).2

/-- C26 is false of the code: `repeat` of any tensor of rank 1 or more is undefined (iterators of two temporaries). -/
theorem repeat_violated [Zero α] (t : Ten α) (n : Nat) (h : t.shape ≠ []) : repeatT t n = ub := by
  obtain ⟨o', h1, _⟩ := repeat_loop (n := n) (A := t.data) rfl (out := List.replicate (n * t.data.length) 0) (by simp)
  unfold repeatT repeatB
  rw [h1, bind_ok]
  unfold tempRange
  rw [if_neg (by simp [h])]; rfl

/-- C26 with the two temporaries read as one object: `repeat(t, n)` is `n` stacked copies.  Missing: the code as written. -/
theorem repeat_partial [Zero α] (t : Ten α) (n : Nat) (s : List Nat) (a : List Nat → α) (ht : t.Has s a)
    (hs : (n :: s).getLast? ≠ some minusOne) :
    ∃ u, repeatB true t n = ok u ∧ u.Has (n :: s) (fun is => a is.tail) := by
  obtain ⟨hts, htT⟩ := ht
  obtain ⟨o', h1, h2, h3⟩ := repeat_loop (n := n) (A := t.data) htT.1 (out := List.replicate (n * t.data.length) 0) (by simp [htT.1])
  refine ⟨⟨n :: s, o'⟩, ?_, rfl, by simpa using h2, fun is hv => ?_⟩
  · unfold repeatB
    rw [htT.1] at h1 ⊢
    rw [h1, bind_ok]
    simp only [tempRange, true_or, if_true, bind_ok, hts, reshapeV]
    rw [require_true (by simp), bind_ok, if_neg hs, if_neg (by simp [h2])]; rfl
  · match is, hv with
    | i :: is, hv =>
      simp only [flat_cons, List.tail_cons]
      rw [h3 i _ hv.1 (flat_lt hv.2), htT.2 is hv.2]

/-- C25, for operands of different rank with the two temporaries read as one object, the operand of higher rank on the left: the other one is repeated along the
missing dimensions.  Missing: the code as written (`concatenate_ranks_violated`). -/
theorem concatenate_ranks_partial [Zero α] (l r : Ten α) (p pre post : List Nat) (n m axis : Nat) (a b : List Nat → α)
    (hl : l.Has ((p ++ pre) ++ n :: post) a) (hr : r.Has (pre ++ m :: post) b) (hp : p ≠ []) (hpre : size (p ++ pre) ≠ 0) (hm : (pre ++ m :: post).getLast? ≠ some minusOne)
    (hax : axis = (p ++ pre).length ∧ axis ≠ minusOne ∨ axis = minusOne ∧ post = []) :
    ∃ t, concatenateB true l r axis = ok t ∧ t.Has ((p ++ pre) ++ (n + m) :: post) (fun is =>
      if is.getD (p ++ pre).length 0 < n then a is else b ((is.set (p ++ pre).length (is.getD (p ++ pre).length 0 - n)).drop p.length)) := by
  have hpl : 0 < p.length := List.length_pos_iff.mpr hp
  have hlen : r.shape.length < l.shape.length := by rw [hl.1, hr.1]; simp; omega
  have htake : l.shape.take (l.shape.length - r.shape.length) = p := by
    rw [hl.1, hr.1]
    simp
  obtain ⟨u, h1, h2⟩ := repeat_partial r (size p) (pre ++ m :: post) b hr (by
    rw [List.getLast?_cons_of_ne_nil (by simp)]; exact hm)
  have h3 : (⟨p ++ (pre ++ m :: post), u.data⟩ : Ten α).Has ((p ++ pre) ++ m :: post) (fun is => b (is.drop p.length)) := by
    refine ⟨by simp, ?_, fun is hv => ?_⟩
    · rw [h2.2.1]; simp [size_append]
    · rw [List.append_assoc] at hv ⊢
      have hil : is.length = p.length + (pre ++ m :: post).length := by rw [hv.length_eq]; simp
      obtain ⟨ip, iq, rfl, hip⟩ : ∃ ip iq, is = ip ++ iq ∧ ip.length = p.length := ⟨is.take p.length, is.drop p.length, by simp, by simp; omega⟩
      obtain ⟨v1, v2⟩ := (validIdx_append hip).mp hv
      have := h2.2.2 (flat p ip :: iq) ⟨flat_lt v1, v2⟩
      rw [flat_append hip, ← hip]
      dsimp only
      rw [List.drop_left]
      simpa using this
  unfold concatenateB
  rw [if_neg (by omega), if_pos hlen]
  unfold concatAlign
  simp only [tempRange, true_or, if_true, bind_ok, htake]
  rw [h1, bind_ok, hr.1]
  have h4 : reshapeV u (p ++ (pre ++ m :: post)) = ok ⟨p ++ (pre ++ m :: post), u.data⟩ := by
    unfold reshapeV
    rw [require_true (by simp), bind_ok, if_neg (by rw [List.getLast?_append]; simpa using hm), if_neg (by rw [h2.2.1]; simp [size_append])]
    rfl
  rw [h4, bind_ok]
  refine concatEq_ok hl h3 hpre ?_
  rcases hax with ⟨h1, h2⟩ | ⟨h1, h2⟩
  · rw [if_neg h2, h1]
  · rw [if_pos h1, h2]; simp

/-- A matrix and a vector of three: the vector is appended to each of the two rows, over one object. -/
example : concatenateB true ⟨[2, 2], [1, 2, 3, (4 : Int)]⟩ ⟨[3], [5, 6, 7]⟩ 1 = ok ⟨[2, 5], [1, 2, 5, 6, 7, 3, 4, 5, 6, 7]⟩ := by decide

/-- C26: `repmat(t, R, C)` holds `t[i mod rows][j mod cols]` at `(i, j)`, for all matrices and counts. -/
theorem repmat_values [Zero α] (t : Ten α) (rows cols R C : Nat) (a : List Nat → α) (ht : t.Has [rows, cols] a) :
    ∃ u, repmat t R C = ok u ∧ u.Has [rows * R, cols * C] (fun is => a [is.getD 0 0 % rows, is.getD 1 0 % cols]) := by
  obtain ⟨hts, htT⟩ := ht
  have h2 : Is2 t.data rows cols (fun i j => a [i, j]) := by
    refine ⟨by simpa using htT.1, fun i j hi hj => ?_⟩
    have := htT.2 [i, j] ⟨hi, hj, trivial⟩
    simpa using this
  have hs : Sets (fun o => loop R (fun rdx o => loop C (fun cdx o => loop rows (fun odx o =>
      copyTo t.data (odx * cols) cols o (rows * cols * rdx * C + odx * cols * C + cols * cdx)) o) o) o) (rows * R * (cols * C))
      (fun p => ∃ rdx, rdx < R ∧ ∃ cdx, cdx < C ∧ ∃ odx, odx < rows ∧ ∃ i, i < cols ∧
        p = rows * cols * rdx * C + odx * cols * C + cols * cdx + i)
      (fun p => a [p / (cols * C) % rows, p % (cols * C) % cols]) := by
    refine Sets.loop (fun rdx hr => Sets.loop (fun cdx hc => Sets.loop (fun odx hodx => copyTo_sets ?_ (fun i hi => ?_))))
    · have h3 : rdx * rows + odx < R * rows := lt_mul_of_lt hr hodx
      have h4 : (rdx * rows + odx + 1) * (cols * C) ≤ (R * rows) * (cols * C) := Nat.mul_le_mul_right _ h3
      have h5 : (cdx + 1) * cols ≤ C * cols := Nat.mul_le_mul_right _ hc
      nlinarith
    · have e1 : rows * cols * rdx * C + odx * cols * C + cols * cdx + i = (rdx * rows + odx) * (cols * C) + (cdx * cols + i) := by ring
      have e2 := div_mod_eq (i := rdx * rows + odx) (j := cdx * cols + i) (m := cols * C)
        (by rw [Nat.mul_comm cols C]; exact lt_mul_of_lt hc hi)
      rw [e1, e2.1, e2.2, (div_mod_eq hodx).2, (div_mod_eq hi).2]
      exact h2.2 odx i hodx hi
  obtain ⟨o', e1, e2, e3⟩ := hs.total (o := List.replicate (size [rows * R, cols * C]) (0 : α)) (fun p hp => by
    obtain ⟨i, j, hi, hj, rfl⟩ := exists_div_mod hp
    rw [Nat.mul_comm] at hi hj
    obtain ⟨rdx, odx, hr, hodx, rfl⟩ := exists_div_mod hi
    obtain ⟨cdx, k, hc, hk, rfl⟩ := exists_div_mod hj
    exact ⟨rdx, hr, cdx, hc, odx, hodx, k, hk, by ring⟩) (by simp)
  refine ⟨⟨[rows * R, cols * C], o'⟩, ?_, rfl, by simpa using e2, fun is hv => ?_⟩
  · unfold repmat
    rw [hts]
    simp only at e1 ⊢
    rw [e1]; rfl
  · match is, hv with
    | [i, j], hv =>
      have := e3 (i * (cols * C) + j) (lt_mul_of_lt hv.1 hv.2.1)
      simp only [flat_cons, size_cons, size_nil, flat_nil, Nat.mul_one, Nat.add_zero]
      rw [this, (div_mod_eq hv.2.1).1, (div_mod_eq hv.2.1).2]; rfl

example : repmat ⟨[2, 2], [1, 2, 3, (4 : Int)]⟩ 1 2 = ok ⟨[2, 4], [1, 2, 1, 2, 3, 4, 3, 4]⟩ ∧
    repeatB true ⟨[2], [1, (2 : Int)]⟩ 2 = ok ⟨[2, 2], [1, 2, 1, 2]⟩ ∧ repeatT ⟨[2], [1, (2 : Int)]⟩ 2 = ub := by decide

end Verif.Data
