import Verif.Stride.Props
/-!
# The reductions on stride iterators

The functions of `Verif.Data` and `Verif.Pool`, where the positions are computed directly, against the same functions with the iterators of the library.
-/
namespace Verif.Stride
open Verif Res View Data Pool

variable {α : Type}

/-! ### helpers -/

theorem rd_lt [Zero α] {d : List α} {i : Nat} (h : i < d.length) : rd d i = ok (d.getD i 0) := by
  refine rd_ok ?_
  rw [List.getD_eq_getElem?_getD, List.getElem?_eq_getElem h]; rfl

theorem loop_congr_inv {σ : Type} {n : Nat} {f g : Nat → σ → Res σ} (I : σ → Prop) {s : σ} (h0 : I s)
    (hI : ∀ i t t', i < n → I t → g i t = ok t' → I t') (h : ∀ i t, i < n → I t → f i t = g i t) :
    loop n f s = loop n g s ∧ ∀ t, loop n g s = ok t → I t := by
  induction n with
  | zero => exact ⟨rfl, fun t e => by rw [loop_zero] at e; injection e with e; exact e ▸ h0⟩
  | succ n ih =>
    obtain ⟨e1, e2⟩ := ih (fun i t t' hi => hI i t t' (by omega)) (fun i t hi => h i t (by omega))
    rw [loop_succ, loop_succ, e1]
    cases hc : loop n g s with
    | ok t =>
      rw [bind_ok, bind_ok]
      exact ⟨h n t (by omega) (e2 t hc), fun t' e => hI n t t' (by omega) (e2 t hc) e⟩
    | abort => exact ⟨rfl, fun t e => by simp at e⟩
    | ub => exact ⟨rfl, fun t e => by simp at e⟩

/-- A loop one of whose rounds is undefined, and none of whose rounds stops in an assertion, is undefined. -/
theorem loop_ub {σ : Type} {n k : Nat} {body : Nat → σ → Res σ} (I : σ → Prop) {s : σ} (h0 : I s)
    (hI : ∀ i t t', i < n → I t → body i t = ok t' → I t') (hna : ∀ i t, i < n → I t → body i t ≠ abort)
    (hk : k < n) (hub : ∀ t, I t → body k t = ub) : loop n body s = ub := by
  have key : ∀ m, m ≤ n → loop m body s = ub ∨ ∃ t, loop m body s = ok t ∧ I t := by
    intro m
    induction m with
    | zero => intro _; exact .inr ⟨s, rfl, h0⟩
    | succ m ih =>
      intro hm
      rw [loop_succ]
      rcases ih (by omega) with e | ⟨t, e, ht⟩
      · rw [e]; exact .inl rfl
      · rw [e, bind_ok]
        cases hb : body m t with
        | ok t' => exact .inr ⟨t', rfl, hI m t t' (by omega) ht hb⟩
        | abort => exact absurd hb (hna m t (by omega) ht)
        | ub => exact .inl rfl
  have hs : loop (k + 1) body s = ub := by
    rw [loop_succ]
    rcases key k (by omega) with e | ⟨t, e, ht⟩
    · rw [e]; rfl
    · rw [e, bind_ok]; exact hub t ht
  have : ∀ m, k + 1 ≤ m → loop m body s = ub := by
    intro m hm
    induction m, hm using Nat.le_induction with
    | base => exact hs
    | succ m _ ih => rw [loop_succ, ih]; rfl
  exact this n hk

theorem wr_length {o o' : List α} {i : Nat} {v : α} (h : wr o i v = ok o') : o'.length = o.length := by
  unfold wr at h; split at h
  · injection h with h; rw [← h, List.length_set]
  · cases h

theorem loop_length {n : Nat} {body : Nat → List α → Res (List α)} (hb : ∀ i o o', body i o = ok o' → o'.length = o.length) {s t : List α}
    (h : loop n body s = ok t) : t.length = s.length := by
  induction n generalizing t with
  | zero => rw [loop_zero] at h; injection h with h; rw [h]
  | succ n ih =>
    rw [loop_succ] at h
    obtain ⟨u, hu, hv⟩ := bind_eq_ok.1 h
    rw [hb _ _ _ hv, ih hu]

theorem readStride_getD [Zero α] {d : List α} {start step : Nat} : ∀ n, (∀ i, i < n → start + step * i < d.length) →
    readStride d start step n = ok ((List.range n).map (fun i => d.getD (start + step * i) 0)) := by
  intro n
  induction n with
  | zero => intro _; rfl
  | succ n ih =>
    intro h
    rw [readStride, ih (fun i hi => h i (by omega)), bind_ok, rd_lt (h n (by omega)), bind_ok, List.range_succ, List.map_append]; rfl

/-- Sizes of a shape around one of its axes. -/
theorem size_axis {s : List Nat} {k n : Nat} (h : s[k]? = some n) : size s = size (s.take k) * (n * size (s.drop (k + 1))) := by
  have hk : k < s.length := by
    rcases Nat.lt_or_ge k s.length with h' | h'
    · exact h'
    · rw [List.getElem?_eq_none h'] at h; cases h
  have e : s = s.take k ++ n :: s.drop (k + 1) := by
    rw [List.getElem?_eq_getElem hk] at h
    injection h with h
    rw [← h]; simp
  conv_lhs => rw [e]
  rw [size_append]; rfl

theorem it_zero (p s : Int) : (⟨p, s⟩ : SIt) = It p s 0 := by simp [It]

/-- Making the end iterator: within the block always, without the check of the block anywhere. -/
theorem add_it (b : Bool) (n : Nat) (p s m : Int) (h : b = true → 0 ≤ p + s * m ∧ p + s * m ≤ n) : add b n (It p s 0) m = ok (It p s m) := by
  have e : p + s * 0 + s * m = p + s * m := by ring
  simp only [add, It]
  rw [advance_in (by rw [e]; exact h), bind_ok, e]; rfl

theorem len_bound {step start n L : Nat} (hstep : 0 < step) (hin : ∀ i, i < n → start + step * i < L) : n < L + 1 := by
  rcases n with _ | n
  · omega
  · have := hin n (by omega)
    have h2 : n ≤ step * n := Nat.le_mul_of_pos_left n hstep
    omega

/-- One output of `reduce`. -/
theorem reduce_cell [Zero α] {b : Bool} {op : α → α → α} {d : List α} {start step n : Nat} {init : α} (hstep : 0 < step)
    (hin : ∀ i, i < n → start + step * i < d.length) (hb : b = true → start + step * n ≤ d.length) :
    (do let st ← advance b d.length 0 ((start : Nat) : Int)
        let last ← add b d.length ⟨st, step⟩ n
        stdReduce b op d (d.length + 1) ⟨st, step⟩ last init)
      = ok (foldFour op init ((List.range n).map (fun i => d.getD (start + step * i) 0))) := by
  have hb' : b = true → ∀ i : Nat, i ≤ n → 0 ≤ (start : Int) + step * i ∧ (start : Int) + step * i ≤ d.length := by
    intro h i hi
    have := hb h
    have h2 : step * i ≤ step * n := Nat.mul_le_mul_left _ hi
    constructor
    · positivity
    · have : start + step * i ≤ d.length := by omega
      exact_mod_cast this
  rw [advance_in (by intro h; have := hb' h 0 (by omega); simpa using this), bind_ok, Int.zero_add, it_zero,
    add_it b _ _ _ _ (fun h => hb' h n (le_refl _)), bind_ok]
  refine stdReduce_ok (by omega) n _ _ init (len_bound hstep hin) (fun i hi => ?_) hb'
  rw [show (start : Int) + step * i = ((start + step * i : Nat) : Int) by push_cast; ring, load_nat, rd_lt (hin i hi)]

/-- The column `j` of the block `it` and its end, made as the operators do. -/
theorem column_ok {b : Bool} {L scales stride it j : Nat} (hb : b = true → it * scales * stride + j + stride * scales ≤ L) :
    slab b L scales stride it = ok ((it * scales * stride : Nat) : Int) ∧
    colBegin b L ((it * scales * stride : Nat) : Int) stride j = ok (It ((it * scales * stride + j : Nat) : Int) stride 0) ∧
    colEnd b L ((it * scales * stride : Nat) : Int) scales stride j = ok (It ((it * scales * stride + j : Nat) : Int) stride scales) := by
  have h2 : colBegin b L ((it * scales * stride : Nat) : Int) stride j = ok (It ((it * scales * stride + j : Nat) : Int) stride 0) := by
    unfold colBegin
    rw [advance_in (by intro h; have := hb h; omega), bind_ok, pure_eq, ← it_zero]; congr 2
  refine ⟨?_, h2, ?_⟩
  · unfold slab
    rw [advance_in (by intro h; have := hb h; omega), Int.zero_add]
  · unfold colEnd
    rw [h2, bind_ok]
    refine add_it b L _ _ _ (fun h => ?_)
    have := hb h
    have e : (((it * scales * stride + j : Nat) : Int) + (stride : Int) * (scales : Int)) = ((it * scales * stride + j + stride * scales : Nat) : Int) := by
      push_cast; ring
    rw [e]; omega

/-- The end of a column that lies behind the block. -/
theorem column_ub {L scales stride it j : Nat} (hb : L < it * scales * stride + j + stride * scales) :
    (do let base ← slab true L scales stride it
        let first ← colBegin true L base stride j
        let last ← colEnd true L base scales stride j
        pure (first, last)) = ub := by
  by_cases h1 : it * scales * stride ≤ L
  · by_cases h2 : it * scales * stride + j ≤ L
    · have hb2 : colBegin true L ((it * scales * stride : Nat) : Int) stride j = ok (It ((it * scales * stride + j : Nat) : Int) stride 0) := by
        unfold colBegin
        rw [advance_in (by intro h; omega), bind_ok, pure_eq, ← it_zero]; congr 2
      have hs : slab true L scales stride it = ok ((it * scales * stride : Nat) : Int) := by
        unfold slab; rw [advance_in (by intro h; omega), Int.zero_add]
      rw [hs, bind_ok, hb2, bind_ok]
      unfold colEnd
      rw [hb2, bind_ok]
      simp only [add, It]
      rw [advance_out (by
        right
        have e : (((it * scales * stride + j : Nat) : Int) + (stride : Int) * 0 + (stride : Int) * (scales : Int))
            = ((it * scales * stride + j + stride * scales : Nat) : Int) := by push_cast; ring
        rw [e]; omega)]
      rfl
    · have hs : slab true L scales stride it = ok ((it * scales * stride : Nat) : Int) := by
        unfold slab; rw [advance_in (by intro h; omega), Int.zero_add]
      rw [hs, bind_ok]
      unfold colBegin
      rw [advance_out (by right; omega)]; rfl
  · unfold slab
    rw [advance_out (by right; omega)]; rfl

theorem block_le {it iterations B : Nat} (hi : it < iterations) : it * B + B ≤ iterations * B := by
  have : (it + 1) * B ≤ iterations * B := Nat.mul_le_mul_right _ hi
  rw [Nat.add_mul, Nat.one_mul] at this; exact this

/-- Where the elements of a column lie. -/
theorem column_lt {it iterations scales stride i j : Nat} (hi : it < iterations) (hk : i < scales) (hj : j < stride) :
    it * scales * stride + j + stride * i < iterations * (scales * stride) := by
  have h1 := block_le (B := scales * stride) hi
  have h2 : stride * i + stride ≤ scales * stride := by
    have := Nat.mul_le_mul_left stride (show i + 1 ≤ scales from hk)
    rw [Nat.mul_add, Nat.mul_one] at this; rw [Nat.mul_comm scales]; exact this
  rw [Nat.mul_assoc]; omega

theorem scales_bound {it iterations scales stride : Nat} (hi : it < iterations) (hs : 0 < stride) : scales < iterations * (scales * stride) + 1 := by
  have h1 : scales * 1 ≤ scales * stride := Nat.mul_le_mul_left _ hs
  have h2 : 1 * (scales * stride) ≤ iterations * (scales * stride) := Nat.mul_le_mul_right _ (by omega)
  omega

/-! ### the functions of the library -/

/-- **C120** (`reduce`). On tensors whose data fills their shape, `reduce` with stride iterators and the `std::reduce` of libstdc++ is the function with the
positions computed directly, with the elements added four at a time. -/
theorem reduce_on_strides [Zero α] (op : α → α → α) (t : Ten α) (ht : t.data.length = size t.shape) (axis : Nat) (init : α) (keepdims : Bool) :
    reduce false op t axis init keepdims = Data.reduce (fun l => foldFour op (l.headD 0) l.tail) t axis init keepdims := by
  unfold reduce Data.reduce
  split
  · rfl
  dsimp only
  generalize (if axis = minusOne then t.shape.length - 1 else axis) = ax
  by_cases hax : ax < t.shape.length
  swap
  · rw [assert_false hax]; rfl
  rw [assert_true hax, bind_ok, bind_ok]
  have hn : rd t.shape ax = ok t.shape[ax] := rd_ok (List.getElem?_eq_getElem hax)
  rw [hn, bind_ok, bind_ok]
  have hsz := size_axis (List.getElem?_eq_getElem hax)
  congr 1
  refine loop_congr _ (fun idx o hi => loop_congr _ (fun jdx o hj => ?_))
  have hp : 0 < size (t.shape.drop (ax + 1)) := by omega
  have hin : ∀ i, i < t.shape[ax] → idx * size (t.shape.drop (ax + 1)) * t.shape[ax] + jdx + size (t.shape.drop (ax + 1)) * i < t.data.length := by
    intro i hi'
    rw [ht, hsz]
    have := column_lt hi hi' hj
    rw [Nat.mul_right_comm]; exact this
  have hc := reduce_cell (b := false) (op := op) (init := init) hp hin (by simp)
  rw [readStride_getD _ hin, bind_ok]
  have := congrArg (fun r => r >>= fun v => wr o (idx * size (t.shape.drop (ax + 1)) + jdx) v) hc
  simp only [Res.bind_assoc, bind_ok] at this
  exact this

/-- **C120** (`reduce_sum`, forward). -/
theorem reduce_sum_on_strides [Zero α] [Add α] (axis : Nat) (t cache : Ten α) (ht : t.data.length = size t.shape) :
    reduceSum false axis t cache = Pool.reduceSum axis t cache := by
  unfold reduceSum Pool.reduceSum
  by_cases hs : t.shape ≠ []
  swap
  · rw [require_false hs]; rfl
  rw [require_true hs, bind_ok, bind_ok]
  dsimp only
  generalize hax' : min axis (t.shape.length - 1) = ax
  have hax : ax < t.shape.length := by
    have : 0 < t.shape.length := List.length_pos_of_ne_nil hs
    omega
  have hn : rd t.shape ax = ok t.shape[ax] := rd_ok (List.getElem?_eq_getElem hax)
  rw [hn, bind_ok, bind_ok]
  have hsz := size_axis (List.getElem?_eq_getElem hax)
  congr 1
  refine loop_congr _ (fun it o hi => loop_congr _ (fun j o hj => ?_))
  obtain ⟨c1, c2, c3⟩ := column_ok (b := false) (L := t.data.length) (scales := t.shape[ax]) (stride := size (t.shape.drop (ax + 1))) (it := it) (j := j) (by simp)
  rw [c1, bind_ok, c2, bind_ok, c3, bind_ok]
  congr 1
  unfold accumulate
  have h0 := forRange_eq false t.data.length (fun it acc => do let x ← deref t.data it; pure (acc + x))
    ((it * t.shape[ax] * size (t.shape.drop (ax + 1)) + j : Nat) : Int) (size (t.shape.drop (ax + 1))) (by omega) t.shape[ax] (t.data.length + 1) 0 0
    (by rw [ht, hsz]; exact scales_bound hi (by omega)) (by simp)
  rw [Int.zero_add] at h0
  rw [h0]
  refine loop_congr _ (fun i acc _ => ?_)
  simp only [deref, It, colPos_eq]
  rw [show ((it * t.shape[ax] * size (t.shape.drop (ax + 1)) + j : Nat) : Int) + (size (t.shape.drop (ax + 1)) : Int) * (0 + (i : Int))
    = ((it * (t.shape[ax] * size (t.shape.drop (ax + 1))) + (i * size (t.shape.drop (ax + 1)) + j) : Nat) : Int) by push_cast; ring, load_nat]

/-- **C120** (`reduce_sum`, backward). -/
theorem reduce_sum_back_on_strides [Zero α] (axis : Nat) (t grad cache : Ten α) :
    reduceSumBack false axis t grad cache = Pool.reduceSumBack axis t grad cache := by
  unfold reduceSumBack Pool.reduceSumBack
  by_cases hs : t.shape ≠ []
  swap
  · rw [require_false hs]; rfl
  rw [require_true hs, bind_ok, bind_ok]
  dsimp only
  generalize hax' : min axis (t.shape.length - 1) = ax
  have hax : ax < t.shape.length := by
    have : 0 < t.shape.length := List.length_pos_of_ne_nil hs
    omega
  have hn : rd t.shape ax = ok t.shape[ax] := rd_ok (List.getElem?_eq_getElem hax)
  rw [hn, bind_ok, bind_ok]
  have hsz := size_axis (List.getElem?_eq_getElem hax)
  cases hz : Gemm.fillN (resizeV cache t.shape).data.length 0 (resizeV cache t.shape).data with
  | abort => rfl
  | ub => rfl
  | ok z =>
    rw [bind_ok, bind_ok]
    have hzl : z.length = size t.shape := by
      have h1 : z.length = (resizeV cache t.shape).data.length := loop_length (fun i o o' h => wr_length h) hz
      rw [h1, resizeV_length]
    congr 1
    have wl : ∀ (it j : Nat) (o o' : List α), (do
        let g ← rd grad.data (at2 (size (t.shape.take ax)) (size (t.shape.drop (ax + 1))) false it j)
        loop t.shape[ax] (fun i o => wr o (it * (t.shape[ax] * size (t.shape.drop (ax + 1))) + colPos (size (t.shape.drop (ax + 1))) j i) g) o) = ok o' →
        o'.length = o.length := by
      intro it j o o' h
      obtain ⟨g, _, h⟩ := bind_eq_ok.1 h
      exact loop_length (fun i o o' h => wr_length h) h
    refine (loop_congr_inv (fun o => o.length = size t.shape) hzl (fun it o o' _ ho h => ?_) (fun it o hi ho => ?_)).1
    · rw [← ho]; exact loop_length (fun j o o' h => wl it j o o' h) h
    refine (loop_congr_inv (fun o => o.length = size t.shape) ho (fun j o o' _ ho h => ?_) (fun j o hj ho => ?_)).1
    · rw [← ho]; exact wl it j o o' h
    obtain ⟨c1, c2, c3⟩ := column_ok (b := false) (L := o.length) (scales := t.shape[ax]) (stride := size (t.shape.drop (ax + 1))) (it := it) (j := j) (by simp)
    rw [c1, bind_ok, c2, bind_ok, c3, bind_ok]
    congr 1; funext g
    unfold fill
    have h0 := forRange_eq false o.length (fun it d => store d it.pos g)
      ((it * t.shape[ax] * size (t.shape.drop (ax + 1)) + j : Nat) : Int) (size (t.shape.drop (ax + 1))) (by omega) t.shape[ax] (o.length + 1) 0 o
      (by rw [ho, hsz]; exact scales_bound hi (by omega)) (by simp)
    rw [Int.zero_add] at h0
    rw [h0]
    refine loop_congr _ (fun i o _ => ?_)
    simp only [It, colPos_eq]
    rw [show ((it * t.shape[ax] * size (t.shape.drop (ax + 1)) + j : Nat) : Int) + (size (t.shape.drop (ax + 1)) : Int) * (0 + (i : Int))
      = ((it * (t.shape[ax] * size (t.shape.drop (ax + 1))) + (i * size (t.shape.drop (ax + 1)) + j) : Nat) : Int) by push_cast; ring, store_nat]

/-- `std::max_element` of a column against `Pool.colBest`. -/
theorem bestElement_ok [Zero α] {b : Bool} {better : α → α → Bool} (hirr : ∀ x, better x x = false) {d : List α} {base stride scales j : Nat}
    (hst : 0 < stride) (hsc : 0 < scales) (hin : ∀ i, i < scales → base + j + stride * i < d.length)
    (hb : b = true → base + j + stride * scales ≤ d.length) :
    ∃ k, colBest better d base scales stride j = ok k ∧ k < scales ∧
      bestElement b better d (d.length + 1) (It ((base + j : Nat) : Int) stride 0) (It ((base + j : Nat) : Int) stride scales)
        = ok (It ((base + j : Nat) : Int) stride k) := by
  obtain ⟨m, rfl⟩ : ∃ m, scales = m + 1 := ⟨scales - 1, by omega⟩
  have hne : (stride : Int) ≠ 0 := by omega
  have pos (i : Nat) : ((base + j : Nat) : Int) + (stride : Int) * (i : Int) = ((base + j + stride * i : Nat) : Int) := by push_cast; ring
  have dr (i : Nat) (hi : i < m + 1) : deref d (It ((base + j : Nat) : Int) stride i) = ok (d.getD (base + j + stride * i) 0) := by
    simp only [deref, It]; rw [pos, load_nat, rd_lt (hin i hi)]
  have rr (i : Nat) (hi : i < m + 1) : rd d (base + colPos stride j i) = ok (d.getD (base + j + stride * i) 0) := by
    rw [colPos_eq, show base + (i * stride + j) = base + j + stride * i by ring, rd_lt (hin i hi)]
  have hfor := forRange_eq b d.length (fun it res => do
      let x ← deref d it
      let y ← deref d res
      pure (if better x y = true then it else res)) ((base + j : Nat) : Int) stride hne m (d.length + 1) 1 (It ((base + j : Nat) : Int) stride 0)
    (by have := len_bound hst hin; omega)
    (by
      intro h i hi
      have := hb h
      have h2 : stride * (1 + i) ≤ stride * (m + 1) := Nat.mul_le_mul_left _ (by omega)
      have e : ((base + j : Nat) : Int) + (stride : Int) * (1 + (i : Int)) = ((base + j + stride * (1 + i) : Nat) : Int) := by push_cast; ring
      rw [e]; omega)
  have key : ∀ q, q ≤ m → ∃ k, k ≤ q ∧
      loop q (fun i res => do
        let x ← deref d (It ((base + j : Nat) : Int) stride (1 + (i : Int)))
        let y ← deref d res
        pure (if better x y = true then (It ((base + j : Nat) : Int) stride (1 + (i : Int))) else res)) (It ((base + j : Nat) : Int) stride 0)
        = ok (It ((base + j : Nat) : Int) stride k) ∧
      loop (q + 1) (fun i (s : α × Nat) => do
        let x ← rd d (base + colPos stride j i)
        if better x s.1 = true then pure (x, i) else pure s) (d.getD (base + j + stride * 0) 0, 0) = ok (d.getD (base + j + stride * k) 0, k) := by
    intro q
    induction q with
    | zero =>
      intro _
      refine ⟨0, le_refl _, by rw [loop_zero]; rfl, ?_⟩
      rw [loop_succ, loop_zero, bind_ok, rr 0 (by omega), bind_ok, if_neg (by rw [hirr]; simp)]; rfl
    | succ q ih =>
      intro hq
      obtain ⟨k, hk, e1, e2⟩ := ih (by omega)
      have ei : (1 : Int) + (q : Int) = ((q + 1 : Nat) : Int) := by push_cast; ring
      rw [loop_succ, e1, bind_ok, loop_succ, e2, bind_ok, rr (q + 1) (by omega), bind_ok]
      simp only [ei]
      rw [dr (q + 1) (by omega), bind_ok, dr k (by omega), bind_ok]
      by_cases hbt : better (d.getD (base + j + stride * (q + 1)) 0) (d.getD (base + j + stride * k) 0) = true
      · exact ⟨q + 1, le_refl _, by rw [if_pos hbt]; rfl, by rw [if_pos hbt]; rfl⟩
      · exact ⟨k, by omega, by rw [if_neg hbt]; rfl, by rw [if_neg hbt]; rfl⟩
  obtain ⟨k, hk, e1, e2⟩ := key m (le_refl _)
  refine ⟨k, ?_, by omega, ?_⟩
  · unfold colBest
    rw [require_true (by omega), bind_ok, rr 0 (by omega), bind_ok, e2]; rfl
  · unfold bestElement
    rw [if_neg (by rw [(stride_distance_partial _ _ _ _ hne).2.1]; push_cast; omega)]
    have hinc : inc b d.length (It ((base + j : Nat) : Int) stride 0) = ok (It ((base + j : Nat) : Int) stride 1) := by
      simp only [inc, It]
      have e3 : ((base + j : Nat) : Int) + (stride : Int) * 0 + stride = ((base + j : Nat) : Int) + (stride : Int) * 1 := by ring
      rw [advance_in (by
        intro h; have := hb h; rw [e3]
        have h2 : stride * 1 ≤ stride * (m + 1) := Nat.mul_le_mul_left _ (by omega)
        have e := pos 1
        simp only [Nat.cast_one] at e; rw [e]; omega), bind_ok, e3]; rfl
    rw [hinc, bind_ok, show ((m + 1 : Nat) : Int) = 1 + (m : Int) by push_cast; ring, hfor, e1]

/-- **C120** (`reduce_min` and `reduce_max`, forward). -/
theorem reduce_ext_on_strides [Zero α] (better : α → α → Bool) (hirr : ∀ x, better x x = false) (axis : Nat) (t cache : Ten α) (index : Ten Nat)
    (ht : t.data.length = size t.shape) : reduceExt false better axis t cache index = Pool.reduceExt better axis t cache index := by
  unfold reduceExt Pool.reduceExt
  by_cases hs : t.shape ≠ []
  swap
  · rw [require_false hs]; rfl
  rw [require_true hs, bind_ok, bind_ok]
  dsimp only
  generalize hax' : min axis (t.shape.length - 1) = ax
  have hax : ax < t.shape.length := by
    have : 0 < t.shape.length := List.length_pos_of_ne_nil hs
    omega
  have hn : rd t.shape ax = ok t.shape[ax] := rd_ok (List.getElem?_eq_getElem hax)
  rw [hn, bind_ok, bind_ok]
  have hsz := size_axis (List.getElem?_eq_getElem hax)
  congr 1
  refine loop_congr _ (fun it o hi => loop_congr _ (fun j o hj => ?_))
  obtain ⟨c1, c2, c3⟩ := column_ok (b := false) (L := t.data.length) (scales := t.shape[ax]) (stride := size (t.shape.drop (ax + 1))) (it := it) (j := j) (by simp)
  rw [c1, bind_ok, c2, bind_ok, c3, bind_ok]
  have hst : 0 < size (t.shape.drop (ax + 1)) := by omega
  rcases Nat.eq_zero_or_pos t.shape[ax] with hz | hsc
  · have hd : t.data = [] := by
      rw [← List.length_eq_zero_iff, ht, hsz, hz]; simp
    unfold colBest
    rw [require_false (by omega), bind_ub, bind_ub]
    unfold bestElement
    rw [if_pos (((stride_distance_partial _ _ _ _ (by omega)).2.1).2 (by rw [hz]; rfl)), bind_ok]
    simp only [deref, It, hz]
    rw [show ((it * 0 * size (t.shape.drop (ax + 1)) + j : Nat) : Int) + (size (t.shape.drop (ax + 1)) : Int) * ((0 : Nat) : Int)
      = ((it * 0 * size (t.shape.drop (ax + 1)) + j : Nat) : Int) by simp, load_nat, hd, rd_ub (by simp)]; rfl
  · have hin : ∀ i, i < t.shape[ax] → it * t.shape[ax] * size (t.shape.drop (ax + 1)) + j + size (t.shape.drop (ax + 1)) * i < t.data.length := by
      intro i hi'; rw [ht, hsz]; exact column_lt hi hi' hj
    obtain ⟨k, k1, k2, k3⟩ := bestElement_ok (b := false) (better := better) hirr hst hsc hin (by simp)
    rw [k3, bind_ok, ← Nat.mul_assoc, k1, bind_ok]
    simp only [deref, colPos_eq]
    rw [show (It ((it * t.shape[ax] * size (t.shape.drop (ax + 1)) + j : Nat) : Int) (size (t.shape.drop (ax + 1))) (k : Int)).pos
      = ((it * t.shape[ax] * size (t.shape.drop (ax + 1)) + (k * size (t.shape.drop (ax + 1)) + j) : Nat) : Int) by
        simp only [It]; push_cast; ring, load_nat]
    rw [(stride_distance_partial _ _ _ _ (by omega)).1]
    simp

end Verif.Stride
