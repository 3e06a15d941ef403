import Verif.Stride.Reduce
/-!
# Pointers moved out of their block

The end iterator of a column is the element one row behind the last one.  For every column but the first of the last block it lies behind the end of the data.
-/
namespace Verif.Stride
open Verif Res View Data Pool

variable {α : Type}

/-- With the check of the block a computation is undefined or the same as without. -/
def Ref {σ : Type} (x y : Res σ) : Prop := x = ub ∨ x = y

theorem Ref.rfl' {σ : Type} (x : Res σ) : Ref x x := .inr rfl

theorem Ref.bind {σ τ : Type} {x y : Res σ} {f g : σ → Res τ} (h : Ref x y) (hf : ∀ a, Ref (f a) (g a)) : Ref (x >>= f) (y >>= g) := by
  rcases h with h | h
  · rw [h]; exact .inl rfl
  · rw [h]
    cases y with
    | ok a => exact hf a
    | abort => exact .inr rfl
    | ub => exact .inl rfl

theorem Ref.loop {σ : Type} {n : Nat} {f g : Nat → σ → Res σ} (s : σ) (h : ∀ i t, Ref (f i t) (g i t)) : Ref (loop n f s) (Verif.loop n g s) := by
  induction n with
  | zero => exact .rfl' _
  | succ n ih => rw [loop_succ, loop_succ]; exact ih.bind (fun t => h n t)

theorem ref_advance (n : Nat) (p d : Int) : Ref (advance true n p d) (advance false n p d) := by
  by_cases h : 0 ≤ p + d ∧ p + d ≤ n
  · exact .inr (by rw [advance_in (fun _ => h), advance_free])
  · exact .inl (advance_out (by omega))

theorem ref_add (n : Nat) (a : SIt) (k : Int) : Ref (add true n a k) (add false n a k) := (ref_advance n _ _).bind (fun _ => .rfl' _)

theorem ref_inc (n : Nat) (a : SIt) : Ref (inc true n a) (inc false n a) := (ref_advance n _ _).bind (fun _ => .rfl' _)

theorem ref_forRange {σ : Type} (n : Nat) (body : SIt → σ → Res σ) (fuel : Nat) (first last : SIt) (s : σ) :
    Ref (forRange true n body fuel first last s) (forRange false n body fuel first last s) := by
  induction fuel generalizing first s with
  | zero => exact .rfl' _
  | succ fuel ih =>
    rw [forRange, forRange]
    split
    · exact .rfl' _
    · exact (Ref.rfl' _).bind (fun t => (ref_inc n first).bind (fun a => ih a t))

theorem ref_bestElement (better : α → α → Bool) (d : List α) (fuel : Nat) (first last : SIt) :
    Ref (bestElement true better d fuel first last) (bestElement false better d fuel first last) := by
  unfold bestElement
  split
  · exact .rfl' _
  · exact (ref_inc _ _).bind (fun a => ref_forRange _ _ _ _ _ _)

theorem ref_reduceFour (op : α → α → α) (d : List α) (fuel : Nat) (first last : SIt) (init : α) :
    Ref (reduceFour true op d fuel first last init) (reduceFour false op d fuel first last init) := by
  induction fuel generalizing first init with
  | zero => exact .rfl' _
  | succ fuel ih =>
    rw [reduceFour, reduceFour]
    refine (Ref.rfl' _).bind (fun n => ?_)
    split
    · exact (Ref.rfl' _).bind (fun a => (Ref.rfl' _).bind (fun b => (Ref.rfl' _).bind (fun c => (Ref.rfl' _).bind (fun e =>
        (ref_add _ _ _).bind (fun f => ih f _)))))
    · exact .rfl' _

theorem ref_stdReduce (op : α → α → α) (d : List α) (fuel : Nat) (first last : SIt) (init : α) :
    Ref (stdReduce true op d fuel first last init) (stdReduce false op d fuel first last init) :=
  (ref_reduceFour op d fuel first last init).bind (fun _ => ref_forRange _ _ _ _ _ _)

theorem ref_slab (n col channel it : Nat) : Ref (slab true n col channel it) (slab false n col channel it) := ref_advance _ _ _

theorem ref_colBegin (n : Nat) (base : Int) (col c : Nat) : Ref (colBegin true n base col c) (colBegin false n base col c) :=
  (ref_advance _ _ _).bind (fun _ => .rfl' _)

theorem ref_colEnd (n : Nat) (base : Int) (row col c : Nat) : Ref (colEnd true n base row col c) (colEnd false n base row col c) :=
  (ref_colBegin _ _ _ _).bind (fun a => ref_add n a _)

/-- **C120** (what the check can change). If pointers may only point into their block, the four functions have the same result as without that rule, or none that is defined. -/
theorem strict_refines [Zero α] [Add α] (op : α → α → α) (better : α → α → Bool) (t grad cache : Ten α) (index : Ten Nat) (axis : Nat) (init : α) (keepdims : Bool) :
    Ref (reduce true op t axis init keepdims) (reduce false op t axis init keepdims) ∧
    Ref (reduceSum true axis t cache) (reduceSum false axis t cache) ∧
    Ref (reduceSumBack true axis t grad cache) (reduceSumBack false axis t grad cache) ∧
    Ref (reduceExt true better axis t cache index) (reduceExt false better axis t cache index) := by
  refine ⟨?_, ?_, ?_, ?_⟩
  · unfold reduce
    split
    · exact .rfl' _
    · exact (Ref.rfl' _).bind (fun _ => (Ref.rfl' _).bind (fun n => (Ref.loop _ (fun i o => Ref.loop _ (fun j o =>
        (ref_advance _ _ _).bind (fun s => (ref_add _ _ _).bind (fun l => (ref_stdReduce _ _ _ _ _ _).bind (fun _ => .rfl' _)))))).bind (fun _ => .rfl' _)))
  · unfold reduceSum
    exact (Ref.rfl' _).bind (fun _ => (Ref.rfl' _).bind (fun n => (Ref.loop _ (fun i o => Ref.loop _ (fun j o =>
      (ref_slab _ _ _ _).bind (fun b => (ref_colBegin _ _ _ _).bind (fun f => (ref_colEnd _ _ _ _ _).bind (fun l =>
        (ref_forRange _ _ _ _ _ _).bind (fun _ => .rfl' _))))))).bind (fun _ => .rfl' _)))
  · unfold reduceSumBack
    exact (Ref.rfl' _).bind (fun _ => (Ref.rfl' _).bind (fun n => (Ref.rfl' _).bind (fun z => (Ref.loop _ (fun i o => Ref.loop _ (fun j o =>
      (ref_slab _ _ _ _).bind (fun b => (ref_colBegin _ _ _ _).bind (fun f => (ref_colEnd _ _ _ _ _).bind (fun l =>
        (Ref.rfl' _).bind (fun g => ref_forRange _ _ _ _ _ _))))))).bind (fun _ => .rfl' _))))
  · unfold reduceExt
    exact (Ref.rfl' _).bind (fun _ => (Ref.rfl' _).bind (fun n => (Ref.loop _ (fun i o => Ref.loop _ (fun j o =>
      (ref_slab _ _ _ _).bind (fun b => (ref_colBegin _ _ _ _).bind (fun f => (ref_colEnd _ _ _ _ _).bind (fun l =>
        (ref_bestElement _ _ _ _ _).bind (fun _ => .rfl' _))))))).bind (fun _ => .rfl' _)))

/-! ### where it is undefined -/

theorem Ref.ne_abort {σ : Type} {x y : Res σ} (h : Ref x y) (hy : y ≠ abort) : x ≠ abort := by
  rcases h with h | h
  · rw [h]; simp
  · rw [h]; exact hy

theorem bind_ne_abort {σ τ : Type} {x : Res σ} {f : σ → Res τ} (h : x ≠ abort) (hf : ∀ a, f a ≠ abort) : (x >>= f) ≠ abort := by
  cases x with
  | ok a => exact hf a
  | abort => exact absurd rfl h
  | ub => simp

theorem loop_ne_abort {σ : Type} {n : Nat} {body : Nat → σ → Res σ} (I : σ → Prop) {s : σ} (h0 : I s)
    (hI : ∀ i t t', i < n → I t → body i t = ok t' → I t') (hna : ∀ i t, i < n → I t → body i t ≠ abort) : loop n body s ≠ abort := by
  have : loop n body s ≠ abort ∧ ∀ t, loop n body s = ok t → I t := by
    induction n with
    | zero => exact ⟨by simp, fun t e => by rw [loop_zero] at e; injection e with e; exact e ▸ h0⟩
    | succ n ih =>
      obtain ⟨h1, h2⟩ := ih (fun i t t' hi => hI i t t' (by omega)) (fun i t hi => hna i t (by omega))
      rw [loop_succ]
      cases hc : loop n body s with
      | ok t => exact ⟨hna n t (by omega) (h2 t hc), fun t' e => hI n t t' (by omega) (h2 t hc) e⟩
      | abort => exact absurd hc h1
      | ub => exact ⟨by simp, fun t' e => by simp at e⟩
  exact this.1

/-- The loop nest of all four functions: if the rounds of the second column of the last block are undefined and no round stops in an assertion, so is the whole. -/
theorem nest_ub {σ : Type} {m n : Nat} {body : Nat → Nat → σ → Res σ} (I : σ → Prop) {s : σ} (h0 : I s)
    (hI : ∀ i j t t', i < m → j < n → I t → body i j t = ok t' → I t') (hna : ∀ i j t, i < m → j < n → I t → body i j t ≠ abort)
    (hm : 0 < m) (hn : 1 < n) (hub : ∀ t, I t → body (m - 1) 1 t = ub) : loop m (fun i => loop n (body i)) s = ub := by
  have inner : ∀ i t t', i < m → I t → loop n (body i) t = ok t' → I t' := by
    intro i t t' hi ht h
    exact (loop_congr_inv (f := body i) (g := body i) I ht (fun j u u' hj => hI i j u u' hi hj) (fun _ _ _ _ => rfl)).2 t' h
  refine loop_ub (k := m - 1) I h0 inner (fun i t hi ht => loop_ne_abort I ht (fun j u u' hj => hI i j u u' hi hj) (fun j u hj => hna i j u hi hj)) (by omega) ?_
  intro t ht
  exact loop_ub (k := 1) I ht (fun j u u' hj => hI _ j u u' (by omega) hj) (fun j u hj => hna _ j u (by omega) hj) hn hub

theorem advance_ne_abort (b : Bool) (n : Nat) (p d : Int) : advance b n p d ≠ abort := by
  unfold advance; unfold require; split <;> simp

theorem rd_ne_abort (d : List α) (i : Nat) : rd d i ≠ abort := by unfold rd; split <;> simp

theorem wr_ne_abort (d : List α) (i : Nat) (v : α) : wr d i v ≠ abort := by unfold wr; split <;> simp

theorem load_ne_abort (d : List α) (p : Int) : load d p ≠ abort := by unfold load; split <;> simp [rd_ne_abort]

theorem inc_ne_abort (b : Bool) (n : Nat) (a : SIt) : inc b n a ≠ abort := bind_ne_abort (advance_ne_abort _ _ _ _) (fun _ => by simp)

theorem add_ne_abort (b : Bool) (n : Nat) (a : SIt) (k : Int) : add b n a k ≠ abort := bind_ne_abort (advance_ne_abort _ _ _ _) (fun _ => by simp)

theorem forRange_ne_abort {σ : Type} (b : Bool) (n : Nat) (body : SIt → σ → Res σ) (hb : ∀ a s, body a s ≠ abort) (fuel : Nat) (first last : SIt) (s : σ) :
    forRange b n body fuel first last s ≠ abort := by
  induction fuel generalizing first s with
  | zero => rw [forRange]; simp
  | succ fuel ih =>
    rw [forRange]
    split
    · simp
    · exact bind_ne_abort (hb _ _) (fun _ => bind_ne_abort (inc_ne_abort _ _ _) (fun _ => ih _ _))

theorem colBegin_ne_abort (b : Bool) (n : Nat) (base : Int) (col c : Nat) : colBegin b n base col c ≠ abort :=
  bind_ne_abort (advance_ne_abort _ _ _ _) (fun _ => by simp)

theorem colEnd_ne_abort (b : Bool) (n : Nat) (base : Int) (row col c : Nat) : colEnd b n base row col c ≠ abort :=
  bind_ne_abort (colBegin_ne_abort _ _ _ _ _) (fun _ => add_ne_abort _ _ _ _)

/-- A computation that needs the end of a column behind the block. -/
theorem column_bind_ub {σ : Type} {L scales stride it j : Nat} (hb : L < it * scales * stride + j + stride * scales) (f : SIt → SIt → Res σ) :
    (do let base ← slab true L scales stride it
        let first ← colBegin true L base stride j
        let last ← colEnd true L base scales stride j
        f first last) = ub := by
  have := congrArg (fun r => r >>= fun (q : SIt × SIt) => f q.1 q.2) (column_ub hb)
  simp only [Res.bind_assoc, bind_ok, pure_eq, bind_ub] at this
  exact this

theorem last_column {m scales stride : Nat} (hm : 0 < m) : m * (scales * stride) < (m - 1) * scales * stride + 1 + stride * scales := by
  obtain ⟨k, rfl⟩ : ∃ k, m = k + 1 := ⟨m - 1, by omega⟩
  rw [Nat.add_sub_cancel, Nat.add_mul, Nat.one_mul, Nat.mul_assoc, Nat.mul_comm stride scales]; omega

/-- **C120** (violated). If pointers may only point into their block or to its end, as C++ demands, `reduce` (and with it `sum`, `mean`, `max`, `min` along an axis)
is undefined for every non-empty tensor and every axis that is followed by more than one element: the end iterator of the second column of the last block is
behind the end of the data. -/
theorem reduce_end_violated [Zero α] (op : α → α → α) (t : Ten α) (ht : t.data.length = size t.shape) (axis : Nat) (init : α) (keepdims : Bool)
    (hne : t.data ≠ []) (hax : (if axis = minusOne then t.shape.length - 1 else axis) < t.shape.length)
    (hpost : 1 < size (t.shape.drop ((if axis = minusOne then t.shape.length - 1 else axis) + 1))) :
    reduce true op t axis init keepdims = ub := by
  unfold reduce
  rw [if_neg hne]
  dsimp only
  generalize (if axis = minusOne then t.shape.length - 1 else axis) = ax at hax hpost ⊢
  rw [assert_true hax, bind_ok]
  have hn : rd t.shape ax = ok t.shape[ax] := rd_ok (List.getElem?_eq_getElem hax)
  rw [hn, bind_ok]
  have hsz := size_axis (List.getElem?_eq_getElem hax)
  have hl : 0 < t.data.length := List.length_pos_of_ne_nil hne
  have hm : 0 < size (t.shape.take ax) := by
    rcases Nat.eq_zero_or_pos (size (t.shape.take ax)) with h | h
    · rw [ht, hsz, h, Nat.zero_mul] at hl; omega
    · exact h
  rw [nest_ub (m := size (t.shape.take ax)) (n := size (t.shape.drop (ax + 1))) (fun _ => True) trivial (fun _ _ _ _ _ _ _ _ => trivial) ?_ hm hpost ?_]
  · rfl
  · intro idx jdx o hi hj _
    have hin : ∀ i, i < t.shape[ax] → idx * size (t.shape.drop (ax + 1)) * t.shape[ax] + jdx + size (t.shape.drop (ax + 1)) * i < t.data.length := by
      intro i hi'
      rw [ht, hsz]
      have := column_lt hi hi' hj
      rw [Nat.mul_right_comm]; exact this
    have hc := reduce_cell (b := false) (op := op) (init := init) (by omega) hin (by simp)
    refine Ref.ne_abort (y := do
      let start ← advance false t.data.length 0 ((idx * size (t.shape.drop (ax + 1)) * t.shape[ax] + jdx : Nat) : Int)
      let last ← add false t.data.length ⟨start, size (t.shape.drop (ax + 1))⟩ t.shape[ax]
      let v ← stdReduce false op t.data (t.data.length + 1) ⟨start, size (t.shape.drop (ax + 1))⟩ last init
      wr o (idx * size (t.shape.drop (ax + 1)) + jdx) v) ?_ ?_
    · exact (ref_advance _ _ _).bind (fun s => (ref_add _ _ _).bind (fun l => (ref_stdReduce _ _ _ _ _ _).bind (fun _ => .rfl' _)))
    · have := congrArg (fun r => r >>= fun v => wr o (idx * size (t.shape.drop (ax + 1)) + jdx) v) hc
      simp only [Res.bind_assoc, bind_ok] at this
      rw [this]; exact wr_ne_abort _ _ _
  · intro o _
    have hlast := last_column (scales := t.shape[ax]) (stride := size (t.shape.drop (ax + 1))) hm
    by_cases h1 : (size (t.shape.take ax) - 1) * size (t.shape.drop (ax + 1)) * t.shape[ax] + 1 ≤ t.data.length
    · rw [advance_in (by intro _; omega), bind_ok, Int.zero_add]
      simp only [add]
      rw [advance_out]
      · rfl
      · right
        have e : (((size (t.shape.take ax) - 1) * size (t.shape.drop (ax + 1)) * t.shape[ax] + 1 : Nat) : Int)
            + (size (t.shape.drop (ax + 1)) : Int) * (t.shape[ax] : Int)
            = (((size (t.shape.take ax) - 1) * t.shape[ax] * size (t.shape.drop (ax + 1)) + 1 + size (t.shape.drop (ax + 1)) * t.shape[ax] : Nat) : Int) := by
          push_cast; ring
        rw [e, ht, hsz]; omega
    · rw [advance_out (by right; omega)]; rfl

/-- **C120** (violated). The same for `reduce_sum`, forward and backward, and for `reduce_min` and `reduce_max`; an axis that is not a number of the shape means
the last one. -/
theorem reduce_ops_end_violated [Zero α] [Add α] (better : α → α → Bool) (hirr : ∀ x, better x x = false) (axis : Nat) (t grad cache : Ten α) (index : Ten Nat)
    (ht : t.data.length = size t.shape) (hs : t.shape ≠ []) (hpre : 0 < size (t.shape.take (min axis (t.shape.length - 1))))
    (hpost : 1 < size (t.shape.drop (min axis (t.shape.length - 1) + 1))) :
    reduceSum true axis t cache = ub ∧ reduceSumBack true axis t grad cache = ub ∧ reduceExt true better axis t cache index = ub := by
  unfold reduceSum reduceSumBack reduceExt
  rw [require_true hs, bind_ok, bind_ok, bind_ok]
  dsimp only
  generalize hax' : min axis (t.shape.length - 1) = ax at hpre hpost ⊢
  have hax : ax < t.shape.length := by
    have : 0 < t.shape.length := List.length_pos_of_ne_nil hs
    omega
  have hn : rd t.shape ax = ok t.shape[ax] := rd_ok (List.getElem?_eq_getElem hax)
  rw [hn, bind_ok, bind_ok, bind_ok]
  have hsz := size_axis (List.getElem?_eq_getElem hax)
  have hlast := last_column (scales := t.shape[ax]) (stride := size (t.shape.drop (ax + 1))) hpre
  refine ⟨?_, ?_, ?_⟩
  · rw [nest_ub (m := size (t.shape.take ax)) (n := size (t.shape.drop (ax + 1))) (fun _ => True) trivial (fun _ _ _ _ _ _ _ _ => trivial) ?_ hpre hpost ?_]
    · rfl
    · intro it j o _ _ _
      exact bind_ne_abort (advance_ne_abort _ _ _ _) (fun _ => bind_ne_abort (colBegin_ne_abort _ _ _ _ _) (fun _ => bind_ne_abort (colEnd_ne_abort _ _ _ _ _ _)
        (fun _ => bind_ne_abort (forRange_ne_abort _ _ _ (fun _ _ => bind_ne_abort (load_ne_abort _ _) (fun _ => by simp)) _ _ _ _) (fun _ => wr_ne_abort _ _ _))))
    · intro o _
      exact column_bind_ub (by rw [ht, hsz]; exact hlast) _
  · cases hz : Gemm.fillN (resizeV cache t.shape).data.length 0 (resizeV cache t.shape).data with
    | abort =>
      exact absurd hz (loop_ne_abort (fun _ => True) trivial (fun _ _ _ _ _ _ => trivial) (fun _ _ _ _ => wr_ne_abort _ _ _))
    | ub => rfl
    | ok z =>
      rw [bind_ok]
      have hzl : z.length = size t.shape := by
        have h1 : z.length = (resizeV cache t.shape).data.length := loop_length (fun i o o' h => wr_length h) hz
        rw [h1, resizeV_length]
      have fl : ∀ (g : α) (fuel : Nat) (n : Nat) (first last : SIt) (o o' : List α),
          forRange true n (fun it d => store d it.pos g) fuel first last o = ok o' → o'.length = o.length := by
        intro g fuel n
        induction fuel with
        | zero => intro _ _ _ _ h; rw [forRange] at h; cases h
        | succ fuel ih =>
          intro first last o o' h
          rw [forRange] at h
          split at h
          · injection h with h; rw [h]
          · obtain ⟨o1, h1, h⟩ := bind_eq_ok.1 h
            obtain ⟨_, _, h⟩ := bind_eq_ok.1 h
            rw [ih _ _ _ _ h]
            unfold store at h1; split at h1
            · exact wr_length h1
            · cases h1
      rw [nest_ub (m := size (t.shape.take ax)) (n := size (t.shape.drop (ax + 1))) (fun o => o.length = size t.shape) hzl ?_ ?_ hpre hpost ?_]
      · rfl
      · intro it j o o' _ _ ho h
        obtain ⟨_, _, h⟩ := bind_eq_ok.1 h
        obtain ⟨_, _, h⟩ := bind_eq_ok.1 h
        obtain ⟨_, _, h⟩ := bind_eq_ok.1 h
        obtain ⟨_, _, h⟩ := bind_eq_ok.1 h
        rw [← ho]; exact fl _ _ _ _ _ _ _ h
      · intro it j o _ _ _
        exact bind_ne_abort (advance_ne_abort _ _ _ _) (fun _ => bind_ne_abort (colBegin_ne_abort _ _ _ _ _) (fun _ => bind_ne_abort (colEnd_ne_abort _ _ _ _ _ _)
          (fun _ => bind_ne_abort (rd_ne_abort _ _) (fun _ => forRange_ne_abort _ _ _ (fun _ _ => by unfold store; split <;> simp [wr_ne_abort]) _ _ _ _))))
      · intro o ho
        exact column_bind_ub (by rw [ho, hsz]; exact hlast) _
  · rw [nest_ub (m := size (t.shape.take ax)) (n := size (t.shape.drop (ax + 1))) (fun _ => True) trivial (fun _ _ _ _ _ _ _ _ => trivial) ?_ hpre hpost ?_]
    · rfl
    · intro it j o hi hj _
      by_cases hb : t.data.length < it * t.shape[ax] * size (t.shape.drop (ax + 1)) + j + size (t.shape.drop (ax + 1)) * t.shape[ax]
      · rw [column_bind_ub hb]; simp
      obtain ⟨c1, c2, c3⟩ := column_ok (b := true) (L := t.data.length) (scales := t.shape[ax]) (stride := size (t.shape.drop (ax + 1))) (it := it) (j := j) (by intro _; omega)
      rw [c1, bind_ok, c2, bind_ok, c3, bind_ok]
      rcases Nat.eq_zero_or_pos t.shape[ax] with hz | hsc
      · have hd : t.data = [] := by rw [← List.length_eq_zero_iff, ht, hsz, hz]; simp
        unfold bestElement
        rw [if_pos (((stride_distance_partial _ _ _ _ (by omega)).2.1).2 (by rw [hz]; rfl)), bind_ok]
        refine bind_ne_abort (load_ne_abort _ _) (fun _ => bind_ne_abort (wr_ne_abort _ _ _) (fun _ => ?_))
        rw [(stride_distance_partial _ _ _ _ (by omega)).1, bind_ok]
        exact bind_ne_abort (wr_ne_abort _ _ _) (fun _ => by simp)
      · have hin : ∀ i, i < t.shape[ax] → it * t.shape[ax] * size (t.shape.drop (ax + 1)) + j + size (t.shape.drop (ax + 1)) * i < t.data.length := by
          intro i hi'; rw [ht, hsz]; exact column_lt hi hi' hj
        obtain ⟨k, k1, k2, k3⟩ := bestElement_ok (b := true) (better := better) hirr (by omega) hsc hin (by intro _; omega)
        rw [k3, bind_ok]
        refine bind_ne_abort (load_ne_abort _ _) (fun _ => bind_ne_abort (wr_ne_abort _ _ _) (fun _ => ?_))
        rw [(stride_distance_partial _ _ _ _ (by omega)).1, bind_ok]
        exact bind_ne_abort (wr_ne_abort _ _ _) (fun _ => by simp)
    · intro o _
      exact column_bind_ub (by rw [ht, hsz]; exact hlast) _

/-! ### where it is not -/

/-- **C120** (partial). Along an axis that is followed by one element only (the last axis, or axes of extent one after it) every pointer stays in its block: the four
functions are defined and the same with and without the rule. -/
theorem last_axis_in_block_partial [Zero α] [Add α] (op : α → α → α) (better : α → α → Bool) (hirr : ∀ x, better x x = false) (axis : Nat) (t grad cache : Ten α)
    (index : Ten Nat) (init : α) (keepdims : Bool) (ht : t.data.length = size t.shape) :
    (size (t.shape.drop ((if axis = minusOne then t.shape.length - 1 else axis) + 1)) = 1 →
      reduce true op t axis init keepdims = reduce false op t axis init keepdims) ∧
    (size (t.shape.drop (min axis (t.shape.length - 1) + 1)) = 1 →
      reduceSum true axis t cache = reduceSum false axis t cache ∧
      reduceSumBack true axis t grad cache = reduceSumBack false axis t grad cache ∧
      reduceExt true better axis t cache index = reduceExt false better axis t cache index) := by
  have block : ∀ {it m n : Nat}, it < m → it * n * 1 + 0 + 1 * n ≤ m * (n * 1) := by
    intro it m n h
    have := block_le (B := n) h
    simp only [Nat.mul_one, Nat.one_mul, Nat.add_zero]; exact this
  constructor
  · intro hpost
    unfold reduce
    split
    · rfl
    dsimp only
    generalize (if axis = minusOne then t.shape.length - 1 else axis) = ax at hpost ⊢
    by_cases hax : ax < t.shape.length
    swap
    · rw [assert_false hax]; rfl
    rw [assert_true hax, bind_ok, bind_ok]
    have hn : rd t.shape ax = ok t.shape[ax] := rd_ok (List.getElem?_eq_getElem hax)
    rw [hn, bind_ok, bind_ok]
    have hsz := size_axis (List.getElem?_eq_getElem hax)
    congr 1
    refine loop_congr _ (fun idx o hi => loop_congr _ (fun jdx o hj => ?_))
    have hin : ∀ i, i < t.shape[ax] → idx * size (t.shape.drop (ax + 1)) * t.shape[ax] + jdx + size (t.shape.drop (ax + 1)) * i < t.data.length := by
      intro i hi'
      rw [ht, hsz]
      have := column_lt hi hi' hj
      rw [Nat.mul_right_comm]; exact this
    have hbl : idx * size (t.shape.drop (ax + 1)) * t.shape[ax] + jdx + size (t.shape.drop (ax + 1)) * t.shape[ax] ≤ t.data.length := by
      have hj0 : jdx = 0 := by omega
      rw [ht, hsz, hpost, hj0]; have := block (n := t.shape[ax]) hi
      rw [Nat.mul_right_comm]; exact this
    have h1 := reduce_cell (b := true) (op := op) (init := init) (by omega) hin (fun _ => hbl)
    have h2 := reduce_cell (b := false) (op := op) (init := init) (by omega) hin (by simp)
    have := congrArg (fun r => r >>= fun v => wr o (idx * size (t.shape.drop (ax + 1)) + jdx) v) (h1.trans h2.symm)
    simp only [Res.bind_assoc] at this
    exact this
  · intro hpost
    by_cases hs : t.shape ≠ []
    swap
    · unfold reduceSum reduceSumBack reduceExt
      rw [require_false hs]; exact ⟨rfl, rfl, rfl⟩
    unfold reduceSum reduceSumBack reduceExt
    rw [require_true hs, bind_ok, bind_ok, bind_ok, bind_ok, bind_ok, bind_ok]
    dsimp only
    generalize hax' : min axis (t.shape.length - 1) = ax at hpost ⊢
    have hax : ax < t.shape.length := by
      have : 0 < t.shape.length := List.length_pos_of_ne_nil hs
      omega
    have hn : rd t.shape ax = ok t.shape[ax] := rd_ok (List.getElem?_eq_getElem hax)
    rw [hn, bind_ok, bind_ok, bind_ok, bind_ok, bind_ok, bind_ok]
    have hsz := size_axis (List.getElem?_eq_getElem hax)
    have hfit : ∀ it j, it < size (t.shape.take ax) → j < size (t.shape.drop (ax + 1)) →
        it * t.shape[ax] * size (t.shape.drop (ax + 1)) + j + size (t.shape.drop (ax + 1)) * t.shape[ax] ≤ size t.shape := by
      intro it j hi hj
      have hj0 : j = 0 := by omega
      rw [hsz, hpost, hj0]; exact block hi
    have hrange : ∀ it j, it < size (t.shape.take ax) → j < size (t.shape.drop (ax + 1)) → ∀ i : Nat, i ≤ t.shape[ax] →
        0 ≤ ((it * t.shape[ax] * size (t.shape.drop (ax + 1)) + j : Nat) : Int) + (size (t.shape.drop (ax + 1)) : Int) * (0 + (i : Int)) ∧
        ((it * t.shape[ax] * size (t.shape.drop (ax + 1)) + j : Nat) : Int) + (size (t.shape.drop (ax + 1)) : Int) * (0 + (i : Int)) ≤ (size t.shape : Nat) := by
      intro it j hi hj i hle
      have h1 := hfit it j hi hj
      have h2 : size (t.shape.drop (ax + 1)) * i ≤ size (t.shape.drop (ax + 1)) * t.shape[ax] := Nat.mul_le_mul_left _ hle
      have e : ((it * t.shape[ax] * size (t.shape.drop (ax + 1)) + j : Nat) : Int) + (size (t.shape.drop (ax + 1)) : Int) * (0 + (i : Int))
          = ((it * t.shape[ax] * size (t.shape.drop (ax + 1)) + j + size (t.shape.drop (ax + 1)) * i : Nat) : Int) := by push_cast; ring
      rw [e]; omega
    have both : ∀ {σ : Type} (body : SIt → σ → Res σ) (L : Nat) (hL : L = size t.shape) (it j : Nat) (s : σ), it < size (t.shape.take ax) →
        j < size (t.shape.drop (ax + 1)) →
        forRange true L body (L + 1) (It ((it * t.shape[ax] * size (t.shape.drop (ax + 1)) + j : Nat) : Int) (size (t.shape.drop (ax + 1))) 0)
          (It ((it * t.shape[ax] * size (t.shape.drop (ax + 1)) + j : Nat) : Int) (size (t.shape.drop (ax + 1))) t.shape[ax]) s =
        forRange false L body (L + 1) (It ((it * t.shape[ax] * size (t.shape.drop (ax + 1)) + j : Nat) : Int) (size (t.shape.drop (ax + 1))) 0)
          (It ((it * t.shape[ax] * size (t.shape.drop (ax + 1)) + j : Nat) : Int) (size (t.shape.drop (ax + 1))) t.shape[ax]) s := by
      intro σ body L hL it j s hi hj
      have h1 := forRange_eq true L body ((it * t.shape[ax] * size (t.shape.drop (ax + 1)) + j : Nat) : Int) (size (t.shape.drop (ax + 1))) (by omega)
        t.shape[ax] (L + 1) 0 s (by rw [hL, hsz]; exact scales_bound hi (by omega)) (fun _ => by rw [hL]; exact hrange it j hi hj)
      have h2 := forRange_eq false L body ((it * t.shape[ax] * size (t.shape.drop (ax + 1)) + j : Nat) : Int) (size (t.shape.drop (ax + 1))) (by omega)
        t.shape[ax] (L + 1) 0 s (by rw [hL, hsz]; exact scales_bound hi (by omega)) (by simp)
      rw [Int.zero_add] at h1 h2
      rw [h1, h2]
    refine ⟨?_, ?_, ?_⟩
    · congr 1
      refine loop_congr _ (fun it o hi => loop_congr _ (fun j o hj => ?_))
      obtain ⟨c1, c2, c3⟩ := column_ok (b := true) (L := t.data.length) (scales := t.shape[ax]) (stride := size (t.shape.drop (ax + 1))) (it := it) (j := j)
        (fun _ => by rw [ht]; exact hfit it j hi hj)
      obtain ⟨d1, d2, d3⟩ := column_ok (b := false) (L := t.data.length) (scales := t.shape[ax]) (stride := size (t.shape.drop (ax + 1))) (it := it) (j := j) (by simp)
      rw [c1, d1, bind_ok, bind_ok, c2, d2, bind_ok, bind_ok, c3, d3, bind_ok, bind_ok]
      congr 1
      exact both _ _ ht it j 0 hi hj
    · cases hz : Gemm.fillN (resizeV cache t.shape).data.length 0 (resizeV cache t.shape).data with
      | abort => rfl
      | ub => rfl
      | ok z =>
        rw [bind_ok, bind_ok]
        have hzl : z.length = size t.shape := by
          have h1 : z.length = (resizeV cache t.shape).data.length := loop_length (fun i o o' h => wr_length h) hz
          rw [h1, resizeV_length]
        congr 1
        have fl : ∀ (g : α) (fuel : Nat) (n : Nat) (first last : SIt) (o o' : List α),
            forRange false n (fun it d => store d it.pos g) fuel first last o = ok o' → o'.length = o.length := by
          intro g fuel n
          induction fuel with
          | zero => intro _ _ _ _ h; rw [forRange] at h; cases h
          | succ fuel ih =>
            intro first last o o' h
            rw [forRange] at h
            split at h
            · injection h with h; rw [h]
            · obtain ⟨o1, h1, h⟩ := bind_eq_ok.1 h
              obtain ⟨_, _, h⟩ := bind_eq_ok.1 h
              rw [ih _ _ _ _ h]
              unfold store at h1; split at h1
              · exact wr_length h1
              · cases h1
        have step : ∀ it j (o o' : List α), (do
            let base ← slab false o.length t.shape[ax] (size (t.shape.drop (ax + 1))) it
            let first ← colBegin false o.length base (size (t.shape.drop (ax + 1))) j
            let last ← colEnd false o.length base t.shape[ax] (size (t.shape.drop (ax + 1))) j
            let g ← rd grad.data (at2 (size (t.shape.take ax)) (size (t.shape.drop (ax + 1))) false it j)
            fill false g (o.length + 1) first last o) = ok o' → o'.length = o.length := by
          intro it j o o' h
          obtain ⟨_, _, h⟩ := bind_eq_ok.1 h
          obtain ⟨_, _, h⟩ := bind_eq_ok.1 h
          obtain ⟨_, _, h⟩ := bind_eq_ok.1 h
          obtain ⟨_, _, h⟩ := bind_eq_ok.1 h
          exact fl _ _ _ _ _ _ _ h
        refine (loop_congr_inv (fun o => o.length = size t.shape) hzl (fun it o o' _ ho h => ?_) (fun it o hi ho => ?_)).1
        · rw [← ho]; exact loop_length (fun j o o' h => step it j o o' h) h
        refine (loop_congr_inv (fun o => o.length = size t.shape) ho (fun j o o' _ ho h => ?_) (fun j o hj ho => ?_)).1
        · rw [← ho]; exact step it j o o' h
        obtain ⟨c1, c2, c3⟩ := column_ok (b := true) (L := o.length) (scales := t.shape[ax]) (stride := size (t.shape.drop (ax + 1))) (it := it) (j := j)
          (fun _ => by rw [ho]; exact hfit it j hi hj)
        obtain ⟨d1, d2, d3⟩ := column_ok (b := false) (L := o.length) (scales := t.shape[ax]) (stride := size (t.shape.drop (ax + 1))) (it := it) (j := j) (by simp)
        rw [c1, d1, bind_ok, bind_ok, c2, d2, bind_ok, bind_ok, c3, d3, bind_ok, bind_ok]
        congr 1; funext g
        exact both _ _ ho it j o hi hj
    · congr 1
      refine loop_congr _ (fun it o hi => loop_congr _ (fun j o hj => ?_))
      obtain ⟨c1, c2, c3⟩ := column_ok (b := true) (L := t.data.length) (scales := t.shape[ax]) (stride := size (t.shape.drop (ax + 1))) (it := it) (j := j)
        (fun _ => by rw [ht]; exact hfit it j hi hj)
      obtain ⟨d1, d2, d3⟩ := column_ok (b := false) (L := t.data.length) (scales := t.shape[ax]) (stride := size (t.shape.drop (ax + 1))) (it := it) (j := j) (by simp)
      rw [c1, d1, bind_ok, bind_ok, c2, d2, bind_ok, bind_ok, c3, d3, bind_ok, bind_ok]
      congr 1
      rcases Nat.eq_zero_or_pos t.shape[ax] with hz | hsc
      · unfold bestElement
        rw [if_pos (((stride_distance_partial _ _ _ _ (by omega)).2.1).2 (by rw [hz]; rfl)), if_pos (((stride_distance_partial _ _ _ _ (by omega)).2.1).2 (by rw [hz]; rfl))]
      · have hin : ∀ i, i < t.shape[ax] → it * t.shape[ax] * size (t.shape.drop (ax + 1)) + j + size (t.shape.drop (ax + 1)) * i < t.data.length := by
          intro i hi'; rw [ht, hsz]; exact column_lt hi hi' hj
        obtain ⟨k, k1, k2, k3⟩ := bestElement_ok (b := true) (better := better) hirr (by omega) hsc hin (fun _ => by rw [ht]; exact hfit it j hi hj)
        obtain ⟨k', k1', k2', k3'⟩ := bestElement_ok (b := false) (better := better) hirr (by omega) hsc hin (by simp)
        rw [k3, k3']
        rw [k1] at k1'; injection k1' with k1'; rw [k1']

/-- A matrix of three rows and two columns, summed over the rows. -/
def sample : Ten Int := ⟨[3, 2], [1, 2, 3, 4, 5, 6]⟩

example : reduce false (· + ·) sample 0 0 false = ok ⟨[2], [9, 12]⟩ ∧ reduce true (· + ·) sample 0 0 false = ub ∧
    reduce true (· + ·) sample 1 0 false = ok ⟨[3], [3, 7, 11]⟩ := by refine ⟨?_, ?_, ?_⟩ <;> decide

example : reduceSum false 0 sample ⟨[], []⟩ = ok ⟨[2], [9, 12]⟩ ∧ reduceSum true 0 sample ⟨[], []⟩ = ub ∧
    reduceSumBack false 0 sample ⟨[2], [7, 8]⟩ ⟨[], []⟩ = ok ⟨[3, 2], [7, 8, 7, 8, 7, 8]⟩ ∧
    reduceExt false (fun x y => decide (y < x)) 0 sample ⟨[], []⟩ ⟨[], []⟩ = ok (⟨[2], [5, 6]⟩, ⟨[2], [2, 2]⟩) ∧
    reduceExt true (fun x y => decide (y < x)) 0 sample ⟨[], []⟩ ⟨[], []⟩ = ub := by
  refine ⟨?_, ?_, ?_, ?_, ?_⟩ <;> decide

end Verif.Stride
