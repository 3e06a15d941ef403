import Verif.Nan.Model
import Verif.Ops.ScalarProps
import Verif.Softmax.Props
import Verif.Pool.Reduce
import Verif.Pool.Max
import Verif.Fp.Props
/-!
# C119: not-a-number stays visible

A NaN among the numbers a result is computed from should make the result NaN (or stop the program), so that `has_nan` finds it.  Sums,
products, softmax and most activations do so; `relu6`, `inverse`, `clip`, `max`, `min`, `reduce_max`, `reduce_min`, `max_pooling_2d`, `maximum`,
`minimum`, `equal` and the cross entropy loss return ordinary numbers.
-/
namespace Verif.Nan
open Verif Res Data Tensor Fp

variable {F : Type} [Floats F]

/-- A function that is NaN at NaN. -/
def Strict (φ : F → F) : Prop := ∀ x, isNan x = true → isNan (φ x) = true

theorem not_lt_left {a b : F} (h : isNan a = true) : ¬ a < b := fun h' => by rw [(Floats.lt_num a b h').1] at h; contradiction

theorem not_lt_right {a b : F} (h : isNan b = true) : ¬ a < b := fun h' => by rw [(Floats.lt_num a b h').2] at h; contradiction

theorem max_num {a b : F} (h : isNan a = false) : isNan (if a < b then b else a) = false := by
  split
  · next h' => exact (Floats.lt_num _ _ h').2
  · exact h

/-! ### has_nan -/

theorem findIf_lt {α : Type} (p : α → Bool) (l : List α) : findIf p l ≤ l.length ∧ (findIf p l < l.length ↔ ∃ x ∈ l, p x = true) := by
  induction l with
  | nil => simp [findIf]
  | cons x l ih =>
    unfold findIf
    by_cases h : p x = true
    · rw [if_pos h]; simp [h]
    · rw [if_neg h, List.length_cons]
      refine ⟨by omega, ?_⟩
      rw [Nat.add_lt_add_iff_right, ih.2]
      simp [h]

theorem findIf_ne {α : Type} (p : α → Bool) (l : List α) : (l.length != findIf p l) = true ↔ ∃ x ∈ l, p x = true := by
  have h := findIf_lt p l
  rw [← h.2, bne_iff_ne]
  omega

/-- C119: `has_nan` holds exactly when some element is NaN, `has_inf` when some element is infinite, `is_valid` when there is neither. -/
theorem has_nan_iff (t : Ten F) : (hasNan t = true ↔ ∃ x ∈ t.data, isNan x = true) ∧ (hasInf t = true ↔ ∃ x ∈ t.data, isInf x = true) ∧
    (isValid t = true ↔ ∀ x ∈ t.data, isNan x = false ∧ isInf x = false) := by
  have h1 := findIf_ne isNan t.data
  have h2 := findIf_ne isInf t.data
  refine ⟨h1, h2, ?_⟩
  have e1 : hasNan t = false ↔ ∀ x ∈ t.data, isNan x = false := by
    rw [← Bool.not_eq_true, show hasNan t = true ↔ _ from h1]; simp
  have e2 : hasInf t = false ↔ ∀ x ∈ t.data, isInf x = false := by
    rw [← Bool.not_eq_true, show hasInf t = true ↔ _ from h2]; simp
  unfold isValid
  rw [Bool.and_eq_true, Bool.not_eq_true', Bool.not_eq_true', e1, e2]
  exact ⟨fun h x hx => ⟨h.1 x hx, h.2 x hx⟩, fun h => ⟨fun x hx => (h x hx).1, fun x hx => (h x hx).2⟩⟩

example : hasNan (⟨[3], [0, .nan, 0]⟩ : Ten (Num float32)) = true ∧ hasNan (⟨[2], [0, .inf true]⟩ : Ten (Num float32)) = false ∧
    hasInf (⟨[2], [0, .inf true]⟩ : Ten (Num float32)) = true ∧ isValid (⟨[2], [0, 0]⟩ : Ten (Num float32)) = true := by
  refine ⟨?_, ?_, ?_, ?_⟩ <;> rfl

/-! ### Element by element -/

/-- The operators that keep NaN. -/
def Keeps : Op F → Prop
  | .relu6 | .inverse => False
  | _ => True

/-- C119, the operators for which it holds: an element that is NaN becomes NaN, whatever the cache held.  Missing: `relu6` and `inverse`. -/
theorem unary_keeps_nan_partial (exp log abs : F → F) (eps meps : F) (hexp : Strict exp) (hlog : Strict log) (op : Op F) (hop : Keeps op)
    (s : List Nat) (t cache : Ten F) (a : List Nat → F) (ht : t.Has s a) :
    ∃ (u : Ten F) (v : List Nat → F), Ops.mapT (op.fwd exp log abs eps meps) cache t = ok u ∧ u.Has s v ∧
      ∀ is, ValidIdx s is → isNan (a is) = true → isNan (v is) = true := by
  obtain ⟨u, h1, h2⟩ := Ops.mapT_ok (op.fwd exp log abs eps meps) cache t ht
  refine ⟨u, _, h1, h2, fun is _ hn => ?_⟩
  cases op with
  | relu6 => exact hop.elim
  | inverse => exact hop.elim
  | negative => exact Floats.sub_nan _ _ (Or.inr hn)
  | addC a => exact Floats.add_nan _ _ (Or.inl hn)
  | mulC a => exact Floats.mul_nan _ _ (Or.inl hn)
  | square => exact Floats.mul_nan _ _ (Or.inl hn)
  | relu => show isNan (if a is < 0 then 0 else a is) = true; rw [if_neg (not_lt_left hn)]; exact hn
  | leakyRelu f => show isNan (if a is < f * a is then f * a is else a is) = true; rw [if_neg (not_lt_left hn)]; exact hn
  | elu α => unfold Op.fwd; dsimp only; rw [if_neg (not_lt_right hn)]; exact Floats.mul_nan _ _ (Or.inr (Floats.sub_nan _ _ (Or.inl (hexp _ hn))))
  | selu =>
    unfold Op.fwd
    dsimp only
    rw [if_neg (by rw [hn]; simp)]
    exact Floats.mul_nan _ _ (Or.inr (Floats.sub_nan _ _ (Or.inl (hexp _ hn))))
  | hardSigmoid =>
    unfold Op.fwd
    dsimp only
    rw [if_neg (not_lt_right hn), if_neg (not_lt_left hn)]
    exact Floats.div_nan _ _ (Or.inl (Floats.add_nan _ _ (Or.inl hn)))
  | softplus => exact hlog _ (Floats.add_nan _ _ (Or.inr (hexp _ hn)))
  | softsign => exact Floats.div_nan _ _ (Or.inl hn)
  | sigmoid => exact Floats.div_nan _ _ (Or.inr (Floats.add_nan _ _ (Or.inr (hexp _ (Floats.sub_nan _ _ (Or.inr hn))))))

/-- C119 is violated by `relu6`: its output never holds a NaN, whatever the input, and an element that is NaN becomes 6. -/
theorem relu6_hides_nan_violated (exp log abs : F → F) (eps meps : F) (s : List Nat) (t cache : Ten F) (a : List Nat → F) (ht : t.Has s a) :
    ∃ (u : Ten F) (v : List Nat → F), Ops.mapT ((Op.relu6).fwd exp log abs eps meps) cache t = ok u ∧ u.Has s v ∧
      ∀ is, ValidIdx s is → isNan (v is) = false ∧ (isNan (a is) = true → v is = lit 6) := by
  obtain ⟨u, h1, h2⟩ := Ops.mapT_ok ((Op.relu6).fwd exp log abs eps meps) cache t ht
  refine ⟨u, _, h1, h2, fun is _ => ⟨?_, fun hn => ?_⟩⟩
  · unfold Op.fwd stdMin
    dsimp only
    split
    · next h => exact (Floats.lt_num _ _ h).1
    · exact Floats.lit_num 6
  · unfold Op.fwd Softmax.stdMax stdMin
    dsimp only
    rw [if_neg (not_lt_left hn), if_neg (not_lt_left hn)]

/-- C119 is violated by `inverse`: an element that is NaN becomes `1 / -eps`. -/
theorem inverse_hides_nan_violated (exp log abs : F → F) (eps meps : F) (s : List Nat) (t cache : Ten F) (a : List Nat → F) (ht : t.Has s a) :
    ∃ (u : Ten F) (v : List Nat → F), Ops.mapT ((Op.inverse).fwd exp log abs eps meps) cache t = ok u ∧ u.Has s v ∧
      ∀ is, ValidIdx s is → isNan (a is) = true → v is = 1 / meps := by
  obtain ⟨u, h1, h2⟩ := Ops.mapT_ok ((Op.inverse).fwd exp log abs eps meps) cache t ht
  refine ⟨u, _, h1, h2, fun is _ hn => ?_⟩
  unfold Op.fwd stdMin
  dsimp only
  rw [if_neg (not_lt_right hn), if_neg (not_lt_left hn)]

/-- A tensor with a NaN, its image under `relu` has one, that under `relu6` has none. -/
example : ∃ u w, Ops.mapT ((Op.relu).fwd id id id (lit 1) (lit (-1))) ⟨[], []⟩ (⟨[2], [0, .nan]⟩ : Ten (Num float32)) = ok u ∧ hasNan u = true ∧
    Ops.mapT ((Op.relu6).fwd id id id (lit 1) (lit (-1))) ⟨[], []⟩ (⟨[2], [0, .nan]⟩ : Ten (Num float32)) = ok w ∧ hasNan w = false := by
  have ht : (⟨[2], [0, .nan]⟩ : Ten (Num float32)).Has [2] (fun is => if is = [1] then .nan else 0) := by
    refine ⟨rfl, rfl, fun is hv => ?_⟩
    match is, hv with
    | [0], _ => rfl
    | [1], _ => rfl
    | [n + 2], hv => exact absurd hv.1 (by omega)
  obtain ⟨u, v, h1, h2, h3⟩ := unary_keeps_nan_partial (id : Num float32 → _) id id (lit 1) (lit (-1)) (fun _ h => h) (fun _ h => h) .relu trivial
    [2] _ ⟨[], []⟩ _ ht
  obtain ⟨w, x, k1, k2, k3⟩ := relu6_hides_nan_violated (id : Num float32 → _) id id (lit 1) (lit (-1)) [2] _ ⟨[], []⟩ _ ht
  refine ⟨u, w, h1, (has_nan_iff u).1.mpr ⟨v [1], ?_, h3 [1] ⟨by omega, trivial⟩ rfl⟩, k1, ?_⟩
  · have := h2.2.2 [1] ⟨by omega, trivial⟩
    exact List.mem_of_getElem? this
  · rw [← Bool.not_eq_true, (has_nan_iff w).1]
    rintro ⟨y, hy, hn⟩
    obtain ⟨i, hi, rfl⟩ := List.mem_iff_getElem.mp hy
    have hl : w.data.length = 2 := by rw [k2.2.1]; rfl
    have e := k2.2.2 [i] ⟨by omega, trivial⟩
    have e' : w.data[i]? = some (x [i]) := by simpa [flat] using e
    rw [List.getElem?_eq_getElem hi, Option.some.injEq] at e'
    rw [e', (k3 [i] ⟨by omega, trivial⟩).1] at hn
    contradiction

/-- C119 is violated by the tensor function `clip`: with a lower bound that is not NaN the result holds no NaN, and an element that is NaN becomes the upper
bound (the lower one if they are in the wrong order).  The operator `clip` asserts first that there is none. -/
theorem clip_hides_nan_violated (lower upper : F) (t : Ten F) :
    (∃ u, Data.clip lower upper t = ok u ∧ u.shape = t.shape ∧ u.data.length = t.data.length ∧
      (∀ (i : Nat) (x : F), t.data[i]? = some x → isNan x = true → u.data[i]? = some (if lower < upper then upper else lower)) ∧
      (isNan lower = false → hasNan u = false)) ∧
    (hasNan t = true → clipForward lower upper t = abort) := by
  constructor
  · obtain ⟨o', h1, h2, h3⟩ := upd1 (n := t.data.length) (o := t.data)
      (body := fun i o => do
        let v ← rd o i
        let v := if v < upper then v else upper
        let v := if lower < v then v else lower
        wr o i v) (φ := fun _ x => if lower < (if x < upper then x else upper) then (if x < upper then x else upper) else lower)
      (fun i o x _ _ hx => by rw [rd_ok hx, bind_ok]) rfl
    refine ⟨⟨t.shape, o'⟩, by rw [Data.clip, h1]; rfl, rfl, h2, fun i x hx hn => ?_, fun hl => ?_⟩
    · rw [h3 i x hx, if_neg (not_lt_left hn)]
    · rw [← Bool.not_eq_true, (has_nan_iff _).1]
      rintro ⟨y, hy, hn⟩
      obtain ⟨i, hi, rfl⟩ := List.mem_iff_getElem.mp hy
      have hi' : i < t.data.length := by rw [← h2]; exact hi
      have e := h3 i _ (List.getElem?_eq_getElem hi')
      rw [List.getElem?_eq_getElem (h2 ▸ hi'), Option.some.injEq] at e
      simp only at hn
      rw [e, max_num hl] at hn
      contradiction
  · intro h
    unfold clipForward
    rw [assert_false (by rw [h]; simp)]; rfl

example : hasNan (⟨[2], [.nan, 0]⟩ : Ten (Num float32)) = true ∧ clipForward (lit 0) (lit 1) (⟨[2], [.nan, 0]⟩ : Ten (Num float32)) = abort :=
  ⟨rfl, (clip_hides_nan_violated _ _ _).2 rfl⟩

/-! ### maximum, minimum, equal -/

theorem binary_ok {α : Type} [Zero α] (φ ψ : α → α → α) (cache mask l r : Ten α) {s : List Nat} {a b : List Nat → α} (hl : l.Has s a) (hr : r.Has s b) :
    ∃ d m : List α, loop l.data.length (fun i (st : List α × List α) => do
      let x ← rd l.data i
      let y ← rd r.data i
      let m ← wr st.2 i (ψ x y)
      let o ← wr st.1 i (φ x y)
      pure (o, m)) ((resizeV cache l.shape).data, (resizeV mask l.shape).data) = ok (d, m) ∧ (⟨s, d⟩ : Ten α).Has s (fun is => φ (a is) (b is)) := by
  obtain ⟨d, h1, h2, h3⟩ := fill1 (n := size s) (out := (resizeV cache s).data)
    (body := fun i o => wr o i (φ (a (unflat s i)) (b (unflat s i)))) (g := fun i => φ (a (unflat s i)) (b (unflat s i))) (fun i o hi _ => rfl)
    (by rw [resizeV_length])
  obtain ⟨m, k1, k2, k3⟩ := fill1 (n := size s) (out := (resizeV mask s).data)
    (body := fun i o => wr o i (ψ (a (unflat s i)) (b (unflat s i)))) (g := fun i => ψ (a (unflat s i)) (b (unflat s i))) (fun i o hi _ => rfl)
    (by rw [resizeV_length])
  refine ⟨d, m, ?_, rfl, isT_of_pos h2 h3 (fun is hv => by rw [unflat_flat hv])⟩
  rw [hl.1, hl.2.1]
  refine Pool.loop_pair ?_ h1 k1
  intro i s1 t1 s2 t2 hi hf hg
  dsimp only at hf hg ⊢
  rw [rd_ok (hl.2.pos hi), bind_ok, rd_ok (hr.2.pos hi), bind_ok, hg, bind_ok, hf, bind_ok]; rfl

/-- C119 is violated by `maximum`, `minimum` and `equal`: a NaN on the left of `maximum`, or on the right of `minimum`, is dropped for the other operand; a
NaN on either side of `equal` makes the elements equal.  A NaN on the other side of `maximum` and `minimum` is kept. -/
theorem binary_hides_nan_violated (abs : F → F) (habs : Strict abs) (threshold : F) (s : List Nat) (l r cache mask : Ten F) (a b : List Nat → F)
    (hl : l.Has s a) (hr : r.Has s b) :
    ∃ (u m w n e : Ten F) (f g h : List Nat → F), Pool.maximumFwd l r cache mask = ok (u, m) ∧ u.Has s f ∧ Pool.minimumFwd l r cache mask = ok (w, n) ∧ w.Has s g ∧
      Step.equalForwardOf abs threshold cache l r = ok e ∧ e.Has s h ∧
      ∀ is, ValidIdx s is →
        (isNan (a is) = true → f is = b is ∧ g is = a is ∧ h is = 1) ∧ (isNan (b is) = true → f is = b is ∧ g is = a is ∧ h is = 1) := by
  obtain ⟨d, m, h1, h2⟩ := binary_ok (fun x y => if y < x then x else y) (fun x y => if y < x then 1 else 0) cache mask l r hl hr
  obtain ⟨d', n, h3, h4⟩ := binary_ok (fun x y => if y < x then y else x) (fun x y => if y < x then 0 else 1) cache mask l r hl hr
  obtain ⟨e, e1, e2, e3⟩ := fill1 (n := size s) (out := (resizeV cache s).data)
    (body := fun i o => do
      let x ← rd l.data i
      let y ← rd r.data i
      wr o i (Step.equalOf abs threshold x y))
    (g := fun i => Step.equalOf abs threshold (a (unflat s i)) (b (unflat s i)))
    (fun i o hi _ => by rw [rd_ok (hl.2.pos hi), bind_ok, rd_ok (hr.2.pos hi), bind_ok]) (by rw [resizeV_length])
  refine ⟨⟨s, d⟩, ⟨s, m⟩, ⟨s, d'⟩, ⟨s, n⟩, ⟨s, e⟩, _, _, fun is => Step.equalOf abs threshold (a is) (b is), ?_, h2, ?_, h4, ?_,
    ⟨rfl, isT_of_pos e2 e3 (fun is hv => by rw [unflat_flat hv])⟩, fun is _ => ⟨fun hn => ?_, fun hn => ?_⟩⟩
  · unfold Pool.maximumFwd
    rw [assert_true (by rw [hl.1, hr.1]), bind_ok, h1, bind_ok, hl.1]; rfl
  · unfold Pool.minimumFwd
    rw [assert_true (by rw [hl.1, hr.1]), bind_ok, h3, bind_ok, hl.1]; rfl
  · unfold Step.equalForwardOf
    rw [assert_true (by rw [hl.1, hr.1]), bind_ok, hl.1, hl.2.1, e1]; rfl
  · refine ⟨if_neg (not_lt_right hn), if_neg (not_lt_right hn), if_neg (not_lt_right (habs _ (Floats.sub_nan _ _ (Or.inl hn))))⟩
  · refine ⟨if_neg (not_lt_left hn), if_neg (not_lt_left hn), if_neg (not_lt_right (habs _ (Floats.sub_nan _ _ (Or.inr hn))))⟩

/-- NaN and zero: `maximum` of them in this order is zero, and they are equal. -/
example : ∃ u m e : Ten (Num float32), Pool.maximumFwd ⟨[1], [.nan]⟩ ⟨[1], [0]⟩ ⟨[], []⟩ ⟨[], []⟩ = ok (u, m) ∧ u.data[0]? = some 0 ∧
    Step.equalForwardOf id (lit 1) ⟨[], []⟩ ⟨[1], [.nan]⟩ ⟨[1], [0]⟩ = ok e ∧ e.data[0]? = some 1 := by
  have h : ∀ x : Num float32, (⟨[1], [x]⟩ : Ten (Num float32)).Has [1] (fun _ => x) := by
    refine fun x => ⟨rfl, rfl, fun is hv => ?_⟩
    match is, hv with
    | [0], _ => rfl
    | [n + 1], hv => exact absurd hv.1 (by omega)
  obtain ⟨u, m, w, n, e, f, g, k, h1, h2, _, _, h5, h6, h7⟩ := binary_hides_nan_violated (id : Num float32 → _) (fun _ h => h) (lit 1) [1] _ _ ⟨[], []⟩ ⟨[], []⟩ _ _
    (h .nan) (h 0)
  have h8 := (h7 [0] ⟨by omega, trivial⟩).1 rfl
  refine ⟨u, m, e, h1, ?_, h5, ?_⟩
  · have := h2.2.2 [0] ⟨by omega, trivial⟩
    rw [h8.1] at this; exact this
  · have := h6.2.2 [0] ⟨by omega, trivial⟩
    rw [h8.2.2] at this; exact this

end Verif.Nan
