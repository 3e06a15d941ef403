import Verif.Concat.Model
import Verif.Pool.Lemmas
import Verif.Ops.Sum
import Verif.Basic.Inplace
/-!
# Backward of concatenate (C76)
-/
namespace Verif.Concat
open Verif Res View Data Pool

variable {α : Type}

/-- Rows of a table cut in two. -/
theorem cut_loop [Zero α] {P L R : Nat} {G : List α} {f : Nat → Nat → α} (hG : Is2 G P (L + R) f) :
    ∃ a b, loop P (fun i (o : List α × List α) => do
        let x ← copyTo G (i * (L + R)) L o.1 (i * L)
        let y ← copyTo G (i * (L + R) + L) (L + R - L) o.2 (i * R)
        pure (x, y)) (List.replicate (P * L) 0, List.replicate (P * R) 0) = ok (a, b) ∧
      Is2 a P L f ∧ Is2 b P R (fun i j => f i (L + j)) := by
  have one : ∀ (C s : Nat), s + C ≤ L + R → ∃ a, loop P (fun i o => copyTo G (i * (L + R) + s) C o (i * C)) (List.replicate (P * C) 0) = ok a ∧ Is2 a P C (fun i j => f i (s + j)) := by
    intro C s hs
    have h : Sets (fun o => loop P (fun i o => copyTo G (i * (L + R) + s) C o (i * C)) o) (P * C)
        (fun p => ∃ i, i < P ∧ ∃ j, j < C ∧ p = i * C + j) (fun p => f (p / C) (s + p % C)) := by
      refine Sets.loop fun i hi => ?_
      have hb : i * C + C ≤ P * C := by
        have := Nat.mul_le_mul_right C (show i + 1 ≤ P by omega)
        rw [Nat.add_mul, Nat.one_mul] at this
        exact this
      refine copyTo_sets hb fun j hj => ?_
      have e := div_mod_eq (i := i) (j := j) (m := C) hj
      rw [e.1, e.2, Nat.add_assoc]
      exact hG.2 i (s + j) hi (by omega)
    obtain ⟨a, h1, h2, h3⟩ := h.total (fun p hp => by
      obtain ⟨i, j, hi, hj, rfl⟩ := exists_div_mod hp
      exact ⟨i, hi, j, hj, rfl⟩) (o := List.replicate (P * C) (0 : α)) (by simp)
    refine ⟨a, h1, h2, fun i j hi hj => ?_⟩
    rw [h3 _ (lt_mul_of_lt hi hj)]
    have e := div_mod_eq (i := i) (j := j) (m := C) hj
    rw [e.1, e.2]
  obtain ⟨a, a1, a2⟩ := one L 0 (by omega)
  obtain ⟨b, b1, b2⟩ := one R L (by omega)
  refine ⟨a, b, loop_pair ?_ a1 b1, ?_, b2⟩
  · intro i s t s' t' _ hf hg
    simp only [Nat.add_zero] at hf
    rw [Nat.add_sub_cancel_left]
    rw [hf, bind_ok, hg, bind_ok]
    rfl
  · simpa using a2

/-- What both readings of line 2414 compute once the range is read. -/
theorem concatBack_ok [Zero α] (l r grad : Ten α) (pre post : List Nat) (n m axe : Nat) (a b g : List Nat → α)
    (hl : l.Has (pre ++ n :: post) a) (hr : r.Has (pre ++ m :: post) b) (hg : grad.Has (pre ++ (n + m) :: post) g) (hne : grad.data ≠ [])
    (hax : axe = pre.length ∧ axe ≠ minusOne ∨ axe = minusOne ∧ post = []) :
    ∃ gl gr, concatBackB true axe l r grad = ok (gl, gr) ∧ gl.Has (pre ++ n :: post) g ∧
      gr.Has (pre ++ m :: post) (fun is => g (is.set pre.length (n + is.getD pre.length 0))) := by
  obtain ⟨ls, lT⟩ := hl
  obtain ⟨rs, rT⟩ := hr
  obtain ⟨gs, gT⟩ := hg
  have hG := IsT.is2 (pre := pre) (post := (n + m) :: post) gT
  have hlen : grad.data.length = size pre * ((n + m) * size post) := by rw [gT.1, size_append, size_cons]
  have hpos : size pre * ((n + m) * size post) ≠ 0 := by
    rw [← hlen]
    exact fun h => hne (List.eq_nil_of_length_eq_zero h)
  have hp0 : 0 < size pre := Nat.pos_of_ne_zero fun h => hpos (by rw [h, Nat.zero_mul])
  have hc0 : 0 < (n + m) * size post := Nat.pos_of_ne_zero fun h => hpos (by rw [h, Nat.mul_zero])
  rw [size_cons, Nat.add_mul] at hG
  obtain ⟨x, y, h1, h2, h3⟩ := cut_loop hG
  have hlx : (if axe = minusOne then (pre ++ (n + m) :: post).length - 1 else axe) = pre.length := by
    rcases hax with ⟨h1, h2⟩ | ⟨h1, h2⟩
    · rw [if_neg h2, h1]
    · rw [if_pos h1, h2]; simp
  refine ⟨⟨pre ++ n :: post, x⟩, ⟨pre ++ m :: post, y⟩, ?_, ⟨rfl, ?_⟩, ⟨rfl, ?_⟩⟩
  · unfold concatBackB tempTail
    rw [ls, rs, gs]
    dsimp only
    rw [hlx, assert_true (by simp only [List.length_replicate, hlen, size_append, size_cons]; ring), bind_ok,
      require_true (show pre.length ≤ (pre ++ (n + m) :: post).length by simp), bind_ok, require_true (Or.inl rfl), bind_ok, pure_eq, bind_ok]
    rw [List.drop_left, size_cons]
    have e1 : grad.data.length / ((n + m) * size post) = size pre := by rw [hlen, Nat.mul_div_cancel _ hc0]
    have e2 : l.data.length / size pre = n * size post := by rw [lT.1, size_append, size_cons, Nat.mul_div_cancel_left _ hp0]
    have e3 : r.data.length / size pre = m * size post := by rw [rT.1, size_append, size_cons, Nat.mul_div_cancel_left _ hp0]
    rw [require_true hc0.ne', bind_ok, e1, require_true hp0.ne', bind_ok, e2, e3, assert_true (Nat.add_mul _ _ _), bind_ok, Nat.add_mul, size_append, size_append,
      size_cons, size_cons, h1]
    rfl
  · refine Is2.isT (by rw [size_cons]; exact h2) (fun ip iq v1 v2 => ?_)
    match iq, v2 with
    | i :: iq, v2 =>
      have hv : ValidIdx ((n + m) :: post) (i :: iq) := ⟨by have := v2.1; omega, v2.2⟩
      have h := unflat_flat hv
      simp only [flat_cons] at h ⊢
      rw [unflat_flat v1, h]
  · refine Is2.isT (by rw [size_cons]; exact h3) (fun ip iq v1 v2 => ?_)
    match iq, v2 with
    | i :: iq, v2 =>
      have hv : ValidIdx ((n + m) :: post) ((n + i) :: iq) := ⟨by have := v2.1; omega, v2.2⟩
      have h := unflat_flat hv
      simp only [flat_cons] at h ⊢
      rw [unflat_flat v1, getD_append_axis v1.length_eq, set_append_axis v1.length_eq, ← Nat.add_assoc, ← Nat.add_mul, h]

/-! ## C76 -/

/-- C76 is false of the code: the backward action traverses a range whose ends belong to two different temporaries, whatever the operands and the axis are. -/
theorem concatenate_backward_violated [Zero α] (axe : Nat) (l r out grad : Ten α) (hs : grad.shape ≠ []) (hsz : size l.shape + size r.shape = grad.data.length) :
    (opConcat axe).bwd l r out grad = ub := by
  unfold opConcat concatBackB tempTail
  dsimp only
  rw [assert_true (by simpa using hsz), bind_ok]
  by_cases h : (if axe = minusOne then grad.shape.length - 1 else axe) ≤ grad.shape.length
  · rw [require_true h, bind_ok, require_false (by simp [hs])]
    rfl
  · rw [require_false h]
    rfl

/-- Partial (C76): if the two calls of `shape()` are read as one object, each operand gets the part of the gradient that belongs to it.
Missing: what line 2414 says. -/
theorem concatenate_backward_partial [Zero α] (l r grad : Ten α) (pre post : List Nat) (n m axe : Nat) (a b g : List Nat → α)
    (hl : l.Has (pre ++ n :: post) a) (hr : r.Has (pre ++ m :: post) b) (hg : grad.Has (pre ++ (n + m) :: post) g) (hne : grad.data ≠ [])
    (hax : axe = pre.length ∧ axe ≠ minusOne ∨ axe = minusOne ∧ post = []) :
    ∃ gl gr, concatBackB true axe l r grad = ok (gl, gr) ∧ gl.Has (pre ++ n :: post) g ∧
      gr.Has (pre ++ m :: post) (fun is => g (is.set pre.length (n + is.getD pre.length 0))) :=
  concatBack_ok l r grad pre post n m axe a b g hl hr hg hne hax

/-- Sums over an axis cut in two. -/
theorem sumIdx_cut [AddCommMonoid α] (pre post : List Nat) (n m : Nat) (f : List Nat → α) :
    sumIdx (pre ++ (n + m) :: post) f = sumIdx (pre ++ n :: post) f + sumIdx (pre ++ m :: post) (fun is => f (is.set pre.length (n + is.getD pre.length 0))) := by
  rw [sumIdx_append, sumIdx_append, sumIdx_append, ← sumIdx_add]
  refine sumIdx_congr fun ip hv => ?_
  simp only [sumIdx, Finset.sum_range_add]
  congr 1
  refine Finset.sum_congr rfl fun i _ => ?_
  simp only [getD_append_axis hv.length_eq, set_append_axis hv.length_eq]

/-- C76, with the intended reading: the backward action is the adjoint of the forward action. -/
theorem concatenate_adjoint_partial [CommRing α] (l r grad : Ten α) (pre post : List Nat) (n m axe : Nat) (a b g : List Nat → α)
    (hl : l.Has (pre ++ n :: post) a) (hr : r.Has (pre ++ m :: post) b) (hg : grad.Has (pre ++ (n + m) :: post) g) (hne : grad.data ≠ [])
    (hax : axe = pre.length ∧ axe ≠ minusOne ∨ axe = minusOne ∧ post = []) :
    ∃ t gl gr, (opConcat axe).fwd l r = ok t ∧ concatBackB true axe l r grad = ok (gl, gr) ∧
      sumIdx (pre ++ (n + m) :: post) (fun is => g is * t.at is) =
        sumIdx (pre ++ n :: post) (fun is => gl.at is * a is) + sumIdx (pre ++ m :: post) (fun is => gr.at is * b is) := by
  obtain ⟨gl, gr, h1, h2, h3⟩ := concatBack_ok l r grad pre post n m axe a b g hl hr hg hne hax
  have hne' : l.data ≠ [] ∨ r.data ≠ [] := by
    by_contra hc
    simp only [not_or, not_not] at hc
    refine hne (List.eq_nil_of_length_eq_zero ?_)
    have el := hl.2.1
    have er := hr.2.1
    rw [hc.1, size_append, size_cons, List.length_nil] at el
    rw [hc.2, size_append, size_cons, List.length_nil] at er
    rw [hg.2.1, size_append, size_cons, Nat.add_mul, Nat.mul_add, ← el, ← er]
  obtain ⟨t, t1, t2⟩ := concatenate_values l r pre post n m axe a b hl hr hne' hax
  refine ⟨t, gl, gr, t1, h1, ?_⟩
  rw [sumIdx_cut]
  congr 1
  · refine sumIdx_congr fun is hv => ?_
    rw [h2.at_eq hv]
    obtain ⟨ip, i, iq, rfl, v1, hi, v2⟩ := validIdx_split hv
    have hv' : ValidIdx (pre ++ (n + m) :: post) (ip ++ i :: iq) := (validIdx_append v1.length_eq).mpr ⟨v1, by omega, v2⟩
    rw [t2.at_eq hv', getD_append_axis v1.length_eq, if_pos hi]
  · refine sumIdx_congr fun is hv => ?_
    rw [h3.at_eq hv]
    obtain ⟨ip, i, iq, rfl, v1, hi, v2⟩ := validIdx_split hv
    have hv' : ValidIdx (pre ++ (n + m) :: post) (ip ++ (n + i) :: iq) := (validIdx_append v1.length_eq).mpr ⟨v1, by omega, v2⟩
    rw [getD_append_axis v1.length_eq, set_append_axis v1.length_eq, t2.at_eq hv', getD_append_axis v1.length_eq, if_neg (by omega), set_append_axis v1.length_eq,
      Nat.add_sub_cancel_left]

/-- Rows of 1 and 2 elements. -/
example : concatBackB true 1 ⟨[2, 1], [0, (0 : Int)]⟩ ⟨[2, 2], [0, 0, 0, 0]⟩ ⟨[2, 3], [1, 2, 3, 4, 5, 6]⟩ = ok (⟨[2, 1], [1, 4]⟩, ⟨[2, 2], [2, 3, 5, 6]⟩) ∧
    concatBackB true minusOne ⟨[2, 1], [0, (0 : Int)]⟩ ⟨[2, 2], [0, 0, 0, 0]⟩ ⟨[2, 3], [1, 2, 3, 4, 5, 6]⟩ = ok (⟨[2, 1], [1, 4]⟩, ⟨[2, 2], [2, 3, 5, 6]⟩) ∧
    concatBackB false 1 ⟨[2, 1], [0, (0 : Int)]⟩ ⟨[2, 2], [0, 0, 0, 0]⟩ ⟨[2, 3], [1, 2, 3, 4, 5, 6]⟩ = ub := by decide

end Verif.Concat
