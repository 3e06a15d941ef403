import Verif.Tensor.Props
/-!
# C17 (shapes that do not fit), C13 (operators that work on a deep copy)
-/
namespace Verif.Tensor
open Verif Res

variable {α : Type}

theorem go_rejects [Zero α] {new : List Nat} : ∀ (fuel : Nat) (h : Heap α) (t : Tn), t.shape.length ≤ new.length →
    (∃ (j v : Nat), (padShape t.shape new)[j]? = some v ∧ new[j]? ≠ some v ∧ v ≠ 1) → ∀ z, broadcastGo fuel h t new ≠ ok z := by
  intro fuel
  induction fuel with
  | zero => intro h t _ _ z e; cases e
  | succ fuel ih =>
    rintro h t hl ⟨j, v, hj, hn, hv⟩ z e
    have hpl : (padShape t.shape new).length = new.length := by simp [padShape]; omega
    have hne : padShape t.shape new ≠ new := by rintro e; rw [e] at hj; exact hn hj
    have hne' : t.shape ≠ new := by
      rintro e
      rw [padShape_eq (by rw [e])] at hne
      exact hne e
    have hjl : j < new.length := by rw [← hpl]; exact (List.getElem?_eq_some_iff.mp hj).1
    obtain ⟨k, hk1, hk2, hk3, -⟩ := findDim_some (d := (padShape t.shape new).length) (upd := padShape t.shape new) (new := new) (Nat.le_refl _) (by omega)
      ⟨j, by omega, by rw [hj]; exact fun c => hn c.symm⟩
    simp only [broadcastGo, if_neg hne', if_neg hne, hk1, bind_ok, bind_eq_ok] at e
    obtain ⟨r, -, u, hu, _, ha, x, hx, src, -, out, -, e⟩ := e
    rw [rd_eq_ok] at hu hx
    have hu1 : u = 1 := by
      by_contra c
      rw [assert_false c] at ha
      cases ha
    subst hu1
    refine ih _ _ (by simp; omega) ⟨j, v, ?_, hn, hv⟩ z e
    rw [padShape_eq (by simp; omega)]
    have hkj : k ≠ j := by
      rintro rfl
      rw [hj] at hu
      exact hv (Option.some.inj hu)
    dsimp only
    rw [List.getElem?_set_ne hkj, hj]

/-- C17 (the other shapes). `broadcast_tensor( t, s )` does not return if the shape of `t` does not broadcast to `s`: no tensor is made up. -/
theorem broadcast_tensor_rejects [Zero α] (h : Heap α) (t : Tn) (new : List Nat) (hb : ¬ BroadcastsTo t.shape new) (z : Tn × Heap α) :
    broadcastTensor h t new ≠ ok z := by
  by_cases hl : t.shape.length ≤ new.length
  · unfold BroadcastsTo at hb
    rw [not_and] at hb
    have := hb hl
    rw [not_forall] at this
    obtain ⟨k, hk⟩ := this
    rw [Classical.not_imp, not_or] at hk
    obtain ⟨hk, h1, h2⟩ := hk
    refine go_rejects _ h t hl ⟨new.length - 1 - k, dimR t.shape k, ?_, fun c => ?_, h2⟩ z
    · rw [padShape, List.getElem?_append_right (by simp; omega), List.length_replicate, dimR_of_lt hk]
      rw [show new.length - 1 - k - (new.length - t.shape.length) = t.shape.length - 1 - k by omega]
      exact List.getElem?_eq_getElem (by omega)
    · rw [List.getElem?_eq_getElem (by omega)] at c
      apply h1
      rw [dimR_of_lt (s := new) (by omega)]
      exact (Option.some.inj c).symm
  · rw [broadcast_tensor_lower_rank_ub h t new (by omega)]
    exact fun e => by cases e

example (z : Tn × Heap Int) : broadcastTensor [[1, (2 : Int)]] ⟨[2, 1], 0⟩ [3, 3] ≠ ok z :=
  broadcast_tensor_rejects _ _ _ (fun h => by
    have := h.2 1 (by decide)
    simp [dimR] at this) z

/-- C13 (operators on a deep copy): unary minus and the operators with a number give a tensor of the same shape with `f` of every element, in a storage of its own; what
was there before is unchanged. -/
theorem scalar_operators [Zero α] (f : α → α) (h : Heap α) (a : Tn) (la : List α) (ha : contents h a = some la) (hsz : la.length = size a.shape) :
    ∃ b h1, mapCopy f h a = ok (b, h1) ∧ b.shape = a.shape ∧ contents h1 b = some (la.map f) ∧ h[b.loc]? = none ∧
      ∀ l, l < h.length → h1[l]? = h[l]? := by
  have hal : a.loc < h.length := (List.getElem?_eq_some_iff.mp ha).1
  have hd : deepCopy h a = ok (⟨a.shape, h.length⟩, h ++ [la]) := by
    simp only [deepCopy, newT, contents] at ha ⊢
    rw [rd_ok ha, bind_ok, copyN_full (by simp [hsz]), bind_ok, wr_ok (by simp), bind_ok,
      List.set_append_right _ _ (Nat.le_refl _)]
    simp
  refine ⟨⟨a.shape, h.length⟩, (h ++ [la]).set h.length (la.map f), ?_, rfl, ?_, by simp, fun l hl => ?_⟩
  · unfold mapCopy
    rw [hd, bind_ok]
    dsimp only
    rw [mapT_spec (x := ⟨a.shape, h.length⟩) (bx := la) (by simp), bind_ok]
    rfl
  · unfold contents
    rw [List.getElem?_set_self (by simp)]
  · rw [List.getElem?_set_ne (by omega), List.getElem?_append_left hl]

example : mapCopy (fun x => x * 2) [[1, 2, 3, (4 : Int)]] ⟨[2, 2], 0⟩ = ok (⟨[2, 2], 1⟩, [[1, 2, 3, 4], [2, 4, 6, 8]]) := by decide

end Verif.Tensor
