import Verif.Dataset.Model
import Verif.Data.Move
import Verif.Tensor.Lemmas
import Mathlib.Tactic.Ring
/-!
# C64 (labels), C88 (images)
-/
namespace Verif.Dataset
open Verif Res View Data Tensor

/-! ## Loops that do not abort -/

theorem loop_not_abort {σ : Type} {n : Nat} {body : Nat → σ → Res σ} (h : ∀ i s, body i s ≠ abort) (s : σ) : loop n body s ≠ abort := by
  induction n with
  | zero => rw [loop_zero]; simp
  | succ n ih =>
    rw [loop_succ]
    cases e : loop n body s with
    | ok t => rw [bind_ok]; exact h n t
    | abort => exact absurd e ih
    | ub => simp

theorem wr_not_abort {α : Type} (b : List α) (i : Nat) (v : α) : wr b i v ≠ abort := by
  unfold wr; split <;> simp

theorem rd_not_abort {α : Type} (b : List α) (i : Nat) : rd b i ≠ abort := by
  unfold rd; split <;> simp

theorem ub_of {α : Type} {x : Res α} (h1 : x ≠ abort) (h2 : ∀ a, x ≠ ok a) : x = ub := by
  cases x with
  | ok a => exact absurd rfl (h2 a)
  | abort => exact absurd rfl h1
  | ub => rfl

/-! ## Labels -/

/-- The label of sample `i` in a label file. -/
def labelOf (file : List UInt8) (i : Nat) : Nat := (file.getD (8 + i) 0).toNat

/-- C64, for files whose labels are digits: row `i` is one-hot with its 1 at the label of sample `i`. -/
theorem labels_one_hot_partial (file : List UInt8) (h8 : 8 ≤ file.length) (hd : ∀ i, i < file.length - 8 → labelOf file i < 10) :
    ∃ t, extractLabel file = ok t ∧ t.Has [file.length - 8, 10] (fun is => if labelOf file (is.getD 0 0) = is.getD 1 0 then 1 else 0) := by
  have hrd : ∀ i, i < file.length - 8 → rd file (i + 8) = ok (file.getD (8 + i) 0) := by
    intro i hi
    rw [rd_ok (v := file[i + 8]) (List.getElem?_eq_getElem (by omega))]
    rw [List.getD_eq_getElem?_getD, Nat.add_comm 8 i, List.getElem?_eq_getElem (by omega : i + 8 < file.length)]
    rfl
  obtain ⟨d, h1, h2, h3⟩ := loop_inv (n := file.length - 8) (s := List.replicate (size [file.length - 8, 10]) (0 : UInt8))
    (body := fun idx d => do
      let label ← rd file (idx + 8)
      wr d (idx * 10 + label.toNat) 1)
    (fun k d => d.length = (file.length - 8) * 10 ∧ ∀ i j, i < file.length - 8 → j < 10 → d[i * 10 + j]? = some (if i < k ∧ labelOf file i = j then 1 else 0))
    ⟨by simp, fun i j hi hj => by
      rw [List.getElem?_replicate, if_pos (by simp; omega)]
      simp⟩ (by
      rintro k d hk ⟨hl, hv⟩
      have hlab := hd k hk
      have hin : k * 10 + (file.getD (8 + k) 0).toNat < d.length := by
        have : (file.getD (8 + k) 0).toNat < 10 := hlab
        omega
      rw [hrd k hk, bind_ok, wr_ok hin]
      refine ⟨_, rfl, by rw [List.length_set, hl], fun i j hi hj => ?_⟩
      rw [List.getElem?_set]
      change (if k * 10 + labelOf file k = i * 10 + j then _ else _) = _
      by_cases he : k * 10 + labelOf file k = i * 10 + j
      · have hki : k = i := by omega
        subst hki
        have hj' : labelOf file k = j := by omega
        rw [if_pos he, if_pos (by unfold labelOf at hlab; omega), if_pos ⟨by omega, hj'⟩]
      · rw [if_neg he, hv i j hi hj]
        congr 1
        by_cases hki : k = i
        · subst hki
          have hj' : labelOf file k ≠ j := by intro e; exact he (by rw [e])
          rw [if_neg (fun h => hj' h.2), if_neg (fun h => hj' h.2)]
        · by_cases hc : i < k ∧ labelOf file i = j
          · rw [if_pos hc, if_pos ⟨by omega, hc.2⟩]
          · rw [if_neg hc, if_neg (fun h => hc ⟨by omega, h.2⟩)])
  refine ⟨⟨[file.length - 8, 10], d⟩, ?_, rfl, by simp [h2], fun is hv => ?_⟩
  · unfold extractLabel
    rw [require_true h8, bind_ok]
    dsimp only
    rw [h1, bind_ok]; rfl
  · match is, hv with
    | [i, j], hv =>
      obtain ⟨hi, hj, _⟩ := hv
      have := h3 i j hi hj
      simp only [flat_cons, size_cons, size_nil, flat_nil, Nat.mul_one, Nat.add_zero, List.getD_cons_zero, List.getD_cons_succ]
      rw [this]
      simp [hi]

/-- C64 is violated by files with other labels: if the last label is no digit, the 1 is written outside the tensor. -/
theorem labels_range_violated (file : List UInt8) (h9 : 9 ≤ file.length) (hl : 10 ≤ labelOf file (file.length - 9)) : extractLabel file = ub := by
  apply ub_of
  · unfold extractLabel
    rw [require_true (by omega), bind_ok]
    dsimp only
    intro h
    cases e : loop (file.length - 8) (fun idx d => do
      let label ← rd file (idx + 8)
      wr d (idx * 10 + label.toNat) 1) (List.replicate (size [file.length - 8, 10]) (0 : UInt8)) with
    | ok t => rw [e] at h; cases h
    | ub => rw [e] at h; cases h
    | abort =>
      refine loop_not_abort (fun i s => ?_) _ e
      cases e' : rd file (i + 8) with
      | ok v => rw [bind_ok]; exact wr_not_abort _ _ _
      | ub => simp
      | abort => exact absurd e' (rd_not_abort _ _)
  · intro t h
    unfold extractLabel at h
    rw [require_true (by omega), bind_ok] at h
    dsimp only at h
    rw [bind_eq_ok] at h
    obtain ⟨d, h1, _⟩ := h
    rw [show file.length - 8 = (file.length - 9) + 1 from by omega, loop_succ, bind_eq_ok] at h1
    obtain ⟨e, h2, h3⟩ := h1
    have hlen : e.length = (file.length - 9 + 1) * 10 := by
      refine loop_ok_inv (fun d => d.length = (file.length - 9 + 1) * 10) (by simp) (fun i s s' hb hs => ?_) h2
      rw [bind_eq_ok] at hb
      obtain ⟨v, _, hb⟩ := hb
      rw [wr_eq_ok] at hb
      rw [hb.2, List.length_set, hs]
    rw [bind_eq_ok] at h3
    obtain ⟨v, h4, h5⟩ := h3
    rw [wr_eq_ok] at h5
    have hv : v.toNat = labelOf file (file.length - 9) := by
      unfold labelOf
      rw [rd_eq_ok] at h4
      rw [List.getD_eq_getElem?_getD, Nat.add_comm 8, h4]; rfl
    have := h5.1
    rw [hlen, hv] at this
    omega

/-- Another label above 9 sets an entry of a later sample: here sample 0 has label 13, and sample 1 becomes both a 3 and a 7. -/
example : extractLabel [0, 0, 8, 1, 0, 0, 0, 2, 13, 7] = ok ⟨[2, 10], [0, 0, 0, 0, 0, 0, 0, 0, 0, 0, 0, 0, 0, 1, 0, 0, 0, 1, 0, 0]⟩ := by decide +kernel

example : ∃ file : List UInt8, 8 ≤ file.length ∧ ∀ i, i < file.length - 8 → labelOf file i < 10 :=
  ⟨[0, 0, 8, 1, 0, 0, 0, 2, 3, 7], by decide, by decide⟩

example : 9 ≤ ([0, 0, 8, 1, 0, 0, 0, 1, 10] : List UInt8).length ∧ 10 ≤ labelOf [0, 0, 8, 1, 0, 0, 0, 1, 10] (9 - 9) := by decide

/-! ## Images -/

/-- C88, for files with whole images: pixel `(r, c)` of image `i` is byte `16 + 784 i + 28 r + c`. -/
theorem images_values_partial (file : List UInt8) (n : Nat) (h : file.length = 16 + 784 * n) :
    ∃ t, extractImage file = ok t ∧ t.Has [n, 28, 28] (fun is => file.getD (16 + 784 * is.getD 0 0 + 28 * is.getD 1 0 + is.getD 2 0) 0) := by
  have hn : (file.length - 16) / (28 * 28) = n := by rw [h]; omega
  have hs : size [n, 28, 28] = 784 * n := by simp; ring
  have hv : ∀ i, i < file.length - 16 → file[16 + i]? = some (file.getD (16 + (0 + i)) 0) := by
    intro i hi
    rw [Nat.zero_add, List.getD_eq_getElem?_getD, List.getElem?_eq_getElem (by omega : 16 + i < file.length)]
    rfl
  refine ⟨⟨[n, 28, 28], (List.range (784 * n)).map (fun p => file.getD (16 + p) 0)⟩, ?_, rfl, by rw [hs]; simp, fun is hvi => ?_⟩
  · unfold extractImage
    rw [require_true (by omega), bind_ok]
    dsimp only
    rw [hn, (copyTo_sets (N := 784 * n) (v := fun p => file.getD (16 + p) 0) (by omega) hv).eq_ok (fun p hp => ⟨p, by omega, by omega⟩) (by rw [List.length_replicate, hs]), bind_ok]
    rfl
  · match is, hvi with
    | [i, r, c], hvi =>
      have hlt := flat_lt hvi
      rw [hs] at hlt
      simp only [List.getD_cons_zero, List.getD_cons_succ]
      rw [List.getElem?_map, List.getElem?_range hlt, Option.map_some]
      congr 2
      simp only [flat_cons, size_cons, size_nil, flat_nil]
      ring

/-- C88 is violated by every file with an incomplete last image: the copy runs past the end of the tensor. -/
theorem images_incomplete_violated (file : List UInt8) (h16 : 16 ≤ file.length) (hd : ¬ 784 ∣ file.length - 16) : extractImage file = ub := by
  have hlt : (file.length - 16) / 784 * 784 < file.length - 16 := by
    have := Nat.div_add_mod' (file.length - 16) 784
    have : (file.length - 16) % 784 ≠ 0 := fun e => hd (Nat.dvd_of_mod_eq_zero e)
    omega
  unfold extractImage
  rw [require_true h16, bind_ok]
  dsimp only
  have : copyTo file 16 (file.length - 16) (List.replicate (size [(file.length - 16) / (28 * 28), 28, 28]) 0) 0 = ub := by
    apply ub_of
    · unfold copyTo
      refine loop_not_abort (fun i s => ?_) _
      cases e' : rd file (16 + i) with
      | ok v => rw [bind_ok]; exact wr_not_abort _ _ _
      | ub => simp
      | abort => exact absurd e' (rd_not_abort _ _)
    · intro t h
      unfold copyTo at h
      have hs : size [(file.length - 16) / 784, 28, 28] = (file.length - 16) / 784 * 784 := by simp
      rw [show file.length - 16 = (file.length - 17) + 1 from by omega, loop_succ, bind_eq_ok] at h
      obtain ⟨e, h2, h3⟩ := h
      rw [show file.length - 17 + 1 = file.length - 16 from by omega] at h2
      have hlen : e.length = (file.length - 16) / 784 * 784 := by
        refine loop_ok_inv (fun d => d.length = (file.length - 16) / 784 * 784) (by rw [List.length_replicate]; exact hs) (fun i s s' hb hs => ?_) h2
        rw [bind_eq_ok] at hb
        obtain ⟨v, _, hb⟩ := hb
        rw [wr_eq_ok] at hb
        rw [hb.2, List.length_set, hs]
      rw [bind_eq_ok] at h3
      obtain ⟨v, _, h5⟩ := h3
      rw [wr_eq_ok] at h5
      have := h5.1
      rw [hlen] at this
      omega
  rw [this]; rfl

example : ∃ (file : List UInt8), file.length = 16 + 784 * 2 := ⟨List.replicate 1584 7, List.length_replicate ..⟩

example : 16 ≤ (List.replicate 1000 (7 : UInt8)).length ∧ ¬ 784 ∣ (List.replicate 1000 (7 : UInt8)).length - 16 := by
  rw [List.length_replicate]; omega

end Verif.Dataset
