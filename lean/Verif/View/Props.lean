import Verif.View.Model
/-!
# Property C15: views address each element exactly once, in row-major order
-/
namespace Verif.View
open Verif Res

/-- Addresses of a set of subscript tuples inside an extent list `s` enumerate `0 .. size s - 1` in row-major order:
every address is in range, every element is addressed by exactly one tuple, and the address grows with the lexicographic order
of the tuples. -/
def RowMajor (s : List Nat) (addr : List Nat → Nat) : Prop :=
  (∀ is, ValidIdx s is → addr is < size s) ∧
  (∀ p, p < size s → ∃ is, ValidIdx s is ∧ addr is = p ∧ ∀ js, ValidIdx s js → addr js = p → js = is) ∧
  (∀ is js, ValidIdx s is → ValidIdx s js → (List.Lex (· < ·) is js ↔ addr is < addr js))

theorem lex_flat {s is js : List Nat} (hi : ValidIdx s is) (hj : ValidIdx s js) :
    List.Lex (· < ·) is js ↔ flat s is < flat s js := by
  induction s generalizing is js with
  | nil =>
    cases is with
    | nil => cases js with
      | nil => simp
      | cons => exact absurd hj id
    | cons => exact absurd hi id
  | cons n s ih =>
    cases is with
    | nil => exact absurd hi id
    | cons i is =>
      cases js with
      | nil => exact absurd hj id
      | cons j js =>
        have h1 := flat_lt hi.2
        have h2 := flat_lt hj.2
        simp only [flat_cons]
        have lc : List.Lex (· < ·) (i :: is) (j :: js) ↔ i < j ∨ i = j ∧ List.Lex (· < ·) is js := by
          constructor
          · intro h
            cases h with
            | rel h => exact Or.inl h
            | cons h => exact Or.inr ⟨rfl, h⟩
          · rintro (h | ⟨rfl, h⟩)
            · exact List.Lex.rel h
            · exact List.Lex.cons h
        rw [lc]
        rcases Nat.lt_trichotomy i j with h | h | h
        · have : (i + 1) * size s ≤ j * size s := Nat.mul_le_mul_right _ h
          rw [Nat.succ_mul] at this
          constructor
          · intro _; omega
          · intro _; exact Or.inl h
        · subst h
          simp only [Nat.lt_irrefl, false_or, true_and]
          rw [ih hi.2 hj.2]
          omega
        · have : (j + 1) * size s ≤ i * size s := Nat.mul_le_mul_right _ h
          rw [Nat.succ_mul] at this
          constructor
          · rintro (h' | ⟨rfl, _⟩)
            · omega
            · omega
          · intro _; omega

theorem rowMajor_of_flat {s : List Nat} {addr : List Nat → Nat} (h : ∀ is, ValidIdx s is → addr is = flat s is) : RowMajor s addr := by
  refine ⟨fun is hv => by rw [h is hv]; exact flat_lt hv, fun p hp => ?_, fun is js hi hj => by rw [h is hi, h js hj]; exact lex_flat hi hj⟩
  obtain ⟨is, hv, e⟩ := exists_idx hp
  exact ⟨is, hv, by rw [h is hv, e], fun js hj ej => flat_inj hj hv (by rw [← h js hj, ej, e])⟩

/-- C15 for `view_2d`. -/
theorem view_2d_row_major (row col : Nat) :
    RowMajor [row, col] (fun is => match is with | [i, j] => at2 row col false i j | _ => 0) :=
  rowMajor_of_flat (by
    intro is hv
    match is, hv with
    | [i, j], _ => simp [at2])

/-- C15 for a transposed `view_2d` of a `row x col` matrix: the memory is the `col x row` transpose, subscripts are `[j][i]`. -/
theorem view_2d_transposed_row_major (row col : Nat) :
    RowMajor [col, row] (fun is => match is with | [j, i] => at2 row col true j i | _ => 0) :=
  rowMajor_of_flat (by
    intro is hv
    match is, hv with
    | [i, j], _ => simp [at2])

/-- C15 for `view_3d`. -/
theorem view_3d_row_major (row col channel : Nat) :
    RowMajor [row, col, channel] (fun is => match is with | [i, j, k] => at3 row col channel i j k | _ => 0) :=
  rowMajor_of_flat (by
    intro is hv
    match is, hv with
    | [i, j, k], _ => simp [at2, at3]; ring)

/-- C15 for `view_4d`. -/
theorem view_4d_row_major (batch row col channel : Nat) :
    RowMajor [batch, row, col, channel]
      (fun is => match is with | [i, j, k, l] => at4 batch row col channel i j k l | _ => 0) :=
  rowMajor_of_flat (by
    intro is hv
    match is, hv with
    | [i, j, k, l], _ => simp [at2, at3, at4]; ring)

/-- C15 for `view<T,N>` of any number of dimensions: subscripts inside the extents pass the assertions and give the
row-major address. -/
theorem view_n_row_major (s : List Nat) (hs : s ≠ []) :
    (∀ is, ValidIdx s is → ∃ p, atN s is = ok p) ∧
    RowMajor s (fun is => match atN s is with | ok p => p | _ => 0) := by
  have key : ∀ (s is : List Nat), s ≠ [] → ValidIdx s is → atN s is = ok (flat s is) := by
    intro s is
    fun_induction atN s is with
    | case1 => intro _ _; simp
    | case2 => intro _ _; simp [at2]
    | case3 => intro _ _; simp [at2, at3]; ring
    | case4 => intro _ _; simp [at2, at3, at4]; ring
    | case5 n s i is h1 h2 h3 h4 ih =>
      intro _ hv
      have hs : s ≠ [] := by
        intro e; subst e
        have := hv.2.length_eq
        simp at this
        exact h1 rfl this
      rw [Res.assert_true hv.1, bind_ok, ih hs hv.2]
      simp
    | case6 s is h1 h2 h3 h4 h5 =>
      intro hne hv
      exfalso
      cases s with
      | nil => exact hne rfl
      | cons n s =>
        cases is with
        | nil => exact hv
        | cons i is => exact h5 n s i is rfl rfl
  refine ⟨fun is hv => ⟨_, key s is hs hv⟩, rowMajor_of_flat (fun is hv => ?_)⟩
  simp only [key s is hs hv]

/-- C15, iterators: row `r` of a `view_2d` is the consecutive addresses of `[r][0..col-1]`, ending where row `r+1` starts. -/
theorem view_row_iterators (row col r k : Nat) :
    rowPos col r k = at2 row col false r k ∧ rowEnd col r = rowPos col (r + 1) 0 ∧ rowPos col r col = rowEnd col r := by
  refine ⟨by simp [rowPos, at2], by simp [rowPos, rowEnd], by simp [rowPos, rowEnd]; ring⟩

/-- C15, iterators: `k` steps of the column iterator of column `c` reach `[k][c]`, and `row` steps reach `col_end`. -/
theorem view_col_iterators (row col c k : Nat) :
    colPos col c k = at2 row col false k c ∧ colPos col c row = colEnd row col c := by
  have h : ∀ k, colPos col c k = k * col + c := by
    intro k
    induction k with
    | zero => simp [colPos]
    | succ k ih => simp [colPos, ih]; ring
  exact ⟨by simp [h, at2], by rw [h, colEnd]; ring⟩

example : at4 2 3 4 5 1 2 3 4 = 119 ∧ at3 3 4 5 0 0 0 = 0 ∧ atN [2, 2, 2, 2, 3, 2] [1, 0, 1, 0, 2, 1] = ok 65 ∧
    atN [2, 2, 2, 2, 3, 2] [2, 0, 1, 0, 2, 1] = abort := by decide

example : ValidIdx [2, 2, 2, 2, 3, 2] [1, 0, 1, 0, 2, 1] := by decide

end Verif.View
