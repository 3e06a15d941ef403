import Verif.Softmax.Model
import Verif.Norm.Props
import Mathlib.Algebra.BigOperators.Field
import Mathlib.Analysis.SpecialFunctions.ExpDeriv
import Mathlib.Analysis.SpecialFunctions.Log.Deriv
import Mathlib.Analysis.Calculus.Deriv.Add
import Mathlib.Analysis.Calculus.Deriv.Mul
/-!
# C72, C73, C93: softmax and the cross entropy loss

`soft eps n x` is the distribution the code computes for a row `x` of `n` numbers; with `eps = 0` it is the softmax function.
-/
namespace Verif.Softmax
open Verif Res Data Tensor
open Verif.Norm (batch_table table_batch)

noncomputable section

/-- The largest of `x 0, …, x (n-1)`. -/
def rowMax : Nat → (Nat → ℝ) → ℝ
  | 0, x => x 0
  | n + 1, x => max (rowMax n x) (x n)

/-- The exponentials of a row over their sum (plus eps). -/
def soft (eps : ℝ) (n : Nat) (x : Nat → ℝ) (j : Nat) : ℝ := Real.exp (x j - rowMax n x) / (∑ k ∈ Finset.range n, Real.exp (x k - rowMax n x) + eps)

theorem le_rowMax {n : Nat} {x : Nat → ℝ} {j : Nat} (h : j < n) : x j ≤ rowMax n x := by
  induction n with
  | zero => omega
  | succ n ih =>
    unfold rowMax
    by_cases hj : j = n
    · subst hj; exact le_max_right _ _
    · exact le_trans (ih (by omega)) (le_max_left _ _)

theorem rowMax_mem {n : Nat} (hn : n ≠ 0) (x : Nat → ℝ) : ∃ k, k < n ∧ x k = rowMax n x := by
  induction n with
  | zero => exact absurd rfl hn
  | succ n ih =>
    unfold rowMax
    by_cases h0 : n = 0
    · subst h0; exact ⟨0, by omega, (max_self _).symm⟩
    · obtain ⟨k, h1, h2⟩ := ih h0
      rcases max_choice (rowMax n x) (x n) with h | h
      · exact ⟨k, by omega, by rw [h, h2]⟩
      · exact ⟨n, by omega, h.symm⟩

theorem rowMax_eq {n : Nat} {x : Nat → ℝ} {m : ℝ} {k : Nat} (hk : k < n) (h1 : x k = m) (h2 : ∀ j, j < n → x j ≤ m) : rowMax n x = m := by
  refine le_antisymm ?_ (h1 ▸ le_rowMax hk)
  obtain ⟨l, h3, h4⟩ := rowMax_mem (n := n) (by omega) x
  rw [← h4]; exact h2 l h3

theorem rowMax_congr {n : Nat} (hn : n ≠ 0) {x y : Nat → ℝ} (h : ∀ j, j < n → x j = y j) : rowMax n x = rowMax n y := by
  obtain ⟨k, h1, h2⟩ := rowMax_mem hn y
  exact rowMax_eq h1 (by rw [h k h1, h2]) (fun j hj => by rw [h j hj]; exact le_rowMax hj)

theorem soft_congr {eps : ℝ} {n : Nat} {x y : Nat → ℝ} (h : ∀ j, j < n → x j = y j) {j : Nat} (hj : j < n) : soft eps n x j = soft eps n y j := by
  unfold soft
  rw [rowMax_congr (by omega) h, h j hj]
  congr 2
  exact Finset.sum_congr rfl (fun k hk => by rw [h k (Finset.mem_range.mp hk)])

/-! ## What the loops compute -/

theorem maxElement_ok {d : List ℝ} {rows n : Nat} {h : Nat → Nat → ℝ} (hd : Is2 d rows n h) {i : Nat} (hi : i < rows) (hn : n ≠ 0) :
    maxElement d (i * n) n = ok (rowMax n (h i)) := by
  have h0 := hd.rd hi (j := 0) (by omega)
  rw [Nat.add_zero] at h0
  unfold maxElement
  rw [h0, bind_ok]
  obtain ⟨m, k1, k2⟩ := loop_inv (n := n - 1) (s := h i 0) (body := fun k m => do
    let v ← rd d (i * n + (k + 1))
    pure (if m < v then v else m)) (I := fun k m => m = rowMax (k + 1) (h i)) (max_self _).symm (by
      intro k m hk hm
      refine ⟨_, by rw [hd.rd hi (by omega), bind_ok]; rfl, ?_⟩
      show _ = max (rowMax (k + 1) (h i)) (h i (k + 1))
      rw [← hm]
      split
      · rename_i hlt; rw [max_eq_right hlt.le]
      · rename_i hlt; rw [max_eq_left (not_lt.mp hlt)])
  rw [k1, k2, show n - 1 + 1 = n by omega]

theorem eachRow_ok {α : Type} (φ : α → α) {d : List α} {rows n : Nat} {h : Nat → Nat → α} (hd : Is2 d rows n h) {i : Nat} (hi : i < rows) :
    ∃ d', eachRow φ (i * n) n d = ok d' ∧ Is2 d' rows n (fun r c => if r = i then φ (h r c) else h r c) := by
  obtain ⟨d', k1, k2⟩ := loop_inv (n := n) (s := d) (body := fun j d => do
    let v ← rd d (i * n + j)
    wr d (i * n + j) (φ v)) (I := fun j d => Is2 d rows n (fun r c => if r = i ∧ c < j then φ (h r c) else h r c))
    (by simpa using hd) (by
      intro j o hj ho
      have hlt : i * n + j < o.length := by
        rw [ho.1]
        calc i * n + j < i * n + n := by omega
          _ = (i + 1) * n := by rw [Nat.succ_mul]
          _ ≤ rows * n := Nat.mul_le_mul_right _ hi
      refine ⟨o.set (i * n + j) (φ (h i j)), ?_, by rw [List.length_set]; exact ho.1, fun r c hr hc => ?_⟩
      · rw [ho.rd hi hj, bind_ok, if_neg (by omega), wr_ok hlt]
      · rw [List.getElem?_set]
        by_cases he : i * n + j = r * n + c
        · have hin : r = i ∧ c = j := by
            have e1 : (i * n + j) / n = i := by rw [Nat.mul_comm, Nat.mul_add_div (by omega), Nat.div_eq_of_lt hj, Nat.add_zero]
            have e2 : (r * n + c) / n = r := by rw [Nat.mul_comm, Nat.mul_add_div (by omega), Nat.div_eq_of_lt hc, Nat.add_zero]
            have e3 : r = i := by rw [← e1, ← e2, he]
            subst e3
            exact ⟨rfl, by omega⟩
          rw [if_pos he, if_pos hlt, hin.1, hin.2]
          dsimp only
          rw [if_pos ⟨rfl, by omega⟩]
        · rw [if_neg he, ho.2 r c hr hc]
          dsimp only
          by_cases hri : r = i
          · subst hri
            have : c ≠ j := fun h => he (by rw [h])
            by_cases hcj : c < j
            · rw [if_pos ⟨rfl, hcj⟩, if_pos ⟨rfl, by omega⟩]
            · rw [if_neg (by omega), if_neg (by omega)]
          · rw [if_neg (by omega), if_neg (by omega)])
  refine ⟨d', k1, k2.1, fun r c hr hc => ?_⟩
  rw [k2.2 r c hr hc]
  simp [hc]

theorem accumulateRow_ok (φ : ℝ → ℝ) {d : List ℝ} {rows n : Nat} {h : Nat → Nat → ℝ} (hd : Is2 d rows n h) {i : Nat} (hi : i < rows) :
    accumulateRow φ (i * n) n d = ok (∑ j ∈ Finset.range n, φ (h i j)) := by
  unfold accumulateRow
  rw [loop_sum (g := fun j => φ (h i j)) 0 (fun j s hj => by rw [hd.rd hi hj, bind_ok]; rfl), zero_add]

/-- Changing a table row by row. -/
theorem rows_ok {α : Type} {body : Nat → List α → Res (List α)} {rows n : Nat} {f g : Nat → Nat → α}
    (hb : ∀ i d h, i < rows → Is2 d rows n h → h i = f i → ∃ d', body i d = ok d' ∧ Is2 d' rows n (fun r c => if r = i then g i c else h r c))
    {d : List α} (hd : Is2 d rows n f) : ∃ d', loop rows body d = ok d' ∧ Is2 d' rows n g := by
  obtain ⟨d', k1, k2⟩ := loop_inv (n := rows) (s := d) (body := body) (I := fun i d => Is2 d rows n (fun r c => if r < i then g r c else f r c))
    (by simpa using hd) (by
      intro i o hi ho
      obtain ⟨d', h1, h2⟩ := hb i o _ hi ho (by funext c; simp)
      refine ⟨d', h1, h2.1, fun r c hr hc => ?_⟩
      rw [h2.2 r c hr hc]
      dsimp only
      by_cases hri : r = i
      · subst hri; simp
      · by_cases hlt : r < i
        · rw [if_neg hri, if_pos hlt, if_pos (by omega)]
        · rw [if_neg hri, if_neg hlt, if_neg (by omega)])
  refine ⟨d', k1, k2.1, fun r c hr hc => ?_⟩
  rw [k2.2 r c hr hc]
  dsimp only
  rw [if_pos hr]

theorem Is2.congr' {α : Type} {d : List α} {rows n : Nat} {f g : Nat → Nat → α} (h : Is2 d rows n f) (e : ∀ r c, r < rows → c < n → f r c = g r c) : Is2 d rows n g :=
  ⟨h.1, fun r c hr hc => by rw [h.2 r c hr hc, e r c hr hc]⟩

/-- The tensor function: every row of the last dimension is turned into `soft eps`. -/
theorem softmax_ok (eps : ℝ) {t : Ten ℝ} {pre : List Nat} {n : Nat} {a : List Nat → ℝ} (ht : t.Has (pre ++ [n]) a) (hn : n ≠ 0) (hs : size pre ≠ 0) :
    ∃ y, softmax eps t = ok y ∧ y.Has (pre ++ [n]) (fun is => soft eps n (fun c => a (is.dropLast ++ [c])) (is.getLastD 0)) := by
  have hb := batch_table ht
  have hrows : t.data.length / n = size pre := by rw [hb.1]; exact Nat.mul_div_cancel _ (by omega)
  have hlast : t.shape.getLastD 0 = n := by rw [ht.1]; simp
  obtain ⟨d, h1, h2⟩ := rows_ok (g := fun r c => soft eps n (fun c => a (unflat pre r ++ [c])) c) (body := fun i d => do
    let mx ← maxElement d (i * n) n
    let d ← eachRow (fun v => v - mx) (i * n) n d
    let ac ← accumulateRow Real.exp (i * n) n d
    eachRow (fun v => Real.exp v / (ac + eps)) (i * n) n d) (by
      intro i d h hi hd hh
      rw [maxElement_ok hd hi hn, bind_ok]
      obtain ⟨d1, k1, k2⟩ := eachRow_ok (fun v => v - rowMax n (h i)) hd hi
      rw [k1, bind_ok, accumulateRow_ok Real.exp k2 hi, bind_ok]
      obtain ⟨d2, k3, k4⟩ := eachRow_ok (fun v => Real.exp v / (∑ j ∈ Finset.range n, Real.exp (if i = i then h i j - rowMax n (h i) else h i j) + eps)) k2 hi
      refine ⟨d2, k3, Is2.congr' k4 (fun r c _ _ => ?_)⟩
      by_cases hri : r = i
      · subst hri
        simp only [if_true]
        rw [hh]; rfl
      · simp only [if_neg hri]) hb
  refine ⟨⟨pre ++ [n], d⟩, ?_, table_batch h2 (fun ip j v1 _ => ?_)⟩
  · unfold softmax softmaxOf
    have hne : t.data ≠ [] := by
      intro h
      have := hb.1
      rw [h] at this
      rcases Nat.mul_eq_zero.mp this.symm with h | h <;> contradiction
    rw [assert_true hne, bind_ok]
    dsimp only
    rw [hlast, require_true hn, bind_ok, hrows, h1, bind_ok, ht.1]
    rfl
  · simp [unflat_flat v1]

/-- The operator: every row is turned into `soft 0`. -/
theorem softmaxForward_ok {t : Ten ℝ} {pre : List Nat} {n : Nat} {a : List Nat → ℝ} (ht : t.Has (pre ++ [n]) a) (hn : n ≠ 0) (hs : size pre ≠ 0) :
    ∃ y, softmaxForward t = ok y ∧ y.Has (pre ++ [n]) (fun is => soft 0 n (fun c => a (is.dropLast ++ [c])) (is.getLastD 0)) := by
  have hb := batch_table ht
  have hrows : t.data.length / n = size pre := by rw [hb.1]; exact Nat.mul_div_cancel _ (by omega)
  have hlast : t.shape.getLastD 0 = n := by rw [ht.1]; simp
  obtain ⟨d, h1, h2⟩ := rows_ok (g := fun r c => soft 0 n (fun c => a (unflat pre r ++ [c])) c) (body := fun i d => do
    let mx ← maxElement d (i * n) n
    let d ← eachRow (fun v => Real.exp (v - mx)) (i * n) n d
    let sum ← accumulateRow (fun v => v) (i * n) n d
    eachRow (fun v => v / sum) (i * n) n d) (by
      intro i d h hi hd hh
      rw [maxElement_ok hd hi hn, bind_ok]
      obtain ⟨d1, k1, k2⟩ := eachRow_ok (fun v => Real.exp (v - rowMax n (h i))) hd hi
      rw [k1, bind_ok, accumulateRow_ok (fun v => v) k2 hi, bind_ok]
      obtain ⟨d2, k3, k4⟩ := eachRow_ok (fun v => v / (∑ j ∈ Finset.range n, (if i = i then Real.exp (h i j - rowMax n (h i)) else h i j))) k2 hi
      refine ⟨d2, k3, Is2.congr' k4 (fun r c _ _ => ?_)⟩
      by_cases hri : r = i
      · subst hri
        simp only [if_true]
        rw [hh]; unfold soft; rw [add_zero]
      · simp only [if_neg hri]) hb
  refine ⟨⟨pre ++ [n], d⟩, ?_, table_batch h2 (fun ip j v1 _ => ?_)⟩
  · unfold softmaxForward
    have hne : t.data ≠ [] := by
      intro h
      have := hb.1
      rw [h] at this
      rcases Nat.mul_eq_zero.mp this.symm with h | h <;> contradiction
    rw [assert_true hne, bind_ok]
    dsimp only
    rw [hlast, require_true hn, bind_ok, hrows, h1, bind_ok, ht.1]
    rfl
  · simp [unflat_flat v1]

/-! ## C72 -/

theorem one_le_ac {n : Nat} (hn : n ≠ 0) (x : Nat → ℝ) : 1 ≤ ∑ k ∈ Finset.range n, Real.exp (x k - rowMax n x) := by
  obtain ⟨k, h1, h2⟩ := rowMax_mem hn x
  calc (1 : ℝ) = Real.exp (x k - rowMax n x) := by rw [h2, sub_self, Real.exp_zero]
    _ ≤ _ := Finset.single_le_sum (f := fun k => Real.exp (x k - rowMax n x)) (fun _ _ => (Real.exp_pos _).le) (Finset.mem_range.mpr h1)

theorem soft_pos {eps : ℝ} (he : 0 ≤ eps) {n : Nat} (hn : n ≠ 0) (x : Nat → ℝ) (j : Nat) : 0 < soft eps n x j :=
  div_pos (Real.exp_pos _) (by linarith [one_le_ac hn x])

theorem soft_sum (eps : ℝ) (n : Nat) (x : Nat → ℝ) :
    ∑ j ∈ Finset.range n, soft eps n x j = (∑ k ∈ Finset.range n, Real.exp (x k - rowMax n x)) / (∑ k ∈ Finset.range n, Real.exp (x k - rowMax n x) + eps) := by
  unfold soft; rw [Finset.sum_div]

theorem soft_shift (eps : ℝ) {n : Nat} (hn : n ≠ 0) (x : Nat → ℝ) (k : ℝ) (j : Nat) : soft eps n (fun c => x c + k) j = soft eps n x j := by
  have hm : rowMax n (fun c => x c + k) = rowMax n x + k := by
    obtain ⟨l, h1, h2⟩ := rowMax_mem hn x
    exact rowMax_eq h1 (by rw [h2]) (fun j hj => by linarith [le_rowMax (x := x) hj])
  unfold soft
  rw [hm]
  simp only [add_sub_add_right_eq_sub]

/-- C72: every row of the tensor function softmax is positive and sums to a number between 1-eps and 1. -/
theorem softmax_rows (eps : ℝ) (he : 0 ≤ eps) (t : Ten ℝ) (pre : List Nat) (n : Nat) (a : List Nat → ℝ) (ht : t.Has (pre ++ [n]) a) (hn : n ≠ 0) (hs : size pre ≠ 0) :
    ∃ y, softmax eps t = ok y ∧ y.shape = t.shape ∧ ∀ ip, ValidIdx pre ip →
      (∀ c, c < n → 0 < y.at (ip ++ [c])) ∧ ∑ c ∈ Finset.range n, y.at (ip ++ [c]) ≤ 1 ∧ 1 - eps ≤ ∑ c ∈ Finset.range n, y.at (ip ++ [c]) := by
  obtain ⟨y, h1, h2⟩ := softmax_ok eps ht hn hs
  refine ⟨y, h1, by rw [h2.1, ht.1], fun ip hip => ?_⟩
  have hv : ∀ c, c < n → y.at (ip ++ [c]) = soft eps n (fun c => a (ip ++ [c])) c := fun c hc => by
    rw [h2.at_eq ((validIdx_append hip.length_eq).mpr ⟨hip, by exact ⟨hc, trivial⟩⟩)]; simp
  rw [Finset.sum_congr rfl (fun c hc => hv c (Finset.mem_range.mp hc)), soft_sum]
  have h1 := one_le_ac hn (fun c => a (ip ++ [c]))
  refine ⟨fun c hc => by rw [hv c hc]; exact soft_pos he hn _ _, ?_, ?_⟩
  · rw [div_le_one (by linarith)]; linarith
  · rw [le_div_iff₀ (by linarith)]
    nlinarith

/-- C72: adding a number to every element of a row does not change the result. -/
theorem softmax_shift (eps : ℝ) (t t' : Ten ℝ) (pre : List Nat) (n : Nat) (a : List Nat → ℝ) (k : List Nat → ℝ) (ht : t.Has (pre ++ [n]) a)
    (ht' : t'.Has (pre ++ [n]) (fun is => a is + k is.dropLast)) (hn : n ≠ 0) (hs : size pre ≠ 0) : softmax eps t' = softmax eps t := by
  obtain ⟨y, h1, h2⟩ := softmax_ok eps ht hn hs
  obtain ⟨y', h3, h4⟩ := softmax_ok eps ht' hn hs
  rw [h1, h3, Ten.Has.ext h4 (h2.congr (fun is hv => ?_))]
  simp only [List.dropLast_concat]
  exact (soft_shift eps hn _ _ _).symm

/-- C72 for the operator softmax: the rows are distributions, exactly. -/
theorem operator_rows (t : Ten ℝ) (pre : List Nat) (n : Nat) (a : List Nat → ℝ) (ht : t.Has (pre ++ [n]) a) (hn : n ≠ 0) (hs : size pre ≠ 0) :
    ∃ y, softmaxForward t = ok y ∧ y.shape = t.shape ∧ ∀ ip, ValidIdx pre ip →
      (∀ c, c < n → y.at (ip ++ [c]) = Real.exp (a (ip ++ [c])) / ∑ k ∈ Finset.range n, Real.exp (a (ip ++ [k]))) ∧ ∑ c ∈ Finset.range n, y.at (ip ++ [c]) = 1 := by
  obtain ⟨y, h1, h2⟩ := softmaxForward_ok ht hn hs
  refine ⟨y, h1, by rw [h2.1, ht.1], fun ip hip => ?_⟩
  have hv : ∀ c, c < n → y.at (ip ++ [c]) = soft 0 n (fun c => a (ip ++ [c])) c := fun c hc => by
    rw [h2.at_eq ((validIdx_append hip.length_eq).mpr ⟨hip, by exact ⟨hc, trivial⟩⟩)]; simp
  refine ⟨fun c hc => ?_, ?_⟩
  · rw [hv c hc]
    unfold soft
    simp only [Real.exp_sub, add_zero]
    rw [← Finset.sum_div, div_div_div_cancel_right₀ (Real.exp_ne_zero _)]
  · rw [Finset.sum_congr rfl (fun c hc => hv c (Finset.mem_range.mp hc)), soft_sum, add_zero, div_self]
    linarith [one_le_ac hn (fun c => a (ip ++ [c]))]

/-! ## Derivatives -/

/-- A row with `t` added to element `j`. -/
def bump (x : Nat → ℝ) (j : Nat) (t : ℝ) (k : Nat) : ℝ := x k + t * (if k = j then 1 else 0)

theorem bump_zero (x : Nat → ℝ) (j : Nat) : bump x j 0 = x := by funext k; simp [bump]

/-- Below the maximum of its row an element can be moved a little without changing the maximum. -/
theorem rowMax_bump_below {n : Nat} {x : Nat → ℝ} {j l : Nat} (hl : l < n) (h : x j < x l) : ∀ᶠ t in nhds (0 : ℝ), rowMax n (bump x j t) = rowMax n x := by
  obtain ⟨k, h1, h2⟩ := rowMax_mem (n := n) (by omega) x
  have hjm : x j < rowMax n x := lt_of_lt_of_le h (le_rowMax hl)
  have hkj : k ≠ j := fun he => by rw [he] at h2; linarith
  filter_upwards [gt_mem_nhds (show (0 : ℝ) < rowMax n x - x j by linarith)] with t ht
  refine rowMax_eq h1 (by simp [bump, hkj, h2]) (fun i hi => ?_)
  unfold bump
  by_cases hij : i = j
  · rw [if_pos hij, hij]; linarith
  · rw [if_neg hij, mul_zero, add_zero]; exact le_rowMax hi

/-- The only maximum of its row stays the maximum when moved a little. -/
theorem rowMax_bump_top {n : Nat} {x : Nat → ℝ} {j : Nat} (hj : j < n) (h : ∀ l, l < n → l ≠ j → x l < x j) : ∀ᶠ t in nhds (0 : ℝ), rowMax n (bump x j t) = x j + t := by
  have h1 : ∀ l ∈ Finset.range n, ∀ᶠ t in nhds (0 : ℝ), l ≠ j → x l < x j + t := by
    intro l hl
    by_cases hlj : l = j
    · exact Filter.Eventually.of_forall (fun t h => absurd hlj h)
    · filter_upwards [lt_mem_nhds (show x l - x j < (0 : ℝ) by linarith [h l (Finset.mem_range.mp hl) hlj])] with t ht _
      linarith
  filter_upwards [(Filter.eventually_all_finset (Finset.range n)).mpr h1] with t ht
  refine rowMax_eq hj (by simp [bump]) (fun i hi => ?_)
  unfold bump
  by_cases hij : i = j
  · rw [if_pos hij, hij]; linarith
  · rw [if_neg hij, mul_zero, add_zero]; exact (ht i (Finset.mem_range.mpr hi) hij).le

/-- The logarithms of the distribution, while the maximum moves at the speed `μ`. -/
theorem log_soft_deriv {eps : ℝ} (he : 0 ≤ eps) {n : Nat} (hn : n ≠ 0) (x : Nat → ℝ) {j : Nat} (hj : j < n) (μ : ℝ)
    (hM : ∀ᶠ t in nhds (0 : ℝ), rowMax n (bump x j t) = rowMax n x + μ * t) (k : Nat) :
    HasDerivAt (fun t => Real.log (soft eps n (bump x j t) k))
      ((if k = j then 1 else 0) - soft eps n x j - μ * (eps / (∑ k ∈ Finset.range n, Real.exp (x k - rowMax n x) + eps))) 0 := by
  have hac := one_le_ac hn x
  set Z := ∑ k ∈ Finset.range n, Real.exp (x k - rowMax n x) + eps with hZ
  have hZ0 : 0 < Z := by linarith
  have hin : ∀ l, HasDerivAt (fun t => bump x j t l - (rowMax n x + μ * t)) ((if l = j then 1 else 0) - μ) 0 := by
    intro l
    have h1 : HasDerivAt (fun t : ℝ => bump x j t l) (if l = j then 1 else 0) 0 := by
      unfold bump
      simpa using ((hasDerivAt_id (0 : ℝ)).mul_const (if l = j then (1 : ℝ) else 0)).const_add (x l)
    have h2 : HasDerivAt (fun t : ℝ => rowMax n x + μ * t) μ 0 := by
      simpa using ((hasDerivAt_id (0 : ℝ)).const_mul μ).const_add (rowMax n x)
    exact h1.sub h2
  have hexp : ∀ l, HasDerivAt (fun t => Real.exp (bump x j t l - (rowMax n x + μ * t))) (Real.exp (x l - rowMax n x) * ((if l = j then 1 else 0) - μ)) 0 := by
    intro l
    have := (hin l).exp
    rw [bump_zero, mul_zero, add_zero] at this
    exact this
  have hsum : HasDerivAt (fun t => ∑ l ∈ Finset.range n, Real.exp (bump x j t l - (rowMax n x + μ * t)) + eps)
      (∑ l ∈ Finset.range n, Real.exp (x l - rowMax n x) * ((if l = j then 1 else 0) - μ)) 0 :=
    (HasDerivAt.fun_sum (fun l _ => hexp l)).add_const eps
  have hsv : ∑ l ∈ Finset.range n, Real.exp (x l - rowMax n x) * ((if l = j then 1 else 0) - μ) = Real.exp (x j - rowMax n x) - μ * (Z - eps) := by
    simp only [mul_sub, Finset.sum_sub_distrib, mul_ite, mul_one, mul_zero, Finset.sum_ite_eq', Finset.mem_range, hj, if_true]
    rw [← Finset.sum_mul, hZ]; ring
  rw [hsv] at hsum
  have hlog := hsum.log (by rw [bump_zero, mul_zero, add_zero]; exact hZ0.ne')
  have hall := (hin k).sub hlog
  rw [bump_zero, mul_zero, add_zero, ← hZ] at hall
  have hval : ((if k = j then 1 else 0) - μ) - (Real.exp (x j - rowMax n x) - μ * (Z - eps)) / Z = (if k = j then 1 else 0) - soft eps n x j - μ * (eps / Z) := by
    unfold soft
    rw [← hZ]
    field_simp
    ring
  rw [hval] at hall
  refine hall.congr_of_eventuallyEq ?_
  filter_upwards [hM] with t ht
  have hpos : 0 < ∑ l ∈ Finset.range n, Real.exp (bump x j t l - (rowMax n x + μ * t)) + eps := by
    have := one_le_ac hn (bump x j t)
    rw [ht] at this
    linarith
  show Real.log (soft eps n (bump x j t) k) = _
  unfold soft
  rw [ht, Real.log_div (Real.exp_ne_zero _) hpos.ne', Real.log_exp]
  rfl

/-- What a row adds to the loss. -/
def rowLoss (eps : ℝ) (n : Nat) (w x : Nat → ℝ) : ℝ := -∑ k ∈ Finset.range n, w k * Real.log (max eps (soft eps n x k))

theorem rowLoss_deriv {eps : ℝ} (he : 0 ≤ eps) {n : Nat} (hn : n ≠ 0) (w x : Nat → ℝ) (hw : ∑ k ∈ Finset.range n, w k = 1) {j : Nat} (hj : j < n) (μ : ℝ)
    (hM : ∀ᶠ t in nhds (0 : ℝ), rowMax n (bump x j t) = rowMax n x + μ * t) (hc : ∀ k, k < n → eps < soft eps n x k) :
    HasDerivAt (fun t => rowLoss eps n w (bump x j t)) (soft eps n x j + μ * (eps / (∑ k ∈ Finset.range n, Real.exp (x k - rowMax n x) + eps)) - w j) 0 := by
  have hd := fun k => log_soft_deriv he hn x hj μ hM k
  set δ := μ * (eps / (∑ k ∈ Finset.range n, Real.exp (x k - rowMax n x) + eps)) with hδ
  have h1 : HasDerivAt (fun t => -∑ k ∈ Finset.range n, w k * Real.log (soft eps n (bump x j t) k))
      (-∑ k ∈ Finset.range n, w k * ((if k = j then 1 else 0) - soft eps n x j - δ)) 0 :=
    (HasDerivAt.fun_sum (fun k _ => (hd k).const_mul (w k))).neg
  have hv : -∑ k ∈ Finset.range n, w k * ((if k = j then 1 else 0) - soft eps n x j - δ) = soft eps n x j + δ - w j := by
    simp only [mul_sub, Finset.sum_sub_distrib, mul_ite, mul_one, mul_zero, Finset.sum_ite_eq', Finset.mem_range, hj, if_true]
    rw [← Finset.sum_mul, ← Finset.sum_mul, hw]; ring
  rw [hv] at h1
  refine h1.congr_of_eventuallyEq ?_
  have hev : ∀ k ∈ Finset.range n, ∀ᶠ t in nhds (0 : ℝ), eps < soft eps n (bump x j t) k := by
    intro k hk
    have hcont : ContinuousAt (fun t => Real.exp (Real.log (soft eps n (bump x j t) k))) 0 := (hd k).continuousAt.rexp
    have heq : (fun t => Real.exp (Real.log (soft eps n (bump x j t) k))) = fun t => soft eps n (bump x j t) k := by
      funext t; exact Real.exp_log (soft_pos he hn _ _)
    rw [heq] at hcont
    refine hcont.eventually (lt_mem_nhds ?_)
    dsimp only
    rw [bump_zero]; exact hc k (Finset.mem_range.mp hk)
  filter_upwards [(Filter.eventually_all_finset (Finset.range n)).mpr hev] with t ht
  show rowLoss eps n w (bump x j t) = _
  unfold rowLoss
  congr 1
  exact Finset.sum_congr rfl (fun k hk => by rw [max_eq_right (ht k hk).le])

/-! ## C73 -/

theorem stdMax_eq (a b : ℝ) : stdMax a b = max a b := by
  unfold stdMax
  split
  · rw [max_eq_right (le_of_lt (by assumption))]
  · rw [max_eq_left (not_lt.mp (by assumption))]

theorem crossForward_eq (eps f : ℝ) (truth pred : Ten ℝ) : crossForward eps f truth pred = (do
    let sm ← softmax eps pred
    require (truth.shape ≠ [])
    let n := truth.shape.getLastD 0
    require (n ≠ 1)
    let ans ← loop truth.data.length (fun i ans => do
      let g ← rd truth.data i
      let s ← rd sm.data i
      pure (ans - weight eps f n g * Real.log (max eps s))) 0
    pure ⟨[1], [ans / ((truth.shape.headD 0 : Nat) : ℝ)]⟩) := by
  unfold crossForward crossForwardOf softmax weight
  simp only [stdMax_eq]

/-- The loss as a function of the labels `g` and the prediction `a`, both of shape `(N, rest, n)`. -/
def lossOf (eps f : ℝ) (N : Nat) (rest : List Nat) (n : Nat) (g a : List Nat → ℝ) : ℝ :=
  sumIdx (N :: rest) (fun ip => rowLoss eps n (fun c => weight eps f n (g (ip ++ [c]))) (fun c => a (ip ++ [c]))) / N

theorem crossForward_ok (eps f : ℝ) (truth pred : Ten ℝ) (N : Nat) (rest : List Nat) (n : Nat) (g a : List Nat → ℝ) (hg : truth.Has (N :: rest ++ [n]) g)
    (ha : pred.Has (N :: rest ++ [n]) a) (hn : 2 ≤ n) (hs : size (N :: rest) ≠ 0) :
    crossForward eps f truth pred = ok ⟨[1], [lossOf eps f N rest n g a]⟩ := by
  obtain ⟨sm, h1, h2⟩ := softmax_ok eps ha (by omega) hs
  have hlast : truth.shape.getLastD 0 = n := by rw [hg.1]; exact List.getLastD_concat
  have hhead : truth.shape.headD 0 = N := by rw [hg.1]; rfl
  rw [crossForward_eq]
  rw [h1, bind_ok, require_true (by rw [hg.1]; simp), bind_ok]
  dsimp only
  rw [hlast, require_true (by omega), bind_ok, hhead]
  rw [hg.2.1, loop_sum (g := fun p => -(weight eps f n (g (unflat (N :: rest ++ [n]) p)) *
      Real.log (max eps (soft eps n (fun c => a ((unflat (N :: rest ++ [n]) p).dropLast ++ [c])) ((unflat (N :: rest ++ [n]) p).getLastD 0))))) 0
    (fun p s hp => by rw [rd_ok (hg.2.pos hp), bind_ok, rd_ok (h2.2.pos hp), bind_ok, pure_eq, sub_eq_add_neg]), bind_ok, zero_add]
  have : ∑ p ∈ Finset.range (size (N :: rest ++ [n])), -(weight eps f n (g (unflat (N :: rest ++ [n]) p)) *
      Real.log (max eps (soft eps n (fun c => a ((unflat (N :: rest ++ [n]) p).dropLast ++ [c])) ((unflat (N :: rest ++ [n]) p).getLastD 0)))) =
      sumIdx (N :: rest) (fun ip => rowLoss eps n (fun c => weight eps f n (g (ip ++ [c]))) (fun c => a (ip ++ [c]))) := by
    rw [← sumIdx_eq_range (N :: rest ++ [n]) (fun is => -(weight eps f n (g is) * Real.log (max eps (soft eps n (fun c => a (is.dropLast ++ [c])) (is.getLastD 0))))), sumIdx_append]
    refine sumIdx_congr (fun ip _ => ?_)
    unfold rowLoss
    rw [← Finset.sum_neg_distrib]
    simp [sumIdx]
  rw [this]
  rfl

/-- What backward computes for the prediction. -/
theorem crossBackward_ok (eps f : ℝ) (truth pred grad : Ten ℝ) (N : Nat) (rest : List Nat) (n : Nat) (g a : List Nat → ℝ) (c : ℝ) (hg : truth.Has (N :: rest ++ [n]) g)
    (ha : pred.Has (N :: rest ++ [n]) a) (hc : grad.data[0]? = some c) (hn : 2 ≤ n) (hs : size (N :: rest) ≠ 0) :
    ∃ L R, crossBackward eps f truth pred grad = ok (L, R) ∧
      R.Has (N :: rest ++ [n]) (fun is => c * (soft eps n (fun k => a (is.dropLast ++ [k])) (is.getLastD 0) - weight eps f n (g is))) := by
  obtain ⟨sm, h1, h2⟩ := softmax_ok eps ha (by omega) hs
  have hlast : truth.shape.getLastD 0 = n := by rw [hg.1]; exact List.getLastD_concat
  obtain ⟨d, k1, k2, k3⟩ := update1 (n := size (N :: rest ++ [n])) (out := sm.data) (body := fun i d => do
    let g ← rd truth.data i
    let s ← rd d i
    wr d i (c * (s - weight eps f n g))) (a := fun p => soft eps n (fun k => a ((unflat (N :: rest ++ [n]) p).dropLast ++ [k])) ((unflat (N :: rest ++ [n]) p).getLastD 0))
    (g := fun p => c * (soft eps n (fun k => a ((unflat (N :: rest ++ [n]) p).dropLast ++ [k])) ((unflat (N :: rest ++ [n]) p).getLastD 0) - weight eps f n (g (unflat (N :: rest ++ [n]) p))))
    (fun p o hp _ h => by rw [rd_ok (hg.2.pos hp), bind_ok, rd_ok h, bind_ok]) h2.2.1 (fun p hp => h2.2.pos hp)
  refine ⟨⟨truth.shape, truth.data.map (fun x => x * c)⟩, ⟨N :: rest ++ [n], d⟩, ?_, rfl, isT_of_pos k2 k3 (fun is hv => by rw [unflat_flat hv])⟩
  · unfold crossBackward
    rw [rd_ok hc, bind_ok, require_true (by rw [hg.1]; simp), bind_ok]
    dsimp only
    rw [hlast, require_true (by omega), bind_ok, h1, bind_ok, hg.2.1, k1, bind_ok, h2.1]
    rfl

/-- Moving one element moves the loss by what its row moves. -/
theorem loss_deriv {eps : ℝ} (he : 0 ≤ eps) (f : ℝ) (N : Nat) (rest : List Nat) (n : Nat) (hn : 2 ≤ n) (g a : List Nat → ℝ) (ip : List Nat) (hip : ValidIdx (N :: rest) ip) {j : Nat} (hj : j < n)
    (hw : ∑ k ∈ Finset.range n, weight eps f n (g (ip ++ [k])) = 1) (μ : ℝ)
    (hM : ∀ᶠ t in nhds (0 : ℝ), rowMax n (bump (fun k => a (ip ++ [k])) j t) = rowMax n (fun k => a (ip ++ [k])) + μ * t)
    (hc : ∀ k, k < n → eps < soft eps n (fun k => a (ip ++ [k])) k) :
    HasDerivAt (fun t => lossOf eps f N rest n g (fun is => a is + t * (if is = ip ++ [j] then 1 else 0)))
      ((soft eps n (fun k => a (ip ++ [k])) j + μ * (eps / (∑ k ∈ Finset.range n, Real.exp (a (ip ++ [k]) - rowMax n (fun k => a (ip ++ [k]))) + eps)) - weight eps f n (g (ip ++ [j]))) / N) 0 := by
  have hrow := rowLoss_deriv he (n := n) (by omega) (fun k => weight eps f n (g (ip ++ [k]))) (fun k => a (ip ++ [k])) hw hj μ hM hc
  set D := soft eps n (fun k => a (ip ++ [k])) j + μ * (eps / (∑ k ∈ Finset.range n, Real.exp (a (ip ++ [k]) - rowMax n (fun k => a (ip ++ [k]))) + eps)) - weight eps f n (g (ip ++ [j])) with hD
  unfold lossOf
  refine HasDerivAt.div_const ?_ _
  simp only [sumIdx_eq_range]
  have hterm : ∀ p ∈ Finset.range (size (N :: rest)), HasDerivAt (fun t => rowLoss eps n (fun c => weight eps f n (g (unflat (N :: rest) p ++ [c])))
      (fun c => a (unflat (N :: rest) p ++ [c]) + t * (if unflat (N :: rest) p ++ [c] = ip ++ [j] then 1 else 0))) (if p = flat (N :: rest) ip then D else 0) 0 := by
    intro p hp
    by_cases h : p = flat (N :: rest) ip
    · rw [if_pos h, h, unflat_flat hip]
      have : (fun t => rowLoss eps n (fun c => weight eps f n (g (ip ++ [c]))) (fun c => a (ip ++ [c]) + t * (if ip ++ [c] = ip ++ [j] then 1 else 0))) =
          fun t => rowLoss eps n (fun k => weight eps f n (g (ip ++ [k]))) (bump (fun k => a (ip ++ [k])) j t) := by
        funext t
        congr 1
        funext c
        unfold bump
        simp
      rw [this]
      exact hrow
    · rw [if_neg h]
      have hne : unflat (N :: rest) p ≠ ip := fun he => h (by rw [← he, (unflat_spec (Finset.mem_range.mp hp)).2])
      have : (fun t : ℝ => rowLoss eps n (fun c => weight eps f n (g (unflat (N :: rest) p ++ [c])))
          (fun c => a (unflat (N :: rest) p ++ [c]) + t * (if unflat (N :: rest) p ++ [c] = ip ++ [j] then 1 else 0))) =
          fun _ => rowLoss eps n (fun c => weight eps f n (g (unflat (N :: rest) p ++ [c]))) (fun c => a (unflat (N :: rest) p ++ [c])) := by
        funext t
        congr 1
        funext c
        rw [if_neg (fun he : _ ++ [c] = _ ++ [j] => hne (List.append_inj_left' he rfl)), mul_zero, add_zero]
      rw [this]
      exact hasDerivAt_const _ _
  have h := HasDerivAt.fun_sum hterm
  rwa [Finset.sum_ite_eq', if_pos (Finset.mem_range.mpr (flat_lt hip))] at h

/-- Exactly one label of the row is above eps. -/
def OneHot (eps : ℝ) (n : Nat) (row : Nat → ℝ) : Prop := ∃ k, k < n ∧ eps < row k ∧ ∀ l, l < n → l ≠ k → ¬eps < row l

theorem OneHot.weights {eps : ℝ} {n : Nat} {row : Nat → ℝ} (h : OneHot eps n row) (hn : 2 ≤ n) (f : ℝ) : ∑ k ∈ Finset.range n, weight eps f n (row k) = 1 := by
  obtain ⟨k, h1, h2, h3⟩ := h
  have : ∀ l ∈ Finset.range n, weight eps f n (row l) = f / ((n - 1 : Nat) : ℝ) + (if l = k then 1 - f - f / ((n - 1 : Nat) : ℝ) else 0) := by
    intro l hl
    unfold weight weightOf
    by_cases hlk : l = k
    · rw [hlk, if_pos h2, if_pos rfl]; ring
    · rw [if_neg (h3 l (Finset.mem_range.mp hl) hlk), if_neg hlk, add_zero]
  rw [Finset.sum_congr rfl this, Finset.sum_add_distrib, Finset.sum_const, Finset.card_range, Finset.sum_ite_eq', if_pos (Finset.mem_range.mpr h1), nsmul_eq_mul]
  have hne : ((n - 1 : Nat) : ℝ) ≠ 0 := Nat.cast_ne_zero.mpr (by omega)
  have hcast : (n : ℝ) = ((n - 1 : Nat) : ℝ) + 1 := by
    rw [← Nat.cast_succ]; congr 1; omega
  rw [hcast]
  field_simp
  ring

/-- C73, for one sample (first dimension 1): what backward returns for an element below the maximum of its row is the derivative of the loss times the
incoming gradient.  (All probabilities of the row must be above eps, below which the forward action takes eps in their place.) -/
theorem cross_entropy_partial (eps f : ℝ) (he : 0 ≤ eps) (truth pred grad : Ten ℝ) (rest : List Nat) (n : Nat) (g a : List Nat → ℝ) (c : ℝ)
    (hg : truth.Has (1 :: rest ++ [n]) g) (ha : pred.Has (1 :: rest ++ [n]) a) (hgr : grad.data[0]? = some c) (hn : 2 ≤ n) (hs : size (1 :: rest) ≠ 0)
    (ip : List Nat) (hip : ValidIdx (1 :: rest) ip) (j l : Nat) (hj : j < n) (hl : l < n) (hjl : a (ip ++ [j]) < a (ip ++ [l])) (hone : OneHot eps n (fun k => g (ip ++ [k])))
    (hc : ∀ k, k < n → eps < soft eps n (fun k => a (ip ++ [k])) k) :
    ∃ L R, crossBackward eps f truth pred grad = ok (L, R) ∧
      HasDerivAt (fun t => c * lossOf eps f 1 rest n g (fun is => a is + t * (if is = ip ++ [j] then 1 else 0))) (R.at (ip ++ [j])) 0 := by
  obtain ⟨L, R, h1, h2⟩ := crossBackward_ok eps f truth pred grad 1 rest n g a c hg ha hgr hn hs
  refine ⟨L, R, h1, ?_⟩
  have hM := rowMax_bump_below (x := fun k => a (ip ++ [k])) hl hjl
  have hd := (loss_deriv he f 1 rest n hn g a ip hip hj (hone.weights hn f) 0 (by simpa using hM) hc).const_mul c
  rw [h2.at_eq ((validIdx_append hip.length_eq).mpr ⟨hip, by exact ⟨hj, trivial⟩⟩)]
  simp only [List.dropLast_concat, List.getLastD_concat]
  simpa using hd

/-- C73, for one sample and the only maximum of a row: what backward returns differs from the derivative by at most eps times the incoming gradient. -/
theorem cross_entropy_maximum_partial (eps f : ℝ) (he : 0 ≤ eps) (truth pred grad : Ten ℝ) (rest : List Nat) (n : Nat) (g a : List Nat → ℝ) (c : ℝ)
    (hg : truth.Has (1 :: rest ++ [n]) g) (ha : pred.Has (1 :: rest ++ [n]) a) (hgr : grad.data[0]? = some c) (hn : 2 ≤ n) (hs : size (1 :: rest) ≠ 0)
    (ip : List Nat) (hip : ValidIdx (1 :: rest) ip) (j : Nat) (hj : j < n) (htop : ∀ l, l < n → l ≠ j → a (ip ++ [l]) < a (ip ++ [j])) (hone : OneHot eps n (fun k => g (ip ++ [k])))
    (hc : ∀ k, k < n → eps < soft eps n (fun k => a (ip ++ [k])) k) :
    ∃ L R D, crossBackward eps f truth pred grad = ok (L, R) ∧
      HasDerivAt (fun t => c * lossOf eps f 1 rest n g (fun is => a is + t * (if is = ip ++ [j] then 1 else 0))) D 0 ∧ |R.at (ip ++ [j]) - D| ≤ eps * |c| := by
  obtain ⟨L, R, h1, h2⟩ := crossBackward_ok eps f truth pred grad 1 rest n g a c hg ha hgr hn hs
  have hM := rowMax_bump_top (x := fun k => a (ip ++ [k])) hj htop
  have hmax : rowMax n (fun k => a (ip ++ [k])) = a (ip ++ [j]) := rowMax_eq hj rfl (fun l hl => by
    by_cases h : l = j
    · rw [h]
    · exact (htop l hl h).le)
  have hd := (loss_deriv he f 1 rest n hn g a ip hip hj (hone.weights hn f) 1 (by rw [hmax]; simpa using hM) hc).const_mul c
  refine ⟨L, R, _, h1, hd, ?_⟩
  rw [h2.at_eq ((validIdx_append hip.length_eq).mpr ⟨hip, by exact ⟨hj, trivial⟩⟩)]
  simp only [List.dropLast_concat, List.getLastD_concat]
  have hac := one_le_ac (n := n) (by omega) (fun k => a (ip ++ [k]))
  set ac := ∑ k ∈ Finset.range n, Real.exp (a (ip ++ [k]) - rowMax n (fun k => a (ip ++ [k])))
  have : ∀ s w : ℝ, c * (s - w) - c * ((s + 1 * (eps / (ac + eps)) - w) / ((1 : Nat) : ℝ)) = -(c * (eps / (ac + eps))) := by intro s w; push_cast; ring
  rw [this, abs_neg, abs_mul, abs_of_nonneg (div_nonneg he (by linarith)), mul_comm]
  refine mul_le_mul_of_nonneg_right ?_ (abs_nonneg _)
  rw [div_le_iff₀ (by linarith)]
  nlinarith

/-- C73 is false of the code for batches: backward does not divide by the number of samples, so what it returns is `N` times the derivative, and with two samples
or more (and no label smoothing) never the derivative. -/
theorem cross_entropy_batch_violated (eps : ℝ) (he : 0 ≤ eps) (truth pred grad : Ten ℝ) (N : Nat) (hN : 2 ≤ N) (rest : List Nat) (n : Nat) (g a : List Nat → ℝ) (c : ℝ) (hcz : c ≠ 0)
    (hg : truth.Has (N :: rest ++ [n]) g) (ha : pred.Has (N :: rest ++ [n]) a) (hgr : grad.data[0]? = some c) (hn : 2 ≤ n) (hs : size (N :: rest) ≠ 0)
    (ip : List Nat) (hip : ValidIdx (N :: rest) ip) (j l : Nat) (hj : j < n) (hl : l < n) (hjl : a (ip ++ [j]) < a (ip ++ [l])) (hone : OneHot eps n (fun k => g (ip ++ [k])))
    (hc : ∀ k, k < n → eps < soft eps n (fun k => a (ip ++ [k])) k) :
    ∃ L R D, crossBackward eps 0 truth pred grad = ok (L, R) ∧
      HasDerivAt (fun t => c * lossOf eps 0 N rest n g (fun is => a is + t * (if is = ip ++ [j] then 1 else 0))) D 0 ∧ R.at (ip ++ [j]) = N * D ∧ R.at (ip ++ [j]) ≠ D := by
  obtain ⟨L, R, h1, h2⟩ := crossBackward_ok eps 0 truth pred grad N rest n g a c hg ha hgr hn hs
  have hM := rowMax_bump_below (x := fun k => a (ip ++ [k])) hl hjl
  have hd := (loss_deriv he 0 N rest n hn g a ip hip hj (hone.weights hn 0) 0 (by simpa using hM) hc).const_mul c
  have hN0 : (N : ℝ) ≠ 0 := Nat.cast_ne_zero.mpr (by omega)
  have hN1 : (2 : ℝ) ≤ N := by exact_mod_cast hN
  refine ⟨L, R, _, h1, hd, ?_⟩
  rw [h2.at_eq ((validIdx_append hip.length_eq).mpr ⟨hip, by exact ⟨hj, trivial⟩⟩)]
  simp only [List.dropLast_concat, List.getLastD_concat, zero_mul, add_zero]
  set x := fun k => a (ip ++ [k]) with hx
  have hpos := soft_pos he (n := n) (by omega) x j
  have hlt : soft eps n x j < 1 := by
    have hac := one_le_ac (n := n) (by omega) x
    unfold soft
    rw [div_lt_one (by linarith)]
    have h2 : Real.exp (x j - rowMax n x) < 1 := by
      rw [Real.exp_lt_one_iff]
      have := le_rowMax (x := x) hl
      have : x j < x l := hjl
      linarith
    linarith
  have hne : soft eps n x j - weight eps 0 n (g (ip ++ [j])) ≠ 0 := by
    unfold weight weightOf
    split
    · intro h; linarith
    · rw [zero_div]; intro h; linarith
  set d := soft eps n x j - weight eps 0 n (g (ip ++ [j]))
  refine ⟨by field_simp, ?_⟩
  intro h
  have hcd : c * d ≠ 0 := mul_ne_zero hcz hne
  have : c * d * N = c * d := by
    calc c * d * N = (c * (d / N)) * N := by rw [h]
      _ = c * d := by field_simp
  have : c * d * (N - 1) = 0 := by linarith
  rcases mul_eq_zero.mp this with h | h
  · exact hcd h
  · linarith

/-- C73 is false of the code for the labels: their gradient is the labels times the incoming gradient, but moving a label away from eps does not change the loss. -/
theorem label_gradient_violated (eps f : ℝ) (truth pred grad : Ten ℝ) (N : Nat) (rest : List Nat) (n : Nat) (g a : List Nat → ℝ) (c : ℝ) (hcz : c ≠ 0)
    (hg : truth.Has (N :: rest ++ [n]) g) (ha : pred.Has (N :: rest ++ [n]) a) (hgr : grad.data[0]? = some c) (hn : 2 ≤ n) (hs : size (N :: rest) ≠ 0)
    (q : List Nat) (hq : ValidIdx (N :: rest ++ [n]) q) (h0 : g q ≠ 0) (h1 : g q ≠ eps) :
    ∃ L R, crossBackward eps f truth pred grad = ok (L, R) ∧ L.at q ≠ 0 ∧
      HasDerivAt (fun t => c * lossOf eps f N rest n (fun is => g is + t * (if is = q then 1 else 0)) a) 0 0 := by
  obtain ⟨L, R, k1, _⟩ := crossBackward_ok eps f truth pred grad N rest n g a c hg ha hgr hn hs
  refine ⟨L, R, k1, ?_, ?_⟩
  · unfold crossBackward at k1
    rw [rd_ok hgr] at k1
    simp only [bind_ok, bind_eq_ok, pure_eq] at k1
    obtain ⟨_, _, _, _, _, _, _, _, k2⟩ := k1
    injection k2 with k2
    injection k2 with k2
    subst k2
    unfold Ten.at
    dsimp only
    rw [hg.1, List.getD_eq_getElem?_getD, List.getElem?_map, hg.2.2 q hq]
    exact mul_ne_zero h0 hcz
  · have hev : ∀ᶠ t in nhds (0 : ℝ), weight eps f n (g q + t) = weight eps f n (g q) := by
      unfold weight weightOf
      rcases lt_or_gt_of_ne h1 with h | h
      · filter_upwards [gt_mem_nhds (show (0 : ℝ) < eps - g q by linarith)] with t ht
        rw [if_neg (by linarith), if_neg (by linarith)]
      · filter_upwards [lt_mem_nhds (show eps - g q < (0 : ℝ) by linarith)] with t ht
        rw [if_pos (by linarith), if_pos (by linarith)]
    refine (hasDerivAt_const (0 : ℝ) (c * lossOf eps f N rest n g a)).congr_of_eventuallyEq ?_
    filter_upwards [hev] with t ht
    unfold lossOf
    congr 2
    refine sumIdx_congr (fun ip _ => ?_)
    unfold rowLoss
    congr 1
    refine Finset.sum_congr rfl (fun k _ => ?_)
    congr 1
    dsimp only
    by_cases h : ip ++ [k] = q
    · rw [if_pos h, mul_one, h, ht]
    · rw [if_neg h, mul_zero, add_zero]

/-! ## C93: backward of the operator softmax -/

theorem softmaxBackward_ok {output grad : Ten ℝ} {s : List Nat} {o g : List Nat → ℝ} (ho : output.Has s o) (hg : grad.Has s g) :
    ∃ r, softmaxBackward output grad = ok r ∧ r.Has s (fun is => g is * (o is * (1 - o is))) := by
  obtain ⟨d, k1, k2, k3⟩ := update1 (n := size s) (out := grad.data) (body := fun i d => do
    let a ← rd d i
    let o ← rd output.data i
    wr d i (a * (o * (1 - o)))) (a := fun p => g (unflat s p)) (g := fun p => g (unflat s p) * (o (unflat s p) * (1 - o (unflat s p))))
    (fun p b hp _ h => by rw [rd_ok h, bind_ok, rd_ok (ho.2.pos hp), bind_ok]) hg.2.1 (fun p hp => hg.2.pos hp)
  refine ⟨⟨s, d⟩, ?_, rfl, isT_of_pos k2 k3 (fun is hv => by rw [unflat_flat hv])⟩
  unfold softmaxBackward
  rw [hg.2.1, k1, bind_ok, hg.1]
  rfl

theorem soft0_deriv {n : Nat} (hn : n ≠ 0) (x : Nat → ℝ) {j : Nat} (hj : j < n) (k : Nat) :
    HasDerivAt (fun t => soft 0 n (bump x j t) k) (soft 0 n x k * ((if k = j then 1 else 0) - soft 0 n x j)) 0 := by
  have hform : ∀ y : Nat → ℝ, soft 0 n y k = Real.exp (y k) / ∑ l ∈ Finset.range n, Real.exp (y l) := fun y => by
    unfold soft
    simp only [Real.exp_sub, add_zero]
    rw [← Finset.sum_div, div_div_div_cancel_right₀ (Real.exp_ne_zero _)]
  have hformj : soft 0 n x j = Real.exp (x j) / ∑ l ∈ Finset.range n, Real.exp (x l) := by
    unfold soft
    simp only [Real.exp_sub, add_zero]
    rw [← Finset.sum_div, div_div_div_cancel_right₀ (Real.exp_ne_zero _)]
  have hb : ∀ l, HasDerivAt (fun t => Real.exp (bump x j t l)) (Real.exp (x l) * (if l = j then 1 else 0)) 0 := by
    intro l
    have h1 : HasDerivAt (fun t : ℝ => bump x j t l) (if l = j then 1 else 0) 0 := by
      unfold bump
      simpa using ((hasDerivAt_id (0 : ℝ)).mul_const (if l = j then (1 : ℝ) else 0)).const_add (x l)
    have := h1.exp
    rwa [bump_zero] at this
  have hpos : 0 < ∑ l ∈ Finset.range n, Real.exp (x l) := Finset.sum_pos (fun _ _ => Real.exp_pos _) ⟨j, Finset.mem_range.mpr hj⟩
  have hsum := HasDerivAt.fun_sum (u := Finset.range n) (fun l _ => hb l)
  have hq := (hb k).div hsum (by rw [bump_zero]; exact hpos.ne')
  rw [bump_zero] at hq
  have hs : ∑ l ∈ Finset.range n, Real.exp (x l) * (if l = j then 1 else 0) = Real.exp (x j) := by
    simp [hj]
  rw [hs] at hq
  have : (fun t => soft 0 n (bump x j t) k) = fun t => Real.exp (bump x j t k) / ∑ l ∈ Finset.range n, Real.exp (bump x j t l) := by funext t; exact hform _
  rw [this, hform, hformj]
  refine hq.congr_deriv ?_
  field_simp

/-- What the operator's gradient is off by: for every row, every gradient and every element, the derivative is the value backward returns minus
`y_j` times the sum of the other elements' gradients times their values. -/
theorem operator_backward_partial (t grad : Ten ℝ) (pre : List Nat) (n : Nat) (a g : List Nat → ℝ) (ht : t.Has (pre ++ [n]) a) (hg : grad.Has (pre ++ [n]) g) (hn : n ≠ 0) (hs : size pre ≠ 0)
    (ip : List Nat) (hip : ValidIdx pre ip) (j : Nat) (hj : j < n) :
    ∃ y r, softmaxForward t = ok y ∧ softmaxBackward y grad = ok r ∧
      HasDerivAt (fun u => ∑ k ∈ Finset.range n, g (ip ++ [k]) * soft 0 n (bump (fun c => a (ip ++ [c])) j u) k)
        (r.at (ip ++ [j]) - y.at (ip ++ [j]) * ∑ k ∈ (Finset.range n).erase j, g (ip ++ [k]) * y.at (ip ++ [k])) 0 := by
  obtain ⟨y, h1, h2⟩ := softmaxForward_ok ht hn hs
  obtain ⟨r, h3, h4⟩ := softmaxBackward_ok h2 hg
  refine ⟨y, r, h1, h3, ?_⟩
  set x := fun c => a (ip ++ [c]) with hx
  have hv : ∀ c, c < n → y.at (ip ++ [c]) = soft 0 n x c := fun c hc => by
    rw [h2.at_eq ((validIdx_append hip.length_eq).mpr ⟨hip, by exact ⟨hc, trivial⟩⟩)]; simp [hx]
  have hd := HasDerivAt.fun_sum (u := Finset.range n) (fun k _ => (soft0_deriv hn x hj k).const_mul (g (ip ++ [k])))
  refine hd.congr_deriv ?_
  rw [h4.at_eq ((validIdx_append hip.length_eq).mpr ⟨hip, by exact ⟨hj, trivial⟩⟩), hv j hj]
  simp only [List.dropLast_concat, List.getLastD_concat]
  rw [← Finset.add_sum_erase _ _ (Finset.mem_range.mpr hj), if_pos rfl, Finset.mul_sum]
  have : ∑ k ∈ (Finset.range n).erase j, g (ip ++ [k]) * (soft 0 n x k * ((if k = j then 1 else 0) - soft 0 n x j)) =
      -∑ k ∈ (Finset.range n).erase j, soft 0 n x j * (g (ip ++ [k]) * y.at (ip ++ [k])) := by
    rw [← Finset.sum_neg_distrib]
    refine Finset.sum_congr rfl (fun k hk => ?_)
    rw [Finset.mem_erase] at hk
    rw [if_neg hk.1, hv k (Finset.mem_range.mp hk.2)]; ring
  rw [this]
  ring

/-- C93 is false of the code, for every input with rows of two elements or more: with the incoming gradient 1 the derivative is 0 (the rows sum to 1), but backward returns a
positive number. -/
theorem operator_backward_violated (t grad : Ten ℝ) (pre : List Nat) (n : Nat) (a : List Nat → ℝ) (ht : t.Has (pre ++ [n]) a) (hg : grad.Has (pre ++ [n]) (fun _ => 1)) (hn : 2 ≤ n) (hs : size pre ≠ 0)
    (ip : List Nat) (hip : ValidIdx pre ip) (j : Nat) (hj : j < n) :
    ∃ y r, softmaxForward t = ok y ∧ softmaxBackward y grad = ok r ∧ 0 < r.at (ip ++ [j]) ∧
      HasDerivAt (fun u => ∑ k ∈ Finset.range n, 1 * soft 0 n (bump (fun c => a (ip ++ [c])) j u) k) 0 0 := by
  obtain ⟨y, h1, h2⟩ := softmaxForward_ok ht (by omega) hs
  obtain ⟨r, h3, h4⟩ := softmaxBackward_ok h2 hg
  refine ⟨y, r, h1, h3, ?_, ?_⟩
  · rw [h4.at_eq ((validIdx_append hip.length_eq).mpr ⟨hip, by exact ⟨hj, trivial⟩⟩)]
    simp only [List.dropLast_concat, List.getLastD_concat, one_mul]
    set x := fun c => a (ip ++ [c])
    have hpos : ∀ k, 0 < soft 0 n x k := fun k => soft_pos le_rfl (by omega) x k
    have hsum : ∑ k ∈ Finset.range n, soft 0 n x k = 1 := by
      rw [soft_sum, add_zero, div_self]
      linarith [one_le_ac (n := n) (by omega) x]
    have hlt : soft 0 n x j < 1 := by
      rw [← hsum, ← Finset.add_sum_erase _ _ (Finset.mem_range.mpr hj)]
      have : 0 < ∑ k ∈ (Finset.range n).erase j, soft 0 n x k := by
        refine Finset.sum_pos (fun k _ => hpos k) ?_
        refine ⟨if j = 0 then 1 else 0, Finset.mem_erase.mpr ⟨?_, Finset.mem_range.mpr ?_⟩⟩ <;> split <;> omega
      linarith
    exact mul_pos (hpos j) (by linarith)
  · have : (fun u => ∑ k ∈ Finset.range n, 1 * soft 0 n (bump (fun c => a (ip ++ [c])) j u) k) = fun _ => 1 := by
      funext u
      simp only [one_mul]
      rw [soft_sum, add_zero, div_self]
      linarith [one_le_ac (n := n) (by omega) (bump (fun c => a (ip ++ [c])) j u)]
    rw [this]
    exact hasDerivAt_const _ _

/-! ## Witnesses -/

/-- Two samples of two classes: the prediction `(0, log 2)` for each, the labels `(0, 1)` for each. -/
def pred2 : Ten ℝ := ⟨[2, 2], [0, Real.log 2, 0, Real.log 2]⟩
def truth2 : Ten ℝ := ⟨[2, 2], [0, 1, 0, 1]⟩

theorem has22 (u v : ℝ) : (⟨[2, 2], [u, v, u, v]⟩ : Ten ℝ).Has ([2] ++ [2]) (fun is => if is.getLastD 0 = 0 then u else v) := by
  refine ⟨rfl, rfl, ?_⟩
  intro is hv
  match is, hv with
  | [0, 0], _ => rfl
  | [0, 1], _ => rfl
  | [1, 0], _ => rfl
  | [1, 1], _ => rfl
  | [0, _ + 2], h => exact absurd h.2.1 (by omega)
  | [1, _ + 2], h => exact absurd h.2.1 (by omega)
  | [_ + 2, _], h => exact absurd h.1 (by omega)

theorem soft2 (k : Nat) (hk : k < 2) : (1 : ℝ) / 100 < soft (1 / 100) 2 (fun c => if c = 0 then 0 else Real.log 2) k := by
  have hl := Real.log_pos (show (1 : ℝ) < 2 by norm_num)
  have hm : rowMax 2 (fun c => if c = 0 then 0 else Real.log 2) = Real.log 2 := rowMax_eq (k := 1) (by omega) (by simp) (fun j _ => by split <;> linarith)
  have he : Real.exp (-Real.log 2) = 1 / 2 := by rw [Real.exp_neg, Real.exp_log (by norm_num)]; norm_num
  unfold soft
  rw [hm]
  simp only [Finset.sum_range_succ, Finset.range_zero, Finset.sum_empty, if_true, zero_sub, he, one_ne_zero, if_false, sub_self, Real.exp_zero]
  match k, hk with
  | 0, _ => simp only [if_true, zero_sub, he]; norm_num
  | 1, _ => simp only [one_ne_zero, if_false, sub_self, Real.exp_zero]; norm_num

/-- `cross_entropy_batch_violated` and `label_gradient_violated` apply. -/
example : ∃ L R D, crossBackward (1 / 100) 0 truth2 pred2 ⟨[1], [1]⟩ = ok (L, R) ∧ R.at [0, 0] = (2 : Nat) * D ∧ R.at [0, 0] ≠ D := by
  obtain ⟨L, R, D, h1, _, h3, h4⟩ := cross_entropy_batch_violated (1 / 100) (by norm_num) truth2 pred2 ⟨[1], [1]⟩ 2 le_rfl [] 2 _ _ 1 one_ne_zero (has22 0 1) (has22 0 (Real.log 2)) rfl
    le_rfl (by decide) [0] ⟨by decide, trivial⟩ 0 1 (by decide) (by decide) (by simpa using Real.log_pos (show (1 : ℝ) < 2 by norm_num))
    ⟨1, by decide, by norm_num, fun l hl h => by
      have : l = 0 := by omega
      subst this; norm_num⟩
    (by simpa using soft2)
  exact ⟨L, R, D, h1, h3, h4⟩

example : ∃ L R, crossBackward (1 / 100) 0 truth2 pred2 ⟨[1], [1]⟩ = ok (L, R) ∧ L.at [0, 1] ≠ 0 := by
  obtain ⟨L, R, h1, h2, _⟩ := label_gradient_violated (1 / 100) 0 truth2 pred2 ⟨[1], [1]⟩ 2 [] 2 _ _ 1 one_ne_zero (has22 0 1) (has22 0 (Real.log 2)) rfl le_rfl (by decide)
    [0, 1] ⟨by decide, by decide, trivial⟩ (by norm_num) (by norm_num)
  exact ⟨L, R, h1, h2⟩

theorem has12 (u v : ℝ) : (⟨[1, 2], [u, v]⟩ : Ten ℝ).Has ([1] ++ [2]) (fun is => if is.getLastD 0 = 0 then u else v) := by
  refine ⟨rfl, rfl, ?_⟩
  intro is hv
  match is, hv with
  | [0, 0], _ => rfl
  | [0, 1], _ => rfl
  | [0, _ + 2], h => exact absurd h.2.1 (by omega)
  | [_ + 1, _], h => exact absurd h.1 (by omega)

/-- `cross_entropy_partial` and `cross_entropy_maximum_partial` apply, with label smoothing too. -/
example (f : ℝ) : ∃ L R, crossBackward (1 / 100) f ⟨[1, 2], [0, 1]⟩ ⟨[1, 2], [0, Real.log 2]⟩ ⟨[1], [3]⟩ = ok (L, R) ∧
    HasDerivAt (fun t => 3 * lossOf (1 / 100) f 1 [] 2 (fun is => if is.getLastD 0 = 0 then 0 else 1)
      (fun is => (if is.getLastD 0 = 0 then 0 else Real.log 2) + t * (if is = [0] ++ [0] then 1 else 0))) (R.at [0, 0]) 0 :=
  cross_entropy_partial (1 / 100) f (by norm_num) _ _ ⟨[1], [3]⟩ [] 2 _ _ 3 (has12 0 1) (has12 0 (Real.log 2)) rfl le_rfl (by decide) [0] ⟨by decide, trivial⟩ 0 1 (by decide) (by decide)
    (by simpa using Real.log_pos (show (1 : ℝ) < 2 by norm_num))
    ⟨1, by decide, by norm_num, fun l hl h => by
      have : l = 0 := by omega
      subst this; norm_num⟩
    (by simpa using soft2)

example (f : ℝ) : ∃ L R D, crossBackward (1 / 100) f ⟨[1, 2], [0, 1]⟩ ⟨[1, 2], [0, Real.log 2]⟩ ⟨[1], [3]⟩ = ok (L, R) ∧ |R.at [0, 1] - D| ≤ 1 / 100 * |3| := by
  obtain ⟨L, R, D, h1, _, h3⟩ := cross_entropy_maximum_partial (1 / 100) f (by norm_num) _ _ ⟨[1], [3]⟩ [] 2 _ _ 3 (has12 0 1) (has12 0 (Real.log 2)) rfl le_rfl (by decide) [0] ⟨by decide, trivial⟩ 1
    (by decide) (fun l hl h => by
      have : l = 0 := by omega
      subst this; simpa using Real.log_pos (show (1 : ℝ) < 2 by norm_num))
    ⟨1, by decide, by norm_num, fun l hl h => by
      have : l = 0 := by omega
      subst this; norm_num⟩
    (by simpa using soft2)
  exact ⟨L, R, D, h1, h3⟩

/-- `softmax_rows`, `softmax_shift`, `operator_rows` and `operator_backward_violated` apply. -/
example : ∃ y, softmax (1 / 100) pred2 = ok y ∧ 0 < y.at [1, 0] := by
  obtain ⟨y, h1, _, h3⟩ := softmax_rows (1 / 100) (by norm_num) pred2 [2] 2 _ (has22 0 (Real.log 2)) (by decide) (by decide)
  exact ⟨y, h1, (h3 [1] ⟨by decide, trivial⟩).1 0 (by decide)⟩

example : softmax (1 / 100) ⟨[2, 2], [5, Real.log 2 + 5, 5, Real.log 2 + 5]⟩ = softmax (1 / 100) pred2 :=
  softmax_shift (1 / 100) _ _ [2] 2 _ (fun _ => 5) (has22 0 (Real.log 2)) ((has22 5 (Real.log 2 + 5)).congr (fun is _ => by split <;> simp)) (by decide) (by decide)

example : ∃ y r, softmaxForward pred2 = ok y ∧ softmaxBackward y ⟨[2, 2], [1, 1, 1, 1]⟩ = ok r ∧ 0 < r.at [0, 0] := by
  obtain ⟨y, r, h1, h2, h3, _⟩ := operator_backward_violated pred2 ⟨[2, 2], [1, 1, 1, 1]⟩ [2] 2 _ (has22 0 (Real.log 2)) ((has22 1 1).congr (fun _ _ => by simp)) le_rfl (by decide)
    [0] ⟨by decide, trivial⟩ 0 (by decide)
  exact ⟨y, r, h1, h2, h3⟩

end
end Verif.Softmax
