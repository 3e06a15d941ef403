import Verif.Nan.Props
/-!
# C119: sums, products, softmax and the cross entropy loss
-/
namespace Verif.Nan
open Verif Res Data Tensor Fp
open Verif.Norm (batch_table table_batch)

variable {F : Type} [Floats F]

theorem foldl_add_nan (d : List F) (s : F) (h : isNan s = true ∨ ∃ x ∈ d, isNan x = true) : isNan (d.foldl (· + ·) s) = true := by
  induction d generalizing s with
  | nil => rcases h with h | ⟨x, hx, _⟩ <;> [exact h; simp at hx]
  | cons y d ih =>
    rw [List.foldl_cons]
    refine ih _ ?_
    rcases h with h | ⟨x, hx, hn⟩
    · exact Or.inl (Floats.add_nan _ _ (Or.inl h))
    · rcases List.mem_cons.mp hx with rfl | hx
      · exact Or.inl (Floats.add_nan _ _ (Or.inr hn))
      · exact Or.inr ⟨x, hx, hn⟩

/-- C119: the sum of a tensor with a NaN is NaN. -/
theorem sum_keeps_nan (t : Ten F) (h : hasNan t = true) : ∃ r, sumAll t = ok r ∧ isNan r = true := by
  obtain ⟨x, hx, hn⟩ := (has_nan_iff t).1.mp h
  exact ⟨_, sumAll_foldl t (List.ne_nil_of_mem hx), foldl_add_nan _ _ (Or.inr ⟨x, hx, hn⟩)⟩

example : hasNan (⟨[3], [0, .nan, 0]⟩ : Ten (Num float32)) = true := rfl

theorem dot_nan (x y : Nat → F) (n : Nat) (h : ∃ l, l < n ∧ (isNan (x l) = true ∨ isNan (y l) = true)) : isNan (Fp.dot x y n) = true := by
  induction n with
  | zero => obtain ⟨l, hl, _⟩ := h; omega
  | succ n ih =>
    obtain ⟨l, hl, hn⟩ := h
    unfold Fp.dot
    by_cases e : l = n
    · subst e; exact Floats.add_nan _ _ (Or.inr (Floats.mul_nan _ _ hn))
    · exact Floats.add_nan _ _ (Or.inl (ih ⟨l, by omega, hn⟩))

/-- C119: an entry of the matrix product is NaN when its row of the left operand or its column of the right one holds a NaN, for all transpose flags and
whatever the output held. -/
theorem gemm_keeps_nan (A B C : List F) (aT bT : Bool) (m n k : Nat) (a b : Nat → Nat → F) (hA : Gemm.Stores A aT m n a) (hB : Gemm.Stores B bT n k b)
    (hC : C.length = m * k) :
    ∃ C', Gemm.gemmCpu A aT B bT m n k C = ok C' ∧ C'.length = m * k ∧
      ∀ i j l, i < m → j < k → l < n → isNan (a i l) = true ∨ isNan (b l j) = true → ∃ v, C'[i * k + j]? = some v ∧ isNan v = true := by
  obtain ⟨C', h1, h2, h3⟩ := gemmCpu_any hA hB hC
  exact ⟨C', h1, h2, fun i j l hi hj hl hn => ⟨_, h3 i j hi hj, dot_nan _ _ _ ⟨l, hl, hn⟩⟩⟩

/-- A row with NaN times a column of zeros. -/
example : ∃ C' v, Gemm.gemmCpu [0, Num.nan] false [(0 : Num float32), 0] false 1 2 1 [0] = ok C' ∧ C'[0]? = some v ∧ isNan v = true := by
  obtain ⟨C', h1, _, h3⟩ := gemm_keeps_nan [0, Num.nan] [(0 : Num float32), 0] [0] false false 1 2 1 (fun _ l => if l = 0 then 0 else .nan) (fun _ _ => 0)
    (by
      refine ⟨rfl, fun i j hi hj => ?_⟩
      interval_cases i; interval_cases j <;> rfl)
    (by
      refine ⟨rfl, fun i j hi hj => ?_⟩
      interval_cases j; interval_cases i <;> rfl) rfl
  obtain ⟨v, h4, h5⟩ := h3 0 0 1 (by omega) (by omega) (by omega) (Or.inl rfl)
  exact ⟨C', v, h1, h4, h5⟩

/-! ### softmax -/

/-- The first largest of `x 0, …, x k`, as `std::max_element` finds it. -/
def top (x : Nat → F) : Nat → F
  | 0 => x 0
  | k + 1 => if top x k < x (k + 1) then x (k + 1) else top x k

/-- The sum of the exponentials, from the left. -/
def total (φ : F → F) (x : Nat → F) : Nat → F
  | 0 => 0
  | k + 1 => total φ x k + φ (x k)

/-- A row of `softmax`. -/
def softRow (exp : F → F) (eps : F) (n : Nat) (x : Nat → F) (j : Nat) : F :=
  exp (x j - top x (n - 1)) / (total exp (fun c => x c - top x (n - 1)) n + eps)

theorem maxElement_any {d : List F} {rows n : Nat} {h : Nat → Nat → F} (hd : Is2 d rows n h) {i : Nat} (hi : i < rows) (hn : n ≠ 0) :
    Softmax.maxElement d (i * n) n = ok (top (h i) (n - 1)) := by
  have h0 := hd.rd hi (j := 0) (by omega)
  rw [Nat.add_zero] at h0
  unfold Softmax.maxElement
  rw [h0, bind_ok]
  obtain ⟨m, k1, k2⟩ := loop_inv (n := n - 1) (s := h i 0) (body := fun k m => do
    let v ← rd d (i * n + (k + 1))
    pure (if m < v then v else m)) (I := fun k m => m = top (h i) k) rfl (by
      intro k m hk hm
      refine ⟨_, by rw [hd.rd hi (by omega), bind_ok]; rfl, ?_⟩
      rw [hm]; rfl)
  rw [k1, k2]

theorem accumulateRow_any (φ : F → F) {d : List F} {rows n : Nat} {h : Nat → Nat → F} (hd : Is2 d rows n h) {i : Nat} (hi : i < rows) :
    Softmax.accumulateRow φ (i * n) n d = ok (total φ (h i) n) := by
  unfold Softmax.accumulateRow
  obtain ⟨m, k1, k2⟩ := loop_inv (n := n) (s := (0 : F)) (body := fun j s => do
    let v ← rd d (i * n + j)
    pure (s + φ v)) (I := fun k m => m = total φ (h i) k) rfl (by
      intro k m hk hm
      refine ⟨_, by rw [hd.rd hi hk, bind_ok]; rfl, ?_⟩
      rw [hm]; rfl)
  rw [k1, k2]

theorem softmaxOf_any (exp : F → F) (eps : F) {t : Ten F} {pre : List Nat} {n : Nat} {a : List Nat → F} (ht : t.Has (pre ++ [n]) a) (hn : n ≠ 0)
    (hs : size pre ≠ 0) :
    ∃ y, Softmax.softmaxOf exp eps t = ok y ∧ y.shape = pre ++ [n] ∧ Is2 y.data (size pre) n (fun r c => softRow exp eps n (fun c => a (unflat pre r ++ [c])) c) := by
  have hb := batch_table ht
  have hrows : t.data.length / n = size pre := by rw [hb.1]; exact Nat.mul_div_cancel _ (by omega)
  have hlast : t.shape.getLastD 0 = n := by rw [ht.1]; simp
  obtain ⟨d, h1, h2⟩ := Softmax.rows_ok (g := fun r c => softRow exp eps n (fun c => a (unflat pre r ++ [c])) c) (body := fun i d => do
    let mx ← Softmax.maxElement d (i * n) n
    let d ← Softmax.eachRow (fun v => v - mx) (i * n) n d
    let ac ← Softmax.accumulateRow exp (i * n) n d
    Softmax.eachRow (fun v => exp v / (ac + eps)) (i * n) n d) (by
      intro i d h hi hd hh
      rw [maxElement_any hd hi hn, bind_ok]
      obtain ⟨d1, k1, k2⟩ := Softmax.eachRow_ok (fun v => v - top (h i) (n - 1)) hd hi
      rw [k1, bind_ok, accumulateRow_any exp k2 hi, bind_ok]
      obtain ⟨d2, k3, k4⟩ := Softmax.eachRow_ok (fun v => exp v / (total exp (fun c => if i = i then h i c - top (h i) (n - 1) else h i c) n + eps)) k2 hi
      refine ⟨d2, k3, Softmax.Is2.congr' k4 (fun r c _ _ => ?_)⟩
      by_cases hri : r = i
      · subst hri
        simp only [if_true]
        rw [hh]; rfl
      · simp only [if_neg hri]) hb
  refine ⟨⟨pre ++ [n], d⟩, ?_, rfl, h2⟩
  unfold Softmax.softmaxOf
  have hne : t.data ≠ [] := by
    intro h
    have := hb.1
    rw [h] at this
    rcases Nat.mul_eq_zero.mp this.symm with h | h <;> contradiction
  rw [assert_true hne, bind_ok]
  dsimp only
  rw [hlast, require_true hn, bind_ok, hrows, h1, bind_ok, ht.1]
  rfl

theorem total_nan {φ : F → F} (hφ : Strict φ) (x : Nat → F) (n : Nat) (h : ∃ l, l < n ∧ isNan (x l) = true) : isNan (total φ x n) = true := by
  induction n with
  | zero => obtain ⟨l, hl, _⟩ := h; omega
  | succ n ih =>
    obtain ⟨l, hl, hn⟩ := h
    unfold total
    by_cases e : l = n
    · subst e; exact Floats.add_nan _ _ (Or.inr (hφ _ hn))
    · exact Floats.add_nan _ _ (Or.inl (ih ⟨l, by omega, hn⟩))

theorem softRow_nan {exp : F → F} (hexp : Strict exp) (eps : F) {n : Nat} {x : Nat → F} {l : Nat} (hl : l < n) (hn : isNan (x l) = true) (j : Nat) :
    isNan (softRow exp eps n x j) = true :=
  Floats.div_nan _ _ (Or.inr (Floats.add_nan _ _ (Or.inl (total_nan hexp _ _ ⟨l, hl, Floats.sub_nan _ _ (Or.inl hn)⟩))))

/-- C119: `softmax` of a row with a NaN is NaN everywhere; rows without one are not affected: they are what they would be in any other tensor. -/
theorem softmax_keeps_nan (exp : F → F) (hexp : Strict exp) (eps : F) (t : Ten F) (pre : List Nat) (n : Nat) (a : List Nat → F) (ht : t.Has (pre ++ [n]) a)
    (hn : n ≠ 0) (hs : size pre ≠ 0) :
    ∃ (y : Ten F) (b : List Nat → F), Softmax.softmaxOf exp eps t = ok y ∧ y.Has (pre ++ [n]) b ∧
      (∀ ip c, ValidIdx pre ip → c < n → isNan (a (ip ++ [c])) = true → ∀ j, j < n → isNan (b (ip ++ [j])) = true) ∧
      ∀ (t' : Ten F) (a' : List Nat → F), t'.Has (pre ++ [n]) a' → ∃ (y' : Ten F) (b' : List Nat → F), Softmax.softmaxOf exp eps t' = ok y' ∧
        y'.Has (pre ++ [n]) b' ∧ ∀ ip, ValidIdx pre ip → (∀ c, a (ip ++ [c]) = a' (ip ++ [c])) → ∀ j, j < n → b (ip ++ [j]) = b' (ip ++ [j]) := by
  have key : ∀ (t : Ten F) (a : List Nat → F), t.Has (pre ++ [n]) a → ∃ y, Softmax.softmaxOf exp eps t = ok y ∧
      y.Has (pre ++ [n]) (fun is => softRow exp eps n (fun c => a (is.dropLast ++ [c])) (is.getLastD 0)) := by
    intro t a ht
    obtain ⟨⟨sh, d⟩, h1, h2, h3⟩ := softmaxOf_any exp eps ht hn hs
    simp only at h2
    subst h2
    exact ⟨_, h1, table_batch h3 (fun ip j v1 _ => by simp [unflat_flat v1])⟩
  obtain ⟨y, h1, h2⟩ := key t a ht
  refine ⟨y, _, h1, h2, fun ip c hv hc hnan j hj => ?_, fun t' a' ht' => ?_⟩
  · simp only [List.dropLast_concat]
    exact softRow_nan hexp eps hc hnan _
  · obtain ⟨y', k1, k2⟩ := key t' a' ht'
    refine ⟨y', _, k1, k2, fun ip hv e j hj => ?_⟩
    simp only [List.dropLast_concat, e]

example : (⟨[1, 2], [0, .nan]⟩ : Ten (Num float32)).Has ([1] ++ [2]) (fun is => if is = [0, 1] then .nan else 0) ∧ Strict (id : Num float32 → Num float32) := by
  refine ⟨⟨rfl, rfl, fun is hv => ?_⟩, fun _ h => h⟩
  match is, hv with
  | [0, 0], _ => rfl
  | [0, 1], _ => rfl
  | [n + 1, _], hv => exact absurd hv.1 (by omega)
  | [0, n + 2], hv => exact absurd hv.2.1 (by omega)

/-! ### cross entropy -/

/-- C119 is violated by `cross_entropy_loss`: rows of the prediction that hold a NaN count as if every probability in them were eps, so that the loss does
not depend on them and nothing shows that they are NaN. -/
theorem cross_entropy_hides_nan_violated (exp log : F → F) (hexp : Strict exp) (eps f : F) (truth pred : Ten F) (pre : List Nat) (n : Nat) (g a : List Nat → F)
    (hg : truth.Has (pre ++ [n]) g) (ht : pred.Has (pre ++ [n]) a) (hn : 2 ≤ n) (hs : size pre ≠ 0) :
    ∃ q : Nat → F, Softmax.crossForwardOf exp log eps f truth pred =
        ok ⟨[1], [((List.range (size pre * n)).foldl (fun s i => s - Softmax.weightOf eps f n (g (unflat (pre ++ [n]) i)) * log (q i)) 0) /
          (((pre ++ [n]).headD 0 : Nat) : F)]⟩ ∧
      ∀ r c, r < size pre → c < n → (∃ l, l < n ∧ isNan (a (unflat pre r ++ [l])) = true) → q (r * n + c) = eps := by
  obtain ⟨y, h1, h2, h3⟩ := softmaxOf_any exp eps ht (by omega) hs
  have hsz : size (pre ++ [n]) = size pre * n := by rw [size_append]; simp
  refine ⟨fun i => Softmax.stdMax eps (softRow exp eps n (fun c => a (unflat pre (i / n) ++ [c])) (i % n)), ?_, fun r c hr hc ⟨l, hl, hnan⟩ => ?_⟩
  · unfold Softmax.crossForwardOf
    rw [h1, bind_ok, require_true (by rw [hg.1]; simp), bind_ok]
    have hlast : truth.shape.getLastD 0 = n := by rw [hg.1]; simp
    dsimp only
    rw [hlast, require_true (by omega), bind_ok, hg.2.1, hsz, hg.1]
    have : ∀ m, m ≤ size pre * n → loop m (fun i ans => do
        let g ← rd truth.data i
        let s ← rd y.data i
        pure (ans - Softmax.weightOf eps f n g * log (Softmax.stdMax eps s))) (0 : F) =
        ok ((List.range m).foldl (fun s i => s - Softmax.weightOf eps f n (g (unflat (pre ++ [n]) i)) *
          log (Softmax.stdMax eps (softRow exp eps n (fun c => a (unflat pre (i / n) ++ [c])) (i % n)))) 0) := by
      intro m hm
      induction m with
      | zero => rfl
      | succ m ih =>
        have hd : m / n < size pre := Nat.div_lt_of_lt_mul (by rw [Nat.mul_comm]; omega)
        have hr := h3.rd hd (Nat.mod_lt m (by omega : 0 < n))
        rw [show m / n * n + m % n = m by rw [Nat.mul_comm]; exact Nat.div_add_mod m n] at hr
        rw [loop_succ, ih (by omega), bind_ok, rd_ok (hg.2.pos (by rw [hsz]; omega)), bind_ok, hr, bind_ok, List.range_succ, List.foldl_append]
        rfl
    rw [this _ le_rfl, bind_ok]; rfl
  · have e1 : (r * n + c) / n = r := by rw [Nat.mul_comm, Nat.mul_add_div (by omega), Nat.div_eq_of_lt hc, Nat.add_zero]
    dsimp only
    rw [e1]
    exact if_neg (not_lt_right (softRow_nan hexp eps hl hnan _))

/-- Two predictions, NaN and infinity in the one, NaN in the other: the loss is the same. -/
example (exp log : Num float32 → Num float32) (hexp : Strict exp) (eps f : Num float32) (x : Num float32) :
    Softmax.crossForwardOf exp log eps f ⟨[1, 2], [0, 0]⟩ ⟨[1, 2], [x, .nan]⟩ = Softmax.crossForwardOf exp log eps f ⟨[1, 2], [0, 0]⟩ ⟨[1, 2], [.inf true, .nan]⟩ := by
  have h : ∀ x z : Num float32, (⟨[1, 2], [x, z]⟩ : Ten (Num float32)).Has ([1] ++ [2]) (fun is => if is = [0, 1] then z else x) := by
    refine fun x z => ⟨rfl, rfl, fun is hv => ?_⟩
    match is, hv with
    | [0, 0], _ => rfl
    | [0, 1], _ => rfl
    | [n + 1, _], hv => exact absurd hv.1 (by omega)
    | [0, n + 2], hv => exact absurd hv.2.1 (by omega)
  obtain ⟨q, h1, h2⟩ := cross_entropy_hides_nan_violated exp log hexp eps f _ _ [1] 2 _ _ (h 0 0) (h x .nan) (by omega) (by decide)
  obtain ⟨q', k1, k2⟩ := cross_entropy_hides_nan_violated exp log hexp eps f _ _ [1] 2 _ _ (h 0 0) (h (.inf true) .nan) (by omega) (by decide)
  have e : ∀ c, c < 2 → q c = eps ∧ q' c = eps := fun c hc => by
    have h3 := h2 0 c (by decide) hc ⟨1, by omega, rfl⟩
    have h4 := k2 0 c (by decide) hc ⟨1, by omega, rfl⟩
    rw [Nat.zero_mul, Nat.zero_add] at h3 h4
    exact ⟨h3, h4⟩
  rw [h1, k1]
  have r : List.range (size [1] * 2) = [0, 1] := rfl
  rw [r]
  simp only [List.foldl_cons, List.foldl_nil]
  rw [(e 0 (by omega)).1, (e 0 (by omega)).2, (e 1 (by omega)).1, (e 1 (by omega)).2]

end Verif.Nan
