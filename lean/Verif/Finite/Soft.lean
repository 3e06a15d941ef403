import Verif.Finite.Model
import Verif.Fp.Props
/-!
# C133: softmax of finite numbers

Whatever the (finite) numbers and however long the row: every element of the result is a number between 0 and 1.  The largest element is
subtracted first, so no exponential exceeds 1; their sum is at least 1, and it cannot overflow: a sum of numbers up to 1 stands still at `2^p`.
-/
namespace Verif.Finite
open Verif Res Data Tensor Fp Nan
open Verif.Norm (batch_table table_batch)

variable {f : Fmt}

/-- A format with some bits that can hold `2^p` and some fractions. -/
def Wide (f : Fmt) : Prop := 6 ≤ f.p ∧ 2 ≤ f.emax ∧ f.emin ≤ -6

theorem wide32 : Wide float32 := by refine ⟨?_, ?_, ?_⟩ <;> norm_num [float32]

theorem wide64 : Wide float64 := by refine ⟨?_, ?_, ?_⟩ <;> norm_num [float64]

theorem fixed_count (hw : Wide f) : Fixed f (2 ^ f.p) := by
  refine ⟨(rnd_count f (by have := hw.1; omega)).1, ?_⟩
  have big : (1 : ℚ) < 2 ^ f.p := one_lt_pow₀ (by norm_num) (by have := hw.1; omega)
  rw [abs_of_pos (by linarith)]
  unfold largest
  have h4 : (2 : ℚ) ^ (1 : ℤ) ≤ (2 : ℚ) ^ f.emax := zpow_le_zpow_right₀ (by norm_num) (by have := hw.2.1; omega)
  rw [zpow_one] at h4
  have h5 : (2 : ℚ) ≤ 2 ^ f.p := by
    calc (2 : ℚ) = 2 ^ 1 := by norm_num
      _ ≤ 2 ^ f.p := pow_le_pow_right₀ (by norm_num) (by have := hw.1; omega)
  nlinarith

/-- Adding at most 1 does not lead beyond `2^p`. -/
theorem add_count (hw : Wide f) {l1 l2 lo : ℚ} {a b : Num f} (ha : In l1 (2 ^ f.p) a) (hb : In l2 1 b) (hl : Fixed f lo) (e : lo ≤ l1 + l2) : In lo (2 ^ f.p) (a + b) := by
  obtain ⟨x, _, rfl, _, a1, a2⟩ := ha
  obtain ⟨y, _, rfl, _, b1, b2⟩ := hb
  have h1 : lo ≤ rnd f (x + y) := by have := rnd_mono (f := f) (show lo ≤ x + y by linarith); rwa [hl.1] at this
  have h2 : rnd f (x + y) ≤ 2 ^ f.p := by
    have := rnd_mono (f := f) (show x + y ≤ 2 ^ f.p + 1 by linarith)
    rwa [(rnd_count f (by have := hw.1; omega)).2] at this
  have hle : |rnd f (x + y)| ≤ largest f := abs_le.mpr ⟨by have := (abs_le.mp hl.2).1; linarith, by have := (abs_le.mp (fixed_count hw).2).2; linarith⟩
  show In lo (2 ^ f.p) (toNum f (x + y))
  rw [toNum_of hle]
  exact ⟨_, _, rfl, toNum_fixed ⟨rnd_rnd _, hle⟩, h1, h2⟩

/-- The largest of finite numbers. -/
theorem top_fin {x : Nat → Num f} : ∀ {k : Nat}, (∀ c, c ≤ k → Fin (x c)) → ∃ m h, top x k = .num m h ∧ (∃ c, c ≤ k ∧ x c = .num m h) ∧
    ∀ c q h', c ≤ k → x c = .num q h' → q ≤ m
  | 0, hx => by
    obtain ⟨q, h, e, _⟩ := hx 0 le_rfl
    refine ⟨q, h, e, ⟨0, le_rfl, e⟩, fun c q' h' hc e' => ?_⟩
    obtain rfl : c = 0 := by omega
    rw [e] at e'
    injection e' with e'
    exact e'.ge
  | k + 1, hx => by
    obtain ⟨m, h, e, ⟨c, hc, ec⟩, hle⟩ := top_fin (k := k) (fun c hc => hx c (by omega))
    obtain ⟨q, g, eq, _⟩ := hx (k + 1) le_rfl
    unfold top
    rw [e, eq]
    by_cases hlt : m < q
    · have : (Num.num m h : Num f) < .num q g := decide_eq_true hlt
      rw [if_pos this]
      refine ⟨q, g, rfl, ⟨k + 1, le_rfl, eq⟩, fun c' q' h' hc' e' => ?_⟩
      by_cases hk : c' = k + 1
      · subst hk; rw [eq] at e'; injection e' with e'; exact e'.ge
      · exact (hle c' q' h' (by omega) e').trans hlt.le
    · have : ¬ (Num.num m h : Num f) < .num q g := by
        intro hc
        exact hlt (of_decide_eq_true hc)
      rw [if_neg this]
      refine ⟨m, h, rfl, ⟨c, by omega, ec⟩, fun c' q' h' hc' e' => ?_⟩
      by_cases hk : c' = k + 1
      · subst hk; rw [eq] at e'; injection e' with e'; rw [← e']; exact not_lt.mp hlt
      · exact hle c' q' h' (by omega) e'

theorem sub_le_zero {x m : ℚ} {h : Grid f x} {g : Grid f m} (hle : x ≤ m) : In (-largest f) 0 ((.num x h : Num f) - .num m g) ∨ (.num x h : Num f) - .num m g = .inf true := by
  change In _ _ (toNum f (x + -m)) ∨ toNum f (x + -m) = _
  by_cases hle' : |rnd f (x + -m)| ≤ largest f
  · left
    rw [toNum_of hle']
    refine ⟨_, _, rfl, toNum_fixed ⟨rnd_rnd _, hle'⟩, (abs_le.mp hle').1, ?_⟩
    have := rnd_mono (f := f) (show x + -m ≤ 0 by linarith)
    rwa [rnd_zero] at this
  · right
    have h0 : x + -m < 0 := by
      rcases lt_or_eq_of_le (show x + -m ≤ 0 by linarith) with h | h
      · exact h
      · exfalso; apply hle'; rw [h, rnd_zero]; exact fixed_zero.2
    unfold toNum
    rw [if_neg hle', decide_eq_true h0]

/-- The exponentials of a row. -/
theorem exps (M : Maths f) {n : Nat} {x : Nat → Num f} (hn : n ≠ 0) (hx : ∀ c, c < n → Fin (x c)) :
    (∀ c, c < n → In 0 1 (M.exp (x c - top x (n - 1)))) ∧ ∃ c, c < n ∧ In 1 1 (M.exp (x c - top x (n - 1))) := by
  obtain ⟨m, h, e, ⟨c, hc, ec⟩, hle⟩ := top_fin (x := x) (k := n - 1) (fun c hc => hx c (by omega))
  rw [e]
  constructor
  · intro c hc
    obtain ⟨q, g, eq, _⟩ := hx c hc
    rw [eq]
    exact exp_nonpos M (sub_le_zero (hle c q g (by omega) eq))
  · refine ⟨c, by omega, ?_⟩
    rw [ec]
    have : (Num.num m h : Num f) - .num m h = .num 0 ⟨0, by simp⟩ := by
      show toNum f (m + -m) = _
      rw [add_neg_cancel]
      exact toNum_fixed fixed_zero
    rw [this]
    exact exp_zero M

/-- Their sum, in any order of size. -/
theorem total_in (hw : Wide f) {y : Nat → Num f} {n : Nat} (φ : Num f → Num f) (hy : ∀ c, c < n → In 0 1 (φ (y c))) : In 0 (2 ^ f.p) (total φ y n) := by
  induction n with
  | zero => exact zero_in.mono le_rfl (by positivity)
  | succ n ih => exact add_count hw (ih (fun c hc => hy c (by omega))) (hy n (by omega)) fixed_zero (by norm_num)

theorem total_one (hw : Wide f) {y : Nat → Num f} {n : Nat} (φ : Num f → Num f) (hy : ∀ c, c < n → In 0 1 (φ (y c))) (h1 : ∃ c, c < n ∧ In 1 1 (φ (y c))) :
    In 1 (2 ^ f.p) (total φ y n) := by
  induction n with
  | zero => obtain ⟨c, hc, _⟩ := h1; omega
  | succ n ih =>
    by_cases h : ∃ c, c < n ∧ In 1 1 (φ (y c))
    · exact add_count hw (ih (fun c hc => hy c (by omega)) h) (hy n (by omega)) fixed_one (by norm_num)
    · obtain ⟨c, hc, e⟩ := h1
      obtain rfl : c = n := by
        by_contra hne
        exact h ⟨c, by omega, e⟩
      exact add_count hw (total_in hw φ (fun c' hc' => hy c' (by omega))) e fixed_one (by norm_num)

theorem quotient_in {a b : Num f} (ha : In 0 1 a) (hb : In 1 (2 ^ f.p) b) : In 0 1 (a / b) :=
  div_above ha (Above.in hb) fixed_zero fixed_one le_rfl le_rfl le_rfl zero_le_one

theorem valid_concat {pre ip : List Nat} {n j : Nat} (h : ValidIdx pre ip) (hj : j < n) : ValidIdx (pre ++ [n]) (ip ++ [j]) :=
  (validIdx_append h.length_eq).mpr ⟨h, hj, trivial⟩

theorem valid_snoc {pre is : List Nat} {n : Nat} (h : ValidIdx (pre ++ [n]) is) : ∃ ip j, is = ip ++ [j] ∧ ValidIdx pre ip ∧ j < n := by
  obtain ⟨ip, iq, rfl, h1, h2⟩ := validIdx_split2 h
  match iq, h2 with
  | [j], h2 => exact ⟨ip, j, rfl, h1, h2.1⟩

/-- C133: the tensor function `softmax` of finite numbers, for rows of any length: numbers between 0 and 1. -/
theorem softmax_finite (hw : Wide f) (M : Maths f) (eps : Num f) (he : In 0 1 eps) (t : Ten (Num f)) (pre : List Nat) (n : Nat) (a : List Nat → Num f) (ht : t.Has (pre ++ [n]) a)
    (hn : n ≠ 0) (hs : size pre ≠ 0) (ha : ∀ is, ValidIdx (pre ++ [n]) is → Fin (a is)) :
    ∃ y b, Softmax.softmaxOf M.exp eps t = ok y ∧ y.Has (pre ++ [n]) b ∧ ∀ is, ValidIdx (pre ++ [n]) is → In 0 1 (b is) := by
  obtain ⟨⟨sh, d⟩, h1, h2, h3⟩ := softmaxOf_any M.exp eps ht hn hs
  simp only at h2
  subst h2
  refine ⟨_, fun is => softRow M.exp eps n (fun c => a (is.dropLast ++ [c])) (is.getLastD 0), h1, table_batch h3 (fun ip j v1 _ => by simp [unflat_flat v1]), fun is hv => ?_⟩
  obtain ⟨ip, j, rfl, v1, v2⟩ := valid_snoc hv
  simp only [List.dropLast_concat, List.getLastD_concat]
  obtain ⟨e1, e2⟩ := exps M (x := fun c => a (ip ++ [c])) hn (fun c hc => ha _ (valid_concat v1 hc))
  refine quotient_in (e1 j v2) ?_
  exact add_count hw (total_one hw M.exp e1 e2) he fixed_one (by norm_num)

/-- A row of the operator. -/
def opRow (exp : Num f → Num f) (n : Nat) (x : Nat → Num f) (j : Nat) : Num f := exp (x j - top x (n - 1)) / total (fun v => v) (fun c => exp (x c - top x (n - 1))) n

theorem softmaxForwardOf_any (exp : Num f → Num f) {t : Ten (Num f)} {pre : List Nat} {n : Nat} {a : List Nat → Num f} (ht : t.Has (pre ++ [n]) a) (hn : n ≠ 0)
    (hs : size pre ≠ 0) :
    ∃ y, softmaxForwardOf exp t = ok y ∧ y.shape = pre ++ [n] ∧ Is2 y.data (size pre) n (fun r c => opRow exp n (fun c => a (unflat pre r ++ [c])) c) := by
  have hb := batch_table ht
  have hrows : t.data.length / n = size pre := by rw [hb.1]; exact Nat.mul_div_cancel _ (by omega)
  have hlast : t.shape.getLastD 0 = n := by rw [ht.1]; simp
  obtain ⟨d, h1, h2⟩ := Softmax.rows_ok (g := fun r c => opRow exp n (fun c => a (unflat pre r ++ [c])) c) (body := fun i d => do
    let mx ← Softmax.maxElement d (i * n) n
    let d ← Softmax.eachRow (fun v => exp (v - mx)) (i * n) n d
    let sum ← Softmax.accumulateRow (fun v => v) (i * n) n d
    Softmax.eachRow (fun v => v / sum) (i * n) n d) (by
      intro i d h hi hd hh
      rw [maxElement_any hd hi hn, bind_ok]
      obtain ⟨d1, k1, k2⟩ := Softmax.eachRow_ok (fun v => exp (v - top (h i) (n - 1))) hd hi
      rw [k1, bind_ok, accumulateRow_any (fun v => v) k2 hi, bind_ok]
      obtain ⟨d2, k3, k4⟩ := Softmax.eachRow_ok (fun v => v / total (fun v => v) (fun c => if i = i then exp (h i c - top (h i) (n - 1)) else h i c) n) k2 hi
      refine ⟨d2, k3, Softmax.Is2.congr' k4 (fun r c _ _ => ?_)⟩
      by_cases hri : r = i
      · subst hri
        simp only [if_true]
        rw [hh]; rfl
      · simp only [if_neg hri]) hb
  refine ⟨⟨pre ++ [n], d⟩, ?_, rfl, h2⟩
  unfold softmaxForwardOf
  have hne : t.data ≠ [] := by
    intro h
    have := hb.1
    rw [h] at this
    rcases Nat.mul_eq_zero.mp this.symm with h | h <;> contradiction
  rw [assert_true hne, bind_ok]
  dsimp only
  rw [hlast, require_true hn, bind_ok, hrows, h1, bind_ok, ht.1]
  rfl

/-- C133: the operator `softmax`, likewise; and its backward function gives finite numbers for finite gradients. -/
theorem softmax_operator_finite (hw : Wide f) (M : Maths f) (t : Ten (Num f)) (pre : List Nat) (n : Nat) (a : List Nat → Num f) (ht : t.Has (pre ++ [n]) a)
    (hn : n ≠ 0) (hs : size pre ≠ 0) (ha : ∀ is, ValidIdx (pre ++ [n]) is → Fin (a is)) :
    ∃ y b, softmaxForwardOf M.exp t = ok y ∧ y.Has (pre ++ [n]) b ∧ ∀ is, ValidIdx (pre ++ [n]) is → In 0 1 (b is) ∧ ∀ g, Fin g → Fin (softmaxB (b is) g) := by
  obtain ⟨⟨sh, d⟩, h1, h2, h3⟩ := softmaxForwardOf_any M.exp ht hn hs
  simp only at h2
  subst h2
  refine ⟨_, fun is => opRow M.exp n (fun c => a (is.dropLast ++ [c])) (is.getLastD 0), h1, table_batch h3 (fun ip j v1 _ => by simp [unflat_flat v1]), fun is hv => ?_⟩
  obtain ⟨ip, j, rfl, v1, v2⟩ := valid_snoc hv
  simp only [List.dropLast_concat, List.getLastD_concat]
  obtain ⟨e1, e2⟩ := exps M (x := fun c => a (ip ++ [c])) hn (fun c hc => ha _ (valid_concat v1 hc))
  have hq := quotient_in (e1 j v2) (total_one hw (fun v => v) e1 e2)
  refine ⟨hq, fun g hg => ?_⟩
  obtain ⟨q, hf, hg⟩ := hg.in
  have h1 := sub_in one_in hq fixed_zero fixed_one (by norm_num) (by norm_num)
  have h2 := mul_in hq h1 fixed_zero fixed_one (fun x y a1 a2 b1 b2 => ⟨by nlinarith, by nlinarith⟩)
  refine (mul_in hg h2 hf.abs.neg hf.abs (fun x y a1 a2 b1 b2 => ?_)).fin
  obtain rfl : x = q := le_antisymm a2 a1
  have := abs_mul x y
  rw [abs_of_nonneg b1] at this
  have h3 : |x * y| ≤ |x| := by rw [this]; exact mul_le_of_le_one_right (abs_nonneg _) b2
  exact abs_le.mp h3

/-- A row with a number and zero; both are finite. -/
example : (⟨[1, 2], [0, 1]⟩ : Ten (Num float32)).Has ([1] ++ [2]) (fun is => if is = [0, 1] then 1 else 0) ∧ Fin (1 : Num float32) ∧ Fin (0 : Num float32) ∧
    In 0 1 (0 : Num float32) ∧ Wide float32 ∧ Nonempty (Maths float32) := by
  refine ⟨⟨rfl, rfl, fun is hv => ?_⟩, one_in.fin, zero_in.fin, zero_in.mono le_rfl zero_le_one, wide32, ⟨roundsDown _⟩⟩
  match is, hv with
  | [0, 0], _ => rfl
  | [0, 1], _ => rfl
  | [n + 1, _], hv => exact absurd hv.1 (by omega)
  | [0, n + 2], hv => exact absurd hv.2.1 (by omega)

end Verif.Finite
