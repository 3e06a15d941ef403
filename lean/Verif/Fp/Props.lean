import Verif.Fp.Model
import Verif.Fp.Lemmas
import Verif.Ops.Basic
import Verif.Data.Reduce
/-!
# C118: what matrix products and sums of floating point numbers may be relied on for

The models of `gemm_cpu`, the matrix product operator and its gradients, `sum` and `reduce` are run with numbers that round.  The library is
usually built with `-ffast-math` (Makefile line 6), which lets the compiler add in another order; `any_order_accurate` is for that.
-/
namespace Verif.Fp
open Verif Res Gemm Data Ops Finset

variable {F : Type} [Arith F]

/-! ### the arithmetic -/

/-- `float`: relative error `2^-24`, absolute error of products near zero `2^-150`, no overflow up to `(2^24 - 1) 2^104`, whole numbers exact
below `2^24`. -/
theorem float32_constants : Arith.u (Num float32) = 1 / 2 ^ 24 ∧ Arith.w (Num float32) = 1 / 2 ^ 150 ∧
    Arith.top (Num float32) = (2 ^ 24 - 1) * 2 ^ 104 ∧ Arith.whole (Num float32) = 2 ^ 24 := by
  refine ⟨?_, ?_, ?_, ?_⟩
  · show ((((1 / 2 : ℚ)) ^ 24 : ℚ) : ℝ) = _
    push_cast; norm_num
  · show (((2 : ℚ) ^ (-149 : ℤ) / 2 : ℚ) : ℝ) = _
    push_cast; norm_num
  · show ((((2 : ℚ) ^ 24 - 1) * (2 : ℚ) ^ (104 : ℤ) : ℚ) : ℝ) = _
    push_cast; norm_num
  · show (((2 : ℚ) ^ 24 : ℚ) : ℝ) = _
    push_cast; norm_num

/-- The numbers of a format, but for the limit on the exponent: `p` significant bits, last bit at least `2^emin`. -/
def Representable (f : Fmt) (q : ℚ) : Prop := ∃ k e : ℤ, |k| < 2 ^ f.p ∧ f.emin ≤ e ∧ q = k * (2 : ℚ) ^ e

theorem roundEven_nearest (q : ℚ) (n : ℤ) : |(Text.roundEven q : ℚ) - q| ≤ |(n : ℚ) - q| := by
  by_contra hc
  rw [not_le] at hc
  have h1 := Text.roundEven_near q
  have : Text.roundEven q = n := Text.roundEven_eq (by rw [abs_sub_comm]; exact lt_of_lt_of_le hc h1)
  rw [this] at hc
  exact lt_irrefl _ hc

/-- Rounding gives a number of the format, and no number of the format is nearer. -/
theorem rnd_nearest (f : Fmt) (x : ℚ) : Representable f (rnd f x) ∧ ∀ q, Representable f q → |rnd f x - x| ≤ |q - x| := by
  have hp := ulp_pos f x
  have mult : ∀ n : ℤ, |rnd f x - x| ≤ |n * ulp f x - x| := by
    intro n
    have h := mul_le_mul_of_nonneg_right (roundEven_nearest (x / ulp f x) n) hp.le
    have e1 : (Text.roundEven (x / ulp f x) : ℚ) * ulp f x - x = ((Text.roundEven (x / ulp f x) : ℚ) - x / ulp f x) * ulp f x := by field_simp
    have e2 : (n : ℚ) * ulp f x - x = ((n : ℚ) - x / ulp f x) * ulp f x := by field_simp
    unfold rnd
    rw [e1, e2, abs_mul, abs_mul, abs_of_pos hp]
    exact h
  constructor
  · -- at most `2^p` steps of the last bit; `2^p` steps are one of the next binade
    have hk : |Text.roundEven (x / ulp f x)| ≤ 2 ^ f.p := by
      have hx : |x / ulp f x| ≤ 2 ^ f.p := by
        rw [abs_div, abs_of_pos hp, div_le_iff₀ hp]
        by_cases h0 : x = 0
        · subst h0; rw [abs_zero]; positivity
        · have hi := (Int.lt_zpow_succ_log_self (b := 2) (by norm_num) |x|).le
          push_cast at hi
          refine hi.trans ?_
          unfold ulp
          rw [← zpow_natCast, ← zpow_add₀ (by norm_num)]
          refine zpow_le_zpow_right₀ (by norm_num) ?_
          have : Int.log 2 |x| - ((f.p : ℤ) - 1) ≤ expOf f x := le_max_left _ _
          omega
      rw [abs_le] at hx ⊢
      refine ⟨Text.roundEven_mono_int ?_, Text.roundEven_le_int ?_⟩ <;> push_cast <;> linarith
    rcases lt_or_eq_of_le hk with h | h
    · exact ⟨_, expOf f x, h, le_max_right _ _, rfl⟩
    · have hpp := f.hp
      obtain ⟨m, hm⟩ : ∃ m, f.p = m + 1 := ⟨f.p - 1, by omega⟩
      have e2 : ∀ s : ℚ, s * 2 ^ f.p * (2 : ℚ) ^ expOf f x = s * 2 ^ m * (2 : ℚ) ^ (expOf f x + 1) := by
        intro s
        rw [hm, zpow_add₀ (by norm_num), zpow_one]; ring
      have h0 : (0 : ℤ) < 2 ^ m := by positivity
      have hlt : (2 : ℤ) ^ m < 2 ^ f.p := by rw [hm, pow_succ]; linarith
      have hmin0 : f.emin ≤ expOf f x := le_max_right _ _
      have hmin : f.emin ≤ expOf f x + 1 := by omega
      rcases (abs_eq (by positivity)).mp h with h' | h'
      · refine ⟨2 ^ m, expOf f x + 1, by rw [abs_of_pos (by positivity)]; exact hlt, hmin, ?_⟩
        unfold rnd
        rw [h']
        unfold ulp
        push_cast
        have := e2 1
        simpa using this
      · refine ⟨-2 ^ m, expOf f x + 1, by rw [abs_neg, abs_of_pos (by positivity)]; exact hlt, hmin, ?_⟩
        unfold rnd
        rw [h']
        unfold ulp
        push_cast
        have := e2 (-1)
        simpa using this
  · rintro q ⟨k, e, hk, he, rfl⟩
    rcases le_or_gt (expOf f x) e with h | h
    · have : (k : ℚ) * (2 : ℚ) ^ e = ((k * 2 ^ (e - expOf f x).toNat : ℤ) : ℚ) * ulp f x := by
        unfold ulp
        push_cast
        rw [mul_assoc, ← zpow_natCast, ← zpow_add₀ (by norm_num)]
        congr 2
        omega
      rw [this]
      exact mult _
    · by_cases h0 : x = 0
      · subst h0
        rw [rnd_zero, sub_self, abs_zero]
        exact abs_nonneg _
      -- `x` is at least the power of two that bounds `q`
      have hexp : expOf f x = Int.log 2 |x| - ((f.p : ℤ) - 1) := by
        unfold expOf at h ⊢
        rcases le_total (Int.log 2 |x| - ((f.p : ℤ) - 1)) f.emin with h' | h'
        · rw [max_eq_right h'] at h; omega
        · exact max_eq_left h'
      have lo := Int.zpow_log_le_self (b := 2) (r := |x|) (by norm_num) (abs_pos.mpr h0)
      push_cast at lo
      have hb : (2 : ℚ) ^ Int.log 2 |x| = ((2 ^ (f.p - 1) : ℤ) : ℚ) * ulp f x := by
        unfold ulp
        have := f.hp
        push_cast
        rw [← zpow_natCast, ← zpow_add₀ (by norm_num)]
        congr 1
        omega
      have hq : |(k : ℚ) * (2 : ℚ) ^ e| ≤ (2 : ℚ) ^ Int.log 2 |x| := by
        have hk' : |(k : ℚ)| ≤ 2 ^ f.p := by
          have : |k| ≤ 2 ^ f.p := hk.le
          exact_mod_cast this
        have he0 : (0 : ℚ) < (2 : ℚ) ^ e := zpow_pos (by norm_num) _
        rw [abs_mul, abs_of_pos he0]
        refine (mul_le_mul_of_nonneg_right hk' he0.le).trans ?_
        rw [← zpow_natCast, ← zpow_add₀ (by norm_num)]
        exact zpow_le_zpow_right₀ (by norm_num) (by omega)
      rw [abs_le] at hq
      rcases lt_or_gt_of_ne h0 with hx | hx
      · rw [abs_of_neg hx] at lo hq hb
        refine (mult (-2 ^ (f.p - 1))).trans ?_
        have e1 : ((-2 ^ (f.p - 1) : ℤ) : ℚ) * ulp f x = -(2 : ℚ) ^ Int.log 2 (-x) := by rw [hb]; push_cast; ring
        rw [e1, abs_of_nonneg (by linarith), abs_of_nonneg (by linarith)]
        linarith
      · rw [abs_of_pos hx] at lo hq hb
        refine (mult (2 ^ (f.p - 1))).trans ?_
        rw [← hb, abs_of_nonpos (by linarith), abs_of_nonpos (by linarith)]
        linarith

/-- In `float` a third is 11184811 / 2^25, and sixteen million and a half is rounded to even. -/
example : rnd float32 (1 / 3) = 11184811 / 2 ^ 25 ∧ rnd float32 (16777216 + 1) = 16777216 := by
  have e1 : expOf float32 (1 / 3) = -25 := by
    have : Int.log 2 |(1 / 3 : ℚ)| = -2 := by
      rw [abs_of_pos (by norm_num)]
      refine le_antisymm ?_ ((Int.zpow_le_iff_le_log (by norm_num) (by norm_num)).mp (by norm_num))
      have := (Int.lt_zpow_iff_log_lt (b := 2) (x := -1) (r := (1 / 3 : ℚ)) (by norm_num) (by norm_num)).mp (by norm_num)
      omega
    unfold expOf
    rw [this]
    simp [float32]
  have e2 : expOf float32 (16777216 + 1) = 1 := by
    have : Int.log 2 |(16777216 + 1 : ℚ)| = 24 := by
      rw [abs_of_pos (by norm_num)]
      refine le_antisymm ?_ ((Int.zpow_le_iff_le_log (by norm_num) (by norm_num)).mp (by norm_num))
      have := (Int.lt_zpow_iff_log_lt (b := 2) (x := 25) (r := (16777216 + 1 : ℚ)) (by norm_num) (by norm_num)).mp (by norm_num)
      omega
    unfold expOf
    rw [this]
    simp [float32]
  constructor
  · unfold rnd ulp
    rw [e1, Text.roundEven_eq (n := 11184811) (by norm_num [abs_lt])]
    norm_num
  · unfold rnd ulp
    rw [e2]
    have : Text.roundEven ((16777216 + 1) / (2 : ℚ) ^ (1 : ℤ)) = 8388608 := by
      unfold Text.roundEven
      norm_num
    rw [this]
    norm_num

/-! ### matrix products -/

/-- However the products of a row and a column are added up, starting from zero. -/
theorem any_order_accurate (x y : Nat → F) (n : Nat) (r : F) (h : Sums (0 :: prods x y n) r) : Accurate x y n r := sums_dot_accurate h

/-- Also if some products and sums are fused into one operation. -/
theorem any_order_fused_accurate {F : Type} [Fused F] (x y : Nat → F) (n : Nat) (r : F) (h : Dots ((0, 0) :: (List.range n).map (fun i => (x i, y i))) r) :
    AccurateTo (fusedBound (Arith.u F) (Arith.w F) n) x y n r := dots_accurate h

/-- The left to right sum with fused operations is one of these. -/
example (x y : Nat → Num float32) : Dots ((0, 0) :: (List.range 2).map (fun i => (x i, y i))) (Fused.fma (x 1) (y 1) (Fused.fma (x 0) (y 0) 0)) :=
  .perm (List.reverse_perm [(0, 0), (x 0, y 0), (x 1, y 1)]) (.fma (x 1) (y 1) (.fma (x 0) (y 0) .zero))

/-- `gemm_cpu`, for all transpose flags and whatever the output held: each entry is the sum of the products from the left. -/
theorem gemm_accurate (A B C : List F) (aT bT : Bool) (m n k : Nat) (a b : Nat → Nat → F) (hA : Stores A aT m n a) (hB : Stores B bT n k b)
    (hC : C.length = m * k) :
    ∃ C', gemmCpu A aT B bT m n k C = ok C' ∧ C'.length = m * k ∧
      ∀ i j, i < m → j < k → ∃ v, C'[i * k + j]? = some v ∧ v = dot (fun l => a i l) (fun l => b l j) n ∧
        Accurate (fun l => a i l) (fun l => b l j) n v := by
  obtain ⟨C', h1, h2, h3⟩ := gemmCpu_any hA hB hC
  exact ⟨C', h1, h2, fun i j hi hj => ⟨_, h3 i j hi hj, rfl, any_order_accurate _ _ _ _ (dot_sums _ _ _)⟩⟩

/-- A whole number below `2^24`, as a `float`. -/
def ofInt (k : ℤ) : Num float32 := .num k ⟨k * 2 ^ 149, by
  show (k : ℚ) = _ * (2 : ℚ) ^ (-149 : ℤ)
  push_cast
  norm_num [mul_assoc]⟩

theorem ofInt_fin (k : ℤ) : fin (ofInt k) := trivial

theorem ofInt_val (k : ℤ) : val (ofInt k) = k := by
  show (((k : ℚ)) : ℝ) = k
  simp

/-- A row of two and a column of two, in `float`: 3 * 5 + 4 * 6 is 39, in the order of the code and in any other. -/
example : ∃ v, gemmCpu [ofInt 3, ofInt 4] false [ofInt 5, ofInt 6] true 1 2 1 [.nan] = ok [v] ∧ fin v ∧ val v = 39 := by
  obtain ⟨C', h1, h2, h3⟩ := gemm_accurate [ofInt 3, ofInt 4] [ofInt 5, ofInt 6] [.nan] false true 1 2 1
    (fun _ l => if l = 0 then ofInt 3 else ofInt 4) (fun l _ => if l = 0 then ofInt 5 else ofInt 6)
    (by
      simp only [Stores, Bool.false_eq_true, if_false]
      refine ⟨rfl, fun i j hi hj => ?_⟩
      obtain rfl : i = 0 := by omega
      rcases (by omega : j = 0 ∨ j = 1) with rfl | rfl <;> rfl)
    (by
      simp only [Stores, if_true]
      refine ⟨rfl, fun i j hi hj => ?_⟩
      obtain rfl : i = 0 := by omega
      rcases (by omega : j = 0 ∨ j = 1) with rfl | rfl <;> rfl) rfl
  obtain ⟨v, e, _, _, _, h5⟩ := h3 0 0 (by omega) (by omega)
  match C', h2, e with
  | [x], _, e =>
    obtain rfl : x = v := by simpa using e
    obtain ⟨f1, f2⟩ := h5 (fun i hi => by
      rcases (by omega : i = 0 ∨ i = 1) with rfl | rfl
      · exact ⟨⟨ofInt_fin 3, ofInt_fin 5⟩, ⟨3, by simp [ofInt_val]⟩, ⟨5, by simp [ofInt_val]⟩⟩
      · exact ⟨⟨ofInt_fin 4, ofInt_fin 6⟩, ⟨4, by simp [ofInt_val]⟩, ⟨6, by simp [ofInt_val]⟩⟩) (by
      rw [float32_constants.2.2.2]
      simp [Finset.sum_range_succ, ofInt_val]
      norm_num)
    refine ⟨x, h1, f1, ?_⟩
    rw [f2]
    simp [Finset.sum_range_succ, ofInt_val]
    norm_num

/-- The matrix product operator. -/
theorem matmul_accurate (cache l r : Ten F) (m k n : Nat) (a b : List Nat → F) (hl : l.Has [m, k] a) (hr : r.Has [k, n] b) (hm : 0 < m)
    (hk : 0 < k) (hn : 0 < n) :
    ∃ t v, matmul cache l r = ok t ∧ t.Has [m, n] v ∧
      ∀ i j, i < m → j < n → Accurate (fun p => a [i, p]) (fun p => b [p, j]) k (v [i, j]) := by
  obtain ⟨sl, il⟩ := has2 hl
  obtain ⟨sr, ir⟩ := has2 hr
  have l1 : l.data.length ≠ 0 := by rw [il.1]; exact (Nat.mul_pos hm hk).ne'
  have l2 : r.data.length ≠ 0 := by rw [ir.1]; exact (Nat.mul_pos hk hn).ne'
  obtain ⟨d, h1, h2⟩ := gemmCpu_any (A := l.data) (B := r.data) (C := (resizeV cache [m, n]).data) (aT := false) (bT := false) (m := m) (n := k)
    (k := n) (a := fun i j => a [i, j]) (b := fun i j => b [i, j]) (by simpa [Gemm.Stores] using il) (by simpa [Gemm.Stores] using ir)
    (by rw [resizeV_length]; simp)
  refine ⟨⟨[m, n], d⟩, fun is => dot (fun l => a [is[0]?.getD 0, l]) (fun l => b [l, is[1]?.getD 0]) k, ?_, mk_has2 h2 (fun i j _ _ => by simp),
    fun i j _ _ => by simpa using any_order_accurate _ _ _ _ (dot_sums _ _ _)⟩
  unfold matmul
  rw [assert_true l1, bind_ok, assert_true l2, bind_ok, sl, sr]
  simp only [Gemm.gemmView, assert_true, bind_ok, h1]
  rfl

/-- Its gradients. -/
theorem matmul_back_accurate (cacheL cacheR l r g : Ten F) (m k n : Nat) (a b γ : List Nat → F) (hl : l.Has [m, k] a) (hr : r.Has [k, n] b)
    (hg : g.Has [m, n] γ) :
    ∃ dl dr δl δr, matmulBack cacheL cacheR l r g = ok (dl, dr) ∧ dl.Has [m, k] δl ∧ dr.Has [k, n] δr ∧
      (∀ i p, i < m → p < k → Accurate (fun j => γ [i, j]) (fun j => b [p, j]) n (δl [i, p])) ∧
      ∀ p j, p < k → j < n → Accurate (fun i => a [i, p]) (fun i => γ [i, j]) m (δr [p, j]) := by
  obtain ⟨sl, il⟩ := has2 hl
  obtain ⟨sr, ir⟩ := has2 hr
  obtain ⟨sg, ig⟩ := has2 hg
  obtain ⟨d, h1, h2⟩ := gemmCpu_any (A := g.data) (B := r.data) (C := (resizeV cacheL [m, k]).data) (aT := false) (bT := true) (m := m) (n := n)
    (k := k) (a := fun i j => γ [i, j]) (b := fun i j => b [j, i]) (by simpa [Gemm.Stores] using ig) (by simpa [Gemm.Stores] using ir)
    (by rw [resizeV_length]; simp)
  obtain ⟨e, k1, k2⟩ := gemmCpu_any (A := l.data) (B := g.data) (C := (resizeV cacheR [k, n]).data) (aT := true) (bT := false) (m := k) (n := m)
    (k := n) (a := fun i j => a [j, i]) (b := fun i j => γ [i, j]) (by simpa [Gemm.Stores] using il) (by simpa [Gemm.Stores] using ig)
    (by rw [resizeV_length]; simp)
  refine ⟨⟨[m, k], d⟩, ⟨[k, n], e⟩, fun is => dot (fun l => γ [is[0]?.getD 0, l]) (fun l => b [is[1]?.getD 0, l]) n,
    fun is => dot (fun l => a [l, is[0]?.getD 0]) (fun l => γ [l, is[1]?.getD 0]) m, ?_, mk_has2 h2 (fun i j _ _ => by simp),
    mk_has2 k2 (fun i j _ _ => by simp), fun i j _ _ => by simpa using any_order_accurate _ _ _ _ (dot_sums _ _ _),
    fun i j _ _ => by simpa using any_order_accurate _ _ _ _ (dot_sums _ _ _)⟩
  unfold matmulBack
  have g0 : rd g.shape 0 = ok m := by rw [sg]; rfl
  have g1 : rd g.shape 1 = ok n := by rw [sg]; rfl
  rw [g0, bind_ok, g1, bind_ok, require_true (by rw [sl]; simp), bind_ok]
  simp only [sl, sr, List.getLastD_cons, List.getLastD_nil, h1, k1, bind_ok]
  rfl

/-- The bound, read: as long as `n` is at most half of `1/u` less one (eight million for `float`), the relative part is at most `2 (n + 1) u`
and the absolute part at most `2 n w`. -/
theorem dotBound_le (u w S : ℝ) (n : Nat) (hu : 0 ≤ u) (hw : 0 ≤ w) (hS : 0 ≤ S) (hn : (n + 1) * u ≤ 1 / 2) :
    dotBound u w n S ≤ 2 * (n + 1) * u * S + 2 * n * w := by
  have key : ∀ k : Nat, k * u ≤ 1 / 2 → (1 + u) ^ k ≤ 1 + 2 * k * u := by
    intro k
    induction k with
    | zero => intro _; simp
    | succ k ih =>
      intro hk
      push_cast at hk ⊢
      have h1 := ih (by nlinarith)
      rw [pow_succ]
      have h2 := mul_le_mul_of_nonneg_right h1 (show 0 ≤ 1 + u by linarith)
      have h3 : 2 * (k : ℝ) * u * u ≤ u := by nlinarith
      nlinarith
  have h1 := key (n + 1) (by push_cast; exact hn)
  have h2 := key n (by nlinarith)
  push_cast at h1
  have h3 : (1 + u) ^ n ≤ 2 := by nlinarith
  unfold dotBound
  have h4 : ((1 + u) ^ (n + 1) - 1) * S ≤ (2 * (n + 1) * u) * S := mul_le_mul_of_nonneg_right (by linarith) hS
  have h5 : (n : ℝ) * (1 + u) ^ n * w ≤ n * 2 * w := mul_le_mul_of_nonneg_right (mul_le_mul_of_nonneg_left h3 (by positivity)) hw
  linarith

example : dotBound (1 / 2 ^ 24) (1 / 2 ^ 150) 1000 1 ≤ 1 / 8000 := by
  refine (dotBound_le _ _ _ _ (by norm_num) (by norm_num) (by norm_num) (by norm_num)).trans (by norm_num)

/-! ### sums -/

theorem reduction_sums {l : List F} {r : F} (h : IsReduction (· + ·) l r) : Sums l r := by
  induction h with
  | single a => exact .one a
  | node hp _ _ i1 i2 => exact .perm hp.symm (.add i1 i2)

theorem any_sum_accurate (l : List F) (r : F) (h : Sums (0 :: l) r) : AccurateSum l r := sums_accurate h

theorem sumAll_foldl [Zero α] [Add α] (t : Ten α) (hne : t.data ≠ []) : sumAll t = ok (t.data.foldl (· + ·) 0) := by
  unfold sumAll
  rw [assert_true (by simpa using hne), bind_ok]
  obtain ⟨x, h1, h2⟩ := loop_inv (n := t.data.length) (body := fun i acc => do let x ← rd t.data i; pure (acc + x)) (s := (0 : α))
    (fun i acc => acc = (t.data.take i).foldl (· + ·) 0) rfl (by
      intro i acc hi e
      refine ⟨_, by rw [rd_ok (List.getElem?_eq_getElem hi), bind_ok]; rfl, ?_⟩
      rw [List.take_succ_eq_append_getElem hi, List.foldl_append, e]; rfl)
  rw [h1, h2, List.take_length]

theorem foldl_sums (l : List F) : Sums (0 :: l) (l.foldl (· + ·) 0) := by
  induction l using List.reverseRecOn with
  | nil => exact .one 0
  | append_singleton l x ih =>
    rw [List.foldl_append, ← List.cons_append]
    exact .add ih (.one x)

/-- `sum( t )`: one sum over all elements. -/
theorem sum_accurate (t : Ten F) (hne : t.data ≠ []) : ∃ r, sumAll t = ok r ∧ AccurateSum t.data r :=
  ⟨_, sumAll_foldl t hne, any_sum_accurate _ _ (foldl_sums _)⟩

/-- One, an infinity, minus an infinity: the sum is not finite. -/
example : ∃ r, sumAll ⟨[3], [ofInt 1, .inf false, .inf true]⟩ = ok r ∧ ¬ fin r := by
  obtain ⟨r, h1, h2, _⟩ := sum_accurate (F := Num float32) ⟨[3], [ofInt 1, .inf false, .inf true]⟩ (by simp)
  exact ⟨r, h1, fun h => (h2 h).1 (.inf false) (by simp)⟩

/-- `reduce_sum( t, axis, keepdims )`, with `std::reduce` adding in any order. -/
theorem reduce_accurate (red : List F → F) (hred : Reduces (· + ·) red) (t : Ten F) (pre post : List Nat) (n axis : Nat) (a : List Nat → F)
    (keep : Bool) (ht : t.Has (pre ++ n :: post) a) (hne : t.data ≠ [])
    (hax : axis = pre.length ∧ axis ≠ minusOne ∨ axis = minusOne ∧ post = []) (hkeep : keep = true ∨ pre ++ post ≠ [])
    (hlast : (pre ++ post).getLast? ≠ some minusOne) :
    ∃ u v, reduce red t axis 0 keep = ok u ∧ u.Has (if keep then pre ++ 1 :: post else pre ++ post) v ∧
      ∀ is js, ValidIdx pre is → ValidIdx post js →
        AccurateSum ((List.range n).map (fun i => a (is ++ i :: js))) (v (if keep then is ++ 0 :: js else is ++ js)) := by
  obtain ⟨u, h1, h2, h3, _⟩ := reduce_ok (red := red) (init := (0 : F)) (keep := keep) ht hne hax hkeep hlast
  have acc : ∀ l, AccurateSum l (red (0 :: l)) := fun l => any_sum_accurate _ _ (reduction_sums (hred _ (by simp)))
  cases keep with
  | true =>
    refine ⟨u, _, h1, h2 rfl, fun is js hi hj => ?_⟩
    have hl := ValidIdx.length_eq hi
    have : fibre a n pre.length (is ++ 0 :: js) = (List.range n).map (fun i => a (is ++ i :: js)) := by
      unfold fibre
      refine List.map_congr_left (fun i _ => ?_)
      rw [← hl, List.set_append_right _ _ (le_refl _), Nat.sub_self]; rfl
    simp only [if_true]
    rw [this]
    exact acc _
  | false =>
    refine ⟨u, _, h1, h3 rfl, fun is js hi hj => ?_⟩
    have hl := ValidIdx.length_eq hi
    have : fibre' a n pre.length (is ++ js) = (List.range n).map (fun i => a (is ++ i :: js)) := by
      unfold fibre'
      refine List.map_congr_left (fun i _ => ?_)
      rw [← hl, List.take_left, List.drop_left]
    simp only [Bool.false_eq_true, if_false]
    rw [this]
    exact acc _

/-! ### sums that stand still -/

theorem log_top (p : Nat) (x : ℚ) (h1 : 2 ^ p ≤ x) (h2 : x < 2 ^ (p + 1)) : Int.log 2 |x| = p := by
  have h0 : 0 < x := lt_of_lt_of_le (by positivity) h1
  rw [abs_of_pos h0]
  refine le_antisymm ?_ ((Int.zpow_le_iff_le_log (by norm_num) h0).mp (by push_cast; rw [zpow_natCast]; exact h1))
  have := (Int.lt_zpow_iff_log_lt (b := 2) (x := (p : ℤ) + 1) (r := x) (by norm_num) h0).mp (by
    push_cast
    rw [show ((p : ℤ) + 1) = ((p + 1 : Nat) : ℤ) by push_cast; rfl, zpow_natCast]; exact h2)
  omega

/-- Counting by adding ones in a format of `p` bits: the count stays at `2^p`. -/
theorem rnd_count (f : Fmt) (hp : 2 ≤ f.p) : rnd f (2 ^ f.p) = 2 ^ f.p ∧ rnd f (2 ^ f.p + 1) = 2 ^ f.p := by
  obtain ⟨m, hm⟩ : ∃ m, f.p = m + 2 := ⟨f.p - 2, by omega⟩
  have big : (1 : ℚ) < 2 ^ f.p := one_lt_pow₀ (by norm_num) (by omega)
  have ex : ∀ x : ℚ, 2 ^ f.p ≤ x → x < 2 ^ (f.p + 1) → ulp f x = 2 := by
    intro x h1 h2
    have := f.hmin
    have : expOf f x = 1 := by
      unfold expOf
      rw [log_top f.p x h1 h2]
      exact (max_eq_left (by omega)).trans (by omega)
    unfold ulp
    rw [this, zpow_one]
  have u1 := ex (2 ^ f.p) (le_refl _) (by rw [pow_succ]; linarith)
  have u2 := ex (2 ^ f.p + 1) (by linarith) (by rw [pow_succ]; linarith)
  constructor
  · refine rnd_mult f (k := 2 ^ (m + 1)) ?_
    rw [u1, hm]; push_cast; ring
  · unfold rnd
    rw [u2]
    have e : ((2 : ℚ) ^ f.p + 1) / 2 = ((2 ^ (m + 1) : ℤ) : ℚ) + 1 / 2 := by rw [hm]; push_cast; ring
    have fl : ⌊((2 : ℚ) ^ f.p + 1) / 2⌋ = 2 ^ (m + 1) := by
      rw [e, Int.floor_eq_iff]
      constructor <;> linarith
    have r : Text.roundEven (((2 : ℚ) ^ f.p + 1) / 2) = 2 ^ (m + 1) := by
      unfold Text.roundEven
      rw [fl, e, if_neg (by norm_num), if_neg (by norm_num), if_pos (by rw [pow_succ]; exact Int.mul_emod_left _ _)]
    rw [r, hm]
    push_cast
    ring

/-- `sum( t )` of `N` ones is not `N` but `2^p` as soon as `N` is larger: with `float`, 16777216. -/
theorem sum_ones_stuck (f : Fmt) (hp : 2 ≤ f.p) (he : 1 ≤ f.emax) (one : Num f) (h1 : one.isNum) (hv : one.rat = 1) (N : Nat) (hN : 2 ^ f.p ≤ N) :
    ∃ r, sumAll ⟨[N], List.replicate N one⟩ = ok r ∧ r.isNum ∧ r.rat = 2 ^ f.p := by
  have big : (1 : ℚ) < 2 ^ f.p := one_lt_pow₀ (by norm_num) (by omega)
  have hlarge : (2 : ℚ) ^ f.p ≤ largest f := by
    unfold largest
    have h4 : (2 : ℚ) ^ (1 : ℤ) ≤ (2 : ℚ) ^ f.emax := zpow_le_zpow_right₀ (by norm_num) he
    rw [zpow_one] at h4
    have h5 : (2 : ℚ) ≤ 2 ^ f.p := by
      calc (2 : ℚ) = 2 ^ 1 := by norm_num
        _ ≤ 2 ^ f.p := pow_le_pow_right₀ (by norm_num) (by omega)
    nlinarith
  obtain ⟨q, hq, rfl⟩ := isNum_iff f h1
  have hq1 : q = 1 := hv
  subst hq1
  have key : ∀ n : Nat, ∃ h, (List.replicate n (Num.num 1 hq : Num f)).foldl (· + ·) 0 = .num (min n (2 ^ f.p)) h := by
    intro n
    induction n with
    | zero => exact ⟨⟨0, by simp⟩, by simp; rfl⟩
    | succ n ih =>
      obtain ⟨h, e⟩ := ih
      rw [List.replicate_succ', List.foldl_append, e]
      show ∃ h', toNum f (min (n : ℚ) (2 ^ f.p) + 1) = .num _ h'
      have hr : rnd f (min (n : ℚ) (2 ^ f.p) + 1) = min ((n + 1 : Nat) : ℚ) (2 ^ f.p) := by
        rcases lt_trichotomy (n + 1) (2 ^ f.p) with hlt | heq | hgt
        · have c : ((n : ℚ) + 1) < 2 ^ f.p := by exact_mod_cast hlt
          rw [min_eq_left (by linarith), min_eq_left (by push_cast; linarith)]
          have := rnd_int f (k := (n : ℤ) + 1) (by push_cast; rw [abs_of_nonneg (by positivity)]; exact c)
          push_cast at this ⊢
          exact this
        · have c : ((n : ℚ) + 1) = 2 ^ f.p := by exact_mod_cast heq
          rw [min_eq_left (by linarith), c, min_eq_right (by push_cast; linarith)]
          exact (rnd_count f hp).1
        · have c : (2 : ℚ) ^ f.p ≤ n := by exact_mod_cast (by omega : 2 ^ f.p ≤ n)
          rw [min_eq_right c, min_eq_right (by push_cast; linarith)]
          exact (rnd_count f hp).2
      have hle : |rnd f (min (n : ℚ) (2 ^ f.p) + 1)| ≤ largest f := by
        rw [hr, abs_of_nonneg (le_min (by positivity) (by positivity))]
        exact (min_le_right _ _).trans hlarge
      unfold toNum
      rw [if_pos hle]
      refine ⟨hr ▸ rnd_grid f _, ?_⟩
      congr 1
  obtain ⟨h, e⟩ := key N
  refine ⟨.num (min N (2 ^ f.p)) h, ?_, trivial, ?_⟩
  · rw [sumAll_foldl _ (by
      have : 0 < 2 ^ f.p := by positivity
      simp; omega), ← e]
  · exact min_eq_right (by exact_mod_cast hN)

/-- Twenty million ones. -/
example : ∃ r, sumAll ⟨[20000000], List.replicate 20000000 (toNum float32 1)⟩ = ok r ∧ r.isNum ∧ r.rat = 16777216 := by
  have h : rnd float32 1 = 1 := by
    have := rnd_int float32 (k := 1) (by norm_num [float32])
    simpa using this
  have hl : |rnd float32 1| ≤ largest float32 := by rw [h]; norm_num [largest, float32]
  obtain ⟨r, h1, h2, h3⟩ := sum_ones_stuck float32 (by norm_num [float32]) (by norm_num [float32]) (toNum float32 1) ((toNum_isNum _).mpr hl)
    (by rw [toNum_rat _ hl, h]) 20000000 (by norm_num [float32])
  exact ⟨r, h1, h2, by rw [h3]; norm_num [float32]⟩

end Verif.Fp
