import Verif.Finite.Acts
/-!
# C134: `cross_entropy_loss` of finite predictions
-/
namespace Verif.Finite
open Verif Res Data Tensor Fp Nan
open Verif.Norm (batch_table table_batch)

variable {f : Fmt}

/-- Adding less than half the distance to the next number changes nothing at a power of two above the whole numbers. -/
theorem rnd_stuck (n : ℕ) {d : ℚ} (h0 : 0 ≤ d) (hd : 2 * d < 2 ^ (n + 1)) : rnd f (2 ^ (f.p + n) + d) ≤ 2 ^ (f.p + n) := by
  have hp := f.hp
  have hrep : Representable f ((2 : ℚ) ^ (f.p + n)) := by
    refine ⟨1, f.p + n, ?_, by have := f.hmin; omega, ?_⟩
    · rw [abs_one]; exact one_lt_pow₀ (by norm_num) (by omega)
    · push_cast
      rw [one_mul, ← zpow_natCast]
      push_cast
      rfl
  have h1 := (rnd_nearest f (2 ^ (f.p + n) + d)).2 _ hrep
  obtain ⟨k, e, hk, he, hq⟩ := (rnd_nearest f (2 ^ (f.p + n) + d)).1
  by_contra hc
  rw [not_le] at hc
  have h2 : rnd f (2 ^ (f.p + n) + d) ≤ 2 ^ (f.p + n) + 2 * d := by
    rw [show (2 : ℚ) ^ (f.p + n) - (2 ^ (f.p + n) + d) = -d by ring, abs_neg, abs_of_nonneg h0] at h1
    have := (abs_le.mp h1).2
    linarith
  rw [hq] at hc h2
  have hkq : (k : ℚ) < 2 ^ f.p := by
    have := lt_of_le_of_lt (le_abs_self k) hk
    exact_mod_cast this
  have hpe : (0 : ℚ) < (2 : ℚ) ^ e := zpow_pos (by norm_num) _
  -- the exponent is above `n`
  have hen : (n : ℤ) < e := by
    by_contra hle
    rw [not_lt] at hle
    have h3 : (2 : ℚ) ^ e ≤ 2 ^ n := by
      rw [← zpow_natCast]; exact zpow_le_zpow_right₀ (by norm_num) hle
    have : (k : ℚ) * 2 ^ e < 2 ^ f.p * 2 ^ n := by
      rcases le_or_gt (k : ℚ) 0 with h | h
      · have : (k : ℚ) * 2 ^ e ≤ 0 := mul_nonpos_of_nonpos_of_nonneg h hpe.le
        have : (0 : ℚ) < 2 ^ f.p * 2 ^ n := by positivity
        linarith
      · calc (k : ℚ) * 2 ^ e < 2 ^ f.p * 2 ^ e := mul_lt_mul_of_pos_right hkq hpe
          _ ≤ 2 ^ f.p * 2 ^ n := mul_le_mul_of_nonneg_left h3 (by positivity)
    rw [pow_add] at hc
    linarith
  obtain ⟨m, rfl⟩ : ∃ m : ℕ, e = m + (n + 1 : ℕ) := ⟨(e - (n + 1)).toNat, by push_cast; omega⟩
  have e1 : (k : ℚ) * 2 ^ ((m : ℤ) + ((n + 1 : ℕ) : ℤ)) = ((k * 2 ^ m : ℤ) : ℚ) * 2 ^ (n + 1) := by
    rw [zpow_add₀ (by norm_num), zpow_natCast, zpow_natCast]; push_cast; ring
  have e2 : (2 : ℚ) ^ (f.p + n) = ((2 ^ (f.p - 1) : ℤ) : ℚ) * 2 ^ (n + 1) := by
    push_cast
    rw [← pow_add]
    congr 1
    omega
  rw [e1, e2] at hc h2
  have hN : (0 : ℚ) < 2 ^ (n + 1) := by positivity
  have h5 : ((2 ^ (f.p - 1) : ℤ) : ℚ) < ((k * 2 ^ m : ℤ) : ℚ) := lt_of_mul_lt_mul_right hc hN.le
  have h6 : (2 ^ (f.p - 1) : ℤ) + 1 ≤ k * 2 ^ m := by exact_mod_cast h5
  have h7 : ((2 ^ (f.p - 1) : ℤ) : ℚ) + 1 ≤ ((k * 2 ^ m : ℤ) : ℚ) := by exact_mod_cast h6
  nlinarith

/-- The bound of a sum of numbers up to 32. -/
def roof (f : Fmt) : ℚ := 2 ^ (f.p + 6)

theorem fixed_roof (hw : Wide f) (he : 8 ≤ f.emax) : Fixed f (roof f) := by
  have hp := f.hp
  refine ⟨rnd_rep ⟨1, f.p + 6, ?_, by have := f.hmin; omega, ?_⟩, ?_⟩
  · rw [abs_one]; exact one_lt_pow₀ (by norm_num) (by omega)
  · unfold roof
    push_cast
    rw [one_mul, ← zpow_natCast]
    push_cast
    rfl
  · unfold roof largest
    rw [abs_of_pos (by positivity), pow_add]
    have h1 : (2 : ℚ) ^ (8 : ℤ) ≤ (2 : ℚ) ^ f.emax := zpow_le_zpow_right₀ (by norm_num) he
    have h2 : (2 : ℚ) ≤ 2 ^ f.p := by
      calc (2 : ℚ) = 2 ^ 1 := by norm_num
        _ ≤ 2 ^ f.p := pow_le_pow_right₀ (by norm_num) hp
    norm_num at h1
    nlinarith

/-- Subtracting something between -32 and 0. -/
theorem sub_roof (hw : Wide f) (he : 8 ≤ f.emax) {a b : Num f} (ha : In 0 (roof f) a) (hb : In (-32) 0 b) : In 0 (roof f) (a - b) := by
  obtain ⟨x, _, rfl, _, a1, a2⟩ := ha
  obtain ⟨y, _, rfl, _, b1, b2⟩ := hb
  have h1 : 0 ≤ rnd f (x + -y) := by have := rnd_mono (f := f) (show 0 ≤ x + -y by linarith); rwa [rnd_zero] at this
  have h2 : rnd f (x + -y) ≤ roof f := by
    refine le_trans (rnd_mono (f := f) (show x + -y ≤ 2 ^ (f.p + 6) + 32 by unfold roof at a2; linarith)) (rnd_stuck 6 (by norm_num) (by norm_num))
  have hle : |rnd f (x + -y)| ≤ largest f := by
    rw [abs_of_nonneg h1]
    exact h2.trans ((le_abs_self _).trans (fixed_roof hw he).2)
  show In 0 (roof f) (toNum f (x + -y))
  rw [toNum_of hle]
  exact ⟨_, _, rfl, toNum_fixed ⟨rnd_rnd _, hle⟩, h1, h2⟩

/-- A probability, cut at eps, has a logarithm between -32 and 0. -/
theorem log_in (hw : Wide f) (M : Maths f) {eps s : Num f} (he : In (1 / 2 ^ 44) 1 eps) (hs : In 0 1 s) : In (-32) 0 (M.log (Softmax.stdMax eps s)) := by
  obtain ⟨x, g, e, _, x1, x2⟩ := stdMax_in he hs
  rw [e]
  have hx1 : (1 / 2 ^ 44 : ℚ) ≤ x := (le_max_left _ _).trans x1
  have hx2 : x ≤ 1 := by simpa using x2
  have hpos : 0 < x := lt_of_lt_of_le (by norm_num) hx1
  have hposR : (0 : ℝ) < (x : ℝ) := by exact_mod_cast hpos
  have := (M.log_num x g hpos).between (m := -32) (n := 0) (small_pow hw (by norm_num)) (small_pow hw (by norm_num)) (by
    have h1 : Real.log (1 / 2 ^ 44) ≤ Real.log (x : ℝ) := Real.log_le_log (by positivity) (by
      have : ((1 / 2 ^ 44 : ℚ) : ℝ) ≤ (x : ℝ) := by exact_mod_cast hx1
      push_cast at this
      exact this)
    have h2 : Real.log (1 / 2 ^ 44) = -(44 * Real.log 2) := by
      rw [one_div, Real.log_inv, Real.log_pow]; norm_num
    have h3 := Real.log_two_lt_d9
    push_cast
    linarith) (by
    push_cast
    exact Real.log_nonpos hposR.le (by exact_mod_cast hx2))
  simpa using this

theorem weight_in {eps k : Num f} (hk : In 0 1 k) {n : Nat} (hn : 2 ≤ n) (g : Num f) : In 0 1 (Softmax.weightOf eps k n g) := by
  unfold Softmax.weightOf
  split
  · exact sub_in one_in hk fixed_zero fixed_one (by norm_num) (by norm_num)
  · have h1 : (1 : ℚ) ≤ ((n - 1 : Nat) : ℚ) := by exact_mod_cast (by omega : 1 ≤ n - 1)
    exact div_above hk (toNum_above fixed_one h1 (by linarith)) fixed_zero fixed_one le_rfl le_rfl le_rfl zero_le_one

theorem softRow_in (hw : Wide f) (M : Maths f) {eps : Num f} (he : In 0 1 eps) {n : Nat} {x : Nat → Num f} (hn : n ≠ 0) (hx : ∀ c, c < n → Fin (x c)) {j : Nat} (hj : j < n) :
    In 0 1 (softRow M.exp eps n x j) := by
  obtain ⟨e1, e2⟩ := exps M (x := x) hn hx
  exact quotient_in (e1 j hj) (add_count hw (total_one hw M.exp e1 e2) he fixed_one (by norm_num))

/-- C134: for finite predictions, whatever the labels, batch and number of classes, `cross_entropy_loss` is a finite number and not negative. -/
theorem cross_entropy_loss_finite (hw : Wide f) (hemax : 8 ≤ f.emax) (M : Maths f) (eps k : Num f) (he : In (1 / 2 ^ 44) 1 eps) (hk : In 0 1 k) (truth pred : Ten (Num f))
    (pre : List Nat) (n : Nat) (g a : List Nat → Num f) (hg : truth.Has (pre ++ [n]) g) (ht : pred.Has (pre ++ [n]) a) (hn : 2 ≤ n) (hs : size pre ≠ 0)
    (ha : ∀ is, ValidIdx (pre ++ [n]) is → Fin (a is)) :
    ∃ y, Softmax.crossForwardOf M.exp M.log eps k truth pred = ok ⟨[1], [y]⟩ ∧ In 0 (roof f) y := by
  obtain ⟨y, h1, h2, h3⟩ := softmaxOf_any M.exp eps ht (by omega) hs
  have hsz : size (pre ++ [n]) = size pre * n := by rw [size_append]; simp
  have hlast : truth.shape.getLastD 0 = n := by rw [hg.1]; simp
  have key : ∀ m, m ≤ size pre * n → ∃ r, loop m (fun i ans => do
        let g ← rd truth.data i
        let s ← rd y.data i
        pure (ans - Softmax.weightOf eps k n g * M.log (Softmax.stdMax eps s))) (0 : Num f) = ok r ∧ In 0 (roof f) r := by
    intro m hm
    induction m with
    | zero => exact ⟨0, rfl, zero_in.mono le_rfl (by unfold roof; positivity)⟩
    | succ m ih =>
      obtain ⟨r, r1, r2⟩ := ih (by omega)
      have hd : m / n < size pre := Nat.div_lt_of_lt_mul (by rw [Nat.mul_comm]; omega)
      have hmod : m % n < n := Nat.mod_lt m (by omega)
      have hr := h3.rd hd hmod
      rw [show m / n * n + m % n = m by rw [Nat.mul_comm]; exact Nat.div_add_mod m n] at hr
      rw [loop_succ, r1, bind_ok, rd_ok (hg.2.pos (by rw [hsz]; omega)), bind_ok, hr, bind_ok]
      refine ⟨_, rfl, sub_roof hw hemax r2 ?_⟩
      have hq := softRow_in hw M (he.mono (by norm_num) le_rfl) (x := fun c => a (unflat pre (m / n) ++ [c])) (by omega)
        (fun c hc => ha _ (valid_concat (unflat_spec hd).1 hc)) hmod
      have h32 : Fixed f (-32) := by simpa using fixed_small hw (m := -32) (by norm_num)
      exact mul_in (weight_in hk hn _) (log_in hw M he hq) h32 fixed_zero (fun x y a1 a2 b1 b2 => ⟨by nlinarith, by nlinarith⟩)
  obtain ⟨r, r1, r2⟩ := key _ le_rfl
  refine ⟨r / ((truth.shape.headD 0 : Nat) : Num f), ?_, ?_⟩
  · unfold Softmax.crossForwardOf
    rw [h1, bind_ok, require_true (by rw [hg.1]; simp), bind_ok]
    dsimp only
    rw [hlast, require_true (by omega), bind_ok, hg.2.1, hsz, r1, bind_ok]
    rfl
  · have hb : 1 ≤ truth.shape.headD 0 := by
      rw [hg.1]
      cases pre with
      | nil => simp; omega
      | cons b pre =>
        simp only [List.cons_append, List.headD_cons]
        by_contra hc
        exact hs (by simp [show b = 0 by omega])
    have hb' : (1 : ℚ) ≤ ((truth.shape.headD 0 : Nat) : ℚ) := by exact_mod_cast hb
    have h0 : (0 : ℚ) ≤ roof f := by unfold roof; positivity
    exact div_above r2 (toNum_above fixed_one hb' (by linarith)) fixed_zero (fixed_roof hw hemax) le_rfl le_rfl le_rfl h0

/-- Backward action of `cross_entropy_loss` (include/loss.hpp lines 89-112), for any numbers: the gradients for the labels and for the prediction. -/
def crossBackwardOf {α : Type} [LT α] [DecidableLT α] [Zero α] [One α] [Add α] [Sub α] [Mul α] [Div α] [NatCast α] (exp : α → α) (eps f : α) (truth pred grad : Ten α) :
    Res (Ten α × Ten α) := do
  let factor ← rd grad.data 0
  require (truth.shape ≠ [])
  let n := truth.shape.getLastD 0
  require (n ≠ 1)
  let sm ← Softmax.softmaxOf exp eps pred
  let d ← loop truth.data.length (fun i d => do
    let g ← rd truth.data i
    let s ← rd d i
    wr d i (factor * (s - Softmax.weightOf eps f n g))) sm.data
  pure (⟨truth.shape, truth.data.map (fun x => x * factor)⟩, ⟨sm.shape, d⟩)

/-- Over the reals it is the function of `Verif/Softmax`. -/
theorem crossBackwardOf_real (eps f : ℝ) (truth pred grad : Ten ℝ) : crossBackwardOf Real.exp eps f truth pred grad = Softmax.crossBackward eps f truth pred grad := rfl

/-- C134: the gradients for finite predictions are finite, and none is larger than the incoming one. -/
theorem cross_entropy_backward_finite (hw : Wide f) (M : Maths f) (eps k : Num f) (he : In 0 1 eps) (hk : In 0 1 k) (truth pred grad : Ten (Num f))
    (pre : List Nat) (n : Nat) (g a : List Nat → Num f) (hg : truth.Has (pre ++ [n]) g) (ht : pred.Has (pre ++ [n]) a) (hn : 2 ≤ n) (hs : size pre ≠ 0)
    (ha : ∀ is, ValidIdx (pre ++ [n]) is → Fin (a is)) (q : ℚ) (x : Num f) (hx : grad.data[0]? = some x) (hq : In q q x) :
    ∃ u v b, crossBackwardOf M.exp eps k truth pred grad = ok (u, v) ∧ v.Has (pre ++ [n]) b ∧ ∀ is, ValidIdx (pre ++ [n]) is → In (-|q|) |q| (b is) := by
  obtain ⟨⟨sh, d⟩, h1, h2, h3⟩ := softmaxOf_any M.exp eps ht (by omega) hs
  simp only at h2 h3
  subst h2
  obtain ⟨q', hq', hxq⟩ := hq.fin.in
  obtain rfl : q' = q := by
    obtain ⟨a, _, rfl, _, a1, a2⟩ := hq
    obtain ⟨b, _, e, _, b1, b2⟩ := hxq
    injection e with e
    linarith
  have hsz : size (pre ++ [n]) = size pre * n := by rw [size_append]; simp
  have hlast : truth.shape.getLastD 0 = n := by rw [hg.1]; simp
  have hI : (⟨pre ++ [n], d⟩ : Ten (Num f)).Has (pre ++ [n]) (fun is => softRow M.exp eps n (fun c => a (is.dropLast ++ [c])) (is.getLastD 0)) :=
    table_batch h3 (fun ip j v1 _ => by simp [unflat_flat v1])
  obtain ⟨o, o1, o2, o3⟩ := upd1 (n := size pre * n) (o := d) (body := fun i d => do
      let g ← rd truth.data i
      let s ← rd d i
      wr d i (x * (s - Softmax.weightOf eps k n g))) (φ := fun i s => x * (s - Softmax.weightOf eps k n (g (unflat (pre ++ [n]) i)))) (fun i o z hi _ hz => by
        rw [rd_ok (hg.2.pos (by rw [hsz]; exact hi)), bind_ok, rd_ok hz, bind_ok]) (by rw [hI.2.1, hsz])
  refine ⟨⟨truth.shape, truth.data.map (fun z => z * x)⟩, ⟨pre ++ [n], o⟩, fun is => x * (softRow M.exp eps n (fun c => a (is.dropLast ++ [c])) (is.getLastD 0) -
    Softmax.weightOf eps k n (g is)), ?_, ⟨rfl, by rw [o2, hsz], fun is hv => ?_⟩, fun is hv => ?_⟩
  · unfold crossBackwardOf
    rw [rd_ok hx, bind_ok, require_true (by rw [hg.1]; simp), bind_ok]
    dsimp only
    rw [hlast, require_true (by omega), bind_ok, h1, bind_ok, hg.2.1, hsz, o1, bind_ok]
    rfl
  · have := o3 _ _ (hI.2.2 is hv)
    rwa [unflat_flat hv] at this
  · obtain ⟨ip, j, rfl, v1, v2⟩ := valid_snoc hv
    simp only [List.dropLast_concat, List.getLastD_concat]
    have h4 := softRow_in hw M he (x := fun c => a (ip ++ [c])) (by omega) (fun c hc => ha _ (valid_concat v1 hc)) v2
    exact shrink hq' hxq (sub_in h4 (weight_in hk hn _) fixed_one.neg fixed_one (by norm_num) (by norm_num)) le_rfl le_rfl

/-- Labels and predictions of one sample and two classes; `1e-8`, no smoothing, `float`. -/
example : (⟨[1, 2], [0, 1]⟩ : Ten (Num float32)).Has ([1] ++ [2]) (fun is => if is = [0, 1] then 1 else 0) ∧ In (1 / 2 ^ 44) 1 (lit (1 / 10 ^ 8) : Num float32) ∧
    In 0 1 (0 : Num float32) ∧ Wide float32 ∧ 8 ≤ float32.emax := by
  refine ⟨⟨rfl, rfl, fun is hv => ?_⟩, ?_, zero_in.mono le_rfl zero_le_one, wide32, by norm_num [float32]⟩
  · match is, hv with
    | [0, 0], _ => rfl
    | [0, 1], _ => rfl
    | [n + 1, _], hv => exact absurd hv.1 (by omega)
    | [0, n + 2], hv => exact absurd hv.2.1 (by omega)
  · have : Fixed float32 (1 / 2 ^ 44) := by
      refine ⟨rnd_rep ⟨1, -44, by norm_num [float32], by norm_num [float32], by norm_num⟩, ?_⟩
      rw [show largest float32 = (2 ^ 24 - 1) * 2 ^ 104 by unfold largest float32; norm_num, abs_of_pos (by norm_num)]
      norm_num
    exact toNum_in this fixed_one (by norm_num) (by norm_num)

end Verif.Finite
