import Verif.Fp.Network
import Verif.Finite.Acts
/-!
# Activations computed with rounding

Which activations may stand in the networks of C135, for the rounded formats, and with which errors.
-/
namespace Verif.Fp
open Verif Res Finite Nan Graph

variable {f : Fmt}

theorem Num.fin_iff {a : Num f} : fin a ↔ ∃ q h, a = .num q h := ⟨fun h => isNum_iff f h, by rintro ⟨q, h, rfl⟩; exact trivial⟩

theorem val_num (q : ℚ) (h : Grid f q) : val (.num q h : Num f) = (q : ℝ) := rfl

/-- A finite sum is a number of the format. -/
theorem sum_fixed {a b : Num f} (h : fin (a + b)) : ∃ q g, a + b = .num q g ∧ Fixed f q := by
  obtain ⟨x, hx, y, hy, rfl, rfl, e⟩ := add_isNum f h
  rw [e] at h ⊢
  have h1 := (toNum_isNum f).mp h
  exact ⟨_, _, toNum_of h1, rnd_rnd _, h1⟩

/-- No activation. -/
theorem near_id : Near (id : Num f → Num f) id (fun _ e => e) := fun _ _ _ _ h1 h2 => ⟨h1, h2⟩

theorem relu_val {q : ℚ} {g : Grid f q} (exp log abs : Num f → Num f) (eps meps : Num f) :
    fin (Op.relu.fwd exp log abs eps meps (.num q g)) ∧ val (Op.relu.fwd exp log abs eps meps (.num q g)) = max (q : ℝ) 0 := by
  show fin (Softmax.stdMax (Num.num q g) 0) ∧ val (Softmax.stdMax (Num.num q g) 0) = _
  unfold Softmax.stdMax
  have hlt : (Num.num q g : Num f) < 0 ↔ q < 0 := lt_iff (g := ⟨0, by simp⟩)
  by_cases h : q < 0
  · rw [if_pos (hlt.mpr h)]
    refine ⟨trivial, ?_⟩
    rw [max_eq_right (by exact_mod_cast h.le)]
    exact Arith.val_zero
  · rw [if_neg (fun hc => h (hlt.mp hc))]
    refine ⟨trivial, ?_⟩
    rw [max_eq_left (by exact_mod_cast not_lt.mp h)]
    rfl

/-- `relu` (include/activation.hpp line 291) adds no error. -/
theorem near_relu (exp log abs : Num f → Num f) (eps meps : Num f) : Near (Op.relu.fwd exp log abs eps meps) (fun y => max y 0) (fun _ e => e) := by
  intro a b y e h1 h2
  obtain ⟨q, g, hq⟩ := Num.fin_iff.mp h1
  rw [hq] at h2 ⊢
  obtain ⟨r1, r2⟩ := relu_val (g := g) exp log abs eps meps
  refine ⟨r1, ?_⟩
  rw [r2]
  exact (abs_max_sub_max_le_abs _ _ _).trans h2

/-- and is exact on whole numbers, as is no activation. -/
theorem exact_relu (exp log abs : Num f → Num f) (eps meps : Num f) : Exact (Op.relu.fwd exp log abs eps meps) (fun y => max y 0) := by
  intro x h1 h2
  obtain ⟨q, g, rfl⟩ := Num.fin_iff.mp h1
  obtain ⟨r1, r2⟩ := relu_val (g := g) exp log abs eps meps
  refine ⟨r1, r2, ?_⟩
  obtain ⟨k, hk⟩ := h2
  exact ⟨max k 0, by rw [hk]; push_cast; rfl⟩

theorem exact_id : Exact (id : Num f → Num f) id := fun _ h1 h2 => ⟨h1, rfl, h2⟩

/-- `leaky_relu` (include/activation.hpp line 411) with a factor of at most 1 adds the error of a product. -/
theorem near_leaky (exp log abs : Num f → Num f) (eps meps : Num f) {c : ℚ} {gc : Grid f c} (hc0 : 0 ≤ c) (hc1 : c ≤ 1) :
    Near (Op.leakyRelu (.num c gc) |>.fwd exp log abs eps meps) (fun y => max y (c * y)) (fun y e => e + (Arith.u (Num f) * (|y| + e) + Arith.w (Num f))) := by
  intro a b y e h1 h2
  obtain ⟨q, g, hq, hfix⟩ := sum_fixed h1
  rw [hq] at h2 ⊢
  rw [val_num] at h2
  have hu := Arith.u_nonneg (F := Num f)
  have hw := Arith.w_nonneg (F := Num f)
  have hcR0 : (0 : ℝ) ≤ c := by exact_mod_cast hc0
  have hcR1 : (c : ℝ) ≤ 1 := by exact_mod_cast hc1
  have habs : |(c : ℝ) * q| ≤ |(q : ℝ)| := by rw [abs_mul, abs_of_nonneg hcR0]; exact mul_le_of_le_one_left (abs_nonneg _) hcR1
  have hL : |(q : ℝ)| ≤ Arith.top (Num f) := by
    show |(q : ℝ)| ≤ ((largest f : ℚ) : ℝ)
    exact_mod_cast hfix.2
  have hfin : fin ((.num c gc : Num f) * .num q g) := Arith.mul_fin _ _ trivial trivial (by rw [val_num, val_num]; exact habs.trans hL)
  have herr := (Arith.mul_err _ _ hfin).2.2
  rw [val_num, val_num] at herr
  obtain ⟨q', g', hq'⟩ := Num.fin_iff.mp hfin
  rw [hq', val_num] at herr
  show fin (Softmax.stdMax (.num q g) ((.num c gc : Num f) * .num q g)) ∧ _
  show fin (Softmax.stdMax (.num q g) ((.num c gc : Num f) * .num q g)) ∧ |val (Softmax.stdMax (.num q g) ((.num c gc : Num f) * .num q g)) - _| ≤ _
  rw [hq']
  have hm : fin (Softmax.stdMax (.num q g) (.num q' g' : Num f)) ∧ val (Softmax.stdMax (.num q g) (.num q' g' : Num f)) = max (q : ℝ) q' := by
    unfold Softmax.stdMax
    by_cases h : q < q'
    · rw [if_pos (lt_iff.mpr h)]
      exact ⟨trivial, by rw [max_eq_right (by exact_mod_cast h.le)]; rfl⟩
    · rw [if_neg (fun hc => h (lt_iff.mp hc))]
      exact ⟨trivial, by rw [max_eq_left (by exact_mod_cast not_lt.mp h)]; rfl⟩
  refine ⟨hm.1, ?_⟩
  rw [hm.2]
  have hqy : |(q : ℝ)| ≤ |y| + e := by
    have := abs_add_le ((q : ℝ) - y) y
    rw [sub_add_cancel] at this
    linarith
  have hB : |(q' : ℝ) - c * q| ≤ Arith.u (Num f) * (|y| + e) + Arith.w (Num f) := by
    refine herr.trans ?_
    have := mul_le_mul_of_nonneg_left (habs.trans hqy) hu
    linarith
  have h3 : |max (q : ℝ) q' - max (q : ℝ) (c * q)| ≤ |(q' : ℝ) - c * q| := by
    rw [max_comm, max_comm (q : ℝ) (c * q)]
    exact abs_max_sub_max_le_abs _ _ _
  have h4 : |max (q : ℝ) (c * q) - max y (c * y)| ≤ e := by
    refine (abs_max_sub_max_le_max _ _ _ _).trans (max_le h2 ?_)
    rw [← mul_sub, abs_mul, abs_of_nonneg hcR0]
    have := abs_nonneg ((q : ℝ) - y)
    nlinarith
  have h5 := abs_add_le (max (q : ℝ) q' - max (q : ℝ) (c * q)) (max (q : ℝ) (c * q) - max y (c * y))
  rw [sub_add_sub_cancel] at h5
  linarith

/-! ### tanh and sigmoid -/

theorem tanh_lipschitz (x y : ℝ) : |Real.tanh x - Real.tanh y| ≤ |x - y| := by
  have h := Convex.norm_image_sub_le_of_norm_hasDerivWithin_le (f := Real.tanh) (f' := fun x => 1 - Real.tanh x * Real.tanh x) (C := 1) (s := Set.univ) (x := y) (y := x)
    (fun z _ => (Ops.hasDerivAt_tanh z).hasDerivWithinAt) (fun z _ => by
      rw [Real.norm_eq_abs, abs_le]
      have h1 := Real.tanh_lt_one z
      have h2 := Real.neg_one_lt_tanh z
      constructor <;> nlinarith) convex_univ (Set.mem_univ _) (Set.mem_univ _)
  simpa using h

/-- `tanh` (include/operation.hpp lines 4782-4800), if the library's function is wrong by at most `ρ`. -/
theorem near_tanh (tanh : Num f → Num f) (ρ : ℝ) (ht : ∀ (q : ℚ) g, fin (tanh (.num q g)) ∧ |val (tanh (.num q g)) - Real.tanh q| ≤ ρ) :
    Near tanh Real.tanh (fun _ e => e + ρ) := by
  intro a b y e h1 h2
  obtain ⟨q, g, hq⟩ := Num.fin_iff.mp h1
  rw [hq] at h2 ⊢
  obtain ⟨t1, t2⟩ := ht q g
  refine ⟨t1, ?_⟩
  have h3 := abs_add_le (val (tanh (.num q g)) - Real.tanh q) (Real.tanh q - Real.tanh y)
  rw [sub_add_sub_cancel] at h3
  have h4 := tanh_lipschitz q y
  rw [val_num] at h2
  linarith

/-- The logistic function. -/
noncomputable def logistic (x : ℝ) : ℝ := 1 / (1 + Real.exp (-x))

theorem logistic_lipschitz (x y : ℝ) : |logistic x - logistic y| ≤ |x - y| := by
  have key : ∀ a b : ℝ, a ≤ b → logistic b - logistic a ≤ b - a ∧ 0 ≤ logistic b - logistic a := by
    intro a b hab
    have ha := Real.exp_pos (-a)
    have hb := Real.exp_pos (-b)
    have hm : Real.exp (-b) ≤ Real.exp (-a) := Real.exp_le_exp.mpr (by linarith)
    have e : logistic b - logistic a = (Real.exp (-a) - Real.exp (-b)) / ((1 + Real.exp (-b)) * (1 + Real.exp (-a))) := by
      unfold logistic
      field_simp
      ring
    rw [e]
    have hd : 0 < (1 + Real.exp (-b)) * (1 + Real.exp (-a)) := by positivity
    refine ⟨?_, div_nonneg (by linarith) hd.le⟩
    have h1 : Real.exp (-a) - Real.exp (-b) ≤ (b - a) * Real.exp (-a) := by
      have : Real.exp (-b) = Real.exp (-a) * Real.exp (a - b) := by rw [← Real.exp_add]; congr 1; ring
      rw [this]
      have := Real.add_one_le_exp (a - b)
      nlinarith
    rw [div_le_iff₀ hd]
    have h2 : (b - a) * Real.exp (-a) ≤ (b - a) * ((1 + Real.exp (-b)) * (1 + Real.exp (-a))) := mul_le_mul_of_nonneg_left (by nlinarith) (by linarith)
    linarith
  rcases le_total x y with h | h
  · obtain ⟨h1, h2⟩ := key x y h
    rw [abs_sub_comm, abs_of_nonneg h2, abs_sub_comm, abs_of_nonneg (by linarith)]
    exact h1
  · obtain ⟨h1, h2⟩ := key y x h
    rw [abs_of_nonneg h2, abs_of_nonneg (by linarith)]
    exact h1

/-- What is asked of the exponential: a relative error of at most `ρ` (and an absolute one near zero), never negative, and infinite only beyond the largest number. -/
def ExpNear (exp : Num f → Num f) (ρ : ℝ) : Prop := ∀ (q : ℚ) g,
  (∃ t h, exp (.num q g) = .num t h ∧ 0 ≤ t ∧ |(t : ℝ) - Real.exp q| ≤ ρ * Real.exp q + Arith.w (Num f)) ∨
  exp (.num q g) = .inf false ∧ Arith.top (Num f) ≤ (1 + ρ) * Real.exp q + Arith.w (Num f)

theorem toNum_or {x : ℚ} (hx : 0 ≤ x) : (∃ h, toNum f x = .num (rnd f x) h ∧ rnd f x ≤ largest f) ∨ (toNum f x = .inf false ∧ largest f < x * (1 + (1 / 2) ^ f.p) + (2 : ℚ) ^ f.emin / 2) := by
  by_cases h : |rnd f x| ≤ largest f
  · exact Or.inl ⟨_, toNum_of h, (le_abs_self _).trans h⟩
  · right
    have h1 := rnd_err f x
    rw [abs_of_nonneg hx] at h1
    have h0 : 0 ≤ rnd f x := by
      have := rnd_mono (f := f) hx
      rwa [rnd_zero] at this
    rw [abs_of_nonneg h0, not_le] at h
    refine ⟨?_, by have := (abs_le.mp h1).2; linarith⟩
    unfold toNum
    rw [if_neg (by rw [abs_of_nonneg h0, not_le]; exact h)]
    congr 1
    simpa using hx

/-- `sigmoid` (include/activation.hpp line 260) adds a few units in the last place of 1, and the error of the exponential. -/
theorem near_sigmoid (hwide : Wide f) (exp log abs : Num f → Num f) (eps meps : Num f) (ρ : ℝ) (hρ : 0 ≤ ρ) (hρ1 : ρ ≤ 1) (hexp : ExpNear exp ρ) :
    Near (Op.sigmoid.fwd exp log abs eps meps) logistic (fun _ e => e + (4 * Arith.u (Num f) + 2 * Arith.w (Num f) + ρ)) := by
  intro a b y e h1 h2
  obtain ⟨q, g, hq, hfix⟩ := sum_fixed h1
  rw [hq] at h2 ⊢
  rw [val_num] at h2
  have hu := Arith.u_nonneg (F := Num f)
  have hw := Arith.w_nonneg (F := Num f)
  have hlip := logistic_lipschitz q y
  -- it is enough to compare with the logistic function of the argument
  suffices hs : fin (Op.sigmoid.fwd exp log abs eps meps (.num q g)) ∧
      |val (Op.sigmoid.fwd exp log abs eps meps (.num q g)) - logistic q| ≤ 4 * Arith.u (Num f) + 2 * Arith.w (Num f) + ρ by
    refine ⟨hs.1, ?_⟩
    have h5 := abs_add_le (val (Op.sigmoid.fwd exp log abs eps meps (.num q g)) - logistic q) (logistic q - logistic y)
    rw [sub_add_sub_cancel] at h5
    linarith [hs.2]
  obtain ⟨gn, hn⟩ : ∃ gn, (0 : Num f) - .num q g = .num (-q) gn := by
    refine ⟨?_, ?_⟩
    · obtain ⟨k, hk⟩ := g
      exact ⟨-k, by rw [hk]; push_cast; ring⟩
    · show toNum f (0 + -q) = _
      rw [zero_add]
      exact toNum_fixed hfix.neg
  have hone : (1 : Num f) = .num 1 (fixed_one.1 ▸ rnd_grid f 1) := toNum_fixed fixed_one
  have hE := Real.exp_pos (-(q : ℝ))
  have hcast : Real.exp ((-q : ℚ) : ℝ) = Real.exp (-(q : ℝ)) := by push_cast; rfl
  have htopu : 1 ≤ Arith.u (Num f) * Arith.top (Num f) ∧ 64 ≤ Arith.top (Num f) ∧ Arith.u (Num f) ≤ 1 / 64 ∧ Arith.w (Num f) ≤ 1 := by
    have h64 : (64 : ℚ) ≤ 2 ^ f.p := by
      have : (2 : ℚ) ^ 6 ≤ 2 ^ f.p := pow_le_pow_right₀ (by norm_num) hwide.1
      norm_num at this; exact this
    have h4 : (4 : ℚ) ≤ (2 : ℚ) ^ f.emax := by
      have : (2 : ℚ) ^ (2 : ℤ) ≤ 2 ^ f.emax := zpow_le_zpow_right₀ (by norm_num) hwide.2.1
      norm_num at this; exact this
    have hL : (2 : ℚ) ^ f.p ≤ largest f := by unfold largest; nlinarith
    have hup : ((1 / 2 : ℚ) ^ f.p) * 2 ^ f.p = 1 := by rw [← mul_pow]; norm_num
    have hu0 : (0 : ℚ) ≤ (1 / 2) ^ f.p := by positivity
    refine ⟨?_, ?_, ?_, ?_⟩
    · show (1 : ℝ) ≤ (((1 / 2) ^ f.p : ℚ) : ℝ) * ((largest f : ℚ) : ℝ)
      exact_mod_cast (by nlinarith : (1 : ℚ) ≤ (1 / 2) ^ f.p * largest f)
    · show (64 : ℝ) ≤ ((largest f : ℚ) : ℝ)
      exact_mod_cast h64.trans hL
    · show (((1 / 2) ^ f.p : ℚ) : ℝ) ≤ 1 / 64
      have : ((1 / 2 : ℚ)) ^ f.p ≤ 1 / 64 := by
        have : (1 / 2 : ℚ) ^ f.p ≤ (1 / 2) ^ 6 := pow_le_pow_of_le_one (by norm_num) (by norm_num) hwide.1
        norm_num at this ⊢; exact this
      have h := (Rat.cast_le (K := ℝ)).mpr this
      push_cast at h ⊢
      exact h
    · show (((2 : ℚ) ^ f.emin / 2 : ℚ) : ℝ) ≤ 1
      have : (2 : ℚ) ^ f.emin ≤ 2 ^ (0 : ℤ) := zpow_le_zpow_right₀ (by norm_num) (by have := hwide.2.2; omega)
      have : (2 : ℚ) ^ f.emin / 2 ≤ 1 := by rw [zpow_zero] at this; linarith
      exact_mod_cast this
  obtain ⟨ht1, ht2, ht3, ht4⟩ := htopu
  have hzero : ∀ z : Num f, z = .inf false → ∀ B : ℝ, logistic q ≤ B → fin ((1 : Num f) / z) ∧ |val ((1 : Num f) / z) - logistic q| ≤ B := by
    rintro z rfl B hB
    have hz : (1 : Num f) / .inf false = 0 := by rw [hone]; rfl
    rw [hz]
    refine ⟨Arith.fin_zero, ?_⟩
    rw [Arith.val_zero, zero_sub, abs_neg, abs_of_nonneg (by unfold logistic; positivity)]
    exact hB
  have hsmall : ∀ c : ℝ, 0 < c → Arith.top (Num f) ≤ c * (1 + Real.exp (-(q : ℝ))) → logistic q ≤ c * Arith.u (Num f) := by
    intro c hc hcE
    unfold logistic
    rw [div_le_iff₀ (by positivity)]
    have := mul_le_mul_of_nonneg_left hcE hu
    linarith
  show fin ((1 : Num f) / (1 + exp (0 - .num q g))) ∧ |val ((1 : Num f) / (1 + exp (0 - .num q g))) - _| ≤ _
  rw [hn]
  rcases hexp (-q) gn with ⟨t, ht, e1, t0, e2⟩ | ⟨e1, e2⟩
  · rw [e1]
    rw [hcast] at e2
    set E := Real.exp (-(q : ℝ))
    have ht0 : (0 : ℝ) ≤ t := by exact_mod_cast t0
    have hsum : (1 : Num f) + .num t ht = toNum f (1 + t) := by rw [hone]; rfl
    rw [hsum]
    rcases toNum_or (f := f) (x := 1 + t) (by linarith) with ⟨gs, hs, hsL⟩ | ⟨hs, hsL⟩
    · rw [hs]
      have s1 : 1 ≤ rnd f (1 + t) := by
        have := rnd_mono (f := f) (show (1 : ℚ) ≤ 1 + t by linarith)
        rwa [fixed_one.1] at this
      have serr : |(rnd f (1 + t) : ℝ) - (1 + t)| ≤ Arith.u (Num f) * (1 + t) := by
        have hg : Grid f (1 + t) := by
          obtain ⟨k1, hk1⟩ := grid_int (f := f) 1
          obtain ⟨k2, hk2⟩ := ht
          refine ⟨k1 + k2, ?_⟩
          rw [hk2]
          push_cast at hk1 ⊢
          have hk1 : (1 : ℚ) = k1 * 2 ^ f.emin := hk1
          linarith
        have h3 := rnd_err_grid f hg
        rw [abs_of_nonneg (show (0 : ℚ) ≤ 1 + t by linarith)] at h3
        show |(rnd f (1 + t) : ℝ) - (1 + t)| ≤ (((1 / 2) ^ f.p : ℚ) : ℝ) * (1 + t)
        exact_mod_cast h3
      set s := rnd f (1 + t)
      have hs1 : (1 : ℝ) ≤ s := by exact_mod_cast s1
      have hdiv : (1 : Num f) / .num s gs = toNum f (1 / s) := by
        rw [hone]
        show (if s = 0 then _ else toNum f (1 / s)) = _
        rw [if_neg (by linarith)]
      rw [hdiv]
      have hr : In 0 1 (toNum f (1 / s)) := toNum_in fixed_zero fixed_one (by positivity) (by rw [div_le_one (by linarith)]; exact s1)
      obtain ⟨r, gr, er, _, r0, r1⟩ := hr
      have hrr : r = rnd f (1 / s) := by
        have h3 : |rnd f (1 / s)| ≤ largest f := (toNum_isNum f).mp (by rw [er]; trivial)
        rw [toNum_of h3] at er
        injection er with er
        exact er.symm
      rw [er]
      refine ⟨trivial, ?_⟩
      rw [val_num]
      have rerr : |(r : ℝ) - 1 / s| ≤ Arith.u (Num f) * (1 / s) + Arith.w (Num f) := by
        have h3 := rnd_err f (1 / s)
        rw [abs_of_nonneg (show (0 : ℚ) ≤ 1 / s by positivity), ← hrr] at h3
        show |(r : ℝ) - 1 / s| ≤ (((1 / 2) ^ f.p : ℚ) : ℝ) * (1 / s) + (((2 : ℚ) ^ f.emin / 2 : ℚ) : ℝ)
        exact_mod_cast h3
      have hs' : (1 : ℝ) / s ≤ 1 := by rw [div_le_one (by linarith)]; exact hs1
      have d1 : |1 / (s : ℝ) - 1 / (1 + t)| ≤ Arith.u (Num f) := by
        rw [div_sub_div _ _ (by linarith) (by linarith), abs_div, abs_of_pos (show (0 : ℝ) < s * (1 + t) by positivity), div_le_iff₀ (by positivity)]
        rw [show (1 : ℝ) * (1 + t) - s * 1 = -((s : ℝ) - (1 + t)) by ring, abs_neg]
        refine serr.trans ?_
        have : (1 + (t : ℝ)) ≤ s * (1 + t) := by nlinarith
        exact mul_le_mul_of_nonneg_left this hu
      have d2 : |1 / (1 + (t : ℝ)) - logistic q| ≤ ρ + Arith.w (Num f) := by
        unfold logistic
        change |1 / (1 + (t : ℝ)) - 1 / (1 + E)| ≤ _
        rw [div_sub_div _ _ (by linarith) (by linarith), abs_div, abs_of_pos (show (0 : ℝ) < (1 + t) * (1 + E) by positivity), div_le_iff₀ (by positivity)]
        rw [show (1 : ℝ) * (1 + E) - (1 + t) * 1 = -((t : ℝ) - E) by ring, abs_neg]
        refine e2.trans ?_
        have p1 : ρ * E ≤ ρ * ((1 + t) * (1 + E)) := mul_le_mul_of_nonneg_left (by nlinarith) hρ
        have p2 : Arith.w (Num f) * 1 ≤ Arith.w (Num f) * ((1 + t) * (1 + E)) := mul_le_mul_of_nonneg_left (by nlinarith) hw
        linarith
      have h3 := abs_add_le ((r : ℝ) - 1 / s) ((1 / (s : ℝ) - 1 / (1 + t)) + (1 / (1 + (t : ℝ)) - logistic q))
      have h4 := abs_add_le (1 / (s : ℝ) - 1 / (1 + t)) (1 / (1 + (t : ℝ)) - logistic q)
      rw [show (r : ℝ) - 1 / s + ((1 / (s : ℝ) - 1 / (1 + t)) + (1 / (1 + (t : ℝ)) - logistic q)) = r - logistic q by ring] at h3
      have h5 := mul_le_mul_of_nonneg_left hs' hu
      linarith
    · rw [hs]
      refine hzero _ rfl _ ((hsmall 4 (by norm_num) ?_).trans (by linarith))
      have hsL' : Arith.top (Num f) < (1 + t) * (1 + Arith.u (Num f)) + Arith.w (Num f) := by
        show ((largest f : ℚ) : ℝ) < (1 + t) * (1 + (((1 / 2) ^ f.p : ℚ) : ℝ)) + (((2 : ℚ) ^ f.emin / 2 : ℚ) : ℝ)
        exact_mod_cast hsL
      have h3 := (abs_le.mp e2).2
      have h4 : (1 + (t : ℝ)) * (1 + Arith.u (Num f)) ≤ (1 + t) * (65 / 64) := mul_le_mul_of_nonneg_left (by linarith) (by linarith)
      have h5 : ρ * E ≤ 1 * E := mul_le_mul_of_nonneg_right hρ1 hE.le
      nlinarith
  · rw [e1]
    have hs : (1 : Num f) + .inf false = .inf false := by rw [hone]; rfl
    rw [hs]
    rw [hcast] at e2
    refine hzero _ rfl _ ((hsmall 2 (by norm_num) ?_).trans (by linarith))
    nlinarith

/-- There is such an exponential, with twice the error of one rounding. -/
theorem exists_exp (f : Fmt) : ∃ exp : Num f → Num f, ExpNear exp (2 * Arith.u (Num f)) := by
  have hupos : 0 < Arith.u (Num f) := by
    show (0 : ℝ) < (((1 / 2) ^ f.p : ℚ) : ℝ)
    exact_mod_cast (by positivity : (0 : ℚ) < (1 / 2) ^ f.p)
  have hu1 : Arith.u (Num f) ≤ 1 := by
    show (((1 / 2) ^ f.p : ℚ) : ℝ) ≤ 1
    exact_mod_cast (pow_le_one₀ (by norm_num) (by norm_num) : (1 / 2 : ℚ) ^ f.p ≤ 1)
  have hr : ∀ q : ℚ, ∃ r : ℚ, Real.exp q < r ∧ (r : ℝ) < Real.exp q * (1 + Arith.u (Num f) / 2) := by
    intro q
    have := Real.exp_pos (q : ℝ)
    exact exists_rat_btwn (by nlinarith)
  choose r hr using hr
  refine ⟨fun a => match a with | .num q _ => toNum f (r q) | .inf s => if s then 0 else .inf false | .nan => .nan, fun q g => ?_⟩
  obtain ⟨h1, h2⟩ := hr q
  have hE := Real.exp_pos (q : ℝ)
  have hr0 : (0 : ℚ) ≤ r q := by exact_mod_cast (hE.trans h1).le
  have key : (r q : ℝ) * (1 + Arith.u (Num f)) ≤ (1 + 2 * Arith.u (Num f)) * Real.exp q := by
    have : (r q : ℝ) * (1 + Arith.u (Num f)) ≤ Real.exp q * (1 + Arith.u (Num f) / 2) * (1 + Arith.u (Num f)) := mul_le_mul_of_nonneg_right h2.le (by linarith)
    nlinarith [mul_nonneg hE.le hupos.le, mul_nonneg (mul_nonneg hE.le hupos.le) (sub_nonneg.mpr hu1)]
  rcases toNum_or (f := f) hr0 with ⟨h, e, _⟩ | ⟨e, hl⟩
  · left
    refine ⟨_, h, e, ?_, ?_⟩
    · have := rnd_mono (f := f) hr0
      rwa [rnd_zero] at this
    · have h3 := rnd_err f (r q)
      rw [abs_of_nonneg hr0] at h3
      have h4 : |(rnd f (r q) : ℝ) - r q| ≤ Arith.u (Num f) * r q + Arith.w (Num f) := by
        show |(rnd f (r q) : ℝ) - r q| ≤ (((1 / 2) ^ f.p : ℚ) : ℝ) * r q + (((2 : ℚ) ^ f.emin / 2 : ℚ) : ℝ)
        exact_mod_cast h3
      rw [abs_le] at h4 ⊢
      have h5 : Arith.u (Num f) * r q ≤ 2 * Arith.u (Num f) * Real.exp q := by nlinarith
      constructor <;> nlinarith
  · right
    refine ⟨e, ?_⟩
    have h3 : Arith.top (Num f) < r q * (1 + Arith.u (Num f)) + Arith.w (Num f) := by
      show ((largest f : ℚ) : ℝ) < r q * (1 + (((1 / 2) ^ f.p : ℚ) : ℝ)) + (((2 : ℚ) ^ f.emin / 2 : ℚ) : ℝ)
      exact_mod_cast hl
    linarith

/-! ### an example -/

/-- One layer with weights 2 and -1, bias 1 and `relu`, in `float`; the input is 3 and 4. -/
def exOp : UOp (Num float32) := ⟨Ops.mapT (Op.relu.fwd id id id 0 0) ⟨[], []⟩, fun _ _ g => ok g⟩
@[inherit_doc exOp] def exD : Nat → Ten (Num float32) := fun v => if v = 0 then ⟨[2, 1], [ofInt 2, ofInt (-1)]⟩ else ⟨[1, 1], [ofInt 1]⟩
@[inherit_doc exOp] def exL : Nat → Ten (Num float32) := fun _ => ⟨[1, 2], [ofInt 3, ofInt 4]⟩
@[inherit_doc exOp] def exY : Lay (Num float32) := ⟨0, 1, ⟨0, 0, true⟩, ⟨0, 0, true⟩, some exOp⟩
@[inherit_doc exOp] noncomputable def exZ : RLay := ⟨1, fun p _ => if p = 0 then 2 else -1, fun _ => 1, fun y => max y 0, fun _ e => e⟩

theorem exStands (P : (Num float32 → Num float32) → RLay → Prop) (hP : P (Op.relu.fwd id id id 0 0) exZ) : Stands exD P [exY] [exZ] 2 := by
  refine ⟨⟨fun is => if is = [0, 0] then ofInt 2 else ofInt (-1), fun _ => ofInt 1, Op.relu.fwd id id id 0 0, ⟨rfl, rfl, ?_⟩, ⟨rfl, rfl, ?_⟩, ?_, hP, ?_, ?_⟩, by decide, by decide, trivial⟩
  · intro is hv
    match is, hv with
    | [0, 0], _ => rfl
    | [1, 0], _ => rfl
    | [n + 2, _], hv => exact absurd hv.1 (by omega)
    | [_, n + 1], hv => exact absurd hv.2.1 (by show ¬ n + 1 < 1; omega)
  · intro is hv
    match is, hv with
    | [0, 0], _ => rfl
    | [n + 1, _], hv => exact absurd hv.1 (by omega)
    | [_, n + 1], hv => exact absurd hv.2.1 (by show ¬ n + 1 < 1; omega)
  · exact fun x s a h => Ops.mapT_ok _ _ x h
  · intro p j hp hj
    have hj : j = 0 := by have : j < 1 := hj; omega
    subst hj
    match p, hp with
    | 0, _ => exact ⟨ofInt_fin _, by simp [exZ, ofInt_val]⟩
    | 1, _ => exact ⟨ofInt_fin _, by simp [exZ, ofInt_val]⟩
  · intro j hj
    exact ⟨ofInt_fin _, by simp [exZ, ofInt_val]⟩

theorem exInput : eval exL exD (.leaf 0) = ok (exL 0) ∧ (exL 0).Has [1, 2] (fun is => if is = [0, 0] then ofInt 3 else ofInt 4) := by
  refine ⟨rfl, rfl, rfl, ?_⟩
  intro is hv
  match is, hv with
  | [0, 0], _ => rfl
  | [0, 1], _ => rfl
  | [n + 1, _], hv => exact absurd hv.1 (by omega)
  | [_, n + 2], hv => exact absurd hv.2.1 (by show ¬ n + 2 < 2; omega)

/-- The output is 3, exactly. -/
example : ∃ t v, eval exL exD (mlpOf ⟨Ops.matmul ⟨[], []⟩, fun _ _ _ g => ok (g, g)⟩ ⟨plusT, fun _ _ _ g => ok (g, g)⟩ [exY] 0 (.leaf 0)) = ok t ∧ t.Has [1, 1] v ∧ val (v [0, 0]) = 3 := by
  obtain ⟨t, v, h1, h2, h3⟩ := whole_network_exact (matmul_product ⟨[], []⟩ (fun _ _ _ g => ok (g, g))) (pl := ⟨plusT, fun _ _ _ g => ok (g, g)⟩) (fun _ _ => rfl) 1 (by norm_num) [exY] [exZ] 2 0
    (.leaf 0) _ _ (fun _ p => if p = 0 then 3 else 4) (by norm_num)
    (exStands _ ⟨exact_relu _ _ _ _ _, fun p _ => by by_cases hp : p = 0 <;> simp only [exZ, hp, if_true, if_false] <;> [exact ⟨2, by norm_num⟩; exact ⟨-1, by norm_num⟩], fun _ => ⟨1, by simp [exZ]⟩⟩)
    exInput.1 exInput.2 (by
      intro r p hr hp
      have hr : r = 0 := by omega
      subst hr
      match p, hp with
      | 0, _ => exact ⟨ofInt_fin _, by simp [ofInt_val], 3, by simp⟩
      | 1, _ => exact ⟨ofInt_fin _, by simp [ofInt_val], 4, by simp⟩) (by
      intro r hr
      refine ⟨fun j _ => ?_, trivial⟩
      rw [float32_constants.2.2.2]
      simp [exZ, Finset.sum_range_succ]
      norm_num)
  refine ⟨t, v, h1, h2, ?_⟩
  rw [(h3 0 0 (by norm_num) (by show 0 < 1; norm_num)).2]
  simp [netR, RLay.app, exZ, Finset.sum_range_succ]
  norm_num

/-- With an input that may be wrong by 1/8 the output is wrong by at most 1/2. -/
example : ∃ t v, eval exL exD (mlpOf ⟨Ops.matmul ⟨[], []⟩, fun _ _ _ g => ok (g, g)⟩ ⟨plusT, fun _ _ _ g => ok (g, g)⟩ [exY] 0 (.leaf 0)) = ok t ∧ t.Has [1, 1] v ∧ |val (v [0, 0]) - 13 / 4| ≤ 1 / 2 := by
  have hu := float32_constants.1
  have hw := float32_constants.2.1
  obtain ⟨t, v, h1, h2, h3⟩ := network_accurate (matmul_product ⟨[], []⟩ (fun _ _ _ g => ok (g, g))) (pl := ⟨plusT, fun _ _ _ g => ok (g, g)⟩) (fun _ _ => rfl) 1 (by norm_num) [exY] [exZ] 2 0
    (.leaf 0) _ _ (fun _ p => if p = 0 then 25 / 8 else 4) (fun _ _ => 1 / 8) (by norm_num) (exStands _ (near_relu _ _ _ _ _)) exInput.1 exInput.2 (by
      intro r p hr hp
      have hr : r = 0 := by omega
      subst hr
      match p, hp with
      | 0, _ => refine ⟨ofInt_fin _, ?_⟩; simp [ofInt_val]; norm_num
      | 1, _ => refine ⟨ofInt_fin _, ?_⟩; simp [ofInt_val]) (by
      intro r hr
      refine ⟨fun j _ => ?_, trivial⟩
      rw [float32_constants.2.2.1, hu, hw]
      simp [exZ, RLay.mag, dotBound, Finset.sum_range_succ]
      norm_num)
  refine ⟨t, v, h1, h2, ?_⟩
  have := (h3 0 0 (by norm_num) (by show 0 < 1; norm_num)).2
  rw [hu, hw] at this
  simp [netR, RLay.app, errs, RLay.err, RLay.pre, RLay.mag, dotBound, exZ, Finset.sum_range_succ] at this
  norm_num at this
  exact this.trans (by norm_num)

end Verif.Fp
