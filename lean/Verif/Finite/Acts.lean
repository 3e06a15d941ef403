import Verif.Finite.Soft
/-!
# C133: activations of finite numbers
-/
namespace Verif.Finite
open Verif Res Data Tensor Fp Nan

variable {f : Fmt}

/-- `std::abs`. -/
def absN : Num f → Num f
  | .num x h => if x < 0 then neg (.num x h) else .num x h
  | .inf _ => .inf false
  | .nan => .nan

theorem absN_in {q : ℚ} {a : Num f} (h : In q q a) : In |q| |q| (absN a) := by
  obtain ⟨x, g, rfl, e, a1, a2⟩ := h
  obtain rfl : x = q := le_antisymm a2 a1
  show In |x| |x| (if x < 0 then neg (.num x g) else .num x g)
  by_cases h : x < 0
  · rw [if_pos h, abs_of_neg h]
    have := neg_in ⟨x, g, rfl, e, le_refl x, le_refl x⟩
    simpa using this
  · rw [if_neg h, abs_of_nonneg (not_lt.mp h)]
    exact ⟨x, g, rfl, e, le_rfl, le_rfl⟩

theorem small_pow (hw : Wide f) {m : ℤ} (h : |m| < 64) : |m| < 2 ^ f.p :=
  lt_of_lt_of_le h (by
    have : (2 : ℤ) ^ 6 ≤ 2 ^ f.p := pow_le_pow_right₀ (by norm_num) hw.1
    simpa using this)

theorem fixed_small (hw : Wide f) {m : ℤ} (h : |m| < 64) : Fixed f (m : ℚ) := fixed_int (small_pow hw h)

theorem fixed_two (hw : Wide f) : Fixed f 2 := by simpa using fixed_small hw (m := 2) (by norm_num)

/-- Literals between two small whole numbers. -/
theorem lit_in (hw : Wide f) (q : ℚ) (m n : ℤ) (hm : |m| < 64) (hn : |n| < 64) (h1 : (m : ℚ) ≤ q) (h2 : q ≤ n) : In (m : ℚ) (n : ℚ) (lit q : Num f) :=
  toNum_in (fixed_small hw hm) (fixed_small hw hn) h1 h2

/-- Multiplying by something between -1 and 1 does not lead beyond. -/
theorem shrink {q lo hi : ℚ} (hq : Fixed f q) {a b : Num f} (ha : In q q a) (hb : In lo hi b) (h1 : -1 ≤ lo) (h2 : hi ≤ 1) : In (-|q|) |q| (a * b) := by
  refine mul_in ha hb hq.abs.neg hq.abs (fun x y a1 a2 b1 b2 => ?_)
  obtain rfl : x = q := le_antisymm a2 a1
  have h3 : |x * y| ≤ |x| := by rw [abs_mul]; exact mul_le_of_le_one_right (abs_nonneg _) (abs_le.mpr ⟨by linarith, by linarith⟩)
  exact abs_le.mp h3

theorem shrink' {q lo hi : ℚ} (hq : Fixed f q) {a b : Num f} (ha : In q q a) (hb : In lo hi b) (h1 : -1 ≤ lo) (h2 : hi ≤ 1) : In (-|q|) |q| (b * a) := by
  refine mul_in hb ha hq.abs.neg hq.abs (fun y x b1 b2 a1 a2 => ?_)
  obtain rfl : x = q := le_antisymm a2 a1
  have h3 : |y * x| ≤ |x| := by rw [mul_comm, abs_mul]; exact mul_le_of_le_one_right (abs_nonneg _) (abs_le.mpr ⟨by linarith, by linarith⟩)
  exact abs_le.mp h3

theorem lt_iff {x y : ℚ} {h : Grid f x} {g : Grid f y} : (Num.num x h : Num f) < .num y g ↔ x < y := by
  show ltb _ _ = true ↔ _
  unfold ltb
  exact decide_eq_true_iff

theorem stdMax_in {lo hi lo' hi' : ℚ} {a b : Num f} (ha : In lo hi a) (hb : In lo' hi' b) : In (max lo lo') (max hi hi') (Softmax.stdMax a b) := by
  obtain ⟨x, g, rfl, e, a1, a2⟩ := ha
  obtain ⟨y, g', rfl, e', b1, b2⟩ := hb
  unfold Softmax.stdMax
  by_cases h : x < y
  · rw [if_pos (lt_iff.mpr h)]
    exact ⟨y, g', rfl, e', max_le (by linarith) b1, le_max_of_le_right b2⟩
  · rw [if_neg (fun hc => h (lt_iff.mp hc))]
    exact ⟨x, g, rfl, e, max_le a1 (by linarith), le_max_of_le_left a2⟩

theorem stdMin_in {lo hi lo' hi' : ℚ} {a b : Num f} (ha : In lo hi a) (hb : In lo' hi' b) : In (min lo lo') (min hi hi') (stdMin a b) := by
  obtain ⟨x, g, rfl, e, a1, a2⟩ := ha
  obtain ⟨y, g', rfl, e', b1, b2⟩ := hb
  unfold stdMin
  by_cases h : y < x
  · rw [if_pos (lt_iff.mpr h)]
    exact ⟨y, g', rfl, e', min_le_of_right_le b1, le_min (by linarith) b2⟩
  · rw [if_neg (fun hc => h (lt_iff.mp hc))]
    exact ⟨x, g, rfl, e, min_le_of_left_le a1, le_min a2 (by linarith)⟩

/-- `0 - a` of a finite number, or of infinity. -/
theorem zero_sub_fin {a : Num f} (h : Fin a) : Fin (0 - a) := by
  obtain ⟨q, hq, h⟩ := h.in
  exact (sub_in zero_in h hq.neg hq.neg (by linarith) (by linarith)).fin

theorem sigmoid_in (M : Maths f) {x : Num f} (h : Fin x) : In 0 1 (1 / (1 + M.exp (0 - x))) :=
  div_above one_in (add_above (Above.in one_in) (exp_above M (Or.inl (zero_sub_fin h))) fixed_one (by norm_num) (by norm_num)) fixed_zero fixed_one zero_le_one le_rfl le_rfl zero_le_one

/-- What the operators give for finite numbers. -/
def Range (f : Fmt) : Op (Num f) → Num f → Prop
  | .relu => In 0 (largest f)
  | .relu6 => In 0 6
  | .hardSigmoid => In 0 1
  | .sigmoid => In 0 1
  | .softsign => In (-1) 1
  | _ => Fin

/-- The operators; a factor of `leaky_relu` is between 0 and 1. -/
def Tame : Op (Num f) → Prop
  | .relu | .relu6 | .hardSigmoid | .sigmoid | .softsign | .negative => True
  | .leakyRelu k => In 0 1 k
  | .elu a => Fin a
  | _ => False

theorem tame_range (hw : Wide f) (M : Maths f) (eps meps : Num f) (op : Op (Num f)) (hop : Tame op) (x : Num f) (hx : Fin x) : Range f op (op.fwd M.exp M.log absN eps meps x) := by
  obtain ⟨q, hq, hxq⟩ := hx.in
  have hqL := abs_le.mp hq.2
  have hL0 : (0 : ℚ) ≤ largest f := by have := (fixed_zero (f := f)).2; rwa [abs_zero] at this
  cases op with
  | negative => exact zero_sub_fin hx
  | relu => exact (stdMax_in hxq zero_in).mono (le_max_right _ _) (max_le hqL.2 hL0)
  | relu6 =>
    have h6 : In 6 6 (lit 6 : Num f) := by simpa using lit_in hw 6 6 6 (by norm_num) (by norm_num) (by norm_num) (by norm_num)
    have := stdMin_in h6 ((stdMax_in hxq zero_in).mono (le_max_right _ _) (max_le hqL.2 hL0))
    exact this.mono (le_min (by norm_num) le_rfl) (min_le_left _ _)
  | leakyRelu k => exact (stdMax_in hxq (shrink' hq hxq hop (by norm_num) le_rfl)).fin
  | elu a =>
    obtain ⟨b, hb, hab⟩ := Fin.in hop
    show Fin (if 0 < x then x else a * (M.exp x - 1))
    by_cases h : 0 < x
    · rw [if_pos h]; exact hx
    · rw [if_neg h]
      obtain ⟨y, g, rfl, e, _⟩ := hxq
      have hy : y ≤ 0 := by
        by_contra hc
        exact h (lt_iff.mpr (not_le.mp hc))
      exact (shrink hb hab (sub_in (exp_neg M hy) one_in fixed_one.neg fixed_zero (by norm_num) (by norm_num)) le_rfl (by norm_num)).fin
  | hardSigmoid =>
    show In 0 1 (if 1 < x then 1 else if x < lit (-1) then 0 else (x + 1) / lit 2)
    have h2 : In 2 2 (lit 2 : Num f) := by simpa using lit_in hw 2 2 2 (by norm_num) (by norm_num) (by norm_num) (by norm_num)
    have hm : In (-1) (-1) (lit (-1) : Num f) := by simpa using lit_in hw (-1) (-1) (-1) (by norm_num) (by norm_num) (by norm_num) (by norm_num)
    by_cases h1 : 1 < x
    · rw [if_pos h1]; exact one_in.mono zero_le_one le_rfl
    · rw [if_neg h1]
      by_cases h3 : x < lit (-1)
      · rw [if_pos h3]; exact zero_in.mono le_rfl zero_le_one
      · rw [if_neg h3]
        obtain ⟨y, g, rfl, e, _⟩ := hxq
        have b1 : y ≤ 1 := by
          obtain ⟨o, go, eo, _, o1, o2⟩ := one_in (f := f)
          rw [eo, lt_iff] at h1
          linarith
        have b2 : -1 ≤ y := by
          obtain ⟨o, go, eo, _, o1, o2⟩ := hm
          rw [eo, lt_iff] at h3
          linarith
        have hs : In 0 2 ((.num y g : Num f) + 1) := add_in ⟨y, g, rfl, e, b2, b1⟩ one_in fixed_zero (fixed_two hw) (by norm_num) (by norm_num)
        refine div_in hs h2 (Or.inl (by norm_num)) fixed_zero fixed_one (fun a b a1 a2 b1 b2 => ?_)
        have hb : 0 < b := by linarith
        rw [le_div_iff₀ hb, div_le_iff₀ hb]
        constructor <;> linarith
  | softsign =>
    have ha := absN_in hxq
    show In (-1) 1 (x / (1 + absN x))
    have h1 : Above |q| (1 + absN x) := add_above (Above.in one_in) (Above.in ha) hq.abs (by linarith) (by positivity)
    have h2 : Above 1 (1 + absN x) := add_above (Above.in one_in) (Above.in ha) fixed_one (by have := abs_nonneg q; linarith) (by positivity)
    rcases h2 with h2 | h2
    · rcases h1 with h1 | h1
      · refine div_in hxq (l2 := max |q| 1) (h2 := largest f) ?_ (Or.inl (by positivity)) fixed_one.neg fixed_one (fun a b a1 a2 b1 b2 => ?_)
        · obtain ⟨y, g, e, e', y1, y2⟩ := h1
          obtain ⟨z, g', e'', _, z1, _⟩ := h2
          rw [e] at e''
          injection e'' with e''
          subst e''
          exact ⟨y, g, e, e', max_le y1 z1, y2⟩
        · obtain rfl : a = q := le_antisymm a2 a1
          have hb : 0 < b := lt_of_lt_of_le one_pos ((le_max_right _ _).trans b1)
          have := abs_le.mp ((le_max_left _ _).trans b1)
          rw [le_div_iff₀ hb, div_le_iff₀ hb]
          constructor <;> linarith
      · obtain ⟨y, g, e, _⟩ := h2
        rw [e] at h1
        cases h1
    · rw [h2]
      obtain ⟨y, g, rfl, _⟩ := hxq
      exact zero_in.mono (by norm_num) zero_le_one
  | sigmoid => exact sigmoid_in M hx
  | _ => exact hop.elim

/-- C133: `relu`, `relu6`, `leaky_relu`, `elu`, `hard_sigmoid`, `softsign`, `sigmoid` and `negative` of finite numbers are finite numbers, within the
bounds of `Range`, whatever the cache held. -/
theorem activation_finite (hw : Wide f) (M : Maths f) (eps meps : Num f) (op : Op (Num f)) (hop : Tame op) (s : List Nat) (t cache : Ten (Num f)) (a : List Nat → Num f)
    (ht : t.Has s a) (ha : ∀ is, ValidIdx s is → Fin (a is)) :
    ∃ u v, Ops.mapT (op.fwd M.exp M.log absN eps meps) cache t = ok u ∧ u.Has s v ∧ ∀ is, ValidIdx s is → Range f op (v is) := by
  obtain ⟨u, h1, h2⟩ := Ops.mapT_ok (op.fwd M.exp M.log absN eps meps) cache t ht
  exact ⟨u, _, h1, h2, fun is hv => tame_range hw M eps meps op hop _ (ha is hv)⟩

/-- Two numbers of `float`, and functions of the library. -/
example : (⟨[2], [0, 1]⟩ : Ten (Num float32)).Has [2] (fun is => if is = [1] then 1 else 0) ∧ Fin (1 : Num float32) ∧ Fin (0 : Num float32) ∧ Nonempty (Maths float32) := by
  refine ⟨⟨rfl, rfl, fun is hv => ?_⟩, one_in.fin, zero_in.fin, ⟨roundsDown _⟩⟩
  match is, hv with
  | [0], _ => rfl
  | [1], _ => rfl
  | [n + 2], hv => exact absurd hv.1 (by omega)

/-! ### tanh, gaussian, swish, gelu -/

theorem tanh_in (hw : Wide f) (M : Maths f) {x : Num f} (hx : Fin x ∨ ∃ s, x = .inf s) : In (-1) 1 (M.tanh x) := by
  rcases hx with ⟨q, g, rfl, _⟩ | ⟨s, rfl⟩
  · have := (M.tanh_num q g).between (m := -1) (n := 1) (small_pow hw (by norm_num)) (small_pow hw (by norm_num))
      (by push_cast; exact (Real.neg_one_lt_tanh _).le) (by push_cast; exact (Real.tanh_lt_one _).le)
    simpa using this
  · rw [M.tanh_inf]
    cases s
    · exact one_in.mono (by norm_num) le_rfl
    · exact (neg_in one_in).mono le_rfl (by norm_num)

theorem square_above {x : Num f} (hx : Fin x) : Above 0 (x * x) := by
  obtain ⟨q, g, rfl, _⟩ := hx
  exact toNum_above fixed_zero (mul_self_nonneg q) (mul_self_nonneg q)

theorem gaussian_in (M : Maths f) {x : Num f} (hx : Fin x) : In 0 1 (gaussianF M.exp x) := by
  refine exp_nonpos M (lo := -largest f) ?_
  rcases square_above hx with h | h
  · exact Or.inl (sub_in zero_in h fixed_largest.neg fixed_zero (by linarith) (by norm_num))
  · rw [h]; exact Or.inr rfl

theorem swish_in (M : Maths f) {x : Num f} (hx : Fin x) : Fin (swishF M.exp x) := by
  obtain ⟨q, hq, h⟩ := hx.in
  exact (shrink hq h (sigmoid_in M hx) (by norm_num) le_rfl).fin

theorem largest_half (hw : Wide f) : Fixed f (largest f / 2) := by
  refine ⟨rnd_rep ⟨2 ^ f.p - 1, f.emax - 1, ?_, by have := f.hmin; have := hw.2.1; omega, ?_⟩, ?_⟩
  · have h1 : (1 : ℤ) ≤ 2 ^ f.p := one_le_pow₀ (by norm_num)
    rw [abs_of_nonneg (by omega)]; omega
  · unfold largest
    rw [zpow_sub_one₀ (by norm_num)]
    push_cast
    ring
  · have := (fixed_largest (f := f)).2
    have h0 := abs_nonneg (largest f)
    rw [abs_div, abs_two]
    linarith

theorem mul_inf {x : ℚ} {g : Grid f x} (hx : x ≠ 0) : ∃ s, (Num.num x g : Num f) * .inf false = .inf s := by
  change ∃ s, (if x = 0 then (.nan : Num f) else .inf (xor false (decide (x < 0)))) = .inf s
  rw [if_neg hx]
  exact ⟨_, rfl⟩

theorem toNum_any (x : ℚ) : Fin (toNum f x) ∨ ∃ s, toNum f x = .inf s := by
  by_cases h : |rnd f x| ≤ largest f
  · rw [toNum_of h]
    exact Or.inl ⟨_, _, rfl, toNum_fixed ⟨rnd_rnd x, h⟩⟩
  · right
    unfold toNum
    rw [if_neg h]
    exact ⟨_, rfl⟩

/-- Fractions of small whole numbers by a power of two up to 64. -/
theorem fixed_frac (hw : Wide f) (k : ℤ) (e : ℤ) (hk : |k| < 64) (he : -6 ≤ e) (he0 : e ≤ 0) : Fixed f (k * (2 : ℚ) ^ e) := by
  refine ⟨rnd_rep ⟨k, e, small_pow hw hk, hw.2.2.trans he, rfl⟩, ?_⟩
  refine le_trans ?_ (fixed_small hw hk).2
  rw [abs_mul, abs_of_pos (zpow_pos (by norm_num : (0 : ℚ) < 2) e)]
  exact mul_le_of_le_one_right (abs_nonneg _) (zpow_le_one_of_nonpos₀ (by norm_num) he0)

theorem fixed_half (hw : Wide f) : Fixed f (1 / 2) := by
  have := fixed_frac hw 1 (-1) (by norm_num) (by norm_num) (by norm_num)
  norm_num at this
  norm_num
  exact this

theorem gelu_in (hw : Wide f) (M : Maths f) {x : Num f} (hx : Fin x) : Fin (geluF M.tanh x) := by
  obtain ⟨q, hq, h⟩ := hx.in
  have hqL := abs_le.mp hq.2
  have hh := fixed_half hw
  have c0 : In (1 / 2) (1 / 2) (lit 0.5 : Num f) := toNum_in hh hh (by norm_num) (by norm_num)
  have c1 : In (0 : ℚ) 1 (lit 0.044715 : Num f) := toNum_in fixed_zero fixed_one (by norm_num) (by norm_num)
  have c2 : In (1 / 2) 1 (lit 0.79788456080286535588 : Num f) := toNum_in hh fixed_one (by norm_num) (by norm_num)
  -- the argument of tanh is finite or infinite, not NaN
  have arg : Fin (lit 0.79788456080286535588 * x * (1 + lit 0.044715 * x * x)) ∨ ∃ s, lit 0.79788456080286535588 * x * (1 + lit 0.044715 * x * x) = .inf s := by
    have u := shrink' hq h c2 (by norm_num) le_rfl
    by_cases hs : |q| ≤ 1
    · have ⟨s1, s2⟩ := abs_le.mp hs
      have w : In 0 1 (lit 0.044715 * x * x) := by
        rcases le_total 0 q with h0 | h0
        · have := mul_in c1 h fixed_zero fixed_one (fun a b a1 a2 b1 b2 => ⟨by nlinarith, by nlinarith⟩)
          exact mul_in this h fixed_zero fixed_one (fun a b a1 a2 b1 b2 => ⟨by nlinarith, by nlinarith⟩)
        · have := mul_in c1 h fixed_one.neg fixed_zero (fun a b a1 a2 b1 b2 => ⟨by nlinarith, by nlinarith⟩)
          exact mul_in this h fixed_zero fixed_one (fun a b a1 a2 b1 b2 => ⟨by nlinarith, by nlinarith⟩)
      have t := add_in one_in w fixed_one (fixed_two hw) (by norm_num) (by norm_num)
      obtain ⟨a, ga, ea, _⟩ := u
      obtain ⟨b, gb, eb, _⟩ := t
      rw [ea, eb]
      exact toNum_any (a * b)
    · rw [not_le] at hs
      have w : Above 0 (lit 0.044715 * x * x) := by
        rcases le_total 0 q with h0 | h0
        · obtain ⟨a, ga, ea, _, a1, _⟩ := mul_in c1 h fixed_zero hq (fun a b a1 a2 b1 b2 => ⟨by nlinarith, by nlinarith⟩)
          obtain ⟨b, gb, eb, _, b1, _⟩ := h
          rw [ea, eb]
          exact toNum_above fixed_zero (mul_nonneg a1 (by linarith)) (mul_nonneg a1 (by linarith))
        · obtain ⟨a, ga, ea, _, _, a2⟩ := mul_in c1 h hq fixed_zero (fun a b a1 a2 b1 b2 => ⟨by nlinarith, by nlinarith⟩)
          obtain ⟨b, gb, eb, _, _, b2⟩ := h
          rw [ea, eb]
          exact toNum_above fixed_zero (mul_nonneg_of_nonpos_of_nonpos a2 (by linarith)) (mul_nonneg_of_nonpos_of_nonpos a2 (by linarith))
      have t := add_above (Above.in one_in) w fixed_one (by norm_num) (by norm_num)
      obtain ⟨a, ga, ea, _⟩ := u
      rcases t with ⟨b, gb, eb, _⟩ | t
      · rw [ea, eb]
        exact toNum_any (a * b)
      · right
        have ha : a ≠ 0 := by
          rcases lt_abs.mp hs with h0 | h0
          · obtain ⟨a', ga', ea', _, a1, _⟩ := mul_in c2 h hh fixed_largest (fun a b a1 a2 b1 b2 => ⟨by nlinarith, by nlinarith⟩)
            rw [ea] at ea'
            injection ea' with e
            linarith
          · obtain ⟨a', ga', ea', _, _, a2⟩ := mul_in c2 h fixed_largest.neg hh.neg (fun a b a1 a2 b1 b2 => ⟨by nlinarith, by nlinarith⟩)
            rw [ea] at ea'
            injection ea' with e
            linarith
        rw [ea, t]
        exact mul_inf ha
  have t := add_in one_in (tanh_in hw M arg) fixed_zero (fixed_two hw) (by norm_num) (by norm_num)
  have hL := largest_half hw
  have hx2 := mul_in c0 h hL.neg hL (fun a b a1 a2 b1 b2 => by
    obtain rfl : a = 1 / 2 := le_antisymm a2 a1
    constructor <;> linarith)
  refine (mul_in hx2 t fixed_largest.neg fixed_largest (fun a b a1 a2 b1 b2 => ?_)).fin
  constructor <;> nlinarith

/-- C133: `tanh`, `gaussian`, `swish` and `gelu` of finite numbers, whatever the cache held: numbers, between -1 and 1 for `tanh`, between 0 and 1 for `gaussian`. -/
theorem smooth_finite (hw : Wide f) (M : Maths f) (s : List Nat) (t cache : Ten (Num f)) (a : List Nat → Num f) (ht : t.Has s a) (ha : ∀ is, ValidIdx s is → Fin (a is)) :
    (∃ u v, Ops.mapT M.tanh cache t = ok u ∧ u.Has s v ∧ ∀ is, ValidIdx s is → In (-1) 1 (v is)) ∧
    (∃ u v, Ops.mapT (gaussianF M.exp) cache t = ok u ∧ u.Has s v ∧ ∀ is, ValidIdx s is → In 0 1 (v is)) ∧
    (∃ u v, Ops.mapT (swishF M.exp) cache t = ok u ∧ u.Has s v ∧ ∀ is, ValidIdx s is → Fin (v is)) ∧
    ∃ u v, Ops.mapT (geluF M.tanh) cache t = ok u ∧ u.Has s v ∧ ∀ is, ValidIdx s is → Fin (v is) := by
  refine ⟨?_, ?_, ?_, ?_⟩
  · obtain ⟨u, h1, h2⟩ := Ops.mapT_ok M.tanh cache t ht
    exact ⟨u, _, h1, h2, fun is hv => tanh_in hw M (Or.inl (ha is hv))⟩
  · obtain ⟨u, h1, h2⟩ := Ops.mapT_ok (gaussianF M.exp) cache t ht
    exact ⟨u, _, h1, h2, fun is hv => gaussian_in M (ha is hv)⟩
  · obtain ⟨u, h1, h2⟩ := Ops.mapT_ok (swishF M.exp) cache t ht
    exact ⟨u, _, h1, h2, fun is hv => swish_in M (ha is hv)⟩
  · obtain ⟨u, h1, h2⟩ := Ops.mapT_ok (geluF M.tanh) cache t ht
    exact ⟨u, _, h1, h2, fun is hv => gelu_in hw M (ha is hv)⟩

/-! ### Backward passes -/

theorem mul_above {a b : Num f} (ha : Above 1 a) (hb : Above 1 b) : Above 1 (a * b) := by
  rcases ha with ⟨x, g, rfl, _, a1, a2⟩ | rfl <;> rcases hb with ⟨y, g', rfl, _, b1, b2⟩ | rfl
  · exact toNum_above fixed_one (by nlinarith) (by nlinarith)
  · right
    change (if x = 0 then (.nan : Num f) else .inf (xor false (decide (x < 0)))) = .inf false
    rw [if_neg (by linarith), decide_eq_false (by linarith)]
    rfl
  · right
    change (if y = 0 then (.nan : Num f) else .inf (xor false (decide (y < 0)))) = .inf false
    rw [if_neg (by linarith), decide_eq_false (by linarith)]
    rfl
  · exact Or.inr rfl

/-- C133: the backward functions of `softsign`, `sigmoid` and `tanh` turn finite gradients into finite gradients, none larger; whatever the (finite) operand, and the output
that was computed from it. -/
theorem backward_finite (hw : Wide f) (M : Maths f) (x g : Num f) (hx : Fin x) (q : ℚ) (hg : In q q g) :
    In (-|q|) |q| (softsignB absN x g) ∧ In (-|q|) |q| (sigmoidB (1 / (1 + M.exp (0 - x))) g) ∧ In (-|q|) |q| (g * (1 - M.tanh x * M.tanh x)) := by
  obtain ⟨q', hq, hg'⟩ := hg.fin.in
  obtain rfl : q' = q := by
    obtain ⟨a, _, rfl, _, a1, a2⟩ := hg
    obtain ⟨b, _, e, _, b1, b2⟩ := hg'
    injection e with e
    linarith
  refine ⟨?_, ?_, ?_⟩
  · obtain ⟨r, hr, hx⟩ := hx.in
    have h1 := add_above (Above.in one_in) (Above.in (absN_in hx)) fixed_one (by have := abs_nonneg r; linarith) (by positivity)
    exact div_above hg (mul_above h1 h1) hq.abs.neg hq.abs (neg_abs_le _) (by have := abs_nonneg q'; linarith) (le_abs_self _) (abs_nonneg _)
  · have ho := sigmoid_in M hx
    have h1 := sub_in one_in ho fixed_zero fixed_one (by norm_num) (by norm_num)
    have h2 := shrink hq hg ho (by norm_num) le_rfl
    refine mul_in h2 h1 hq.abs.neg hq.abs (fun a b a1 a2 b1 b2 => ?_)
    have := abs_nonneg q'
    constructor <;> nlinarith
  · have ho := tanh_in hw M (Or.inl hx)
    obtain ⟨o, go, eo, _, o1, o2⟩ := id ho
    have h1 : In 0 1 (M.tanh x * M.tanh x) := by
      rw [eo]
      exact toNum_in fixed_zero fixed_one (mul_self_nonneg o) (by nlinarith)
    exact shrink hq hg (sub_in one_in h1 fixed_zero fixed_one (by norm_num) (by norm_num)) (by norm_num) le_rfl

/-- C133 is violated by the backward pass of `softplus`: at 0, where the derivative is 1/2, it divides by zero; every gradient becomes infinite, or NaN if it is 0. -/
theorem softplus_backward_violated (M : Maths f) (g : Num f) (hg : Fin g) : (∃ s, softplusB M.exp 0 g = .inf s) ∨ softplusB M.exp 0 g = .nan := by
  have h0 : (0 : Num f) - 0 = 0 := by
    show toNum f (0 + -0) = _
    rw [neg_zero, add_zero]
    exact toNum_fixed fixed_zero
  have h1 : (1 : Num f) - M.exp 0 = 0 := by
    obtain ⟨a, ga, ea, _, a1, a2⟩ := exp_zero M (h := ⟨0, by simp⟩)
    obtain ⟨b, gb, eb, _, b1, b2⟩ := one_in (f := f)
    rw [show M.exp 0 = M.exp (.num 0 ⟨0, by simp⟩) from rfl, ea, eb]
    show toNum f (b + -a) = _
    rw [show b + -a = 0 by linarith]
    exact toNum_fixed fixed_zero
  unfold softplusB
  rw [h0, h1]
  obtain ⟨q, gq, rfl, _⟩ := hg
  change (∃ s, (if (0 : ℚ) = 0 then (if q = 0 then (.nan : Num f) else .inf (decide (q < 0))) else toNum f (q / 0)) = .inf s) ∨
    (if (0 : ℚ) = 0 then (if q = 0 then (.nan : Num f) else .inf (decide (q < 0))) else toNum f (q / 0)) = .nan
  rw [if_pos rfl]
  by_cases h : q = 0
  · rw [if_pos h]; exact Or.inr rfl
  · rw [if_neg h]; exact Or.inl ⟨_, rfl⟩

example : Fin (1 : Num float32) := one_in.fin

/-! ### softplus, selu -/

/-- C133 is violated by `softplus`: where the exponential overflows the result is infinite, although the logarithm would be close to the operand.  In `float` that is
every number from 90. -/
theorem softplus_violated (M : Maths float32) (eps meps : Num float32) (s : List Nat) (t cache : Ten (Num float32)) (a : List Nat → Num float32) (ht : t.Has s a) :
    ∃ u v, Ops.mapT (Op.softplus.fwd M.exp M.log absN eps meps) cache t = ok u ∧ u.Has s v ∧
      ∀ is, ValidIdx s is → In 90 (largest float32) (a is) → v is = .inf false := by
  obtain ⟨u, h1, h2⟩ := Ops.mapT_ok (Op.softplus.fwd M.exp M.log absN eps meps) cache t ht
  refine ⟨u, _, h1, h2, fun is hv hin => ?_⟩
  obtain ⟨q, g, e, _, hq, _⟩ := hin
  have hexp : M.exp (a is) = .inf false := by
    rw [e]
    refine (M.exp_num q g).over ?_
    have h3 : (2.7182818283 : ℝ) < Real.exp 1 := Real.exp_one_gt_d9
    have h4 : Real.exp 90 ≤ Real.exp (q : ℝ) := Real.exp_le_exp.mpr (by exact_mod_cast hq)
    have h5 : Real.exp 90 = Real.exp 1 ^ 90 := by rw [← Real.exp_nat_mul]; norm_num
    have h6 : (2.7182818283 : ℝ) ^ 90 ≤ Real.exp 1 ^ 90 := pow_le_pow_left₀ (by norm_num) h3.le 90
    have h7 : 2 * ((largest float32 : ℚ) : ℝ) ≤ (2.7182818283 : ℝ) ^ 90 := by
      rw [show largest float32 = (2 ^ 24 - 1) * 2 ^ 104 by unfold largest float32; norm_num]
      norm_num
    linarith
  obtain ⟨o, go, eo, _⟩ := one_in (f := float32)
  show M.log (1 + M.exp (a is)) = _
  rw [hexp, eo]
  exact M.log_inf

/-- What holds of `softplus`: where `1 + exp( x )` is finite so is the result, and not negative.  Missing: larger operands. -/
theorem softplus_finite_partial (hw : Wide f) (M : Maths f) (x : Num f) (hx : Fin x) (h : Fin (1 + M.exp x)) (eps meps : Num f) :
    In 0 (largest f) (Op.softplus.fwd M.exp M.log absN eps meps x) := by
  have ha := add_above (Above.in one_in) (exp_above M (Or.inl hx)) fixed_one (by norm_num) (by norm_num)
  obtain ⟨y, g, e, e'⟩ := h
  have hy : 1 ≤ y := by
    rcases ha with ⟨z, g', ez, _, z1, _⟩ | ha
    · rw [e] at ez; injection ez with ez; linarith
    · rw [e] at ha; cases ha
  show In 0 (largest f) (M.log (1 + M.exp x))
  rw [e]
  have hc := M.log_num y g (by linarith)
  have hyR : (1 : ℝ) ≤ (y : ℝ) := by exact_mod_cast hy
  have h0 : 0 ≤ Real.log y := Real.log_nonneg hyR
  have hle : Real.log y ≤ largest f := by
    have h1 := Real.log_le_sub_one_of_pos (show (0 : ℝ) < y by linarith)
    have h2 : (y : ℝ) ≤ largest f := by exact_mod_cast (abs_le.mp (fixed_of e').2).2
    linarith
  obtain ⟨z, gz, ez, ez'⟩ := hc.num (by rw [abs_of_nonneg h0]; exact hle)
  rcases hc.lower 0 (by simp) (by simpa using h0) with h1 | h1
  · rcases h1 with h1 | h1
    · simpa using h1
    · rw [ez] at h1; cases h1
  · rw [ez] at h1; cases h1

/-- Rounding keeps powers of two beyond the largest number. -/
theorem rnd_beyond {x : ℚ} (h : (2 : ℚ) ^ f.p * (2 : ℚ) ^ f.emax ≤ x) : toNum f x = .inf false := by
  have h4 : (0 : ℚ) < (2 : ℚ) ^ f.emax := zpow_pos (by norm_num) _
  have h5 : (0 : ℚ) < (2 : ℚ) ^ f.p := by positivity
  have hr : rnd f ((2 : ℚ) ^ f.p * (2 : ℚ) ^ f.emax) = (2 : ℚ) ^ f.p * (2 : ℚ) ^ f.emax := by
    refine rnd_rep ⟨1, f.p + f.emax, ?_, ?_, ?_⟩
    · rw [abs_one]; exact one_lt_pow₀ (by norm_num) (by have := f.hp; omega)
    · have := f.hmin; have := f.hmax; omega
    · rw [zpow_add₀ (by norm_num), zpow_natCast]; push_cast; ring
  have h6 := rnd_mono (f := f) h
  rw [hr] at h6
  have h7 : largest f < rnd f x := by
    unfold largest
    nlinarith
  have hx : 0 < x := lt_of_lt_of_le (by positivity) h
  unfold toNum
  rw [if_neg (by
    rw [not_le]
    exact lt_of_lt_of_le h7 (le_abs_self _)), decide_eq_false (not_lt.mpr hx.le)]

/-- C133 is violated by `selu`: the largest finite number, times 1.0507, is infinite. -/
theorem selu_violated (hw : Wide f) (M : Maths f) (eps meps : Num f) : ∃ x : Num f, Fin x ∧ Op.selu.fwd M.exp M.log absN eps meps x = .inf false := by
  obtain ⟨q, g, e, e', q1, q2⟩ := toNum_in (f := f) fixed_largest fixed_largest le_rfl le_rfl
  obtain rfl : q = largest f := le_antisymm q2 q1
  refine ⟨_, ⟨_, g, rfl, e'⟩, ?_⟩
  have h4 : (0 : ℚ) < (2 : ℚ) ^ f.emax := zpow_pos (by norm_num) _
  have h5 : (64 : ℚ) ≤ 2 ^ f.p := by
    have : (2 : ℚ) ^ 6 ≤ 2 ^ f.p := pow_le_pow_right₀ (by norm_num) hw.1
    norm_num at this
    exact this
  have hL : 0 ≤ largest f := by unfold largest; exact mul_nonneg (by linarith) h4.le
  have hpos : ¬ (Num.num (largest f) g : Num f) < 0 := by
    intro hc
    exact absurd (lt_iff (g := ⟨0, by simp⟩).mp hc) (not_lt.mpr hL)
  show (if nanb (Num.num (largest f) g) = false ∧ ¬ (Num.num (largest f) g : Num f) < 0 then lit 1.0507 * (Num.num (largest f) g) else _) = _
  rw [if_pos ⟨rfl, hpos⟩]
  have hf : Fixed f (33 / 32) := by
    have := fixed_frac hw 33 (-5) (by norm_num) (by norm_num) (by norm_num)
    norm_num at this
    exact this
  have hc : In (33 / 32) 2 (lit 1.0507 : Num f) := toNum_in hf (fixed_two hw) (by norm_num) (by norm_num)
  obtain ⟨c, gc, ec, _, c1, c2⟩ := hc
  rw [ec]
  show toNum f (c * largest f) = _
  refine rnd_beyond ?_
  have h6 : (33 / 32) * largest f ≤ c * largest f := mul_le_mul_of_nonneg_right c1 hL
  refine le_trans ?_ h6
  unfold largest
  nlinarith

/-- What holds of `selu`: up to half the largest number the results are finite.  Missing: larger numbers. -/
theorem selu_finite_partial (hw : Wide f) (M : Maths f) (eps meps : Num f) (x : Num f) (hx : In (-largest f) (largest f / 2) x) : Fin (Op.selu.fwd M.exp M.log absN eps meps x) := by
  have hL0 : (0 : ℚ) ≤ largest f := by have := (fixed_zero (f := f)).2; rwa [abs_zero] at this
  have h1 : In 1 2 (lit 1.0507 : Num f) := toNum_in fixed_one (fixed_two hw) (by norm_num) (by norm_num)
  have h2 : In 1 2 (lit 1.67326 : Num f) := toNum_in fixed_one (fixed_two hw) (by norm_num) (by norm_num)
  have h4 : Fixed f 4 := by simpa using fixed_small hw (m := 4) (by norm_num)
  obtain ⟨q, g, rfl, e', q1, q2⟩ := hx
  show Fin (if nanb (Num.num q g) = false ∧ ¬ (Num.num q g : Num f) < 0 then lit 1.0507 * (Num.num q g) else lit 1.0507 * lit 1.67326 * (M.exp (Num.num q g) - 1))
  have hlt : (Num.num q g : Num f) < 0 ↔ q < 0 := lt_iff (g := ⟨0, by simp⟩)
  by_cases h : q < 0
  · rw [if_neg (fun hc => hc.2 (hlt.mpr h))]
    have h5 := mul_in h1 h2 fixed_one h4 (fun a b a1 a2 b1 b2 => ⟨by nlinarith, by nlinarith⟩)
    have h6 := sub_in (exp_neg M (h := g) h.le) one_in fixed_one.neg fixed_zero (by norm_num) (by norm_num)
    exact (mul_in h5 h6 h4.neg fixed_zero (fun a b a1 a2 b1 b2 => ⟨by nlinarith, by nlinarith⟩)).fin
  · rw [if_pos ⟨rfl, fun hc => h (hlt.mp hc)⟩]
    rw [not_lt] at h
    exact (mul_in h1 ⟨q, g, rfl, e', h, q2⟩ fixed_zero fixed_largest (fun a b a1 a2 b1 b2 => ⟨by nlinarith, by nlinarith⟩)).fin

example : In (-largest float32) (largest float32 / 2) (1 : Num float32) ∧ In 90 (largest float32) (lit 100 : Num float32) := by
  have hL : largest float32 = (2 ^ 24 - 1) * 2 ^ 104 := by unfold largest float32; norm_num
  constructor
  · exact one_in.mono (by rw [hL]; norm_num) (by rw [hL]; norm_num)
  · have : Fixed float32 ((100 : ℤ) : ℚ) := fixed_int (by norm_num [float32])
    exact (toNum_in this this (by norm_num) (by norm_num)).mono (by norm_num) (by rw [hL]; norm_num)

end Verif.Finite
