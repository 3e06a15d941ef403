import Verif.Fp.Backprop
import Verif.Fp.Acts
/-!
# Gradients of activations computed with rounding

Which activations may stand in the networks of C136, for the rounded formats, and with which errors.
-/
namespace Verif.Fp
open Verif Res Verif.Finite Nan Graph Ops

variable {f : Fmt}

/-- The error of a product whose factors are wrong by `e` and `f`. -/
def mulErr (u w x e y f : ℝ) : ℝ := e * |y| + |x| * f + e * f + (u * ((|x| + e) * (|y| + f)) + w)

/-- The error of a sum of things that are wrong by `e` together. -/
def addErr (u s e : ℝ) : ℝ := e + u * (|s| + e)

theorem mul_near {F : Type} [Arith F] {a b : F} {x e y f : ℝ} (ha : fin a ∧ |val a - x| ≤ e) (hb : fin b ∧ |val b - y| ≤ f) (htop : (|x| + e) * (|y| + f) ≤ Arith.top F) :
    fin (a * b) ∧ |val (a * b) - x * y| ≤ mulErr (Arith.u F) (Arith.w F) x e y f := by
  have h1 := near_abs ha.2
  have h2 := near_abs hb.2
  have h3 : |val a * val b| ≤ (|x| + e) * (|y| + f) := by rw [abs_mul]; exact mul_le_mul h1 h2 (abs_nonneg _) ((abs_nonneg _).trans h1)
  have hf := Arith.mul_fin a b ha.1 hb.1 (h3.trans htop)
  refine ⟨hf, ?_⟩
  have h4 := (Arith.mul_err a b hf).2.2
  have h5 := mul_le_mul_of_nonneg_left h3 (Arith.u_nonneg (F := F))
  have e1 : val (a * b) - x * y = (val (a * b) - val a * val b) + ((val a - x) * y + x * (val b - y) + (val a - x) * (val b - y)) := by ring
  rw [e1]
  unfold mulErr
  have h6 : |(val a - x) * y + x * (val b - y) + (val a - x) * (val b - y)| ≤ e * |y| + |x| * f + e * f := by
    refine (abs_add_le _ _).trans (add_le_add ((abs_add_le _ _).trans (add_le_add ?_ ?_)) ?_)
    · rw [abs_mul]; exact mul_le_mul_of_nonneg_right ha.2 (abs_nonneg _)
    · rw [abs_mul]; exact mul_le_mul_of_nonneg_left hb.2 (abs_nonneg _)
    · rw [abs_mul]; exact mul_le_mul ha.2 hb.2 (abs_nonneg _) ((abs_nonneg _).trans ha.2)
  have h7 := abs_add_le (val (a * b) - val a * val b) ((val a - x) * y + x * (val b - y) + (val a - x) * (val b - y))
  linarith

theorem add_near {F : Type} [Arith F] {a b : F} {x e y f : ℝ} (ha : fin a ∧ |val a - x| ≤ e) (hb : fin b ∧ |val b - y| ≤ f) (htop : |x + y| + (e + f) ≤ Arith.top F) :
    fin (a + b) ∧ |val (a + b) - (x + y)| ≤ addErr (Arith.u F) (x + y) (e + f) := by
  have h0 : |val a + val b - (x + y)| ≤ e + f := by
    rw [show val a + val b - (x + y) = (val a - x) + (val b - y) by ring]
    exact (abs_add_le _ _).trans (add_le_add ha.2 hb.2)
  have h3 : |val a + val b| ≤ |x + y| + (e + f) := by
    have := abs_add_le (val a + val b - (x + y)) (x + y)
    rw [sub_add_cancel] at this
    linarith
  have hf := Arith.add_fin a b ha.1 hb.1 (h3.trans htop)
  refine ⟨hf, ?_⟩
  have h4 := (Arith.add_err a b hf).2.2
  have h5 := mul_le_mul_of_nonneg_left h3 (Arith.u_nonneg (F := F))
  have h6 := abs_add_le (val (a + b) - (val a + val b)) (val a + val b - (x + y))
  rw [sub_add_sub_cancel] at h6
  unfold addErr
  linarith

theorem neg_near {a : Num f} {x e : ℝ} (ha : fin a ∧ |val a - x| ≤ e) : fin (Nan.neg a) ∧ |val (Nan.neg a) - -x| ≤ e := by
  obtain ⟨q, g, rfl⟩ := Num.fin_iff.mp ha.1
  refine ⟨trivial, ?_⟩
  have h : val (Nan.neg (Num.num q g)) = -(q : ℝ) := by
    show (((-q : ℚ)) : ℝ) = _
    push_cast; rfl
  rw [h, show -(q : ℝ) - -x = -((q : ℝ) - x) by ring, abs_neg]
  exact ha.2

theorem one_near : fin (1 : Num f) ∧ |val (1 : Num f) - 1| ≤ 0 := by
  have hone : (1 : Num f) = .num 1 (fixed_one.1 ▸ rnd_grid f 1) := toNum_fixed fixed_one
  rw [hone]
  exact ⟨trivial, by rw [val_num]; simp⟩

/-- No activation: the gradient is passed on. -/
theorem near_back_id {F : Type} [Arith F] (z : GLay) (h1 : z.dg = fun _ => 1) (h2 : z.back = fun _ _ _ ε => ε) : NearBack (id : F → F) (fun _ _ c => c) z := by
  intro a b c y e δ ε _ _ h3 h4 _
  rw [h1, h2]
  exact ⟨h3, by simpa using h4⟩

/-- Backward action of `relu` (include/activation.hpp line 308): `v *= ( x > 0 )`. -/
def reluBack (x _o g : Num f) : Num f := g * (if 0 < x then 1 else 0)

/-- If the error of the argument is smaller than its distance from the kink, `relu` adds the error of a product. -/
theorem near_back_relu (exp log abs : Num f → Num f) (eps meps : Num f) (z : GLay) (h1 : z.dg = fun y => if 0 < y then 1 else 0)
    (h2 : z.back = fun _ _ δ ε => ε + (Arith.u (Num f) * (|δ| + ε) + Arith.w (Num f))) (h3 : z.dom = fun y e δ ε => e < |y| ∧ |δ| + ε ≤ Arith.top (Num f)) :
    NearBack (Op.relu.fwd exp log abs eps meps) reluBack z := by
  intro a b c y e δ ε k1 k2 k3 k4 k5
  rw [h3] at k5
  rw [h1, h2]
  obtain ⟨q, g, hq⟩ := Num.fin_iff.mp k1
  rw [hq] at k2 ⊢
  rw [val_num] at k2
  have hlt : (0 : Num f) < .num q g ↔ 0 < q := lt_iff (h := ⟨0, by simp⟩)
  have hu := Arith.u_nonneg (F := Num f)
  have hw := Arith.w_nonneg (F := Num f)
  have hε : 0 ≤ ε := (abs_nonneg _).trans k4
  have hδ := abs_nonneg δ
  have hs := abs_le.mp k2
  show fin (c * (if (0 : Num f) < .num q g then 1 else 0)) ∧ |val (c * (if (0 : Num f) < .num q g then 1 else 0)) - δ * (if 0 < y then 1 else 0)| ≤ _
  by_cases hy : 0 < y
  · rw [abs_of_pos hy] at k5
    have hq0 : (0 : ℝ) < q := by linarith [k5.1]
    rw [if_pos (hlt.mpr (by exact_mod_cast hq0)), if_pos hy]
    obtain ⟨r1, r2⟩ := mul_near (F := Num f) ⟨k3, k4⟩ one_near (by simpa using k5.2)
    refine ⟨r1, r2.trans (le_of_eq ?_)⟩
    unfold mulErr
    simp
  · rw [abs_of_nonpos (not_lt.mp hy)] at k5
    have hq0 : ¬ (0 : ℝ) < q := by linarith [k5.1]
    rw [if_neg (fun hc => hq0 (by exact_mod_cast hlt.mp hc)), if_neg hy]
    obtain ⟨r1, r2⟩ := mul_near (F := Num f) ⟨k3, k4⟩ (b := 0) (y := 0) (f := 0) ⟨Arith.fin_zero, by rw [Arith.val_zero]; simp⟩ (by simpa using (by linarith [k5.2] : (0 : ℝ) ≤ Arith.top (Num f)))
    refine ⟨r1, r2.trans ?_⟩
    unfold mulErr
    simp
    have : 0 ≤ Arith.u (Num f) * (|δ| + ε) := mul_nonneg hu (by linarith)
    linarith

/-- The condition on the kink is needed: an argument that is wrong by its distance from the kink can lose the whole gradient. -/
theorem relu_kink (y : ℝ) (hy : 0 < y) (c : Num f) (hc : fin c) : ∃ x : Num f, fin x ∧ |val x - y| ≤ y ∧ val (reluBack x x c) = 0 ∧ val c * (if 0 < y then 1 else 0) = val c := by
  refine ⟨0, Arith.fin_zero, ?_, ?_, by rw [if_pos hy, mul_one]⟩
  · rw [Arith.val_zero, zero_sub, abs_neg, abs_of_pos hy]
  · unfold reluBack
    have hlt : ¬ (0 : Num f) < 0 := fun h => by
      have := (lt_iff (f := f) (h := ⟨0, by simp⟩) (g := ⟨0, by simp⟩)).mp h
      exact lt_irrefl _ this
    rw [if_neg hlt]
    have hz := Arith.mul_exact c 0 hc Arith.fin_zero ⟨0, by rw [Arith.val_zero]; simp⟩ (by
      rw [Arith.val_zero]
      simp
      show (0 : ℝ) < ((2 ^ f.p : ℚ) : ℝ)
      exact_mod_cast (by positivity : (0 : ℚ) < 2 ^ f.p))
    rw [hz.2, Arith.val_zero, mul_zero]

/-- Backward action of `sigmoid` (include/activation.hpp line 267): `g * o * ( 1 - o )`. -/
def sigmoidBack (_x o g : Num f) : Num f := g * o * (1 - o)

/-- `sigmoid`, for outputs within `η y e` of the logistic function (`near_sigmoid`). -/
theorem near_back_sigmoid (φ : Num f → Num f) (η : ℝ → ℝ → ℝ) (hφ : Near φ logistic η) (z : GLay) (h1 : z.dg = fun y => logistic y * (1 - logistic y))
    (h2 : z.back = fun y e δ ε => mulErr (Arith.u (Num f)) (Arith.w (Num f)) (δ * logistic y) (mulErr (Arith.u (Num f)) (Arith.w (Num f)) δ ε (logistic y) (η y e)) (1 - logistic y)
      (addErr (Arith.u (Num f)) (1 - logistic y) (η y e)))
    (h3 : z.dom = fun y e δ ε => (|δ| + ε) * (|logistic y| + η y e) ≤ Arith.top (Num f) ∧ |1 - logistic y| + η y e ≤ Arith.top (Num f) ∧
      (|δ * logistic y| + mulErr (Arith.u (Num f)) (Arith.w (Num f)) δ ε (logistic y) (η y e)) * (|1 - logistic y| + addErr (Arith.u (Num f)) (1 - logistic y) (η y e)) ≤ Arith.top (Num f)) :
    NearBack φ sigmoidBack z := by
  intro a b c y e δ ε k1 k2 k3 k4 k5
  rw [h3] at k5
  rw [h1, h2]
  have ho := hφ a b y e k1 k2
  have p1 := mul_near (F := Num f) ⟨k3, k4⟩ ho k5.1
  have p2 := add_near (F := Num f) one_near (neg_near ho) (by rw [← sub_eq_add_neg, zero_add]; exact k5.2.1)
  rw [← sub_eq_add_neg, zero_add] at p2
  have p3 := mul_near (F := Num f) p1 p2 k5.2.2
  rw [mul_assoc] at p3
  exact p3

/-- Backward action of `tanh` (include/operation.hpp line 4798), `g * ( 1.0 - o * o )`, with all operations in one format (for `float` the code computes the difference and
the last product in `double`). -/
def tanhBack (_x o g : Num f) : Num f := g * (1 - o * o)

/-- `tanh`, for outputs within `η y e` of the hyperbolic tangent (`near_tanh`). -/
theorem near_back_tanh (φ : Num f → Num f) (η : ℝ → ℝ → ℝ) (hφ : Near φ Real.tanh η) (z : GLay) (h1 : z.dg = fun y => 1 - Real.tanh y * Real.tanh y)
    (h2 : z.back = fun y e δ ε => mulErr (Arith.u (Num f)) (Arith.w (Num f)) δ ε (1 - Real.tanh y * Real.tanh y)
      (addErr (Arith.u (Num f)) (1 - Real.tanh y * Real.tanh y) (mulErr (Arith.u (Num f)) (Arith.w (Num f)) (Real.tanh y) (η y e) (Real.tanh y) (η y e))))
    (h3 : z.dom = fun y e δ ε => (|Real.tanh y| + η y e) * (|Real.tanh y| + η y e) ≤ Arith.top (Num f) ∧
      |1 - Real.tanh y * Real.tanh y| + mulErr (Arith.u (Num f)) (Arith.w (Num f)) (Real.tanh y) (η y e) (Real.tanh y) (η y e) ≤ Arith.top (Num f) ∧
      (|δ| + ε) * (|1 - Real.tanh y * Real.tanh y| + addErr (Arith.u (Num f)) (1 - Real.tanh y * Real.tanh y)
        (mulErr (Arith.u (Num f)) (Arith.w (Num f)) (Real.tanh y) (η y e) (Real.tanh y) (η y e))) ≤ Arith.top (Num f)) :
    NearBack φ tanhBack z := by
  intro a b c y e δ ε k1 k2 k3 k4 k5
  rw [h3] at k5
  rw [h1, h2]
  have ho := hφ a b y e k1 k2
  have p1 := mul_near (F := Num f) ho ho k5.1
  have p2 := add_near (F := Num f) one_near (neg_near p1) (by rw [← sub_eq_add_neg, zero_add]; exact k5.2.1)
  rw [← sub_eq_add_neg, zero_add] at p2
  exact mul_near (F := Num f) ⟨k3, k4⟩ p2 k5.2.2

/-! ### an example -/

/-- The layer of the example of C135 with the backward action of `relu`. -/
def exOpB : UOp (Num float32) := ⟨Ops.mapT (Op.relu.fwd id id id 0 0) ⟨[], []⟩, Ops.zipT reluBack ⟨[], []⟩⟩
@[inherit_doc exOpB] def exYB : Lay (Num float32) := ⟨0, 1, ⟨0, 0, true⟩, ⟨0, 0, true⟩, some exOpB⟩
@[inherit_doc exOpB] noncomputable def exZB : GLay := { exZ with
  dg := fun y => if 0 < y then 1 else 0
  back := fun _ _ δ ε => ε + (Arith.u (Num float32) * (|δ| + ε) + Arith.w (Num float32))
  dom := fun y e δ ε => e < |y| ∧ |δ| + ε ≤ Arith.top (Num float32) }
@[inherit_doc exOpB] def exMM : BOp (Num float32) := ⟨Ops.matmul ⟨[], []⟩, fun l r _ g => matmulBack ⟨[], []⟩ ⟨[], []⟩ l r g⟩
@[inherit_doc exOpB] def exRed : List (Num float32) → Num float32 := fun l => match l with | [] => 0 | x :: xs => xs.foldl (· + ·) x
@[inherit_doc exOpB] def exPL : BOp (Num float32) := ⟨plusT, fun l r _ g => plusBack exRed 0 l.shape r.shape g⟩

theorem exReduces : Data.Reduces (· + ·) exRed := by
  intro l hl
  have := Data.reduces_foldl (fun a b : Num float32 => a + b) 0 l hl
  cases l with
  | nil => exact absurd rfl hl
  | cons x xs => exact this

theorem exStandsB : StandsBack exD [exYB] [exZB] 2 := by
  obtain ⟨⟨W, B, φ, hW, hB, hφ, hP, fW, fB⟩, hn, hn1, _⟩ := exStands (fun φ _ => φ = Op.relu.fwd id id id 0 0) rfl
  subst hP
  refine ⟨⟨W, B, _, reluBack, hW, hB, hφ, ?_, near_relu _ _ _ _ _, near_back_relu _ _ _ _ _ _ rfl rfl rfl, fW, fB⟩, hn, hn1, trivial⟩
  exact fun x y g s a b c hx hy hg => zipT_ok _ _ _ _ _ hx hy hg

instance exNeg : Neg (Num float32) := ⟨Nan.neg⟩
instance exLE : LE (Num float32) := ⟨fun a b => ¬ b < a⟩
instance exDec : DecidableLE (Num float32) := fun a b => inferInstanceAs (Decidable (¬ b < a))

/-- Before the step; the gradients hold something. -/
def exSt : St (Num float32) := { leaf := exL, data := exD, grad := exD, training := true, obj := fun _ => ⟨⟨[], []⟩, ⟨[], []⟩, ⟨[], []⟩⟩, cache := fun _ => none, sync := fun _ => true, done := [] }

theorem exOne : ¬ (1 : Num float32) ≤ 0 := by
  have hone : (1 : Num float32) = .num 1 (fixed_one.1 ▸ rnd_grid float32 1) := toNum_fixed fixed_one
  intro h
  apply h
  rw [hone]
  exact (lt_iff (h := ⟨0, by simp⟩)).mpr (by norm_num)

/-- A step from the gradient 1: the gradients are 3 and 4 for the weights and 1 for the bias, within a thousandth. -/
example : ∃ y s1 s2 a b, run (mlpOf exMM exPL [exYB] 0 (.leaf 0)) exSt = ok (y, s1) ∧ backward 1 (mlpOf exMM exPL [exYB] 0 (.leaf 0)) none ⟨[1, 1], [ofInt 1]⟩ s1 = ok s2 ∧
    (s2.grad 0).Has [2, 1] a ∧ |val (a [0, 0]) - 3| ≤ 1 / 1000 ∧ |val (a [1, 0]) - 4| ≤ 1 / 1000 ∧ (s2.grad 1).Has [1, 1] b ∧ |val (b [0, 0]) - 1| ≤ 1 / 1000 := by
  have hu := float32_constants.1
  have hw := float32_constants.2.1
  have ht := float32_constants.2.2.1
  obtain ⟨y, s1, s2, h1, _, h3, _, h5⟩ := training_gradients (mm := exMM) (pl := exPL) (1 : Num float32) (matmul_product _ _) (matmul_back _ _ _) (fun _ _ => rfl) (red := exRed) (fuel := 0) exReduces (fun _ _ _ _ => rfl)
    1 2 0 0 (by norm_num) (by decide) (by norm_num) [exYB] [exZB] exSt rfl exStandsB _ (fun _ p => if p = 0 then 3 else 4) (fun _ _ => 0) (fun _ _ => 1) (fun _ _ => 0) exInput.2 (by
      intro r p hr hp
      have hr : r = 0 := by omega
      subst hr
      match p, hp with
      | 0, _ => exact ⟨ofInt_fin _, by simp [ofInt_val]⟩
      | 1, _ => exact ⟨ofInt_fin _, by simp [ofInt_val]⟩) (by
      intro r hr
      refine ⟨fun j _ => ?_, trivial⟩
      rw [ht, hu, hw]
      simp [exZB, exZ, RLay.mag, dotBound, Finset.sum_range_succ]
      norm_num) ⟨[1, 1], [ofInt 1]⟩ (fun _ => ofInt 1) (by
      refine ⟨rfl, rfl, ?_⟩
      intro is hv
      match is, hv with
      | [0, 0], _ => rfl
      | [n + 1, _], hv => exact absurd hv.1 (by omega)
      | [_, n + 1], hv => exact absurd hv.2.1 (by show ¬ n + 1 < 1; omega)) (by
      intro r j _ _
      exact ⟨ofInt_fin _, by simp [ofInt_val]⟩) (by
      rw [ht, hu, hw]
      refine ⟨fun r j hr hj => ⟨?_, ?_⟩, fun r p hr hp => ?_, fun p j hp hj => ?_, fun j hj => ?_, trivial⟩
      · show _ < _ ∧ _ ≤ _
        rw [ht]
        simp [exZB, exZ, GLay.sum, RLay.pre, RLay.mag, dotBound, gradIn, errIn, Finset.sum_range_succ]
        norm_num
      · simp [prodSize, GLay.delta, GLay.lerr, GLay.derr, roundings, hu, hw, exZB, exZ, GLay.sum, RLay.pre, RLay.mag, dotBound, gradIn, errIn, Finset.sum_range_succ]
        norm_num
      · rcases (by omega : p = 0 ∨ p = 1) with rfl | rfl
        · simp [prodSize, GLay.delta, GLay.lerr, GLay.derr, roundings, hu, hw, exZB, exZ, GLay.sum, RLay.pre, RLay.mag, dotBound, gradIn, errIn, Finset.sum_range_succ]
          norm_num
        · simp [prodSize, GLay.delta, GLay.lerr, GLay.derr, roundings, hu, hw, exZB, exZ, GLay.sum, RLay.pre, RLay.mag, dotBound, gradIn, errIn, Finset.sum_range_succ]
          norm_num
      · rcases (by omega : p = 0 ∨ p = 1) with rfl | rfl
        · simp [prodSize, GLay.delta, GLay.lerr, GLay.derr, roundings, hu, hw, exZB, exZ, GLay.sum, RLay.pre, RLay.mag, dotBound, gradIn, errIn, Finset.sum_range_succ]
          norm_num
        · simp [prodSize, GLay.delta, GLay.lerr, GLay.derr, roundings, hu, hw, exZB, exZ, GLay.sum, RLay.pre, RLay.mag, dotBound, gradIn, errIn, Finset.sum_range_succ]
          norm_num
      · simp [prodSize, GLay.delta, GLay.lerr, GLay.derr, roundings, hu, hw, exZB, exZ, GLay.sum, RLay.pre, RLay.mag, dotBound, gradIn, errIn, Finset.sum_range_succ]
        norm_num) (by decide) (by
      intro y hy
      obtain rfl : y = exYB := by simpa using hy
      exact ⟨⟨rfl, exOne, exOne⟩, rfl, exOne, exOne⟩) (by
      intro v hv
      have hv : v = 0 ∨ v = 1 := by simpa [layVars, exYB] using hv
      rcases hv with rfl | rfl
      · exact ⟨rfl, rfl⟩
      · exact ⟨rfl, rfl⟩)
  obtain ⟨⟨a, a1, a2⟩, ⟨b, b1, b2⟩, _⟩ := h5
  refine ⟨y, s1, s2, a, b, h1, h3, a1, ?_, ?_, b1, ?_⟩
  · have := (a2 0 0 (by norm_num) (by show 0 < 1; norm_num)).2
    simp [GLay.gradW, GLay.errW, GLay.gradB, GLay.errB, GLay.delta, GLay.lerr, GLay.derr, prodErr, roundings, gradIn, errIn, hu, hw, exZB, GLay.sum, RLay.pre, RLay.mag, dotBound, exZ, Finset.sum_range_succ] at this
    norm_num at this
    exact this.trans (by norm_num)
  · have := (a2 1 0 (by norm_num) (by show 0 < 1; norm_num)).2
    simp [GLay.gradW, GLay.errW, GLay.gradB, GLay.errB, GLay.delta, GLay.lerr, GLay.derr, prodErr, roundings, gradIn, errIn, hu, hw, exZB, GLay.sum, RLay.pre, RLay.mag, dotBound, exZ, Finset.sum_range_succ] at this
    norm_num at this
    exact this.trans (by norm_num)
  · have := (b2 0 0 (by norm_num) (by show 0 < 1; norm_num)).2
    simp [GLay.gradW, GLay.errW, GLay.gradB, GLay.errB, GLay.delta, GLay.lerr, GLay.derr, prodErr, roundings, gradIn, errIn, hu, hw, exZB, GLay.sum, RLay.pre, RLay.mag, dotBound, exZ, Finset.sum_range_succ] at this
    norm_num at this
    exact this.trans (by norm_num)

/-- The network of the example has a derivative where it is evaluated. -/
example : Smooth [exZB] 2 (fun p => if p = 0 then 3 else 4) := by
  refine ⟨fun j _ => ?_, trivial⟩
  have h : exZB.sum 2 (fun p => if p = 0 then 3 else 4) j = 3 := by
    simp [exZB, exZ, GLay.sum, Finset.sum_range_succ]
    norm_num
  rw [h]
  show HasDerivAt (fun y : ℝ => max y 0) (if (0 : ℝ) < 3 then 1 else 0) 3
  rw [if_pos (by norm_num)]
  refine (hasDerivAt_id (3 : ℝ)).congr_of_eventuallyEq ?_
  filter_upwards [lt_mem_nhds (show (0 : ℝ) < 3 by norm_num)] with y hy
  exact max_eq_left hy.le

end Verif.Fp
