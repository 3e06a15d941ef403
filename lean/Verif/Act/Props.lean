import Verif.Act.Model
import Verif.Loss.Dense
import Verif.Concat.Props
import Verif.Graph.Shared
/-!
# Property C110: activations and quotients made of other operators

Values by `eval` (what forward computes, C53, C55); gradients where the operand of the activation may be used twice; and where the code is wrong: `mish` and `lisht` are matrix
products, and an operator under `swish`, `tank_shrink`, `mish`, `lisht` lives in two objects.
-/
namespace Verif.Act
open Verif Res View Data Ops Graph Loss
open Verif.Tensor (bcIdx)

noncomputable section

variable {K : Kit} {L D : Nat → Ten ℝ}

/-! ## Values -/

section
variable {e l r : Ex ℝ} {s : List Nat} {a b : List Nat → ℝ}

/-- A value times an expression. -/
theorem ev_valueTimes (h : Ev L D e s a) (hs : size s ≠ 0) (v : ℝ) (i : Nat) :
    Ev L D (.un i (valueLeft v (opEwp K.red K.fuel)) e) s (fun is => v * a is) := by
  obtain ⟨x, h1, h2⟩ := h
  obtain ⟨u, m1, m2⟩ := ewp_same (replicate_has s v) h2 hs
  refine ⟨u, ?_, m2⟩
  unfold eval
  rw [h1, bind_ok]
  show (do let l ← valueLike v x; (opEwp K.red K.fuel).fwd l x) = _
  rw [valueLike_ok, bind_ok, h2.1]
  exact m1

/-- C110: `heaviside_step( f )` is `1 / (1 + exp(-2 f x))`. -/
theorem heaviside_value (h : Ev L D e s a) (hs : size s ≠ 0) (f : ℝ) (i : Nat) :
    Ev L D (heavisideStep K f i e) s (fun is => 1 / (1 + Real.exp (-(2 * f * a is)))) :=
  ((ev_valueTimes h hs (f + f) i).el (i + 1) .sigmoid).congr (fun is _ => by simp only [EOp.fwd]; ring_nf)

/-- C110: `unit_step` differs from the step, 1 above 0 and 0 below, by at most `exp(-40 |x|)`. -/
theorem unit_step_value (h : Ev L D e s a) (hs : size s ≠ 0) (i : Nat) :
    ∃ u, Ev L D (unitStep K i e) s u ∧ ∀ is, u is = 1 / (1 + Real.exp (-(40 * a is))) ∧ (a is ≠ 0 → |u is - (if 0 < a is then 1 else 0)| ≤ Real.exp (-(40 * |a is|))) := by
  refine ⟨_, heaviside_value h hs 20 i, fun is => ?_⟩
  have h40 : (2 * 20 * a is : ℝ) = 40 * a is := by ring
  show _ = _ ∧ _
  rw [h40]
  refine ⟨rfl, fun h0 => ?_⟩
  have hp := Real.exp_pos (-(40 * a is))
  by_cases hpos : 0 < a is
  · rw [if_pos hpos, abs_of_pos hpos, show 1 / (1 + Real.exp (-(40 * a is))) - 1 = -(Real.exp (-(40 * a is)) / (1 + Real.exp (-(40 * a is)))) by field_simp; ring, abs_neg,
      abs_of_pos (by positivity)]
    exact div_le_self hp.le (by linarith)
  · have hneg : a is < 0 := lt_of_le_of_ne (not_lt.mp hpos) h0
    rw [if_neg hpos, sub_zero, abs_of_pos (by positivity), abs_of_neg hneg, show -(40 * -a is) = -(-(40 * a is)) by ring, Real.exp_neg (-(40 * a is)), one_div]
    exact inv_anti₀ hp (by linarith)

/-- C110: `swish` is `x / (1 + exp(-x))`. -/
theorem swish_value (h : Ev L D e s a) (hs : size s ≠ 0) (i : Nat) : Ev L D (swish K i e) s (fun is => a is / (1 + Real.exp (-a is))) :=
  (h.had (h.el i .sigmoid) hs (i + 1)).congr (fun is _ => by simp only [EOp.fwd]; ring)

/-- C110: `tank_shrink` is `x - tanh(x)`. -/
theorem tank_shrink_value (h : Ev L D e s a) (hf : Fits1 K s) (i : Nat) : Ev L D (tankShrink K i e) s (fun is => a is - Real.tanh (a is)) :=
  (h.minus (h.el i .tanh) hf.fits (i + 1)).congr (fun is hv => by rw [bc_self hv]; rfl)

/-- C110: `crelu` doubles the last extent: first the positive parts, then the negative parts. -/
theorem crelu_value {pre : List Nat} {n : Nat} (h : Ev L D e (pre ++ [n]) a) (hs : size pre ≠ 0) (i : Nat) :
    Ev L D (crelu K i e) (pre ++ [n + n]) (fun is =>
      if is.getD pre.length 0 < n then max (a is) 0 else max (-a (is.set pre.length (is.getD pre.length 0 - n))) 0) := by
  obtain ⟨x, h1, h2⟩ := h.el (K := K) i .relu
  obtain ⟨y, k1, k2⟩ := (h.el (K := K) (i + 1) .negative).el (K := K) (i + 2) .relu
  obtain ⟨t, m1, m2⟩ := concatenate_partial x y pre [] n n minusOne _ _ h2 k2 hs (Or.inr ⟨rfl, rfl⟩)
  refine ⟨t, ?_, m2.congr (fun is _ => rfl)⟩
  unfold crelu eval
  rw [h1, bind_ok, k1, bind_ok]
  exact m1

/-- C110: `divide` is the quotient where the divisor is not within `eps` of 0. -/
theorem divide_value (hl : Ev L D l s a) (hr : Ev L D r s b) (hs : size s ≠ 0) (i : Nat) (hb : ∀ is, ValidIdx s is → epsC ≤ |b is|) :
    Ev L D (divide K i l r) s (fun is => a is / b is) :=
  (hl.had (hr.el i .inverse) hs (i + 1)).congr (fun is hv => by
    have h1 := hb is hv
    have h0 := epsC_pos
    simp only [EOp.fwd]
    by_cases hp : b is > 0
    · rw [if_pos hp, max_eq_right (by rwa [abs_of_pos hp] at h1)]; ring
    · rw [if_neg hp, min_eq_right (by rw [abs_of_nonpos (not_lt.mp hp)] at h1; linarith)]; ring)

/-- C110: dividing by a number. -/
theorem divide_number_value (h : Ev L D e s a) (i : Nat) (c : ℝ) : Ev L D (divideC K i e c) s (fun is => a is / c) :=
  (h.el i (.mulC (1 / c))).congr (fun is _ => by simp only [EOp.fwd]; ring)

end

/-! ### `mish` and `lisht` -/

section
variable {e : Ex ℝ} {a : List Nat → ℝ}

/-- The matrix product of an expression with a function of it. -/
theorem ev_product {f : Ex ℝ} {m k n : Nat} {b : List Nat → ℝ} (he : Ev L D e [m, k] a) (hf : Ev L D f [k, n] b) (hm : 0 < m) (hk : 0 < k) (hn : 0 < n) (i : Nat) :
    Ev L D (.bin i (opMatmul K.cacheF K.cacheB K.cacheB') e f) [m, n] (fun is => ∑ p ∈ Finset.range k, a [is[0]?.getD 0, p] * b [p, is[1]?.getD 0]) := by
  obtain ⟨u, h1, h2⟩ := he
  obtain ⟨v, k1, k2⟩ := hf
  obtain ⟨z, h3, h4⟩ := matmul_forward K.cacheF u v m k n a b h2 k2 hm hk hn
  refine ⟨z, ?_, h4⟩
  rw [eval, h1, bind_ok, k1, bind_ok]
  exact h3

/-- A matrix product of operands that do not match does not finish. -/
theorem product_rejects {f : Ex ℝ} {s s' : List Nat} {b : List Nat → ℝ} (he : Ev L D e s a) (hf : Ev L D f s' b) (hns : ∀ m k n, ¬ (s = [m, k] ∧ s' = [k, n])) (i : Nat) :
    ∀ y, eval L D (.bin i (opMatmul K.cacheF K.cacheB K.cacheB') e f) ≠ ok y := by
  obtain ⟨u, h1, h2⟩ := he
  obtain ⟨v, k1, k2⟩ := hf
  intro y hy
  rw [eval, h1, bind_ok, k1, bind_ok] at hy
  change matmul K.cacheF u v = ok y at hy
  unfold matmul at hy
  simp only [bind_eq_ok] at hy
  obtain ⟨_, _, _, _, hy⟩ := hy
  split at hy
  · rename_i m n n' k hu hv
    by_cases hn : n = n'
    · subst hn
      exact hns m n k ⟨by rw [← h2.1, hu], by rw [← k2.1, hv]⟩
    · simp only [Gemm.gemmView, bind_eq_ok] at hy
      obtain ⟨_, ⟨_, _, _, _, _, hy, _⟩, _⟩ := hy
      rw [assert_false hn] at hy
      cases hy
  · cases hy

/-- What `lisht` computes for a square matrix: the matrix product of the operand and its hyperbolic tangent. -/
theorem lisht_square {n : Nat} (h : Ev L D e [n, n] a) (hn : 0 < n) (i : Nat) :
    Ev L D (lisht K i e) [n, n] (fun is => ∑ p ∈ Finset.range n, a [is[0]?.getD 0, p] * Real.tanh (a [p, is[1]?.getD 0])) :=
  ev_product h (h.el i .tanh) hn hn hn (i + 1)

/-- What `mish` computes for a square matrix. -/
theorem mish_square {n : Nat} (h : Ev L D e [n, n] a) (hn : 0 < n) (i : Nat) :
    Ev L D (mish K i e) [n, n] (fun is => ∑ p ∈ Finset.range n, a [is[0]?.getD 0, p] * Real.tanh (Real.log (1 + Real.exp (a [p, is[1]?.getD 0])))) :=
  ev_product h ((h.el i .softplus).el (i + 1) .tanh) hn hn hn (i + 2)

/-- C110 is false of `lisht` and `mish`: for an operand that is not a square matrix they do not finish. -/
theorem mish_lisht_rejects_violated {s : List Nat} (h : Ev L D e s a) (hs : ∀ n, s ≠ [n, n]) (i : Nat) (y : Ten ℝ) :
    eval L D (lisht K i e) ≠ ok y ∧ eval L D (mish K i e) ≠ ok y :=
  have hq : ∀ m k n, ¬ (s = [m, k] ∧ s = [k, n]) := fun m k n hh => by
    obtain ⟨rfl, h2⟩ := hh
    simp only [List.cons.injEq, and_true] at h2
    exact hs k (by rw [h2.1])
  ⟨product_rejects h (h.el i .tanh) hq (i + 1) y, product_rejects h ((h.el i .softplus).el (i + 1) .tanh) hq (i + 2) y⟩

theorem tanh_pos {x : ℝ} (h : 0 < x) : 0 < Real.tanh x := by
  rw [Real.tanh_eq_sinh_div_cosh]
  exact div_pos (Real.sinh_pos_iff.mpr h) (Real.cosh_pos x)

/-- C110 is false of `lisht` and `mish`: for a square matrix with a side of two or more they are not the element-wise functions, whatever the (equal, nonzero) elements. -/
theorem mish_lisht_violated {n : Nat} {c : ℝ} (h : Ev L D e [n, n] (fun _ => c)) (hn : 2 ≤ n) (hc : c ≠ 0) (i : Nat) :
    ¬ Ev L D (lisht K i e) [n, n] (fun _ => c * Real.tanh c) ∧ ¬ Ev L D (mish K i e) [n, n] (fun _ => c * Real.tanh (Real.log (1 + Real.exp c))) := by
  have hn1 : ((n : ℝ) - 1) ≠ 0 := by
    have : (2 : ℝ) ≤ n := by exact_mod_cast hn
    linarith
  have hv : ValidIdx [n, n] [0, 0] := by simp only [validIdx_cons]; exact ⟨by omega, by omega, trivial⟩
  have key : ∀ (f : Ex ℝ) (q : ℝ), q ≠ 0 → Ev L D f [n, n] (fun _ => ∑ _p ∈ Finset.range n, c * q) → ¬ Ev L D f [n, n] (fun _ => c * q) := by
    rintro f q hq ⟨x, h1, h2⟩ ⟨x', h3, h4⟩
    rw [h1] at h3
    cases h3
    have := (h2.at_eq hv).symm.trans (h4.at_eq hv)
    simp only [Finset.sum_const, Finset.card_range, nsmul_eq_mul] at this
    have : ((n : ℝ) - 1) * (c * q) = 0 := by linear_combination this
    rcases mul_eq_zero.mp this with h | h
    · exact hn1 h
    · exact mul_ne_zero hc hq h
  have ht : Real.tanh c ≠ 0 := by
    rcases lt_or_gt_of_ne hc with h | h
    · have := tanh_pos (neg_pos.mpr h)
      rw [Real.tanh_neg] at this
      exact (neg_pos.mp this).ne
    · exact (tanh_pos h).ne'
  exact ⟨key _ _ ht (lisht_square h (by omega) i),
    key _ _ (tanh_pos (Real.log_pos (by linarith [Real.exp_pos c]))).ne' (mish_square h (by omega) i)⟩

/-- C110 for `lisht` and `mish` of a matrix with one element. -/
theorem mish_lisht_partial (h : Ev L D e [1, 1] a) (i : Nat) :
    Ev L D (lisht K i e) [1, 1] (fun is => a is * Real.tanh (a is)) ∧ Ev L D (mish K i e) [1, 1] (fun is => a is * Real.tanh (Real.log (1 + Real.exp (a is)))) := by
  have hi : ∀ is, ValidIdx [1, 1] is → is = [0, 0] := by
    intro is hv
    match is, hv with
    | [x, y], hv =>
      simp only [validIdx_cons] at hv
      have h1 : x = 0 := by omega
      have h2 : y = 0 := by omega
      rw [h1, h2]
  exact ⟨(lisht_square h (by omega) i).congr (fun is hv => by rw [hi is hv]; simp), (mish_square h (by omega) i).congr (fun is hv => by rw [hi is hv]; simp)⟩

end

/-! ## Gradients -/

section
variable {e l r : Ex ℝ} {sh : List Nat} {a b : List Nat → ℝ}

theorem smooth_valueTimes (h : Ev L D e sh a) (hs : Smooth L D e) (hf : Fits1 K sh) (v : ℝ) (i : Nat) :
    Smooth L D (.un i (valueLeft v (opEwp K.red K.fuel)) e) := by
  obtain ⟨x, h1, h2⟩ := h
  refine ⟨hs, fun x' hx' => ?_⟩
  rw [h1] at hx'
  cases hx'
  refine valueLeft_good v _ x (opEwp_good K.red hf.reduces K.fuel _ x [] sh h2.1 h2.1 hf.ne hf.pos hf.ms hf.rank hf.fuel)

/-- C110: `heaviside_step` has right gradients over every operand that has. -/
theorem smooth_heaviside (h : Ev L D e sh a) (hs : Smooth L D e) (hf : Fits1 K sh) (f : ℝ) (i : Nat) : Smooth L D (heavisideStep K f i e) :=
  smooth_el (ev_valueTimes h hf.pos (f + f) i) (smooth_valueTimes h hs hf (f + f) i) (i + 1) .sigmoid (fun _ _ => trivial)

/-- The operators of `swish` have right gradients. -/
theorem smooth_swish (h : Ev L D e sh a) (hs : Smooth L D e) (hf : Fits1 K sh) (i : Nat) : Smooth L D (swish K i e) :=
  smooth_had h (h.el i .sigmoid) hf hs (smooth_el h hs i .sigmoid (fun _ _ => trivial)) (i + 1)

/-- The operators of `tank_shrink` have right gradients. -/
theorem smooth_tankShrink (h : Ev L D e sh a) (hs : Smooth L D e) (hf : Fits1 K sh) (i : Nat) : Smooth L D (tankShrink K i e) :=
  smooth_minus h (h.el i .tanh) hf.fits hs (smooth_el h hs i .tanh (fun _ _ => trivial)) (i + 1)

/-- C110: `divide` has right gradients where the divisor is at least `sqrt eps` away from 0. -/
theorem smooth_divide (hl : Ev L D l sh a) (hr : Ev L D r sh b) (hsl : Smooth L D l) (hsr : Smooth L D r) (hf : Fits1 K sh) (i : Nat)
    (hb : ∀ is, ValidIdx sh is → epsC ≤ b is * b is) : Smooth L D (divide K i l r) :=
  smooth_had hl (hr.el i .inverse) hf hsl (smooth_el hr hsr i .inverse hb) (i + 1)

end

section
variable {s : St ℝ} {cfg : Nat → Cfg ℝ} {eps : ℝ} {l r : Ex ℝ} {sh : List Nat} {a b : List Nat → ℝ}

/-- C110, gradients of a quotient: after a training pass of the sum of `divide( l, r )` each variable holds the derivative. -/
theorem divide_gradient {i : Nat} (ht : Trains (.un (i + 2) opSum (divide K i l r)) s cfg) (hl : Ev s.leaf s.data l sh a) (hr : Ev s.leaf s.data r sh b)
    (hsl : Smooth s.leaf s.data l) (hsr : Smooth s.leaf s.data r) (hf : Fits1 K sh) (hb : ∀ is, ValidIdx sh is → epsC ≤ b is * b is) :
    Stores eps (.un (i + 2) opSum (divide K i l r)) s cfg 1 :=
  have he := hl.had (K := K) (hr.el (K := K) i .inverse) hf.pos (i + 1)
  smooth_stores eps ht (smooth_sum he hf.pos (smooth_divide hl hr hsl hsr hf i hb) (i + 2)) (he.sum hf.pos (i + 2))

/-- C110, gradients of `heaviside_step`. -/
theorem heaviside_gradient {i : Nat} (f : ℝ) (ht : Trains (.un (i + 2) opSum (heavisideStep K f i l)) s cfg) (hl : Ev s.leaf s.data l sh a) (hsl : Smooth s.leaf s.data l) (hf : Fits1 K sh) :
    Stores eps (.un (i + 2) opSum (heavisideStep K f i l)) s cfg 1 :=
  smooth_stores eps ht (smooth_sum (heaviside_value hl hf.pos f i) hf.pos (smooth_heaviside hl hsl hf f i) (i + 2)) ((heaviside_value hl hf.pos f i).sum hf.pos (i + 2))

/-- What training needs of a state with a variable `v`. -/
structure Holds (K : Kit) (s : St ℝ) (v : Nat) (c : Cfg ℝ) : Prop where
  training : s.training = true
  data : (s.data v).WF
  grad : (s.grad v).WF
  shape : (s.grad v).shape = (s.data v).shape
  trainable : c.trainable = true
  fits : Fits1 K (s.data v).shape

theorem Holds.trains {v : Nat} {c : Cfg ℝ} (h : Holds K s v c) {e : Ex ℝ} (hn : (ids e).Nodup) (hv : ∀ w ∈ vars e, w = v)
    (hc : ∀ p ∈ occs e none, ∀ w d, p.2 = .var w d → d = c) : Trains e s (fun _ => c) :=
  ⟨(distinct_consistent hn).1, (distinct_consistent hn).2, h.training, fun w hw => by rw [hv w hw]; exact ⟨h.data, h.grad, h.shape⟩,
    fun p hp w d hd => ⟨hc p hp w d hd, h.trainable⟩⟩

/-
Full statement of C110 for gradients: for every operand `e` with right gradients, training the sum of `swish( e )`, `tank_shrink( e )` stores the derivative.  Missing in the
next two theorems: operands other than variables.  They are not right: `gate_dense_violated` below.
-/

/-- C110, gradient of `swish` of a variable: the stored gradient is the derivative `σ(x) + x σ(x) (1 - σ(x))` of `x σ(x)`, plus the regularisation term once for each of
the two objects of the variable. -/
theorem swish_gradient_partial {v : Nat} {c : Cfg ℝ} (h : Holds K s v c) (i : Nat) :
    Stores eps (.un (i + 2) opSum (swish K i (.var v c))) s (fun _ => c) 1 := by
  have he : Ev s.leaf s.data (.var v c) (s.data v).shape (s.data v).at := ev_var h.data
  refine smooth_stores eps (h.trains ?_ ?_ ?_) (smooth_sum (swish_value he h.fits.pos i) h.fits.pos (smooth_swish he h.data h.fits i) (i + 2))
    ((swish_value he h.fits.pos i).sum h.fits.pos (i + 2))
  · simp [swish, hadE, el, ids]
  · simp [swish, hadE, el, vars]
  · simp [swish, hadE, el, occs]

/-- C110, gradient of `tank_shrink` of a variable (tensors by value: on shared storages the difference overwrites the variable, `Verif.Alias`). -/
theorem tank_shrink_gradient_partial {v : Nat} {c : Cfg ℝ} (h : Holds K s v c) (i : Nat) :
    Stores eps (.un (i + 3) opSum (tankShrink K i (.var v c))) s (fun _ => c) 1 := by
  have he : Ev s.leaf s.data (.var v c) (s.data v).shape (s.data v).at := ev_var h.data
  refine smooth_stores eps (h.trains ?_ ?_ ?_) (smooth_sum (tank_shrink_value he h.fits i) h.fits.pos (smooth_tankShrink he h.data h.fits i) (i + 3))
    ((tank_shrink_value he h.fits i).sum h.fits.pos (i + 3))
  · simp [tankShrink, minusE, plusE, el, ids]
    omega
  · simp [tankShrink, minusE, plusE, el, vars]
  · simp [tankShrink, minusE, plusE, el, occs]

end

/-! ## Operators under the activations

`swish`, `tank_shrink`, `mish` and `lisht` are of the form `b( e, u₁( … uₙ( e ) … ) )`: the operand is used twice. -/

/-- `u₁( … uₙ( e ) … )`. -/
def chain : List (Nat × UOp ℝ) → Ex ℝ → Ex ℝ
  | [], e => e
  | (k, op) :: us, e => .un k op (chain us e)

/-- The object in which `e` lives in `chain us e`. -/
def inner : List (Nat × UOp ℝ) → Slot → Slot
  | [], sl => sl
  | (k, _) :: us, _ => inner us (some (k, false))

theorem inner_cases (us : List (Nat × UOp ℝ)) : ∀ sl, inner us sl = sl ∨ ∃ k ∈ us.map Prod.fst, inner us sl = some (k, false) := by
  induction us with
  | nil => exact fun sl => Or.inl rfl
  | cons u us ih =>
    intro sl
    obtain ⟨k, op⟩ := u
    rcases ih (some (k, false)) with h | ⟨k', hk, h⟩
    · exact Or.inr ⟨k, by simp, h⟩
    · exact Or.inr ⟨k', by simp only [List.map_cons, List.mem_cons]; exact Or.inr hk, h⟩

/-- An operator whose result is in the cache: forward changes no input field. -/
theorem cached_inputs {e : Ex ℝ} {i : Nat} (hi : e.id? = some i) {sl : Slot} {s s' : St ℝ} {y : Ten ℝ} (hq : (query s.cache i).data ≠ [])
    (h : forward e sl s = ok (y, s')) (σ : Slot) : (s'.obj σ).inL = (s.obj σ).inL ∧ (s'.obj σ).inR = (s.obj σ).inR := by
  have key : ∀ o : Ten ℝ, ((upd s.obj sl { s.obj sl with out := o }) σ).inL = (s.obj σ).inL ∧ ((upd s.obj sl { s.obj sl with out := o }) σ).inR = (s.obj σ).inR := by
    intro o
    unfold upd
    split
    · rename_i hσ; rw [hσ]; exact ⟨rfl, rfl⟩
    · exact ⟨rfl, rfl⟩
  cases e with
  | leaf k => simp [Ex.id?] at hi
  | var v c => simp [Ex.id?] at hi
  | un j op c =>
    simp only [Ex.id?, Option.some.injEq] at hi
    subst hi
    simp only [forward, if_neg hq] at h
    cases h
    exact key _
  | bin j op l r =>
    simp only [Ex.id?, Option.some.injEq] at hi
    subst hi
    simp only [forward, if_neg hq] at h
    cases h
    exact key _

/-- Forward through a chain down to an operator whose result is in the cache: the object of that operator keeps the inputs it had. -/
theorem chain_stale {e : Ex ℝ} {i : Nat} (hi : e.id? = some i) : ∀ (us : List (Nat × UOp ℝ)) (sl : Slot) (s s' : St ℝ) (y : Ten ℝ), (query s.cache i).data ≠ [] →
    (us.map Prod.fst).Nodup → (∀ k ∈ us.map Prod.fst, ∀ b, sl ≠ some (k, b)) → forward (chain us e) sl s = ok (y, s') →
    (s'.obj (inner us sl)).inL = (s.obj (inner us sl)).inL ∧ (s'.obj (inner us sl)).inR = (s.obj (inner us sl)).inR := by
  intro us
  induction us with
  | nil => exact fun sl s s' y hq _ _ h => cached_inputs hi hq h sl
  | cons u us ih =>
    intro sl s s' y hq hn hsl h
    obtain ⟨k, op⟩ := u
    simp only [List.map_cons, List.nodup_cons] at hn
    by_cases hc : (query s.cache k).data = []
    · simp only [chain, forward, if_pos hc, bind_eq_ok, pure_eq] at h
      obtain ⟨⟨x, s2⟩, h1, z, h2, h⟩ := h
      cases h
      have := ih (some (k, false)) _ _ _ (by simpa using hq) hn.2 (fun k' hk' b hb => by
        simp only [Option.some.injEq, Prod.mk.injEq] at hb
        rw [hb.1] at hn
        exact hn.1 hk') h1
      have hne : inner us (some (k, false)) ≠ sl := by
        intro he
        rcases inner_cases us (some (k, false)) with h | ⟨k', hk', h⟩
        · exact hsl k (by simp) false (by rw [← he, h])
        · exact hsl k' (by simp only [List.map_cons, List.mem_cons]; exact Or.inr hk') false (by rw [← he, h])
      simp only [upd_ne _ _ hne] at this
      simp only [inner, upd_ne _ _ hne]
      exact this
    · exact cached_inputs (e := chain ((k, op) :: us) e) (i := k) rfl hc h _

theorem chain_backward {eps : ℝ} {e : Ex ℝ} : ∀ (us : List (Nat × UOp ℝ)) (sl : Slot) (g : Ten ℝ) (s s' : St ℝ), backward eps (chain us e) sl g s = ok s' →
    ∃ g', backward eps e (inner us sl) g' s = ok s' := by
  intro us
  induction us with
  | nil => exact fun sl g s s' h => ⟨g, h⟩
  | cons u us ih =>
    intro sl g s s' h
    simp only [chain, backward, bind_eq_ok] at h
    obtain ⟨d, _, h⟩ := h
    exact ih _ _ _ _ h

theorem forward_cached {e : Ex ℝ} {i : Nat} (hi : e.id? = some i) {sl : Slot} {s s' : St ℝ} {y : Ten ℝ} (h : forward e sl s = ok (y, s')) : s'.cache i = some y := by
  cases e with
  | leaf k => simp [Ex.id?] at hi
  | var v c => simp [Ex.id?] at hi
  | un j op c =>
    simp only [Ex.id?, Option.some.injEq] at hi
    subst hi
    exact forward_un_cached h
  | bin j op l r =>
    simp only [Ex.id?, Option.some.injEq] at hi
    subst hi
    simp only [forward] at h
    split at h
    · simp only [bind_eq_ok, pure_eq] at h
      obtain ⟨_, _, _, _, z, _, h⟩ := h
      cases h
      exact upd_same _ _ _
    · rename_i hq
      cases h
      exact query_nonempty hq

/-- After a run of a loss over `b( e, u₁( … uₙ( e ) … ) )`, where `e` is an operator, the second object of `e` has the inputs it had before the run. -/
theorem gate_stale {e : Ex ℝ} {i : Nat} (hi : e.id? = some i) (t j : Nat) (o : UOp ℝ) (b : BOp ℝ) (us : List (Nat × UOp ℝ)) (s s1 : St ℝ) (z : Ten ℝ)
    (hc : Consistent (.un t o (.bin j b e (chain us e)))) (hn : (us.map Prod.fst).Nodup) (hj : j ∉ us.map Prod.fst) (ht : t ∉ us.map Prod.fst) (hje : j ∉ ids e)
    (hue : ∀ k ∈ us.map Prod.fst, k ∉ ids e) (hne : ∀ y, eval s.leaf s.data e = ok y → y.data ≠ [])
    (h : run (.un t o (.bin j b e (chain us e))) s = ok (z, s1)) :
    (s1.obj (inner us (some (j, true)))).inL = (s.obj (inner us (some (j, true)))).inL ∧ (s1.obj (inner us (some (j, true)))).inR = (s.obj (inner us (some (j, true)))).inR := by
  have ho := mem_occs_self (.un t o (.bin j b e (chain us e))) none
  have hol := (occs_child_bin (occs_child_un ho)).1
  have hσ1 : inner us (some (j, true)) ≠ none := by
    rcases inner_cases us (some (j, true)) with h | ⟨k, _, h⟩ <;> rw [h] <;> simp
  have hσ2 : inner us (some (j, true)) ≠ some (t, false) := by
    rcases inner_cases us (some (j, true)) with h | ⟨k, hk, h⟩ <;> rw [h]
    · simp
    · intro he
      simp only [Option.some.injEq, Prod.mk.injEq, and_true] at he
      exact ht (he ▸ hk)
  have hσ3 : inner us (some (j, true)) ≠ some (j, false) := by
    rcases inner_cases us (some (j, true)) with h | ⟨k, hk, h⟩ <;> rw [h]
    · simp
    · intro he
      simp only [Option.some.injEq, Prod.mk.injEq, and_true] at he
      exact hj (he ▸ hk)
  have hσ4 : ∀ i' d, inner us (some (j, true)) = some (i', d) → i' ∉ ids e := by
    intro i' d hd
    rcases inner_cases us (some (j, true)) with h | ⟨k, hk, h⟩
    · rw [h] at hd; cases hd; exact hje
    · rw [h] at hd; cases hd; exact hue _ hk
  unfold run at h
  rw [forward] at h
  dsimp only at h
  rw [if_pos (show (query (fun _ => (none : Option (Ten ℝ))) t).data = [] from rfl), bind_eq_ok] at h
  obtain ⟨⟨x, s2⟩, hA, h⟩ := h
  simp only [bind_eq_ok, pure_eq] at h
  obtain ⟨z', _, h⟩ := h
  cases h
  rw [forward] at hA
  dsimp only at hA
  rw [if_pos (show (query (fun _ => (none : Option (Ten ℝ))) j).data = [] from rfl)] at hA
  simp only [bind_eq_ok, pure_eq] at hA
  obtain ⟨⟨x1, s3⟩, ha, ⟨w, s4⟩, hb, z2, _, hA⟩ := hA
  cases hA
  have hev := (forward_ok hc hol (L := s.leaf) (D := s.data) (by exact ⟨rfl, rfl, fun _ _ _ _ _ h => by simp at h, fun _ _ _ _ h => by simp at h, fun _ _ _ _ h => by simp at h,
    fun _ _ _ _ _ h => by simp at h⟩) ha).1
  have hca := forward_cached hi ha
  have hfr := forward_frame _ _ _ _ _ ha _ hσ3 hσ4
  have hst := chain_stale hi us (some (j, true)) _ _ _ (by
    unfold query
    simp only [hca]
    exact hne x1 hev) hn (fun k hk b he => by
    simp only [Option.some.injEq, Prod.mk.injEq] at he
    exact hj (he.1 ▸ hk)) hb
  simp only [upd_ne _ _ hσ1, upd_ne _ _ hσ2] at hst hfr ⊢
  rw [hst.1, hst.2, hfr]
  exact ⟨rfl, rfl⟩

theorem dropLead_rank (red : List ℝ → ℝ) (rank : Nat) : ∀ (fuel : Nat) (t u : Ten ℝ), dropLead red rank fuel t = ok u → u.shape.length ≤ rank := by
  intro fuel
  induction fuel with
  | zero =>
    intro t u h
    rw [dropLead] at h
    split at h
    · cases h
    · cases h; omega
  | succ fuel ih =>
    intro t u h
    rw [dropLead] at h
    split at h
    · rw [bind_eq_ok] at h
      obtain ⟨w, _, h⟩ := h
      exact ih _ _ h
    · cases h; omega

/-- Differentiating a dense layer in an object that has no inputs does not finish. -/
theorem dense_backward_empty (eps : ℝ) (i w b : Nat) (cw cb : Cfg ℝ) (x : Ex ℝ) (sl : Slot) (g : Ten ℝ) (s s' : St ℝ) (h : (s.obj sl).inL = noTensor) :
    backward eps (dense K i w b cw cb x) sl g s ≠ ok s' := by
  intro hb
  simp only [dense, plusE, backward, bind_eq_ok, h] at hb
  obtain ⟨d, h1, s2, ⟨d2, h2, _⟩, _⟩ := hb
  change plusBack K.red K.fuel [] _ g = ok d at h1
  unfold plusBack at h1
  simp only [bind_eq_ok, pure_eq] at h1
  obtain ⟨dl, h3, dr, _, h1⟩ := h1
  cases h1
  unfold plusGrad at h3
  rw [bind_eq_ok] at h3
  obtain ⟨u, h4, h5⟩ := h3
  have hu := dropLead_rank _ _ _ _ _ h4
  simp only [sumOnes, List.length_nil, loop] at h5
  cases h5
  have hsh : dl.shape = [] := List.eq_nil_of_length_eq_zero (by simpa using hu)
  change matmulBack _ _ _ _ dl = ok d2 at h2
  unfold matmulBack at h2
  rw [hsh] at h2
  cases h2

/-- C110 is false of the activations that use their operand twice: over a dense layer, whatever the loss `o` above and whatever the operators are, the first backward after the
first run does not finish (the second object of the layer has no inputs). -/
theorem gate_dense_violated (eps : ℝ) {x : Ex ℝ} {m k n i w b : Nat} {a W B : List Nat → ℝ} {cw cb : Cfg ℝ} (t j : Nat) (o : UOp ℝ) (op : BOp ℝ) (us : List (Nat × UOp ℝ)) (s s1 : St ℝ)
    (z : Ten ℝ) (hx : Ev s.leaf s.data x [m, k] a) (hw : (s.data w).Has [k, n] W) (hB : (s.data b).Has [1, n] B) (hf : DenseFits K m k n)
    (hc : Consistent (.un t o (.bin j op (dense K i w b cw cb x) (chain us (dense K i w b cw cb x))))) (hn : (us.map Prod.fst).Nodup) (hj : j ∉ us.map Prod.fst)
    (ht : t ∉ us.map Prod.fst) (hje : j ∉ ids (dense K i w b cw cb x)) (hue : ∀ k ∈ us.map Prod.fst, k ∉ ids (dense K i w b cw cb x))
    (hfresh : (s.obj (inner us (some (j, true)))).inL = noTensor)
    (h : run (.un t o (.bin j op (dense K i w b cw cb x) (chain us (dense K i w b cw cb x)))) s = ok (z, s1)) (g : Ten ℝ) (s2 : St ℝ) :
    backward eps (.un t o (.bin j op (dense K i w b cw cb x) (chain us (dense K i w b cw cb x)))) none g s1 ≠ ok s2 := by
  have hst := (gate_stale (i := i + 1) rfl t j o op us s s1 z hc hn hj ht hje hue (fun y hy => by
    obtain ⟨y', h1, h2⟩ := dense_value (K := K) hx hw hB hf cw cb i
    rw [h1] at hy
    cases hy
    exact (data_ne_nil h2).mpr hf.fits.pos) h).1
  intro hb
  simp only [backward, bind_eq_ok] at hb
  obtain ⟨d, _, d2, _, s3, h3, h4⟩ := hb
  obtain ⟨g', h5⟩ := chain_backward us _ _ _ _ h4
  exact dense_backward_empty eps i w b cw cb x _ g' s3 s2 (by rw [backward_obj eps _ _ _ _ _ h3, hst, hfresh]) h5

/-! ### Identities -/

theorem occs_slot {e : Ex ℝ} {sl sl' : Slot} {p : Slot × Ex ℝ} (h : p ∈ occs e sl) : ∃ p' ∈ occs e sl', p'.2 = p.2 := by
  cases e with
  | leaf k => simp only [occs, List.mem_singleton] at h; exact ⟨(sl', .leaf k), by simp [occs], by rw [h]⟩
  | var v c => simp only [occs, List.mem_singleton] at h; exact ⟨(sl', .var v c), by simp [occs], by rw [h]⟩
  | un i op e =>
    simp only [occs, List.mem_cons] at h
    rcases h with rfl | h
    · exact ⟨(sl', .un i op e), by simp [occs], rfl⟩
    · exact ⟨p, by simp [occs, h], rfl⟩
  | bin i op l r =>
    simp only [occs, List.mem_cons] at h
    rcases h with rfl | h
    · exact ⟨(sl', .bin i op l r), by simp [occs], rfl⟩
    · exact ⟨p, by simp only [occs, List.mem_cons]; exact Or.inr h, rfl⟩

theorem chain_ids {e : Ex ℝ} (us : List (Nat × UOp ℝ)) : ids (chain us e) = us.map Prod.fst ++ ids e := by
  induction us with
  | nil => rfl
  | cons u us ih => obtain ⟨k, op⟩ := u; simp [chain, ids, ih]

theorem chain_consistent {e : Ex ℝ} (he : Consistent e) : ∀ (us : List (Nat × UOp ℝ)), (us.map Prod.fst).Nodup → (∀ k ∈ us.map Prod.fst, k ∉ ids e) →
    Consistent (chain us e) ∧ ∀ p ∈ occs (chain us e) none, ∀ k ∈ ids e, p.2.id? = some k → ∃ q ∈ occs e none, q.2 = p.2 := by
  intro us
  induction us with
  | nil => exact fun _ _ => ⟨he, fun p hp k _ _ => ⟨p, hp, rfl⟩⟩
  | cons u us ih =>
    intro hn hd
    obtain ⟨k, op⟩ := u
    simp only [List.map_cons, List.nodup_cons] at hn
    obtain ⟨h1, h2⟩ := ih hn.2 (fun k' hk' => hd k' (by simp only [List.map_cons, List.mem_cons]; exact Or.inr hk'))
    have hk : k ∉ ids (chain us e) := by
      rw [chain_ids, List.mem_append]
      rintro (h | h)
      · exact hn.1 h
      · exact hd k (by simp) h
    refine ⟨?_, ?_⟩
    · intro p hp q hq i hpi hqi
      simp only [chain, occs, List.mem_cons] at hp hq
      rcases hp with rfl | hp <;> rcases hq with rfl | hq
      · rfl
      · simp only [Ex.id?, Option.some.injEq] at hpi
        exact absurd (id_mem hq (by rw [hqi, hpi])) hk
      · simp only [Ex.id?, Option.some.injEq] at hqi
        exact absurd (id_mem hp (by rw [hpi, hqi])) hk
      · obtain ⟨p', hp', ep⟩ := occs_slot (sl' := none) hp
        obtain ⟨q', hq', eq⟩ := occs_slot (sl' := none) hq
        rw [← ep, ← eq]
        exact h1 p' hp' q' hq' i (by rw [ep, hpi]) (by rw [eq, hqi])
    · intro p hp i hi hpi
      simp only [chain, occs, List.mem_cons] at hp
      rcases hp with rfl | hp
      · simp only [Ex.id?, Option.some.injEq] at hpi
        subst hpi
        exact absurd hi (hd k (by simp))
      · obtain ⟨p', hp', ep⟩ := occs_slot (sl' := none) hp
        rw [← ep]
        exact h2 p' hp' i hi (by rw [ep, hpi])

theorem gate_consistent {e : Ex ℝ} (he : Consistent e) (t j : Nat) (o : UOp ℝ) (b : BOp ℝ) (us : List (Nat × UOp ℝ)) (hn : (us.map Prod.fst).Nodup) (hj : j ∉ us.map Prod.fst)
    (ht : t ∉ us.map Prod.fst) (hje : j ∉ ids e) (hte : t ∉ ids e) (htj : t ≠ j) (hue : ∀ k ∈ us.map Prod.fst, k ∉ ids e) :
    Consistent (.un t o (.bin j b e (chain us e))) := by
  obtain ⟨h1, h2⟩ := chain_consistent he us hn hue
  have hT : t ∉ ids (chain us e) := by rw [chain_ids, List.mem_append]; exact fun h => h.elim ht hte
  have hJ : j ∉ ids (chain us e) := by rw [chain_ids, List.mem_append]; exact fun h => h.elim hj hje
  -- an occurrence below the binary operator, brought to a fixed object
  have low : ∀ p ∈ occs e (some (j, false)) ++ occs (chain us e) (some (j, true)), ∀ i, p.2.id? = some i → i ∈ ids (chain us e) ∧ ∃ q ∈ occs (chain us e) none, q.2 = p.2 := by
    intro p hp i hi
    rw [List.mem_append] at hp
    rcases hp with hp | hp
    · refine ⟨by rw [chain_ids, List.mem_append]; exact Or.inr (id_mem hp hi), ?_⟩
      have : ∀ (us : List (Nat × UOp ℝ)) (sl : Slot), ∃ q ∈ occs (chain us e) sl, q.2 = p.2 := by
        intro us
        induction us with
        | nil => exact fun sl => occs_slot hp
        | cons u us ih =>
          intro sl
          obtain ⟨k, op⟩ := u
          obtain ⟨q, hq, e1⟩ := ih (some (k, false))
          exact ⟨q, by simp only [chain, occs, List.mem_cons]; exact Or.inr hq, e1⟩
      exact this us none
    · exact ⟨id_mem hp hi, occs_slot hp⟩
  intro p hp q hq i hpi hqi
  simp only [occs, List.mem_cons] at hp hq
  rcases hp with rfl | rfl | hp <;> rcases hq with rfl | rfl | hq
  · rfl
  · simp only [Ex.id?, Option.some.injEq] at hpi hqi; omega
  · simp only [Ex.id?, Option.some.injEq] at hpi; subst hpi; exact absurd (low q hq _ hqi).1 hT
  · simp only [Ex.id?, Option.some.injEq] at hpi hqi; omega
  · rfl
  · simp only [Ex.id?, Option.some.injEq] at hpi; subst hpi; exact absurd (low q hq _ hqi).1 hJ
  · simp only [Ex.id?, Option.some.injEq] at hqi; subst hqi; exact absurd (low p hp _ hpi).1 hT
  · simp only [Ex.id?, Option.some.injEq] at hqi; subst hqi; exact absurd (low p hp _ hpi).1 hJ
  · obtain ⟨p', hp', ep⟩ := (low p hp _ hpi).2
    obtain ⟨q', hq', eq⟩ := (low q hq _ hqi).2
    rw [← ep, ← eq]
    exact h1 p' hp' q' hq' i (by rw [ep, hpi]) (by rw [eq, hqi])

/-- C110 is false of `swish`, `tank_shrink`, `mish` and `lisht` over a dense layer: a program that has not run before finishes the forward
pass of the sum of the activation, and not the backward pass. -/
theorem activation_of_dense_violated (eps : ℝ) {x : Ex ℝ} {m k n i w b : Nat} {a W B : List Nat → ℝ} {cw cb : Cfg ℝ} (s s1 : St ℝ) (z : Ten ℝ) (q t : Nat)
    (hx : Ev s.leaf s.data x [m, k] a) (hw : (s.data w).Has [k, n] W) (hB : (s.data b).Has [1, n] B) (hf : DenseFits K m k n) (hnd : (ids x).Nodup) (hlow : ∀ p ∈ ids x, p < i)
    (hq : i + 2 ≤ q) (ht : q + 3 ≤ t) (hfresh : ∀ sl, s.obj sl = ⟨noTensor, noTensor, noTensor⟩) (y : Ex ℝ)
    (hy : y ∈ [swish K q (dense K i w b cw cb x), tankShrink K q (dense K i w b cw cb x), mish K q (dense K i w b cw cb x), lisht K q (dense K i w b cw cb x)])
    (h : run (.un t opSum y) s = ok (z, s1)) (g : Ten ℝ) (s2 : St ℝ) : backward eps (.un t opSum y) none g s1 ≠ ok s2 := by
  have hids : ids (dense K i w b cw cb x) = (i + 1) :: i :: (ids x ++ [] ++ []) := by simp [dense, plusE, ids]
  have hdn : (ids (dense K i w b cw cb x)).Nodup := by
    rw [hids]
    simp only [List.append_nil, List.nodup_cons, List.mem_cons, not_or]
    exact ⟨⟨by omega, fun h => by have := hlow _ h; omega⟩, fun h => by have := hlow _ h; omega, hnd⟩
  have hle : ∀ p ∈ ids (dense K i w b cw cb x), p < i + 2 := by
    intro p hp
    rw [hids] at hp
    simp only [List.append_nil, List.mem_cons] at hp
    rcases hp with rfl | rfl | hp
    · omega
    · omega
    · have := hlow _ hp; omega
  have hce := (distinct_consistent hdn).1
  have key : ∀ (j : Nat) (op : BOp ℝ) (us : List (Nat × UOp ℝ)), (us.map Prod.fst).Nodup → j ∉ us.map Prod.fst → i + 2 ≤ j → j < t → (∀ k ∈ us.map Prod.fst, i + 2 ≤ k ∧ k < t) →
      y = .bin j op (dense K i w b cw cb x) (chain us (dense K i w b cw cb x)) → backward eps (.un t opSum y) none g s1 ≠ ok s2 := by
    intro j op us h1 h2 h3 h4 h5 hy
    subst hy
    have c1 : t ∉ us.map Prod.fst := fun h => by have := (h5 t h).2; omega
    have c2 : j ∉ ids (dense K i w b cw cb x) := fun h => by have := hle j h; omega
    have c3 : ∀ k ∈ us.map Prod.fst, k ∉ ids (dense K i w b cw cb x) := fun k hk h => by have := hle k h; have := (h5 k hk).1; omega
    exact gate_dense_violated eps t j opSum op us s s1 z hx hw hB hf (gate_consistent hce t j opSum op us h1 h2 c1 c2 (fun h => by have := hle t h; omega) (by omega) c3) h1 h2 c1 c2 c3
      (by rw [hfresh]) h g s2
  simp only [List.mem_cons, List.not_mem_nil, or_false] at hy
  rcases hy with rfl | rfl | rfl | rfl
  · exact key (q + 1) _ [(q, opElem .sigmoid K.cacheF K.cacheB)] (by simp) (by simp) (by omega) (by omega) (by simp; omega) rfl
  · exact key (q + 2) _ [(q + 1, opElem .negative K.cacheF K.cacheB), (q, opElem .tanh K.cacheF K.cacheB)] (by simp) (by simp) (by omega) (by omega) (by simp; omega) rfl
  · exact key (q + 2) _ [(q + 1, opElem .tanh K.cacheF K.cacheB), (q, opElem .softplus K.cacheF K.cacheB)] (by simp) (by simp) (by omega) (by omega) (by simp; omega) rfl
  · exact key (q + 1) _ [(q, opElem .tanh K.cacheF K.cacheB)] (by simp) (by simp) (by omega) (by omega) (by simp; omega) rfl

/-- C110 is false of `crelu`: its backward pass is undefined or stops, whatever the operand (see C76). -/
theorem crelu_backward_violated (eps : ℝ) (i : Nat) (e : Ex ℝ) (sl : Slot) (g : Ten ℝ) (hg : g.shape ≠ []) (s s2 : St ℝ) : backward eps (crelu K i e) sl g s ≠ ok s2 := by
  intro h
  simp only [crelu, backward, bind_eq_ok] at h
  obtain ⟨d, h1, _⟩ := h
  change Concat.concatBackB false minusOne _ _ g = ok d at h1
  unfold Concat.concatBackB at h1
  simp only [bind_eq_ok] at h1
  obtain ⟨_, _, tail, h2, _⟩ := h1
  unfold Concat.tempTail at h2
  simp only [bind_eq_ok] at h2
  obtain ⟨_, _, _, h3, _⟩ := h2
  rw [require_false (by simp [hg])] at h3
  cases h3

end
end Verif.Act
