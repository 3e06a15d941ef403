import Verif.Fp.Network
import Verif.Graph.Props
import Mathlib.Analysis.Calculus.Deriv.Add
import Mathlib.Analysis.Calculus.Deriv.Mul
import Mathlib.Analysis.Calculus.Deriv.Comp
/-!
# C136: gradients of networks of dense layers computed with rounding

Backpropagation through the networks of C135, computed with the operations of an arithmetic that rounds.  The specification is backpropagation over
the reals, shown to be differentiation, and bounds for the distance of what arrives at every variable.
-/
namespace Verif.Fp
open Verif Res View Data Ops Graph Finset
open Verif.Tensor (bcIdx Compatible broadcastShape)

/-! ### the specification -/

/-- A layer over the reals with the derivative `dg` of its activation; `back y e δ ε` bounds the error of `δ * dg y` if `y` is wrong by `e` and `δ` by `ε`,
under the condition `dom y e δ ε`. -/
structure GLay extends RLay where
  dg : ℝ → ℝ
  back : ℝ → ℝ → ℝ → ℝ → ℝ
  dom : ℝ → ℝ → ℝ → ℝ → Prop

/-- Without what is needed for the gradients. -/
def plain (zs : List GLay) : List RLay := zs.map GLay.toRLay

/-- What the activation of the layer is applied to. -/
def GLay.sum (z : GLay) (k : Nat) (x : Nat → ℝ) (j : Nat) : ℝ := ∑ p ∈ range k, x p * z.W p j + z.B j

/-- The gradient for the input `x` of the network, if the one for its output is `δ`. -/
def gradIn : List GLay → Nat → (Nat → ℝ) → (Nat → ℝ) → Nat → ℝ
  | [], _, _, δ => δ
  | z :: zs, k, x, δ => fun p => ∑ j ∈ range z.n, gradIn zs z.n (z.app k x) δ j * z.dg (z.sum k x j) * z.W p j

/-- The gradient for the sums of the first layer. -/
def GLay.delta (z : GLay) (zs : List GLay) (k : Nat) (x δ : Nat → ℝ) (j : Nat) : ℝ := gradIn zs z.n (z.app k x) δ j * z.dg (z.sum k x j)

/-- The gradient for its weights, `m` rows together. -/
def GLay.gradW (z : GLay) (zs : List GLay) (m k : Nat) (x δ : Nat → Nat → ℝ) (p j : Nat) : ℝ := ∑ r ∈ range m, x r p * z.delta zs k (x r) (δ r) j

/-- and for its biases. -/
def GLay.gradB (z : GLay) (zs : List GLay) (m k : Nat) (x δ : Nat → Nat → ℝ) (j : Nat) : ℝ := ∑ r ∈ range m, z.delta zs k (x r) (δ r) j

/-- The error that `c` roundings add to something of size `s`. -/
def roundings (u : ℝ) (c : Nat) (s : ℝ) : ℝ := ((1 + u) ^ c - 1) * s

/-- The error of a sum of products `x y`, whose factors are wrong by `e` and `f`. -/
def prodErr (u w : ℝ) (n : Nat) (x e y f : Nat → ℝ) : ℝ :=
  ∑ i ∈ range n, (e i * |y i| + |x i| * f i + e i * f i) + dotBound u w n (∑ i ∈ range n, (|x i| + e i) * (|y i| + f i))

/-- What must not exceed the largest number. -/
def prodSize (u w : ℝ) (n : Nat) (x e y f : Nat → ℝ) : ℝ :=
  ∑ i ∈ range n, (|x i| + e i) * (|y i| + f i) + dotBound u w n (∑ i ∈ range n, (|x i| + e i) * (|y i| + f i))

/-- The bound for the error of the gradient for the input: the activation's, two roundings on the way back through the addition, and a sum of products. -/
def errIn (u w : ℝ) : List GLay → Nat → (Nat → ℝ) → (Nat → ℝ) → (Nat → ℝ) → (Nat → ℝ) → Nat → ℝ
  | [], _, _, _, _, ε => ε
  | z :: zs, k, x, e, δ, ε => fun p =>
    let d := fun j => gradIn zs z.n (z.app k x) δ j * z.dg (z.sum k x j)
    let b := fun j => z.back (z.sum k x j) (z.pre u w k x e j) (gradIn zs z.n (z.app k x) δ j) (errIn u w zs z.n (z.app k x) (z.err u w k x e) δ ε j)
    prodErr u w z.n d (fun j => b j + roundings u 2 (|d j| + b j)) (z.W p) (fun _ => 0)

/-- The error of the gradient for the sums of the first layer. -/
def GLay.derr (z : GLay) (zs : List GLay) (u w : ℝ) (k : Nat) (x e δ ε : Nat → ℝ) (j : Nat) : ℝ :=
  z.back (z.sum k x j) (z.pre u w k x e j) (gradIn zs z.n (z.app k x) δ j) (errIn u w zs z.n (z.app k x) (z.err u w k x e) δ ε j)

/-- and on the left of the addition. -/
def GLay.lerr (z : GLay) (zs : List GLay) (u w : ℝ) (k : Nat) (x e δ ε : Nat → ℝ) (j : Nat) : ℝ :=
  z.derr zs u w k x e δ ε j + roundings u 2 (|z.delta zs k x δ j| + z.derr zs u w k x e δ ε j)

/-- The error of the gradient for the weights. -/
def GLay.errW (z : GLay) (zs : List GLay) (u w : ℝ) (m k : Nat) (x e δ ε : Nat → Nat → ℝ) (p j : Nat) : ℝ :=
  prodErr u w m (fun r => x r p) (fun r => e r p) (fun r => z.delta zs k (x r) (δ r) j) (fun r => z.lerr zs u w k (x r) (e r) (δ r) (ε r) j)

/-- and of that for the biases. -/
def GLay.errB (z : GLay) (zs : List GLay) (u w : ℝ) (m k : Nat) (x e δ ε : Nat → Nat → ℝ) (j : Nat) : ℝ :=
  ∑ r ∈ range m, z.derr zs u w k (x r) (e r) (δ r) (ε r) j +
    roundings u (m + 1) (∑ r ∈ range m, (|z.delta zs k (x r) (δ r) j| + z.derr zs u w k (x r) (e r) (δ r) (ε r) j))

/-- Far enough from overflow on the way back, and inside what the activations ask for, in every layer. -/
def CalmBack (u w top : ℝ) (m : Nat) : List GLay → Nat → (x e δ ε : Nat → Nat → ℝ) → Prop
  | [], _, _, _, _, _ => True
  | z :: zs, k, x, e, δ, ε =>
    (∀ r j, r < m → j < z.n → z.dom (z.sum k (x r) j) (z.pre u w k (x r) (e r) j) (gradIn zs z.n (z.app k (x r)) (δ r) j)
        (errIn u w zs z.n (z.app k (x r)) (z.err u w k (x r) (e r)) (δ r) (ε r) j) ∧
      (1 + u) ^ 2 * (|z.delta zs k (x r) (δ r) j| + z.derr zs u w k (x r) (e r) (δ r) (ε r) j) ≤ top) ∧
    (∀ r p, r < m → p < k → prodSize u w z.n (z.delta zs k (x r) (δ r)) (z.lerr zs u w k (x r) (e r) (δ r) (ε r)) (z.W p) (fun _ => 0) ≤ top) ∧
    (∀ p j, p < k → j < z.n → prodSize u w m (fun r => x r p) (fun r => e r p) (fun r => z.delta zs k (x r) (δ r) j)
        (fun r => z.lerr zs u w k (x r) (e r) (δ r) (ε r) j) ≤ top) ∧
    (∀ j, j < z.n → (1 + u) ^ (m + 1) * (∑ r ∈ range m, (|z.delta zs k (x r) (δ r) j| + z.derr zs u w k (x r) (e r) (δ r) (ε r) j)) ≤ top) ∧
    CalmBack u w top m zs z.n (fun r => z.app k (x r)) (fun r => z.err u w k (x r) (e r)) δ ε

/-! ### it is differentiation -/

/-- The activations have the derivatives `dg` where the network comes by. -/
def Smooth : List GLay → Nat → (Nat → ℝ) → Prop
  | [], _, _ => True
  | z :: zs, k, x => (∀ j, j < z.n → HasDerivAt z.g (z.dg (z.sum k x j)) (z.sum k x j)) ∧ Smooth zs z.n (z.app k x)

/-- Backpropagation is the chain rule: for inputs `c t` that move with velocity `v`, the sum of the outputs, weighted with `δ`, moves with the sum of `v` weighted
with `gradIn`. -/
theorem gradIn_derivative (δ : Nat → ℝ) (zs : List GLay) : ∀ (k : Nat) (c : ℝ → Nat → ℝ) (v : Nat → ℝ) (t₀ : ℝ), (∀ p, p < k → HasDerivAt (fun t => c t p) (v p) t₀) → Smooth zs k (c t₀) →
    HasDerivAt (fun t => ∑ j ∈ range (outs (plain zs) k), δ j * netR (plain zs) k (c t) j) (∑ p ∈ range k, gradIn zs k (c t₀) δ p * v p) t₀ := by
  induction zs with
  | nil =>
    intro k c v t₀ hc _
    exact HasDerivAt.fun_sum (fun p hp => (hc p (mem_range.mp hp)).const_mul _)
  | cons z zs ih =>
    intro k c v t₀ hc hs
    have h1 : ∀ j, j < z.n → HasDerivAt (fun t => z.app k (c t) j) (z.dg (z.sum k (c t₀) j) * ∑ p ∈ range k, v p * z.W p j) t₀ := by
      intro j hj
      have h2 : HasDerivAt (fun t => z.sum k (c t) j) (∑ p ∈ range k, v p * z.W p j) t₀ :=
        (HasDerivAt.fun_sum (fun p hp => (hc p (mem_range.mp hp)).mul_const (z.W p j))).add_const _
      exact (hs.1 j hj).comp t₀ h2
    have h3 := ih z.n (fun t => z.app k (c t)) _ t₀ h1 hs.2
    refine h3.congr_deriv ?_
    simp only [gradIn, sum_mul, mul_sum]
    rw [sum_comm]
    refine sum_congr rfl (fun p _ => sum_congr rfl (fun j _ => by ring))

/-- The layer with its weights moved in the direction `U` and its biases in the direction `V`. -/
def GLay.moved (z : GLay) (U : Nat → Nat → ℝ) (V : Nat → ℝ) (t : ℝ) : GLay := { z with W := fun p j => z.W p j + t * U p j, B := fun j => z.B j + t * V j }

/-- `gradW` and `gradB` are the derivatives for the weights and biases of the first layer, whose input may be the output of others. -/
theorem gradW_derivative (z : GLay) (zs : List GLay) (m k : Nat) (x δ : Nat → Nat → ℝ) (U : Nat → Nat → ℝ) (V : Nat → ℝ) (hs : ∀ r, r < m → Smooth (z :: zs) k (x r)) :
    HasDerivAt (fun t => ∑ r ∈ range m, ∑ j ∈ range (outs (plain (z :: zs)) k), δ r j * netR (plain (z.moved U V t :: zs)) k (x r) j)
      (∑ p ∈ range k, ∑ j ∈ range z.n, z.gradW zs m k x δ p j * U p j + ∑ j ∈ range z.n, z.gradB zs m k x δ j * V j) 0 := by
  have h1 : ∀ r, r < m → HasDerivAt (fun t => ∑ j ∈ range (outs (plain (z :: zs)) k), δ r j * netR (plain (z.moved U V t :: zs)) k (x r) j)
      (∑ j ∈ range z.n, z.delta zs k (x r) (δ r) j * (∑ p ∈ range k, x r p * U p j + V j)) 0 := by
    intro r hr
    have e0 : ∀ j, (z.moved U V 0).sum k (x r) j = z.sum k (x r) j := fun j => by simp [GLay.moved, GLay.sum]
    have e1 : (z.moved U V 0).app k (x r) = z.app k (x r) := by
      funext j
      show z.g ((z.moved U V 0).sum k (x r) j) = z.g (z.sum k (x r) j)
      rw [e0]
    have h2 : ∀ j, j < z.n → HasDerivAt (fun t => (z.moved U V t).app k (x r) j) (z.dg (z.sum k (x r) j) * (∑ p ∈ range k, x r p * U p j + V j)) 0 := by
      intro j hj
      have h3 : HasDerivAt (fun t => (z.moved U V t).sum k (x r) j) (∑ p ∈ range k, x r p * U p j + V j) 0 := by
        refine (HasDerivAt.fun_sum (fun p _ => ?_)).add ?_
        · have := (((hasDerivAt_id (0 : ℝ)).mul_const (U p j)).const_add (z.W p j)).const_mul (x r p)
          rw [one_mul] at this
          exact this
        · have := ((hasDerivAt_id (0 : ℝ)).mul_const (V j)).const_add (z.B j)
          rw [one_mul] at this
          exact this
      have h4 := (hs r hr).1 j hj
      rw [← e0] at h4
      have h5 := h4.comp (0 : ℝ) h3
      rw [e0] at h5
      exact h5
    have h3 := gradIn_derivative (δ r) zs z.n (fun t => (z.moved U V t).app k (x r)) _ 0 h2 (by rw [e1]; exact (hs r hr).2)
    rw [e1] at h3
    refine h3.congr_deriv (sum_congr rfl (fun j _ => ?_))
    unfold GLay.delta
    ring
  refine (HasDerivAt.fun_sum (fun r hr => h1 r (mem_range.mp hr))).congr_deriv ?_
  simp only [GLay.gradW, GLay.gradB, sum_mul, mul_add, sum_add_distrib, mul_sum]
  congr 1
  · rw [sum_comm' (t' := range z.n) (s' := fun _ => range m) (by simp)]
    rw [sum_comm' (s := range k) (t := fun _ => range z.n) (t' := range z.n) (s' := fun _ => range k) (by simp)]
    refine sum_congr rfl (fun j _ => ?_)
    rw [sum_comm]
    exact sum_congr rfl (fun p _ => sum_congr rfl (fun r _ => by ring))
  · rw [sum_comm]

variable {F : Type} [Arith F]

/-! ### sums and products of things that are wrong already -/

theorem near_abs {a : F} {x e : ℝ} (h : |val a - x| ≤ e) : |val a| ≤ |x| + e := by
  have := abs_add_le (val a - x) x
  rw [sub_add_cancel] at this
  linarith

theorem dot_near {n : Nat} {a b : Nat → F} {r : F} {x e y f : Nat → ℝ} (ha : ∀ i, i < n → fin (a i) ∧ |val (a i) - x i| ≤ e i) (hb : ∀ i, i < n → fin (b i) ∧ |val (b i) - y i| ≤ f i)
    (hr : Accurate a b n r) (htop : prodSize (Arith.u F) (Arith.w F) n x e y f ≤ Arith.top F) :
    fin r ∧ |val r - ∑ i ∈ range n, x i * y i| ≤ prodErr (Arith.u F) (Arith.w F) n x e y f := by
  have hu := Arith.u_nonneg (F := F)
  unfold prodSize at htop
  unfold prodErr
  set S := ∑ i ∈ range n, (|x i| + e i) * (|y i| + f i)
  have hab : ∑ i ∈ range n, |val (a i)| * |val (b i)| ≤ S := by
    refine sum_le_sum (fun i hi => ?_)
    have h1 := near_abs (ha i (mem_range.mp hi)).2
    have h2 := near_abs (hb i (mem_range.mp hi)).2
    exact mul_le_mul h1 h2 (abs_nonneg _) ((abs_nonneg _).trans h1)
  have hD := dotBound_mono (w := Arith.w F) (n := n) hu hab
  obtain ⟨c1, c2, _⟩ := hr
  have hf := c2 (fun i hi => ⟨(ha i hi).1, (hb i hi).1⟩) (by linarith)
  refine ⟨hf, ?_⟩
  have he := (c1 hf).2
  have hx : |∑ i ∈ range n, val (a i) * val (b i) - ∑ i ∈ range n, x i * y i| ≤ ∑ i ∈ range n, (e i * |y i| + |x i| * f i + e i * f i) := by
    rw [← sum_sub_distrib]
    refine (abs_sum_le_sum_abs _ _).trans (sum_le_sum (fun i hi => ?_))
    have h1 := (ha i (mem_range.mp hi)).2
    have h2 := (hb i (mem_range.mp hi)).2
    have e1 : val (a i) * val (b i) - x i * y i = (val (a i) - x i) * y i + x i * (val (b i) - y i) + (val (a i) - x i) * (val (b i) - y i) := by ring
    rw [e1]
    refine (abs_add_le _ _).trans (add_le_add ((abs_add_le _ _).trans (add_le_add ?_ ?_)) ?_)
    · rw [abs_mul]; exact mul_le_mul_of_nonneg_right h1 (abs_nonneg _)
    · rw [abs_mul]; exact mul_le_mul_of_nonneg_left h2 (abs_nonneg _)
    · rw [abs_mul]; exact mul_le_mul h1 h2 (abs_nonneg _) ((abs_nonneg _).trans h1)
  have h3 := abs_add_le (val r - ∑ i ∈ range n, val (a i) * val (b i)) (∑ i ∈ range n, val (a i) * val (b i) - ∑ i ∈ range n, x i * y i)
  rw [sub_add_sub_cancel] at h3
  linarith

/-- `y` is the sum of a list with at most `c` roundings on the way of every element. -/
def SumTo (l : List F) (y : F) (c : Nat) : Prop := (∀ x ∈ l, fin x) → (1 + Arith.u F) ^ c * (l.map (fun x => |val x|)).sum ≤ Arith.top F →
  fin y ∧ |val y - (l.map val).sum| ≤ roundings (Arith.u F) c (l.map (fun x => |val x|)).sum

theorem abs_list_sum (l : List F) : |(l.map val).sum| ≤ (l.map (fun x => |val x|)).sum := by
  induction l with
  | nil => simp
  | cons a l ih =>
    simp only [List.map_cons, List.sum_cons]
    exact (abs_add_le _ _).trans (by linarith)

theorem sumTo_of {l : List F} {y : F} (h : AccurateSum l y) : SumTo l y l.length := by
  intro hf ht
  obtain ⟨h1, h2, _⟩ := h
  have hfy := h2 hf (by unfold sumBound; linarith)
  exact ⟨hfy, (h1 hfy).2⟩

theorem sumTo_mono {l : List F} {y : F} {c d : Nat} (h : SumTo l y c) (hcd : c ≤ d) : SumTo l y d := by
  intro hf ht
  have hu := Arith.u_nonneg (F := F)
  have hS : 0 ≤ (l.map (fun x => |val x|)).sum := (abs_nonneg _).trans (abs_list_sum l)
  have hp : (1 + Arith.u F) ^ c ≤ (1 + Arith.u F) ^ d := pow_le_pow_right₀ (by linarith) hcd
  have h1 := mul_le_mul_of_nonneg_right hp hS
  obtain ⟨h2, h3⟩ := h hf (by linarith)
  refine ⟨h2, h3.trans ?_⟩
  unfold roundings
  linarith

theorem sumTo_self (x : F) : SumTo [x] x 0 := by
  intro hf _
  exact ⟨hf x (by simp), by simp [roundings]⟩

theorem sumTo_trans {l : List F} {x y : F} {c d : Nat} (h1 : SumTo l x c) (h2 : SumTo [x] y d) : SumTo l y (c + d) := by
  intro hf ht
  have hu := Arith.u_nonneg (F := F)
  set S := (l.map (fun x => |val x|)).sum with hSd
  have hS : 0 ≤ S := (abs_nonneg _).trans (abs_list_sum l)
  have p1 : 1 ≤ (1 + Arith.u F) ^ c := one_le_pow₀ (by linarith)
  have p2 : 1 ≤ (1 + Arith.u F) ^ d := one_le_pow₀ (by linarith)
  rw [pow_add] at ht
  obtain ⟨f1, e1⟩ := h1 hf (by
    have := mul_le_mul_of_nonneg_right p2 (mul_nonneg (by linarith) hS : 0 ≤ (1 + Arith.u F) ^ c * S)
    nlinarith)
  rw [← hSd] at e1
  unfold roundings at e1
  have hx : |val x| ≤ (1 + Arith.u F) ^ c * S := by
    have h3 := abs_add_le (val x - (l.map val).sum) (l.map val).sum
    rw [sub_add_cancel] at h3
    have := abs_list_sum l
    linarith
  have hxx := mul_le_mul_of_nonneg_left hx (by linarith : 0 ≤ (1 + Arith.u F) ^ d)
  obtain ⟨f2, e2⟩ := h2 (by simpa using f1) (by
    simp only [List.map_cons, List.map_nil, List.sum_cons, List.sum_nil, add_zero]
    linarith)
  simp only [List.map_cons, List.map_nil, List.sum_cons, List.sum_nil, add_zero] at e2
  refine ⟨f2, ?_⟩
  unfold roundings at e2 ⊢
  have h4 := abs_add_le (val y - val x) (val x - (l.map val).sum)
  rw [sub_add_sub_cancel] at h4
  have h5 := mul_le_mul_of_nonneg_left hx (by linarith : 0 ≤ (1 + Arith.u F) ^ d - 1)
  rw [pow_add]
  linarith

theorem map_range_sum (f : Nat → ℝ) (n : Nat) : ((List.range n).map f).sum = ∑ i ∈ range n, f i := by
  rw [← List.sum_toFinset _ List.nodup_range]
  congr 1
  ext i
  simp

theorem sum_near {n c : Nat} {a : Nat → F} {y : F} {x e : Nat → ℝ} (h : SumTo ((List.range n).map a) y c) (ha : ∀ i, i < n → fin (a i) ∧ |val (a i) - x i| ≤ e i)
    (htop : (1 + Arith.u F) ^ c * (∑ i ∈ range n, (|x i| + e i)) ≤ Arith.top F) :
    fin y ∧ |val y - ∑ i ∈ range n, x i| ≤ ∑ i ∈ range n, e i + roundings (Arith.u F) c (∑ i ∈ range n, (|x i| + e i)) := by
  have hu := Arith.u_nonneg (F := F)
  have e1 : (((List.range n).map a).map val).sum = ∑ i ∈ range n, val (a i) := by rw [List.map_map]; exact map_range_sum _ n
  have e2 : (((List.range n).map a).map (fun x => |val x|)).sum = ∑ i ∈ range n, |val (a i)| := by rw [List.map_map]; exact map_range_sum _ n
  have p : 1 ≤ (1 + Arith.u F) ^ c := one_le_pow₀ (by linarith)
  have hS : ∑ i ∈ range n, |val (a i)| ≤ ∑ i ∈ range n, (|x i| + e i) := sum_le_sum (fun i hi => near_abs (ha i (mem_range.mp hi)).2)
  obtain ⟨h1, h2⟩ := h (by
    intro z hz
    obtain ⟨i, hi, rfl⟩ := List.mem_map.mp hz
    exact (ha i (List.mem_range.mp hi)).1) (by
    rw [e2]
    exact (mul_le_mul_of_nonneg_left hS (by linarith)).trans htop)
  rw [e1, e2] at h2
  refine ⟨h1, ?_⟩
  have h3 : |∑ i ∈ range n, val (a i) - ∑ i ∈ range n, x i| ≤ ∑ i ∈ range n, e i := by
    rw [← sum_sub_distrib]
    exact (abs_sum_le_sum_abs _ _).trans (sum_le_sum (fun i hi => (ha i (mem_range.mp hi)).2))
  have h4 := abs_add_le (val y - ∑ i ∈ range n, val (a i)) (∑ i ∈ range n, val (a i) - ∑ i ∈ range n, x i)
  rw [sub_add_sub_cancel] at h4
  unfold roundings at h2 ⊢
  have h5 := mul_le_mul_of_nonneg_left hS (by linarith : 0 ≤ (1 + Arith.u F) ^ c - 1)
  linarith

end Verif.Fp
