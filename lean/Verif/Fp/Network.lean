import Verif.Fp.Props
import Verif.Loss.Dense
/-!
# C135: networks of dense layers computed with rounding

A network of dense layers and activations is evaluated with the operations of an arithmetic that rounds (`Arith`), for any matrix product whose
entries are accurate in the sense of C118.  The specification is the same network over the reals, and a bound for the distance that is computed
from the weights, the input and the constants of the arithmetic.
-/
namespace Verif.Fp
open Verif Res View Data Ops Graph Finset
open Verif.Tensor (bcIdx Compatible broadcastShape)

/-! ### the network -/

/-- A dense layer and its activation, if it has one: the numbers of the two variables and what they are made with. -/
structure Lay (α : Type) where
  w : Nat
  b : Nat
  cw : Cfg α
  cb : Cfg α
  act : Option (UOp α)

/-- An activation, or none. -/
def actOf {α : Type} (i : Nat) : Option (UOp α) → Ex α → Ex α
  | none, e => e
  | some op, e => .un i op e

/-- Layers one after the other, as in `act( Dense( n )( x ) )` (include/layer.hpp lines 235-245 and any element-wise activation, or none), with the
operators as parameters. -/
def mlpOf {α : Type} (mm pl : BOp α) : List (Lay α) → Nat → Ex α → Ex α
  | [], _, e => e
  | y :: ys, i, e => mlpOf mm pl ys (i + 3) (actOf (i + 2) y.act (.bin (i + 1) pl (.bin i mm e (.var y.w y.cw)) (.var y.b y.cb)))

/-- With the operators over the reals it is the network of C101. -/
theorem mlpOf_real (K : Loss.Kit) (ls : List Loss.Layer) (i : Nat) (e : Ex ℝ) : Loss.mlp K ls i e =
    mlpOf (opMatmul K.cacheF K.cacheB K.cacheB') (opPlus K.red K.fuel)
      (ls.map (fun y => ⟨y.w, y.b, y.cw, y.cb, y.act.map (fun op => opElem op K.cacheF K.cacheB)⟩)) i e := by
  induction ls generalizing i e with
  | nil => rfl
  | cons y ys ih =>
    rw [List.map_cons, Loss.mlp, mlpOf, ih]
    cases y.act <;> rfl

/-! ### the specification -/

/-- A layer over the reals: its weights, biases and activation; `out y e` bounds the error of the activation at `y` if its argument is wrong by `e`. -/
structure RLay where
  n : Nat
  W : Nat → Nat → ℝ
  B : Nat → ℝ
  g : ℝ → ℝ
  out : ℝ → ℝ → ℝ

/-- What the layer computes. -/
def RLay.app (y : RLay) (k : Nat) (x : Nat → ℝ) (j : Nat) : ℝ := y.g (∑ p ∈ range k, x p * y.W p j + y.B j)

/-- The sum of the absolute values of the products, for an input that may be wrong by `e`. -/
def RLay.mag (y : RLay) (k : Nat) (x e : Nat → ℝ) (j : Nat) : ℝ := ∑ p ∈ range k, (|x p| + e p) * |y.W p j|

/-- The error before the activation: that of the input, of the products and their sum, and of the last addition. -/
def RLay.pre (y : RLay) (u w : ℝ) (k : Nat) (x e : Nat → ℝ) (j : Nat) : ℝ :=
  ∑ p ∈ range k, e p * |y.W p j| + dotBound u w k (y.mag k x e j) + u * (y.mag k x e j + dotBound u w k (y.mag k x e j) + |y.B j|)

/-- The error of the layer. -/
def RLay.err (y : RLay) (u w : ℝ) (k : Nat) (x e : Nat → ℝ) (j : Nat) : ℝ := y.out (∑ p ∈ range k, x p * y.W p j + y.B j) (y.pre u w k x e j)

/-- The network over the reals. -/
def netR : List RLay → Nat → (Nat → ℝ) → Nat → ℝ
  | [], _, x => x
  | y :: ys, k, x => netR ys y.n (y.app k x)

/-- The number of its outputs. -/
def outs : List RLay → Nat → Nat
  | [], k => k
  | y :: ys, _ => outs ys y.n

/-- The bound for the error of the network. -/
def errs (u w : ℝ) : List RLay → Nat → (Nat → ℝ) → (Nat → ℝ) → Nat → ℝ
  | [], _, _, e => e
  | y :: ys, k, x, e => errs u w ys y.n (y.app k x) (y.err u w k x e)

/-- Far enough from overflow, in every layer. -/
def Calm (u w top : ℝ) : List RLay → Nat → (Nat → ℝ) → (Nat → ℝ) → Prop
  | [], _, _, _ => True
  | y :: ys, k, x, e => (∀ j, j < y.n → y.mag k x e j + dotBound u w k (y.mag k x e j) + |y.B j| ≤ top) ∧ Calm u w top ys y.n (y.app k x) (y.err u w k x e)

/-- Whole numbers, not too large, in every layer. -/
def Small (whole : ℝ) : List RLay → Nat → (Nat → ℝ) → Prop
  | [], _, _ => True
  | y :: ys, k, x => (∀ j, j < y.n → ∑ p ∈ range k, |x p| * |y.W p j| + |y.B j| < whole) ∧ Small whole ys y.n (y.app k x)

def Whole (x : ℝ) : Prop := ∃ k : ℤ, x = k

variable {F : Type} [Arith F]

/-- A function on `F` that computes `g` with an error of at most `out`, for arguments that are sums. -/
def Near (φ : F → F) (g : ℝ → ℝ) (out : ℝ → ℝ → ℝ) : Prop :=
  ∀ (a b : F) (y e : ℝ), fin (a + b) → |val (a + b) - y| ≤ e → fin (φ (a + b)) ∧ |val (φ (a + b)) - g y| ≤ out y e

/-- One that keeps whole numbers and is exact for them. -/
def Exact (φ : F → F) (g : ℝ → ℝ) : Prop := ∀ x : F, fin x → Whole (val x) → fin (φ x) ∧ val (φ x) = g (val x) ∧ Whole (g (val x))

/-- An operator that applies `φ` to every element; no activation is the identity. -/
def Applies (op : Option (UOp F)) (φ : F → F) : Prop :=
  match op with
  | none => φ = id
  | some op => ∀ (x : Ten F) (s : List Nat) (a : List Nat → F), x.Has s a → ∃ t, op.fwd x = ok t ∧ t.Has s (fun is => φ (a is))

/-- The layers of the program have the weights and activations of the specification, all finite; no extent is 0 or -1. -/
def Stands (D : Nat → Ten F) (P : (F → F) → RLay → Prop) : List (Lay F) → List RLay → Nat → Prop
  | [], [], _ => True
  | y :: ys, z :: zs, k => (∃ W B φ, (D y.w).Has [k, z.n] W ∧ (D y.b).Has [1, z.n] B ∧ Applies y.act φ ∧ P φ z ∧
      (∀ p j, p < k → j < z.n → fin (W [p, j]) ∧ val (W [p, j]) = z.W p j) ∧ (∀ j, j < z.n → fin (B [0, j]) ∧ val (B [0, j]) = z.B j)) ∧
      0 < z.n ∧ z.n ≠ minusOne ∧ Stands D P ys zs z.n
  | _, _, _ => False

/-- A matrix product that is accurate. -/
def AccurateProduct (mm : BOp F) : Prop := ∀ (l r : Ten F) (m k n : Nat) (a b : List Nat → F), l.Has [m, k] a → r.Has [k, n] b → 0 < m → 0 < k → 0 < n →
  ∃ t v, mm.fwd l r = ok t ∧ t.Has [m, n] v ∧ ∀ i j, i < m → j < n → Accurate (fun p => a [i, p]) (fun p => b [p, j]) k (v [i, j])

/-- That of the library is (C118). -/
theorem matmul_product (cache : Ten F) (bwd : Ten F → Ten F → Ten F → Ten F → Res (Ten F × Ten F)) : AccurateProduct (⟨matmul cache, bwd⟩ : BOp F) :=
  fun l r m k n a b hl hr hm hk hn => matmul_accurate cache l r m k n a b hl hr hm hk hn

/-! ### one layer -/

theorem dense_compatible (m n : Nat) : Compatible [m, n] [1, n] := by
  intro k
  match k with
  | 0 => exact Or.inl rfl
  | 1 => exact Or.inr (Or.inr rfl)
  | k + 2 => left; simp [Verif.Tensor.dimR]

theorem dense_shape {m n : Nat} : broadcastShape [m, n] [1, n] = ok [m, n] := by
  unfold Verif.Tensor.broadcastShape
  by_cases h : [m, n] = [1, n]
  · rw [if_pos h]
  · have h' : m ≠ 1 := fun e => h (by rw [e])
    rw [if_neg h]
    have d1 : Verif.Tensor.dimAt [m, n] 0 = ok n := rfl
    have d2 : Verif.Tensor.dimAt [1, n] 0 = ok n := rfl
    have d3 : Verif.Tensor.dimAt [m, n] 1 = ok m := rfl
    have d4 : Verif.Tensor.dimAt [1, n] 1 = ok 1 := rfl
    by_cases hn1 : n = 1
    · subst hn1; simp [loop, Verif.Tensor.broadcastDim, d1, d2, d3, d4, h']
    · simp [loop, Verif.Tensor.broadcastDim, d1, d2, d3, d4, h', hn1, assert_true]

/-- The value of one layer. -/
theorem layer_eval {L D : Nat → Ten F} {mm pl : BOp F} (hmm : AccurateProduct mm) (hpl : ∀ l r, pl.fwd l r = plusT l r) {e : Ex F} {t : Ten F} {m k n : Nat} {a W B : List Nat → F}
    {φ : F → F} {y : Lay F} (he : eval L D e = ok t) (ht : t.Has [m, k] a) (hm : 0 < m) (hk : 0 < k) (hn : 0 < n) (hn1 : n ≠ minusOne) (hw : (D y.w).Has [k, n] W)
    (hb : (D y.b).Has [1, n] B) (hφ : Applies y.act φ) (i : Nat) :
    ∃ (t' : Ten F) (v : List Nat → F), eval L D (actOf (i + 2) y.act (.bin (i + 1) pl (.bin i mm e (.var y.w y.cw)) (.var y.b y.cb))) = ok t' ∧
      t'.Has [m, n] (fun is => φ (v [is[0]?.getD 0, is[1]?.getD 0] + B [0, is[1]?.getD 0])) ∧
      ∀ r j, r < m → j < n → Accurate (fun p => a [r, p]) (fun p => W [p, j]) k (v [r, j]) := by
  obtain ⟨z, v, h1, h2, h3⟩ := hmm t (D y.w) m k n a W ht hw hm hk hn
  obtain ⟨c, u, q1, q2, q3⟩ := plusT_ok h2 hb (dense_compatible m n) (by simp [hn1]) (by simp [hn1])
  rw [dense_shape] at q1
  cases q1
  have q4 : u.Has [m, n] (fun is => v [is[0]?.getD 0, is[1]?.getD 0] + B [0, is[1]?.getD 0]) := by
    refine q3.congr (fun is hv => ?_)
    match is, hv with
    | [r, j], hv =>
      simp only [validIdx_cons] at hv
      rw [Loss.bc_self (s := [m, n]) (by simpa using hv)]
      congr 2
      simp only [bcIdx, List.length_cons, List.length_nil, Nat.sub_self, List.drop_zero, List.zipWith_cons_cons, List.zipWith_nil_left, if_true]
      by_cases hn : n = 1
      · rw [if_pos hn]
        have : j = 0 := by omega
        simp [this]
      · rw [if_neg hn]; rfl
  have he' : eval L D (.bin (i + 1) pl (.bin i mm e (.var y.w y.cw)) (.var y.b y.cb)) = ok u := by
    simp only [eval, he, bind_ok, h1, hpl, q2]
  match hact : y.act with
  | none =>
    rw [hact] at hφ
    cases hφ
    exact ⟨u, v, he', q4, h3⟩
  | some op =>
    rw [hact] at hφ
    obtain ⟨t', e1, e2⟩ := hφ u _ _ q4
    refine ⟨t', v, ?_, e2, h3⟩
    show eval L D (.un (i + 2) op _) = _
    rw [eval, he', bind_ok, e1]

theorem dotBound_nonneg {u w S : ℝ} {n : Nat} (hu : 0 ≤ u) (hw : 0 ≤ w) (hS : 0 ≤ S) : 0 ≤ dotBound u w n S := by
  unfold dotBound
  have : 1 ≤ (1 + u) ^ (n + 1) := one_le_pow₀ (by linarith)
  have h1 : 0 ≤ ((1 + u) ^ (n + 1) - 1) * S := mul_nonneg (by linarith) hS
  positivity

theorem dotBound_mono {u w S T : ℝ} {n : Nat} (hu : 0 ≤ u) (h : S ≤ T) : dotBound u w n S ≤ dotBound u w n T := by
  unfold dotBound
  have : 1 ≤ (1 + u) ^ (n + 1) := one_le_pow₀ (by linarith)
  have := mul_le_mul_of_nonneg_left h (sub_nonneg.mpr this)
  linarith

/-- One output of a layer, before the activation. -/
theorem neuron {k : Nat} {a W : Nat → F} {v B : F} {x e W' : Nat → ℝ} {b : ℝ} (ha : ∀ p, p < k → fin (a p) ∧ |val (a p) - x p| ≤ e p) (hW : ∀ p, p < k → fin (W p) ∧ val (W p) = W' p)
    (hB : fin B ∧ val B = b) (hv : Accurate a W k v)
    (htop : ∑ p ∈ range k, (|x p| + e p) * |W' p| + dotBound (Arith.u F) (Arith.w F) k (∑ p ∈ range k, (|x p| + e p) * |W' p|) + |b| ≤ Arith.top F) :
    fin (v + B) ∧ |val (v + B) - (∑ p ∈ range k, x p * W' p + b)| ≤ ∑ p ∈ range k, e p * |W' p| +
      dotBound (Arith.u F) (Arith.w F) k (∑ p ∈ range k, (|x p| + e p) * |W' p|) +
      Arith.u F * (∑ p ∈ range k, (|x p| + e p) * |W' p| + dotBound (Arith.u F) (Arith.w F) k (∑ p ∈ range k, (|x p| + e p) * |W' p|) + |b|) := by
  have hu := Arith.u_nonneg (F := F)
  have hw := Arith.w_nonneg (F := F)
  set S := ∑ p ∈ range k, (|x p| + e p) * |W' p| with hS
  have hab : ∑ p ∈ range k, |val (a p)| * |val (W p)| ≤ S := by
    refine sum_le_sum (fun p hp => ?_)
    have hp := mem_range.mp hp
    rw [(hW p hp).2]
    refine mul_le_mul_of_nonneg_right ?_ (abs_nonneg _)
    have h1 := (ha p hp).2
    have h2 := abs_add_le (val (a p) - x p) (x p)
    rw [sub_add_cancel] at h2
    linarith
  have hab0 : 0 ≤ ∑ p ∈ range k, |val (a p)| * |val (W p)| := sum_nonneg (fun p _ => mul_nonneg (abs_nonneg _) (abs_nonneg _))
  have hD := dotBound_mono (w := Arith.w F) (n := k) hu hab
  set D := dotBound (Arith.u F) (Arith.w F) k S
  obtain ⟨c1, c2, _⟩ := hv
  have hfv := c2 (fun p hp => ⟨(ha p hp).1, (hW p hp).1⟩) (by have := abs_nonneg b; linarith)
  have hev := (c1 hfv).2
  have hx : |∑ p ∈ range k, val (a p) * val (W p) - ∑ p ∈ range k, x p * W' p| ≤ ∑ p ∈ range k, e p * |W' p| := by
    rw [← sum_sub_distrib]
    refine (abs_sum_le_sum_abs _ _).trans (sum_le_sum (fun p hp => ?_))
    have hp := mem_range.mp hp
    rw [(hW p hp).2, ← sub_mul, abs_mul]
    exact mul_le_mul_of_nonneg_right (ha p hp).2 (abs_nonneg _)
  have hvS : |val v| ≤ S + D := by
    have h1 := abs_add_le (val v - ∑ p ∈ range k, val (a p) * val (W p)) (∑ p ∈ range k, val (a p) * val (W p))
    rw [sub_add_cancel] at h1
    have h2 : |∑ p ∈ range k, val (a p) * val (W p)| ≤ ∑ p ∈ range k, |val (a p)| * |val (W p)| :=
      (abs_sum_le_sum_abs _ _).trans (le_of_eq (sum_congr rfl (fun p _ => abs_mul _ _)))
    linarith
  have hsum : |val v + val B| ≤ S + D + |b| := by
    rw [hB.2]
    linarith [abs_add_le (val v) b]
  have hfin := Arith.add_fin v B hfv hB.1 (by linarith)
  refine ⟨hfin, ?_⟩
  have herr := (Arith.add_err v B hfin).2.2
  have h3 := mul_le_mul_of_nonneg_left hsum hu
  have : val (v + B) - (∑ p ∈ range k, x p * W' p + b) = (val (v + B) - (val v + val B)) + ((val v - ∑ p ∈ range k, val (a p) * val (W p)) +
      (∑ p ∈ range k, val (a p) * val (W p) - ∑ p ∈ range k, x p * W' p)) := by rw [hB.2]; ring
  rw [this]
  have h4 := abs_add_le (val (v + B) - (val v + val B)) ((val v - ∑ p ∈ range k, val (a p) * val (W p)) + (∑ p ∈ range k, val (a p) * val (W p) - ∑ p ∈ range k, x p * W' p))
  have h5 := abs_add_le (val v - ∑ p ∈ range k, val (a p) * val (W p)) (∑ p ∈ range k, val (a p) * val (W p) - ∑ p ∈ range k, x p * W' p)
  linarith

/-! ### networks -/

/-- C135: a network of any number of dense layers, computed with rounding, is within `errs` of the network over the reals. -/
theorem network_accurate {L D : Nat → Ten F} {mm pl : BOp F} (hmm : AccurateProduct mm) (hpl : ∀ l r, pl.fwd l r = plusT l r) (m : Nat) (hm : 0 < m) (ys : List (Lay F)) :
    ∀ (zs : List RLay) (k i : Nat) (ex : Ex F) (t : Ten F) (a : List Nat → F) (x e : Nat → Nat → ℝ), 0 < k → Stands D (fun φ z => Near φ z.g z.out) ys zs k →
      eval L D ex = ok t → t.Has [m, k] a → (∀ r p, r < m → p < k → fin (a [r, p]) ∧ |val (a [r, p]) - x r p| ≤ e r p) →
      (∀ r, r < m → Calm (Arith.u F) (Arith.w F) (Arith.top F) zs k (x r) (e r)) →
      ∃ t' v, eval L D (mlpOf mm pl ys i ex) = ok t' ∧ t'.Has [m, outs zs k] v ∧
        ∀ r j, r < m → j < outs zs k → fin (v [r, j]) ∧ |val (v [r, j]) - netR zs k (x r) j| ≤ errs (Arith.u F) (Arith.w F) zs k (x r) (e r) j := by
  induction ys with
  | nil =>
    intro zs k i ex t a x e hk hs he ht ha hc
    cases zs with
    | nil => exact ⟨t, a, he, ht, ha⟩
    | cons z zs => exact hs.elim
  | cons y ys ih =>
    intro zs k i ex t a x e hk hs he ht ha hc
    cases zs with
    | nil => exact hs.elim
    | cons z zs =>
      obtain ⟨⟨W, B, φ, hW, hB, hφ, hnear, fW, fB⟩, hn, hn1, hs⟩ := hs
      obtain ⟨t', v, h1, h2, h3⟩ := layer_eval hmm hpl he ht hm hk hn hn1 hW hB hφ i
      refine ih zs z.n (i + 3) _ t' _ (fun r => z.app k (x r)) (fun r => z.err (Arith.u F) (Arith.w F) k (x r) (e r)) hn hs h1 h2 (fun r j hr hj => ?_) (fun r hr => (hc r hr).2)
      obtain ⟨q1, q2⟩ := neuron (fun p hp => ha r p hr hp) (fun p hp => fW p j hp hj) (fB j hj) (h3 r j hr hj) ((hc r hr).1 j hj)
      exact hnear _ _ _ _ q1 q2

/-- C135: a network with whole weights, biases and inputs and activations that are exact on whole numbers is computed exactly, as long as the sums of
absolute values stay below the bound up to which whole numbers are exact (2^24 for `float`). -/
theorem whole_network_exact {L D : Nat → Ten F} {mm pl : BOp F} (hmm : AccurateProduct mm) (hpl : ∀ l r, pl.fwd l r = plusT l r) (m : Nat) (hm : 0 < m) (ys : List (Lay F)) :
    ∀ (zs : List RLay) (k i : Nat) (ex : Ex F) (t : Ten F) (a : List Nat → F) (x : Nat → Nat → ℝ), 0 < k →
      Stands D (fun φ z => Exact φ z.g ∧ (∀ p j, Whole (z.W p j)) ∧ ∀ j, Whole (z.B j)) ys zs k →
      eval L D ex = ok t → t.Has [m, k] a → (∀ r p, r < m → p < k → fin (a [r, p]) ∧ val (a [r, p]) = x r p ∧ Whole (x r p)) →
      (∀ r, r < m → Small (Arith.whole F) zs k (x r)) →
      ∃ t' v, eval L D (mlpOf mm pl ys i ex) = ok t' ∧ t'.Has [m, outs zs k] v ∧ ∀ r j, r < m → j < outs zs k → fin (v [r, j]) ∧ val (v [r, j]) = netR zs k (x r) j := by
  induction ys with
  | nil =>
    intro zs k i ex t a x hk hs he ht ha hc
    cases zs with
    | nil => exact ⟨t, a, he, ht, fun r j hr hj => ⟨(ha r j hr hj).1, (ha r j hr hj).2.1⟩⟩
    | cons z zs => exact hs.elim
  | cons y ys ih =>
    intro zs k i ex t a x hk hs he ht ha hc
    cases zs with
    | nil => exact hs.elim
    | cons z zs =>
      obtain ⟨⟨W, B, φ, hW, hB, hφ, ⟨hex, wW, wB⟩, fW, fB⟩, hn, hn1, hs⟩ := hs
      obtain ⟨t', v, h1, h2, h3⟩ := layer_eval hmm hpl he ht hm hk hn hn1 hW hB hφ i
      refine ih zs z.n (i + 3) _ t' _ (fun r => z.app k (x r)) hn hs h1 h2 (fun r j hr hj => ?_) (fun r hr => (hc r hr).2)
      obtain ⟨_, _, c3⟩ := h3 r j hr hj
      have hsm := (hc r hr).1 j hj
      have e1 : ∑ p ∈ range k, |val (a [r, p])| * |val (W [p, j])| = ∑ p ∈ range k, |x r p| * |z.W p j| :=
        sum_congr rfl (fun p hp => by rw [(ha r p hr (mem_range.mp hp)).2.1, (fW p j (mem_range.mp hp) hj).2])
      have e2 : ∑ p ∈ range k, val (a [r, p]) * val (W [p, j]) = ∑ p ∈ range k, x r p * z.W p j :=
        sum_congr rfl (fun p hp => by rw [(ha r p hr (mem_range.mp hp)).2.1, (fW p j (mem_range.mp hp) hj).2])
      obtain ⟨q1, q2⟩ := c3 (fun p hp => ⟨⟨(ha r p hr hp).1, (fW p j hp hj).1⟩, by rw [(ha r p hr hp).2.1]; exact (ha r p hr hp).2.2,
        by rw [(fW p j hp hj).2]; exact wW p j⟩) (by rw [e1]; have := abs_nonneg (z.B j); linarith)
      rw [e2] at q2
      have hint : Whole (∑ p ∈ range k, x r p * z.W p j) := by
        have : ∀ p, p < k → ∃ c : ℤ, x r p * z.W p j = c := by
          intro p hp
          obtain ⟨c, hc⟩ := (ha r p hr hp).2.2
          obtain ⟨d, hd⟩ := wW p j
          exact ⟨c * d, by rw [hc, hd]; push_cast; rfl⟩
        choose! c hc using this
        exact ⟨∑ p ∈ range k, c p, by push_cast; exact sum_congr rfl (fun p hp => hc p (mem_range.mp hp))⟩
      obtain ⟨c, hc'⟩ := hint
      obtain ⟨d, hd⟩ := wB j
      have habs : |∑ p ∈ range k, x r p * z.W p j| ≤ ∑ p ∈ range k, |x r p| * |z.W p j| :=
        (abs_sum_le_sum_abs _ _).trans (le_of_eq (sum_congr rfl (fun p _ => abs_mul _ _)))
      obtain ⟨s1, s2⟩ := Arith.add_exact (v [r, j]) (B [0, j]) q1 (fB j hj).1 ⟨c + d, by rw [q2, (fB j hj).2, hc', hd]; push_cast; rfl⟩ (by
        rw [q2, (fB j hj).2]
        exact lt_of_le_of_lt (abs_add_le _ _) (by linarith))
      rw [q2, (fB j hj).2] at s2
      obtain ⟨r1, r2, r3⟩ := hex (v [r, j] + B [0, j]) s1 ⟨c + d, by rw [s2, hc', hd]; push_cast; rfl⟩
      rw [s2] at r2 r3
      exact ⟨r1, r2, r3⟩

/-- C135: the bound in closed form, for inputs up to `X` wrong by `ε`, weights whose columns add up to at most `A`, and biases up to `β`: the error of the
input is multiplied by `A`, and the layer adds `((1 + u)^(k+2) - 1) (A (X + ε) + β)` and what products lose near zero. -/
theorem layer_error_le (y : RLay) (u w X ε A β : ℝ) (k j : Nat) (x e : Nat → ℝ) (hu : 0 ≤ u) (hx : ∀ p, p < k → |x p| ≤ X) (he : ∀ p, p < k → 0 ≤ e p ∧ e p ≤ ε)
    (hA : ∑ p ∈ range k, |y.W p j| ≤ A) (hβ : |y.B j| ≤ β) (hX : 0 ≤ X) (hε : 0 ≤ ε) :
    y.pre u w k x e j ≤ A * ε + ((1 + u) ^ (k + 2) - 1) * (A * (X + ε) + β) + k * (1 + u) ^ (k + 1) * w := by
  have hW0 : 0 ≤ ∑ p ∈ range k, |y.W p j| := sum_nonneg (fun p _ => abs_nonneg _)
  have hm : y.mag k x e j ≤ A * (X + ε) := by
    refine (sum_le_sum (g := fun p => (X + ε) * |y.W p j|) (fun p hp => ?_)).trans ?_
    · exact mul_le_mul_of_nonneg_right (by linarith [hx p (mem_range.mp hp), (he p (mem_range.mp hp)).2]) (abs_nonneg _)
    · rw [← mul_sum, mul_comm]
      exact mul_le_mul_of_nonneg_right hA (by linarith)
  have hm0 : 0 ≤ y.mag k x e j := sum_nonneg (fun p hp => mul_nonneg (by have := abs_nonneg (x p); linarith [(he p (mem_range.mp hp)).1]) (abs_nonneg _))
  have h1 : ∑ p ∈ range k, e p * |y.W p j| ≤ A * ε := by
    refine (sum_le_sum (g := fun p => ε * |y.W p j|) (fun p hp => mul_le_mul_of_nonneg_right (he p (mem_range.mp hp)).2 (abs_nonneg _))).trans ?_
    rw [← mul_sum, mul_comm]
    exact mul_le_mul_of_nonneg_right hA hε
  unfold RLay.pre dotBound
  set S := y.mag k x e j
  have g0 : 1 ≤ (1 + u) ^ (k + 1) := one_le_pow₀ (by linarith)
  have g1 : (1 + u) ^ (k + 2) = (1 + u) ^ (k + 1) * (1 + u) := pow_succ _ _
  have g2 : (1 + u) ^ (k + 1) = (1 + u) ^ k * (1 + u) := pow_succ _ _
  have g3 : 1 ≤ (1 + u) ^ (k + 2) := one_le_pow₀ (by linarith)
  have hu2 : u ≤ (1 + u) ^ (k + 2) - 1 := by
    rw [g1]
    nlinarith
  have k1 : ((1 + u) ^ (k + 1) - 1) * S + u * (S + ((1 + u) ^ (k + 1) - 1) * S) = ((1 + u) ^ (k + 2) - 1) * S := by rw [g1]; ring
  have k2 : ((1 + u) ^ (k + 2) - 1) * S ≤ ((1 + u) ^ (k + 2) - 1) * (A * (X + ε)) := mul_le_mul_of_nonneg_left hm (by linarith)
  have k3 : u * |y.B j| ≤ ((1 + u) ^ (k + 2) - 1) * β := mul_le_mul hu2 hβ (abs_nonneg _) (by linarith)
  have k4 : (k : ℝ) * (1 + u) ^ k * w + u * (k * (1 + u) ^ k * w) = k * (1 + u) ^ (k + 1) * w := by rw [g2]; ring
  nlinarith

end Verif.Fp
