import Verif.Fp.Optim
/-!
# A training step computed with rounding (C141)

Run, backward pass and update of a network of dense layers with a loss on top, with an arithmetic that rounds: the new weights are within a bound of those of a step
with the exact derivatives.
-/
namespace Verif.Fp
open Verif Res Verif.Finite Nan Graph Ops Finset

/-! ### the specification -/

/-- A statement for the weights and the biases of every layer: the variable, its extents, its values, its exact gradient, and the bound for the error of the stored
gradient (that of what arrives, and one more addition). -/
def Layers {F : Type} (P : Nat → Nat → Nat → (W G E : Nat → Nat → ℝ) → Prop) (u w : ℝ) (m : Nat) : List (Lay F) → List GLay → Nat → (x e δ ε : Nat → Nat → ℝ) → Prop
  | [], [], _, _, _, _, _ => True
  | y :: ys, z :: zs, k, x, e, δ, ε =>
    P y.w k z.n z.W (z.gradW zs m k x δ) (fun p j => addErr u (z.gradW zs m k x δ p j) (z.errW zs u w m k x e δ ε p j)) ∧
    P y.b 1 z.n (fun _ => z.B) (fun _ => z.gradB zs m k x δ) (fun _ j => addErr u (z.gradB zs m k x δ j) (z.errB zs u w m k x e δ ε j)) ∧
    Layers P u w m ys zs z.n (fun r => z.app k (x r)) (fun r => z.err u w k (x r) (e r)) δ ε
  | _, _, _, _, _, _, _ => False

/-- The error of `w - rate * gradient`, for a gradient within `E` of `G` and a rate within `ρ` of `η`. -/
def gdErr (u w η ρ W G E : ℝ) : ℝ := addErr u (W - η * G) (mulErr u w G E η ρ)

/-- The same for the new momentum `μ M - η G`; the momentum factor is within `κ` of `μ`. -/
def momErr (u w η ρ μ κ M G E : ℝ) : ℝ := addErr u (μ * M - η * G) (mulErr u w M 0 μ κ + mulErr u w η ρ G E)

/-- and for the new weight `W + (μ M' - η G)`, where `M' = μ M - η G`. -/
def sgdErr (u w η ρ μ κ W M G E : ℝ) : ℝ :=
  addErr u (W + (μ * (μ * M - η * G) - η * G))
    (addErr u (μ * (μ * M - η * G) - η * G) (mulErr u w μ κ (μ * M - η * G) (momErr u w η ρ μ κ M G E) + mulErr u w η ρ G E))

/-- No product or sum of the step is beyond the largest number. -/
def GdFits (u w top η ρ W G E : ℝ) : Prop := (|G| + E) * (|η| + ρ) ≤ top ∧ |W - η * G| + mulErr u w G E η ρ ≤ top

@[inherit_doc GdFits] def MomFits (u w top η ρ μ κ M G E : ℝ) : Prop :=
  |M| * (|μ| + κ) ≤ top ∧ (|η| + ρ) * (|G| + E) ≤ top ∧ |μ * M - η * G| + (mulErr u w M 0 μ κ + mulErr u w η ρ G E) ≤ top

@[inherit_doc GdFits] def SgdFits (u w top η ρ μ κ W M G E : ℝ) : Prop :=
  MomFits u w top η ρ μ κ M G E ∧ (|μ| + κ) * (|μ * M - η * G| + momErr u w η ρ μ κ M G E) ≤ top ∧
  |μ * (μ * M - η * G) - η * G| + (mulErr u w μ κ (μ * M - η * G) (momErr u w η ρ μ κ M G E) + mulErr u w η ρ G E) ≤ top ∧
  |W + (μ * (μ * M - η * G) - η * G)| +
    addErr u (μ * (μ * M - η * G) - η * G) (mulErr u w μ κ (μ * M - η * G) (momErr u w η ρ μ κ M G E) + mulErr u w η ρ G E) ≤ top

variable {F : Type} [Arith F]

/-- Differences are rounded too. -/
class RoundSub (F : Type) [Arith F] [Sub F] : Prop where
  sub_fin : ∀ a b : F, fin a → fin b → |val a - val b| ≤ Arith.top F → fin (a - b)
  sub_err : ∀ a b : F, fin (a - b) → |val (a - b) - (val a - val b)| ≤ Arith.u F * |val a - val b|

/-- A matrix of finite numbers that stand for `X`. -/
def Means (t : Ten F) (m n : Nat) (X : Nat → Nat → ℝ) : Prop := ∃ a, t.Has [m, n] a ∧ ∀ i j, i < m → j < n → fin (a [i, j]) ∧ val (a [i, j]) = X i j

/-- What sgd remembers of a variable: nothing, which counts as zeros, or a matrix. -/
def Remembers (c : List (Ten F)) (m n : Nat) (M : Nat → Nat → ℝ) : Prop :=
  (c = [] ∧ ∀ i j, i < m → j < n → M i j = 0) ∨ ∃ t rest, c = t :: rest ∧ Means t m n M

/-- What the loss does with predictions close to `Y`: it has a value, and sends the predictions a gradient close to `δ`. -/
def Head (L D : Nat → Ten F) (H : Ex F → Ex F) (g0 : Ten F) (m n : Nat) (Y EY δ ε : Nat → Nat → ℝ) : Prop :=
  ∀ (e : Ex F) (t : Ten F), eval L D e = ok t → Close t m n Y EY →
    ∃ y g, eval L D (H e) = ok y ∧ Close g m n δ ε ∧ ∀ sl, ∃ sl', arrivals L D (H e) sl g0 = arrivals L D e sl' g

/-! ### differences of the formats -/

instance (f : Fmt) : RoundSub (Num f) where
  sub_fin := by
    intro a b ha hb h
    obtain ⟨x, hx, rfl⟩ := Num.fin_iff.mp ha
    obtain ⟨y, hy, rfl⟩ := Num.fin_iff.mp hb
    have hn := (neg_near (f := f) (a := Num.num y hy) (x := val (Num.num y hy)) (e := 0) ⟨trivial, by simp⟩)
    have hv : val (Nan.neg (Num.num y hy)) = - val (Num.num y hy) := by
      have := hn.2
      have h0 := abs_nonneg (val (Nan.neg (Num.num y hy)) - - val (Num.num y hy))
      have : val (Nan.neg (Num.num y hy)) - - val (Num.num y hy) = 0 := abs_eq_zero.mp (le_antisymm this h0)
      linarith
    exact Arith.add_fin _ _ ha hn.1 (by rw [hv, ← sub_eq_add_neg]; exact h)
  sub_err := by
    intro a b h
    obtain ⟨ha, hb, he⟩ := Arith.add_err a (Nan.neg b) h
    have hb' : fin b := by
      cases b with
      | num y hy => trivial
      | inf s => exact hb.elim
      | nan => exact hb.elim
    have hn := (neg_near (f := f) (a := b) (x := val b) (e := 0) ⟨hb', by simp⟩)
    have hv : val (Nan.neg b) = - val b := by
      have := hn.2
      have h0 := abs_nonneg (val (Nan.neg b) - - val b)
      have : val (Nan.neg b) - - val b = 0 := abs_eq_zero.mp (le_antisymm this h0)
      linarith
    rw [hv, ← sub_eq_add_neg] at he
    exact he

theorem sub_near [Sub F] [RoundSub F] {a b : F} {x e y f : ℝ} (ha : fin a ∧ |val a - x| ≤ e) (hb : fin b ∧ |val b - y| ≤ f) (htop : |x - y| + (e + f) ≤ Arith.top F) :
    fin (a - b) ∧ |val (a - b) - (x - y)| ≤ addErr (Arith.u F) (x - y) (e + f) := by
  have h0 : |val a - val b - (x - y)| ≤ e + f := by
    rw [show val a - val b - (x - y) = (val a - x) - (val b - y) by ring]
    exact (abs_sub _ _).trans (add_le_add ha.2 hb.2)
  have h3 : |val a - val b| ≤ |x - y| + (e + f) := by
    have := abs_add_le (val a - val b - (x - y)) (x - y)
    rw [sub_add_cancel] at this
    linarith
  have hf := RoundSub.sub_fin a b ha.1 hb.1 (h3.trans htop)
  refine ⟨hf, ?_⟩
  have h4 := RoundSub.sub_err a b hf
  have h5 := mul_le_mul_of_nonneg_left h3 (Arith.u_nonneg (F := F))
  have h6 := abs_add_le (val (a - b) - (val a - val b)) (val a - val b - (x - y))
  rw [sub_add_sub_cancel] at h6
  unfold addErr
  linarith

/-! ### the rules -/

/-- C141: what `gradient_descent` does with a variable. -/
theorem gd_close [Sub F] [RoundSub F] {isNan : F → Bool} (hnan : ∀ x : F, fin x → isNan x = false) {lr : F} {η ρ : ℝ} (hlr : fin lr ∧ |val lr - η| ≤ ρ) {d g : Ten F} {k n : Nat} {W G E : Nat → Nat → ℝ} (c : List (Ten F))
    (hd : Means d k n W) (hg : Close g k n G E) (hfit : ∀ i j, i < k → j < n → GdFits (Arith.u F) (Arith.w F) (Arith.top F) η ρ (W i j) (G i j) (E i j)) :
    ∃ d', gdRuleF isNan lr d g c = ok (d', g, c) ∧
      Close d' k n (fun i j => W i j - η * G i j) (fun i j => gdErr (Arith.u F) (Arith.w F) η ρ (W i j) (G i j) (E i j)) := by
  obtain ⟨a, ha, hW⟩ := hd
  obtain ⟨γ, hγ, hG⟩ := hg
  have hl : (⟨g.shape, g.data.map (fun x => x * lr)⟩ : Ten F).Has [k, n] (fun is => γ is * lr) := by
    refine ⟨hγ.1, isT_of_pos (v := fun p => γ (unflat [k, n] p) * lr) (by simp [hγ.2.1]) (fun p hp => ?_) (fun is hv => by rw [unflat_flat hv])⟩
    simp [hγ.2.pos hp]
  obtain ⟨d', h1, h2⟩ := each2F_ok (f := fun x y : F => x - y) ha hl ha.2.1
  refine ⟨d', ?_, _, h2, fun i j hi hj => ?_⟩
  · unfold gdRuleF
    rw [assert_true (by
      intro x hx
      obtain ⟨p, hp, rfl⟩ := List.mem_iff_getElem.mp hx
      have hp' : p < size [k, n] := by rw [← hγ.2.1]; exact hp
      have h := hγ.2.pos hp'
      rw [List.getElem?_eq_getElem hp] at h
      rw [Option.some.inj h]
      obtain ⟨i, j, e, hi, hj⟩ : ∃ i j, unflat [k, n] p = [i, j] ∧ i < k ∧ j < n := by
        have hv := (unflat_spec hp').1
        match h : unflat [k, n] p, hv with
        | [i, j], hv => exact ⟨i, j, rfl, hv.1, hv.2.1⟩
      rw [e]
      exact hnan _ (hG i j hi hj).1), bind_ok]
    dsimp only
    rw [assert_true (by rw [ha.1, hγ.1]), bind_ok, h1, bind_ok]
    rfl
  · obtain ⟨f1, f2⟩ := hfit i j hi hj
    obtain ⟨w1, w2⟩ := hW i j hi hj
    have p1 := mul_near (F := F) (hG i j hi hj) hlr f1
    have p2 := sub_near (F := F) (x := W i j) (e := 0) ⟨w1, by rw [w2]; simp⟩ p1 (by rw [mul_comm (G i j), zero_add]; exact f2)
    rw [mul_comm (G i j), zero_add] at p2
    exact p2

omit [Arith F] in
theorem Means.zero [Arith F] {t : Ten F} {k n : Nat} {W : Nat → Nat → ℝ} (h : Means t k n W) {M : Nat → Nat → ℝ} (hM : ∀ i j, i < k → j < n → M i j = 0) : Means (zerosLikeF t) k n M := by
  obtain ⟨a, ha, _⟩ := h
  exact ⟨_, zerosLikeF_has ha, fun i j hi hj => ⟨Arith.fin_zero, by rw [Arith.val_zero, hM i j hi hj]⟩⟩

/-- C141: what `sgd` does with a variable. -/
theorem sgd_close [Sub F] [RoundSub F] {mom lr : F} {η ρ μ κ : ℝ} (hlr : fin lr ∧ |val lr - η| ≤ ρ) (hmom : fin mom ∧ |val mom - μ| ≤ κ) {d g : Ten F} {k n : Nat} {W G E M : Nat → Nat → ℝ} {c : List (Ten F)}
    (hd : Means d k n W) (hg : Close g k n G E) (hc : Remembers c k n M)
    (hfit : ∀ i j, i < k → j < n → SgdFits (Arith.u F) (Arith.w F) (Arith.top F) η ρ μ κ (W i j) (M i j) (G i j) (E i j)) :
    ∃ d' t rest, sgdRuleF mom lr false d g c = ok (d', g, t :: rest) ∧
      Close t k n (fun i j => μ * M i j - η * G i j) (fun i j => momErr (Arith.u F) (Arith.w F) η ρ μ κ (M i j) (G i j) (E i j)) ∧
      Close d' k n (fun i j => W i j + (μ * (μ * M i j - η * G i j) - η * G i j)) (fun i j => sgdErr (Arith.u F) (Arith.w F) η ρ μ κ (W i j) (M i j) (G i j) (E i j)) := by
  have hopen : ∃ t rest, (if c.isEmpty = true then [zerosLikeF d] else c) = t :: rest ∧ Means t k n M := by
    rcases hc with ⟨rfl, h⟩ | ⟨t, rest, rfl, h⟩
    · exact ⟨_, [], rfl, hd.zero h⟩
    · exact ⟨t, rest, rfl, h⟩
  obtain ⟨t, rest, h1, β, hβ, hM⟩ := hopen
  obtain ⟨a, ha, hW⟩ := hd
  obtain ⟨γ, hγ, hG⟩ := hg
  obtain ⟨t', h3, h4⟩ := each2F_ok (f := fun m g : F => m * mom - lr * g) hβ hγ hβ.2.1
  obtain ⟨d', h5, h6⟩ := each3F_ok (f := fun v m g : F => v + (mom * m - lr * g)) ha h4 hγ h4.2.1
  have hm : ∀ i j, i < k → j < n → fin (β [i, j] * mom - lr * γ [i, j]) ∧ |val (β [i, j] * mom - lr * γ [i, j]) - (μ * M i j - η * G i j)| ≤
      momErr (Arith.u F) (Arith.w F) η ρ μ κ (M i j) (G i j) (E i j) := by
    intro i j hi hj
    obtain ⟨⟨f1, f2, f3⟩, _⟩ := hfit i j hi hj
    obtain ⟨m1, m2⟩ := hM i j hi hj
    have p1 := mul_near (F := F) (x := M i j) (e := 0) ⟨m1, by rw [m2]; simp⟩ hmom (by rw [add_zero]; exact f1)
    have p2 := mul_near (F := F) hlr (hG i j hi hj) f2
    have p3 := sub_near (F := F) p1 p2 (by rw [mul_comm (M i j)]; exact f3)
    rw [mul_comm (M i j)] at p3
    exact p3
  refine ⟨d', t', rest, ?_, ⟨_, h4, hm⟩, _, h6, fun i j hi hj => ?_⟩
  · unfold sgdRuleF
    dsimp only
    rw [h1, Optim.rd_cons_zero, bind_ok, h3, bind_ok, Optim.wr_cons_zero, bind_ok, if_pos rfl, h5, bind_ok]
    rfl
  · obtain ⟨⟨f1, f2, f3⟩, f4, f5, f6⟩ := hfit i j hi hj
    obtain ⟨w1, w2⟩ := hW i j hi hj
    have p2 := mul_near (F := F) hlr (hG i j hi hj) f2
    have p4 := mul_near (F := F) hmom (hm i j hi hj) f4
    have p5 := sub_near (F := F) p4 p2 f5
    have p6 := add_near (F := F) (x := W i j) (e := 0) ⟨w1, by rw [w2]; simp⟩ p5 (by rw [zero_add]; exact f6)
    rw [zero_add] at p6
    exact p6

/-- C141: the same with `nesterov`: the new momentum is added. -/
theorem nesterov_close [Sub F] [RoundSub F] {mom lr : F} {η ρ μ κ : ℝ} (hlr : fin lr ∧ |val lr - η| ≤ ρ) (hmom : fin mom ∧ |val mom - μ| ≤ κ) {d g : Ten F} {k n : Nat} {W G E M : Nat → Nat → ℝ} {c : List (Ten F)}
    (hd : Means d k n W) (hg : Close g k n G E) (hc : Remembers c k n M)
    (hfit : ∀ i j, i < k → j < n → MomFits (Arith.u F) (Arith.w F) (Arith.top F) η ρ μ κ (M i j) (G i j) (E i j) ∧
      |W i j + (μ * M i j - η * G i j)| + momErr (Arith.u F) (Arith.w F) η ρ μ κ (M i j) (G i j) (E i j) ≤ Arith.top F) :
    ∃ d' t rest, sgdRuleF mom lr true d g c = ok (d', g, t :: rest) ∧
      Close t k n (fun i j => μ * M i j - η * G i j) (fun i j => momErr (Arith.u F) (Arith.w F) η ρ μ κ (M i j) (G i j) (E i j)) ∧
      Close d' k n (fun i j => W i j + (μ * M i j - η * G i j))
        (fun i j => addErr (Arith.u F) (W i j + (μ * M i j - η * G i j)) (momErr (Arith.u F) (Arith.w F) η ρ μ κ (M i j) (G i j) (E i j))) := by
  have hopen : ∃ t rest, (if c.isEmpty = true then [zerosLikeF d] else c) = t :: rest ∧ Means t k n M := by
    rcases hc with ⟨rfl, h⟩ | ⟨t, rest, rfl, h⟩
    · exact ⟨_, [], rfl, hd.zero h⟩
    · exact ⟨t, rest, rfl, h⟩
  obtain ⟨t, rest, h1, β, hβ, hM⟩ := hopen
  obtain ⟨a, ha, hW⟩ := hd
  obtain ⟨γ, hγ, hG⟩ := hg
  obtain ⟨t', h3, h4⟩ := each2F_ok (f := fun m g : F => m * mom - lr * g) hβ hγ hβ.2.1
  obtain ⟨d', h5, h6⟩ := each2F_ok (f := fun x y : F => x + y) ha h4 ha.2.1
  have hm : ∀ i j, i < k → j < n → fin (β [i, j] * mom - lr * γ [i, j]) ∧ |val (β [i, j] * mom - lr * γ [i, j]) - (μ * M i j - η * G i j)| ≤
      momErr (Arith.u F) (Arith.w F) η ρ μ κ (M i j) (G i j) (E i j) := by
    intro i j hi hj
    obtain ⟨⟨f1, f2, f3⟩, _⟩ := hfit i j hi hj
    obtain ⟨m1, m2⟩ := hM i j hi hj
    have p1 := mul_near (F := F) (x := M i j) (e := 0) ⟨m1, by rw [m2]; simp⟩ hmom (by rw [add_zero]; exact f1)
    have p2 := mul_near (F := F) hlr (hG i j hi hj) f2
    have p3 := sub_near (F := F) p1 p2 (by rw [mul_comm (M i j)]; exact f3)
    rw [mul_comm (M i j)] at p3
    exact p3
  refine ⟨d', t', rest, ?_, ⟨_, h4, hm⟩, _, h6, fun i j hi hj => ?_⟩
  · unfold sgdRuleF
    dsimp only
    rw [h1, Optim.rd_cons_zero, bind_ok, h3, bind_ok, Optim.wr_cons_zero, bind_ok, if_neg (by simp), assert_true (by rw [ha.1, h4.1]), bind_ok, h5, bind_ok]
    rfl
  · obtain ⟨w1, w2⟩ := hW i j hi hj
    have p6 := add_near (F := F) (x := W i j) (e := 0) ⟨w1, by rw [w2]; simp⟩ (hm i j hi hj) (by rw [zero_add]; exact (hfit i j hi hj).2)
    rw [zero_add] at p6
    exact p6

/-! ### all layers -/

section layers
variable {u w : ℝ} {m : Nat}

omit [Arith F] in
theorem layers_and {P Q : Nat → Nat → Nat → (W G E : Nat → Nat → ℝ) → Prop} (ys : List (Lay F)) : ∀ (zs : List GLay) (k : Nat) (x e δ ε : Nat → Nat → ℝ),
    Layers P u w m ys zs k x e δ ε → Layers Q u w m ys zs k x e δ ε → Layers (fun v k n W G E => P v k n W G E ∧ Q v k n W G E) u w m ys zs k x e δ ε := by
  induction ys with
  | nil => intro zs k x e δ ε h _; cases zs <;> exact h
  | cons y ys ih =>
    intro zs k x e δ ε h1 h2
    cases zs with
    | nil => exact h1
    | cons z zs => exact ⟨⟨h1.1, h2.1⟩, ⟨h1.2.1, h2.2.1⟩, ih zs _ _ _ _ _ h1.2.2 h2.2.2⟩

omit [Arith F] in
theorem layers_imp {P Q : Nat → Nat → Nat → (W G E : Nat → Nat → ℝ) → Prop} (ys : List (Lay F)) : ∀ (zs : List GLay) (k : Nat) (x e δ ε : Nat → Nat → ℝ),
    Layers P u w m ys zs k x e δ ε → (∀ v ∈ layVars ys, ∀ k n W G E, P v k n W G E → Q v k n W G E) → Layers Q u w m ys zs k x e δ ε := by
  induction ys with
  | nil => intro zs k x e δ ε h _; cases zs <;> exact h
  | cons y ys ih =>
    intro zs k x e δ ε h hi
    have hv : layVars (y :: ys) = y.w :: y.b :: layVars ys := rfl
    rw [hv] at hi
    cases zs with
    | nil => exact h
    | cons z zs => exact ⟨hi _ (by simp) _ _ _ _ _ h.1, hi _ (by simp) _ _ _ _ _ h.2.1, ih zs _ _ _ _ _ h.2.2 (fun v hv => hi v (by simp [hv]))⟩

omit [Arith F] in
theorem layers_var {P : Nat → Nat → Nat → (W G E : Nat → Nat → ℝ) → Prop} (ys : List (Lay F)) : ∀ (zs : List GLay) (k : Nat) (x e δ ε : Nat → Nat → ℝ),
    Layers P u w m ys zs k x e δ ε → ∀ v ∈ layVars ys, ∃ k n W G E, P v k n W G E := by
  induction ys with
  | nil => intro zs k x e δ ε _ v hv; simp [layVars] at hv
  | cons y ys ih =>
    intro zs k x e δ ε h v hv
    have hv' : v ∈ y.w :: y.b :: layVars ys := hv
    cases zs with
    | nil => exact h.elim
    | cons z zs =>
      rcases List.mem_cons.mp hv' with rfl | hv'
      · exact ⟨_, _, _, _, _, h.1⟩
      · rcases List.mem_cons.mp hv' with rfl | hv'
        · exact ⟨_, _, _, _, _, h.2.1⟩
        · exact ih zs _ _ _ _ _ h.2.2 v hv'

end layers

theorem stored_layers {G : Nat → Ten F} {m : Nat} (ys : List (Lay F)) : ∀ (zs : List GLay) (k : Nat) (x e δ ε : Nat → Nat → ℝ), Stored G m ys zs k x e δ ε →
    Layers (fun v k n _ X E => Close (G v) k n X E) (Arith.u F) (Arith.w F) m ys zs k x e δ ε := by
  induction ys with
  | nil => intro zs k x e δ ε h; cases zs <;> exact h
  | cons y ys ih =>
    intro zs k x e δ ε h
    cases zs with
    | nil => exact h
    | cons z zs => exact ⟨h.1, h.2.1, ih zs _ _ _ _ _ h.2.2⟩

theorem stands_layers {D : Nat → Ten F} {u w : ℝ} {m : Nat} (ys : List (Lay F)) : ∀ (zs : List GLay) (k : Nat) (x e δ ε : Nat → Nat → ℝ), StandsBack D ys zs k →
    Layers (fun v k n W _ _ => Means (D v) k n W) u w m ys zs k x e δ ε := by
  induction ys with
  | nil => intro zs k x e δ ε h; cases zs <;> exact h
  | cons y ys ih =>
    intro zs k x e δ ε h
    cases zs with
    | nil => exact h
    | cons z zs =>
      obtain ⟨⟨W, B, φ, ψ, hW, hB, _, _, _, _, fW, fB⟩, _, _, h⟩ := h
      refine ⟨⟨W, hW, fW⟩, ⟨B, hB, fun i j hi hj => ?_⟩, ih zs _ _ _ _ _ h⟩
      obtain rfl : i = 0 := by omega
      exact fB j hj

omit [Arith F] in
/-- The update of all layers, given what the rule does with each variable. -/
theorem update_layers [Zero F] {rule : RuleF F} {s : OStF F} {u w : ℝ} {m : Nat} {ys : List (Lay F)} {zs : List GLay} {k : Nat} {x e δ ε : Nat → Nat → ℝ}
    {Q : Nat → Nat → Nat → (W G E : Nat → Nat → ℝ) → Ten F → List (Ten F) → Prop}
    (h : Layers (fun v k n W G E => ∃ d c, rule (s.st.data v) (s.st.grad v) (s.ctx v) = ok (d, s.st.grad v, c) ∧ Q v k n W G E d c) u w m ys zs k x e δ ε)
    (hnd : (s.reg.map (·.1)).Nodup) (hreg : ∀ v, (v, true) ∈ s.reg ↔ v ∈ layVars ys) :
    ∃ s', updateAllF rule s = ok s' ∧ s'.reg = s.reg ∧ s'.st.leaf = s.st.leaf ∧ Layers (fun v k n W G E => Q v k n W G E (s'.st.data v) (s'.ctx v)) u w m ys zs k x e δ ε ∧
      (∀ v ∈ layVars ys, s'.st.grad v = resetF (s.st.grad v)) ∧ ∀ v, v ∉ layVars ys → s'.st.data v = s.st.data v ∧ s'.st.grad v = s.st.grad v ∧ s'.ctx v = s.ctx v := by
  classical
  have hall := layers_var ys zs k x e δ ε h
  have : ∀ v, ∃ R : Ten F × Ten F × List (Ten F), v ∈ layVars ys → rule (s.st.data v) (s.st.grad v) (s.ctx v) = ok R ∧ R.2.1 = s.st.grad v := by
    intro v
    by_cases hv : v ∈ layVars ys
    · obtain ⟨_, _, _, _, _, d, c, h1, _⟩ := hall v hv
      exact ⟨(d, s.st.grad v, c), fun _ => ⟨h1, rfl⟩⟩
    · exact ⟨(⟨[], []⟩, ⟨[], []⟩, []), fun h => absurd h hv⟩
  choose R hR using this
  obtain ⟨s', h1, h2, h3, h4, h5⟩ := updateAllF_ok rule s.reg s R hnd (fun v hv => (hR v ((hreg v).mp hv)).1)
  refine ⟨s', h1, h2, by rw [h3], layers_imp ys zs k x e δ ε h (fun v hv k n W G E hq => ?_), fun v hv => ?_, fun v hv => h5 v (fun hc => hv ((hreg v).mp hc))⟩
  · obtain ⟨d, c, q1, q2⟩ := hq
    obtain ⟨a1, _, a3⟩ := h4 v ((hreg v).mpr hv)
    have e1 := (hR v hv).1
    rw [q1] at e1
    have e1 := Res.ok.inj e1
    rw [a1, a3, ← e1]
    exact q2
  · obtain ⟨_, a2, _⟩ := h4 v ((hreg v).mpr hv)
    rw [a2, (hR v hv).2]

/-! ### the step -/

variable [One F] [Neg F] [LE F] [DecidableLE F]

/-- C141: a run of a network with a loss on top, and the backward pass from `g0`: the stored gradients are within the bounds of those for the gradient `δ` of the
loss. -/
theorem loss_gradients (eps : F) {mm pl : BOp F} (hmm : AccurateProduct mm) (hmb : AccurateBack mm) (hpl : ∀ l r, pl.fwd l r = plusT l r)
    {red : List F → F} {fuel : Nat} (hred : Data.Reduces (· + ·) red) (hpb : ∀ l r z g, pl.bwd l r z g = plusBack red fuel l.shape r.shape g) (m k q i : Nat) (hm : 0 < m) (hm1 : m ≠ Data.minusOne)
    (hk : 0 < k) (ys : List (Lay F)) (zs : List GLay) (s : St F) (htr : s.training = true) (hst : StandsBack s.data ys zs k) (a : List Nat → F) (x e δ ε : Nat → Nat → ℝ)
    (hx : (s.leaf q).Has [m, k] a) (ha : ∀ r p, r < m → p < k → fin (a [r, p]) ∧ |val (a [r, p]) - x r p| ≤ e r p)
    (hc : ∀ r, r < m → Calm (Arith.u F) (Arith.w F) (Arith.top F) (plain zs) k (x r) (e r))
    {H : Ex F → Ex F} {g0 : Ten F} (hH : Head s.leaf s.data H g0 m (outs (plain zs) k) (fun r => netR (plain zs) k (x r)) (fun r => errs (Arith.u F) (Arith.w F) (plain zs) k (x r) (e r)) δ ε)
    (hids : (ids (H (mlpOf mm pl ys i (.leaf q)))).Nodup) (hvars : ∀ v ∈ layVars ys, v ∈ vars (H (mlpOf mm pl ys i (.leaf q))))
    (hcb : CalmBack (Arith.u F) (Arith.w F) (Arith.top F) m zs k x e δ ε) (hnd : (layVars ys).Nodup)
    (hcfg : ∀ y ∈ ys, (y.cw.trainable = true ∧ ¬ eps ≤ y.cw.l1 ∧ ¬ eps ≤ y.cw.l2) ∧ y.cb.trainable = true ∧ ¬ eps ≤ y.cb.l1 ∧ ¬ eps ≤ y.cb.l2)
    (hG : ∀ v ∈ layVars ys, (s.grad v).shape = (s.data v).shape ∧ (s.grad v).data.length = size (s.data v).shape) :
    ∃ y s1 s2, run (H (mlpOf mm pl ys i (.leaf q))) s = ok (y, s1) ∧ backward eps (H (mlpOf mm pl ys i (.leaf q))) none g0 s1 = ok s2 ∧ s2.data = s.data ∧
      Stored s2.grad m ys zs k x e δ ε := by
  obtain ⟨hcons, hunsh⟩ := Loss.distinct_consistent hids
  have hleaf : eval s.leaf s.data (.leaf q) = ok (s.leaf q) := by
    unfold eval
    rw [assert_true (by
      intro h
      have := hx.2.1
      rw [h] at this
      simp at this
      omega)]
    rfl
  obtain ⟨y, v, y1, y2, y3⟩ := network_accurate (L := s.leaf) hmm hpl m hm ys (plain zs) k i (.leaf q) (s.leaf q) a x e hk (plain_stands ys zs k hst) hleaf hx ha hc
  obtain ⟨yl, g, l1, ⟨γ, hg, hγ⟩, l3⟩ := hH _ y y1 ⟨v, y2, y3⟩
  obtain ⟨s1, hrun⟩ := (run_fresh_partial _ hcons s).1 yl l1
  obtain ⟨gx, γx, l, b1, _, _, b4⟩ := network_back (L := s.leaf) hmm hmb hpl hred hpb m hm hm1 δ ε g γ ys zs k i (.leaf q) (s.leaf q) a x e hk hst hleaf hx ha hc hg hγ hcb
  obtain ⟨sl, l3⟩ := l3 none
  obtain ⟨sl', b1⟩ := b1 sl
  have harr : arrivals s.leaf s.data (H (mlpOf mm pl ys i (.leaf q))) none g0 = ok l := by
    rw [l3, b1]
    simp [arrivals]
  have hback := backward_arrivals_partial eps _ hcons hunsh s s1 yl g0 l hrun harr
  obtain ⟨z1, z2⟩ := run_zeroes hcons htr hrun
  obtain ⟨_, i1, _, _⟩ := forward_ok hcons (mem_occs_self _ none) (inv_start s) hrun
  have hdata : s1.data = s.data := i1.data
  obtain ⟨s2, t1, t2, _, t4⟩ := store_all eps ys zs k x e δ ε l s1 b4 (by rw [hdata]; exact hst) hcb hnd hcfg (fun v hv => by
    refine ⟨by rw [(z2 v).1, hdata]; exact (hG v hv).1, by rw [(z2 v).2, hdata]; exact (hG v hv).2, ?_⟩
    have hmem : v ∈ (varOccs (H (mlpOf mm pl ys i (.leaf q))) none).map (·.2) := by
      rw [varOccs_vars]
      exact hvars v hv
    obtain ⟨p, hp, rfl⟩ := List.mem_map.mp hmem
    exact (z1 p hp).1)
  exact ⟨yl, s1, s2, hrun, by rw [hback, t1], by rw [t2, hdata], t4⟩

/-- Everything a training step of a network of dense layers needs, apart from the optimizer: an accurate arithmetic, input and weights that are finite, a loss that
behaves for the predictions, no overflow, no regularizers, no variable used twice; the session knows the variables of the layers and trains no others. -/
structure TrainReady (eps : F) (mm pl : BOp F) (red : List F → F) (fuel m k q i : Nat) (ys : List (Lay F)) (zs : List GLay) (H : Ex F → Ex F) (g0 : Ten F) (x e δ ε : Nat → Nat → ℝ) (s : OStF F) : Prop where
  product : AccurateProduct mm
  product_back : AccurateBack mm
  plus : ∀ l r, pl.fwd l r = plusT l r
  reduces : Data.Reduces (· + ·) red
  plus_back : ∀ l r z g, pl.bwd l r z g = plusBack red fuel l.shape r.shape g
  rows : 0 < m ∧ m ≠ Data.minusOne
  inputs : 0 < k
  training : s.st.training = true
  stands : StandsBack s.st.data ys zs k
  input : Close (s.st.leaf q) m k x e
  calm : ∀ r, r < m → Calm (Arith.u F) (Arith.w F) (Arith.top F) (plain zs) k (x r) (e r)
  head : Head s.st.leaf s.st.data H g0 m (outs (plain zs) k) (fun r => netR (plain zs) k (x r)) (fun r => errs (Arith.u F) (Arith.w F) (plain zs) k (x r) (e r)) δ ε
  ids_distinct : (ids (H (mlpOf mm pl ys i (.leaf q)))).Nodup
  has_vars : ∀ v ∈ layVars ys, v ∈ vars (H (mlpOf mm pl ys i (.leaf q)))
  calm_back : CalmBack (Arith.u F) (Arith.w F) (Arith.top F) m zs k x e δ ε
  vars_distinct : (layVars ys).Nodup
  plain_vars : ∀ y ∈ ys, (y.cw.trainable = true ∧ ¬ eps ≤ y.cw.l1 ∧ ¬ eps ≤ y.cw.l2) ∧ y.cb.trainable = true ∧ ¬ eps ≤ y.cb.l1 ∧ ¬ eps ≤ y.cb.l2
  gradients : ∀ v ∈ layVars ys, (s.st.grad v).shape = (s.st.data v).shape ∧ (s.st.grad v).data.length = size (s.st.data v).shape
  reg_distinct : (s.reg.map (·.1)).Nodup
  registered : ∀ v, (v, true) ∈ s.reg ↔ v ∈ layVars ys

/-- The step for any rule, given what the rule does with values that are known and a gradient that is close. -/
theorem train_step {eps : F} {mm pl : BOp F} {red : List F → F} {fuel m k q i : Nat} {ys : List (Lay F)} {zs : List GLay} {H : Ex F → Ex F} {g0 : Ten F} {x e δ ε : Nat → Nat → ℝ} {s : OStF F}
    (hr : TrainReady eps mm pl red fuel m k q i ys zs H g0 x e δ ε s) {rule : RuleF F} {fits : Nat → Nat → Nat → (W G E : Nat → Nat → ℝ) → Prop}
    {Q : Nat → Nat → Nat → (W G E : Nat → Nat → ℝ) → Ten F → List (Ten F) → Prop} (hf : Layers fits (Arith.u F) (Arith.w F) m ys zs k x e δ ε)
    (hrule : ∀ v ∈ layVars ys, ∀ d g k n W G E, fits v k n W G E → Means d k n W → Close g k n G E → ∃ d' c', rule d g (s.ctx v) = ok (d', g, c') ∧ Q v k n W G E d' c') :
    ∃ y s', trainF eps (H (mlpOf mm pl ys i (.leaf q))) g0 rule s = ok (y, s') ∧ s'.reg = s.reg ∧
      Layers (fun v k n W G E => Q v k n W G E (s'.st.data v) (s'.ctx v)) (Arith.u F) (Arith.w F) m ys zs k x e δ ε ∧
      (∀ v ∈ layVars ys, ∃ sh, (s'.st.grad v).Has sh (fun _ => 0)) ∧ ∀ v, v ∉ layVars ys → s'.st.data v = s.st.data v ∧ s'.ctx v = s.ctx v := by
  obtain ⟨a, hx, ha⟩ := hr.input
  obtain ⟨y, s1, s2, h1, h2, h3, h4⟩ := loss_gradients eps hr.product hr.product_back hr.plus hr.reduces hr.plus_back m k q i hr.rows.1 hr.rows.2 hr.inputs ys zs s.st hr.training hr.stands
    a x e δ ε hx ha hr.calm hr.head hr.ids_distinct hr.has_vars hr.calm_back hr.vars_distinct hr.plain_vars hr.gradients
  have hl := layers_and ys zs k x e δ ε hf (layers_and ys zs k x e δ ε (stands_layers (D := s2.data) ys zs k x e δ ε (by rw [h3]; exact hr.stands)) (stored_layers ys zs k x e δ ε h4))
  have hl' := layers_imp ys zs k x e δ ε hl (Q := fun v k n W G E => ∃ d c, rule (s2.data v) (s2.grad v) (s.ctx v) = ok (d, s2.grad v, c) ∧ Q v k n W G E d c)
    (fun v hv k n W G E h => hrule v hv _ _ k n W G E h.1 h.2.1 h.2.2)
  obtain ⟨s', u1, u2, _, u4, u5, u6⟩ := update_layers (s := { s with st := s2 }) hl' hr.reg_distinct hr.registered
  refine ⟨y, s', ?_, u2, u4, fun v hv => ?_, fun v hv => ?_⟩
  · unfold trainF
    rw [h1, bind_ok]
    dsimp only
    rw [h2, bind_ok, u1, bind_ok]
    rfl
  · obtain ⟨k', n', _, _, _, b, hb, _⟩ := layers_var ys zs k x e δ ε (stored_layers ys zs k x e δ ε h4) v hv
    rw [u5 v hv]
    exact ⟨_, resetF_has hb⟩
  · obtain ⟨a1, _, a3⟩ := u6 v hv
    exact ⟨by rw [a1]; exact congrFun h3 v, a3⟩

variable [Sub F] [RoundSub F]

/-- C141: a step of `gradient_descent` computed with rounding: every weight and bias is within the bound of `w - η · derivative`; nothing else changes, and the
gradients are cleared. -/
theorem gd_step {eps : F} {mm pl : BOp F} {red : List F → F} {fuel m k q i : Nat} {ys : List (Lay F)} {zs : List GLay} {H : Ex F → Ex F} {g0 : Ten F} {x e δ ε : Nat → Nat → ℝ} {s : OStF F}
    (hr : TrainReady eps mm pl red fuel m k q i ys zs H g0 x e δ ε s) {isNan : F → Bool} (hnan : ∀ x : F, fin x → isNan x = false) {lr : F} {η ρ : ℝ} (hlr : fin lr ∧ |val lr - η| ≤ ρ)
    (hf : Layers (fun _ k n W G E => ∀ i j, i < k → j < n → GdFits (Arith.u F) (Arith.w F) (Arith.top F) η ρ (W i j) (G i j) (E i j)) (Arith.u F) (Arith.w F) m ys zs k x e δ ε) :
    ∃ y s', trainF eps (H (mlpOf mm pl ys i (.leaf q))) g0 (gdRuleF isNan lr) s = ok (y, s') ∧ s'.reg = s.reg ∧
      Layers (fun v k n W G E => Close (s'.st.data v) k n (fun i j => W i j - η * G i j) (fun i j => gdErr (Arith.u F) (Arith.w F) η ρ (W i j) (G i j) (E i j)) ∧ s'.ctx v = s.ctx v)
        (Arith.u F) (Arith.w F) m ys zs k x e δ ε ∧
      (∀ v ∈ layVars ys, ∃ sh, (s'.st.grad v).Has sh (fun _ => 0)) ∧ ∀ v, v ∉ layVars ys → s'.st.data v = s.st.data v ∧ s'.ctx v = s.ctx v :=
  train_step hr (Q := fun v k n W G E d c => Close d k n (fun i j => W i j - η * G i j) (fun i j => gdErr (Arith.u F) (Arith.w F) η ρ (W i j) (G i j) (E i j)) ∧ c = s.ctx v) hf
    (fun v _ d g k n W G E h1 h2 h3 => by
      obtain ⟨d', a1, a2⟩ := gd_close hnan hlr (s.ctx v) h2 h3 h1
      exact ⟨d', _, a1, a2, rfl⟩)

/-- C141: a step of `sgd` computed with rounding, with what it remembers of earlier steps. -/
theorem sgd_step {eps : F} {mm pl : BOp F} {red : List F → F} {fuel m k q i : Nat} {ys : List (Lay F)} {zs : List GLay} {H : Ex F → Ex F} {g0 : Ten F} {x e δ ε : Nat → Nat → ℝ} {s : OStF F}
    (hr : TrainReady eps mm pl red fuel m k q i ys zs H g0 x e δ ε s) {mom lr : F} {η ρ μ κ : ℝ} (hlr : fin lr ∧ |val lr - η| ≤ ρ) (hmom : fin mom ∧ |val mom - μ| ≤ κ) (M : Nat → Nat → Nat → ℝ)
    (hf : Layers (fun v k n W G E => Remembers (s.ctx v) k n (M v) ∧ ∀ i j, i < k → j < n → SgdFits (Arith.u F) (Arith.w F) (Arith.top F) η ρ μ κ (W i j) (M v i j) (G i j) (E i j))
      (Arith.u F) (Arith.w F) m ys zs k x e δ ε) :
    ∃ y s', trainF eps (H (mlpOf mm pl ys i (.leaf q))) g0 (sgdRuleF mom lr false) s = ok (y, s') ∧ s'.reg = s.reg ∧
      Layers (fun v k n W G E =>
        Close (s'.st.data v) k n (fun i j => W i j + (μ * (μ * M v i j - η * G i j) - η * G i j)) (fun i j => sgdErr (Arith.u F) (Arith.w F) η ρ μ κ (W i j) (M v i j) (G i j) (E i j)) ∧
        ∃ t rest, s'.ctx v = t :: rest ∧ Close t k n (fun i j => μ * M v i j - η * G i j) (fun i j => momErr (Arith.u F) (Arith.w F) η ρ μ κ (M v i j) (G i j) (E i j)))
        (Arith.u F) (Arith.w F) m ys zs k x e δ ε ∧
      (∀ v ∈ layVars ys, ∃ sh, (s'.st.grad v).Has sh (fun _ => 0)) ∧ ∀ v, v ∉ layVars ys → s'.st.data v = s.st.data v ∧ s'.ctx v = s.ctx v :=
  train_step hr (Q := fun v k n W G E d c =>
      Close d k n (fun i j => W i j + (μ * (μ * M v i j - η * G i j) - η * G i j)) (fun i j => sgdErr (Arith.u F) (Arith.w F) η ρ μ κ (W i j) (M v i j) (G i j) (E i j)) ∧
      ∃ t rest, c = t :: rest ∧ Close t k n (fun i j => μ * M v i j - η * G i j) (fun i j => momErr (Arith.u F) (Arith.w F) η ρ μ κ (M v i j) (G i j) (E i j))) hf
    (fun v _ d g k n W G E h1 h2 h3 => by
      obtain ⟨d', t, rest, a1, a2, a3⟩ := sgd_close hlr hmom h2 h3 h1.1 h1.2
      exact ⟨d', _, a1, a3, t, rest, rfl, a2⟩)

/-- C141: the same with `nesterov`. -/
theorem nesterov_step {eps : F} {mm pl : BOp F} {red : List F → F} {fuel m k q i : Nat} {ys : List (Lay F)} {zs : List GLay} {H : Ex F → Ex F} {g0 : Ten F} {x e δ ε : Nat → Nat → ℝ} {s : OStF F}
    (hr : TrainReady eps mm pl red fuel m k q i ys zs H g0 x e δ ε s) {mom lr : F} {η ρ μ κ : ℝ} (hlr : fin lr ∧ |val lr - η| ≤ ρ) (hmom : fin mom ∧ |val mom - μ| ≤ κ) (M : Nat → Nat → Nat → ℝ)
    (hf : Layers (fun v k n W G E => Remembers (s.ctx v) k n (M v) ∧ ∀ i j, i < k → j < n → MomFits (Arith.u F) (Arith.w F) (Arith.top F) η ρ μ κ (M v i j) (G i j) (E i j) ∧
      |W i j + (μ * M v i j - η * G i j)| + momErr (Arith.u F) (Arith.w F) η ρ μ κ (M v i j) (G i j) (E i j) ≤ Arith.top F) (Arith.u F) (Arith.w F) m ys zs k x e δ ε) :
    ∃ y s', trainF eps (H (mlpOf mm pl ys i (.leaf q))) g0 (sgdRuleF mom lr true) s = ok (y, s') ∧ s'.reg = s.reg ∧
      Layers (fun v k n W G E =>
        Close (s'.st.data v) k n (fun i j => W i j + (μ * M v i j - η * G i j))
          (fun i j => addErr (Arith.u F) (W i j + (μ * M v i j - η * G i j)) (momErr (Arith.u F) (Arith.w F) η ρ μ κ (M v i j) (G i j) (E i j))) ∧
        ∃ t rest, s'.ctx v = t :: rest ∧ Close t k n (fun i j => μ * M v i j - η * G i j) (fun i j => momErr (Arith.u F) (Arith.w F) η ρ μ κ (M v i j) (G i j) (E i j)))
        (Arith.u F) (Arith.w F) m ys zs k x e δ ε ∧
      (∀ v ∈ layVars ys, ∃ sh, (s'.st.grad v).Has sh (fun _ => 0)) ∧ ∀ v, v ∉ layVars ys → s'.st.data v = s.st.data v ∧ s'.ctx v = s.ctx v :=
  train_step hr (Q := fun v k n W G E d c =>
      Close d k n (fun i j => W i j + (μ * M v i j - η * G i j))
        (fun i j => addErr (Arith.u F) (W i j + (μ * M v i j - η * G i j)) (momErr (Arith.u F) (Arith.w F) η ρ μ κ (M v i j) (G i j) (E i j))) ∧
      ∃ t rest, c = t :: rest ∧ Close t k n (fun i j => μ * M v i j - η * G i j) (fun i j => momErr (Arith.u F) (Arith.w F) η ρ μ κ (M v i j) (G i j) (E i j))) hf
    (fun v _ d g k n W G E h1 h2 h3 => by
      obtain ⟨d', t, rest, a1, a2, a3⟩ := nesterov_close hlr hmom h2 h3 h1.1 h1.2
      exact ⟨d', _, a1, a3, t, rest, rfl, a2⟩)

/-! ### an example: the layer of C136, the optimizers start with the gradient 1 of the outputs -/

/-- The layer of the example of C136 and an optimizer with nothing remembered. -/
def exO : OStF (Num float32) := ⟨exSt, fun _ => [], [(0, true), (1, true)]⟩

theorem exOnes : (⟨[1, 1], [ofInt 1]⟩ : Ten (Num float32)).Has [1, 1] (fun _ => ofInt 1) := by
  refine ⟨rfl, rfl, ?_⟩
  intro is hv
  match is, hv with
  | [0, 0], _ => rfl
  | [n + 1, _], hv => exact absurd hv.1 (by omega)
  | [_, n + 1], hv => exact absurd hv.2.1 (by show ¬ n + 1 < 1; omega)

theorem exReady : TrainReady (1 : Num float32) exMM exPL exRed 0 1 2 0 0 [exYB] [exZB] id ⟨[1, 1], [ofInt 1]⟩ (fun _ p => if p = 0 then 3 else 4) (fun _ _ => 0) (fun _ _ => 1) (fun _ _ => 0) exO := by
  have hu := float32_constants.1
  have hw := float32_constants.2.1
  have ht := float32_constants.2.2.1
  refine ⟨matmul_product _ _, matmul_back _ _ _, fun _ _ => rfl, exReduces, fun _ _ _ _ => rfl, ⟨by norm_num, by decide⟩, by norm_num, rfl, exStandsB, ⟨_, exInput.2, ?_⟩, ?_, ?_, by decide, ?_, ?_, by decide, ?_, ?_, by decide, ?_⟩
  · intro r p hr hp
    have hr : r = 0 := by omega
    subst hr
    match p, hp with
    | 0, _ => exact ⟨ofInt_fin _, by simp [ofInt_val]⟩
    | 1, _ => exact ⟨ofInt_fin _, by simp [ofInt_val]⟩
  · intro r hr
    refine ⟨fun j _ => ?_, trivial⟩
    rw [ht, hu, hw]
    simp [exZB, exZ, RLay.mag, dotBound, Finset.sum_range_succ]
    norm_num
  · intro e t he hc
    exact ⟨t, _, he, ⟨_, exOnes, fun r j _ _ => ⟨ofInt_fin _, by simp [ofInt_val]⟩⟩, fun sl => ⟨sl, rfl⟩⟩
  · intro v hv
    have hv : v = 0 ∨ v = 1 := by simpa [layVars, exYB] using hv
    rcases hv with rfl | rfl <;> decide
  · rw [ht, hu, hw]
    refine ⟨fun r j hr hj => ⟨?_, ?_⟩, fun r p hr hp => ?_, fun p j hp hj => ?_, fun j hj => ?_, trivial⟩
    · show _ < _ ∧ _ ≤ _
      rw [ht]
      simp [exZB, exZ, GLay.sum, RLay.pre, RLay.mag, dotBound, gradIn, errIn, Finset.sum_range_succ]
      norm_num
    · simp [prodSize, GLay.delta, GLay.lerr, GLay.derr, roundings, hu, hw, exZB, exZ, GLay.sum, RLay.pre, RLay.mag, dotBound, gradIn, errIn, Finset.sum_range_succ]
      norm_num
    · rcases (by omega : p = 0 ∨ p = 1) with rfl | rfl
      · simp [prodSize, GLay.delta, GLay.lerr, GLay.derr, roundings, hu, hw, exZB, exZ, GLay.sum, RLay.pre, RLay.mag, dotBound, gradIn, errIn, Finset.sum_range_succ]
        norm_num
      · simp [prodSize, GLay.delta, GLay.lerr, GLay.derr, roundings, hu, hw, exZB, exZ, GLay.sum, RLay.pre, RLay.mag, dotBound, gradIn, errIn, Finset.sum_range_succ]
        norm_num
    · rcases (by omega : p = 0 ∨ p = 1) with rfl | rfl
      · simp [prodSize, GLay.delta, GLay.lerr, GLay.derr, roundings, hu, hw, exZB, exZ, GLay.sum, RLay.pre, RLay.mag, dotBound, gradIn, errIn, Finset.sum_range_succ]
        norm_num
      · simp [prodSize, GLay.delta, GLay.lerr, GLay.derr, roundings, hu, hw, exZB, exZ, GLay.sum, RLay.pre, RLay.mag, dotBound, gradIn, errIn, Finset.sum_range_succ]
        norm_num
    · simp [prodSize, GLay.delta, GLay.lerr, GLay.derr, roundings, hu, hw, exZB, exZ, GLay.sum, RLay.pre, RLay.mag, dotBound, gradIn, errIn, Finset.sum_range_succ]
      norm_num
  · intro y hy
    obtain rfl : y = exYB := by simpa using hy
    exact ⟨⟨rfl, exOne, exOne⟩, rfl, exOne, exOne⟩
  · intro v hv
    have hv : v = 0 ∨ v = 1 := by simpa [layVars, exYB] using hv
    rcases hv with rfl | rfl
    · exact ⟨rfl, rfl⟩
    · exact ⟨rfl, rfl⟩
  · intro v
    simp [exO, layVars, exYB]

/-- `std::isnan` of the numbers of a format. -/
def exNan : Num float32 → Bool := fun a => match a with | .num _ _ => false | _ => true

/-- The gradients of the example, and small bounds for their errors. -/
theorem exGrads : exZB.gradW [] 1 2 (fun _ p => if p = 0 then 3 else 4) (fun _ _ => 1) 0 0 = 3 ∧ exZB.gradW [] 1 2 (fun _ p => if p = 0 then 3 else 4) (fun _ _ => 1) 1 0 = 4 ∧
    exZB.gradB [] 1 2 (fun _ p => if p = 0 then 3 else 4) (fun _ _ => 1) 0 = 1 := by
  refine ⟨?_, ?_, ?_⟩ <;>
  simp [GLay.gradW, GLay.gradB, GLay.delta, gradIn, exZB, GLay.sum, exZ, Finset.sum_range_succ] <;> norm_num

/-- A step of `gradient_descent` with rate 1: the weights 2, -1 and 1 become -1, -5 and 0, within a thousandth. -/
example : ∃ y s' a b, trainF 1 (mlpOf exMM exPL [exYB] 0 (.leaf 0)) ⟨[1, 1], [ofInt 1]⟩ (gdRuleF exNan (ofInt 1)) exO = ok (y, s') ∧
    (s'.st.data 0).Has [2, 1] a ∧ |val (a [0, 0]) - -1| ≤ 1 / 1000 ∧ |val (a [1, 0]) - -5| ≤ 1 / 1000 ∧ (s'.st.data 1).Has [1, 1] b ∧ |val (b [0, 0]) - 0| ≤ 1 / 1000 := by
  have hu := float32_constants.1
  have hw := float32_constants.2.1
  have ht := float32_constants.2.2.1
  obtain ⟨g1, g2, g3⟩ := exGrads
  obtain ⟨y, s', h1, _, h3, _⟩ := gd_step exReady (isNan := exNan) (fun x hx => by
      obtain ⟨q, hq, rfl⟩ := Num.fin_iff.mp hx
      rfl) (lr := ofInt 1) (η := 1) (ρ := 0) ⟨ofInt_fin _, by simp [ofInt_val]⟩ (by
      refine ⟨fun p j hp hj => ?_, fun p j hp hj => ?_, trivial⟩
      · have hj : j = 0 := by have : j < 1 := hj; omega
        subst hj
        unfold GdFits
        rcases (by omega : p = 0 ∨ p = 1) with rfl | rfl
        · dsimp only
          rw [g1, ht]
          simp [mulErr, addErr, GLay.errW, GLay.gradW, GLay.delta, GLay.lerr, GLay.derr, prodErr, roundings, gradIn, errIn, hu, hw, exZB, GLay.sum, RLay.pre, RLay.mag, dotBound, exZ, Finset.sum_range_succ]
          norm_num
        · dsimp only
          rw [g2, ht]
          simp [mulErr, addErr, GLay.errW, GLay.gradW, GLay.delta, GLay.lerr, GLay.derr, prodErr, roundings, gradIn, errIn, hu, hw, exZB, GLay.sum, RLay.pre, RLay.mag, dotBound, exZ, Finset.sum_range_succ]
          norm_num
      · have hj : j = 0 := by have : j < 1 := hj; omega
        subst hj
        unfold GdFits
        dsimp only
        rw [g3, ht]
        simp [mulErr, addErr, GLay.errB, GLay.gradB, GLay.delta, GLay.lerr, GLay.derr, prodErr, roundings, gradIn, errIn, hu, hw, exZB, GLay.sum, RLay.pre, RLay.mag, dotBound, exZ, Finset.sum_range_succ]
        norm_num)
  obtain ⟨⟨⟨a, a1, a2⟩, _⟩, ⟨⟨b, b1, b2⟩, _⟩, _⟩ := h3
  refine ⟨y, s', a, b, h1, a1, ?_, ?_, b1, ?_⟩
  · have := (a2 0 0 (by norm_num) (by show 0 < 1; norm_num)).2
    dsimp only at this
    rw [g1] at this
    simp [gdErr, mulErr, addErr, GLay.errW, GLay.gradW, GLay.delta, GLay.lerr, GLay.derr, prodErr, roundings, gradIn, errIn, hu, hw, exZB, GLay.sum, RLay.pre, RLay.mag, dotBound, exZ, Finset.sum_range_succ] at this
    norm_num at this
    rw [sub_neg_eq_add]
    exact this.trans (by norm_num)
  · have := (a2 1 0 (by norm_num) (by show 0 < 1; norm_num)).2
    dsimp only at this
    rw [g2] at this
    simp [gdErr, mulErr, addErr, GLay.errW, GLay.gradW, GLay.delta, GLay.lerr, GLay.derr, prodErr, roundings, gradIn, errIn, hu, hw, exZB, GLay.sum, RLay.pre, RLay.mag, dotBound, exZ, Finset.sum_range_succ] at this
    norm_num at this
    rw [sub_neg_eq_add]
    exact this.trans (by norm_num)
  · have := (b2 0 0 (by norm_num) (by show 0 < 1; norm_num)).2
    dsimp only at this
    rw [g3] at this
    simp [gdErr, mulErr, addErr, GLay.errB, GLay.gradB, GLay.delta, GLay.lerr, GLay.derr, prodErr, roundings, gradIn, errIn, hu, hw, exZB, GLay.sum, RLay.pre, RLay.mag, dotBound, exZ, Finset.sum_range_succ] at this
    norm_num at this
    rw [sub_zero]
    exact this.trans (by norm_num)

/-- A step of `sgd` with rate 1 and momentum 2, without `nesterov`: the momentum of the first weight becomes -3, and the weight 2 + (2 (-3) - 3) = -7. -/
example : ∃ y s' a, trainF 1 (mlpOf exMM exPL [exYB] 0 (.leaf 0)) ⟨[1, 1], [ofInt 1]⟩ (sgdRuleF (ofInt 2) (ofInt 1) false) exO = ok (y, s') ∧
    (s'.st.data 0).Has [2, 1] a ∧ |val (a [0, 0]) - -7| ≤ 1 / 1000 := by
  have hu := float32_constants.1
  have hw := float32_constants.2.1
  have ht := float32_constants.2.2.1
  obtain ⟨g1, g2, g3⟩ := exGrads
  obtain ⟨y, s', h1, _, h3, _⟩ := sgd_step exReady (mom := ofInt 2) (lr := ofInt 1) (η := 1) (ρ := 0) (μ := 2) (κ := 0) ⟨ofInt_fin _, by simp [ofInt_val]⟩ ⟨ofInt_fin _, by simp [ofInt_val]⟩ (fun _ _ _ => 0) (by
      refine ⟨⟨.inl ⟨rfl, fun _ _ _ _ => rfl⟩, fun p j hp hj => ?_⟩, ⟨.inl ⟨rfl, fun _ _ _ _ => rfl⟩, fun p j hp hj => ?_⟩, trivial⟩
      · have hj : j = 0 := by have : j < 1 := hj; omega
        subst hj
        unfold SgdFits MomFits
        rcases (by omega : p = 0 ∨ p = 1) with rfl | rfl
        · dsimp only
          rw [g1, ht]
          simp [momErr, mulErr, addErr, GLay.errW, GLay.gradW, GLay.delta, GLay.lerr, GLay.derr, prodErr, roundings, gradIn, errIn, hu, hw, exZB, GLay.sum, RLay.pre, RLay.mag, dotBound, exZ, Finset.sum_range_succ]
          norm_num
        · dsimp only
          rw [g2, ht]
          simp [momErr, mulErr, addErr, GLay.errW, GLay.gradW, GLay.delta, GLay.lerr, GLay.derr, prodErr, roundings, gradIn, errIn, hu, hw, exZB, GLay.sum, RLay.pre, RLay.mag, dotBound, exZ, Finset.sum_range_succ]
          norm_num
      · have hj : j = 0 := by have : j < 1 := hj; omega
        subst hj
        unfold SgdFits MomFits
        dsimp only
        rw [g3, ht]
        simp [momErr, mulErr, addErr, GLay.errB, GLay.gradB, GLay.delta, GLay.lerr, GLay.derr, prodErr, roundings, gradIn, errIn, hu, hw, exZB, GLay.sum, RLay.pre, RLay.mag, dotBound, exZ, Finset.sum_range_succ]
        norm_num)
  obtain ⟨⟨⟨a, a1, a2⟩, _⟩, _⟩ := h3
  refine ⟨y, s', a, h1, a1, ?_⟩
  have := (a2 0 0 (by norm_num) (by show 0 < 1; norm_num)).2
  dsimp only at this
  rw [g1] at this
  simp [sgdErr, momErr, mulErr, addErr, GLay.errW, GLay.gradW, GLay.delta, GLay.lerr, GLay.derr, prodErr, roundings, gradIn, errIn, hu, hw, exZB, GLay.sum, RLay.pre, RLay.mag, dotBound, exZ, Finset.sum_range_succ] at this
  norm_num at this
  rw [sub_neg_eq_add]
  exact this.trans (by norm_num)

end Verif.Fp
