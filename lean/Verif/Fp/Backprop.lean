import Verif.Fp.Gradient
/-!
# C136: what arrives at the variables
-/
namespace Verif.Fp
open Verif Res View Data Ops Graph Finset
open Verif.Tensor (bcIdx Compatible broadcastShape)

variable {F : Type} [Arith F]

/-! ### back through the addition -/

/-- One sum over an axis of extent 1 or of the rows. -/
theorem axis0 {red : List F → F} (hred : Reduces (· + ·) red) {g : Ten F} {m n : Nat} {γ : List Nat → F} (hg : g.Has [m, n] γ) (hm : 0 < m) (hn : 0 < n) (hn1 : n ≠ minusOne) :
    ∃ u v, reduce red g 0 0 true = ok u ∧ u.Has [1, n] v ∧ ∀ j, j < n → SumTo ((List.range m).map (fun i => γ [i, j])) (v [0, j]) m := by
  have hne : g.data ≠ [] := by
    intro h
    have := hg.2.1
    rw [h] at this
    have h0 : 0 < size [m, n] := by simpa using Nat.mul_pos hm hn
    simp at this
    simp at h0
    omega
  obtain ⟨u, v, h1, h2, h3⟩ := reduce_accurate red hred g [] [n] m 0 γ true hg hne (Or.inl ⟨rfl, by decide⟩) (Or.inl rfl) (by simp [hn1])
  refine ⟨u, v, h1, by simpa using h2, fun j hj => ?_⟩
  have := h3 [] [j] trivial ⟨hj, trivial⟩
  simp only [List.nil_append, if_true] at this
  have h4 := sumTo_of this
  simpa using h4

theorem axis1 {red : List F → F} (hred : Reduces (· + ·) red) {g : Ten F} {m : Nat} {γ : List Nat → F} (hg : g.Has [m, 1] γ) (hm : 0 < m) (hm1 : m ≠ minusOne) :
    ∃ u v, reduce red g 1 0 true = ok u ∧ u.Has [m, 1] v ∧ ∀ i, i < m → SumTo [γ [i, 0]] (v [i, 0]) 1 := by
  have hne : g.data ≠ [] := by
    intro h
    have := hg.2.1
    rw [h] at this
    simp at this
    omega
  obtain ⟨u, v, h1, h2, h3⟩ := reduce_accurate red hred g [m] [] 1 1 γ true (by simpa using hg) hne (Or.inl ⟨rfl, by decide⟩) (Or.inl rfl) (by simp [hm1])
  refine ⟨u, v, h1, by simpa using h2, fun i hi => ?_⟩
  have := h3 [i] [] ⟨hi, trivial⟩ trivial
  simp only [List.singleton_append, if_true] at this
  have h4 := sumTo_of this
  simpa using h4

theorem sumOnes_two (red : List F → F) (a b : Nat) (g : Ten F) : sumOnes red [a, b] g =
    (if a = 1 then reduce red g 0 0 true else ok g) >>= fun u => if b = 1 then reduce red u 1 0 true else ok u := rfl

theorem dropLead_same (red : List F → F) (fuel : Nat) {s : List Nat} {rank : Nat} {g : Ten F} (hs : g.shape = s) (h : s.length = rank) : dropLead red rank fuel g = ok g := by
  cases fuel <;> (unfold dropLead; rw [if_neg (by rw [hs, h]; omega)])

theorem second {red : List F → F} (hred : Reduces (· + ·) red) {g : Ten F} {m n : Nat} {γ : List Nat → F} (hg : g.Has [m, n] γ) (hm : 0 < m) (hm1 : m ≠ minusOne) :
    ∃ u v, (if n = 1 then reduce red g 1 0 true else ok g) = ok u ∧ u.Has [m, n] v ∧ ∀ r j, r < m → j < n → SumTo [γ [r, j]] (v [r, j]) 1 := by
  by_cases h : n = 1
  · subst h
    obtain ⟨u, v, h1, h2, h3⟩ := axis1 hred hg hm hm1
    refine ⟨u, v, by rw [if_pos rfl, h1], h2, fun r j hr hj => ?_⟩
    obtain rfl : j = 0 := by omega
    exact h3 r hr
  · exact ⟨g, γ, if_neg h, hg, fun r j _ _ => sumTo_mono (sumTo_self _) (Nat.zero_le _)⟩

/-- The gradient for the left operand of the addition of a layer: at most two roundings (the code sums over axes of extent 1 even if the gradient has extent 1 there). -/
theorem plus_left {red : List F → F} (hred : Reduces (· + ·) red) (fuel : Nat) {g : Ten F} {m n : Nat} {γ : List Nat → F} (hg : g.Has [m, n] γ) (hm : 0 < m) (hm1 : m ≠ minusOne)
    (hn : 0 < n) (hn1 : n ≠ minusOne) :
    ∃ u v, plusGrad red fuel [m, n] g = ok u ∧ u.Has [m, n] v ∧ ∀ r j, r < m → j < n → SumTo [γ [r, j]] (v [r, j]) 2 := by
  unfold plusGrad
  rw [dropLead_same red fuel hg.1 rfl, bind_ok, sumOnes_two]
  by_cases h : m = 1
  · subst h
    obtain ⟨u, v, h1, h2, h3⟩ := axis0 hred hg hm hn hn1
    obtain ⟨u', v', k1, k2, k3⟩ := second hred h2 hm hm1
    refine ⟨u', v', by rw [if_pos rfl, h1, bind_ok, k1], k2, fun r j hr hj => ?_⟩
    obtain rfl : r = 0 := by omega
    exact sumTo_trans (h3 j hj) (k3 0 j hr hj)
  · obtain ⟨u', v', k1, k2, k3⟩ := second hred hg hm hm1
    exact ⟨u', v', by rw [if_neg h, bind_ok, k1], k2, fun r j hr hj => sumTo_mono (k3 r j hr hj) (by omega)⟩

/-- The gradient for the biases: a sum over the rows. -/
theorem plus_right {red : List F → F} (hred : Reduces (· + ·) red) (fuel : Nat) {g : Ten F} {m n : Nat} {γ : List Nat → F} (hg : g.Has [m, n] γ) (hm : 0 < m)
    (hn : 0 < n) (hn1 : n ≠ minusOne) :
    ∃ u v, plusGrad red fuel [1, n] g = ok u ∧ u.Has [1, n] v ∧ ∀ j, j < n → SumTo ((List.range m).map (fun r => γ [r, j])) (v [0, j]) (m + 1) := by
  unfold plusGrad
  rw [dropLead_same (rank := [1, n].length) red fuel hg.1 rfl, bind_ok, sumOnes_two, if_pos rfl]
  obtain ⟨u, v, h1, h2, h3⟩ := axis0 hred hg hm hn hn1
  obtain ⟨u', v', k1, k2, k3⟩ := second hred h2 (by omega) (by decide)
  exact ⟨u', v', by rw [h1, bind_ok, k1], k2, fun j hj => sumTo_trans (h3 j hj) (k3 0 j (by omega) hj)⟩

/-! ### one layer -/

/-- A matrix product whose gradients are accurate. -/
def AccurateBack (mm : BOp F) : Prop := ∀ (l r z g : Ten F) (m k n : Nat) (a b γ : List Nat → F), l.Has [m, k] a → r.Has [k, n] b → g.Has [m, n] γ →
  ∃ dl dr δl δr, mm.bwd l r z g = ok (dl, dr) ∧ dl.Has [m, k] δl ∧ dr.Has [k, n] δr ∧
    (∀ i p, i < m → p < k → Accurate (fun j => γ [i, j]) (fun j => b [p, j]) n (δl [i, p])) ∧
    ∀ p j, p < k → j < n → Accurate (fun i => a [i, p]) (fun i => γ [i, j]) m (δr [p, j])

/-- That of the library is (C118). -/
theorem matmul_back (cacheL cacheR : Ten F) (fwd : Ten F → Ten F → Res (Ten F)) : AccurateBack (⟨fwd, fun l r _ g => matmulBack cacheL cacheR l r g⟩ : BOp F) :=
  fun l r _ g m k n a b γ hl hr hg => matmul_back_accurate cacheL cacheR l r g m k n a b γ hl hr hg

/-- An operator whose backward action applies `ψ` to every element of the input, the output and the gradient; without activation the gradient is passed on. -/
def AppliesBack (op : Option (UOp F)) (ψ : F → F → F → F) : Prop :=
  match op with
  | none => ψ = fun _ _ c => c
  | some op => ∀ (x y g : Ten F) (s : List Nat) (a b c : List Nat → F), x.Has s a → y.Has s b → g.Has s c →
      ∃ t, op.bwd x y g = ok t ∧ t.Has s (fun is => ψ (a is) (b is) (c is))

/-- A function on `F` that computes the gradient of an activation, for arguments that are sums. -/
def NearBack (φ : F → F) (ψ : F → F → F → F) (z : GLay) : Prop := ∀ (a b c : F) (y e δ ε : ℝ), fin (a + b) → |val (a + b) - y| ≤ e → fin c → |val c - δ| ≤ ε → z.dom y e δ ε →
  fin (ψ (a + b) (φ (a + b)) c) ∧ |val (ψ (a + b) (φ (a + b)) c) - δ * z.dg y| ≤ z.back y e δ ε

/-- What a layer sends back: to its input, its weights and its biases. -/
theorem layer_back {L D : Nat → Ten F} {mm pl : BOp F} (hmm : AccurateProduct mm) (hmb : AccurateBack mm) (hpl : ∀ l r, pl.fwd l r = plusT l r) {red : List F → F} {fuel : Nat}
    (hred : Reduces (· + ·) red) (hpb : ∀ l r z g, pl.bwd l r z g = plusBack red fuel l.shape r.shape g) {e : Ex F} {t g : Ten F} {m k n : Nat} {a W B γ : List Nat → F}
    {φ : F → F} {ψ : F → F → F → F} {y : Lay F} (he : eval L D e = ok t) (ht : t.Has [m, k] a) (hm : 0 < m) (hm1 : m ≠ minusOne) (hk : 0 < k) (hn : 0 < n) (hn1 : n ≠ minusOne)
    (hw : (D y.w).Has [k, n] W) (hb : (D y.b).Has [1, n] B) (hφ : Applies y.act φ) (hψ : AppliesBack y.act ψ) (hg : g.Has [m, n] γ) (i : Nat) :
    ∃ (t' : Ten F) (v : List Nat → F) (gl gx gw gb : Ten F) (c γl γx γw γb : List Nat → F),
      eval L D (actOf (i + 2) y.act (.bin (i + 1) pl (.bin i mm e (.var y.w y.cw)) (.var y.b y.cb))) = ok t' ∧
      t'.Has [m, n] (fun is => φ (v [is[0]?.getD 0, is[1]?.getD 0] + B [0, is[1]?.getD 0])) ∧
      (∀ r j, r < m → j < n → Accurate (fun p => a [r, p]) (fun p => W [p, j]) k (v [r, j])) ∧
      (∀ sl, arrivals L D (actOf (i + 2) y.act (.bin (i + 1) pl (.bin i mm e (.var y.w y.cw)) (.var y.b y.cb))) sl g =
        arrivals L D e (some (i, false)) gx >>= fun l => ok (l ++ [⟨y.w, y.cw, some (i, true), gw⟩, ⟨y.b, y.cb, some (i + 1, true), gb⟩])) ∧
      gl.Has [m, n] γl ∧ gx.Has [m, k] γx ∧ gw.Has [k, n] γw ∧ gb.Has [1, n] γb ∧
      (∀ r j, r < m → j < n → c [r, j] = ψ (v [r, j] + B [0, j]) (φ (v [r, j] + B [0, j])) (γ [r, j])) ∧
      (∀ r j, r < m → j < n → SumTo [c [r, j]] (γl [r, j]) 2) ∧
      (∀ j, j < n → SumTo ((List.range m).map (fun r => c [r, j])) (γb [0, j]) (m + 1)) ∧
      (∀ r p, r < m → p < k → Accurate (fun j => γl [r, j]) (fun j => W [p, j]) n (γx [r, p])) ∧
      ∀ p j, p < k → j < n → Accurate (fun r => a [r, p]) (fun r => γl [r, j]) m (γw [p, j]) := by
  obtain ⟨z, v, h1, h2, h3⟩ := hmm t (D y.w) m k n a W ht hw hm hk hn
  obtain ⟨s, u, q1, q2, q3⟩ := plusT_ok h2 hb (dense_compatible m n) (by simp [hn1]) (by simp [hn1])
  rw [dense_shape] at q1
  cases q1
  have q4 : u.Has [m, n] (fun is => v [is[0]?.getD 0, is[1]?.getD 0] + B [0, is[1]?.getD 0]) := by
    refine q3.congr (fun is hv => ?_)
    match is, hv with
    | [r, j], hv =>
      simp only [validIdx_cons] at hv
      rw [Loss.bc_self (s := [m, n]) (by simpa using hv)]
      congr 2
      simp only [bcIdx, List.length_cons, List.length_nil, Nat.sub_self, List.drop_zero, List.zipWith_cons_cons, List.zipWith_nil_left, if_true]
      by_cases hn : n = 1
      · rw [if_pos hn]
        have : j = 0 := by omega
        simp [this]
      · rw [if_neg hn]; rfl
  have he' : eval L D (.bin (i + 1) pl (.bin i mm e (.var y.w y.cw)) (.var y.b y.cb)) = ok u := by
    simp only [eval, he, bind_ok, h1, hpl, q2]
  -- through the addition and the product
  have key : ∀ (g' : Ten F) (c : List Nat → F), g'.Has [m, n] c → ∃ (gl gx gw gb : Ten F) (γl γx γw γb : List Nat → F),
      (∀ sl, arrivals L D (.bin (i + 1) pl (.bin i mm e (.var y.w y.cw)) (.var y.b y.cb)) sl g' =
        arrivals L D e (some (i, false)) gx >>= fun l => ok (l ++ [⟨y.w, y.cw, some (i, true), gw⟩, ⟨y.b, y.cb, some (i + 1, true), gb⟩])) ∧
      gl.Has [m, n] γl ∧ gx.Has [m, k] γx ∧ gw.Has [k, n] γw ∧ gb.Has [1, n] γb ∧
      (∀ r j, r < m → j < n → SumTo [c [r, j]] (γl [r, j]) 2) ∧
      (∀ j, j < n → SumTo ((List.range m).map (fun r => c [r, j])) (γb [0, j]) (m + 1)) ∧
      (∀ r p, r < m → p < k → Accurate (fun j => γl [r, j]) (fun j => W [p, j]) n (γx [r, p])) ∧
      ∀ p j, p < k → j < n → Accurate (fun r => a [r, p]) (fun r => γl [r, j]) m (γw [p, j]) := by
    intro g' c hc
    obtain ⟨gl, γl, l1, l2, l3⟩ := plus_left hred fuel hc hm hm1 hn hn1
    obtain ⟨gb, γb, b1, b2, b3⟩ := plus_right hred fuel hc hm hn hn1
    obtain ⟨gx, gw, γx, γw, x1, x2, x3, x4, x5⟩ := hmb t (D y.w) z gl m k n a W γl ht hw l2
    refine ⟨gl, gx, gw, gb, γl, γx, γw, γb, fun sl => ?_, l2, x2, x3, b2, l3, b3, x4, x5⟩
    have e2 : pl.bwd z (D y.b) u g' = ok (gl, gb) := by
      rw [hpb, h2.1, hb.1]
      unfold plusBack
      rw [l1, bind_ok, b1]
      rfl
    simp only [arrivals, he, eval, bind_ok, hpl, q2, e2, h1, x1]
    cases arrivals L D e (some (i, false)) gx with
    | ok l => simp only [bind_ok, pure_eq, List.append_assoc, List.cons_append, List.nil_append]
    | abort => rfl
    | ub => rfl
  match hact : y.act with
  | none =>
    rw [hact] at hφ hψ
    cases hφ
    cases hψ
    obtain ⟨gl, gx, gw, gb, γl, γx, γw, γb, k1, k2, k3, k4, k5, k6, k7, k8, k9⟩ := key g γ hg
    exact ⟨u, v, gl, gx, gw, gb, γ, γl, γx, γw, γb, he', q4, h3, k1, k2, k3, k4, k5, fun _ _ _ _ => rfl, k6, k7, k8, k9⟩
  | some op =>
    rw [hact] at hφ hψ
    obtain ⟨t', e1, e2⟩ := hφ u _ _ q4
    obtain ⟨g', d1, d2⟩ := hψ u t' g _ _ _ _ q4 e2 hg
    obtain ⟨gl, gx, gw, gb, γl, γx, γw, γb, k1, k2, k3, k4, k5, k6, k7, k8, k9⟩ := key g' _ d2
    refine ⟨t', v, gl, gx, gw, gb, (fun is => ψ (v [is[0]?.getD 0, is[1]?.getD 0] + B [0, is[1]?.getD 0]) (φ (v [is[0]?.getD 0, is[1]?.getD 0] + B [0, is[1]?.getD 0])) (γ is)), γl, γx, γw, γb, ?_, e2, h3, ?_, k2, k3, k4, k5, fun _ _ _ _ => rfl, k6, k7, k8, k9⟩
    · show eval L D (.un (i + 2) op _) = _
      rw [eval, he', bind_ok, e1]
    · intro sl
      show arrivals L D (.un (i + 2) op _) sl g = _
      rw [arrivals, he', bind_ok, e1, bind_ok, d1, bind_ok, k1]

/-! ### networks -/

/-- The layers of the program have the weights, activations and derivatives of the specification, all finite; no extent is 0 or -1. -/
def StandsBack (D : Nat → Ten F) : List (Lay F) → List GLay → Nat → Prop
  | [], [], _ => True
  | y :: ys, z :: zs, k => (∃ W B φ ψ, (D y.w).Has [k, z.n] W ∧ (D y.b).Has [1, z.n] B ∧ Applies y.act φ ∧ AppliesBack y.act ψ ∧ Near φ z.g z.out ∧ NearBack φ ψ z ∧
      (∀ p j, p < k → j < z.n → fin (W [p, j]) ∧ val (W [p, j]) = z.W p j) ∧ (∀ j, j < z.n → fin (B [0, j]) ∧ val (B [0, j]) = z.B j)) ∧
      0 < z.n ∧ z.n ≠ minusOne ∧ StandsBack D ys zs z.n
  | _, _, _ => False

/-- A matrix of finite numbers within `E` of `X`. -/
def Close (t : Ten F) (m n : Nat) (X E : Nat → Nat → ℝ) : Prop := ∃ a, t.Has [m, n] a ∧ ∀ i j, i < m → j < n → fin (a [i, j]) ∧ |val (a [i, j]) - X i j| ≤ E i j

/-- What arrives at the weights and the biases of every layer. -/
def Sent (m : Nat) : List (Lay F) → List GLay → Nat → (x e δ ε : Nat → Nat → ℝ) → List (Arrival F) → Prop
  | [], [], _, _, _, _, _, [] => True
  | y :: ys, z :: zs, k, x, e, δ, ε, a :: b :: l =>
    (a.v = y.w ∧ a.cfg = y.cw ∧ Close a.inc k z.n (z.gradW zs m k x δ) (z.errW zs (Arith.u F) (Arith.w F) m k x e δ ε)) ∧
    (b.v = y.b ∧ b.cfg = y.cb ∧ Close b.inc 1 z.n (fun _ => z.gradB zs m k x δ) (fun _ => z.errB zs (Arith.u F) (Arith.w F) m k x e δ ε)) ∧
    Sent m ys zs z.n (fun r => z.app k (x r)) (fun r => z.err (Arith.u F) (Arith.w F) k (x r) (e r)) δ ε l
  | _, _, _, _, _, _, _, _ => False

/-- C136: backpropagation through a network of any number of dense layers, computed with rounding: what arrives at the weights, the biases and the input is within the
bounds of the derivatives. -/
theorem network_back {L D : Nat → Ten F} {mm pl : BOp F} (hmm : AccurateProduct mm) (hmb : AccurateBack mm) (hpl : ∀ l r, pl.fwd l r = plusT l r) {red : List F → F} {fuel : Nat}
    (hred : Reduces (· + ·) red) (hpb : ∀ l r z g, pl.bwd l r z g = plusBack red fuel l.shape r.shape g) (m : Nat) (hm : 0 < m) (hm1 : m ≠ minusOne) (δ ε : Nat → Nat → ℝ) (g : Ten F)
    (γ : List Nat → F) (ys : List (Lay F)) :
    ∀ (zs : List GLay) (k i : Nat) (ex : Ex F) (t : Ten F) (a : List Nat → F) (x e : Nat → Nat → ℝ), 0 < k → StandsBack D ys zs k →
      eval L D ex = ok t → t.Has [m, k] a → (∀ r p, r < m → p < k → fin (a [r, p]) ∧ |val (a [r, p]) - x r p| ≤ e r p) →
      (∀ r, r < m → Calm (Arith.u F) (Arith.w F) (Arith.top F) (plain zs) k (x r) (e r)) →
      g.Has [m, outs (plain zs) k] γ → (∀ r j, r < m → j < outs (plain zs) k → fin (γ [r, j]) ∧ |val (γ [r, j]) - δ r j| ≤ ε r j) →
      CalmBack (Arith.u F) (Arith.w F) (Arith.top F) m zs k x e δ ε →
      ∃ (gx : Ten F) (γx : List Nat → F) (l : List (Arrival F)),
        (∀ sl, ∃ sl', arrivals L D (mlpOf mm pl ys i ex) sl g = arrivals L D ex sl' gx >>= fun l' => ok (l' ++ l)) ∧ gx.Has [m, k] γx ∧
        (∀ r p, r < m → p < k → fin (γx [r, p]) ∧ |val (γx [r, p]) - gradIn zs k (x r) (δ r) p| ≤ errIn (Arith.u F) (Arith.w F) zs k (x r) (e r) (δ r) (ε r) p) ∧
        Sent m ys zs k x e δ ε l := by
  induction ys with
  | nil =>
    intro zs k i ex t a x e hk hs he ht ha hc hg hγ hcb
    cases zs with
    | nil =>
      refine ⟨g, γ, [], fun sl => ⟨sl, ?_⟩, hg, hγ, trivial⟩
      show arrivals L D ex sl g = _
      cases arrivals L D ex sl g <;> simp
    | cons z zs => exact hs.elim
  | cons y ys ih =>
    intro zs k i ex t a x e hk hs he ht ha hc hg hγ hcb
    cases zs with
    | nil => exact hs.elim
    | cons z zs =>
      obtain ⟨⟨W, B, φ, ψ, hW, hB, hφ, hψ, hnear, hback, fW, fB⟩, hn, hn1, hs⟩ := hs
      obtain ⟨c1, c2, c3, c4, c5⟩ := hcb
      obtain ⟨t', v, h1, h2, h3⟩ := layer_eval hmm hpl he ht hm hk hn hn1 hW hB hφ i
      have hsum : ∀ r j, r < m → j < z.n → fin (v [r, j] + B [0, j]) ∧ |val (v [r, j] + B [0, j]) - z.sum k (x r) j| ≤ z.pre (Arith.u F) (Arith.w F) k (x r) (e r) j :=
        fun r j hr hj => neuron (fun p hp => ha r p hr hp) (fun p hp => fW p j hp hj) (fB j hj) (h3 r j hr hj) ((hc r hr).1 j hj)
      obtain ⟨gx, γx, l, k1, k2, k3, k4⟩ := ih zs z.n (i + 3) _ t' _ (fun r => z.app k (x r)) (fun r => z.err (Arith.u F) (Arith.w F) k (x r) (e r)) hn hs h1 h2
        (fun r j hr hj => by
          obtain ⟨q1, q2⟩ := hsum r j hr hj
          exact hnear _ _ _ _ q1 q2) (fun r hr => (hc r hr).2) hg hγ c5
      obtain ⟨t2, v2, gl, gx', gw, gb, c, γl, γx', γw, γb, e1, e2, e3, e4, e5, e6, e7, e8, e9, e10, e11, e12, e13⟩ :=
        layer_back hmm hmb hpl hred hpb he ht hm hm1 hk hn hn1 hW hB hφ hψ k2 i
      have hsum2 : ∀ r j, r < m → j < z.n → fin (v2 [r, j] + B [0, j]) ∧ |val (v2 [r, j] + B [0, j]) - z.sum k (x r) j| ≤ z.pre (Arith.u F) (Arith.w F) k (x r) (e r) j :=
        fun r j hr hj => neuron (fun p hp => ha r p hr hp) (fun p hp => fW p j hp hj) (fB j hj) (e3 r j hr hj) ((hc r hr).1 j hj)
      have hcd : ∀ r j, r < m → j < z.n → fin (c [r, j]) ∧ |val (c [r, j]) - z.delta zs k (x r) (δ r) j| ≤ z.derr zs (Arith.u F) (Arith.w F) k (x r) (e r) (δ r) (ε r) j := by
        intro r j hr hj
        rw [e9 r j hr hj]
        exact hback _ _ _ _ _ _ _ (hsum2 r j hr hj).1 (hsum2 r j hr hj).2 (k3 r j hr hj).1 (k3 r j hr hj).2 (c1 r j hr hj).1
      have hl : ∀ r j, r < m → j < z.n → fin (γl [r, j]) ∧ |val (γl [r, j]) - z.delta zs k (x r) (δ r) j| ≤ z.lerr zs (Arith.u F) (Arith.w F) k (x r) (e r) (δ r) (ε r) j := by
        intro r j hr hj
        have := sum_near (n := 1) (a := fun _ => c [r, j]) (x := fun _ => z.delta zs k (x r) (δ r) j) (e := fun _ => z.derr zs (Arith.u F) (Arith.w F) k (x r) (e r) (δ r) (ε r) j)
          (e10 r j hr hj) (fun _ _ => hcd r j hr hj) (by simpa using (c1 r j hr hj).2)
        simpa [GLay.lerr] using this
      refine ⟨gx', γx', ⟨y.w, y.cw, some (i, true), gw⟩ :: ⟨y.b, y.cb, some (i + 1, true), gb⟩ :: l, fun sl => ?_, e6, fun r p hr hp => ?_, ⟨rfl, rfl, γw, e7, fun p j hp hj => ?_⟩, ⟨rfl, rfl, γb, e8, fun i' j hi hj => ?_⟩, k4⟩
      · obtain ⟨sl', q⟩ := k1 sl
        refine ⟨some (i, false), ?_⟩
        show arrivals L D (mlpOf mm pl ys (i + 3) _) sl g = _
        rw [q, e4 sl']
        cases arrivals L D ex (some (i, false)) gx' with
        | ok l' => simp only [bind_ok, List.append_assoc, List.cons_append, List.nil_append]
        | abort => rfl
        | ub => rfl
      · exact dot_near (fun j hj => hl r j hr hj) (fun j hj => ⟨(fW p j hp hj).1, by rw [(fW p j hp hj).2]; simp⟩) (e12 r p hr hp) (c2 r p hr hp)
      · exact dot_near (fun r hr => ha r p hr hp) (fun r hr => hl r j hr hj) (e13 p j hp hj) (c3 p j hp hj)
      · obtain rfl : i' = 0 := by omega
        exact sum_near (e11 j hj) (fun r hr => hcd r j hr hj) (c4 j hj)

/-! ### a training step -/

theorem ids_actOf {α : Type} (i : Nat) (op : Option (UOp α)) (e : Ex α) : ids (actOf i op e) = (if op.isSome then [i] else []) ++ ids e := by
  cases op <;> rfl

/-- No operator of a network occurs twice. -/
theorem mlp_ids {α : Type} (mm pl : BOp α) (ys : List (Lay α)) : ∀ (i : Nat) (e : Ex α), (ids e).Nodup → (∀ n ∈ ids e, n < i) → (ids (mlpOf mm pl ys i e)).Nodup := by
  induction ys with
  | nil => intro i e h _; exact h
  | cons y ys ih =>
    intro i e h hlt
    refine ih (i + 3) _ ?_ ?_
    · rw [ids_actOf]
      have h1 : i ∉ ids e := fun hc => by have := hlt _ hc; omega
      have h2 : i + 1 ∉ ids e := fun hc => by have := hlt _ hc; omega
      have h3 : i + 2 ∉ ids e := fun hc => by have := hlt _ hc; omega
      cases y.act <;> simp [ids, h, h1, h2, h3]
    · intro n hn
      rw [ids_actOf] at hn
      have : n = i + 2 ∨ n = i + 1 ∨ n = i ∨ n ∈ ids e := by
        cases hy : y.act <;> rw [hy] at hn <;> simp [ids] at hn <;> tauto
      rcases this with rfl | rfl | rfl | h
      · omega
      · omega
      · omega
      · have := hlt n h; omega

/-- The variables of the layers. -/
def layVars (ys : List (Lay F)) : List Nat := ys.flatMap (fun y => [y.w, y.b])

/-- Gradients stored for the weights and biases of every layer; storing them is one more addition. -/
def Stored (G : Nat → Ten F) (m : Nat) : List (Lay F) → List GLay → Nat → (x e δ ε : Nat → Nat → ℝ) → Prop
  | [], [], _, _, _, _, _ => True
  | y :: ys, z :: zs, k, x, e, δ, ε =>
    Close (G y.w) k z.n (z.gradW zs m k x δ) (fun p j => z.errW zs (Arith.u F) (Arith.w F) m k x e δ ε p j +
      Arith.u F * (|z.gradW zs m k x δ p j| + z.errW zs (Arith.u F) (Arith.w F) m k x e δ ε p j)) ∧
    Close (G y.b) 1 z.n (fun _ => z.gradB zs m k x δ) (fun _ j => z.errB zs (Arith.u F) (Arith.w F) m k x e δ ε j +
      Arith.u F * (|z.gradB zs m k x δ j| + z.errB zs (Arith.u F) (Arith.w F) m k x e δ ε j)) ∧
    Stored G m ys zs z.n (fun r => z.app k (x r)) (fun r => z.err (Arith.u F) (Arith.w F) k (x r) (e r)) δ ε
  | _, _, _, _, _, _, _ => False

theorem addGrad_any {α : Type} [Zero α] [Add α] {g data inc : Ten α} {s : List Nat} {a b : List Nat → α} (hg : g.Has s a) (hd : data.shape = s) (hi : inc.Has s b) :
    ∃ u, addGrad g data inc = ok u ∧ u.Has s (fun is => a is + b is) := by
  obtain ⟨o, h1, h2, h3⟩ := update1 (n := size s) (out := g.data)
    (body := fun i o => do
      let x ← rd o i
      let y ← rd inc.data i
      wr o i (x + y)) (a := fun p => a (unflat s p)) (g := fun p => a (unflat s p) + b (unflat s p))
    (fun j o hj _ ha => by rw [rd_ok ha, bind_ok, rd_ok (hi.2.pos hj), bind_ok]) hg.2.1 (fun p hp => hg.2.pos hp)
  refine ⟨⟨s, o⟩, ?_, rfl, isT_of_pos h2 h3 (fun is hv => by rw [unflat_flat hv])⟩
  unfold addGrad
  dsimp only
  rw [if_neg (by rw [hg.1, hd]; simp), hg.1, assert_true (show s = inc.shape from hi.1.symm), bind_ok, hg.2.1, h1]
  rfl

/-- A gradient of zeros takes in what arrives. -/
theorem store_close [One F] [Neg F] [LE F] [DecidableLE F] (eps : F) {a : Arrival F} {s : St F} {m n : Nat} {X E : Nat → Nat → ℝ} (hinc : Close a.inc m n X E)
    (htr : a.cfg.trainable = true) (h1 : ¬ eps ≤ a.cfg.l1) (h2 : ¬ eps ≤ a.cfg.l2) (hd : (s.data a.v).shape = [m, n]) (hgs : (s.grad a.v).shape = [m, n]) (hgl : (s.grad a.v).data.length = size [m, n])
    (hz : ∀ x ∈ (s.grad a.v).data, x = 0) (htop : ∀ i j, i < m → j < n → |X i j| + E i j ≤ Arith.top F) :
    ∃ s', arrive eps s a = ok s' ∧ s'.data = s.data ∧ (∀ v, v ≠ a.v → s'.grad v = s.grad v) ∧ Close (s'.grad a.v) m n X (fun i j => E i j + Arith.u F * (|X i j| + E i j)) := by
  obtain ⟨b, i1, i2⟩ := hinc
  have hg : (s.grad a.v).Has [m, n] (fun _ => 0) := by
    refine ⟨hgs, hgl, fun is hv => ?_⟩
    have hlt : flat [m, n] is < (s.grad a.v).data.length := by rw [hgl]; exact flat_lt hv
    rw [List.getElem?_eq_getElem hlt, hz _ (List.getElem_mem hlt)]
  obtain ⟨u, u1, u2⟩ := addGrad_any hg hd i1
  have hreg : regularise eps a.cfg (s.data a.v) u = ok u := by
    unfold regularise
    rw [if_neg h1, bind_ok]
    exact if_neg h2
  have hclose : Close u m n X (fun i j => E i j + Arith.u F * (|X i j| + E i j)) := by
    refine ⟨_, u2, fun i j hi hj => ?_⟩
    obtain ⟨q1, q2⟩ := i2 i j hi hj
    have hb := near_abs q2
    have hfin : fin ((0 : F) + b [i, j]) := Arith.add_fin 0 _ Arith.fin_zero q1 (by rw [Arith.val_zero, zero_add]; exact hb.trans (htop i j hi hj))
    refine ⟨hfin, ?_⟩
    have herr := (Arith.add_err _ _ hfin).2.2
    rw [Arith.val_zero, zero_add] at herr
    have h3 := abs_add_le (val ((0 : F) + b [i, j]) - val (b [i, j])) (val (b [i, j]) - X i j)
    rw [sub_add_sub_cancel] at h3
    have h4 := mul_le_mul_of_nonneg_left hb (Arith.u_nonneg (F := F))
    linarith
  unfold arrive varBackward
  rw [if_neg (by simp [htr]), u1, bind_ok]
  by_cases hs : s.sync a.slot = false
  · rw [if_pos hs, hreg, bind_ok]
    refine ⟨_, rfl, rfl, fun v hv => ?_, ?_⟩
    · simp [upd, hv]
    · simpa [upd] using hclose
  · rw [if_neg hs]
    refine ⟨_, rfl, rfl, fun v hv => ?_, ?_⟩
    · simp [upd, hv]
    · simpa [upd] using hclose

theorem prod_size_le (u w : ℝ) (n : Nat) (x e y f : Nat → ℝ) : |∑ i ∈ range n, x i * y i| + prodErr u w n x e y f ≤ prodSize u w n x e y f := by
  unfold prodErr prodSize
  have h1 : |∑ i ∈ range n, x i * y i| ≤ ∑ i ∈ range n, |x i| * |y i| := (abs_sum_le_sum_abs _ _).trans (le_of_eq (sum_congr rfl (fun i _ => abs_mul _ _)))
  have h2 : ∑ i ∈ range n, |x i| * |y i| + ∑ i ∈ range n, (e i * |y i| + |x i| * f i + e i * f i) = ∑ i ∈ range n, (|x i| + e i) * (|y i| + f i) := by
    rw [← sum_add_distrib]
    exact sum_congr rfl (fun i _ => by ring)
  linarith

theorem sum_size_le (u : ℝ) (c n : Nat) (x e : Nat → ℝ) : |∑ i ∈ range n, x i| + (∑ i ∈ range n, e i + roundings u c (∑ i ∈ range n, (|x i| + e i))) ≤
    (1 + u) ^ c * (∑ i ∈ range n, (|x i| + e i)) := by
  unfold roundings
  have h1 := abs_sum_le_sum_abs x (range n)
  have h2 : ∑ i ∈ range n, |x i| + ∑ i ∈ range n, e i = ∑ i ∈ range n, (|x i| + e i) := sum_add_distrib.symm
  linarith

theorem sent_mem {m : Nat} (ys : List (Lay F)) : ∀ (zs : List GLay) (k : Nat) (x e δ ε : Nat → Nat → ℝ) (l : List (Arrival F)), Sent m ys zs k x e δ ε l → l.map (·.v) = layVars ys := by
  induction ys with
  | nil => intro zs k x e δ ε l h; cases zs <;> cases l <;> first | rfl | exact h.elim
  | cons y ys ih =>
    intro zs k x e δ ε l h
    match zs, l, h with
    | z :: zs, a :: b :: l, h =>
      obtain ⟨⟨ha, _, _⟩, ⟨hb, _, _⟩, h⟩ := h
      simp only [List.map_cons, ha, hb, ih _ _ _ _ _ _ _ h, layVars, List.flatMap_cons, List.cons_append, List.nil_append]

/-- All arrivals of a network, one after the other. -/
theorem store_all [One F] [Neg F] [LE F] [DecidableLE F] (eps : F) {m : Nat} (ys : List (Lay F)) : ∀ (zs : List GLay) (k : Nat) (x e δ ε : Nat → Nat → ℝ) (l : List (Arrival F)) (s : St F),
    Sent m ys zs k x e δ ε l → StandsBack s.data ys zs k → CalmBack (Arith.u F) (Arith.w F) (Arith.top F) m zs k x e δ ε → (layVars ys).Nodup →
    (∀ y ∈ ys, (y.cw.trainable = true ∧ ¬ eps ≤ y.cw.l1 ∧ ¬ eps ≤ y.cw.l2) ∧ y.cb.trainable = true ∧ ¬ eps ≤ y.cb.l1 ∧ ¬ eps ≤ y.cb.l2) →
    (∀ v ∈ layVars ys, (s.grad v).shape = (s.data v).shape ∧ (s.grad v).data.length = size (s.data v).shape ∧ ∀ x ∈ (s.grad v).data, x = 0) →
    ∃ s', l.foldlM (arrive eps) s = ok s' ∧ s'.data = s.data ∧ (∀ v, v ∉ layVars ys → s'.grad v = s.grad v) ∧ Stored s'.grad m ys zs k x e δ ε := by
  induction ys with
  | nil =>
    intro zs k x e δ ε l s h _ _ _ _ _
    match zs, l, h with
    | [], [], _ => exact ⟨s, rfl, rfl, fun _ _ => rfl, trivial⟩
  | cons y ys ih =>
    intro zs k x e δ ε l s h hst hcb hnd hcfg hz
    match zs, l, h with
    | z :: zs, a :: b :: l, h =>
      obtain ⟨⟨ha, hac, hai⟩, ⟨hb, hbc, hbi⟩, h⟩ := h
      obtain ⟨⟨W, B, φ, ψ, hW, hB, _⟩, hn, hn1, hst⟩ := hst
      obtain ⟨_, _, c3, c4, c5⟩ := hcb
      obtain ⟨f1, f2⟩ := hcfg y List.mem_cons_self
      have hmw : y.w ∈ layVars (y :: ys) := by simp [layVars]
      have hmb : y.b ∈ layVars (y :: ys) := by simp [layVars]
      have hnd' : y.w ≠ y.b ∧ y.w ∉ layVars ys ∧ y.b ∉ layVars ys ∧ (layVars ys).Nodup := by
        have : layVars (y :: ys) = y.w :: y.b :: layVars ys := rfl
        rw [this, List.nodup_cons, List.nodup_cons, List.mem_cons, not_or] at hnd
        exact ⟨hnd.1.1, hnd.1.2, hnd.2.1, hnd.2.2⟩
      obtain ⟨n1, n2, n3, n4⟩ := hnd'
      obtain ⟨z1, z2, z3⟩ := hz y.w hmw
      obtain ⟨y1, y2, y3⟩ := hz y.b hmb
      obtain ⟨s1, p1, p2, p3, p4⟩ := store_close eps (s := s) hai (by rw [hac]; exact f1.1) (by rw [hac]; exact f1.2.1) (by rw [hac]; exact f1.2.2) (by rw [ha]; exact hW.1)
        (by rw [ha, z1]; exact hW.1) (by rw [ha, z2, hW.1]) (by rw [ha]; exact z3)
        (fun p j hp hj => (prod_size_le _ _ _ _ _ _ _).trans (c3 p j hp hj))
      obtain ⟨s2, q1, q2, q3, q4⟩ := store_close eps (s := s1) hbi (by rw [hbc]; exact f2.1) (by rw [hbc]; exact f2.2.1) (by rw [hbc]; exact f2.2.2) (by rw [hb, p2]; exact hB.1)
        (by rw [hb, p3 _ (by rw [ha]; exact n1.symm), y1]; exact hB.1) (by rw [hb, p3 _ (by rw [ha]; exact n1.symm), y2, hB.1])
        (by rw [hb, p3 _ (by rw [ha]; exact n1.symm)]; exact y3)
        (fun i j _ hj => (sum_size_le _ _ _ _ _).trans (c4 j hj))
      have hkeep : ∀ v, v ≠ y.w → v ≠ y.b → s2.grad v = s.grad v := fun v hv1 hv2 => by rw [q3 v (by rw [hb]; exact hv2), p3 v (by rw [ha]; exact hv1)]
      obtain ⟨s3, r1, r2, r3, r4⟩ := ih zs z.n _ _ δ ε l s2 h (by rw [q2, p2]; exact hst) c5 n4 (fun y' hy' => hcfg y' (List.mem_cons_of_mem _ hy')) (fun v hv => by
        rw [hkeep v (fun hc => n2 (hc ▸ hv)) (fun hc => n3 (hc ▸ hv)), q2, p2]
        exact hz v (by show v ∈ y.w :: y.b :: layVars ys; simp [hv]))
      refine ⟨s3, ?_, by rw [r2, q2, p2], fun v hv => ?_, ?_, ?_, r4⟩
      · rw [List.foldlM_cons, p1, bind_ok, List.foldlM_cons, q1, bind_ok, r1]
      · have hv' : v ∉ y.w :: y.b :: layVars ys := hv
        simp only [List.mem_cons, not_or] at hv'
        rw [r3 v hv'.2.2, hkeep v hv'.1 hv'.2.1]
      · rw [r3 _ n2, q3 _ (by rw [hb]; exact n1), ← ha]
        exact p4
      · rw [r3 _ n3, ← hb]
        exact q4

theorem plain_stands {D : Nat → Ten F} (ys : List (Lay F)) : ∀ (zs : List GLay) (k : Nat), StandsBack D ys zs k → Stands D (fun φ z => Near φ z.g z.out) ys (plain zs) k := by
  induction ys with
  | nil => intro zs k h; cases zs <;> trivial
  | cons y ys ih =>
    intro zs k h
    cases zs with
    | nil => exact h.elim
    | cons z zs =>
      obtain ⟨⟨W, B, φ, ψ, hW, hB, hφ, _, hnear, _, fW, fB⟩, hn, hn1, h⟩ := h
      exact ⟨⟨W, B, φ, hW, hB, hφ, hnear, fW, fB⟩, hn, hn1, ih zs z.n h⟩

omit [Arith F] in
theorem vars_mlp (mm pl : BOp F) (ys : List (Lay F)) : ∀ (i : Nat) (e : Ex F), vars (mlpOf mm pl ys i e) = vars e ++ layVars ys := by
  induction ys with
  | nil => intro i e; simp [mlpOf, layVars]
  | cons y ys ih =>
    intro i e
    rw [mlpOf, ih]
    have : vars (actOf (i + 2) y.act (.bin (i + 1) pl (.bin i mm e (.var y.w y.cw)) (.var y.b y.cb))) = vars e ++ [y.w, y.b] := by
      cases y.act <;> simp [actOf, vars]
    rw [this, List.append_assoc]
    rfl

/-- C136: a training run of a network and a backward pass from a gradient for its output: the gradients stored for all weights and biases are within the bounds of
the derivatives, whatever was stored before. -/
theorem training_gradients [One F] [Neg F] [LE F] [DecidableLE F] (eps : F) {mm pl : BOp F} (hmm : AccurateProduct mm) (hmb : AccurateBack mm) (hpl : ∀ l r, pl.fwd l r = plusT l r)
    {red : List F → F} {fuel : Nat} (hred : Reduces (· + ·) red) (hpb : ∀ l r z g, pl.bwd l r z g = plusBack red fuel l.shape r.shape g) (m k q i : Nat) (hm : 0 < m) (hm1 : m ≠ minusOne)
    (hk : 0 < k) (ys : List (Lay F)) (zs : List GLay) (s : St F) (htr : s.training = true) (hst : StandsBack s.data ys zs k) (a : List Nat → F) (x e δ ε : Nat → Nat → ℝ)
    (hx : (s.leaf q).Has [m, k] a) (ha : ∀ r p, r < m → p < k → fin (a [r, p]) ∧ |val (a [r, p]) - x r p| ≤ e r p)
    (hc : ∀ r, r < m → Calm (Arith.u F) (Arith.w F) (Arith.top F) (plain zs) k (x r) (e r))
    (g : Ten F) (γ : List Nat → F) (hg : g.Has [m, outs (plain zs) k] γ) (hγ : ∀ r j, r < m → j < outs (plain zs) k → fin (γ [r, j]) ∧ |val (γ [r, j]) - δ r j| ≤ ε r j)
    (hcb : CalmBack (Arith.u F) (Arith.w F) (Arith.top F) m zs k x e δ ε) (hnd : (layVars ys).Nodup)
    (hcfg : ∀ y ∈ ys, (y.cw.trainable = true ∧ ¬ eps ≤ y.cw.l1 ∧ ¬ eps ≤ y.cw.l2) ∧ y.cb.trainable = true ∧ ¬ eps ≤ y.cb.l1 ∧ ¬ eps ≤ y.cb.l2)
    (hG : ∀ v ∈ layVars ys, (s.grad v).shape = (s.data v).shape ∧ (s.grad v).data.length = size (s.data v).shape) :
    ∃ y s1 s2, run (mlpOf mm pl ys i (.leaf q)) s = ok (y, s1) ∧
      Close y m (outs (plain zs) k) (fun r => netR (plain zs) k (x r)) (fun r => errs (Arith.u F) (Arith.w F) (plain zs) k (x r) (e r)) ∧
      backward eps (mlpOf mm pl ys i (.leaf q)) none g s1 = ok s2 ∧ s2.data = s.data ∧ Stored s2.grad m ys zs k x e δ ε := by
  have hids := mlp_ids mm pl ys i (.leaf q) List.nodup_nil (by simp [ids])
  obtain ⟨hcons, hunsh⟩ := Loss.distinct_consistent hids
  have hleaf : eval s.leaf s.data (.leaf q) = ok (s.leaf q) := by
    unfold eval
    rw [assert_true (by
      intro h
      have := hx.2.1
      rw [h] at this
      simp at this
      omega)]
    rfl
  obtain ⟨y, v, y1, y2, y3⟩ := network_accurate (L := s.leaf) hmm hpl m hm ys (plain zs) k i (.leaf q) (s.leaf q) a x e hk (plain_stands ys zs k hst) hleaf hx ha hc
  obtain ⟨s1, hrun⟩ := (run_fresh_partial _ hcons s).1 y y1
  obtain ⟨gx, γx, l, b1, _, _, b4⟩ := network_back (L := s.leaf) hmm hmb hpl hred hpb m hm hm1 δ ε g γ ys zs k i (.leaf q) (s.leaf q) a x e hk hst hleaf hx ha hc hg hγ hcb
  obtain ⟨sl', b1⟩ := b1 none
  have harr : arrivals s.leaf s.data (mlpOf mm pl ys i (.leaf q)) none g = ok l := by
    rw [b1]
    simp [arrivals]
  have hback := backward_arrivals_partial eps _ hcons hunsh s s1 y g l hrun harr
  obtain ⟨z1, z2⟩ := run_zeroes hcons htr hrun
  obtain ⟨_, i1, _, _⟩ := forward_ok hcons (mem_occs_self _ none) (inv_start s) hrun
  have hdata : s1.data = s.data := i1.data
  obtain ⟨s2, t1, t2, _, t4⟩ := store_all eps ys zs k x e δ ε l s1 b4 (by rw [hdata]; exact hst) hcb hnd hcfg (fun v hv => by
    refine ⟨by rw [(z2 v).1, hdata]; exact (hG v hv).1, by rw [(z2 v).2, hdata]; exact (hG v hv).2, ?_⟩
    have hmem : v ∈ (varOccs (mlpOf mm pl ys i (.leaf q)) none).map (·.2) := by
      rw [varOccs_vars, vars_mlp]
      exact List.mem_append.mpr (Or.inr hv)
    obtain ⟨p, hp, rfl⟩ := List.mem_map.mp hmem
    exact (z1 p hp).1)
  exact ⟨y, s1, s2, hrun, ⟨v, y2, y3⟩, by rw [hback, t1], by rw [t2, hdata], t4⟩

end Verif.Fp
