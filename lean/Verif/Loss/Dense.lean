import Verif.Loss.Props
/-!
# Property C101: dense layers

`Dense` computes `x W + b` row by row; a network of any number of dense layers with activations computes their composition, and training it with
`squared_loss` stores the derivatives of the loss in every weight and bias.
-/
namespace Verif.Loss
open Verif Res View Data Ops Graph Optim
open Verif.Tensor (bcIdx Compatible broadcastShape)

noncomputable section

/-- Where a dense layer can be computed: none of the extents 0 or -1. -/
structure DenseFits (K : Kit) (m k n : Nat) : Prop where
  reduces : Reduces (· + ·) K.red
  fuel : 2 ≤ K.fuel
  m0 : 0 < m
  k0 : 0 < k
  n0 : 0 < n
  m1 : m ≠ minusOne
  n1 : n ≠ minusOne

theorem DenseFits.fits {K : Kit} {m k n : Nat} (h : DenseFits K m k n) : Fits K [m, n] [1, n] [m, n] := by
  have hcomp : Compatible [m, n] [1, n] := by
    intro k
    match k with
    | 0 => exact Or.inl rfl
    | 1 => exact Or.inr (Or.inr rfl)
    | k + 2 => left; simp [Verif.Tensor.dimR]
  have hsum : broadcastShape [m, n] [1, n] = ok [m, n] := by
    unfold Verif.Tensor.broadcastShape
    by_cases h : [m, n] = [1, n]
    · rw [if_pos h]
    · have h' : m ≠ 1 := fun e => h (by rw [e])
      rw [if_neg h]
      have d1 : Verif.Tensor.dimAt [m, n] 0 = ok n := rfl
      have d2 : Verif.Tensor.dimAt [1, n] 0 = ok n := rfl
      have d3 : Verif.Tensor.dimAt [m, n] 1 = ok m := rfl
      have d4 : Verif.Tensor.dimAt [1, n] 1 = ok 1 := rfl
      by_cases hn1 : n = 1
      · subst hn1; simp [loop, Verif.Tensor.broadcastDim, d1, d2, d3, d4, h']
      · simp [loop, Verif.Tensor.broadcastDim, d1, d2, d3, d4, h', hn1, assert_true]
  refine ⟨h.reduces, hcomp, hsum, by simp, by simp, by simp [h.n1], by simp [h.n1], ?_, by simp [minusOne], by simpa using h.fuel, ?_⟩
  · intro d hd
    simp only [List.mem_cons, List.not_mem_nil, or_false] at hd
    rcases hd with rfl | rfl
    · exact h.m1
    · exact h.n1
  · simp only [size_cons, size_nil, mul_one]
    exact (Nat.mul_pos h.m0 h.n0).ne'

section
variable {K : Kit} {L D : Nat → Ten ℝ} {e : Ex ℝ} {m k n w b : Nat} {x W B : List Nat → ℝ}

theorem ev_matmul (he : Ev L D e [m, k] x) (hw : (D w).Has [k, n] W) (hf : DenseFits K m k n) (cw : Cfg ℝ) (i : Nat) :
    Ev L D (.bin i (opMatmul K.cacheF K.cacheB K.cacheB') e (.var w cw)) [m, n] (fun is => ∑ p ∈ Finset.range k, x [is[0]?.getD 0, p] * W [p, is[1]?.getD 0]) := by
  obtain ⟨u, h1, h2⟩ := he
  obtain ⟨z, h3, h4⟩ := matmul_forward K.cacheF u (D w) m k n x W h2 hw hf.m0 hf.k0 hf.n0
  refine ⟨z, ?_, h4⟩
  rw [eval, h1, bind_ok, eval, bind_ok]
  exact h3

/-- C101, values: `Dense` gives, in row `r` and column `j`, the sum over `p` of `x[r, p] W[p, j]`, plus `b[j]`. -/
theorem dense_value (he : Ev L D e [m, k] x) (hw : (D w).Has [k, n] W) (hb : (D b).Has [1, n] B) (hf : DenseFits K m k n) (cw cb : Cfg ℝ) (i : Nat) :
    Ev L D (dense K i w b cw cb e) [m, n] (fun is => ∑ p ∈ Finset.range k, x [is[0]?.getD 0, p] * W [p, is[1]?.getD 0] + B [0, is[1]?.getD 0]) := by
  have h1 := ev_matmul (K := K) he hw hf cw i
  have h2 : Ev L D (.var b cb) [1, n] B := ⟨D b, rfl, hb⟩
  refine (h1.plus h2 hf.fits (i + 1)).congr (fun is hv => ?_)
  match is, hv with
  | [r, j], hv =>
    simp only [validIdx_cons] at hv
    rw [bc_self (s := [m, n]) (by simpa using hv)]
    congr 2
    simp only [bcIdx, List.length_cons, List.length_nil, Nat.sub_self, List.drop_zero, List.zipWith_cons_cons, List.zipWith_nil_left, if_true]
    by_cases hn : n = 1
    · rw [if_pos hn]
      have : j = 0 := by omega
      simp [this]
    · rw [if_neg hn]; rfl

/-- C101: a dense layer has right gradients where its operand has. -/
theorem smooth_dense (he : Ev L D e [m, k] x) (hs : Smooth L D e) (hw : (D w).Has [k, n] W) (hb : (D b).Has [1, n] B) (hf : DenseFits K m k n) (cw cb : Cfg ℝ) (i : Nat) :
    Smooth L D (dense K i w b cw cb e) := by
  refine smooth_plus (ev_matmul (K := K) he hw hf cw i) (⟨D b, rfl, hb⟩ : Ev L D (.var b cb) [1, n] B) hf.fits ⟨hs, hw.wf, fun u v hu hv => ?_⟩ hb.wf (i + 1)
  obtain ⟨u', h1, h2⟩ := he
  rw [h1] at hu
  cases hu
  cases hv
  exact opMatmul_good _ _ _ _ _ m k n h2.1 hw.1 hf.m0 hf.k0 hf.n0

end

/-! ## Networks -/

/-- A dense layer and its activation, if it has one: the numbers of the two variables, the units, what the variables are made with. -/
structure Layer where
  w : Nat
  b : Nat
  units : Nat
  cw : Cfg ℝ
  cb : Cfg ℝ
  act : Option EOp

/-- An activation, or none. -/
def actE (K : Kit) (i : Nat) : Option EOp → Ex ℝ → Ex ℝ
  | none, e => e
  | some op, e => el K i op e

/-- Specification: what an activation does to a number. -/
def actF : Option EOp → ℝ → ℝ
  | none, x => x
  | some op, x => op.fwd x

/-- Specification: where it can be differentiated. -/
def actDom : Option EOp → ℝ → Prop
  | none, _ => True
  | some op, x => op.Dom x

/-- Layers one after the other, as in `act( Dense( n )( x ) )` (include/layer.hpp lines 235-245 and any element-wise activation, or none). -/
def mlp (K : Kit) : List Layer → Nat → Ex ℝ → Ex ℝ
  | [], _, e => e
  | y :: ys, i, e => mlp K ys (i + 3) (actE K (i + 2) y.act (dense K i y.w y.b y.cw y.cb e))

/-- Specification: the outputs of the network for one sample `x` of `k` numbers. -/
def net (D : Nat → Ten ℝ) : List Layer → Nat → (Nat → ℝ) → Nat → ℝ
  | [], _, x => x
  | y :: ys, k, x => net D ys y.units (fun j => actF y.act (∑ p ∈ Finset.range k, x p * (D y.w).at [p, j] + (D y.b).at [0, j]))

/-- Specification: the number of outputs. -/
def outputs : List Layer → Nat → Nat
  | [], k => k
  | y :: ys, _ => outputs ys y.units

/-- The variables of the layers have the shapes `Dense` gives them, for `k` inputs. -/
def Built (D : Nat → Ten ℝ) : List Layer → Nat → Prop
  | [], _ => True
  | y :: ys, k => (D y.w).WF ∧ (D y.w).shape = [k, y.units] ∧ (D y.b).WF ∧ (D y.b).shape = [1, y.units] ∧ 0 < y.units ∧ y.units ≠ minusOne ∧ Built D ys y.units

/-- Every activation can be differentiated at what it is given, for all `m` samples. -/
def Differentiable (D : Nat → Ten ℝ) (m : Nat) : List Layer → Nat → (Nat → Nat → ℝ) → Prop
  | [], _, _ => True
  | y :: ys, k, x => (∀ r j, r < m → j < y.units → actDom y.act (∑ p ∈ Finset.range k, x r p * (D y.w).at [p, j] + (D y.b).at [0, j])) ∧
      Differentiable D m ys y.units (fun r j => actF y.act (∑ p ∈ Finset.range k, x r p * (D y.w).at [p, j] + (D y.b).at [0, j]))

section
variable {K : Kit} {L D : Nat → Ten ℝ} {m : Nat}

theorem Ev.act {e : Ex ℝ} {s : List Nat} {a : List Nat → ℝ} (h : Ev L D e s a) (i : Nat) (op : Option EOp) : Ev L D (actE K i op e) s (fun is => actF op (a is)) := by
  cases op with
  | none => exact h
  | some op => exact h.el i op

theorem smooth_act {e : Ex ℝ} {s : List Nat} {a : List Nat → ℝ} (h : Ev L D e s a) (hs : Smooth L D e) (i : Nat) (op : Option EOp)
    (hd : ∀ is, ValidIdx s is → actDom op (a is)) : Smooth L D (actE K i op e) := by
  cases op with
  | none => exact hs
  | some op => exact smooth_el h hs i op hd

/-- What is asked of the machine and the batch. -/
structure NetFits (K : Kit) (m : Nat) : Prop where
  reduces : Reduces (· + ·) K.red
  fuel : 2 ≤ K.fuel
  m0 : 0 < m
  m1 : m ≠ minusOne

/-- C101, networks: whatever the number of layers, their sizes and activations. -/
theorem mlp_value (hf : NetFits K m) (ls : List Layer) : ∀ (k i : Nat) (e : Ex ℝ) (x : List Nat → ℝ), 0 < k → Built D ls k → Ev L D e [m, k] x →
    Ev L D (mlp K ls i e) [m, outputs ls k] (fun is => net D ls k (fun p => x [is[0]?.getD 0, p]) (is[1]?.getD 0)) := by
  induction ls with
  | nil =>
    intro k i e x _ _ he
    refine he.congr (fun is hv => ?_)
    match is, hv with
    | [r, j], _ => rfl
  | cons y ys ih =>
    intro k i e x hk hb he
    obtain ⟨h1, h2, h3, h4, h5, h6, h7⟩ := hb
    have hd := dense_value (K := K) he (h2 ▸ h1.has) (h4 ▸ h3.has) ⟨hf.reduces, hf.fuel, hf.m0, hk, h5, hf.m1, h6⟩ y.cw y.cb i
    refine (ih y.units (i + 3) _ _ h5 h7 (hd.act (i + 2) y.act)).congr (fun is _ => ?_)
    rfl

theorem mlp_smooth (hf : NetFits K m) (ls : List Layer) : ∀ (k i : Nat) (e : Ex ℝ) (x : List Nat → ℝ), 0 < k → Built D ls k → Ev L D e [m, k] x → Smooth L D e →
    Differentiable D m ls k (fun r p => x [r, p]) → Smooth L D (mlp K ls i e) := by
  induction ls with
  | nil => intro k i e x _ _ _ hs _; exact hs
  | cons y ys ih =>
    intro k i e x hk hb he hs hdom
    obtain ⟨h1, h2, h3, h4, h5, h6, h7⟩ := hb
    have hfit : DenseFits K m k y.units := ⟨hf.reduces, hf.fuel, hf.m0, hk, h5, hf.m1, h6⟩
    have hd := dense_value (K := K) he (h2 ▸ h1.has) (h4 ▸ h3.has) hfit y.cw y.cb i
    have hds := smooth_dense (K := K) he hs (h2 ▸ h1.has) (h4 ▸ h3.has) hfit y.cw y.cb i
    refine ih y.units (i + 3) _ _ h5 h7 (hd.act (i + 2) y.act) (smooth_act hd hds (i + 2) y.act (fun is hv => ?_)) ?_
    · match is, hv with
      | [r, j], hv =>
        simp only [validIdx_cons] at hv
        exact hdom.1 r j hv.1 hv.2.1
    · exact hdom.2

/-- The identities of a network over an expression with identities below `i` are different, and below `i + 3 * layers`. -/
theorem mlp_ids (ls : List Layer) : ∀ (i : Nat) (e : Ex ℝ), (ids e).Nodup → (∀ j ∈ ids e, j < i) →
    (ids (mlp K ls i e)).Nodup ∧ ∀ j ∈ ids (mlp K ls i e), j < i + 3 * ls.length := by
  induction ls with
  | nil => intro i e h1 h2; exact ⟨h1, by simpa [mlp] using h2⟩
  | cons y ys ih =>
    intro i e h1 h2
    have hi : ids (actE K (i + 2) y.act (dense K i y.w y.b y.cw y.cb e)) = (i + 2) :: (i + 1) :: i :: ids e ∨
        ids (actE K (i + 2) y.act (dense K i y.w y.b y.cw y.cb e)) = (i + 1) :: i :: ids e := by
      cases y.act <;> simp [actE, el, dense, plusE, ids]
    have hn : ∀ j, i ≤ j → j ∉ ids e := fun j hj h => absurd (h2 j h) (by omega)
    have := ih (i + 3) (actE K (i + 2) y.act (dense K i y.w y.b y.cw y.cb e)) (by
      rcases hi with hi | hi <;> rw [hi] <;> simp only [List.nodup_cons, List.mem_cons, not_or]
      · exact ⟨⟨by omega, by omega, hn _ (by omega)⟩, ⟨by omega, hn _ (by omega)⟩, hn _ (by omega), h1⟩
      · exact ⟨⟨by omega, hn _ (by omega)⟩, hn _ (by omega), h1⟩) (by
      intro j hj
      have : j = i + 2 ∨ j = i + 1 ∨ j = i ∨ j ∈ ids e := by
        rcases hi with hi | hi <;> rw [hi] at hj <;> simp only [List.mem_cons] at hj
        · exact hj
        · exact Or.inr hj
      rcases this with rfl | rfl | rfl | hj
      · omega
      · omega
      · omega
      · have := h2 j hj; omega)
    refine ⟨this.1, fun j hj => ?_⟩
    have := this.2 j hj
    simp only [List.length_cons]
    omega

/-- The variables of a network. -/
theorem mlp_vars (ls : List Layer) : ∀ (i : Nat) (e : Ex ℝ), ∀ v ∈ vars (mlp K ls i e), v ∈ vars e ∨ ∃ y ∈ ls, v = y.w ∨ v = y.b := by
  induction ls with
  | nil => intro i e v hv; exact Or.inl hv
  | cons y ys ih =>
    intro i e v hv
    rcases ih _ _ v hv with h | ⟨z, hz, h⟩
    · have h : v ∈ vars (dense K i y.w y.b y.cw y.cb e) := by cases hy : y.act <;> rw [hy] at h <;> exact h
      simp only [dense, plusE, vars, List.mem_append, List.mem_singleton] at h
      rcases h with (h | h) | h
      · exact Or.inl h
      · exact Or.inr ⟨y, by simp, Or.inl h⟩
      · exact Or.inr ⟨y, by simp, Or.inr h⟩
    · exact Or.inr ⟨z, by simp [hz], h⟩

/-- What its variables are made with. -/
theorem mlp_cfgs (ls : List Layer) : ∀ (i : Nat) (e : Ex ℝ) (sl : Slot), ∀ p ∈ occs (mlp K ls i e) sl, ∀ v c, p.2 = .var v c →
    (∃ sl', ∃ q ∈ occs e sl', q.2 = .var v c) ∨ ∃ y ∈ ls, (v = y.w ∧ c = y.cw) ∨ (v = y.b ∧ c = y.cb) := by
  induction ls with
  | nil => intro i e sl p hp v c hpv; exact Or.inl ⟨sl, p, hp, hpv⟩
  | cons y ys ih =>
    intro i e sl p hp v c hpv
    rcases ih _ _ sl p hp v c hpv with ⟨sl', q, hq, hqv⟩ | ⟨z, hz, h⟩
    · have : ∃ sl'', q ∈ occs (dense K i y.w y.b y.cw y.cb e) sl'' := by
        cases hy : y.act with
        | none => rw [hy] at hq; exact ⟨_, hq⟩
        | some op =>
          rw [hy] at hq
          simp only [actE, el, occs, List.mem_cons] at hq
          rcases hq with rfl | hq
          · simp at hqv
          · exact ⟨_, hq⟩
      obtain ⟨sl'', hq⟩ := this
      simp only [dense, plusE, occs, List.mem_cons, List.mem_append, List.not_mem_nil, or_false] at hq
      rcases hq with rfl | (rfl | hq | rfl) | rfl
      · simp at hqv
      · simp at hqv
      · exact Or.inl ⟨_, q, hq, hqv⟩
      · simp only [Ex.var.injEq] at hqv
        exact Or.inr ⟨y, by simp, Or.inl ⟨hqv.1.symm, hqv.2.symm⟩⟩
      · simp only [Ex.var.injEq] at hqv
        exact Or.inr ⟨y, by simp, Or.inr ⟨hqv.1.symm, hqv.2.symm⟩⟩
    · exact Or.inr ⟨z, by simp [hz], h⟩

theorem outputs_pos (ls : List Layer) : ∀ k, 0 < k → Built D ls k → 0 < outputs ls k := by
  induction ls with
  | nil => intro k hk _; exact hk
  | cons y ys ih => intro k _ h; exact ih _ h.2.2.2.2.1 h.2.2.2.2.2.2

theorem outputs_ne (ls : List Layer) : ∀ k, k ≠ minusOne → Built D ls k → outputs ls k ≠ minusOne := by
  induction ls with
  | nil => intro k hk _; exact hk
  | cons y ys ih => intro k _ h; exact ih _ h.2.2.2.2.2.1 h.2.2.2.2.2.2

end

/-- A network and the state it is trained in: the inputs are place holder `inp`, the labels place holder `gt`. -/
structure NetState (K : Kit) (ls : List Layer) (m k inp gt : Nat) (s : St ℝ) (cfg : Nat → Cfg ℝ) : Prop where
  fits : NetFits K m
  k0 : 0 < k
  k1 : k ≠ minusOne
  built : Built s.data ls k
  input : (s.leaf inp).WF ∧ (s.leaf inp).shape = [m, k]
  labels : (s.leaf gt).WF ∧ (s.leaf gt).shape = [m, outputs ls k]
  training : s.training = true
  grads : ∀ y ∈ ls, ∀ v, v = y.w ∨ v = y.b → (s.data v).WF ∧ (s.grad v).WF ∧ (s.grad v).shape = (s.data v).shape
  cfgs : ∀ y ∈ ls, y.cw = cfg y.w ∧ y.cb = cfg y.b ∧ (cfg y.w).trainable = true ∧ (cfg y.b).trainable = true
  smooth : Differentiable s.data m ls k (fun r p => (s.leaf inp).at [r, p])

theorem netState_ops {K : Kit} {ls : List Layer} {m k inp gt : Nat} {s : St ℝ} {cfg : Nat → Cfg ℝ} (h : NetState K ls m k inp gt s cfg) :
    Ev s.leaf s.data (.leaf gt) [m, outputs ls k] (s.leaf gt).at ∧ Smooth s.leaf s.data (.leaf gt) ∧
    Ev s.leaf s.data (mlp K ls 0 (.leaf inp)) [m, outputs ls k] (fun is => net s.data ls k (fun p => (s.leaf inp).at [is[0]?.getD 0, p]) (is[1]?.getD 0)) ∧
    Smooth s.leaf s.data (mlp K ls 0 (.leaf inp)) ∧ Fits1 K [m, outputs ls k] := by
  have ho := outputs_pos ls k h.k0 h.built
  have hne : (s.leaf inp).data ≠ [] := fun hd => by
    have := h.input.1
    unfold Ten.WF at this
    rw [hd, h.input.2] at this
    simp at this
    have := h.fits.m0; have := h.k0
    omega
  have hne' : (s.leaf gt).data ≠ [] := fun hd => by
    have := h.labels.1
    unfold Ten.WF at this
    rw [hd, h.labels.2] at this
    simp at this
    have := h.fits.m0
    omega
  have e1 : Ev s.leaf s.data (.leaf inp) [m, k] (s.leaf inp).at := by have := ev_leaf (D := s.data) h.input.1 hne; rwa [h.input.2] at this
  have e2 : Ev s.leaf s.data (.leaf gt) [m, outputs ls k] (s.leaf gt).at := by have := ev_leaf (D := s.data) h.labels.1 hne'; rwa [h.labels.2] at this
  refine ⟨e2, ⟨h.labels.1, hne'⟩, mlp_value h.fits ls k 0 _ _ h.k0 h.built e1, mlp_smooth h.fits ls k 0 _ _ h.k0 h.built e1 ⟨h.input.1, hne⟩ h.smooth, ?_⟩
  refine ⟨h.fits.reduces, by simp, ?_, by simp [minusOne], by simpa using h.fits.fuel, ?_⟩
  · intro d hd
    simp only [List.mem_cons, List.not_mem_nil, or_false] at hd
    rcases hd with rfl | rfl
    · exact h.fits.m1
    · exact outputs_ne ls k h.k1 h.built
  · simp only [size_cons, size_nil, mul_one]
    exact (Nat.mul_pos h.fits.m0 ho).ne'

theorem netState_trains {K : Kit} {ls : List Layer} {m k inp gt : Nat} {s : St ℝ} {cfg : Nat → Cfg ℝ} (h : NetState K ls m k inp gt s cfg) (e : Ex ℝ)
    (hids : (ids e).Nodup) (hvars : ∀ v ∈ vars e, v ∈ vars (mlp K ls 0 (.leaf inp)))
    (hoccs : ∀ p ∈ occs e none, ∀ v c, p.2 = .var v c → ∃ sl, ∃ q ∈ occs (mlp K ls 0 (.leaf inp)) sl, q.2 = .var v c) : Trains e s cfg := by
  have hd := distinct_consistent hids
  refine ⟨hd.1, hd.2, h.training, fun v hv => ?_, fun p hp v c hc => ?_⟩
  · rcases mlp_vars ls 0 _ v (hvars v hv) with h' | ⟨y, hy, h'⟩
    · simp [vars] at h'
    · exact h.grads y hy v h'
  · obtain ⟨sl, q, hq, hqv⟩ := hoccs p hp v c hc
    rcases mlp_cfgs ls 0 _ sl q hq v c hqv with ⟨sl', q', hq', hq''⟩ | ⟨y, hy, ⟨rfl, rfl⟩ | ⟨rfl, rfl⟩⟩
    · simp only [occs, List.mem_singleton] at hq'
      subst hq'
      simp at hq''
    · exact ⟨(h.cfgs y hy).1, (h.cfgs y hy).2.2.1⟩
    · exact ⟨(h.cfgs y hy).2.1, (h.cfgs y hy).2.2.2⟩

section
variable {K : Kit} {ls : List Layer} {m k inp gt : Nat} {s : St ℝ} {cfg : Nat → Cfg ℝ}

/-- The loss of the network: the sum over samples and outputs of the squared differences. -/
theorem mlp_squared_value (h : NetState K ls m k inp gt s cfg) :
    eval s.leaf s.data (squaredLoss K (3 * ls.length) (.leaf gt) (mlp K ls 0 (.leaf inp))) =
      ok ⟨[1], [∑ r ∈ Finset.range m, ∑ j ∈ Finset.range (outputs ls k), ((s.leaf gt).at [r, j] - net s.data ls k (fun p => (s.leaf inp).at [r, p]) j) ^ 2]⟩ := by
  obtain ⟨e1, _, e3, _, hf⟩ := netState_ops h
  rw [squared_loss_value e1 e3 hf.fits (3 * ls.length), sumIdx_congr (g := fun is => ((s.leaf gt).at is - net s.data ls k (fun p => (s.leaf inp).at [is[0]?.getD 0, p]) (is[1]?.getD 0)) ^ 2)
    (fun is hv => by rw [bc_self hv])]
  simp [sumIdx]

/-- C101, training: for a network of dense layers of any depth, `squared_loss` and backward store in every weight and bias the derivative of the loss
(plus the regularisation). -/
theorem mlp_squared_gradient (eps : ℝ) (h : NetState K ls m k inp gt s cfg) :
    Stores eps (squaredLoss K (3 * ls.length) (.leaf gt) (mlp K ls 0 (.leaf inp))) s cfg 1 := by
  obtain ⟨e1, e2, e3, e4, hf⟩ := netState_ops h
  have hi := mlp_ids (K := K) ls 0 (.leaf inp) (by simp [ids]) (by simp [ids])
  have hn : ∀ j, 3 * ls.length ≤ j → j ∉ ids (mlp K ls 0 (.leaf inp)) := fun j hj hm => absurd (hi.2 j hm) (by omega)
  refine squared_loss_gradient_partial (netState_trains h _ ?_ ?_ ?_) e1 e3 hf.fits e2 e4
  · simp only [squaredLoss, el, minusE, plusE, ids, List.nil_append, List.nodup_cons, List.mem_cons, not_or]
    exact ⟨⟨by omega, by omega, by omega, hn _ (by omega)⟩, ⟨by omega, by omega, hn _ (by omega)⟩, ⟨by omega, hn _ (by omega)⟩, hn _ (by omega), hi.1⟩
  · intro v hv
    simpa [squaredLoss, el, minusE, plusE, vars] using hv
  · intro p hp v c hc
    simp only [squaredLoss, el, minusE, plusE, occs, List.mem_cons, List.mem_append, List.not_mem_nil, or_false] at hp
    rcases hp with rfl | rfl | rfl | rfl | rfl | hp
    · simp at hc
    · simp at hc
    · simp at hc
    · simp at hc
    · simp at hc
    · exact ⟨_, p, hp, hc⟩

/-- C101 with `mean_squared_error`: what is stored is the number of outputs times the derivative of the loss (`mse_gradient_violated`). -/
theorem mlp_mse_gradient_partial (eps : ℝ) (h : NetState K ls m k inp gt s cfg) :
    Stores eps (mse K (3 * ls.length) (.leaf gt) (mlp K ls 0 (.leaf inp))) s cfg (outputs ls k : ℝ) := by
  obtain ⟨e1, e2, e3, e4, hf⟩ := netState_ops h
  have hi := mlp_ids (K := K) ls 0 (.leaf inp) (by simp [ids]) (by simp [ids])
  have hn : ∀ j, 3 * ls.length ≤ j → j ∉ ids (mlp K ls 0 (.leaf inp)) := fun j hj hm => absurd (hi.2 j hm) (by omega)
  have key := mse_gradient (eps := eps) (c := m) (netState_trains h (mse K (3 * ls.length) (.leaf gt) (mlp K ls 0 (.leaf inp))) ?_ ?_ ?_) e1 e3 hf.fits e2 e4 rfl h.fits.m0.ne'
  · have hm : (m : ℝ) ≠ 0 := by exact_mod_cast h.fits.m0.ne'
    have hq : ((size [m, outputs ls k] : Nat) : ℝ) / (m : ℝ) = (outputs ls k : ℝ) := by
      simp only [size_cons, size_nil, mul_one, Nat.cast_mul]
      field_simp
    rwa [hq] at key
  · simp only [mse, el, minusE, plusE, ids, List.nil_append, List.nodup_cons, List.mem_cons, not_or]
    exact ⟨⟨by omega, by omega, by omega, hn _ (by omega)⟩, ⟨by omega, by omega, hn _ (by omega)⟩, ⟨by omega, hn _ (by omega)⟩, hn _ (by omega), hi.1⟩
  · intro v hv
    simpa [mse, el, minusE, plusE, vars] using hv
  · intro p hp v c hc
    simp only [mse, el, minusE, plusE, occs, List.mem_cons, List.mem_append, List.not_mem_nil, or_false] at hp
    rcases hp with rfl | rfl | rfl | rfl | rfl | hp
    · simp at hc
    · simp at hc
    · simp at hc
    · simp at hc
    · simp at hc
    · exact ⟨_, p, hp, hc⟩

end
end
end Verif.Loss
