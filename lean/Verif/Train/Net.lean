import Verif.Train.Props
import Verif.Net.Props
/-!
# Property C106 for networks

Training a network of any layers on shared storages stores the derivatives C105 speaks of.
-/
namespace Verif.Train
open Verif Res Data Graph Ops Loss Net
open Verif.Net (Kind)

noncomputable section

/-- Which operators of a layer leave their result in their operand's storage (`reshape`, `flatten`, `expand_dims`, `squeeze`: include/operation.hpp lines
1139-1146, 1199-1205, 1241-1254, 1276-1283). -/
def shareAt : Kind → List Nat
  | .conv2D _ => [0, 4]
  | .conv1D _ => [0, 1, 5, 7]
  | .convTranspose _ => [3, 7]
  | .flatten => [0]
  | .reshape _ => [0]
  | _ => []

/-- Which operator of a layer is a `plus`. -/
def plusAt : Kind → List Nat
  | .dense .. => [1]
  | .conv2D _ => [5]
  | .conv1D _ => [6]
  | .convTranspose _ => [8]
  | _ => []

/-- No other operator of a layer made from the identity `i` on leaves its result in an operand's storage. -/
def Kinds (fk : Nat → FKind) (i : Nat) (k : Kind) : Prop :=
  ∀ o, o < 9 → (fk (i + o) = .share → o ∈ shareAt k) ∧ (fk (i + o) = .plus → o ∈ plusAt k)

/-- The same for a network. -/
def NetKinds (fk : Nat → FKind) : List Kind → Nat → Prop
  | [], _ => True
  | k :: ks, i => Kinds fk i k ∧ NetKinds fk ks (i + 9)

/-! ### what backward looks at -/

theorem reshapes_reshape (shape : List Nat) : Reshapes (opReshape shape) := fun x x' y y' g h => by simp only [opReshape, h]
theorem reshapes_flatten : Reshapes opFlatten := fun x x' y y' g h => by simp only [opFlatten, h]
theorem reshapes_expand (axis : Int) : Reshapes (opExpand axis) := fun x x' y y' g h => by simp only [opExpand, h]
theorem reshapes_squeeze (axis : Int) : Reshapes (opSqueeze axis) := fun x x' y y' g h => by simp only [opSqueeze, h]
theorem pluses (red : List ℝ → ℝ) (fuel : Nat) : Pluses (opPlus red fuel) := ⟨rfl, fun x x' y y' z z' g h h' => by simp only [opPlus, h, h']⟩
theorem outFree_matmul (c cL cR : Ten ℝ) : OutFree2 (opMatmul c cL cR) := fun _ _ _ _ _ => rfl
theorem outFree_transpose (K : Kit) : OutFree (opTranspose K) := fun _ _ _ _ => rfl
theorem outFree_reshape (shape : List Nat) : OutFree (opReshape shape) := fun _ _ _ _ => rfl

section
variable {K : Kit} {fk : Nat → FKind} {L D : Nat → Ten ℝ}

/-! ### safety -/

/-- The last two operators of a convolution. -/
theorem dead_conv {i : Nat} {g : Conv.Geo} {R C NC CH : Nat} {rec : List Nat} {x f : Ex ℝ} (h : fk (i + 3) ≠ .share) : Dead fk (convE K i g R C NC CH rec x f) := by
  unfold convE
  rw [Dead]
  split
  · rw [Dead, if_neg h]; exact outFree_transpose K
  · exact outFree_reshape _

theorem endOf_conv {i : Nat} {g : Conv.Geo} {R C NC CH : Nat} {rec : List Nat} {x f : Ex ℝ} (h : fk (i + 3) ≠ .share) : endOf fk (convE K i g R C NC CH rec x f) = .op := by
  unfold convE
  rw [endOf]
  split
  · rw [endOf, if_neg h]
  · rfl

/-- A convolution with its bias, over safe operands one of which has no place holders. -/
theorem safe_convPlus {i j : Nat} {g : Conv.Geo} {R C NC CH : Nat} {rec : List Nat} {x f : Ex ℝ} {b : Nat} {cb : Cfg ℝ} (hx : Safe fk x) (hf : Safe fk f) (hlf : leaves f = [])
    (h1 : fk (i + 1) ≠ .share) (h2 : fk (i + 2) ≠ .plus) (h3 : fk (i + 3) ≠ .share) : Safe fk (plusE K j (convE K i g R C NC CH rec x f) (.var b cb)) := by
  have hkf : ∀ k, k ∉ killed fk f := fun k hk => by have := killed_leaves f hk; rw [hlf] at this; simp at this
  refine ⟨⟨⟨⟨⟨hf, fun _ => reshapes_reshape _⟩, ⟨hx, fun h => absurd h h1⟩, fun k hk => absurd hk (hkf k), fun k _ => ?_, fun h => absurd h h2⟩, fun h => absurd h h3⟩,
    fun _ => reshapes_reshape _⟩, trivial, fun _ _ => by simp [leaves], fun k hk => by simp [killed] at hk, fun _ => ⟨pluses _ _, dead_conv h3, fun k _ => by simp [leaves]⟩⟩
  show k ∉ leaves f
  rw [hlf]; simp

theorem build_safe (k : Kind) {i : Nat} {s : List Nat} {e : Ex ℝ} (hk : Kinds fk i k) (he : Safe fk e) : Safe fk (build K i s e k) := by
  have ns : ∀ o, o < 9 → o ∉ shareAt k → fk (i + o) ≠ .share := fun o ho hn h => hn ((hk o ho).1 h)
  have np : ∀ o, o < 9 → o ∉ plusAt k → fk (i + o) ≠ .plus := fun o ho hn h => hn ((hk o ho).2 h)
  have un : ∀ op : UOp ℝ, 0 ∉ shareAt k → Safe fk (.un i op e) := fun op h => ⟨he, fun h' => absurd h' (ns 0 (by omega) h)⟩
  cases k with
  | act op => exact un _ (by simp [shareAt])
  | dense w b units cw cb =>
    refine ⟨⟨he, trivial, fun _ _ => by simp [leaves], fun k hk => by simp [killed] at hk, fun h => absurd h (np 0 (by omega) (by simp [plusAt]))⟩, trivial,
      fun _ _ => by simp [leaves], fun k hk => by simp [killed] at hk, fun _ => ⟨pluses _ _, ?_, fun k _ => by simp [leaves]⟩⟩
    rw [Dead, if_neg (show fk i ≠ .plus from np 0 (by omega) (by simp [plusAt]))]
    exact outFree_matmul _ _ _
  | conv2D p => exact safe_convPlus he trivial rfl (ns 1 (by omega) (by simp [shareAt])) (np 2 (by omega) (by simp [plusAt])) (ns 3 (by omega) (by simp [shareAt]))
  | conv1D p =>
    refine ⟨safe_convPlus ⟨he, fun _ => reshapes_expand _⟩ trivial rfl (ns 2 (by omega) (by simp [shareAt])) (np 3 (by omega) (by simp [plusAt]))
      (ns 4 (by omega) (by simp [shareAt])), fun _ => reshapes_squeeze _⟩
  | convTranspose p =>
    exact safe_convPlus ⟨he, fun h => absurd h (ns 0 (by omega) (by simp [shareAt]))⟩
      ⟨⟨trivial, fun h => absurd h (ns 1 (by omega) (by simp [shareAt]))⟩, fun h => absurd h (ns 2 (by omega) (by simp [shareAt]))⟩ rfl
      (ns 4 (by omega) (by simp [shareAt])) (np 5 (by omega) (by simp [plusAt])) (ns 6 (by omega) (by simp [shareAt]))
  | flatten => exact ⟨he, fun _ => reshapes_flatten⟩
  | reshape shape => exact ⟨he, fun _ => reshapes_reshape _⟩
  | avgPool n => exact un _ (by simp [shareAt])
  | maxPool n mask gcache => exact un _ (by simp [shareAt])
  | upSample n => exact un _ (by simp [shareAt])
  | zeroPad p cache => exact un _ (by simp [shareAt])
  | crop p => exact un _ (by simp [shareAt])

theorem network_safe (ks : List Kind) : ∀ (i : Nat) (s : List Nat) (e : Ex ℝ), NetKinds fk ks i → Safe fk e → Safe fk (stack K ks i s e) := by
  induction ks with
  | nil => intro i s e _ he; exact he
  | cons k ks ih => intro i s e hk he; exact ih _ _ _ hk.2 (build_safe k hk.1 he)

theorem build_leaves (k : Kind) (i : Nat) (s : List Nat) (e : Ex ℝ) : leaves (build K i s e k) = leaves e := by
  cases k <;> simp [build, el, Loss.dense, conv1DLayer, conv2DLayer, convTransposeLayer, convE, plusE, leaves]

theorem network_leaves (ks : List Kind) : ∀ (i : Nat) (s : List Nat) (e : Ex ℝ), leaves (stack K ks i s e) = leaves e := by
  induction ks with
  | nil => intros; rfl
  | cons k ks ih => intro i s e; rw [stack, ih, build_leaves]

/-! ### soundness -/

/-- Operators that keep the elements. -/
theorem keeps_data {op : UOp ℝ} {s s' : List Nat} (A : Adjoint op s s' (reidx s s')) (hsz : size s' = size s) {e : Ex ℝ} {a : List Nat → ℝ} (he : Ev L D e s a) :
    ∀ x y, eval L D e = ok x → op.fwd x = ok y → y.data = x.data := by
  intro x y hx hy
  obtain ⟨x', h1, h2⟩ := he
  rw [h1] at hx
  cases hx
  obtain ⟨u, k1, k2⟩ := A.fwd _ _ h2
  rw [hy] at k1
  cases k1
  refine List.ext_getElem? (fun p => ?_)
  by_cases hp : p < size s
  · have hp' : p < size s' := hsz ▸ hp
    have e1 := k2.2.2 _ (unflat_spec hp').1
    have e2 := h2.2.2 _ (unflat_spec hp).1
    rw [(unflat_spec hp').2] at e1
    rw [(unflat_spec hp).2] at e2
    rw [e1, e2, reidx, (unflat_spec hp').2]
  · rw [List.getElem?_eq_none (by rw [k2.2.1, hsz]; omega), List.getElem?_eq_none (by rw [h2.2.1]; omega)]

/-- `plus` of operands with values. -/
theorem plus_sound {l r : Ex ℝ} {sl sr s : List Nat} {a b : List Nat → ℝ} (hl : Ev L D l sl a) (hr : Ev L D r sr b) (hf : Fits K sl sr s) :
    ∀ x y, eval L D l = ok x → eval L D r = ok y → (x.WF ∧ x.shape.getLast? ≠ some minusOne) ∧ (y.WF ∧ y.shape.getLast? ≠ some minusOne) := by
  intro x y hx hy
  obtain ⟨x', h1, h2⟩ := hl
  obtain ⟨y', k1, k2⟩ := hr
  rw [h1] at hx
  rw [k1] at hy
  cases hx
  cases hy
  exact ⟨⟨h2.wf, by rw [h2.1]; exact hf.ml⟩, k2.wf, by rw [k2.1]; exact hf.mr⟩

theorem sound_convPlus {p : ConvP} {BS R C CH : Nat} {x f : Ex ℝ} {a w : List Nat → ℝ} (h : ConvOk K D p BS R C CH) (hx : Ev L D x [BS, R, C, CH] a)
    (hf : Ev L D f [p.NC, p.kr, p.kc, CH] w) (hsx : Sound fk L D x) (hsf : Sound fk L D f) (i j : Nat) (h1 : fk (i + 1) ≠ .share) (h2 : fk (i + 2) ≠ .plus) (h3 : fk (i + 3) ≠ .share) :
    Sound fk L D (plusE K j (convE K i p.geo R C p.NC CH p.record x f) (.var p.b p.cb)) := by
  have hc := h.fits
  have hf' : Ev L D f [p.NC, p.geo.kr, p.geo.kc, CH] w := by simpa using hf
  obtain ⟨e5, _⟩ := ev_conv (K := K) h.fits hx hf' i
  generalize hg : p.geo = g at *
  have hkr : g.kr ≠ 0 := by have := hc.fit.1; omega
  have hkc : g.kc ≠ 0 := by have := hc.fit.2.1; omega
  have hK : g.kr * g.kc * CH ≠ 0 := Nat.mul_ne_zero (Nat.mul_ne_zero hkr hkc) hc.ch0
  have hcols : Conv.colsOf g BS R C ≠ 0 := by
    unfold Conv.colsOf
    exact Nat.mul_ne_zero (Nat.mul_ne_zero hc.bs0 (Conv.outDim_pos _ _ _ _ _).ne') (Conv.outDim_pos _ _ _ _ _).ne'
  have A1 : Adjoint (opReshape [g.kr * g.kc * CH]) [p.NC, g.kr, g.kc, CH] [p.NC, g.kr * g.kc * CH] (reidx [p.NC, g.kr, g.kc, CH] [p.NC, g.kr * g.kc * CH]) :=
    adj_reshape (by simp) (by simpa using hc.ch1) (by simpa using hK) (by simp) (by simpa using hc.taps) (by simp [Nat.mul_assoc])
  have A2 := adj_img2col K hc.fit hc.sz hc.record
  have A3 := adj_transpose K p.NC (Conv.colsOf g BS R C)
  have A4 : Adjoint (opReshape [Conv.outDim R g.kr g.pr g.sr g.dr, Conv.outDim C g.kc g.pc g.sc g.dc, p.NC]) [Conv.colsOf g BS R C, p.NC]
      [BS, Conv.outDim R g.kr g.pr g.sr g.dr, Conv.outDim C g.kc g.pc g.sc g.dc, p.NC]
      (reidx [Conv.colsOf g BS R C, p.NC] [BS, Conv.outDim R g.kr g.pr g.sr g.dr, Conv.outDim C g.kc g.pc g.sc g.dc, p.NC]) := by
    refine adj_reshape (by simp) (by simpa using hc.nc1) ?_ (by simp) (by simpa using hc.nc1) (by simp [Conv.colsOf, Nat.mul_assoc])
    simp only [size_cons, size_nil, mul_one]
    exact Nat.mul_ne_zero (Conv.outDim_pos _ _ _ _ _).ne' (Nat.mul_ne_zero (Conv.outDim_pos _ _ _ _ _).ne' hc.nc0)
  have e1 := A1.ev hf' i
  have e2 := A2.ev hx (i + 1)
  have e3 := ev_matmul2 (K := K) e1 e2 (Nat.pos_of_ne_zero hc.nc0) (Nat.pos_of_ne_zero hK) (Nat.pos_of_ne_zero hcols) (i + 2)
  have e4 := A3.ev e3 (i + 3)
  have hbh := h.bias.1.has
  rw [h.bias.2] at hbh
  have eb : Ev L D (.var p.b p.cb) [1, 1, p.NC] (D p.b).at := ⟨D p.b, rfl, hbh⟩
  have hplus := h.plus
  unfold ConvP.rows ConvP.columns at hplus
  rw [hg] at hplus
  have r1 := geo_kr p; have r2 := geo_kc p; have r3 := geo_sr p; have r4 := geo_sc p; have r5 := geo_dr p; have r6 := geo_dc p
  rw [hg] at r1 r2 r3 r4 r5 r6
  rw [← r1, ← r2, ← r3, ← r4, ← r5, ← r6] at hplus
  refine ⟨?_, trivial, fun _ => plus_sound e5 eb hplus⟩
  unfold convE
  rw [hc.cols]
  exact ⟨⟨⟨⟨hsf, fun _ => keeps_data A1 (by simp [Nat.mul_assoc]) hf'⟩, ⟨hsx, fun h => absurd h h1⟩, fun h => absurd h h2⟩, fun h => absurd h h3⟩,
    fun _ => keeps_data A4 (by simp [Conv.colsOf, Nat.mul_assoc]) e4⟩

theorem build_sound (k : Kind) {i : Nat} {s : List Nat} {e : Ex ℝ} {a : List Nat → ℝ} (hkd : Kinds fk i k) (hk : Ok K D s k) (he : Ev L D e s a) (hse : Sound fk L D e) :
    Sound fk L D (build K i s e k) := by
  have ns : ∀ o, o < 9 → o ∉ shareAt k → fk (i + o) ≠ .share := fun o ho hn h => hn ((hkd o ho).1 h)
  have np : ∀ o, o < 9 → o ∉ plusAt k → fk (i + o) ≠ .plus := fun o ho hn h => hn ((hkd o ho).2 h)
  have un : ∀ op : UOp ℝ, 0 ∉ shareAt k → Sound fk L D (.un i op e) := fun op h => ⟨hse, fun h' => absurd h' (ns 0 (by omega) h)⟩
  cases k with
  | act op => exact un _ (by simp [shareAt])
  | dense w b units cw cb =>
    obtain ⟨m, k, rfl, hf, hw, hb⟩ := hk
    have hwh := hw.1.has
    rw [hw.2] at hwh
    have hbh := hb.1.has
    rw [hb.2] at hbh
    refine ⟨⟨hse, trivial, fun h => absurd h (np 0 (by omega) (by simp [plusAt]))⟩, trivial, fun _ => ?_⟩
    have hm := ev_matmul2 (K := K) he (show Ev L D (.var w cw) [k, units] (D w).at from ⟨D w, rfl, hwh⟩) hf.m0 hf.k0 hf.n0 i
    exact plus_sound hm (show Ev L D (.var b cb) [1, units] (D b).at from ⟨D b, rfl, hbh⟩) hf.fits
  | conv2D p =>
    obtain ⟨BS, R, C, CH, rfl, h⟩ := hk
    have hwh := h.weight.1.has
    rw [h.weight.2] at hwh
    exact sound_convPlus h he (show Ev L D (.var p.w p.cw) _ (D p.w).at from ⟨D p.w, rfl, hwh⟩) hse trivial i (i + 5) (ns 1 (by omega) (by simp [shareAt])) (np 2 (by omega) (by simp [plusAt])) (ns 3 (by omega) (by simp [shareAt]))
  | conv1D p =>
    obtain ⟨BS, n, CH, rfl, hn1, h⟩ := hk
    have hwh := h.weight.1.has
    rw [h.weight.2] at hwh
    have A1 : Adjoint (opExpand 2) [BS, n, CH] [BS, n, 1, CH] (reidx [BS, n, CH] [BS, n, 1, CH]) :=
      adj_expand (k := 2) (by simp) (by
        simp only [List.mem_cons, List.not_mem_nil, or_false, not_or]
        exact ⟨h.bs1.symm, hn1.symm, h.fits.ch1.symm⟩) (by simp)
    have e1 := A1.ev he i
    obtain ⟨e2, _⟩ := ev_conv2D h e1 (i + 1)
    have hcol : p.flatKernel.columns 1 = 1 := by
      unfold ConvP.columns Conv.outDim ConvP.geo Net.geo ConvP.flatKernel
      split <;> simp [Conv.samePad]
    rw [hcol] at e2
    have A2 : Adjoint (opSqueeze 2) [BS, p.flatKernel.rows n, 1, p.flatKernel.NC] [BS, p.flatKernel.rows n, p.flatKernel.NC]
        (reidx [BS, p.flatKernel.rows n, 1, p.flatKernel.NC] [BS, p.flatKernel.rows n, p.flatKernel.NC]) :=
      adj_squeeze (k := 2) (by
        simp only [List.mem_cons, List.not_mem_nil, or_false, not_or]
        exact ⟨h.bs1.symm, h.rows1.symm, by decide, h.fits.nc1.symm⟩) rfl (by simp)
    refine ⟨?_, fun _ => keeps_data A2 (by simp) e2⟩
    exact sound_convPlus h e1 (show Ev L D (.var p.w p.cw) _ (D p.w).at from ⟨D p.w, rfl, hwh⟩) ⟨hse, fun _ => keeps_data A1 (by simp) he⟩ trivial (i + 1) (i + 6)
      (ns 2 (by omega) (by simp [shareAt])) (np 3 (by omega) (by simp [plusAt])) (ns 4 (by omega) (by simp [shareAt]))
  | convTranspose p =>
    obtain ⟨BS, R, C, CH, rfl, h⟩ := hk
    have hwh := h.weight.1.has
    rw [h.weight.2] at hwh
    have hw : Ev L D (.var p.w p.cw) [p.NC, p.kr, p.kc, CH] (D p.w).at := ⟨D p.w, rfl, hwh⟩
    have hfit := h.fits.fit
    unfold Conv.Geo.Fits at hfit
    simp only [geo_kr, geo_kc, geo_sr, geo_sc, geo_dr, geo_dc] at hfit
    have hne : size [p.NC, p.kr, p.kc, CH] ≠ 0 := by
      simp only [size_cons, size_nil, mul_one]
      exact Nat.mul_ne_zero h.fits.nc0 (Nat.mul_ne_zero (by omega) (Nat.mul_ne_zero (by omega) h.fits.ch0))
    have A1 := adj_spread K (BS := BS) (R := R) (C := C) (CH := CH) (same := p.same) hfit.1 hfit.2.1 hfit.2.2.1 hfit.2.2.2.1
    have A2 : Adjoint (opFlip K 2) [p.NC, p.kr, p.kc, CH] [p.NC, p.kr, p.kc, CH] (fun a is => a (is.set 2 (p.kc - 1 - is.getD 2 0))) :=
      adj_flip K [p.NC, p.kr] [CH] p.kc (by simp) hne
    have A3 : Adjoint (opFlip K 1) [p.NC, p.kr, p.kc, CH] [p.NC, p.kr, p.kc, CH] (fun a is => a (is.set 1 (p.kr - 1 - is.getD 1 0))) :=
      adj_flip K [p.NC] [p.kc, CH] p.kr (by simp) hne
    exact sound_convPlus h (A1.ev he i) (A3.ev (A2.ev hw (i + 1)) (i + 2)) ⟨hse, fun h => absurd h (ns 0 (by omega) (by simp [shareAt]))⟩
      ⟨⟨trivial, fun h => absurd h (ns 1 (by omega) (by simp [shareAt]))⟩, fun h => absurd h (ns 2 (by omega) (by simp [shareAt]))⟩ (i + 3) (i + 8)
      (ns 4 (by omega) (by simp [shareAt])) (np 5 (by omega) (by simp [plusAt])) (ns 6 (by omega) (by simp [shareAt]))
  | flatten =>
    obtain ⟨b, s', rfl, h1, h2, h3, h4⟩ := hk
    exact ⟨hse, fun _ => keeps_data (adj_flatten h1 h2 h3 h4) (by simp) he⟩
  | reshape shape =>
    obtain ⟨h1, h2, h3, h4, h5, h6⟩ := hk
    exact ⟨hse, fun _ => keeps_data (adj_reshape h1 h2 h3 h4 h5 (n := size s / size shape) (Nat.div_mul_cancel h6).symm) (by simp [Nat.div_mul_cancel h6]) he⟩
  | avgPool n => exact un _ (by simp [shareAt])
  | maxPool n mask gcache => exact un _ (by simp [shareAt])
  | upSample n => exact un _ (by simp [shareAt])
  | zeroPad p cache => exact un _ (by simp [shareAt])
  | crop p => exact un _ (by simp [shareAt])

theorem network_sound (ks : List Kind) : ∀ (i : Nat) (s : List Nat) (e : Ex ℝ) (a : List Nat → ℝ), NetKinds fk ks i → NetOk K D ks s → Ev L D e s a → Sound fk L D e →
    Sound fk L D (stack K ks i s e) := by
  induction ks with
  | nil => intro i s e a _ _ _ h; exact h
  | cons k ks ih =>
    intro i s e a hk ho he h
    exact ih _ _ _ _ hk.2 ho.2 (build_ok k ho.1 he i).1 (build_sound k hk.1 ho.1 he h)

end

/-- After a training pass of the loss `e` on shared storages, started in `s`: the result is the value of the loss, the variables are what they were, and the
gradient in each variable's gradient storage is at every index `k` times the partial derivative of the value of the loss with respect to that element, plus the
regularisation term once per object of the variable. -/
def HStores (eps : ℝ) (fk : Nat → FKind) (bk : Nat → Bool → BKind) (e : Ex ℝ) (s : TSt ℝ) (L D : Nat → Ten ℝ) (cfg : Nat → Cfg ℝ) (k : ℝ) : Prop :=
  ∃ x s' y, hpass eps fk bk e Optim.ones1 s = ok (x, s') ∧ denote s'.heap x = some y ∧ eval L D e = ok y ∧
    ∀ v ∈ vars e, denote s'.heap (s'.varT v) = some (D v) ∧ ∃ G, denote s'.heap (s'.gradT v) = some G ∧ G.WF ∧ G.shape = (D v).shape ∧ ∀ is, ValidIdx (D v).shape is →
      ∃ (Y : ℝ → Ten ℝ) (d : ℝ), (∀ h : ℝ, eval L (upd D v (bump (D v) is h)) e = ok (Y h)) ∧ HasDerivAt (fun h => (Y h).at [0]) d 0 ∧
        G.at is = k * d + ((varOccs e none).filter (fun p => p.2 = v)).toFinset.card • regTerm eps (cfg v) ((D v).at is)

/-- A loss that stores derivatives by value stores them on shared storages. -/
theorem stores_shared {eps : ℝ} {fk : Nat → FKind} (bk : Nat → Bool → BKind) {e : Ex ℝ} (hnd : (ids e).Nodup) {s : TSt ℝ} {st : St ℝ} (hsf : Safe fk e) (hso : Sound fk st.leaf st.data e)
    (hl : Lay e s.heap.length s) (hlf : ∀ k ∈ leaves e, denote s.heap (s.leafT k) = some (st.leaf k)) (hsim : Sim e s st) {cfg : Nat → Cfg ℝ} {k : ℝ} (h : Stores eps e st cfg k) :
    HStores eps fk bk e s st.leaf st.data cfg k := by
  obtain ⟨y, s1, s2, h1, h2, h3, h4, h5⟩ := h
  obtain ⟨x, s', k1, k2, k3, k4, k5⟩ := training_pass_partial eps fk bk e hnd s st hsf hso hl hlf hsim h1 h3
  refine ⟨x, s', y, k1, k2, h2, fun v hv => ⟨by rw [k3.var v hv, h4], _, k3.grad v hv, (h5 v hv).1.1, (h5 v hv).1.2, (h5 v hv).2⟩⟩

section
variable {K : Kit} {ks : List Kind} {sh : List Nat} {inp gt : Nat} {st : St ℝ} {cfg : Nat → Cfg ℝ} {fk : Nat → FKind}

/-- C106 for networks: training a network of any layers with `squared_loss`, inputs and labels in different storages, on shared storages stores the derivatives of
the loss (plus the regularisation) in every variable of every layer. -/
theorem network_training_partial (eps : ℝ) (bk : Nat → Bool → BKind) (h : Ready K ks sh inp gt st cfg) (hne : gt ≠ inp) (hk : NetKinds fk ks 0)
    (hk0 : fk (9 * ks.length) ≠ .share) (hk2 : fk (9 * ks.length + 2) ≠ .share) (hk3 : fk (9 * ks.length + 3) ≠ .share) {s : TSt ℝ}
    (hl : Lay (squaredLoss K (9 * ks.length) (.leaf gt) (stack K ks 0 sh (.leaf inp))) s.heap.length s)
    (hi : denote s.heap (s.leafT inp) = some (st.leaf inp)) (hg : denote s.heap (s.leafT gt) = some (st.leaf gt))
    (hsim : Sim (squaredLoss K (9 * ks.length) (.leaf gt) (stack K ks 0 sh (.leaf inp))) s st) :
    HStores eps fk bk (squaredLoss K (9 * ks.length) (.leaf gt) (stack K ks 0 sh (.leaf inp))) s st.leaf st.data cfg 1 := by
  obtain ⟨e1, _, e3, _⟩ := h.ops
  have hids := network_ids (K := K) ks 0 sh (.leaf inp) (by simp [ids]) (by simp [ids])
  have hn : ∀ j, 9 * ks.length ≤ j → j ∉ ids (stack K ks 0 sh (.leaf inp)) := fun j hj hm => absurd (hids.2 j hm) (by omega)
  have hlv : leaves (stack K ks 0 sh (.leaf inp)) = [inp] := network_leaves ks 0 sh (.leaf inp)
  have einp : Ev st.leaf st.data (.leaf inp) sh (st.leaf inp).at := by have := ev_leaf (D := st.data) h.input.1 h.input.2.2; rwa [h.input.2.1] at this
  have hgt : gt ∉ leaves (stack K ks 0 sh (.leaf inp)) := by rw [hlv]; simpa using hne
  refine stores_shared bk ?_ ?_ ?_ hl ?_ hsim (network_squared_gradient eps h)
  · simp only [squaredLoss, el, minusE, plusE, ids, List.nil_append, List.nodup_cons, List.mem_cons, not_or]
    exact ⟨⟨by omega, by omega, by omega, hn _ (by omega)⟩, ⟨by omega, by omega, hn _ (by omega)⟩, ⟨by omega, hn _ (by omega)⟩, hn _ (by omega), hids.1⟩
  · refine ⟨⟨⟨trivial, ⟨network_safe ks 0 sh _ hk trivial, fun h' => absurd h' hk0⟩, fun k hk' => by simp [killed] at hk', fun k hk' => ?_, fun _ => ⟨pluses _ _, trivial, fun k hk' => ?_⟩⟩,
      fun h' => absurd h' hk2⟩, fun h' => absurd h' hk3⟩
    · simp only [leaves, List.mem_singleton]
      rintro rfl
      exact hgt (killed_leaves (stack K ks 0 sh (.leaf inp)) hk')
    · simp only [endOf, End.leaf.injEq] at hk'
      subst hk'
      exact hgt
  · exact ⟨⟨⟨trivial, ⟨network_sound ks 0 sh _ _ hk h.ok einp trivial, fun h' => absurd h' hk0⟩, fun _ => plus_sound e1 (e3.el (9 * ks.length) .negative) h.out.fits⟩,
      fun h' => absurd h' hk2⟩, fun h' => absurd h' hk3⟩
  · intro k hk'
    have : k ∈ leaves (.leaf gt : Ex ℝ) ++ leaves (stack K ks 0 sh (.leaf inp)) := hk'
    rw [hlv] at this
    simp only [leaves, List.cons_append, List.nil_append, List.mem_cons, List.not_mem_nil, or_false] at this
    rcases this with rfl | rfl
    · exact hg
    · exact hi

end
end
end Verif.Train
