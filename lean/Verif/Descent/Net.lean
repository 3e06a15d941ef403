import Verif.Descent.Props
/-!
# Property C111: fitting networks of layers is descent

The loss of a network is a function of its weights, the operators of its layers hold after a pass again what the next pass needs, and therefore `fit` follows
the descent path of the losses of the batches.
-/
namespace Verif.Descent
open Verif Res View Data Ops Graph Loss Optim Fit Net Pool
open Verif.Conv (spreadDim)

noncomputable section

/-! ### what operators hold -/

/-- A layer without what its operators hold. -/
def bare : Kind → Kind
  | .conv2D p => .conv2D { p with record := [] }
  | .conv1D p => .conv1D { p with record := [] }
  | .convTranspose p => .convTranspose { p with record := [] }
  | .zeroPad p _ => .zeroPad p ⟨[], []⟩
  | .maxPool n _ _ => .maxPool n ⟨[], []⟩ ⟨[], []⟩
  | k => k

/-- What the operators of a layer hold after a pass over `x`: `img2col` its record (include/operation.hpp lines 1532, 1557-1598), `zero_padding_2d` its output
(lines 2765-2775).  Max pooling is left out: its mask is not cleared (C41). -/
def leaves (K : Kit) (x : Ten ℝ) : Kind → Res Kind
  | .conv2D p => do
    let r ← Conv.img2col p.geo x K.cacheF p.record
    pure (.conv2D { p with record := r.2 })
  | .conv1D p => do
    let x ← expandDims x 2
    let r ← Conv.img2col p.flatKernel.geo x K.cacheF p.record
    pure (.conv1D { p with record := r.2 })
  | .convTranspose p => do
    let x ← Conv.spread p.kr p.kc p.sr p.sc p.same x K.cacheF
    let r ← Conv.img2col p.geo x K.cacheF p.record
    pure (.convTranspose { p with record := r.2 })
  | .zeroPad p cache => do
    let y ← zeroPad p x cache
    pure (.zeroPad p y)
  | k => ok k

/-- What the operators of a network hold after a pass. -/
def netLeaves (K : Kit) (L D : Nat → Ten ℝ) : List Kind → Nat → List Nat → Ex ℝ → Res (List Kind)
  | [], _, _, _ => ok []
  | k :: ks, i, s, e => do
    let x ← eval L D e
    let k' ← leaves K x k
    let r ← netLeaves K L D ks (i + 9) (outShape s k) (build K i s e k)
    pure (k' :: r)

/-- No max pooling. -/
def NoMax (ks : List Kind) : Prop := ∀ k ∈ ks, ∀ n m c, k ≠ .maxPool n m c

theorem bare_outShape (s : List Nat) (k : Kind) : outShape s (bare k) = outShape s k := by cases k <;> rfl

theorem bare_val (D : Nat → Ten ℝ) (s : List Nat) (a : List Nat → ℝ) (k : Kind) : val D s a (bare k) = val D s a k := by cases k <;> rfl

theorem bare_dom (s : List Nat) (a : List Nat → ℝ) (k : Kind) : Dom s a (bare k) ↔ Dom s a k := by cases k <;> rfl

theorem bare_params (k : Kind) : params (bare k) = params k := by cases k <;> rfl

theorem bare_netShape (ks : List Kind) : ∀ s, netShape (ks.map bare) s = netShape ks s := by
  induction ks with
  | nil => intro s; rfl
  | cons k ks ih => intro s; simp only [List.map_cons, netShape, bare_outShape, ih]

theorem bare_netVal (D : Nat → Ten ℝ) (ks : List Kind) : ∀ s a, netVal D (ks.map bare) s a = netVal D ks s a := by
  induction ks with
  | nil => intro s a; rfl
  | cons k ks ih => intro s a; simp only [List.map_cons, netVal, bare_outShape, bare_val, ih]

theorem bare_netDom (D : Nat → Ten ℝ) (ks : List Kind) : ∀ s a, NetDom D (ks.map bare) s a ↔ NetDom D ks s a := by
  induction ks with
  | nil => intro s a; rfl
  | cons k ks ih => intro s a; simp only [List.map_cons, NetDom, bare_outShape, bare_val, ih, bare_dom]

/-- The variables of a network. -/
def weightsOf (ks : List Kind) : List Nat := ks.flatMap (fun k => (params k).map (·.1))

theorem bare_weightsOf (ks : List Kind) : weightsOf (ks.map bare) = weightsOf ks := by
  unfold weightsOf
  rw [List.flatMap_map]
  simp only [bare_params]

/-- Two networks that differ in what their operators hold, only. -/
def SameNet (ks ks' : List Kind) : Prop := ks.map bare = ks'.map bare

theorem SameNet.shape {ks ks' : List Kind} (h : SameNet ks ks') (s : List Nat) : netShape ks s = netShape ks' s := by
  rw [← bare_netShape ks, ← bare_netShape ks', h]

theorem SameNet.val {ks ks' : List Kind} (h : SameNet ks ks') (D : Nat → Ten ℝ) (s : List Nat) (a : List Nat → ℝ) : netVal D ks s a = netVal D ks' s a := by
  rw [← bare_netVal D ks, ← bare_netVal D ks', h]

theorem SameNet.dom {ks ks' : List Kind} (h : SameNet ks ks') (D : Nat → Ten ℝ) (s : List Nat) (a : List Nat → ℝ) : NetDom D ks s a ↔ NetDom D ks' s a := by
  rw [← bare_netDom D ks, ← bare_netDom D ks', h]

theorem SameNet.weights {ks ks' : List Kind} (h : SameNet ks ks') : weightsOf ks = weightsOf ks' := by
  rw [← bare_weightsOf ks, ← bare_weightsOf ks', h]

theorem SameNet.length {ks ks' : List Kind} (h : SameNet ks ks') : ks.length = ks'.length := by
  have := congrArg List.length h
  simpa using this

theorem SameNet.param {ks ks' : List Kind} (h : SameNet ks ks') {k : Kind} (hk : k ∈ ks) : ∃ k' ∈ ks', params k = params k' := by
  have : bare k ∈ ks'.map bare := by rw [← h]; exact List.mem_map_of_mem hk
  obtain ⟨k', h1, h2⟩ := List.mem_map.mp this
  exact ⟨k', h1, by rw [← bare_params k, ← bare_params k', h2]⟩

/-! ### the variables of a network -/

theorem build_vars_iff {K : Kit} (k : Kind) (i : Nat) (s : List Nat) (e : Ex ℝ) (v : Nat) : v ∈ vars (build K i s e k) ↔ v ∈ vars e ∨ v ∈ (params k).map (·.1) := by
  cases k <;> simp only [build, el, dense, conv1DLayer, conv2DLayer, convTransposeLayer, convE, plusE, vars, params, List.mem_append, List.map_cons,
    List.map_nil, List.mem_cons, List.not_mem_nil, or_false] <;> tauto

theorem stack_vars_iff {K : Kit} (ks : List Kind) : ∀ (i : Nat) (s : List Nat) (e : Ex ℝ) (v : Nat), v ∈ vars (stack K ks i s e) ↔ v ∈ vars e ∨ v ∈ weightsOf ks := by
  induction ks with
  | nil => intro i s e v; simp [stack, weightsOf]
  | cons k ks ih =>
    intro i s e v
    rw [stack, ih, build_vars_iff]
    simp only [weightsOf, List.flatMap_cons, List.mem_append]
    tauto

/-! ### where a network can be applied does not depend on the weights' elements -/

theorem Ok.congr {K K' : Kit} {D D' : Nat → Ten ℝ} {s : List Nat} (hr : K'.red = K.red) (hf : K'.fuel = K.fuel) (k : Kind)
    (hD : ∀ v ∈ (params k).map (·.1), (D' v).shape = (D v).shape ∧ ((D v).WF → (D' v).WF)) (h : Ok K D s k) : Ok K' D' s k := by
  have conv : ∀ (p : ConvP) (BS R C CH : Nat), (∀ v ∈ [p.w, p.b], (D' v).shape = (D v).shape ∧ ((D v).WF → (D' v).WF)) → ConvOk K D p BS R C CH → ConvOk K' D' p BS R C CH := by
    intro p BS R C CH hD h
    have h1 := hD p.w (by simp)
    have h2 := hD p.b (by simp)
    exact ⟨by rw [hr]; exact h.reduces, by rw [hf]; exact h.fuel, ⟨h1.2 h.weight.1, by rw [h1.1]; exact h.weight.2⟩, ⟨h2.2 h.bias.1, by rw [h2.1]; exact h.bias.2⟩,
      h.fits, h.same, h.bs1, h.rows1, h.cols1⟩
  cases k with
  | dense w b units cw cb =>
    obtain ⟨m, k, h1, h2, h3, h4⟩ := h
    have g1 := hD w (by simp [params])
    have g2 := hD b (by simp [params])
    exact ⟨m, k, h1, ⟨by rw [hr]; exact h2.1, by rw [hf]; exact h2.2, h2.3, h2.4, h2.5, h2.6, h2.7⟩, ⟨g1.2 h3.1, by rw [g1.1]; exact h3.2⟩, g2.2 h4.1, by rw [g2.1]; exact h4.2⟩
  | conv2D p =>
    obtain ⟨BS, R, C, CH, h1, h2⟩ := h
    exact ⟨BS, R, C, CH, h1, conv p _ _ _ _ hD h2⟩
  | conv1D p =>
    obtain ⟨BS, n, CH, h1, h2, h3⟩ := h
    exact ⟨BS, n, CH, h1, h2, conv p.flatKernel _ _ _ _ hD h3⟩
  | convTranspose p =>
    obtain ⟨BS, R, C, CH, h1, h2⟩ := h
    exact ⟨BS, R, C, CH, h1, conv p _ _ _ _ hD h2⟩
  | act op => exact h
  | flatten => exact h
  | reshape shape => exact h
  | avgPool n => exact h
  | maxPool n mask gcache => exact h
  | upSample n => exact h
  | zeroPad p cache => exact h
  | crop p => exact h

theorem NetOk.congr {K K' : Kit} {D D' : Nat → Ten ℝ} (hr : K'.red = K.red) (hf : K'.fuel = K.fuel) (ks : List Kind) : ∀ s,
    (∀ v ∈ weightsOf ks, (D' v).shape = (D v).shape ∧ ((D v).WF → (D' v).WF)) → NetOk K D ks s → NetOk K' D' ks s := by
  induction ks with
  | nil => intro s _ _; trivial
  | cons k ks ih =>
    intro s hD h
    simp only [weightsOf, List.flatMap_cons, List.mem_append] at hD
    exact ⟨Ok.congr hr hf k (fun v hv => hD v (Or.inl hv)) h.1, ih _ (fun v hv => hD v (Or.inr hv)) h.2⟩

theorem Ok.wf {K : Kit} {D : Nat → Ten ℝ} {s : List Nat} (k : Kind) (h : Ok K D s k) : ∀ v ∈ (params k).map (·.1), (D v).WF := by
  cases k <;> simp only [params, List.map_cons, List.map_nil, List.mem_cons, List.not_mem_nil, or_false, false_implies, implies_true]
  case dense w b units cw cb =>
    obtain ⟨m, k, _, _, h3, h4⟩ := h
    rintro v (rfl | rfl)
    · exact h3.1
    · exact h4.1
  case conv2D p =>
    obtain ⟨_, _, _, _, _, h⟩ := h
    rintro v (rfl | rfl)
    · exact h.weight.1
    · exact h.bias.1
  case conv1D p =>
    obtain ⟨_, _, _, _, _, h⟩ := h
    rintro v (rfl | rfl)
    · exact h.weight.1
    · exact h.bias.1
  case convTranspose p =>
    obtain ⟨_, _, _, _, _, h⟩ := h
    rintro v (rfl | rfl)
    · exact h.weight.1
    · exact h.bias.1

theorem NetOk.wf {K : Kit} {D : Nat → Ten ℝ} (ks : List Kind) : ∀ s, NetOk K D ks s → ∀ v ∈ weightsOf ks, (D v).WF := by
  induction ks with
  | nil => intro s _ v hv; simp [weightsOf] at hv
  | cons k ks ih =>
    intro s h v hv
    simp only [weightsOf, List.flatMap_cons, List.mem_append] at hv
    rcases hv with hv | hv
    · exact Ok.wf k h.1 v hv
    · exact ih _ h.2 v hv

/-! ### what operators hold after a pass -/

theorem conv_leaves {K : Kit} {D : Nat → Ten ℝ} {p : ConvP} {BS R C CH : Nat} {x : Ten ℝ} {a : List Nat → ℝ} (h : ConvOk K D p BS R C CH) (hx : x.Has [BS, R, C, CH] a) :
    ∃ r, Conv.img2col p.geo x K.cacheF p.record = ok r ∧ ConvOk K D { p with record := r.2 } BS R C CH := by
  obtain ⟨u, r, h1, _, h3⟩ := Conv.img2col_fresh (cache := K.cacheF) (cache' := K.cacheF) (rec := p.record) (rec' := p.record) hx.1 (by rw [hx.2.1]; simp [size]; ring) h.fits.fit h.fits.sz
    h.fits.record h.fits.record
  exact ⟨(u, r), h1, h.reduces, h.fuel, h.weight, h.bias, { h.fits with record := Or.inl h3 }, h.same, h.bs1, h.rows1, h.cols1⟩

theorem leaves_ok {K : Kit} {D : Nat → Ten ℝ} {s : List Nat} {x : Ten ℝ} {a : List Nat → ℝ} (k : Kind) (hm : ∀ n m c, k ≠ .maxPool n m c) (h : Ok K D s k) (hx : x.Has s a) :
    ∃ k', leaves K x k = ok k' ∧ bare k' = bare k ∧ Ok K D s k' ∧ ∀ n m c, k' ≠ .maxPool n m c := by
  cases k with
  | conv2D p =>
    obtain ⟨BS, R, C, CH, rfl, h2⟩ := h
    obtain ⟨r, g1, g2⟩ := conv_leaves h2 hx
    refine ⟨.conv2D { p with record := r.2 }, ?_, rfl, ⟨BS, R, C, CH, rfl, g2⟩, fun _ _ _ => by simp⟩
    show (Conv.img2col p.geo x K.cacheF p.record >>= _) = _
    rw [g1]; rfl
  | conv1D p =>
    obtain ⟨BS, n, CH, rfl, hn, h2⟩ := h
    have hms : minusOne ∉ [BS, n, CH] := by
      simp only [List.mem_cons, List.not_mem_nil, or_false, not_or]
      exact ⟨h2.bs1.symm, hn.symm, h2.fits.ch1.symm⟩
    obtain ⟨y, y1, y2⟩ := (adj_expand (s := [BS, n, CH]) (k := 2) (by simp) hms (by simp)).fwd _ _ hx
    obtain ⟨r, g1, g2⟩ := conv_leaves h2 (x := y) (by simpa using y2)
    refine ⟨.conv1D { p with record := r.2 }, ?_, rfl, ⟨BS, n, CH, rfl, hn, g2⟩, fun _ _ _ => by simp⟩
    have y1' : expandDims x 2 = ok y := y1
    show (expandDims x 2 >>= _) = _
    rw [y1', bind_ok]
    show (Conv.img2col p.flatKernel.geo y K.cacheF p.flatKernel.record >>= _) = _
    rw [g1]; rfl
  | convTranspose p =>
    obtain ⟨BS, R, C, CH, rfl, h2⟩ := h
    have hfit := h2.fits.fit
    unfold Conv.Geo.Fits at hfit
    simp only [geo_kr, geo_kc, geo_sr, geo_sc, geo_dr, geo_dc] at hfit
    obtain ⟨y, y1, y2⟩ := (adj_spread K (BS := BS) (R := R) (C := C) (CH := CH) (same := p.same) hfit.1 hfit.2.1 hfit.2.2.1 hfit.2.2.2.1).fwd _ _ hx
    have y1' : Conv.spread p.kr p.kc p.sr p.sc p.same x K.cacheF = ok y := y1
    obtain ⟨r, g1, g2⟩ := conv_leaves h2 y2
    refine ⟨.convTranspose { p with record := r.2 }, ?_, rfl, ⟨BS, R, C, CH, rfl, g2⟩, fun _ _ _ => by simp⟩
    show (Conv.spread p.kr p.kc p.sr p.sc p.same x K.cacheF >>= _) = _
    rw [y1', bind_ok]
    show (Conv.img2col p.geo y K.cacheF p.record >>= _) = _
    rw [g1]; rfl
  | zeroPad p cache =>
    obtain ⟨BS, R, C, CH, rfl, h2⟩ := h
    obtain ⟨u, h1, h3⟩ := zeroPad_border hx h2
    refine ⟨.zeroPad p u, ?_, rfl, ⟨BS, R, C, CH, rfl, Or.inr (fun b y x ch hb hy hxx hch hin => ?_)⟩, fun _ _ _ => by simp⟩
    · show (zeroPad p x cache >>= _) = _
      rw [h1]; rfl
    · have := (is4_iff.mp h3.2).2 b y x ch hb hy hxx hch
      rw [this]
      simp [padded, hin]
  | act op => exact ⟨_, rfl, rfl, h, hm⟩
  | dense w b units cw cb => exact ⟨_, rfl, rfl, h, hm⟩
  | flatten => exact ⟨_, rfl, rfl, h, hm⟩
  | reshape shape => exact ⟨_, rfl, rfl, h, hm⟩
  | avgPool n => exact ⟨_, rfl, rfl, h, hm⟩
  | maxPool n mask gcache => exact absurd rfl (hm n mask gcache)
  | upSample n => exact ⟨_, rfl, rfl, h, hm⟩
  | crop p => exact ⟨_, rfl, rfl, h, hm⟩

theorem netLeaves_ok {K : Kit} {L D : Nat → Ten ℝ} (ks : List Kind) : ∀ (i : Nat) (s : List Nat) (e : Ex ℝ) (a : List Nat → ℝ), NoMax ks → NetOk K D ks s → Ev L D e s a →
    ∃ ks', netLeaves K L D ks i s e = ok ks' ∧ SameNet ks' ks ∧ NetOk K D ks' s ∧ NoMax ks' := by
  induction ks with
  | nil => intro i s e a _ _ _; exact ⟨[], rfl, rfl, trivial, fun k hk => by simp at hk⟩
  | cons k ks ih =>
    intro i s e a hm h he
    obtain ⟨x, hx1, hx2⟩ := he
    obtain ⟨k', h1, h2, h3, h4⟩ := leaves_ok k (hm k (by simp)) h.1 hx2
    obtain ⟨ks', g1, g2, g3, g4⟩ := ih (i + 9) (outShape s k) (build K i s e k) _ (fun k hk => hm k (by simp [hk])) h.2 (build_ok k h.1 ⟨x, hx1, hx2⟩ i).1
    refine ⟨k' :: ks', ?_, ?_, ⟨h3, ?_⟩, ?_⟩
    · unfold netLeaves; rw [hx1, bind_ok, h1, bind_ok, g1]; rfl
    · unfold SameNet at g2 ⊢; rw [List.map_cons, List.map_cons, h2, g2]
    · have : outShape s k' = outShape s k := by rw [← bare_outShape s k', h2, bare_outShape]
      rw [this]; exact g3
    · intro j hj
      rcases List.mem_cons.mp hj with rfl | hj
      · exact h4
      · exact g4 j hj

/-! ### losses of networks -/

/-- What is asked of a loss `E`: it is the function `fl` of labels and outputs of shape `s'`, and a training pass stores `k` times its derivatives, where `dom` holds
of labels and outputs. -/
structure NetLoss (eps : ℝ) (E : Kit → Nat → Ex ℝ → Ex ℝ → Ex ℝ) (fl : (List Nat → ℝ) → (List Nat → ℝ) → ℝ) (dom : (List Nat → ℝ) → Prop) (k : ℝ) (s' : List Nat) : Prop where
  vars : ∀ K i l r v, v ∈ vars (E K i l r) ↔ v ∈ vars l ∨ v ∈ vars r
  value : ∀ (K : Kit) (i : Nat) (l r : Ex ℝ) (L D : Nat → Ten ℝ) (a b : List Nat → ℝ), Fits1 K s' → Ev L D l s' a → Ev L D r s' b → eval L D (E K i l r) = ok ⟨[1], [fl a b]⟩
  stores : ∀ (K : Kit) (ks : List Kind) (s : List Nat) (inp gt : Nat) (st : St ℝ) (cfg : Nat → Cfg ℝ), netShape ks s = s' → Net.Ready K ks s inp gt st cfg →
    dom (netVal st.data ks s (st.leaf inp).at) → Stores eps (E K (9 * ks.length) (.leaf gt) (stack K ks 0 s (.leaf inp))) st cfg k

/-- The sum of the squared differences. -/
def squaredOf (s' : List Nat) (a b : List Nat → ℝ) : ℝ := sumIdx s' (fun is => (a is - b is) ^ 2)

/-- The mean of the squared differences. -/
def meanSquaredOf (s' : List Nat) (a b : List Nat → ℝ) : ℝ := sumIdx s' (fun is => (a is - b is) ^ 2) / (size s' : ℝ)

/-- The cross entropy. -/
def crossEntropyOf (s' : List Nat) (a b : List Nat → ℝ) : ℝ := -sumIdx s' (fun is => a is * Real.log (b is))

theorem squared_netLoss (eps : ℝ) (s' : List Nat) : NetLoss eps squaredLoss (squaredOf s') (fun _ => True) 1 s' := by
  refine ⟨fun K i l r v => ?_, fun K i l r L D a b hf hl hr => ?_, fun K ks s inp gt st cfg _ h _ => network_squared_gradient eps h⟩
  · simp [squaredLoss, el, minusE, plusE, Graph.vars]
  · rw [squared_loss_value hl hr hf.fits i, squaredOf]
    rw [sumIdx_congr (fun is hv => by rw [bc_self hv])]

theorem cross_entropy_netLoss (eps : ℝ) (s' : List Nat) : NetLoss eps crossEntropy (crossEntropyOf s') (fun b => ∀ is, ValidIdx s' is → 0 < b is) 1 s' := by
  refine ⟨fun K i l r v => ?_, fun K i l r L D a b hf hl hr => cross_entropy_value hl hr hf.pos i, fun K ks s inp gt st cfg hs h hd => ?_⟩
  · simp [crossEntropy, hadE, el, Graph.vars]
  · subst hs; exact network_cross_entropy_gradient eps h hd

/-- `mean_squared_error`: the derivatives are stored with a factor (C99). -/
theorem mse_netLoss (eps : ℝ) (s' : List Nat) {c : Nat} (hc : meanBatch s' = ok c) (hc0 : c ≠ 0) :
    NetLoss eps mse (meanSquaredOf s') (fun _ => True) ((size s' : ℝ) / (c : ℝ)) s' := by
  refine ⟨fun K i l r v => ?_, fun K i l r L D a b hf hl hr => ?_, fun K ks s inp gt st cfg hs h _ => ?_⟩
  · simp [mse, el, minusE, plusE, Graph.vars]
  · rw [mse_value hl hr hf.fits i, meanSquaredOf]
    rw [sumIdx_congr (fun is hv => by rw [bc_self hv])]
  · subst hs; exact network_mse_gradient_partial eps h hc hc0

/-! ### networks -/

/-- A network that can be trained, on inputs of shape `s`, with variables of the shapes of `w`. -/
structure Trainable (eps : ℝ) (K : Kit) (ks : List Kind) (s : List Nat) (cfg : Nat → Cfg ℝ) (w : Nat → Ten ℝ) : Prop where
  ok : NetOk K w ks s
  noMax : NoMax ks
  out : Fits1 K (netShape ks s)
  pos : size s ≠ 0
  cfgs : ∀ k ∈ ks, ∀ vc ∈ params k, vc.2 = cfg vc.1 ∧ vc.2.trainable = true ∧ vc.2.l1 < eps ∧ vc.2.l2 < eps

/-- A network that can be run and trained, whatever the regularisers of its variables. -/
structure Network (K : Kit) (ks : List Kind) (s : List Nat) (cfg : Nat → Cfg ℝ) (w : Nat → Ten ℝ) : Prop where
  ok : NetOk K w ks s
  noMax : NoMax ks
  out : Fits1 K (netShape ks s)
  pos : size s ≠ 0
  cfgs : ∀ k ∈ ks, ∀ vc ∈ params k, vc.2 = cfg vc.1 ∧ vc.2.trainable = true

theorem Trainable.network {eps : ℝ} {K : Kit} {ks : List Kind} {s : List Nat} {cfg : Nat → Cfg ℝ} {w : Nat → Ten ℝ} (h : Trainable eps K ks s cfg w) : Network K ks s cfg w :=
  ⟨h.ok, h.noMax, h.out, h.pos, fun k hk vc hvc => ⟨(h.cfgs k hk vc hvc).1, (h.cfgs k hk vc hvc).2.1⟩⟩

/-- What the operators may hold: caches of any contents, and records and padded images as passes over such inputs leave them. -/
def Holds (K : Kit) (ks : List Kind) (s : List Nat) (w : Nat → Ten ℝ) (q : Kit × List Kind) : Prop :=
  q.1.red = K.red ∧ q.1.fuel = K.fuel ∧ SameNet q.2 ks ∧ NetOk K w q.2 s ∧ NoMax q.2

/-- The loss of a network whose operators hold `q`. -/
def netLoss (E : Kit → Nat → Ex ℝ → Ex ℝ → Ex ℝ) (s : List Nat) (inp gt : Nat) (q : Kit × List Kind) : Ex ℝ :=
  E q.1 (9 * q.2.length) (.leaf gt) (stack q.1 q.2 0 s (.leaf inp))

/-- What a pass leaves; `nk` says what becomes of the contents of caches. -/
def netAdv (nk : Kit → Kit) (s : List Nat) (inp : Nat) (q : Kit × List Kind) (st : St ℝ) : Res (Kit × List Kind) := do
  let r ← netLeaves q.1 st.leaf st.data q.2 0 s (.leaf inp)
  pure (nk q.1, r)

/-- The loss of a network and what is stored, with any regularisers. -/
theorem network_stores {eps k : ℝ} {K : Kit} {ks : List Kind} {s : List Nat} {cfg : Nat → Cfg ℝ} {w D : Nat → Ten ℝ} {inp gt : Nat} {E : Kit → Nat → Ex ℝ → Ex ℝ → Ex ℝ}
    {fl : (List Nat → ℝ) → (List Nat → ℝ) → ℝ} {dom : (List Nat → ℝ) → Prop} {nk : Kit → Kit} {x y : Ten ℝ} (hE : NetLoss eps E fl dom k (netShape ks s))
    (hT : Network K ks s cfg w) (hk : ∀ K, (nk K).red = K.red ∧ (nk K).fuel = K.fuel) (hx : x.WF ∧ x.shape = s) (hy : y.WF ∧ y.shape = netShape ks s)
    (hD : ∀ v ∈ weightsOf ks, (D v).shape = (w v).shape ∧ ((w v).WF → (D v).WF)) (hdom : NetDom D ks s x.at) (hd : dom (netVal D ks s x.at)) :
    (∀ q, Holds K ks s w q → ∀ v, v ∈ vars (netLoss E s inp gt q) ↔ v ∈ weightsOf ks) ∧
    (∀ q, Holds K ks s w q → ∀ L D', L inp = x → L gt = y → (∀ v ∈ weightsOf ks, (D' v).shape = (D v).shape ∧ ((D v).WF → (D' v).WF)) →
      eval L D' (netLoss E s inp gt q) = ok ⟨[1], [fl y.at (netVal D' ks s x.at)]⟩) ∧
    (∀ q, Holds K ks s w q → ∀ st : St ℝ, st.leaf inp = x → st.leaf gt = y → (∀ v ∈ weightsOf ks, st.data v = D v) → st.training = true →
      (∀ v ∈ weightsOf ks, (st.data v).WF ∧ (st.grad v).WF ∧ (st.grad v).shape = (st.data v).shape) → Stores eps (netLoss E s inp gt q) st cfg k) ∧
    (∀ q, Holds K ks s w q → ∀ st : St ℝ, st.leaf inp = x → st.leaf gt = y → (∀ v ∈ weightsOf ks, st.data v = D v) → (∀ v ∈ weightsOf ks, (st.data v).WF) →
      ∃ q', netAdv nk s inp q st = ok q' ∧ Holds K ks s w q') := by
  have hxd : x.data ≠ [] := fun h => by
    have := hx.1
    unfold Ten.WF at this
    rw [h, hx.2] at this
    exact hT.pos this.symm
  have hyd : y.data ≠ [] := fun h => by
    have := hy.1
    unfold Ten.WF at this
    rw [h, hy.2] at this
    exact hT.out.pos this.symm
  have hin : ∀ L D', L inp = x → Ev L D' (.leaf inp) s x.at := fun L D' h => by
    have := ev_leaf (L := L) (D := D') (k := inp) (by rw [h]; exact hx.1) (by rw [h]; exact hxd)
    rwa [h, hx.2] at this
  have hgt : ∀ L D', L gt = y → Ev L D' (.leaf gt) (netShape ks s) y.at := fun L D' h => by
    have := ev_leaf (L := L) (D := D') (k := gt) (by rw [h]; exact hy.1) (by rw [h]; exact hyd)
    rwa [h, hy.2] at this
  have hout : ∀ q, Holds K ks s w q → Fits1 q.1 (netShape ks s) := fun q h =>
    ⟨by rw [h.1]; exact hT.out.reduces, hT.out.ne, hT.out.ms, hT.out.rank, by rw [h.2.1]; exact hT.out.fuel, hT.out.pos⟩
  have hok : ∀ q D', Holds K ks s w q → (∀ v ∈ weightsOf ks, (D' v).shape = (D v).shape ∧ ((D v).WF → (D' v).WF)) → NetOk q.1 D' q.2 s := fun q D' h hD' =>
    NetOk.congr h.1 h.2.1 q.2 s (fun v hv => by
      rw [h.2.2.1.weights] at hv
      exact ⟨(hD' v hv).1.trans (hD v hv).1, fun hw => (hD' v hv).2 ((hD v hv).2 hw)⟩) h.2.2.2.1
  refine ⟨fun q h v => ?_, fun q h L D' hL1 hL2 hD' => ?_, fun q h st h1 h2 h3 h4 h5 => ?_, fun q h st h1 h2 h3 h4 => ?_⟩
  · unfold netLoss
    rw [hE.vars, stack_vars_iff, h.2.2.1.weights]
    simp [Graph.vars]
  · have e1 := network_value q.2 0 s (.leaf inp) _ (hok q D' h hD') (hin L D' hL1)
    rw [h.2.2.1.shape, h.2.2.1.val] at e1
    exact hE.value _ _ _ _ _ _ _ _ (hout q h) (hgt L D' hL2) e1
  · have hDs : ∀ v ∈ weightsOf ks, (st.data v).shape = (D v).shape ∧ ((D v).WF → (st.data v).WF) := fun v hv => by rw [h3 v hv]; exact ⟨rfl, id⟩
    have hval : ∀ (ks' : List Kind) (s : List Nat) (a : List Nat → ℝ), (∀ v ∈ weightsOf ks', st.data v = D v) →
        netVal st.data ks' s a = netVal D ks' s a ∧ (NetDom D ks' s a → NetDom st.data ks' s a) := by
      intro ks'
      induction ks' with
      | nil => intro s a _; exact ⟨rfl, id⟩
      | cons k' ks' ih =>
        intro s a hv
        simp only [weightsOf, List.flatMap_cons, List.mem_append] at hv
        have hk' : val st.data s a k' = val D s a k' := by
          cases k' <;> simp only [val]
          case dense w b _ _ _ => rw [hv w (Or.inl (by simp [params])), hv b (Or.inl (by simp [params]))]
          case conv2D p => rw [hv p.w (Or.inl (by simp [params])), hv p.b (Or.inl (by simp [params]))]
          case conv1D p => rw [hv p.w (Or.inl (by simp [params])), hv p.b (Or.inl (by simp [params]))]
          case convTranspose p => rw [hv p.w (Or.inl (by simp [params])), hv p.b (Or.inl (by simp [params]))]
        obtain ⟨i1, i2⟩ := ih (outShape s k') (val D s a k') (fun v hv' => hv v (Or.inr hv'))
        simp only [netVal, NetDom, hk']
        exact ⟨i1, fun hd => ⟨hd.1, i2 hd.2⟩⟩
    have hq3 : ∀ v ∈ weightsOf q.2, st.data v = D v := fun v hv => h3 v (by rwa [h.2.2.1.weights] at hv)
    refine hE.stores q.1 q.2 s inp gt st cfg (h.2.2.1.shape s) ⟨hok q st.data h hDs, by rw [h1]; exact ⟨hx.1, hx.2, hxd⟩, by rw [h2, h.2.2.1.shape]; exact hy,
      by rw [h.2.2.1.shape]; exact hout q h, h4, fun k' hk' vc hvc => ?_, fun k' hk' vc hvc => ?_, ?_⟩ ?_
    · exact h5 vc.1 (by rw [← h.2.2.1.weights]; exact List.mem_flatMap.mpr ⟨k', hk', List.mem_map_of_mem hvc⟩)
    · obtain ⟨k2, g1, g2⟩ := h.2.2.1.param hk'
      exact hT.cfgs k2 g1 vc (g2 ▸ hvc)
    · rw [h1]
      exact (hval q.2 s x.at hq3).2 ((h.2.2.1.dom D s x.at).mpr hdom)
    · rw [h1, (hval q.2 s x.at hq3).1, h.2.2.1.val]
      exact hd
  · have hDs : ∀ v ∈ weightsOf ks, (st.data v).shape = (D v).shape ∧ ((D v).WF → (st.data v).WF) := fun v hv => by rw [h3 v hv]; exact ⟨rfl, id⟩
    obtain ⟨ks', g1, g2, g3, g4⟩ := netLeaves_ok q.2 0 s (.leaf inp) _ h.2.2.2.2 (hok q st.data h hDs) (hin st.leaf st.data h1)
    refine ⟨(nk q.1, ks'), ?_, ?_⟩
    · unfold netAdv; rw [g1]; rfl
    · have hsame : SameNet ks' ks := by unfold SameNet at g2 ⊢; rw [g2]; exact h.2.2.1
      refine ⟨(hk q.1).1.trans h.1, (hk q.1).2.trans h.2.1, hsame, ?_, g4⟩
      refine NetOk.congr h.1.symm h.2.1.symm ks' s (fun v hv => ?_) g3
      rw [hsame.weights] at hv
      exact ⟨((hDs v hv).1.trans (hD v hv).1).symm, fun _ => NetOk.wf ks s hT.ok v hv⟩

/-- C111: a network learns. -/
theorem network_learns {eps k : ℝ} {K : Kit} {ks : List Kind} {s : List Nat} {cfg : Nat → Cfg ℝ} {w D : Nat → Ten ℝ} {inp gt : Nat} {E : Kit → Nat → Ex ℝ → Ex ℝ → Ex ℝ}
    {fl : (List Nat → ℝ) → (List Nat → ℝ) → ℝ} {dom : (List Nat → ℝ) → Prop} {nk : Kit → Kit} {x y : Ten ℝ} (hE : NetLoss eps E fl dom k (netShape ks s))
    (hT : Trainable eps K ks s cfg w) (hk : ∀ K, (nk K).red = K.red ∧ (nk K).fuel = K.fuel) (hx : x.WF ∧ x.shape = s) (hy : y.WF ∧ y.shape = netShape ks s)
    (hD : ∀ v ∈ weightsOf ks, (D v).shape = (w v).shape ∧ ((w v).WF → (D v).WF)) (hdom : NetDom D ks s x.at) (hd : dom (netVal D ks s x.at)) :
    Learns eps (netLoss E s inp gt) (netAdv nk s inp) (Holds K ks s w) (weightsOf ks) inp gt k x y D (fun D' => fl y.at (netVal D' ks s x.at)) := by
  obtain ⟨h1, h2, h3, h4⟩ := network_stores (inp := inp) (gt := gt) hE hT.network hk hx hy hD hdom hd
  refine ⟨h1, h2, fun q h st g1 g2 g3 g4 g5 => ⟨cfg, h3 q h st g1 g2 g3 g4 g5, fun v hv => ?_⟩, h4⟩
  obtain ⟨k', hk', hv'⟩ := List.mem_flatMap.mp hv
  obtain ⟨vc, hvc, rfl⟩ := List.mem_map.mp hv'
  have := hT.cfgs k' hk' vc hvc
  rw [← this.1]
  exact this.2.2

theorem path_fits (V : List Nat) (law : Law) (k : ℝ) (F : Nat → (Nat → Ten ℝ) → ℝ) (p : Point) (t : Nat) (v : Nat) :
    ((path V law k F p t).w v).shape = (p.w v).shape ∧ ((p.w v).WF → ((path V law k F p t).w v).WF) := by
  induction t with
  | zero => exact ⟨rfl, id⟩
  | succ t ih =>
    simp only [path, next]
    split
    · exact ⟨ih.1, fun _ => (Optim.tenOf_has _ _).wf⟩
    · exact ih

section
variable {O : Type} {eps k : ℝ} {step : Ex ℝ → O → OSt → Res (O × OSt)} {law : Law} {J : Nat → O → Prop} {M : List (Ten ℝ) → List Nat → (List Nat → ℝ × ℝ) → Prop}
  {K : Kit} {ks : List Kind} {cfg : Nat → Cfg ℝ} {inp gt : Nat} {nk : Kit → Kit} {inputs outputs : Ten ℝ} {bs n n' : Nat} {a b : List Nat} {XI YO : List Nat → ℝ} {epochs : Nat}
  {p : Point} {s : (Kit × List Kind) × O × OSt}

/-- The loss of batch `l`, as a function of the weights. -/
def batchLoss (fl : (List Nat → ℝ) → (List Nat → ℝ) → ℝ) (ks : List Kind) (inputs outputs : Ten ℝ) (bs : Nat) (a : List Nat) (l : Nat) (D : Nat → Ten ℝ) : ℝ :=
  fl (batch outputs bs l).at (netVal D ks (bs :: a) (batch inputs bs l).at)

/-- C111. `fit` without validation batches, for a network of any layers but max pooling, any loss of `NetLoss` and any optimizer of `Moves`: one step of descent on
the loss of each batch, epoch after epoch.  The weights afterwards are those of the path; the losses recorded are those along the path; every epoch reports their
mean. -/
theorem network_fit_descends {E : Kit → Nat → Ex ℝ → Ex ℝ → Ex ℝ} {fl : (List Nat → ℝ) → (List Nat → ℝ) → ℝ} {dom : (List Nat → ℝ) → Prop}
    (hm : Moves eps step law J M) (hE : NetLoss eps E fl dom k (netShape ks (bs :: a))) (hT : Trainable eps K ks (bs :: a) cfg p.w)
    (hk : ∀ K, (nk K).red = K.red ∧ (nk K).fuel = K.fuel) (hi : inputs.Has (n :: a) XI) (ho : outputs.Has (n' :: b) YO) (hn : n ≤ n') (hlab : netShape ks (bs :: a) = bs :: b)
    (hne : inp ≠ gt)
    (hd : ∀ t, t < epochs * (n / bs) → NetDom (path (weightsOf ks) law k (fun t => batchLoss fl ks inputs outputs bs a (t % (n / bs))) p t).w ks (bs :: a) (batch inputs bs (t % (n / bs))).at ∧
      dom (netVal (path (weightsOf ks) law k (fun t => batchLoss fl ks inputs outputs bs a (t % (n / bs))) p t).w ks (bs :: a) (batch inputs bs (t % (n / bs))).at))
    (hs : Along (Holds K ks (bs :: a) p.w) (weightsOf ks) J M 0 p ((compiledWith (netLoss E (bs :: a) inp gt) (netAdv nk (bs :: a) inp) inp gt step).phase true s)) :
    ∃ f, fit (compiledWith (netLoss E (bs :: a) inp gt) (netAdv nk (bs :: a) inp) inp gt step) inputs outputs bs epochs 0 s = ok f ∧
      (∀ v ∈ weightsOf ks, f.s.2.2.st.data v = (path (weightsOf ks) law k (fun t => batchLoss fl ks inputs outputs bs a (t % (n / bs))) p (epochs * (n / bs))).w v) ∧
      f.log = (List.range epochs).flatMap (fun ep => epochLog (batch inputs bs) (batch outputs bs) (fun l => batchLoss fl ks inputs outputs bs a l
        (path (weightsOf ks) law k (fun t => batchLoss fl ks inputs outputs bs a (t % (n / bs))) p (ep * (n / bs) + l)).w) (fun _ => true) (n / bs)) ∧
      f.trainErr = (List.range epochs).map (fun ep => (∑ l ∈ Finset.range (n / bs), batchLoss fl ks inputs outputs bs a l
        (path (weightsOf ks) law k (fun t => batchLoss fl ks inputs outputs bs a (t % (n / bs))) p (ep * (n / bs) + l)).w) / ((n / bs : Nat) : ℝ)) := by
  have hbs : 0 < bs := by
    rcases Nat.eq_zero_or_pos bs with h | h
    · exact absurd (by rw [h]; simp) hT.pos
    · exact h
  have hmod : ∀ ep l, l < n / bs → (ep * (n / bs) + l) % (n / bs) = l := fun ep l hl => by rw [Nat.mul_comm, Nat.mul_add_mod, Nat.mod_eq_of_lt hl]
  obtain ⟨f, h1, h2, h3, h4⟩ := fit_descends (F := fun t => batchLoss fl ks inputs outputs bs a (t % (n / bs))) hm hbs hi ho hn hne (fun t ht => by
    have hpos : 0 < n / bs := by
      rcases Nat.eq_zero_or_pos (n / bs) with h | h
      · rw [h] at ht; omega
      · exact h
    have hlt : t % (n / bs) < n / bs := Nat.mod_lt _ hpos
    have hx := batch_isBatch hi hlt n a XI hi
    have hy := batch_isBatch ho (lt_of_lt_of_le hlt (Nat.div_le_div_right hn)) n' b YO ho
    exact network_learns hE hT hk ⟨hx.wf, hx.1⟩ ⟨hy.wf, by rw [hlab]; exact hy.1⟩ (fun v _ => path_fits _ _ _ _ _ t v) (hd t ht).1 (hd t ht).2) hs
  refine ⟨f, h1, h2.weights, ?_, ?_⟩
  · rw [h3]
    refine List.flatMap_congr (fun ep _ => epochLog_congr (fun l hl => ?_))
    rw [hmod ep l hl]
  · rw [h4]
    refine List.map_congr_left (fun ep _ => ?_)
    congr 1
    refine Finset.sum_congr rfl (fun l hl => ?_)
    rw [hmod ep l (Finset.mem_range.mp hl)]

/-- A network whose activations have a derivative everywhere has derivatives everywhere. -/
theorem everywhere_dom {ks : List Kind} (hm : NoMax ks) (h : ∀ op, Kind.act op ∈ ks → ∀ x, op.Dom x) (D : Nat → Ten ℝ) : ∀ s a, NetDom D ks s a := by
  induction ks with
  | nil => intro s a; trivial
  | cons k ks ih =>
    intro s a
    refine ⟨?_, ih (fun k hk => hm k (by simp [hk])) (fun op hop => h op (by simp [hop])) _ _⟩
    cases k with
    | act op => exact fun is _ => h op (by simp) _
    | maxPool n m c => exact absurd rfl (hm _ (by simp) n m c)
    | _ => trivial

/-- C111 for `squared_loss` and networks whose activations have a derivative everywhere (sigmoid, tanh, softplus, ..., or none): `fit` is descent, without
conditions on the path. -/
theorem squared_fit_descends (hm : Moves eps step law J M) (hT : Trainable eps K ks (bs :: a) cfg p.w) (hop : ∀ op, Kind.act op ∈ ks → ∀ x, op.Dom x)
    (hk : ∀ K, (nk K).red = K.red ∧ (nk K).fuel = K.fuel) (hi : inputs.Has (n :: a) XI) (ho : outputs.Has (n' :: b) YO) (hn : n ≤ n') (hlab : netShape ks (bs :: a) = bs :: b)
    (hne : inp ≠ gt)
    (hs : Along (Holds K ks (bs :: a) p.w) (weightsOf ks) J M 0 p ((compiledWith (netLoss squaredLoss (bs :: a) inp gt) (netAdv nk (bs :: a) inp) inp gt step).phase true s)) :
    ∃ f, fit (compiledWith (netLoss squaredLoss (bs :: a) inp gt) (netAdv nk (bs :: a) inp) inp gt step) inputs outputs bs epochs 0 s = ok f ∧
      (∀ v ∈ weightsOf ks, f.s.2.2.st.data v =
        (path (weightsOf ks) law 1 (fun t => batchLoss (squaredOf (bs :: b)) ks inputs outputs bs a (t % (n / bs))) p (epochs * (n / bs))).w v) ∧
      f.trainErr = (List.range epochs).map (fun ep => (∑ l ∈ Finset.range (n / bs), batchLoss (squaredOf (bs :: b)) ks inputs outputs bs a l
        (path (weightsOf ks) law 1 (fun t => batchLoss (squaredOf (bs :: b)) ks inputs outputs bs a (t % (n / bs))) p (ep * (n / bs) + l)).w) / ((n / bs : Nat) : ℝ)) := by
  have hE := squared_netLoss eps (netShape ks (bs :: a))
  rw [hlab] at hE
  rw [← hlab] at hE ⊢
  obtain ⟨f, h1, h2, _, h4⟩ := network_fit_descends (epochs := epochs) hm hE hT hk hi ho hn hlab hne (fun t _ => ⟨everywhere_dom hT.noMax hop _ _ _, trivial⟩) hs
  exact ⟨f, h1, h2, h4⟩

/-- Plain descent with derivatives that carry the factor `c` (as those of `mean_squared_error` do) is descent with `c` times the learning rates. -/
theorem path_scaled (V : List Nat) (η : Nat → ℝ) (c : ℝ) (F : Nat → (Nat → Ten ℝ) → ℝ) (p : Point) (t : Nat) :
    path V (plainLaw η) c F p t = path V (plainLaw (fun t => c * η t)) 1 F p t := by
  induction t with
  | zero => rfl
  | succ t ih =>
    rw [path, path, ih]
    unfold next plainLaw
    congr 1
    funext v
    split
    · congr 1
      funext is
      ring
    · rfl

/-- With a factor other than 1 the very first step goes elsewhere, in every element that is not at rest. -/
theorem scaled_path_violated {V : List Nat} {η : Nat → ℝ} {c : ℝ} {F : Nat → (Nat → Ten ℝ) → ℝ} {p : Point} {v : Nat} {is : List Nat} (hv : v ∈ V) (hc : c ≠ 1) (hη : η 0 ≠ 0)
    (his : ValidIdx (p.w v).shape is) (hg : partialAt (F 0) p.w v is ≠ 0) : (path V (plainLaw η) c F p 1).w v ≠ (path V (plainLaw η) 1 F p 1).w v := by
  intro h
  simp only [path, next, if_pos hv, plainLaw] at h
  have h1 := (Optim.tenOf_has (p.w v).shape (fun is => (p.w v).at is - η 0 * (c * partialAt (F 0) p.w v is))).at_eq his
  have h2 := (Optim.tenOf_has (p.w v).shape (fun is => (p.w v).at is - η 0 * (1 * partialAt (F 0) p.w v is))).at_eq his
  rw [h, h2] at h1
  apply hc
  have h3 : (c - 1) * (η 0 * partialAt (F 0) p.w v is) = 0 := by linear_combination h1
  rcases mul_eq_zero.mp h3 with h4 | h4
  · linarith
  · rcases mul_eq_zero.mp h4 with h5 | h5
    · exact absurd h5 hη
    · exact absurd h5 hg

end
end
end Verif.Descent
