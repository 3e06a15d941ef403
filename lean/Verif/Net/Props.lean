import Verif.Net.Stack
/-!
# Property C105: networks of layers, trained
-/
namespace Verif.Net
open Verif Res View Data Ops Graph Loss Pool Optim

noncomputable section

/-- Layers one after the other, as in `Dense( 10 )( Flatten()( ReLU( Conv2D( ... )( x ) ) ) )`, over an expression of shape `s`. -/
def stack (K : Kit) : List Kind → Nat → List Nat → Ex ℝ → Ex ℝ
  | [], _, _, e => e
  | k :: ks, i, s, e => stack K ks (i + 9) (outShape s k) (build K i s e k)

/-- Specification: the shape of the output of a network. -/
def netShape : List Kind → List Nat → List Nat
  | [], s => s
  | k :: ks, s => netShape ks (outShape s k)

/-- Specification: the elements of the output of a network. -/
def netVal (D : Nat → Ten ℝ) : List Kind → List Nat → (List Nat → ℝ) → List Nat → ℝ
  | [], _, a => a
  | k :: ks, s, a => netVal D ks (outShape s k) (val D s a k)

/-- Every layer can be applied to what it is given. -/
def NetOk (K : Kit) (D : Nat → Ten ℝ) : List Kind → List Nat → Prop
  | [], _ => True
  | k :: ks, s => Ok K D s k ∧ NetOk K D ks (outShape s k)

/-- Every layer can be differentiated at what it is given. -/
def NetDom (D : Nat → Ten ℝ) : List Kind → List Nat → (List Nat → ℝ) → Prop
  | [], _, _ => True
  | k :: ks, s, a => Dom s a k ∧ NetDom D ks (outShape s k) (val D s a k)

section
variable {K : Kit} {L D : Nat → Ten ℝ}

/-- C105, values: a network of any number of layers computes the composition of what its layers are specified to do. -/
theorem network_value (ks : List Kind) : ∀ (i : Nat) (s : List Nat) (e : Ex ℝ) (a : List Nat → ℝ), NetOk K D ks s → Ev L D e s a →
    Ev L D (stack K ks i s e) (netShape ks s) (netVal D ks s a) := by
  induction ks with
  | nil => intro i s e a _ he; exact he
  | cons k ks ih => intro i s e a hk he; exact ih _ _ _ _ hk.2 (build_ok k hk.1 he i).1

/-- C105: a network has right gradients where every layer can be differentiated. -/
theorem network_smooth (ks : List Kind) : ∀ (i : Nat) (s : List Nat) (e : Ex ℝ) (a : List Nat → ℝ), NetOk K D ks s → NetDom D ks s a → Ev L D e s a → Smooth L D e →
    Smooth L D (stack K ks i s e) := by
  induction ks with
  | nil => intro i s e a _ _ _ hs; exact hs
  | cons k ks ih =>
    intro i s e a hk hd he hs
    obtain ⟨h1, h2⟩ := build_ok k hk.1 he i
    exact ih _ _ _ _ hk.2 hd.2 h1 (h2 hs hd.1)

theorem network_ids (ks : List Kind) : ∀ (i : Nat) (s : List Nat) (e : Ex ℝ), (ids e).Nodup → (∀ j ∈ ids e, j < i) →
    (ids (stack K ks i s e)).Nodup ∧ ∀ j ∈ ids (stack K ks i s e), j < i + 9 * ks.length := by
  induction ks with
  | nil => intro i s e h1 h2; exact ⟨h1, by simpa [stack] using h2⟩
  | cons k ks ih =>
    intro i s e h1 h2
    obtain ⟨new, n1, n2, n3⟩ := build_ids (K := K) k i s e
    have := ih (i + 9) (outShape s k) (build K i s e k) (by
      rw [n1, List.nodup_append]
      refine ⟨n2, h1, fun x hx y hy e => ?_⟩
      have := n3 x hx; have := h2 y hy; omega) (by
      intro j hj
      rw [n1, List.mem_append] at hj
      rcases hj with hj | hj
      · exact (n3 j hj).2
      · have := h2 j hj; omega)
    refine ⟨this.1, fun j hj => ?_⟩
    have := this.2 j hj
    simp only [List.length_cons]
    omega

theorem network_vars (ks : List Kind) : ∀ (i : Nat) (s : List Nat) (e : Ex ℝ), ∀ v ∈ vars (stack K ks i s e), v ∈ vars e ∨ ∃ k ∈ ks, ∃ c, (v, c) ∈ params k := by
  induction ks with
  | nil => intro i s e v hv; exact Or.inl hv
  | cons k ks ih =>
    intro i s e v hv
    rcases ih _ _ _ v hv with h | ⟨k', hk', h⟩
    · rcases build_vars k i s e v h with h | h
      · exact Or.inl h
      · exact Or.inr ⟨k, by simp, h⟩
    · exact Or.inr ⟨k', by simp [hk'], h⟩

theorem network_cfgs (ks : List Kind) : ∀ (i : Nat) (s : List Nat) (e : Ex ℝ) (sl : Slot), ∀ q ∈ occs (stack K ks i s e) sl, ∀ v c, q.2 = .var v c →
    (∃ sl', ∃ q' ∈ occs e sl', q'.2 = .var v c) ∨ ∃ k ∈ ks, (v, c) ∈ params k := by
  induction ks with
  | nil => intro i s e sl q hq v c hv; exact Or.inl ⟨sl, q, hq, hv⟩
  | cons k ks ih =>
    intro i s e sl q hq v c hv
    rcases ih _ _ _ sl q hq v c hv with ⟨sl', q', h1, h2⟩ | ⟨k', hk', h⟩
    · rcases build_cfgs k i s e sl' q' h1 v c h2 with h | h
      · exact Or.inl h
      · exact Or.inr ⟨k, by simp, h⟩
    · exact Or.inr ⟨k', by simp [hk'], h⟩

end

/-- A network and the state it is trained in: the inputs are place holder `inp`, the labels place holder `gt`. -/
structure Ready (K : Kit) (ks : List Kind) (s : List Nat) (inp gt : Nat) (st : St ℝ) (cfg : Nat → Cfg ℝ) : Prop where
  ok : NetOk K st.data ks s
  input : (st.leaf inp).WF ∧ (st.leaf inp).shape = s ∧ (st.leaf inp).data ≠ []
  labels : (st.leaf gt).WF ∧ (st.leaf gt).shape = netShape ks s
  out : Fits1 K (netShape ks s)
  training : st.training = true
  grads : ∀ k ∈ ks, ∀ vc ∈ params k, (st.data vc.1).WF ∧ (st.grad vc.1).WF ∧ (st.grad vc.1).shape = (st.data vc.1).shape
  cfgs : ∀ k ∈ ks, ∀ vc ∈ params k, vc.2 = cfg vc.1 ∧ vc.2.trainable = true
  smooth : NetDom st.data ks s (st.leaf inp).at

section
variable {K : Kit} {ks : List Kind} {s : List Nat} {inp gt : Nat} {st : St ℝ} {cfg : Nat → Cfg ℝ}

theorem Ready.ops (h : Ready K ks s inp gt st cfg) :
    Ev st.leaf st.data (.leaf gt) (netShape ks s) (st.leaf gt).at ∧ Smooth st.leaf st.data (.leaf gt) ∧
    Ev st.leaf st.data (stack K ks 0 s (.leaf inp)) (netShape ks s) (netVal st.data ks s (st.leaf inp).at) ∧
    Smooth st.leaf st.data (stack K ks 0 s (.leaf inp)) := by
  have hne : (st.leaf gt).data ≠ [] := fun hd => by
    have := h.labels.1
    unfold Ten.WF at this
    rw [hd, h.labels.2] at this
    exact h.out.pos this.symm
  have e1 : Ev st.leaf st.data (.leaf inp) s (st.leaf inp).at := by have := ev_leaf (D := st.data) h.input.1 h.input.2.2; rwa [h.input.2.1] at this
  have e2 : Ev st.leaf st.data (.leaf gt) (netShape ks s) (st.leaf gt).at := by have := ev_leaf (D := st.data) h.labels.1 hne; rwa [h.labels.2] at this
  exact ⟨e2, ⟨h.labels.1, hne⟩, network_value ks 0 s _ _ h.ok e1, network_smooth ks 0 s _ _ h.ok h.smooth e1 ⟨h.input.1, h.input.2.2⟩⟩

theorem Ready.trains (h : Ready K ks s inp gt st cfg) (e : Ex ℝ) (hids : (ids e).Nodup) (hvars : ∀ v ∈ vars e, v ∈ vars (stack K ks 0 s (.leaf inp)))
    (hoccs : ∀ p ∈ occs e none, ∀ v c, p.2 = .var v c → ∃ sl, ∃ q ∈ occs (stack K ks 0 s (.leaf inp)) sl, q.2 = .var v c) : Trains e st cfg := by
  have hd := distinct_consistent hids
  refine ⟨hd.1, hd.2, h.training, fun v hv => ?_, fun p hp v c hc => ?_⟩
  · rcases network_vars ks 0 s _ v (hvars v hv) with h' | ⟨k, hk, c, h'⟩
    · simp [vars] at h'
    · exact h.grads k hk _ h'
  · obtain ⟨sl, q, hq, hqv⟩ := hoccs p hp v c hc
    rcases network_cfgs ks 0 s _ sl q hq v c hqv with ⟨sl', q', hq', hq''⟩ | ⟨k, hk, h'⟩
    · simp only [occs, List.mem_singleton] at hq'
      subst hq'
      simp at hq''
    · have := h.cfgs k hk _ h'
      exact ⟨this.1, by rw [← this.1]; exact this.2⟩

/-- C105, losses: `squared_loss` of a network is the sum of the squared differences of the labels and the specified outputs. -/
theorem network_squared_value (h : Ready K ks s inp gt st cfg) :
    eval st.leaf st.data (squaredLoss K (9 * ks.length) (.leaf gt) (stack K ks 0 s (.leaf inp))) =
      ok ⟨[1], [sumIdx (netShape ks s) (fun is => ((st.leaf gt).at is - netVal st.data ks s (st.leaf inp).at is) ^ 2)]⟩ := by
  obtain ⟨e1, _, e3, _⟩ := h.ops
  rw [squared_loss_value e1 e3 h.out.fits (9 * ks.length), sumIdx_congr (g := fun is => ((st.leaf gt).at is - netVal st.data ks s (st.leaf inp).at is) ^ 2)
    (fun is hv => by rw [bc_self hv])]

/-- C105, training: `squared_loss` of a network of any layers, and backward, store in every variable of every layer the derivative of the loss (plus the
regularisation). -/
theorem network_squared_gradient (eps : ℝ) (h : Ready K ks s inp gt st cfg) :
    Stores eps (squaredLoss K (9 * ks.length) (.leaf gt) (stack K ks 0 s (.leaf inp))) st cfg 1 := by
  obtain ⟨e1, e2, e3, e4⟩ := h.ops
  have hi := network_ids (K := K) ks 0 s (.leaf inp) (by simp [ids]) (by simp [ids])
  have hn : ∀ j, 9 * ks.length ≤ j → j ∉ ids (stack K ks 0 s (.leaf inp)) := fun j hj hm => absurd (hi.2 j hm) (by omega)
  refine squared_loss_gradient_partial (h.trains _ ?_ ?_ ?_) e1 e3 h.out.fits e2 e4
  · simp only [squaredLoss, el, minusE, plusE, ids, List.nil_append, List.nodup_cons, List.mem_cons, not_or]
    exact ⟨⟨by omega, by omega, by omega, hn _ (by omega)⟩, ⟨by omega, by omega, hn _ (by omega)⟩, ⟨by omega, hn _ (by omega)⟩, hn _ (by omega), hi.1⟩
  · intro v hv
    simpa [squaredLoss, el, minusE, plusE, vars] using hv
  · intro p hp v c hc
    simp only [squaredLoss, el, minusE, plusE, occs, List.mem_cons, List.mem_append, List.not_mem_nil, or_false] at hp
    rcases hp with rfl | rfl | rfl | rfl | rfl | hp
    · simp at hc
    · simp at hc
    · simp at hc
    · simp at hc
    · simp at hc
    · exact ⟨_, p, hp, hc⟩

/-- C105 with `cross_entropy`, for a network whose outputs are positive. -/
theorem network_cross_entropy_gradient (eps : ℝ) (h : Ready K ks s inp gt st cfg) (hp : ∀ is, ValidIdx (netShape ks s) is → 0 < netVal st.data ks s (st.leaf inp).at is) :
    Stores eps (crossEntropy K (9 * ks.length) (.leaf gt) (stack K ks 0 s (.leaf inp))) st cfg 1 := by
  obtain ⟨e1, e2, e3, e4⟩ := h.ops
  have hi := network_ids (K := K) ks 0 s (.leaf inp) (by simp [ids]) (by simp [ids])
  have hn : ∀ j, 9 * ks.length ≤ j → j ∉ ids (stack K ks 0 s (.leaf inp)) := fun j hj hm => absurd (hi.2 j hm) (by omega)
  refine cross_entropy_gradient_partial (h.trains _ ?_ ?_ ?_) e1 e3 h.out e2 e4 hp
  · simp only [crossEntropy, hadE, el, ids, List.nil_append, List.nodup_cons, List.mem_cons, not_or]
    exact ⟨⟨by omega, by omega, by omega, hn _ (by omega)⟩, ⟨by omega, by omega, hn _ (by omega)⟩, ⟨by omega, hn _ (by omega)⟩, hn _ (by omega), hi.1⟩
  · intro v hv
    simpa [crossEntropy, hadE, el, vars] using hv
  · intro p hp v c hc
    simp only [crossEntropy, hadE, el, occs, List.mem_cons, List.mem_append, List.not_mem_nil, or_false] at hp
    rcases hp with rfl | rfl | rfl | rfl | rfl | hp
    · simp at hc
    · simp at hc
    · simp at hc
    · simp at hc
    · simp at hc
    · exact ⟨_, p, hp, hc⟩

/-- C105 with `mean_squared_error`: what is stored is the derivative of the loss times the number of elements divided by the number `mean` divides by
(`mse_gradient_violated`). -/
theorem network_mse_gradient_partial (eps : ℝ) (h : Ready K ks s inp gt st cfg) {c : Nat} (hc : meanBatch (netShape ks s) = ok c) (hc0 : c ≠ 0) :
    Stores eps (mse K (9 * ks.length) (.leaf gt) (stack K ks 0 s (.leaf inp))) st cfg ((size (netShape ks s) : ℝ) / (c : ℝ)) := by
  obtain ⟨e1, e2, e3, e4⟩ := h.ops
  have hi := network_ids (K := K) ks 0 s (.leaf inp) (by simp [ids]) (by simp [ids])
  have hn : ∀ j, 9 * ks.length ≤ j → j ∉ ids (stack K ks 0 s (.leaf inp)) := fun j hj hm => absurd (hi.2 j hm) (by omega)
  refine mse_gradient (h.trains _ ?_ ?_ ?_) e1 e3 h.out.fits e2 e4 hc hc0
  · simp only [mse, el, minusE, plusE, ids, List.nil_append, List.nodup_cons, List.mem_cons, not_or]
    exact ⟨⟨by omega, by omega, by omega, hn _ (by omega)⟩, ⟨by omega, by omega, hn _ (by omega)⟩, ⟨by omega, hn _ (by omega)⟩, hn _ (by omega), hi.1⟩
  · intro v hv
    simpa [mse, el, minusE, plusE, vars] using hv
  · intro p hp v c hc
    simp only [mse, el, minusE, plusE, occs, List.mem_cons, List.mem_append, List.not_mem_nil, or_false] at hp
    rcases hp with rfl | rfl | rfl | rfl | rfl | hp
    · simp at hc
    · simp at hc
    · simp at hc
    · simp at hc
    · simp at hc
    · exact ⟨_, p, hp, hc⟩

end
end
end Verif.Net
