import Verif.Regular.Spec
import Verif.Optim.Descent
/-!
# C122 and C86: a step of sgd with regularisers

Without momentum; the loss is any expression of `gradient_is_derivative_partial`.
-/
namespace Verif.Regular
open Verif Res View Data Ops Graph Optim

noncomputable section

/-- In how many objects of the expression a variable lives. -/
def copies (loss : Ex ℝ) (v : Nat) : Nat := ((varOccs loss none).filter (fun p => p.2 = v)).toFinset.card

theorem abs_deriv {w : ℝ} (h : w ≠ 0) : HasDerivAt (fun x : ℝ => |x|) (if 0 ≤ w then 1 else -1) w := by
  rcases lt_or_gt_of_ne h with hw | hw
  · rw [if_neg (not_le.mpr hw)]; exact hasDerivAt_abs_neg hw
  · rw [if_pos hw.le]; exact hasDerivAt_abs_pos hw

/-- What the code adds to the gradient is the derivative of the penalty. -/
theorem pen_deriv {eps : ℝ} (heps : 0 < eps) {c : Cfg ℝ} (hc : Coef eps c) {w : ℝ} (hw : Off c w) : HasDerivAt (pen c) (regTerm eps c w) w := by
  have h1 : HasDerivAt (fun x : ℝ => c.l1 * |x|) (if eps ≤ c.l1 then if 0 ≤ w then c.l1 else -c.l1 else 0) w := by
    rcases hc.1 with h | h
    · rw [h, if_neg (not_le.mpr heps)]
      simpa using hasDerivAt_const w (0 : ℝ)
    · rw [if_pos h]
      have := (abs_deriv (hw (by linarith))).const_mul c.l1
      refine this.congr_deriv ?_
      split <;> ring
  have h2 : HasDerivAt (fun x : ℝ => c.l2 * x ^ 2) (if eps ≤ c.l2 then 2 * w * c.l2 else 0) w := by
    rcases hc.2 with h | h
    · rw [h, if_neg (not_le.mpr heps)]
      simpa using hasDerivAt_const w (0 : ℝ)
    · rw [if_pos h]
      have := ((hasDerivAt_id w).pow 2).const_mul c.l2
      refine this.congr_deriv ?_
      simp
      ring
  exact h1.add h2

/-- The penalty along a curve of variables. -/
theorem penalty_deriv {eps : ℝ} (heps : 0 < eps) {V : List Nat} {cfg : Nat → Cfg ℝ} {θ : ℝ → Nat → Ten ℝ} {sh : Nat → List Nat} {δ : Nat → List Nat → ℝ}
    (hθ : ∀ v ∈ V, Moves (fun t => θ t v) (sh v) (δ v)) (hc : ∀ v ∈ V, Coef eps (cfg v))
    (hw : ∀ v ∈ V, ∀ is, ValidIdx (sh v) is → Off (cfg v) ((θ 0 v).at is)) :
    HasDerivAt (fun t => penalty V cfg (θ t)) (∑ v ∈ V.toFinset, pair (sh v) (fun is => regTerm eps (cfg v) ((θ 0 v).at is)) (δ v)) 0 := by
  unfold penalty
  refine HasDerivAt.fun_sum (fun v hv => ?_)
  rw [List.mem_toFinset] at hv
  have hs : ∀ t, (θ t v).shape = sh v := fun t => ((hθ v hv).1 t).2
  simp only [hs]
  unfold pair
  simp only [sumIdx_eq_range]
  refine HasDerivAt.fun_sum (fun p hp => ?_)
  have hv' : ValidIdx (sh v) (unflat (sh v) p) := (unflat_spec (Finset.mem_range.mp hp)).1
  have h1 := (hθ v hv).2 _ hv'
  have h2 := pen_deriv heps (hc v hv) (hw v hv _ hv')
  exact HasDerivAt.comp (h₂ := pen (cfg v)) (h := fun t => (θ t v).at (unflat (sh v) p)) (0 : ℝ) h2 h1

/-- A training step with sgd without momentum, with regularisers: what is stored are the derivatives `G` of the loss plus `regTerm` once for every object a
variable lives in, and every element moves against it. -/
theorem sgd_regularised (eps : ℝ) (loss : Ex ℝ) (hc : Consistent loss) (hu : Unshared loss) (s : OSt) (htr : s.st.training = true)
    (hsm : Smooth s.st.leaf s.st.data loss) (cfg : Nat → Cfg ℝ) (hcfg : ∀ p ∈ occs loss none, ∀ v c, p.2 = .var v c → c = cfg v ∧ (cfg v).trainable = true)
    (hnd : (s.reg.map (·.1)).Nodup) (hall : ∀ v ∈ vars loss, (v, true) ∈ s.reg)
    (hvars : ∀ v, (v, true) ∈ s.reg → (s.st.data v).WF ∧ (s.st.grad v).WF ∧ (s.st.grad v).shape = (s.st.data v).shape ∧ ∃ μ, Ctx1 (s.ctx v) (s.st.data v).shape μ)
    (hy : ∀ y, eval s.st.leaf s.st.data loss = ok y → y.shape = [1]) :
    ∃ (y : Ten ℝ) (G : Nat → List Nat → ℝ), eval s.st.leaf s.st.data loss = ok y ∧
      (∀ v ∈ vars loss, ∀ is, ValidIdx (s.st.data v).shape is → ∃ Y : ℝ → Ten ℝ,
        (∀ h : ℝ, eval s.st.leaf (upd s.st.data v (bump (s.st.data v) is h)) loss = ok (Y h)) ∧ HasDerivAt (fun h => (Y h).at [0]) (G v is) 0) ∧
      (∀ (θ : ℝ → Nat → Ten ℝ) (δ : Nat → List Nat → ℝ), θ 0 = s.st.data → (∀ v ∈ vars loss, Moves (fun t => θ t v) (s.st.data v).shape (δ v)) →
        ∃ Y : ℝ → Ten ℝ, (∀ t, eval s.st.leaf (θ t) loss = ok (Y t)) ∧
          HasDerivAt (fun t => (Y t).at [0]) (∑ v ∈ (vars loss).toFinset, pair (s.st.data v).shape (G v) (δ v)) 0) ∧
      (∀ o : Sgd, o.mom = 0 → ∃ o' s', trainSgd eps loss o s = ok (y, o', s') ∧ s'.st.leaf = s.st.leaf ∧
        ∀ v ∈ vars loss, (s'.st.data v).Has (s.st.data v).shape (fun is => (s.st.data v).at is -
          o.sch.rate * (G v is + copies loss v • regTerm eps (cfg v) ((s.st.data v).at is)))) := by
  classical
  have hg0 : ∀ v ∈ vars loss, (s.st.data v).WF ∧ (s.st.grad v).WF ∧ (s.st.grad v).shape = (s.st.data v).shape := fun v hv =>
    ⟨(hvars v (hall v hv)).1, (hvars v (hall v hv)).2.1, (hvars v (hall v hv)).2.2.1⟩
  obtain ⟨y, st1, r1, r2, r3⟩ := gradient_is_derivative_partial eps loss hc hu s.st htr hsm hg0 cfg hcfg
  obtain ⟨y', st1', q1, _, q3⟩ := gradient_directional_partial eps loss hc hu s.st htr hsm hg0 cfg hcfg
  rw [r1] at q1
  simp only [ok.injEq, Prod.mk.injEq] at q1
  obtain ⟨rfl, rfl⟩ := q1
  have hys := hy y r2
  have hones : ones1.WF ∧ ones1.shape = y.shape := ⟨rfl, hys.symm⟩
  obtain ⟨st2, r4, r5, r6⟩ := r3 ones1 hones.1 hones.2
  obtain ⟨st2', q4, _, _, q6⟩ := q3 ones1 hones.1 hones.2
  rw [r4] at q4
  simp only [ok.injEq] at q4
  subst q4
  rw [hys] at r6 q6
  simp only [pair_one] at r6 q6
  have hleaf : st2.leaf = s.st.leaf := (backward_keeps eps loss _ _ _ _ r4).1.trans (run_keeps r1).1
  have hback : backprop eps loss { s with st := st1 } = ok { s with st := st2 } := by unfold backprop; rw [r4]; rfl
  have hr : Ready { s with st := st2 } (fun v => (s.st.data v).shape) (fun v => (s.st.data v).at) (fun v => (st2.grad v).at) := by
    refine ⟨hnd, fun v hv => ?_, fun v hv => ?_⟩
    · dsimp only; rw [r5]; exact (hvars v hv).1.has
    · dsimp only
      by_cases hvl : v ∈ vars loss
      · have := (r6 v hvl).1
        have h := this.1.has
        rwa [this.2] at h
      · obtain ⟨u1, _⟩ := unmentioned_grad r1 hback hvl
        dsimp only at u1
        rw [u1, ← (hvars v hv).2.2.1]
        exact (hvars v hv).2.1.has
  choose! μ hμ using fun v (hv : (v, true) ∈ s.reg) => (hvars v hv).2.2.2
  refine ⟨y, fun v is => (st2.grad v).at is - copies loss v • regTerm eps (cfg v) ((s.st.data v).at is), r2, fun v hv is his => ?_, fun θ δ h0 hm => ?_, fun o hm => ?_⟩
  · obtain ⟨Y, D, k1, k2, k3⟩ := (r6 v hv).2 is his
    refine ⟨Y, k1, ?_⟩
    dsimp only
    rw [k3]
    unfold copies
    rw [add_sub_cancel_right]
    exact k2
  · exact q6 θ δ h0 hm
  · obtain ⟨s', k1, k2⟩ := sgd_step (μ := μ) o hback hr hμ
    have k3 : ∃ o', trainSgd eps loss o s = ok (y, o', s') := by
      unfold trainSgd
      rw [r1, bind_ok]
      dsimp only
      rw [k1]
      exact ⟨_, rfl⟩
    obtain ⟨o', k3⟩ := k3
    refine ⟨o', s', k3, ?_, fun v hv => (k2.new v (hall v hv)).1.congr (fun is _ => ?_)⟩
    · rw [k2.rest]; exact hleaf
    · rw [hm]
      split <;> ring

/-- The line of variables a plain step moves along. -/
def line (V : List Nat) (D : Nat → Ten ℝ) (g : Nat → List Nat → ℝ) (t : ℝ) (v : Nat) : Ten ℝ :=
  if v ∈ V then tenOf (D v).shape (fun is => (D v).at is - t * g v is) else D v

theorem line_zero {V : List Nat} {D : Nat → Ten ℝ} (hD : ∀ v ∈ V, (D v).WF) (g : Nat → List Nat → ℝ) : line V D g 0 = D := by
  funext v
  simp only [line]
  split
  · rename_i hv
    exact Ten.Has.ext (tenOf_has _ _) ((hD v hv).has.congr (fun is _ => by simp))
  · rfl

theorem line_moves {V : List Nat} {D : Nat → Ten ℝ} (g : Nat → List Nat → ℝ) : ∀ v ∈ V, Moves (fun t => line V D g t v) (D v).shape (fun is => -g v is) := by
  intro v hv
  simp only [line, if_pos hv]
  refine ⟨fun t => ⟨(tenOf_has _ _).wf, rfl⟩, fun is his => ?_⟩
  have : ∀ t : ℝ, (tenOf (D v).shape (fun is => (D v).at is - t * g v is)).at is = (D v).at is - t * g v is := fun t => (tenOf_has _ _).at_eq his
  simp only [this]
  have h1 := ((hasDerivAt_id (0 : ℝ)).mul_const (g v is)).const_sub ((D v).at is)
  simpa using h1

theorem penalty_congr {V : List Nat} {cfg : Nat → Cfg ℝ} {D D' : Nat → Ten ℝ} (h : ∀ v ∈ V, D v = D' v) : penalty V cfg D = penalty V cfg D' :=
  Finset.sum_congr rfl (fun v hv => by rw [h v (List.mem_toFinset.mp hv)])

/-- C122 and C86 with regularisers.  A training step with sgd without momentum moves every variable of the loss against the derivative of the objective - the value
of the loss plus the penalty - by the learning rate, and if that derivative is not zero everywhere and the learning rate is small enough, the objective is
smaller afterwards.

Full statement (false of the code): the same for every expression, all coefficients and all elements.  Missing: expressions of
`gradient_is_derivative_partial`; variables that live in several objects (`shared_penalty_violated`), elements that are zero under an L1 penalty
(`l1_at_zero_violated`), coefficients below `eps` (`small_coefficient_violated`). -/
theorem sgd_descends_regularised_partial (eps : ℝ) (heps : 0 < eps) (loss : Ex ℝ) (hc : Consistent loss) (hu : Unshared loss) (s : OSt) (htr : s.st.training = true)
    (hsm : Smooth s.st.leaf s.st.data loss) (cfg : Nat → Cfg ℝ) (hcfg : ∀ p ∈ occs loss none, ∀ v c, p.2 = .var v c → c = cfg v ∧ (cfg v).trainable = true)
    (hnd : (s.reg.map (·.1)).Nodup) (hall : ∀ v ∈ vars loss, (v, true) ∈ s.reg)
    (hvars : ∀ v, (v, true) ∈ s.reg → (s.st.data v).WF ∧ (s.st.grad v).WF ∧ (s.st.grad v).shape = (s.st.data v).shape ∧ ∃ μ, Ctx1 (s.ctx v) (s.st.data v).shape μ)
    (hy : ∀ y, eval s.st.leaf s.st.data loss = ok y → y.shape = [1])
    (hone : ∀ v ∈ vars loss, copies loss v = 1) (hco : ∀ v ∈ vars loss, Coef eps (cfg v))
    (hoff : ∀ v ∈ vars loss, ∀ is, ValidIdx (s.st.data v).shape is → Off (cfg v) ((s.st.data v).at is)) :
    ∃ (y : Ten ℝ) (G : Nat → List Nat → ℝ), eval s.st.leaf s.st.data loss = ok y ∧
      (∀ v ∈ vars loss, ∀ is, ValidIdx (s.st.data v).shape is → ∃ Y : ℝ → Ten ℝ,
        (∀ h : ℝ, eval s.st.leaf (upd s.st.data v (bump (s.st.data v) is h)) loss = ok (Y h)) ∧
        HasDerivAt (fun h => (Y h).at [0] + pen (cfg v) ((s.st.data v).at is + h)) (G v is) 0) ∧
      (∀ o : Sgd, o.mom = 0 → ∃ o' s', trainSgd eps loss o s = ok (y, o', s') ∧ s'.st.leaf = s.st.leaf ∧
        ∀ v ∈ vars loss, (s'.st.data v).Has (s.st.data v).shape (fun is => (s.st.data v).at is - o.sch.rate * G v is)) ∧
      ((∃ v ∈ vars loss, ∃ is, ValidIdx (s.st.data v).shape is ∧ G v is ≠ 0) → ∃ η > 0, ∀ o : Sgd, o.mom = 0 → 0 < o.sch.rate → o.sch.rate < η →
        ∃ o' s' y', trainSgd eps loss o s = ok (y, o', s') ∧ eval s'.st.leaf s'.st.data loss = ok y' ∧
          y'.at [0] + penalty (vars loss) cfg s'.st.data < y.at [0] + penalty (vars loss) cfg s.st.data) := by
  classical
  obtain ⟨y, G, r1, r2, r3, r4⟩ := sgd_regularised eps loss hc hu s htr hsm cfg hcfg hnd hall hvars hy
  have hone' : ∀ v ∈ vars loss, ∀ is, G v is + copies loss v • regTerm eps (cfg v) ((s.st.data v).at is) = G v is + regTerm eps (cfg v) ((s.st.data v).at is) :=
    fun v hv is => by rw [hone v hv, one_nsmul]
  have hwf : ∀ v ∈ vars loss, (s.st.data v).WF := fun v hv => (hvars v (hall v hv)).1
  have hstep : ∀ o : Sgd, o.mom = 0 → ∃ o' s', trainSgd eps loss o s = ok (y, o', s') ∧ s'.st.leaf = s.st.leaf ∧
      ∀ v ∈ vars loss, (s'.st.data v).Has (s.st.data v).shape (fun is => (s.st.data v).at is - o.sch.rate * (G v is + regTerm eps (cfg v) ((s.st.data v).at is))) := by
    intro o hm
    obtain ⟨o', s', k1, k2, k3⟩ := r4 o hm
    exact ⟨o', s', k1, k2, fun v hv => (k3 v hv).congr (fun is _ => by rw [hone' v hv])⟩
  refine ⟨y, fun v is => G v is + regTerm eps (cfg v) ((s.st.data v).at is), r1, fun v hv is his => ?_, hstep, ?_⟩
  · obtain ⟨Y, k1, k2⟩ := r2 v hv is his
    refine ⟨Y, k1, k2.add ?_⟩
    have h1 : HasDerivAt (fun h : ℝ => (s.st.data v).at is + h) 1 0 := (hasDerivAt_id (0 : ℝ)).const_add _
    have h2 : HasDerivAt (pen (cfg v)) (regTerm eps (cfg v) ((s.st.data v).at is)) ((s.st.data v).at is + 0) := by
      rw [add_zero]; exact pen_deriv heps (hco v hv) (hoff v hv is his)
    have h3 := HasDerivAt.comp (h₂ := pen (cfg v)) (h := fun h : ℝ => (s.st.data v).at is + h) (0 : ℝ) h2 h1
    rw [mul_one] at h3
    exact h3
  · rintro ⟨v0, hv0, is0, his0, hne⟩
    let g : Nat → List Nat → ℝ := fun v is => G v is + regTerm eps (cfg v) ((s.st.data v).at is)
    let θ := line (vars loss) s.st.data g
    have h0 : θ 0 = s.st.data := line_zero hwf g
    have hm := line_moves (V := vars loss) (D := s.st.data) g
    obtain ⟨Y, k1, k2⟩ := r3 θ (fun v is => -g v is) h0 hm
    have k3 := penalty_deriv (θ := θ) heps hm hco (by rw [h0]; exact hoff)
    have k4 := k2.add k3
    rw [h0] at k4
    have hneg : ∑ v ∈ (vars loss).toFinset, pair (s.st.data v).shape (G v) (fun is => -g v is) +
        ∑ v ∈ (vars loss).toFinset, pair (s.st.data v).shape (fun is => regTerm eps (cfg v) ((s.st.data v).at is)) (fun is => -g v is) < 0 := by
      rw [← Finset.sum_add_distrib]
      have e1 : ∀ v ∈ (vars loss).toFinset, pair (s.st.data v).shape (G v) (fun is => -g v is) +
          pair (s.st.data v).shape (fun is => regTerm eps (cfg v) ((s.st.data v).at is)) (fun is => -g v is) = -pair (s.st.data v).shape (g v) (g v) := by
        intro v _
        rw [← pair_neg]
        unfold pair
        rw [← sumIdx_add]
        exact sumIdx_congr (fun is _ => by simp only [g]; ring)
      rw [Finset.sum_congr rfl e1, Finset.sum_neg_distrib, neg_lt_zero]
      exact Finset.sum_pos' (fun v _ => pair_self_nonneg _ _) ⟨v0, List.mem_toFinset.mpr hv0, pair_self_pos his0 hne⟩
    obtain ⟨η, hη, h3⟩ := descends k4 hneg
    refine ⟨η, hη, fun o hm h1 h2 => ?_⟩
    obtain ⟨o', s', m1, m2, m3⟩ := hstep o hm
    have hθ : ∀ v ∈ vars loss, s'.st.data v = θ o.sch.rate v := fun v hv => by
      simp only [θ, line, if_pos hv]
      exact Ten.Has.ext (m3 v hv) (tenOf_has _ _)
    refine ⟨o', s', Y o.sch.rate, m1, ?_, ?_⟩
    · rw [m2, ← k1 o.sch.rate]
      exact eval_congr loss hθ
    · have h4 := h3 o.sch.rate h1 h2
      have e0 := k1 0
      rw [h0, r1] at e0
      simp only [ok.injEq] at e0
      simp only [Pi.add_apply] at h4
      rw [h0] at h4
      rw [e0, penalty_congr hθ]
      exact h4

end
end Verif.Regular
