import Verif.Optim.Freeze
/-!
# C86: a training step goes down the loss

Putting together runs, backward passes and steps: run the loss, call sgd.
-/
namespace Verif.Optim
open Verif Res Graph Ops View Data

noncomputable section

/-- The value of an expression depends on its variables only. -/
theorem eval_congr {α : Type} {leaf d d' : Nat → Ten α} (e : Ex α) (h : ∀ v ∈ vars e, d v = d' v) : eval leaf d e = eval leaf d' e := by
  induction e with
  | leaf k => rfl
  | var v c => simp only [eval]; rw [h v (by simp [vars])]
  | un i op e ih => simp only [eval]; rw [ih h]
  | bin i op l r ihl ihr =>
    simp only [eval]
    rw [ihl (fun v hv => h v (by simp [vars, hv])), ihr (fun v hv => h v (by simp [vars, hv]))]

/-- A tensor with given elements. -/
def tenOf (sh : List Nat) (f : List Nat → ℝ) : Ten ℝ := ⟨sh, (List.range (size sh)).map (fun p => f (unflat sh p))⟩

theorem tenOf_has (sh : List Nat) (f : List Nat → ℝ) : (tenOf sh f).Has sh f :=
  ⟨rfl, isT_of_pos (v := fun p => f (unflat sh p)) (by simp [tenOf]) (fun p hp => by simp [tenOf, hp]) (fun is hv => by rw [unflat_flat hv])⟩

/-- A function with a negative derivative goes down for a while. -/
theorem descends {f : ℝ → ℝ} {c : ℝ} (h : HasDerivAt f c 0) (hc : c < 0) : ∃ η > 0, ∀ t, 0 < t → t < η → f t < f 0 := by
  have h1 := (hasDerivAt_iff_tendsto_slope.mp h).eventually (gt_mem_nhds hc)
  rw [eventually_nhdsWithin_iff, Metric.eventually_nhds_iff] at h1
  obtain ⟨η, hη, h2⟩ := h1
  refine ⟨η, hη, fun t ht1 ht2 => ?_⟩
  have h3 := h2 (y := t) (by rw [Real.dist_eq, sub_zero, abs_of_pos ht1]; exact ht2) (by simpa using ht1.ne')
  rw [slope_def_field, sub_zero] at h3
  by_contra h4
  exact absurd h3 (not_lt.mpr (div_nonneg (by linarith) ht1.le))

theorem pair_self_nonneg (sh : List Nat) (G : List Nat → ℝ) : 0 ≤ pair sh G G := by
  unfold pair
  rw [sumIdx_eq_range]
  exact Finset.sum_nonneg (fun _ _ => mul_self_nonneg _)

theorem pair_self_pos {sh : List Nat} {G : List Nat → ℝ} {is : List Nat} (his : ValidIdx sh is) (h : G is ≠ 0) : 0 < pair sh G G := by
  unfold pair
  rw [sumIdx_eq_range]
  refine Finset.sum_pos' (fun _ _ => mul_self_nonneg _) ⟨flat sh is, Finset.mem_range.mpr (flat_lt his), ?_⟩
  rw [unflat_flat his]
  exact mul_self_pos.mpr h

theorem pair_neg (sh : List Nat) (G : List Nat → ℝ) : pair sh G (fun is => -G is) = -pair sh G G := by
  unfold pair
  rw [show (fun is => G is * -G is) = (fun is => (-1) * (G is * G is)) from by funext is; ring, sumIdx_mul_left]
  ring

theorem pair_one (G : List Nat → ℝ) : pair [1] ones1.at G = G [0] := by
  simp [pair, sumIdx, ones1, Ten.at, flat]

/-- C86, for sgd without momentum and variables without regularisers.  A training step - run the loss, call the optimizer - moves every
variable of the loss against the derivative `G` of the value of the loss by the learning rate, and if `G` is not zero everywhere and
the learning rate is small enough, the value of the loss is smaller afterwards.

Full statement (false of the code): the same for every expression.  Missing: see `gradient_is_derivative_partial`. -/
theorem sgd_descends_partial (eps : ℝ) (loss : Ex ℝ) (hc : Consistent loss) (hu : Unshared loss) (s : OSt) (htr : s.st.training = true)
    (hsm : Smooth s.st.leaf s.st.data loss) (cfg : Nat → Cfg ℝ) (hcfg : ∀ p ∈ occs loss none, ∀ v c, p.2 = .var v c → c = cfg v ∧ (cfg v).trainable = true)
    (hnoreg : ∀ v ∈ vars loss, (cfg v).l1 < eps ∧ (cfg v).l2 < eps) (hnd : (s.reg.map (·.1)).Nodup) (hall : ∀ v ∈ vars loss, (v, true) ∈ s.reg)
    (hvars : ∀ v, (v, true) ∈ s.reg → (s.st.data v).WF ∧ (s.st.grad v).WF ∧ (s.st.grad v).shape = (s.st.data v).shape ∧ ∃ μ, Ctx1 (s.ctx v) (s.st.data v).shape μ)
    (hy : ∀ y, eval s.st.leaf s.st.data loss = ok y → y.shape = [1]) :
    ∃ (y : Ten ℝ) (G : Nat → List Nat → ℝ), eval s.st.leaf s.st.data loss = ok y ∧
      (∀ v ∈ vars loss, ∀ is, ValidIdx (s.st.data v).shape is → ∃ Y : ℝ → Ten ℝ,
        (∀ h : ℝ, eval s.st.leaf (upd s.st.data v (bump (s.st.data v) is h)) loss = ok (Y h)) ∧ HasDerivAt (fun h => (Y h).at [0]) (G v is) 0) ∧
      (∀ o : Sgd, o.mom = 0 → ∃ o' s', trainSgd eps loss o s = ok (y, o', s') ∧ s'.st.leaf = s.st.leaf ∧
        ∀ v ∈ vars loss, (s'.st.data v).Has (s.st.data v).shape (fun is => (s.st.data v).at is - o.sch.rate * G v is)) ∧
      ((∃ v ∈ vars loss, ∃ is, ValidIdx (s.st.data v).shape is ∧ G v is ≠ 0) → ∃ η > 0, ∀ o : Sgd, o.mom = 0 → 0 < o.sch.rate → o.sch.rate < η →
        ∃ o' s' y', trainSgd eps loss o s = ok (y, o', s') ∧ eval s'.st.leaf s'.st.data loss = ok y' ∧ y'.at [0] < y.at [0]) := by
  classical
  have hg0 : ∀ v ∈ vars loss, (s.st.data v).WF ∧ (s.st.grad v).WF ∧ (s.st.grad v).shape = (s.st.data v).shape := fun v hv =>
    ⟨(hvars v (hall v hv)).1, (hvars v (hall v hv)).2.1, (hvars v (hall v hv)).2.2.1⟩
  have hzero : ∀ v ∈ vars loss, ∀ (n : Nat) d, n • regTerm eps (cfg v) d = 0 := by
    intro v hv n d
    unfold regTerm
    rw [if_neg (not_le.mpr (hnoreg v hv).1), if_neg (not_le.mpr (hnoreg v hv).2)]
    simp
  obtain ⟨y, st1, r1, r2, r3⟩ := gradient_is_derivative_partial eps loss hc hu s.st htr hsm hg0 cfg hcfg
  obtain ⟨y', st1', q1, _, q3⟩ := gradient_directional_partial eps loss hc hu s.st htr hsm hg0 cfg hcfg
  rw [r1] at q1
  simp only [ok.injEq, Prod.mk.injEq] at q1
  obtain ⟨rfl, rfl⟩ := q1
  have hys := hy y r2
  have hones : ones1.WF ∧ ones1.shape = y.shape := ⟨rfl, hys.symm⟩
  obtain ⟨st2, r4, r5, r6⟩ := r3 ones1 hones.1 hones.2
  obtain ⟨st2', q4, _, _, q6⟩ := q3 ones1 hones.1 hones.2
  rw [r4] at q4
  simp only [ok.injEq] at q4
  subst q4
  rw [hys] at r6 q6
  simp only [pair_one] at r6 q6
  -- the step
  have hleaf : st2.leaf = s.st.leaf := (backward_keeps eps loss _ _ _ _ r4).1.trans (run_keeps r1).1
  have hback : backprop eps loss { s with st := st1 } = ok { s with st := st2 } := by unfold backprop; rw [r4]; rfl
  have hr : Ready { s with st := st2 } (fun v => (s.st.data v).shape) (fun v => (s.st.data v).at) (fun v => (st2.grad v).at) := by
    refine ⟨hnd, fun v hv => ?_, fun v hv => ?_⟩
    · dsimp only; rw [r5]; exact (hvars v hv).1.has
    · dsimp only
      by_cases hvl : v ∈ vars loss
      · have := (r6 v hvl).1
        have h := this.1.has
        rwa [this.2] at h
      · obtain ⟨u1, _⟩ := unmentioned_grad r1 hback hvl
        dsimp only at u1
        rw [u1, ← (hvars v hv).2.2.1]
        exact (hvars v hv).2.1.has
  choose! μ hμ using fun v (hv : (v, true) ∈ s.reg) => (hvars v hv).2.2.2
  have hstep : ∀ o : Sgd, o.mom = 0 → ∃ o' s', trainSgd eps loss o s = ok (y, o', s') ∧ s'.st.leaf = s.st.leaf ∧
      ∀ v ∈ vars loss, (s'.st.data v).Has (s.st.data v).shape (fun is => (s.st.data v).at is - o.sch.rate * (st2.grad v).at is) := by
    intro o hm
    obtain ⟨s', k1, k2⟩ := sgd_step (μ := μ) o hback hr hμ
    have k3 : ∃ o', trainSgd eps loss o s = ok (y, o', s') := by
      unfold trainSgd
      rw [r1, bind_ok]
      dsimp only
      rw [k1]
      exact ⟨_, rfl⟩
    obtain ⟨o', k3⟩ := k3
    refine ⟨o', s', k3, ?_, fun v hv => (k2.new v (hall v hv)).1.congr (fun is _ => ?_)⟩
    · rw [k2.rest]; exact hleaf
    · rw [hm]
      split <;> ring
  refine ⟨y, fun v => (st2.grad v).at, r2, fun v hv is his => ?_, hstep, ?_⟩
  · obtain ⟨Y, D, k1, k2, k3⟩ := (r6 v hv).2 is his
    refine ⟨Y, k1, ?_⟩
    dsimp only
    rw [k3, hzero v hv, add_zero]
    exact k2
  · rintro ⟨v0, hv0, is0, his0, hne⟩
    let θ : ℝ → Nat → Ten ℝ := fun t v => if v ∈ vars loss then tenOf (s.st.data v).shape (fun is => (s.st.data v).at is - t * (st2.grad v).at is) else s.st.data v
    have hθ0 : θ 0 = s.st.data := by
      funext v
      simp only [θ]
      split
      · rename_i hv
        exact Ten.Has.ext (tenOf_has _ _) ((hg0 v hv).1.has.congr (fun is _ => by simp))
      · rfl
    obtain ⟨Y, k1, k2⟩ := q6 θ (fun v is => -(st2.grad v).at is) hθ0 (by
      intro v hv
      simp only [θ, if_pos hv]
      refine ⟨fun t => ⟨(tenOf_has _ _).wf, rfl⟩, fun is his => ?_⟩
      have : ∀ t : ℝ, (tenOf (s.st.data v).shape (fun is => (s.st.data v).at is - t * (st2.grad v).at is)).at is = (s.st.data v).at is - t * (st2.grad v).at is :=
        fun t => (tenOf_has _ _).at_eq his
      simp only [this]
      have h1 := ((hasDerivAt_id (0 : ℝ)).mul_const ((st2.grad v).at is)).const_sub ((s.st.data v).at is)
      simpa using h1)
    have hneg : ∑ v ∈ (vars loss).toFinset, pair (s.st.data v).shape (fun is => (st2.grad v).at is -
        ((varOccs loss none).filter (fun p => p.2 = v)).toFinset.card • regTerm eps (cfg v) ((s.st.data v).at is)) (fun is => -(st2.grad v).at is) < 0 := by
      have e1 : ∀ v ∈ (vars loss).toFinset, pair (s.st.data v).shape (fun is => (st2.grad v).at is -
          ((varOccs loss none).filter (fun p => p.2 = v)).toFinset.card • regTerm eps (cfg v) ((s.st.data v).at is)) (fun is => -(st2.grad v).at is) =
          -pair (s.st.data v).shape (st2.grad v).at (st2.grad v).at := by
        intro v hv
        rw [List.mem_toFinset] at hv
        simp only [hzero v hv, sub_zero]
        exact pair_neg _ _
      rw [Finset.sum_congr rfl e1, Finset.sum_neg_distrib, neg_lt_zero]
      exact Finset.sum_pos' (fun v _ => pair_self_nonneg _ _) ⟨v0, List.mem_toFinset.mpr hv0, pair_self_pos his0 hne⟩
    obtain ⟨η, hη, h3⟩ := descends k2 hneg
    refine ⟨η, hη, fun o hm h1 h2 => ?_⟩
    obtain ⟨o', s', m1, m2, m3⟩ := hstep o hm
    refine ⟨o', s', Y o.sch.rate, m1, ?_, ?_⟩
    · rw [m2, ← k1 o.sch.rate]
      refine eval_congr loss (fun v hv => ?_)
      simp only [θ, if_pos hv]
      exact Ten.Has.ext (m3 v hv) (tenOf_has _ _)
    · have h4 := h3 o.sch.rate h1 h2
      have e0 := k1 0
      rw [hθ0, r2] at e0
      simp only [ok.injEq] at e0
      rw [e0]
      exact h4

/-- A dense layer with bias and sigmoid, and the sum as the loss: a training step moves the weights against the derivatives. -/
example (eps : ℝ) (heps : 0 < eps) (red : List ℝ → ℝ) (hred : Data.Reduces (· + ·) red) (s : OSt) (htr : s.st.training = true) (m k n : Nat) (hm : 0 < m) (hk : 0 < k) (hn : 0 < n)
    (hmn : m ≠ minusOne ∧ n ≠ minusOne)
    (hx : (s.st.leaf 0).WF ∧ (s.st.leaf 0).shape = [m, k]) (hw : (s.st.data 0).WF ∧ (s.st.data 0).shape = [k, n]) (hb : (s.st.data 1).WF ∧ (s.st.data 1).shape = [1, n])
    (hgw : (s.st.grad 0).WF ∧ (s.st.grad 0).shape = [k, n]) (hgb : (s.st.grad 1).WF ∧ (s.st.grad 1).shape = [1, n])
    (hreg : s.reg = [(0, true), (1, true)]) (hctx : s.ctx 0 = [] ∧ s.ctx 1 = []) (c : Cfg ℝ) (hct : c.trainable = true) (hcfg : c.l1 < eps ∧ c.l2 < eps) (o : Sgd) (ho : o.mom = 0) :
    ∃ y o' s', trainSgd eps (denseEx red c) o s = ok (y, o', s') := by
  obtain ⟨hc, hu, hsm⟩ := dense_hyps red c hred s.st m k n hm hk hn hmn hx hw hb
  obtain ⟨y, G, _, _, h3, _⟩ := sgd_descends_partial eps (denseEx red c) hc hu s htr hsm (fun _ => c) (by
    intro p hp v c' hv
    simp only [denseEx, occs, List.mem_cons, List.mem_append, List.not_mem_nil, or_false] at hp
    rcases hp with rfl | rfl | rfl | (rfl | rfl | rfl) | rfl <;> simp only [reduceCtorEq, Ex.var.injEq] at hv
    all_goals exact ⟨hv.2.symm, hct⟩) (fun v _ => hcfg) (by rw [hreg]; decide) (by
    intro v hv
    simp only [denseEx, vars, List.nil_append, List.cons_append, List.mem_cons, List.not_mem_nil, or_false] at hv
    rw [hreg]
    rcases hv with rfl | rfl <;> simp) (by
    intro v hv
    rw [hreg] at hv
    simp only [List.mem_cons, Prod.mk.injEq, and_true, List.not_mem_nil, or_false] at hv
    rcases hv with rfl | rfl
    · exact ⟨hw.1, hgw.1, by rw [hgw.2, hw.2], fun _ => 0, Or.inl ⟨hctx.1, fun _ => rfl⟩⟩
    · exact ⟨hb.1, hgb.1, by rw [hgb.2, hb.2], fun _ => 0, Or.inl ⟨hctx.2, fun _ => rfl⟩⟩) (by
    intro y hy
    simp only [denseEx, eval, bind_eq_ok] at hy
    obtain ⟨x, _, h⟩ := hy
    have : sumReduce x = ok y := h
    unfold sumReduce at this
    rw [bind_eq_ok] at this
    obtain ⟨z, _, h⟩ := this
    cases h; rfl)
  obtain ⟨o', s', h, _⟩ := h3 o ho
  exact ⟨y, o', s', h⟩

end
end Verif.Optim
