import Verif.Optim.Descent
/-!
# C130: the steps of all optimizers and the value of the loss

`sgd_descends_partial` (C86) for the other optimizers.  Between a step and the derivative `G` there may be a positive factor per element,
which changes the direction but not that the loss goes down along it.
-/
namespace Verif.Optim
open Verif Res Graph Ops

noncomputable section

/-- A training step with any optimizer: run the loss, call the optimizer (include/model.hpp lines 254-256). -/
def trainWith {O : Type} (step : Ex ℝ → O → OSt → Res (O × OSt)) (loss : Ex ℝ) (o : O) (s : OSt) : Res (Ten ℝ × O × OSt) := do
  let (y, st) ← run loss s.st
  let (o, s) ← step loss o { s with st := st }
  pure (y, o, s)

/-- The programs of C86: an expression of C53 without regularisers, whose value is one number, and a session that knows its variables. -/
structure Program (eps : ℝ) (loss : Ex ℝ) (s : OSt) (cfg : Nat → Cfg ℝ) : Prop where
  consistent : Consistent loss
  unshared : Unshared loss
  training : s.st.training = true
  smooth : Smooth s.st.leaf s.st.data loss
  cfgs : ∀ p ∈ occs loss none, ∀ v c, p.2 = .var v c → c = cfg v ∧ (cfg v).trainable = true
  noreg : ∀ v ∈ vars loss, (cfg v).l1 < eps ∧ (cfg v).l2 < eps
  nodup : (s.reg.map (·.1)).Nodup
  all : ∀ v ∈ vars loss, (v, true) ∈ s.reg
  fit : ∀ v, (v, true) ∈ s.reg → (s.st.data v).WF ∧ (s.st.grad v).WF ∧ (s.st.grad v).shape = (s.st.data v).shape
  scalar : ∀ y, eval s.st.leaf s.st.data loss = ok y → y.shape = [1]

/-- `G v is` is the derivative of the value of the loss with respect to element `is` of variable `v`. -/
def IsGradient (loss : Ex ℝ) (s : OSt) (G : Nat → List Nat → ℝ) : Prop :=
  ∀ v ∈ vars loss, ∀ is, ValidIdx (s.st.data v).shape is → ∃ Y : ℝ → Ten ℝ,
    (∀ h : ℝ, eval s.st.leaf (upd s.st.data v (bump (s.st.data v) is h)) loss = ok (Y h)) ∧ HasDerivAt (fun h => (Y h).at [0]) (G v is) 0

/-- Some derivative is not zero. -/
def Sloped (loss : Ex ℝ) (s : OSt) (G : Nat → List Nat → ℝ) : Prop := ∃ v ∈ vars loss, ∃ is, ValidIdx (s.st.data v).shape is ∧ G v is ≠ 0

/-- A training step succeeds and the value of the loss is smaller afterwards; `y` is the value before. -/
def Lowers {O : Type} (step : Ex ℝ → O → OSt → Res (O × OSt)) (loss : Ex ℝ) (s : OSt) (y : Ten ℝ) (o : O) : Prop :=
  ∃ o' s' y', trainWith step loss o s = ok (y, o', s') ∧ eval s'.st.leaf s'.st.data loss = ok y' ∧ y'.at [0] < y.at [0]

/-- A training step succeeds and the value of the loss is larger afterwards. -/
def Raises {O : Type} (step : Ex ℝ → O → OSt → Res (O × OSt)) (loss : Ex ℝ) (s : OSt) (y : Ten ℝ) (o : O) : Prop :=
  ∃ o' s' y', trainWith step loss o s = ok (y, o', s') ∧ eval s'.st.leaf s'.st.data loss = ok y' ∧ y.at [0] < y'.at [0]

theorem pair_scaled_nonneg (sh : List Nat) (g p : List Nat → ℝ) (hp : ∀ is, 0 < p is) : 0 ≤ pair sh g (fun is => p is * g is) := by
  have : pair sh g (fun is => p is * g is) = pair sh (fun is => √(p is) * g is) (fun is => √(p is) * g is) := by
    unfold pair
    congr 1
    funext is
    have := Real.mul_self_sqrt (hp is).le
    calc g is * (p is * g is) = p is * (g is * g is) := by ring
      _ = (√(p is) * √(p is)) * (g is * g is) := by rw [this]
      _ = _ := by ring
  rw [this]
  exact pair_self_nonneg _ _

theorem pair_scaled_pos {sh : List Nat} {g p : List Nat → ℝ} (hp : ∀ is, 0 < p is) {is : List Nat} (his : ValidIdx sh is) (hg : g is ≠ 0) :
    0 < pair sh g (fun is => p is * g is) := by
  have : pair sh g (fun is => p is * g is) = pair sh (fun is => √(p is) * g is) (fun is => √(p is) * g is) := by
    unfold pair
    congr 1
    funext is
    have := Real.mul_self_sqrt (hp is).le
    calc g is * (p is * g is) = p is * (g is * g is) := by ring
      _ = (√(p is) * √(p is)) * (g is * g is) := by rw [this]
      _ = _ := by ring
  rw [this]
  exact pair_self_pos his (mul_ne_zero (Real.sqrt_pos.mpr (hp is)).ne' hg)

theorem Program.zero {eps : ℝ} {loss : Ex ℝ} {s : OSt} {cfg : Nat → Cfg ℝ} (H : Program eps loss s cfg) {v : Nat} (hv : v ∈ vars loss) (n : Nat) (d : ℝ) :
    n • regTerm eps (cfg v) d = 0 := by
  unfold regTerm
  rw [if_neg (not_le.mpr (H.noreg v hv).1), if_neg (not_le.mpr (H.noreg v hv).2)]
  simp

/-- A run and the backward pass of a program: the gradients are the derivatives `G`, and along every direction `δ` the value of the loss has
the derivative `Σ G δ`. -/
theorem slopes {eps : ℝ} {loss : Ex ℝ} {s : OSt} {cfg : Nat → Cfg ℝ} (H : Program eps loss s cfg) :
    ∃ (y : Ten ℝ) (st1 : St ℝ) (s1 : OSt) (G : Nat → List Nat → ℝ), run loss s.st = ok (y, st1) ∧ eval s.st.leaf s.st.data loss = ok y ∧
      backprop eps loss { s with st := st1 } = ok s1 ∧ s1.reg = s.reg ∧ s1.ctx = s.ctx ∧ s1.st.leaf = s.st.leaf ∧
      Ready s1 (fun v => (s.st.data v).shape) (fun v => (s.st.data v).at) G ∧ IsGradient loss s G ∧
      ∀ δ : Nat → List Nat → ℝ, ∃ Y : ℝ → Ten ℝ, Y 0 = y ∧
        (∀ (t : ℝ) (D : Nat → Ten ℝ), (∀ v ∈ vars loss, (D v).Has (s.st.data v).shape (fun is => (s.st.data v).at is + t * δ v is)) → eval s.st.leaf D loss = ok (Y t)) ∧
        HasDerivAt (fun t => (Y t).at [0]) (∑ v ∈ (vars loss).toFinset, pair (s.st.data v).shape (G v) (δ v)) 0 := by
  classical
  have hg0 : ∀ v ∈ vars loss, (s.st.data v).WF ∧ (s.st.grad v).WF ∧ (s.st.grad v).shape = (s.st.data v).shape := fun v hv => H.fit v (H.all v hv)
  obtain ⟨y, st1, r1, r2, r3⟩ := gradient_is_derivative_partial eps loss H.consistent H.unshared s.st H.training H.smooth hg0 cfg H.cfgs
  obtain ⟨y', st1', q1, _, q3⟩ := gradient_directional_partial eps loss H.consistent H.unshared s.st H.training H.smooth hg0 cfg H.cfgs
  rw [r1] at q1
  simp only [ok.injEq, Prod.mk.injEq] at q1
  obtain ⟨rfl, rfl⟩ := q1
  have hys := H.scalar y r2
  have hones : ones1.WF ∧ ones1.shape = y.shape := ⟨rfl, hys.symm⟩
  obtain ⟨st2, r4, r5, r6⟩ := r3 ones1 hones.1 hones.2
  obtain ⟨st2', q4, _, _, q6⟩ := q3 ones1 hones.1 hones.2
  rw [r4] at q4
  simp only [ok.injEq] at q4
  subst q4
  rw [hys] at r6 q6
  simp only [pair_one] at r6 q6
  have hleaf : st2.leaf = s.st.leaf := (backward_keeps eps loss _ _ _ _ r4).1.trans (run_keeps r1).1
  have hback : backprop eps loss { s with st := st1 } = ok { s with st := st2 } := by unfold backprop; rw [r4]; rfl
  have hr : Ready { s with st := st2 } (fun v => (s.st.data v).shape) (fun v => (s.st.data v).at) (fun v => (st2.grad v).at) := by
    refine ⟨H.nodup, fun v hv => ?_, fun v hv => ?_⟩
    · dsimp only; rw [r5]; exact (H.fit v hv).1.has
    · dsimp only
      by_cases hvl : v ∈ vars loss
      · have := (r6 v hvl).1
        have h := this.1.has
        rwa [this.2] at h
      · obtain ⟨u1, _⟩ := unmentioned_grad r1 hback hvl
        dsimp only at u1
        rw [u1, ← (H.fit v hv).2.2]
        exact (H.fit v hv).2.1.has
  refine ⟨y, st1, _, fun v => (st2.grad v).at, r1, r2, hback, rfl, rfl, hleaf, hr, fun v hv is his => ?_, ?_⟩
  · obtain ⟨Y, D, k1, k2, k3⟩ := (r6 v hv).2 is his
    refine ⟨Y, k1, ?_⟩
    dsimp only
    rw [k3, H.zero hv, add_zero]
    exact k2
  · intro δ
    let θ : ℝ → Nat → Ten ℝ := fun t v =>
      if v ∈ vars loss then tenOf (s.st.data v).shape (fun is => (s.st.data v).at is + t * δ v is) else s.st.data v
    have hθ0 : θ 0 = s.st.data := by
      funext v
      simp only [θ]
      split
      · rename_i hv
        exact Ten.Has.ext (tenOf_has _ _) ((hg0 v hv).1.has.congr (fun is _ => by simp))
      · rfl
    obtain ⟨Y, k1, k2⟩ := q6 θ δ hθ0 (by
      intro v hv
      simp only [θ, if_pos hv]
      refine ⟨fun t => ⟨(tenOf_has _ _).wf, rfl⟩, fun is his => ?_⟩
      have : ∀ t : ℝ, (tenOf (s.st.data v).shape (fun is => (s.st.data v).at is + t * δ v is)).at is = (s.st.data v).at is + t * δ v is :=
        fun t => (tenOf_has _ _).at_eq his
      simp only [this]
      have h1 := ((hasDerivAt_id (0 : ℝ)).mul_const (δ v is)).const_add ((s.st.data v).at is)
      simpa using h1)
    have e1 : ∀ v ∈ (vars loss).toFinset, pair (s.st.data v).shape (fun is => (st2.grad v).at is -
        ((varOccs loss none).filter (fun p => p.2 = v)).toFinset.card • regTerm eps (cfg v) ((s.st.data v).at is)) (δ v) =
        pair (s.st.data v).shape (st2.grad v).at (δ v) := by
      intro v hv
      rw [List.mem_toFinset] at hv
      simp only [H.zero hv, sub_zero]
    rw [Finset.sum_congr rfl e1] at k2
    have e0 := k1 0
    rw [hθ0, r2] at e0
    refine ⟨Y, (ok.inj e0).symm, fun t D hD => ?_, k2⟩
    rw [← k1 t]
    refine eval_congr loss (fun v hv => ?_)
    simp only [θ, if_pos hv]
    exact Ten.Has.ext (hD v hv) (tenOf_has _ _)

/-- Against the gradient, with any positive factors, it goes down. -/
theorem downhill {loss : Ex ℝ} {s : OSt} {G P : Nat → List Nat → ℝ} (hS : Sloped loss s G) (hP : ∀ v is, 0 < P v is) :
    ∑ v ∈ (vars loss).toFinset, pair (s.st.data v).shape (G v) (fun is => -(P v is * G v is)) < 0 := by
  obtain ⟨v0, hv0, is0, his0, hne⟩ := hS
  have e1 : ∀ v ∈ (vars loss).toFinset, pair (s.st.data v).shape (G v) (fun is => -(P v is * G v is)) = -pair (s.st.data v).shape (G v) (fun is => P v is * G v is) := by
    intro v _
    unfold pair
    rw [show (fun is => G v is * -(P v is * G v is)) = (fun is => (-1) * (G v is * (P v is * G v is))) from by funext is; ring, sumIdx_mul_left]
    ring
  rw [Finset.sum_congr rfl e1, Finset.sum_neg_distrib, neg_lt_zero]
  exact Finset.sum_pos' (fun v _ => pair_scaled_nonneg _ _ _ (hP v)) ⟨v0, List.mem_toFinset.mpr hv0, pair_scaled_pos (hP v0) his0 hne⟩

theorem Updates.with {s s' : OSt} {sh : Nat → List Nat} {w w' : Nat → List Nat → ℝ} {C : Nat → List (Ten ℝ) → Prop} (h : Updates s s' sh w C)
    (he : ∀ v is, w v is = w' v is) : Updates s s' sh w' (fun _ _ => True) :=
  ⟨fun v hv => ⟨(h.new v hv).1.congr (fun is _ => he v is), (h.new v hv).2.1, trivial⟩, h.old, h.reg, h.rest⟩

section steps
variable {eps : ℝ} {loss : Ex ℝ} {s : OSt} {cfg : Nat → Cfg ℝ} {μ ν : Nat → List Nat → ℝ}

/-- An optimizer that moves every element by `-t P G`, with `t` the learning rate and positive factors `P` that do not depend on it, lowers
the loss if the learning rate is small enough. -/
theorem factor_descends {O : Type} (step : Ex ℝ → O → OSt → Res (O × OSt)) (H : Program eps loss s cfg) (T : Set O) (rate : O → ℝ)
    (P : (Nat → List Nat → ℝ) → Nat → List Nat → ℝ) (hP : ∀ G v is, 0 < P G v is)
    (hstep : ∀ (s0 s1 : OSt) (G : Nat → List Nat → ℝ), backprop eps loss s0 = ok s1 → Ready s1 (fun v => (s.st.data v).shape) (fun v => (s.st.data v).at) G → s1.ctx = s.ctx →
      s1.reg = s.reg → ∀ o ∈ T, ∃ o' s', step loss o s0 = ok (o', s') ∧
        Updates s1 s' (fun v => (s.st.data v).shape) (fun v is => (s.st.data v).at is - rate o * (P G v is * G v is)) (fun _ _ => True)) :
    ∃ (y : Ten ℝ) (G : Nat → List Nat → ℝ), eval s.st.leaf s.st.data loss = ok y ∧ IsGradient loss s G ∧
      (Sloped loss s G → ∃ η > 0, ∀ o ∈ T, 0 < rate o → rate o < η → Lowers step loss s y o) := by
  obtain ⟨y, st1, s1, G, r1, r2, r3, r4, r5, r6, r7, r8, r9⟩ := slopes H
  refine ⟨y, G, r2, r8, fun hS => ?_⟩
  obtain ⟨Y, k1, k2, k3⟩ := r9 (fun v is => -(P G v is * G v is))
  obtain ⟨η, hη, h3⟩ := descends k3 (downhill hS (hP G))
  refine ⟨η, hη, fun o ho h1 h2 => ?_⟩
  obtain ⟨o', s', m1, m2⟩ := hstep _ s1 G r3 r7 r5 r4 o ho
  refine ⟨o', s', Y (rate o), ?_, ?_, ?_⟩
  · unfold trainWith
    rw [r1, bind_ok]
    dsimp only
    rw [m1]
    rfl
  · rw [m2.rest]
    dsimp only
    rw [r6]
    refine k2 _ _ (fun v hv => (m2.new v ?_).1.congr (fun is _ => by ring))
    rw [r4]; exact H.all v hv
  · have := h3 _ h1 h2
    simp only [k1] at this
    exact this

theorem rootfac (heps : 0 < eps) (x : ℝ) : 0 < 1 / (eps + √x) := by
  have := add_pos_of_pos_of_nonneg heps (Real.sqrt_nonneg x)
  positivity

/-- C130, adagrad. -/
theorem adagrad_descends (heps : 0 < eps) (H : Program eps loss s cfg) (hc : ∀ v, (v, true) ∈ s.reg → Ctx1 (s.ctx v) (s.st.data v).shape (μ v)) :
    ∃ (y : Ten ℝ) (G : Nat → List Nat → ℝ), eval s.st.leaf s.st.data loss = ok y ∧ IsGradient loss s G ∧
      (Sloped loss s G → ∃ η > 0, ∀ o : Sched, 0 < o.rate → o.rate < η → Lowers (adagradStep eps) loss s y o) := by
  obtain ⟨y, G, h1, h2, h3⟩ := factor_descends (adagradStep eps) H Set.univ Sched.rate (fun G v is => 1 / (eps + √(μ v is + G v is ^ 2))) (fun G v is => rootfac heps _)
    (fun s0 s1 G hb hr hctx hreg o _ => by
      obtain ⟨s', k1, k2⟩ := adagrad_step (μ := μ) o hb hr (fun v hv => by rw [hctx]; exact hc v (hreg ▸ hv))
      exact ⟨_, s', k1, k2.with (fun v is => by unfold adagradDoc; ring)⟩)
  exact ⟨y, G, h1, h2, fun hS => by
    obtain ⟨η, hη, h⟩ := h3 hS
    exact ⟨η, hη, fun o => h o trivial⟩⟩

/-- C130, rmsprop: the bound depends on `rho` and on whether this is the first step. -/
theorem rmsprop_descends (heps : 0 < eps) (H : Program eps loss s cfg) (hc : ∀ v, (v, true) ∈ s.reg → Ctx1 (s.ctx v) (s.st.data v).shape (μ v)) (rho : ℝ) (first : Prop) :
    ∃ (y : Ten ℝ) (G : Nat → List Nat → ℝ), eval s.st.leaf s.st.data loss = ok y ∧ IsGradient loss s G ∧
      (Sloped loss s G → ∃ η > 0, ∀ o : Rmsprop, o.rho = rho → (o.sch.iter = 0 ↔ first) → 0 < o.sch.rate → o.sch.rate < η → Lowers (Rmsprop.step eps) loss s y o) := by
  classical
  obtain ⟨y, G, h1, h2, h3⟩ := factor_descends (Rmsprop.step eps) H {o | o.rho = rho ∧ (o.sch.iter = 0 ↔ first)} (fun o => o.sch.rate)
    (fun G v is => 1 / (eps + √(if first then G v is ^ 2 else rho * μ v is + (1 - rho) * G v is ^ 2))) (fun G v is => rootfac heps _)
    (fun s0 s1 G hb hr hctx hreg o ho => by
      obtain ⟨s', k1, k2⟩ := rmsprop_step (μ := μ) o hb hr (fun v hv => by rw [hctx]; exact hc v (hreg ▸ hv))
      refine ⟨_, s', k1, k2.with (fun v is => ?_)⟩
      rw [ho.1]
      simp only [ho.2]
      ring)
  exact ⟨y, G, h1, h2, fun hS => by
    obtain ⟨η, hη, h⟩ := h3 hS
    exact ⟨η, hη, fun o a b => h o ⟨a, b⟩⟩⟩

/-- C130, gradient_descent, with any momentum it was given (which it does not use). -/
theorem gradient_descent_descends (H : Program eps loss s cfg) :
    ∃ (y : Ten ℝ) (G : Nat → List Nat → ℝ), eval s.st.leaf s.st.data loss = ok y ∧ IsGradient loss s G ∧
      (Sloped loss s G → ∃ η > 0, ∀ o : Gd, 0 < o.lr → o.lr < η → Lowers (Gd.step eps) loss s y o) := by
  obtain ⟨y, G, h1, h2, h3⟩ := factor_descends (Gd.step eps) H Set.univ (fun o => o.lr) (fun _ _ _ => 1) (fun _ _ _ => one_pos)
    (fun s0 s1 G hb hr hctx hreg o _ => by
      obtain ⟨s', k1, k2⟩ := gradient_descent_step o hb hr
      exact ⟨_, s', k1, k2.with (fun v is => by simp [sgdDoc]; ring)⟩)
  exact ⟨y, G, h1, h2, fun hS => by
    obtain ⟨η, hη, h⟩ := h3 hS
    exact ⟨η, hη, fun o => h o trivial⟩⟩

/-- C130, adadelta. -/
theorem adadelta_descends (heps : 0 < eps) (H : Program eps loss s cfg) (hc : ∀ v, (v, true) ∈ s.reg → Ctx2 (s.ctx v) (s.st.data v).shape (μ v) (ν v)) (hμ : ∀ v is, 0 ≤ μ v is) :
    ∃ (y : Ten ℝ) (G : Nat → List Nat → ℝ), eval s.st.leaf s.st.data loss = ok y ∧ IsGradient loss s G ∧
      (Sloped loss s G → ∃ η > 0, ∀ o : Adadelta, 0 ≤ o.rho → o.rho ≤ 1 → 0 < o.lr → o.lr < η → Lowers (Adadelta.step eps) loss s y o) := by
  obtain ⟨y, G, h1, h2, h3⟩ := factor_descends (Adadelta.step eps) H {o | 0 ≤ o.rho ∧ o.rho ≤ 1} (fun o => o.lr) (fun _ _ _ => 1) (fun _ _ _ => one_pos)
    (fun s0 s1 G hb hr hctx hreg o ho => by
      obtain ⟨s', μ', k1, _, k2⟩ := adadelta_step_partial (μ := μ) (ν := ν) o heps ho hb hr (fun v hv => by rw [hctx]; exact hc v (hreg ▸ hv)) hμ
      exact ⟨_, s', k1, k2.with (fun v is => by simp)⟩)
  exact ⟨y, G, h1, h2, fun hS => by
    obtain ⟨η, hη, h⟩ := h3 hS
    exact ⟨η, hη, fun o a b => h o ⟨a, b⟩⟩⟩

/-- C130, sgd with momentum, in its first step (no memory yet) and whenever the memory is zero.
Full statement (false of the code): the same for every memory, see `sgd_overshoots_violated`. -/
theorem sgd_first_descends_partial (H : Program eps loss s cfg) (hc : ∀ v, (v, true) ∈ s.reg → Ctx1 (s.ctx v) (s.st.data v).shape (fun _ => 0)) (mom : ℝ) (hm : 0 ≤ mom) (nesterov : Bool) :
    ∃ (y : Ten ℝ) (G : Nat → List Nat → ℝ), eval s.st.leaf s.st.data loss = ok y ∧ IsGradient loss s G ∧
      (Sloped loss s G → ∃ η > 0, ∀ o : Sgd, o.mom = mom → o.nesterov = nesterov → 0 < o.sch.rate → o.sch.rate < η → Lowers (Sgd.step eps) loss s y o) := by
  obtain ⟨y, G, h1, h2, h3⟩ := factor_descends (Sgd.step eps) H {o | o.mom = mom ∧ o.nesterov = nesterov} (fun o => o.sch.rate)
    (fun _ _ _ => if nesterov = true then 1 else 1 + mom) (fun _ _ _ => by split <;> linarith)
    (fun s0 s1 G hb hr hctx hreg o ho => by
      obtain ⟨s', k1, k2⟩ := sgd_step (μ := fun _ _ => 0) o hb hr (fun v hv => by rw [hctx]; exact hc v (hreg ▸ hv))
      refine ⟨_, s', k1, k2.with (fun v is => ?_)⟩
      rw [ho.1, ho.2]
      split <;> ring)
  exact ⟨y, G, h1, h2, fun hS => by
    obtain ⟨η, hη, h⟩ := h3 hS
    exact ⟨η, hη, fun o a b => h o ⟨a, b⟩⟩⟩

/-- C130, the first two steps of adam (which are plain steps, C58).
Full statement (false of the code, and of the documented rule): the same for every step, see `adam_uphill_violated`. -/
theorem adam_first_descends_partial (H : Program eps loss s cfg) (hc : ∀ v, (v, true) ∈ s.reg → Ctx2 (s.ctx v) (s.st.data v).shape (μ v) (ν v)) :
    ∃ (y : Ten ℝ) (G : Nat → List Nat → ℝ), eval s.st.leaf s.st.data loss = ok y ∧ IsGradient loss s G ∧
      (Sloped loss s G → ∃ η > 0, ∀ o : Adam, o.iter ≤ 1 → 0 < o.lr → o.lr < η → Lowers (Adam.step eps) loss s y o) := by
  obtain ⟨y, G, h1, h2, h3⟩ := factor_descends (Adam.step eps) H {o | o.iter ≤ 1} (fun o => o.lr) (fun _ _ _ => 1) (fun _ _ _ => one_pos)
    (fun s0 s1 G hb hr hctx hreg o ho => by
      obtain ⟨s', k1, k2⟩ := adam_step (μ := μ) (ν := ν) o hb hr (fun v hv => by rw [hctx]; exact hc v (hreg ▸ hv))
      refine ⟨_, s', k1, k2.with (fun v is => ?_)⟩
      rw [if_neg (by have : o.iter ≤ 1 := ho; omega)]
      ring)
  exact ⟨y, G, h1, h2, fun hS => by
    obtain ⟨η, hη, h⟩ := h3 hS
    exact ⟨η, hη, fun o a => h o a⟩⟩

/-- Up the slope. -/
theorem ascends {f : ℝ → ℝ} {c : ℝ} (h : HasDerivAt f c 0) (hc : 0 < c) : ∃ η > 0, ∀ t, 0 < t → t < η → f 0 < f t := by
  obtain ⟨η, hη, h2⟩ := descends h.neg (by linarith)
  exact ⟨η, hη, fun t a b => by have := h2 t a b; simp only [Pi.neg_apply] at this; linarith⟩

/-- C130 is false of adam from the third step on: if the memory outweighs the gradient and points the other way - for every element, and
for one of them strictly - then the loss rises, however small the learning rate. -/
theorem adam_uphill_violated (heps : 0 < eps) (H : Program eps loss s cfg) (hc : ∀ v, (v, true) ∈ s.reg → Ctx2 (s.ctx v) (s.st.data v).shape (μ v) (ν v))
    (b1 b2 : ℝ) (iter : Nat) (hi : 1 < iter) (hb1 : 0 ≤ b1 ∧ b1 < 1) (hb2 : 0 ≤ b2 ∧ b2 < 1) :
    ∃ (y : Ten ℝ) (G : Nat → List Nat → ℝ), eval s.st.leaf s.st.data loss = ok y ∧ IsGradient loss s G ∧
      ((∀ v ∈ vars loss, ∀ is, ValidIdx (s.st.data v).shape is → G v is * (b1 * μ v is + (1 - b1) * G v is) ≤ 0) →
        (∃ v ∈ vars loss, ∃ is, ValidIdx (s.st.data v).shape is ∧ G v is * (b1 * μ v is + (1 - b1) * G v is) < 0) →
        ∃ η > 0, ∀ o : Adam, o.iter = iter → o.b1 = b1 → o.b2 = b2 → 0 < o.lr → o.lr < η → Raises (Adam.step eps) loss s y o) := by
  obtain ⟨y, st1, s1, G, r1, r2, r3, r4, r5, r6, r7, r8, r9⟩ := slopes H
  refine ⟨y, G, r2, r8, fun hle ⟨v0, hv0, is0, his0, hlt⟩ => ?_⟩
  have a1 : 0 < √(1 - b2 ^ (iter + 1)) := Real.sqrt_pos.mpr (sub_pos.mpr (pow_lt_one₀ hb2.1 hb2.2 (by omega)))
  have a2 : 0 < 1 - b1 ^ (iter + 1) := sub_pos.mpr (pow_lt_one₀ hb1.1 hb1.2 (by omega))
  let P : Nat → List Nat → ℝ := fun v is => √(1 - b2 ^ (iter + 1)) / (1 - b1 ^ (iter + 1)) * (1 / (eps + √(b2 * ν v is + (1 - b2) * G v is ^ 2)))
  have hP : ∀ v is, 0 < P v is := fun v is => mul_pos (div_pos a1 a2) (rootfac heps _)
  obtain ⟨Y, k1, k2, k3⟩ := r9 (fun v is => -(P v is * (b1 * μ v is + (1 - b1) * G v is)))
  have hpos : 0 < ∑ v ∈ (vars loss).toFinset, pair (s.st.data v).shape (G v) (fun is => -(P v is * (b1 * μ v is + (1 - b1) * G v is))) := by
    have e : ∀ v is, G v is * -(P v is * (b1 * μ v is + (1 - b1) * G v is)) = P v is * -(G v is * (b1 * μ v is + (1 - b1) * G v is)) := fun v is => by ring
    refine Finset.sum_pos' (fun v hv => ?_) ⟨v0, List.mem_toFinset.mpr hv0, ?_⟩
    · unfold pair
      rw [sumIdx_eq_range]
      refine Finset.sum_nonneg (fun k hk => ?_)
      rw [e]
      exact mul_nonneg (hP _ _).le (neg_nonneg.mpr (hle v (List.mem_toFinset.mp hv) _ (unflat_spec (Finset.mem_range.mp hk)).1))
    · unfold pair
      rw [sumIdx_eq_range]
      refine Finset.sum_pos' (fun k hk => ?_) ⟨flat _ is0, Finset.mem_range.mpr (flat_lt his0), ?_⟩
      · rw [e]
        exact mul_nonneg (hP _ _).le (neg_nonneg.mpr (hle v0 hv0 _ (unflat_spec (Finset.mem_range.mp hk)).1))
      · rw [unflat_flat his0, e]
        exact mul_pos (hP _ _) (neg_pos.mpr hlt)
  obtain ⟨η, hη, h3⟩ := ascends k3 hpos
  refine ⟨η, hη, fun o ho1 ho2 ho3 h1 h2 => ?_⟩
  obtain ⟨s', m1, m2⟩ := adam_step (μ := μ) (ν := ν) o r3 r7 (fun v hv => by rw [r5]; exact hc v (r4 ▸ hv))
  refine ⟨{ o with iter := o.iter + 1 }, s', Y o.lr, ?_, ?_, ?_⟩
  · unfold trainWith
    rw [r1, bind_ok]
    dsimp only
    rw [m1]
    rfl
  · rw [m2.rest]
    dsimp only
    rw [r6]
    refine k2 _ _ (fun v hv => (m2.new v ?_).1.congr (fun is _ => ?_))
    · rw [r4]; exact H.all v hv
    · rw [if_pos (by omega), ho1, ho2, ho3]
      simp only [adamDoc, P]
      ring
  · have := h3 _ h1 h2
    simp only [k1] at this
    exact this

/-- The state with the variables moved by their memories times `κ`. -/
def coasted (κ : ℝ) (μ : Nat → List Nat → ℝ) (s : OSt) : OSt :=
  { s with st := { s.st with data := fun v => tenOf (s.st.data v).shape (fun is => (s.st.data v).at is + κ * μ v is) } }

/-- C130 is false of sgd with momentum: if coasting along the memory alone takes the variables to a larger loss, then a step does, however
small the learning rate.  (With the exchanged variants of C58 the memory counts `mom` times with Nesterov's modification, `mom²` without.) -/
theorem sgd_overshoots_violated (H : Program eps loss s cfg) (hc : ∀ v, (v, true) ∈ s.reg → Ctx1 (s.ctx v) (s.st.data v).shape (μ v)) (mom : ℝ) (nesterov : Bool)
    (H2 : Program eps loss (coasted (if nesterov = true then mom else mom * mom) μ s) cfg) {y y2 : Ten ℝ} (hy : eval s.st.leaf s.st.data loss = ok y)
    (hy2 : eval s.st.leaf (coasted (if nesterov = true then mom else mom * mom) μ s).st.data loss = ok y2) (hlt : y.at [0] < y2.at [0]) :
    ∃ η > 0, ∀ o : Sgd, o.mom = mom → o.nesterov = nesterov → 0 < o.sch.rate → o.sch.rate < η → Raises (Sgd.step eps) loss s y o := by
  obtain ⟨y', st1, s1, G, r1, r2, r3, r4, r5, r6, r7, r8, _⟩ := slopes H
  rw [hy] at r2
  cases r2
  obtain ⟨z, _, _, _, _, q2, _, _, _, _, _, _, q9⟩ := slopes H2
  have q2' : eval s.st.leaf (coasted (if nesterov = true then mom else mom * mom) μ s).st.data loss = ok z := q2
  rw [hy2] at q2'
  cases q2'
  obtain ⟨Y, k1, k2, k3⟩ := q9 (fun v is => -((if nesterov = true then 1 else 1 + mom) * G v is))
  have hcont := k3.continuousAt
  have hev : ∀ᶠ t in nhds (0 : ℝ), y.at [0] < (Y t).at [0] := hcont.eventually (lt_mem_nhds (by simp only [k1]; exact hlt))
  rw [Metric.eventually_nhds_iff] at hev
  obtain ⟨η, hη, h3⟩ := hev
  refine ⟨η, hη, fun o ho1 ho2 h1 h2 => ?_⟩
  obtain ⟨s', m1, m2⟩ := sgd_step (μ := μ) o r3 r7 (fun v hv => by rw [r5]; exact hc v (r4 ▸ hv))
  refine ⟨{ o with sch := o.sch.decayed.tick }, s', Y o.sch.rate, ?_, ?_, h3 (by rw [Real.dist_eq, sub_zero, abs_of_pos h1]; exact h2)⟩
  · unfold trainWith
    rw [r1, bind_ok]
    dsimp only
    rw [m1]
    rfl
  · rw [m2.rest]
    dsimp only
    rw [r6]
    refine k2 _ _ (fun v hv => ((m2.new v (by rw [r4]; exact H.all v hv)).1).congr (fun is his => ?_))
    have e : ((coasted (if nesterov = true then mom else mom * mom) μ s).st.data v).at is = (s.st.data v).at is + (if nesterov = true then mom else mom * mom) * μ v is :=
      (tenOf_has _ _).at_eq his
    rw [e, ho1, ho2]
    split <;> ring

end steps

end
end Verif.Optim
