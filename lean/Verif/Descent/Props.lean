import Verif.Descent.Spec
/-!
# Property C111: fitting is descent

Running `fit` moves the weights, batch after batch and epoch after epoch, by the rule of the optimizer applied to the derivatives of the loss.
-/
namespace Verif.Descent
open Verif Res View Data Ops Graph Loss Optim Fit

noncomputable section

/-- A compiled model (`Verif.Fit.compiled`) with operators that hold something: `e q` is the loss if they hold `q`, and a pass leaves `adv q st` in them, with
the place holders and variables of `st`.  (`adv` is applied where the optimizer is run; the actions of the pass itself start from `q`.) -/
def compiledWith {κ O : Type} (e : κ → Ex ℝ) (adv : κ → St ℝ → Res κ) (inp gt : Nat) (step : Ex ℝ → O → OSt → Res (O × OSt)) : Machine (κ × O × OSt) ℝ where
  bind x y s := (s.1, s.2.1, { s.2.2 with st := { s.2.2.st with leaf := upd (upd s.2.2.st.leaf inp x) gt y } })
  phase b s := (s.1, s.2.1, { s.2.2 with st := { s.2.2.st with training := b } })
  loss s := do
    let (y, st) ← run (e s.1) s.2.2.st
    pure (y, (s.1, s.2.1, { s.2.2 with st := st }))
  step s := do
    let q ← adv s.1 s.2.2.st
    let (o, s') ← step (e s.1) s.2.1 s.2.2
    pure (q, o, s')

/-- With operators that hold nothing this is `compiled`. -/
theorem compiledWith_unit {O : Type} (e : Ex ℝ) (inp gt : Nat) (step : Ex ℝ → O → OSt → Res (O × OSt)) (x y : Ten ℝ) (b : Bool) (s : Unit × O × OSt) :
    ((compiledWith (fun _ : Unit => e) (fun q _ => ok q) inp gt step).bind x y s).2 = (compiled e inp gt (step e)).bind x y s.2 ∧
    ((compiledWith (fun _ : Unit => e) (fun q _ => ok q) inp gt step).phase b s).2 = (compiled e inp gt (step e)).phase b s.2 ∧
    (∀ t s', (compiledWith (fun _ : Unit => e) (fun q _ => ok q) inp gt step).loss s = ok (t, s') ↔ (compiled e inp gt (step e)).loss s.2 = ok (t, s'.2)) ∧
    (∀ s', (compiledWith (fun _ : Unit => e) (fun q _ => ok q) inp gt step).step s = ok s' ↔ (compiled e inp gt (step e)).step s.2 = ok s'.2) := by
  refine ⟨rfl, rfl, fun t s' => ?_, fun s' => ?_⟩
  · simp only [compiledWith, compiled, bind_eq_ok, pure_eq, ok.injEq, Prod.mk.injEq, Prod.exists]
    constructor
    · rintro ⟨y, st, h1, rfl, rfl⟩; exact ⟨y, st, h1, rfl, rfl⟩
    · rintro ⟨y, st, h1, rfl, h2⟩; exact ⟨y, st, h1, rfl, Prod.ext rfl h2⟩
  · simp only [compiledWith, compiled, bind_ok, bind_eq_ok, pure_eq, ok.injEq, Prod.exists]
    constructor
    · rintro ⟨o, s2, h1, rfl⟩; exact h1
    · intro h; exact ⟨_, _, h, rfl⟩

/-- A step of the optimizer moves every element by `law`, whatever the loss: `J t` holds of the optimizer before step `t`, and `M` says what the contexts of a
variable hold. -/
structure Moves {O : Type} (eps : ℝ) (step : Ex ℝ → O → OSt → Res (O × OSt)) (law : Law) (J : Nat → O → Prop) (M : List (Ten ℝ) → List Nat → (List Nat → ℝ × ℝ) → Prop) : Prop where
  move : ∀ (loss : Ex ℝ) (t : Nat) (o : O) (s s1 : OSt) (sh : Nat → List Nat) (w g : Nat → List Nat → ℝ) (μ : Nat → List Nat → ℝ × ℝ), J t o → backprop eps loss s = ok s1 →
    Optim.Ready s1 sh w g → (∀ v, (v, true) ∈ s1.reg → M (s1.ctx v) (sh v) (μ v)) →
    ∃ o' s', step loss o s = ok (o', s') ∧ J (t + 1) o' ∧ Updates s1 s' sh (fun v is => (law t (w v is) (μ v is) (g v is)).1)
      (fun v c => M c (sh v) (fun is => (law t (w v is) (μ v is) (g v is)).2))

/-- The learning rates of sgd, adagrad and rmsprop: documented without decay, and what the code makes of it (C59). -/
def rates (lr decay : ℝ) (t : Nat) : ℝ := lr / ∏ i ∈ Finset.range (t + 1), (1 + decay * i)

/-- A new schedule, `t` steps later. -/
def SchedAt (lr decay : ℝ) (t : Nat) (o : Sched) : Prop := o.iter = t ∧ o.decay = decay ∧ o.lr = lr / ∏ i ∈ Finset.range t, (1 + decay * i)

theorem SchedAt.rate {lr decay : ℝ} {t : Nat} {o : Sched} (h : SchedAt lr decay t o) : o.rate = rates lr decay t := by
  unfold Sched.rate rates
  rw [h.1, h.2.1, h.2.2, Finset.prod_range_succ, div_div]

theorem SchedAt.next {lr decay : ℝ} {t : Nat} {o : Sched} (h : SchedAt lr decay t o) : SchedAt lr decay (t + 1) o.decayed.tick := by
  refine ⟨?_, ?_, ?_⟩
  · simp only [Sched.tick, Sched.decayed, h.1]
  · simp only [Sched.tick, Sched.decayed, h.2.1]
  · simp only [Sched.tick, Sched.decayed, h.1, h.2.1, h.2.2]
    rw [Finset.prod_range_succ, div_div]

theorem rates_const (lr : ℝ) (t : Nat) : rates lr 0 t = lr := by simp [rates]

/-- sgd, with the two kinds of momentum exchanged (C58). -/
theorem sgd_moves (eps lr decay mom : ℝ) (nesterov : Bool) : Moves eps (Sgd.step eps) (sgdLaw mom (rates lr decay) (!nesterov))
    (fun t o => SchedAt lr decay t o.sch ∧ o.mom = mom ∧ o.nesterov = nesterov) (fun c sh μ => Ctx1 c sh (fun is => (μ is).1)) := by
  refine ⟨fun loss t o s s1 sh w g μ hJ hb hr hc => ?_⟩
  obtain ⟨s', h1, h2⟩ := sgd_step o hb hr hc
  refine ⟨_, s', h1, ⟨hJ.1.next, hJ.2.1, hJ.2.2⟩, fun v hv => ?_, h2.old, h2.reg, h2.rest⟩
  obtain ⟨k1, k2, k3⟩ := h2.new v hv
  simp only [hJ.1.rate, hJ.2.1, hJ.2.2] at k1 k3
  refine ⟨k1.congr (fun is _ => ?_), k2, k3⟩
  simp only [sgdLaw, sgdDoc]
  cases nesterov <;> simp
  ring

/-- sgd without momentum is plain gradient descent. -/
theorem sgd_plain_moves (eps lr decay : ℝ) (nesterov : Bool) : Moves eps (Sgd.step eps) (plainLaw (rates lr decay))
    (fun t o => SchedAt lr decay t o.sch ∧ o.mom = 0 ∧ o.nesterov = nesterov) (fun c sh _ => ∃ μ, Ctx1 c sh μ) := by
  refine ⟨fun loss t o s s1 sh w g μ hJ hb hr hc => ?_⟩
  choose! μ' hc using hc
  obtain ⟨s', h1, h2⟩ := sgd_step (μ := μ') o hb hr hc
  refine ⟨_, s', h1, ⟨hJ.1.next, hJ.2.1, hJ.2.2⟩, fun v hv => ?_, h2.old, h2.reg, h2.rest⟩
  obtain ⟨k1, k2, k3⟩ := h2.new v hv
  simp only [hJ.1.rate, hJ.2.1, hJ.2.2] at k1 k3
  refine ⟨k1.congr (fun is _ => ?_), k2, _, k3⟩
  simp only [plainLaw]
  split <;> ring

/-- gradient_descent is plain gradient descent. -/
theorem gd_moves (eps : ℝ) (o0 : Gd) : Moves eps (Gd.step eps) (plainLaw (fun _ => o0.lr)) (fun _ o => o = o0) (fun _ _ _ => True) := by
  refine ⟨fun loss t o s s1 sh w g μ hJ hb hr hc => ?_⟩
  subst hJ
  obtain ⟨s', h1, h2⟩ := gradient_descent_step o hb hr
  refine ⟨_, s', h1, rfl, fun v hv => ?_, h2.old, h2.reg, h2.rest⟩
  obtain ⟨k1, k2, _⟩ := h2.new v hv
  refine ⟨k1.congr (fun is _ => ?_), k2, trivial⟩
  simp [plainLaw, sgdDoc]
  ring

/-- adagrad. -/
theorem adagrad_moves (eps lr decay : ℝ) : Moves eps (adagradStep eps) (adagradLaw eps (rates lr decay)) (SchedAt lr decay) (fun c sh μ => Ctx1 c sh (fun is => (μ is).1)) := by
  refine ⟨fun loss t o s s1 sh w g μ hJ hb hr hc => ?_⟩
  obtain ⟨s', h1, h2⟩ := adagrad_step o hb hr hc
  rw [hJ.rate] at h2
  exact ⟨_, s', h1, hJ.next, h2.new, h2.old, h2.reg, h2.rest⟩

/-- rmsprop, whose running average starts with the first square (C58). -/
theorem rmsprop_moves (eps lr decay rho : ℝ) : Moves eps (Rmsprop.step eps)
    (fun t w m g => if t = 0 then (w - rates lr decay t * g / (eps + √(g ^ 2)), (g ^ 2, 0)) else rmspropLaw eps (rates lr decay) rho t w m g)
    (fun t o => SchedAt lr decay t o.sch ∧ o.rho = rho) (fun c sh μ => Ctx1 c sh (fun is => (μ is).1)) := by
  refine ⟨fun loss t o s s1 sh w g μ hJ hb hr hc => ?_⟩
  obtain ⟨s', h1, h2⟩ := rmsprop_step o hb hr hc
  refine ⟨_, s', h1, ⟨hJ.1.next, hJ.2⟩, fun v hv => ?_, h2.old, h2.reg, h2.rest⟩
  obtain ⟨k1, k2, k3⟩ := h2.new v hv
  simp only [hJ.1.rate, hJ.2, hJ.1.1] at k1 k3
  by_cases ht : t = 0
  · simp only [if_pos ht] at k1 k3 ⊢
    exact ⟨k1, k2, k3⟩
  · simp only [if_neg ht] at k1 k3 ⊢
    exact ⟨k1, k2, k3⟩

/-- adam, whose first two steps are steps of plain gradient descent (C58). -/
theorem adam_moves (eps lr b1 b2 : ℝ) : Moves eps (Adam.step eps)
    (fun t w m g => (if 1 < t then (adamLaw eps lr b1 b2 t w m g).1 else w - lr * g, (adamLaw eps lr b1 b2 t w m g).2))
    (fun t o => o.iter = t ∧ o.lr = lr ∧ o.b1 = b1 ∧ o.b2 = b2) (fun c sh μ => Ctx2 c sh (fun is => (μ is).1) (fun is => (μ is).2)) := by
  refine ⟨fun loss t o s s1 sh w g μ hJ hb hr hc => ?_⟩
  obtain ⟨rfl, rfl, rfl, rfl⟩ := hJ
  obtain ⟨s', h1, h2⟩ := adam_step o hb hr hc
  exact ⟨_, s', h1, ⟨rfl, rfl, rfl, rfl⟩, h2.new, h2.old, h2.reg, h2.rest⟩

/-- With `x` and `y` bound to the place holders and the weights `D`, the loss is a function `F` of the weights, and a training pass stores `k` times its partial
derivatives, whatever the operators hold as long as it is one of `Q`; and they again hold one of `Q` after the pass. -/
structure Learns {κ : Type} (eps : ℝ) (e : κ → Ex ℝ) (adv : κ → St ℝ → Res κ) (Q : κ → Prop) (V : List Nat) (inp gt : Nat) (k : ℝ) (x y : Ten ℝ) (D : Nat → Ten ℝ)
    (F : (Nat → Ten ℝ) → ℝ) : Prop where
  vars : ∀ q, Q q → ∀ v, v ∈ vars (e q) ↔ v ∈ V
  value : ∀ q, Q q → ∀ L D', L inp = x → L gt = y → (∀ v ∈ V, (D' v).shape = (D v).shape ∧ ((D v).WF → (D' v).WF)) → eval L D' (e q) = ok ⟨[1], [F D']⟩
  stores : ∀ q, Q q → ∀ st : St ℝ, st.leaf inp = x → st.leaf gt = y → (∀ v ∈ V, st.data v = D v) → st.training = true →
    (∀ v ∈ V, (st.data v).WF ∧ (st.grad v).WF ∧ (st.grad v).shape = (st.data v).shape) → ∃ cfg : Nat → Cfg ℝ, Stores eps (e q) st cfg k ∧ ∀ v ∈ V, (cfg v).l1 < eps ∧ (cfg v).l2 < eps
  held : ∀ q, Q q → ∀ st : St ℝ, st.leaf inp = x → st.leaf gt = y → (∀ v ∈ V, st.data v = D v) → (∀ v ∈ V, (st.data v).WF) → ∃ q', adv q st = ok q' ∧ Q q'

/-- As `Learns`, with anything `g` stored that follows from the partial derivatives of `F`. -/
structure LearnsBy {κ : Type} (eps : ℝ) (e : κ → Ex ℝ) (adv : κ → St ℝ → Res κ) (Q : κ → Prop) (V : List Nat) (inp gt : Nat) (k : ℝ) (x y : Ten ℝ) (D : Nat → Ten ℝ)
    (F : (Nat → Ten ℝ) → ℝ) (g : Nat → List Nat → ℝ) : Prop where
  vars : ∀ q, Q q → ∀ v, v ∈ vars (e q) ↔ v ∈ V
  value : ∀ q, Q q → ∀ L D', L inp = x → L gt = y → (∀ v ∈ V, (D' v).shape = (D v).shape ∧ ((D v).WF → (D' v).WF)) → eval L D' (e q) = ok ⟨[1], [F D']⟩
  stores : ∀ q, Q q → ∀ st : St ℝ, st.leaf inp = x → st.leaf gt = y → (∀ v ∈ V, st.data v = D v) → st.training = true →
    (∀ v ∈ V, (st.data v).WF ∧ (st.grad v).WF ∧ (st.grad v).shape = (st.data v).shape) → ∃ cfg : Nat → Cfg ℝ, Stores eps (e q) st cfg k ∧
      ∀ v ∈ V, ∀ is, ValidIdx (D v).shape is → ∀ d, HasDerivAt (fun h => F (upd D v (bump (D v) is h))) d 0 →
        k * d + ((varOccs (e q) none).filter (fun p => p.2 = v)).toFinset.card • regTerm eps (cfg v) ((D v).at is) = g v is
  held : ∀ q, Q q → ∀ st : St ℝ, st.leaf inp = x → st.leaf gt = y → (∀ v ∈ V, st.data v = D v) → (∀ v ∈ V, (st.data v).WF) → ∃ q', adv q st = ok q' ∧ Q q'

/-- The program before step `t`: the weights are those of the path, and every trainable variable of the session has a gradient and contexts that fit it. -/
structure Along {κ O : Type} (Q : κ → Prop) (V : List Nat) (J : Nat → O → Prop) (M : List (Ten ℝ) → List Nat → (List Nat → ℝ × ℝ) → Prop) (t : Nat) (p : Point)
    (s : κ × O × OSt) : Prop where
  held : Q s.1
  opt : J t s.2.1
  training : s.2.2.st.training = true
  nodup : (s.2.2.reg.map (·.1)).Nodup
  all : ∀ v ∈ V, (v, true) ∈ s.2.2.reg
  weights : ∀ v ∈ V, s.2.2.st.data v = p.w v
  fit : ∀ v, (v, true) ∈ s.2.2.reg → (s.2.2.st.data v).WF ∧ (s.2.2.st.grad v).WF ∧ (s.2.2.st.grad v).shape = (s.2.2.st.data v).shape
  mem : ∀ v ∈ V, M (s.2.2.ctx v) (p.w v).shape (p.mem v)
  others : ∀ v, (v, true) ∈ s.2.2.reg → ∃ μ, M (s.2.2.ctx v) (s.2.2.st.data v).shape μ

section
variable {κ O : Type} {eps : ℝ} {e : κ → Ex ℝ} {adv : κ → St ℝ → Res κ} {Q : κ → Prop} {step : Ex ℝ → O → OSt → Res (O × OSt)} {law : Law} {J : Nat → O → Prop} {M : List (Ten ℝ) → List Nat → (List Nat → ℝ × ℝ) → Prop}

theorem regTerm_zero {c : Cfg ℝ} (h : c.l1 < eps ∧ c.l2 < eps) (n : Nat) (d : ℝ) : n • regTerm eps c d = 0 := by
  unfold regTerm
  rw [if_neg (not_le.mpr h.1), if_neg (not_le.mpr h.2)]
  simp

theorem Learns.by {V : List Nat} {inp gt : Nat} {k : ℝ} {x y : Ten ℝ} {D : Nat → Ten ℝ} {F : (Nat → Ten ℝ) → ℝ} (h : Learns eps e adv Q V inp gt k x y D F) :
    LearnsBy eps e adv Q V inp gt k x y D F (fun v is => k * partialAt F D v is) := by
  refine ⟨h.vars, h.value, fun q hq st h1 h2 h3 h4 h5 => ?_, h.held⟩
  obtain ⟨cfg, k1, k2⟩ := h.stores q hq st h1 h2 h3 h4 h5
  refine ⟨cfg, k1, fun v hv is _ d hd => ?_⟩
  rw [regTerm_zero (k2 v hv), add_zero]
  unfold partialAt
  rw [hd.deriv]

/-- One batch: running the loss gives its value, running the optimizer moves the weights with the derivatives stored. -/
theorem batch_move (hm : Moves eps step law J M) {V : List Nat} {inp gt : Nat} {k : ℝ} {x y : Ten ℝ} {t : Nat} {p : Point} {F : (Nat → Ten ℝ) → ℝ} {γ : Nat → List Nat → ℝ}
    (hl : LearnsBy eps e adv Q V inp gt k x y p.w F γ) (hne : inp ≠ gt) {s : κ × O × OSt} (hs : Along Q V J M t p s) :
    ∃ s1 s2, (compiledWith e adv inp gt step).loss ((compiledWith e adv inp gt step).bind x y s) = ok (⟨[1], [F p.w]⟩, s1) ∧ (compiledWith e adv inp gt step).step s1 = ok s2 ∧
      Along Q V J M (t + 1) (move V law t γ p) s2 := by
  classical
  obtain ⟨q, o, s⟩ := s
  obtain ⟨h1, h2, h3, h4, h5, h6, h7, h8, h9⟩ := hs
  dsimp only at h1 h2 h3 h4 h5 h6 h7 h8 h9
  have hV := hl.vars q h1
  set sb : OSt := { s with st := { s.st with leaf := upd (upd s.st.leaf inp x) gt y } } with hsb
  have hli : sb.st.leaf inp = x := by simp only [hsb]; rw [upd_ne _ _ hne, upd_same]
  have hlg : sb.st.leaf gt = y := by simp only [hsb]; rw [upd_same]
  have hdat : ∀ v ∈ vars (e q), sb.st.data v = p.w v := fun v hv => h6 v ((hV v).mp hv)
  have hfit : ∀ v ∈ V, (sb.st.data v).WF ∧ (sb.st.grad v).WF ∧ (sb.st.grad v).shape = (sb.st.data v).shape := fun v hv => h7 v (h5 v hv)
  obtain ⟨cfg, ⟨z, st1, st2, r1, r2, r3, r4, r5⟩, hreg⟩ := hl.stores q h1 sb.st hli hlg h6 h3 hfit
  obtain ⟨q', hq1, hq2⟩ := hl.held q h1 st1 (by rw [(run_keeps r1).1]; exact hli) (by rw [(run_keeps r1).1]; exact hlg) (by rw [(run_keeps r1).2.1]; exact h6)
    (by rw [(run_keeps r1).2.1]; exact fun v hv => (hfit v hv).1)
  have hz : z = ⟨[1], [F p.w]⟩ := by
    have : eval sb.st.leaf p.w (e q) = ok z := by rw [← r2]; exact (eval_congr (e q) hdat).symm
    rw [hl.value q h1 _ _ hli hlg (fun v _ => ⟨rfl, id⟩)] at this
    simpa using this.symm
  have hgrad : ∀ v ∈ V, (st2.grad v).Has (p.w v).shape (γ v) := by
    intro v hv
    have hv' := (hV v).mpr hv
    obtain ⟨⟨a1, a2⟩, a3⟩ := r5 v hv'
    rw [hdat v hv'] at a2 a3
    have a4 := a1.has
    rw [a2] at a4
    refine a4.congr (fun is his => ?_)
    obtain ⟨Y, d, b1, b2, b3⟩ := a3 is his
    rw [b3]
    refine hreg v hv is his d ?_
    have : (fun h => (Y h).at [0]) = fun h => F (upd p.w v (bump (p.w v) is h)) := by
      funext h
      have c1 := b1 h
      rw [eval_congr (d' := upd p.w v (bump (p.w v) is h)) (e q) (fun u hu => by
        by_cases huv : u = v
        · subst huv; rw [upd_same, upd_same]
        · rw [upd_ne _ _ huv, upd_ne _ _ huv, hdat u hu]),
        hl.value q h1 _ _ hli hlg (fun u _ => by
          by_cases huv : u = v
          · subst huv
            rw [upd_same]
            exact ⟨rfl, fun hw => by unfold Ten.WF at hw ⊢; simpa [bump] using hw⟩
          · rw [upd_ne _ _ huv]; exact ⟨rfl, id⟩)] at c1
      rw [← ok.inj c1]
      rfl
    rw [← this]
    exact b2
  have hback : backprop eps (e q) { sb with st := st1 } = ok { sb with st := st2 } := by unfold backprop; rw [r3]; rfl
  let w : Nat → List Nat → ℝ := fun v => (s.st.data v).at
  let g : Nat → List Nat → ℝ := fun v is => if v ∈ V then γ v is else (st2.grad v).at is
  have hr : Optim.Ready { sb with st := st2 } (fun v => (s.st.data v).shape) w g := by
    refine ⟨h4, fun v hv => ?_, fun v hv => ?_⟩
    · dsimp only; rw [r4]; exact (h7 v hv).1.has
    · dsimp only [g]
      by_cases hvl : v ∈ V
      · simp only [if_pos hvl]
        have := hgrad v hvl
        rwa [← h6 v hvl] at this
      · simp only [if_neg hvl]
        obtain ⟨u1, _⟩ := unmentioned_grad r1 hback (fun h => hvl ((hV v).mp h))
        dsimp only at u1
        rw [u1]
        have hv' := h7 v hv
        have := hv'.2.1.has
        rw [hv'.2.2] at this
        exact this
  choose! μ0 hμ0 using h9
  let μ : Nat → List Nat → ℝ × ℝ := fun v => if v ∈ V then p.mem v else μ0 v
  obtain ⟨o', s', k1, k2, k3⟩ := hm.move (e q) t o _ _ _ w g μ h2 hback hr (fun v hv => by
    dsimp only [μ]
    by_cases hvl : v ∈ V
    · rw [if_pos hvl, h6 v hvl]; exact h8 v hvl
    · rw [if_neg hvl]; exact hμ0 v hv)
  have hnext : ∀ v ∈ V, s'.st.data v = (move V law t γ p).w v := by
    intro v hv
    have := (k3.new v (h5 v hv)).1
    simp only [move, if_pos hv]
    refine Ten.Has.ext this ?_
    rw [h6 v hv]
    refine (tenOf_has _ _).congr (fun is _ => ?_)
    simp only [w, g, μ, if_pos hv, h6 v hv]
  have hshape : ∀ v, (v, true) ∈ s.reg → (s'.st.data v).shape = (s.st.data v).shape := fun v hv => (k3.new v hv).1.1
  refine ⟨(q, o, { sb with st := st1 }), (q', o', s'), ?_, ?_, ⟨hq2, k2, ?_, ?_, ?_, hnext, ?_, ?_, ?_⟩⟩
  · subst hz
    show (run (e q) sb.st >>= _) = _
    rw [r1]
    rfl
  · show (adv q st1 >>= _) = _
    rw [hq1, bind_ok]
    show (step (e q) o { sb with st := st1 } >>= _) = _
    rw [k1]
    rfl
  · dsimp only
    rw [k3.rest]
    exact ((backward_keeps eps (e q) _ _ _ _ r3).2.2.1.trans (run_keeps r1).2.2.1).trans h3
  · dsimp only; rw [k3.reg]; exact h4
  · intro v hv; dsimp only; rw [k3.reg]; exact h5 v hv
  · intro v hv
    dsimp only at hv ⊢
    rw [k3.reg] at hv
    obtain ⟨a, b, _⟩ := k3.new v hv
    exact ⟨a.wf, b.wf, by rw [b.1, a.1]⟩
  · intro v hv
    dsimp only
    have := (k3.new v (h5 v hv)).2.2
    simp only [move, if_pos hv]
    rw [h6 v hv] at this
    simp only [w, g, μ, if_pos hv, h6 v hv] at this
    exact this
  · intro v hv
    dsimp only at hv ⊢
    rw [k3.reg] at hv
    exact ⟨_, by rw [hshape v hv]; exact (k3.new v hv).2.2⟩

/-- One batch: running the loss gives its value, running the optimizer is one step of the path. -/
theorem batch_step (hm : Moves eps step law J M) {V : List Nat} {inp gt : Nat} {k : ℝ} {x y : Ten ℝ} {t : Nat} {p : Point} {F : (Nat → Ten ℝ) → ℝ}
    (hl : Learns eps e adv Q V inp gt k x y p.w F) (hne : inp ≠ gt) {s : κ × O × OSt} (hs : Along Q V J M t p s) :
    ∃ s1 s2, (compiledWith e adv inp gt step).loss ((compiledWith e adv inp gt step).bind x y s) = ok (⟨[1], [F p.w]⟩, s1) ∧ (compiledWith e adv inp gt step).step s1 = ok s2 ∧
      Along Q V J M (t + 1) (next V law k t F p) s2 := batch_move hm hl.by hne hs

theorem Along.bind {V : List Nat} {t : Nat} {p : Point} {s : κ × O × OSt} (h : Along Q V J M t p s) (e : κ → Ex ℝ) (adv : κ → St ℝ → Res κ) (inp gt : Nat)
    (x y : Ten ℝ) : Along Q V J M t p ((compiledWith e adv inp gt step).bind x y s) := ⟨h.1, h.2, h.3, h.4, h.5, h.6, h.7, h.8, h.9⟩

/-- `fit` without validation batches runs one step per batch, `n / bs` in each epoch, and these steps move the weights with what is stored for the batches:
before step `t` the weights are those of `P t`, the loss of step `t` is recorded for these weights, and an epoch reports the mean of its losses. -/
theorem fit_follows (hm : Moves eps step law J M) {V : List Nat} {inp gt : Nat} {k : ℝ} {P : Nat → Point} {F : Nat → (Nat → Ten ℝ) → ℝ} {γ : Nat → Nat → List Nat → ℝ}
    {inputs outputs : Ten ℝ} {bs n n' : Nat} {a b : List Nat} {XI YO : List Nat → ℝ} {epochs : Nat} {s : κ × O × OSt}
    (hbs : 0 < bs) (hi : inputs.Has (n :: a) XI) (ho : outputs.Has (n' :: b) YO) (hn : n ≤ n') (hne : inp ≠ gt)
    (hl : ∀ t, t < epochs * (n / bs) →
      LearnsBy eps e adv Q V inp gt k (batch inputs bs (t % (n / bs))) (batch outputs bs (t % (n / bs))) (P t).w (F t) (γ t))
    (hP : ∀ t, t < epochs * (n / bs) → P (t + 1) = move V law t (γ t) (P t))
    (hs : Along Q V J M 0 (P 0) ((compiledWith e adv inp gt step).phase true s)) :
    ∃ f, fit (compiledWith e adv inp gt step) inputs outputs bs epochs 0 s = ok f ∧ Along Q V J M (epochs * (n / bs)) (P (epochs * (n / bs))) f.s ∧
      f.log = (List.range epochs).flatMap (fun ep => epochLog (batch inputs bs) (batch outputs bs)
        (fun l => F (ep * (n / bs) + l) (P (ep * (n / bs) + l)).w) (fun _ => true) (n / bs)) ∧
      f.trainErr = (List.range epochs).map (fun ep => (∑ l ∈ Finset.range (n / bs), F (ep * (n / bs) + l) (P (ep * (n / bs) + l)).w) / ((n / bs : Nat) : ℝ)) := by
  have hT : trainingLoops 0 (n / bs) = n / bs := by unfold trainingLoops; simp
  unfold fit
  rw [rd_ok (v := n) (by rw [hi.1]; rfl), bind_ok, require_true (by omega), bind_ok, buffer_ok hi, buffer_ok ho, bind_ok, bind_ok]
  dsimp only
  have hxl : (List.replicate (size (bs :: inputs.shape.tail)) (0 : ℝ)).length = bs * size inputs.shape.tail := by simp
  have hyl : (List.replicate (size (bs :: outputs.shape.tail)) (0 : ℝ)).length = bs * size outputs.shape.tail := by simp
  rw [hxl, hyl, hT]
  set N := n / bs with hN
  obtain ⟨f, h1, h2, h3, h4, h5⟩ := loop_inv (n := epochs) (s := (⟨(compiledWith e adv inp gt step).phase true ((compiledWith e adv inp gt step).bind ⟨bs :: inputs.shape.tail,
        List.replicate (size (bs :: inputs.shape.tail)) 0⟩ ⟨bs :: outputs.shape.tail, List.replicate (size (bs :: outputs.shape.tail)) 0⟩ s),
        ⟨bs :: inputs.shape.tail, List.replicate (size (bs :: inputs.shape.tail)) 0⟩, ⟨bs :: outputs.shape.tail, List.replicate (size (bs :: outputs.shape.tail)) 0⟩,
        0, 0, [], [], []⟩ : Frame (κ × O × OSt) ℝ))
    (body := fun _ f => do
      let f ← loop N (fitBody (compiledWith e adv inp gt step) inputs outputs (bs * size inputs.shape.tail) (bs * size outputs.shape.tail) N) { f with te := 0, ve := 0 }
      pure { f with trainErr := f.trainErr ++ [f.te / ((N : Nat) : ℝ)], valErr := f.valErr ++ [f.ve / ((N - N : Nat) : ℝ)] })
    (fun ep f => Buf inputs outputs bs f ∧ Along Q V J M (ep * N) (P (ep * N)) f.s ∧
      f.log = (List.range ep).flatMap (fun ep => epochLog (batch inputs bs) (batch outputs bs) (fun l => F (ep * N + l) (P (ep * N + l)).w) (fun _ => true) N) ∧
      f.trainErr = (List.range ep).map (fun ep => (∑ l ∈ Finset.range N, F (ep * N + l) (P (ep * N + l)).w) / ((N : Nat) : ℝ)))
    ⟨⟨rfl, hxl, rfl, hyl⟩, by rw [Nat.zero_mul]; exact hs.bind (step := step) e adv inp gt _ _, rfl, rfl⟩ (by
      rintro ep u hep ⟨hb, ha, hlog, herr⟩
      obtain ⟨v, k1, k2, k3, k4, k5, k6⟩ := loop_inv (n := N) (s := { u with te := 0, ve := 0 })
        (body := fitBody (compiledWith e adv inp gt step) inputs outputs (bs * size inputs.shape.tail) (bs * size outputs.shape.tail) N)
        (fun i f => Buf inputs outputs bs f ∧ Along Q V J M (ep * N + i) (P (ep * N + i)) f.s ∧
          f.log = u.log ++ epochLog (batch inputs bs) (batch outputs bs) (fun l => F (ep * N + l) (P (ep * N + l)).w) (fun _ => true) i ∧
          f.te = ∑ l ∈ Finset.range i, F (ep * N + l) (P (ep * N + l)).w ∧ f.trainErr = u.trainErr)
        ⟨⟨hb.xs, hb.xd, hb.ys, hb.yd⟩, ha, by simp [epochLog], by simp, rfl⟩ (by
          rintro l w hlt ⟨hb, ha, hlog, hte, herr⟩
          have hmod : (ep * N + l) % N = l := by rw [Nat.mul_comm, Nat.mul_add_mod, Nat.mod_eq_of_lt hlt]
          have hin : ep * N + l < epochs * N := by
            calc ep * N + l < ep * N + N := by omega
              _ = (ep + 1) * N := by ring
              _ ≤ epochs * N := Nat.mul_le_mul_right _ hep
          have hl' := hl _ hin
          rw [hmod] at hl'
          obtain ⟨s1, s2, j1, j2, j3⟩ := batch_move hm hl' hne ha
          unfold fitBody
          rw [feed_eq hi ho hn hlt hb, j1, bind_ok]
          dsimp only
          have hsc : asScalar (⟨[1], [F (ep * N + l) (P (ep * N + l)).w]⟩ : Ten ℝ) = ok (F (ep * N + l) (P (ep * N + l)).w) := rfl
          rw [hsc, bind_ok, pure_eq, bind_ok]
          dsimp only
          rw [if_pos (by omega), j2, bind_ok]
          refine ⟨_, rfl, batch_buf hi ho hn hlt _ rfl rfl, by rw [← Nat.add_assoc, hP _ hin]; exact j3, ?_, ?_, herr⟩
          · dsimp only
            rw [hlog, epochLog_succ]
            simp
          · dsimp only
            rw [hte, Finset.sum_range_succ])
      rw [k1, bind_ok]
      refine ⟨_, rfl, ⟨k2.xs, k2.xd, k2.ys, k2.yd⟩, ?_, ?_, ?_⟩
      · rw [Nat.succ_mul]; exact k3
      · dsimp only
        rw [k4, hlog, List.range_succ, List.flatMap_append, List.flatMap_singleton]
      · dsimp only
        rw [k5, k6, herr, List.range_succ, List.map_append, List.map_singleton])
  exact ⟨f, h1, h3, h4, h5⟩

/-- C111. `fit` without validation batches runs one step per batch, `n / bs` in each epoch, and these steps are the descent path of the losses of the batches:
before step `t` the weights are those of the path, the loss of step `t` is recorded for these weights, and an epoch reports the mean of its losses. -/
theorem fit_descends (hm : Moves eps step law J M) {V : List Nat} {inp gt : Nat} {k : ℝ} {p : Point} {F : Nat → (Nat → Ten ℝ) → ℝ}
    {inputs outputs : Ten ℝ} {bs n n' : Nat} {a b : List Nat} {XI YO : List Nat → ℝ} {epochs : Nat} {s : κ × O × OSt}
    (hbs : 0 < bs) (hi : inputs.Has (n :: a) XI) (ho : outputs.Has (n' :: b) YO) (hn : n ≤ n') (hne : inp ≠ gt)
    (hl : ∀ t, t < epochs * (n / bs) →
      Learns eps e adv Q V inp gt k (batch inputs bs (t % (n / bs))) (batch outputs bs (t % (n / bs))) (path V law k F p t).w (F t))
    (hs : Along Q V J M 0 p ((compiledWith e adv inp gt step).phase true s)) :
    ∃ f, fit (compiledWith e adv inp gt step) inputs outputs bs epochs 0 s = ok f ∧ Along Q V J M (epochs * (n / bs)) (path V law k F p (epochs * (n / bs))) f.s ∧
      f.log = (List.range epochs).flatMap (fun ep => epochLog (batch inputs bs) (batch outputs bs)
        (fun l => F (ep * (n / bs) + l) (path V law k F p (ep * (n / bs) + l)).w) (fun _ => true) (n / bs)) ∧
      f.trainErr = (List.range epochs).map (fun ep => (∑ l ∈ Finset.range (n / bs), F (ep * (n / bs) + l) (path V law k F p (ep * (n / bs) + l)).w) / ((n / bs : Nat) : ℝ)) :=
  fit_follows hm hbs hi ho hn hne (P := path V law k F p) (fun t ht => (hl t ht).by) (fun _ _ => rfl) hs

end
end
end Verif.Descent
