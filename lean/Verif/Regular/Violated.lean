import Verif.Regular.Sgd
/-!
# C122: where regularised training is not descent
-/
namespace Verif.Regular
open Verif Res View Data Ops Graph Optim

noncomputable section

/-- What is asked of a loss and a session to train with sgd. -/
structure Fit1 (eps : ℝ) (loss : Ex ℝ) (s : OSt) (cfg : Nat → Cfg ℝ) : Prop where
  epsPos : 0 < eps
  consistent : Consistent loss
  unshared : Unshared loss
  training : s.st.training = true
  smooth : Smooth s.st.leaf s.st.data loss
  cfgs : ∀ p ∈ occs loss none, ∀ v c, p.2 = .var v c → c = cfg v ∧ (cfg v).trainable = true
  nodup : (s.reg.map (·.1)).Nodup
  all : ∀ v ∈ vars loss, (v, true) ∈ s.reg
  fit : ∀ v, (v, true) ∈ s.reg → (s.st.data v).WF ∧ (s.st.grad v).WF ∧ (s.st.grad v).shape = (s.st.data v).shape ∧ ∃ μ, Ctx1 (s.ctx v) (s.st.data v).shape μ
  scalar : ∀ y, eval s.st.leaf s.st.data loss = ok y → y.shape = [1]

/-- The derivative of the objective - loss plus penalty - with respect to element `is` of variable `v`. -/
def Slope (loss : Ex ℝ) (s : OSt) (cfg : Nat → Cfg ℝ) (v : Nat) (is : List Nat) (d : ℝ) : Prop :=
  ∃ Y : ℝ → Ten ℝ, (∀ h : ℝ, eval s.st.leaf (upd s.st.data v (bump (s.st.data v) is h)) loss = ok (Y h)) ∧
    HasDerivAt (fun h => (Y h).at [0] + pen (cfg v) ((s.st.data v).at is + h)) d 0

theorem pen_slope {c : Cfg ℝ} {w : ℝ} (hw : w ≠ 0) : HasDerivAt (fun h => pen c (w + h)) (c.l1 * (if 0 ≤ w then 1 else -1) + c.l2 * (2 * w)) 0 := by
  have h1 : HasDerivAt (fun h : ℝ => w + h) 1 0 := (hasDerivAt_id (0 : ℝ)).const_add _
  have h2 : HasDerivAt (pen c) (c.l1 * (if 0 ≤ w then 1 else -1) + c.l2 * (2 * w)) (w + 0) := by
    rw [add_zero]
    have := ((abs_deriv hw).const_mul c.l1).add (((hasDerivAt_id w).pow 2).const_mul c.l2)
    refine this.congr_deriv ?_
    simp
  have h3 := HasDerivAt.comp (h₂ := pen c) (h := fun h : ℝ => w + h) (0 : ℝ) h2 h1
  rw [mul_one] at h3
  exact h3

/-- An element that is not zero: if what the code adds, once for every object of the variable, is not the derivative of the penalty, then whatever the learning
rate, a step of sgd does not go against the derivative of the objective. -/
theorem step_off {eps : ℝ} {loss : Ex ℝ} {s : OSt} {cfg : Nat → Cfg ℝ} (H : Fit1 eps loss s cfg) {v : Nat} (hv : v ∈ vars loss) {is : List Nat}
    (his : ValidIdx (s.st.data v).shape is) (hw : (s.st.data v).at is ≠ 0)
    (hne : copies loss v • regTerm eps (cfg v) ((s.st.data v).at is) ≠ (cfg v).l1 * (if 0 ≤ (s.st.data v).at is then 1 else -1) + (cfg v).l2 * (2 * (s.st.data v).at is))
    (o : Sgd) (hm : o.mom = 0) (hr : o.sch.rate ≠ 0) :
    ∃ d y o' s', Slope loss s cfg v is d ∧ trainSgd eps loss o s = ok (y, o', s') ∧ (s'.st.data v).at is ≠ (s.st.data v).at is - o.sch.rate * d := by
  obtain ⟨y, G, _, r2, _, r4⟩ := sgd_regularised eps loss H.consistent H.unshared s H.training H.smooth cfg H.cfgs H.nodup H.all H.fit H.scalar
  obtain ⟨o', s', k1, _, k3⟩ := r4 o hm
  obtain ⟨Y, l1, l2⟩ := r2 v hv is his
  refine ⟨_, y, o', s', ⟨Y, l1, l2.add (pen_slope hw)⟩, k1, ?_⟩
  rw [(k3 v hv).at_eq his]
  intro h
  apply hne
  have h1 : o.sch.rate * (copies loss v • regTerm eps (cfg v) ((s.st.data v).at is) -
      ((cfg v).l1 * (if 0 ≤ (s.st.data v).at is then 1 else -1) + (cfg v).l2 * (2 * (s.st.data v).at is))) = 0 := by linear_combination -h
  rcases mul_eq_zero.mp h1 with h2 | h2
  · exact absurd h2 hr
  · linarith

/-- C122 is false for a variable that lives in several objects: the derivative of its penalty is counted once for each. -/
theorem shared_penalty_violated {eps : ℝ} {loss : Ex ℝ} {s : OSt} {cfg : Nat → Cfg ℝ} (H : Fit1 eps loss s cfg) {v : Nat} (hv : v ∈ vars loss) {is : List Nat}
    (his : ValidIdx (s.st.data v).shape is) (hw : (s.st.data v).at is ≠ 0) (hco : Coef eps (cfg v)) (hreg : eps ≤ (cfg v).l1 ∨ eps ≤ (cfg v).l2) (hn : 2 ≤ copies loss v)
    (o : Sgd) (hm : o.mom = 0) (hr : o.sch.rate ≠ 0) :
    ∃ d y o' s', Slope loss s cfg v is d ∧ trainSgd eps loss o s = ok (y, o', s') ∧ (s'.st.data v).at is ≠ (s.st.data v).at is - o.sch.rate * d := by
  refine step_off H hv his hw ?_ o hm hr
  set w := (s.st.data v).at is with hwd
  have hone : regTerm eps (cfg v) w = (cfg v).l1 * (if 0 ≤ w then 1 else -1) + (cfg v).l2 * (2 * w) := by
    have h1 := pen_deriv H.epsPos hco (w := w) (fun _ => hw)
    have h2 := pen_slope (c := cfg v) hw
    have h3 : HasDerivAt (fun h : ℝ => pen (cfg v) (w + h)) (regTerm eps (cfg v) w) 0 := by
      have a1 : HasDerivAt (fun h : ℝ => w + h) 1 0 := (hasDerivAt_id (0 : ℝ)).const_add _
      have a2 : HasDerivAt (pen (cfg v)) (regTerm eps (cfg v) w) (w + 0) := by rw [add_zero]; exact h1
      have a3 := HasDerivAt.comp (h₂ := pen (cfg v)) (h := fun h : ℝ => w + h) (0 : ℝ) a2 a1
      rw [mul_one] at a3
      exact a3
    exact h3.unique h2
  rw [← hone]
  intro h
  have hn' : (2 : ℝ) ≤ (copies loss v : ℝ) := by exact_mod_cast hn
  rw [nsmul_eq_mul] at h
  have h0 : regTerm eps (cfg v) w = 0 := by
    have : ((copies loss v : ℝ) - 1) * regTerm eps (cfg v) w = 0 := by linear_combination h
    rcases mul_eq_zero.mp this with h1 | h1
    · linarith
    · exact h1
  have e := H.epsPos
  have l1 : 0 ≤ (cfg v).l1 := by rcases hco.1 with h | h <;> linarith
  have l2 : 0 ≤ (cfg v).l2 := by rcases hco.2 with h | h <;> linarith
  have hpos : 0 < (cfg v).l1 + (cfg v).l2 := by rcases hreg with h | h <;> linarith
  rw [hone] at h0
  rcases lt_or_gt_of_ne hw with hneg | hp
  · rw [if_neg (not_le.mpr hneg)] at h0
    nlinarith [mul_nonneg l2 (neg_nonneg.mpr hneg.le), mul_pos hpos (neg_pos.mpr hneg)]
  · rw [if_pos hp.le] at h0
    nlinarith [mul_nonneg l2 hp.le, mul_pos hpos hp]

/-- C122 is false for coefficients below `eps`: they are ignored.  (Any coefficient not zero; the other one is zero.) -/
theorem small_coefficient_violated {eps : ℝ} {loss : Ex ℝ} {s : OSt} {cfg : Nat → Cfg ℝ} (H : Fit1 eps loss s cfg) {v : Nat} (hv : v ∈ vars loss) {is : List Nat}
    (his : ValidIdx (s.st.data v).shape is) (hw : (s.st.data v).at is ≠ 0)
    (hsmall : ((cfg v).l1 = 0 ∧ (cfg v).l2 ≠ 0 ∧ (cfg v).l2 < eps) ∨ ((cfg v).l2 = 0 ∧ (cfg v).l1 ≠ 0 ∧ (cfg v).l1 < eps)) (o : Sgd) (hm : o.mom = 0) (hr : o.sch.rate ≠ 0) :
    ∃ d y o' s', Slope loss s cfg v is d ∧ trainSgd eps loss o s = ok (y, o', s') ∧ (s'.st.data v).at is ≠ (s.st.data v).at is - o.sch.rate * d := by
  refine step_off H hv his hw ?_ o hm hr
  have e := H.epsPos
  unfold regTerm
  rcases hsmall with ⟨h1, h2, h3⟩ | ⟨h1, h2, h3⟩
  · rw [h1, if_neg (by linarith), if_neg (by linarith)]
    simp [h2, hw]
  · rw [h1, if_neg (by linarith), if_neg (by linarith)]
    simp only [add_zero, smul_zero, zero_mul]
    intro h
    rcases mul_eq_zero.mp h.symm with h4 | h4
    · exact h2 h4
    · split at h4 <;> norm_num at h4

/-- C122 is false at elements that are zero, as the biases of every new layer are (include/layer.hpp lines 119, 242): the code takes `l1` for the derivative of
`l1 |w|`.  Let the point be critical: the loss does not change with the elements that are zero, and all others are not moved.  Then zero is
the best value of the former under the penalty, and yet sgd moves them away, and with every small enough learning rate the objective is larger afterwards. -/
theorem l1_at_zero_violated {eps : ℝ} {loss : Ex ℝ} {s : OSt} {cfg : Nat → Cfg ℝ} (H : Fit1 eps loss s cfg) (hco : ∀ v ∈ vars loss, Coef eps (cfg v))
    (G : Nat → List Nat → ℝ) (hG : ∀ v ∈ vars loss, ∀ is, ValidIdx (s.st.data v).shape is → ∃ Y : ℝ → Ten ℝ,
      (∀ h : ℝ, eval s.st.leaf (upd s.st.data v (bump (s.st.data v) is h)) loss = ok (Y h)) ∧ HasDerivAt (fun h => (Y h).at [0]) (G v is) 0)
    (hcrit : ∀ v ∈ vars loss, ∀ is, ValidIdx (s.st.data v).shape is → ((s.st.data v).at is = 0 ∧ G v is = 0) ∨
      G v is + copies loss v • regTerm eps (cfg v) ((s.st.data v).at is) = 0)
    {v0 : Nat} (hv0 : v0 ∈ vars loss) {is0 : List Nat} (his0 : ValidIdx (s.st.data v0).shape is0) (hz : (s.st.data v0).at is0 = 0) (hG0 : G v0 is0 = 0)
    (hl1 : eps ≤ (cfg v0).l1) (hn0 : copies loss v0 ≠ 0) :
    ∃ y, eval s.st.leaf s.st.data loss = ok y ∧ ∃ η > 0, ∀ o : Sgd, o.mom = 0 → 0 < o.sch.rate → o.sch.rate < η →
      ∃ o' s' y', trainSgd eps loss o s = ok (y, o', s') ∧ eval s'.st.leaf s'.st.data loss = ok y' ∧
        y.at [0] + penalty (vars loss) cfg s.st.data < y'.at [0] + penalty (vars loss) cfg s'.st.data := by
  classical
  have e := H.epsPos
  obtain ⟨y, G', r1, r2, r3, r4⟩ := sgd_regularised eps loss H.consistent H.unshared s H.training H.smooth cfg H.cfgs H.nodup H.all H.fit H.scalar
  have hGG : ∀ v ∈ vars loss, ∀ is, ValidIdx (s.st.data v).shape is → G' v is = G v is := fun v hv is his => by
    obtain ⟨Y, a1, a2⟩ := hG v hv is his
    obtain ⟨Y', b1, b2⟩ := r2 v hv is his
    have : Y' = Y := funext (fun h => by have := a1 h; rw [b1 h] at this; exact ok.inj this)
    rw [this] at b2
    exact b2.unique a2
  have hwf : ∀ v ∈ vars loss, (s.st.data v).WF := fun v hv => (H.fit v (H.all v hv)).1
  let g : Nat → List Nat → ℝ := fun v is => G' v is + copies loss v • regTerm eps (cfg v) ((s.st.data v).at is)
  let θ := line (vars loss) s.st.data g
  have h0 : θ 0 = s.st.data := line_zero hwf g
  obtain ⟨Y, k1, k2⟩ := r3 θ (fun v is => -g v is) h0 (line_moves g)
  have hzero : ∑ v ∈ (vars loss).toFinset, pair (s.st.data v).shape (G' v) (fun is => -g v is) = 0 := by
    refine Finset.sum_eq_zero (fun v hv => ?_)
    rw [List.mem_toFinset] at hv
    unfold pair
    rw [sumIdx_congr (g := fun _ => (0 : ℝ)), sumIdx_eq_range]
    · simp
    · intro is his
      rcases hcrit v hv is his with ⟨_, h⟩ | h
      · rw [hGG v hv is his, h, zero_mul]
      · simp only [g]
        rw [hGG v hv is his, h, neg_zero, mul_zero]
  rw [hzero] at k2
  -- the penalty grows at least linearly
  set c := (cfg v0).l1 * |g v0 is0| with hcd
  have hg0 : g v0 is0 = copies loss v0 • (cfg v0).l1 := by
    simp only [g]
    rw [hGG v0 hv0 is0 his0, hG0, hz, zero_add]
    unfold regTerm
    rw [if_pos hl1, if_pos le_rfl]
    simp
  have hc : 0 < c := by
    have h1 : 0 < (cfg v0).l1 := by linarith
    have h2 : (0 : ℝ) < copies loss v0 := by exact_mod_cast Nat.pos_of_ne_zero hn0
    rw [hcd, hg0, nsmul_eq_mul]
    exact mul_pos h1 (abs_pos.mpr (mul_pos h2 h1).ne')
  have hpen : ∀ v ∈ vars loss, ∀ is, ValidIdx (s.st.data v).shape is → ∀ t : ℝ, 0 < t → pen (cfg v) ((s.st.data v).at is) ≤ pen (cfg v) ((s.st.data v).at is - t * g v is) := by
    intro v hv is his t _
    have l1 : 0 ≤ (cfg v).l1 := by rcases (hco v hv).1 with h | h <;> linarith
    have l2 : 0 ≤ (cfg v).l2 := by rcases (hco v hv).2 with h | h <;> linarith
    rcases hcrit v hv is his with ⟨h, _⟩ | h
    · rw [h]
      unfold pen
      simp only [abs_zero, mul_zero, zero_sub, abs_neg]
      have := mul_nonneg l1 (abs_nonneg (t * g v is))
      have := mul_nonneg l2 (sq_nonneg (-(t * g v is)))
      simp only [ne_eq, OfNat.ofNat_ne_zero, not_false_eq_true, zero_pow, mul_zero, add_zero]
      linarith
    · have : g v is = 0 := by simp only [g]; rw [hGG v hv is his]; exact h
      rw [this, mul_zero, sub_zero]
  have hgrow : ∀ t : ℝ, 0 < t → penalty (vars loss) cfg s.st.data + c * t ≤ penalty (vars loss) cfg (θ t) := by
    intro t ht
    unfold penalty
    have e1 : ∀ v ∈ (vars loss).toFinset, sumIdx (θ t v).shape (fun is => pen (cfg v) ((θ t v).at is)) =
        sumIdx (s.st.data v).shape (fun is => pen (cfg v) ((s.st.data v).at is - t * g v is)) := by
      intro v hv
      rw [List.mem_toFinset] at hv
      have hs : θ t v = tenOf (s.st.data v).shape (fun is => (s.st.data v).at is - t * g v is) := by simp only [θ, line, if_pos hv]
      rw [hs]
      exact sumIdx_congr (fun is (his : ValidIdx (s.st.data v).shape is) => by rw [(tenOf_has (s.st.data v).shape (fun is => (s.st.data v).at is - t * g v is)).at_eq his])
    rw [Finset.sum_congr rfl e1]
    have hm0 : v0 ∈ (vars loss).toFinset := List.mem_toFinset.mpr hv0
    rw [← Finset.add_sum_erase _ _ hm0, ← Finset.add_sum_erase (s := (vars loss).toFinset) (a := v0) _ hm0]
    have i1 : sumIdx (s.st.data v0).shape (fun is => pen (cfg v0) ((s.st.data v0).at is)) + c * t ≤
        sumIdx (s.st.data v0).shape (fun is => pen (cfg v0) ((s.st.data v0).at is - t * g v0 is)) := by
      rw [sumIdx_eq_range, sumIdx_eq_range]
      have hp0 : flat (s.st.data v0).shape is0 ∈ Finset.range (size (s.st.data v0).shape) := Finset.mem_range.mpr (flat_lt his0)
      rw [← Finset.add_sum_erase _ _ hp0, ← Finset.add_sum_erase (s := Finset.range (size (s.st.data v0).shape)) (a := flat (s.st.data v0).shape is0) _ hp0, unflat_flat his0]
      have j1 : pen (cfg v0) ((s.st.data v0).at is0) + c * t ≤ pen (cfg v0) ((s.st.data v0).at is0 - t * g v0 is0) := by
        have l2 : 0 ≤ (cfg v0).l2 := by rcases (hco v0 hv0).2 with h | h <;> linarith
        rw [hz]
        unfold pen
        rw [zero_sub, abs_neg, abs_mul, abs_of_pos ht, abs_zero, hcd]
        have := mul_nonneg l2 (sq_nonneg (-(t * g v0 is0)))
        nlinarith
      have j2 := Finset.sum_le_sum (s := (Finset.range (size (s.st.data v0).shape)).erase (flat (s.st.data v0).shape is0))
        (f := fun p => pen (cfg v0) ((s.st.data v0).at (unflat (s.st.data v0).shape p))) (g := fun p => pen (cfg v0) ((s.st.data v0).at (unflat (s.st.data v0).shape p) - t * g v0 (unflat (s.st.data v0).shape p)))
        (fun p hp => hpen v0 hv0 _ (unflat_spec (Finset.mem_range.mp (Finset.mem_of_mem_erase hp))).1 t ht)
      linarith
    have i2 := Finset.sum_le_sum (s := (vars loss).toFinset.erase v0) (f := fun v => sumIdx (s.st.data v).shape (fun is => pen (cfg v) ((s.st.data v).at is)))
      (g := fun v => sumIdx (s.st.data v).shape (fun is => pen (cfg v) ((s.st.data v).at is - t * g v is))) (fun v hv => by
        have hv' := List.mem_toFinset.mp (Finset.mem_of_mem_erase hv)
        rw [sumIdx_eq_range, sumIdx_eq_range]
        exact Finset.sum_le_sum (fun p hp => hpen v hv' _ (unflat_spec (Finset.mem_range.mp hp)).1 t ht))
    linarith
  -- the loss changes less
  have hd : HasDerivAt (fun t => -(Y t).at [0] - c * t) (-c) 0 := by
    have h1 := k2.neg.sub ((hasDerivAt_id (0 : ℝ)).const_mul c)
    refine h1.congr_deriv ?_
    ring
  obtain ⟨η, hη, h3⟩ := descends hd (by linarith)
  refine ⟨y, r1, η, hη, fun o hm h1 h2 => ?_⟩
  obtain ⟨o', s', m1, m2, m3⟩ := r4 o hm
  have hθ : ∀ v ∈ vars loss, s'.st.data v = θ o.sch.rate v := fun v hv => by
    simp only [θ, line, if_pos hv]
    exact Ten.Has.ext (m3 v hv) (tenOf_has _ _)
  refine ⟨o', s', Y o.sch.rate, m1, ?_, ?_⟩
  · rw [m2, ← k1 o.sch.rate]
    exact eval_congr loss hθ
  · have h4 := h3 o.sch.rate h1 h2
    have e0 := k1 0
    rw [h0, r1] at e0
    simp only [ok.injEq] at e0
    rw [e0, penalty_congr hθ]
    have := hgrow _ h1
    simp only [mul_zero, sub_zero] at h4
    linarith

end
end Verif.Regular
