import Verif.Loss.Smooth
import Verif.Optim.Model
import Verif.Graph.Once
/-!
# Properties C98, C99: values and gradients of losses
-/
namespace Verif.Loss
open Verif Res View Data Ops Graph Optim
open Verif.Tensor (BroadcastsTo Compatible bcIdx broadcastShape)

variable {L D : Nat → Ten ℝ} {K : Kit}

/-! ## C98: values

The operands are any expressions with values: `l` of shape `sl` with elements `a`, `r` of shape `sr` with elements `b`.  `s` is the shape of
`l - r`, whose element at `is` is `a (bcIdx sl is) - b (bcIdx sr is)` (for equal shapes `a is - b is`, `bc_self`). -/

/-- C98: `squared_loss` is the sum of the squared differences. -/
theorem squared_loss_value {l r : Ex ℝ} {sl sr s : List Nat} {a b : List Nat → ℝ} (hl : Ev L D l sl a) (hr : Ev L D r sr b) (hf : Fits K sl sr s) (i : Nat) :
    eval L D (squaredLoss K i l r) = ok ⟨[1], [sumIdx s (fun is => (a (bcIdx sl is) - b (bcIdx sr is)) ^ 2)]⟩ :=
  (((hl.minus hr hf i).el (i + 2) .square).congr (fun is _ => by simp only [EOp.fwd]; ring)).sum hf.pos (i + 3)

/-- C98: `mean_squared_error` is the mean of the squared differences. -/
theorem mse_value {l r : Ex ℝ} {sl sr s : List Nat} {a b : List Nat → ℝ} (hl : Ev L D l sl a) (hr : Ev L D r sr b) (hf : Fits K sl sr s) (i : Nat) :
    eval L D (mse K i l r) = ok ⟨[1], [sumIdx s (fun is => (a (bcIdx sl is) - b (bcIdx sr is)) ^ 2) / (size s : ℝ)]⟩ :=
  (((hl.minus hr hf i).el (i + 2) .square).congr (fun is _ => by simp only [EOp.fwd]; ring)).mean hf.pos (i + 3)

/-- C98: `abs_loss` is the sum of the absolute differences. -/
theorem abs_loss_value {l r : Ex ℝ} {sl sr s : List Nat} {a b : List Nat → ℝ} (hl : Ev L D l sl a) (hr : Ev L D r sr b) (hf : Fits K sl sr s) (i : Nat) :
    eval L D (absLoss K i l r) = ok ⟨[1], [sumIdx s (fun is => |a (bcIdx sl is) - b (bcIdx sr is)|)]⟩ :=
  ((hl.minus hr hf i).el (i + 2) .abs).sum hf.pos (i + 3)

/-- C98: `mean_absolute_error` is the mean of the absolute differences. -/
theorem mae_value {l r : Ex ℝ} {sl sr s : List Nat} {a b : List Nat → ℝ} (hl : Ev L D l sl a) (hr : Ev L D r sr b) (hf : Fits K sl sr s) (i : Nat) :
    eval L D (mae K i l r) = ok ⟨[1], [sumIdx s (fun is => |a (bcIdx sl is) - b (bcIdx sr is)|) / (size s : ℝ)]⟩ :=
  ((hl.minus hr hf i).el (i + 2) .abs).mean hf.pos (i + 3)

theorem crossEntropy_ev {l r : Ex ℝ} {s : List Nat} {a b : List Nat → ℝ} (hl : Ev L D l s a) (hr : Ev L D r s b) (hs : size s ≠ 0) (i : Nat) :
    Ev L D (.un (i + 2) opSum (hadE K (i + 1) l (el K i .log r))) [1] (fun _ => sumIdx s (fun is => a is * Real.log (b is))) := by
  refine ⟨_, (hl.had (hr.el i .log) hs (i + 1)).sum hs (i + 2), ?_⟩
  exact replicate_has [1] (sumIdx s (fun is => a is * Real.log (b is)))

/-- C98: `cross_entropy` is `-Σ l log r`. -/
theorem cross_entropy_value {l r : Ex ℝ} {s : List Nat} {a b : List Nat → ℝ} (hl : Ev L D l s a) (hr : Ev L D r s b) (hs : size s ≠ 0) (i : Nat) :
    eval L D (crossEntropy K i l r) = ok ⟨[1], [-sumIdx s (fun is => a is * Real.log (b is))]⟩ := by
  obtain ⟨x, h1, h2⟩ := (crossEntropy_ev (K := K) hl hr hs i).el (K := K) (i + 3) .negative
  unfold crossEntropy
  rw [h1]
  exact congrArg ok (h2.ext (replicate_has [1] (-sumIdx s (fun is => a is * Real.log (b is)))))

theorem hinge_ev {l r : Ex ℝ} {s : List Nat} {a b : List Nat → ℝ} (hl : Ev L D l s a) (hr : Ev L D r s b) (hf : Fits1 K s) (i : Nat) :
    Ev L D (hingeError K i l r) s (fun is => max 0 (1 - a is * b is)) :=
  ((((hl.had hr hf.pos i).el (i + 1) .negative).valuePlus hf 1 (i + 2)).congr (fun is _ => by simp only [EOp.fwd]; ring)).valueMax 0 (i + 3)

/-- C98: `hinge_loss` is the mean of `max( 0, 1 - l r )`. -/
theorem hinge_value {l r : Ex ℝ} {s : List Nat} {a b : List Nat → ℝ} (hl : Ev L D l s a) (hr : Ev L D r s b) (hf : Fits1 K s) (i : Nat) :
    eval L D (hinge K i l r) = ok ⟨[1], [sumIdx s (fun is => max 0 (1 - a is * b is)) / (size s : ℝ)]⟩ :=
  (hinge_ev hl hr hf i).mean hf.pos (i + 4)

theorem bceError_ev {t p : Ex ℝ} {s : List Nat} {a b : List Nat → ℝ} (ht : Ev L D t s a) (hp : Ev L D p s b) (hf : Fits1 K s) (i : Nat) :
    Ev L D (bceError K i t p) s (fun is => -(a is * Real.log (b is) + (1 - a is) * Real.log (1 - b is))) := by
  have h1 := ht.had (K := K) (hp.el (K := K) (i + 1) .log) hf.pos (i + 2)
  have h2 : Ev L D (minusE K (i + 3) (.un i opOnes t) t) s (fun is => 1 - a is) :=
    ((ht.ones i).minus ht hf.fits (i + 3)).congr (fun is hv => by rw [bc_self hv])
  have h3 : Ev L D (minusE K (i + 5) (.un i opOnes t) p) s (fun is => 1 - b is) :=
    ((ht.ones i).minus hp hf.fits (i + 5)).congr (fun is hv => by rw [bc_self hv])
  have h4 := h2.had (K := K) (h3.el (K := K) (i + 7) .log) hf.pos (i + 8)
  exact ((h1.plus h4 hf.fits (i + 9)).el (i + 10) .negative).congr (fun is hv => by simp only [EOp.fwd, bc_self hv])

/-- C98: `binary_cross_entropy_loss`, were tensors passed by value, is the mean of `-(t log p + (1 - t) log (1 - p))`. -/
theorem bce_value {t p : Ex ℝ} {s : List Nat} {a b : List Nat → ℝ} (ht : Ev L D t s a) (hp : Ev L D p s b) (hf : Fits1 K s) (i : Nat) :
    eval L D (bce K i t p) = ok ⟨[1], [sumIdx s (fun is => -(a is * Real.log (b is) + (1 - a is) * Real.log (1 - b is))) / (size s : ℝ)]⟩ :=
  (bceError_ev ht hp hf i).mean hf.pos (i + 11)

theorem logOf_ev {e : Ex ℝ} {s : List Nat} {a : List Nat → ℝ} (h : Ev L D e s a) (hf : Fits1 K s) (top : ℝ) (i : Nat) :
    Ev L D (logOf K top i e) s (fun is => Real.log (1 + max epsC (min (a is) top))) :=
  ((h.el i (.clip epsC top)).valuePlus hf 1 (i + 1)).el (i + 2) .log

/-- What `mean_squared_logarithmic_error` computes: a sum, not a mean. -/
theorem msle_value {l r : Ex ℝ} {s : List Nat} {a b : List Nat → ℝ} (hl : Ev L D l s a) (hr : Ev L D r s b) (hf : Fits1 K s) (top : ℝ) (i : Nat) :
    eval L D (msle K top i l r) = ok ⟨[1], [sumIdx s (fun is =>
      (Real.log (1 + max epsC (min (a is) top)) - Real.log (1 + max epsC (min (b is) top))) ^ 2)]⟩ :=
  ((((logOf_ev hl hf top i).minus (logOf_ev hr hf top (i + 3)) hf.fits (i + 6)).el (i + 8) .square).congr
    (fun is hv => by simp only [EOp.fwd, bc_self hv]; ring)).sum hf.pos (i + 9)

theorem sumIdx_pos {s : List Nat} {f : List Nat → ℝ} (h0 : ∀ is, ValidIdx s is → 0 ≤ f is) {is : List Nat} (hv : ValidIdx s is) (h : f is ≠ 0) : 0 < sumIdx s f := by
  have hz : ∀ p, p < size s → ValidIdx s (unflat s p) := fun p hp => (unflat_spec hp).1
  rw [sumIdx_eq_range]
  refine Finset.sum_pos' (fun p hp => h0 _ (hz p (Finset.mem_range.mp hp))) ⟨flat s is, Finset.mem_range.mpr (flat_lt hv), ?_⟩
  rw [unflat_flat hv]
  exact lt_of_le_of_ne (h0 is hv) (Ne.symm h)

/-- C98 is false of `mean_squared_logarithmic_error`: with more than one element it is not the mean of the squared differences of the
logarithms, unless all of them are zero. -/
theorem msle_not_mean_violated {l r : Ex ℝ} {s : List Nat} {a b : List Nat → ℝ} (hl : Ev L D l s a) (hr : Ev L D r s b) (hf : Fits1 K s) (top : ℝ) (i : Nat)
    (h1 : 1 < size s) {is : List Nat} (hv : ValidIdx s is) (hne : Real.log (1 + max epsC (min (a is) top)) ≠ Real.log (1 + max epsC (min (b is) top))) :
    eval L D (msle K top i l r) ≠ ok ⟨[1], [sumIdx s (fun is =>
      (Real.log (1 + max epsC (min (a is) top)) - Real.log (1 + max epsC (min (b is) top))) ^ 2) / (size s : ℝ)]⟩ := by
  rw [msle_value hl hr hf top i]
  intro h
  have hp := sumIdx_pos (s := s) (f := fun is => (Real.log (1 + max epsC (min (a is) top)) - Real.log (1 + max epsC (min (b is) top))) ^ 2)
    (fun _ _ => sq_nonneg _) hv (pow_ne_zero 2 (sub_ne_zero.mpr hne))
  simp only [ok.injEq, Ten.mk.injEq, List.cons.injEq, and_true, true_and] at h
  have hz : (1 : ℝ) < size s := by exact_mod_cast h1
  rw [eq_div_iff (by linarith)] at h
  nlinarith

/-! ## C99: gradients -/

theorem id_mem {α : Type} {e : Ex α} {sl : Slot} {p : Slot × Ex α} (hp : p ∈ occs e sl) {i : Nat} (hi : p.2.id? = some i) : i ∈ ids e := by
  induction e generalizing sl with
  | leaf k => simp only [occs, List.mem_singleton] at hp; subst hp; simp [Ex.id?] at hi
  | var v c => simp only [occs, List.mem_singleton] at hp; subst hp; simp [Ex.id?] at hi
  | un j op c ih =>
    rcases List.mem_cons.mp hp with rfl | hp
    · simp only [Ex.id?, Option.some.injEq] at hi; subst hi; exact List.mem_cons_self
    · exact List.mem_cons_of_mem _ (ih hp)
  | bin j op l r ihl ihr =>
    rcases List.mem_cons.mp hp with rfl | hp
    · simp only [Ex.id?, Option.some.injEq] at hi; subst hi; exact List.mem_cons_self
    · refine List.mem_cons_of_mem _ (List.mem_append.mpr ?_)
      rcases List.mem_append.mp hp with hp | hp
      · exact Or.inl (ihl hp)
      · exact Or.inr (ihr hp)

theorem occ_unique {α : Type} {e : Ex α} (hn : (ids e).Nodup) : ∀ {sl : Slot} {p q : Slot × Ex α}, p ∈ occs e sl → q ∈ occs e sl → ∀ {i}, p.2.id? = some i → q.2.id? = some i → p = q := by
  induction e with
  | leaf k => intro sl p q hp hq i hi _; simp only [occs, List.mem_singleton] at hp; subst hp; simp [Ex.id?] at hi
  | var v c => intro sl p q hp hq i hi _; simp only [occs, List.mem_singleton] at hp; subst hp; simp [Ex.id?] at hi
  | un j op c ih =>
    intro sl p q hp hq i hi hj
    simp only [ids, List.nodup_cons] at hn
    rcases List.mem_cons.mp hp with rfl | hp <;> rcases List.mem_cons.mp hq with rfl | hq
    · rfl
    · simp only [Ex.id?, Option.some.injEq] at hi; subst hi; exact absurd (id_mem hq hj) hn.1
    · simp only [Ex.id?, Option.some.injEq] at hj; subst hj; exact absurd (id_mem hp hi) hn.1
    · exact ih hn.2 hp hq hi hj
  | bin j op l r ihl ihr =>
    intro sl p q hp hq i hi hj
    simp only [ids, List.nodup_cons, List.mem_append, not_or, List.nodup_append] at hn
    obtain ⟨⟨n1, n2⟩, n3, n4, n5⟩ := hn
    rcases List.mem_cons.mp hp with rfl | hp <;> rcases List.mem_cons.mp hq with rfl | hq
    · rfl
    · simp only [Ex.id?, Option.some.injEq] at hi; subst hi
      rcases List.mem_append.mp hq with hq | hq
      · exact absurd (id_mem hq hj) n1
      · exact absurd (id_mem hq hj) n2
    · simp only [Ex.id?, Option.some.injEq] at hj; subst hj
      rcases List.mem_append.mp hp with hp | hp
      · exact absurd (id_mem hp hi) n1
      · exact absurd (id_mem hp hi) n2
    · rcases List.mem_append.mp hp with hp | hp <;> rcases List.mem_append.mp hq with hq | hq
      · exact ihl n3 hp hq hi hj
      · exact absurd rfl (n5 i (id_mem hp hi) i (id_mem hq hj))
      · exact absurd rfl (n5 i (id_mem hq hj) i (id_mem hp hi))
      · exact ihr n4 hp hq hi hj

/-- An expression in which no operator occurs twice. -/
theorem distinct_consistent {α : Type} {e : Ex α} (hn : (ids e).Nodup) : Consistent e ∧ Unshared e :=
  ⟨fun _ hp _ hq _ hi hj => congrArg Prod.snd (occ_unique hn hp hq hi hj), fun _ hp _ hq _ hi hj => Or.inl (congrArg Prod.fst (occ_unique hn hp hq hi hj))⟩

/-- What is needed of a loss and a state to train: see `gradient_is_derivative_partial`. -/
structure Trains (e : Ex ℝ) (s : St ℝ) (cfg : Nat → Cfg ℝ) : Prop where
  consistent : Consistent e
  unshared : Unshared e
  training : s.training = true
  vars : ∀ v ∈ vars e, (s.data v).WF ∧ (s.grad v).WF ∧ (s.grad v).shape = (s.data v).shape
  cfg : ∀ p ∈ occs e none, ∀ v c, p.2 = .var v c → c = cfg v ∧ (cfg v).trainable = true

/-- After a training run of the loss `e` and `loss.backward( ones( {1} ) )`, the gradient stored in each variable is at every index `k` times the
partial derivative of the value of the loss with respect to that element, plus the regularisation term once per object of the variable. -/
def Stores (eps : ℝ) (e : Ex ℝ) (s : St ℝ) (cfg : Nat → Cfg ℝ) (k : ℝ) : Prop :=
  ∃ y s1 s2, run e s = ok (y, s1) ∧ eval s.leaf s.data e = ok y ∧ backward eps e none ones1 s1 = ok s2 ∧ s2.data = s.data ∧
    ∀ v ∈ vars e, ((s2.grad v).WF ∧ (s2.grad v).shape = (s.data v).shape) ∧ ∀ is, ValidIdx (s.data v).shape is →
      ∃ (Y : ℝ → Ten ℝ) (d : ℝ), (∀ h : ℝ, eval s.leaf (upd s.data v (bump (s.data v) is h)) e = ok (Y h)) ∧ HasDerivAt (fun h => (Y h).at [0]) d 0 ∧
        (s2.grad v).at is = k * d + ((varOccs e none).filter (fun p => p.2 = v)).toFinset.card • regTerm eps (cfg v) ((s.data v).at is)

theorem pair_one' (G : List Nat → ℝ) : pair [1] ones1.at G = G [0] := by
  simp [pair, sumIdx, ones1, Ten.at, flat]

theorem smooth_stores (eps : ℝ) {e : Ex ℝ} {s : St ℝ} {cfg : Nat → Cfg ℝ} (ht : Trains e s cfg) (hsm : Smooth s.leaf s.data e) {v : ℝ}
    (hv : eval s.leaf s.data e = ok ⟨[1], [v]⟩) : Stores eps e s cfg 1 := by
  obtain ⟨y, s1, h1, h2, h3⟩ := gradient_is_derivative_partial eps e ht.consistent ht.unshared s ht.training hsm ht.vars cfg ht.cfg
  rw [hv] at h2
  simp only [ok.injEq] at h2
  subst h2
  obtain ⟨s2, k1, k2, k3⟩ := h3 ones1 rfl rfl
  refine ⟨_, s1, s2, h1, hv, k1, k2, fun v hv => ⟨(k3 v hv).1, fun is his => ?_⟩⟩
  obtain ⟨Y, d, m1, m2, m3⟩ := (k3 v hv).2 is his
  refine ⟨Y, d, m1, ?_, by rw [m3, one_mul]⟩
  simpa only [pair_one'] using m2

theorem mean_stores (eps : ℝ) {i : Nat} {c : Ex ℝ} {s : St ℝ} {cfg : Nat → Cfg ℝ} (ht : Trains (.un i opMean c) s cfg) (hsm : Smooth s.leaf s.data c)
    {sh : List Nat} {a : List Nat → ℝ} (hev : Ev s.leaf s.data c sh a) (hz : size sh ≠ 0) {b : Nat} (hb : meanBatch sh = ok b) (hb0 : b ≠ 0) :
    Stores eps (.un i opMean c) s cfg ((size sh : ℝ) / (b : ℝ)) := by
  obtain ⟨x, hx, hxs⟩ := hev
  have hy : opMean.fwd x = ok ⟨[1], [sumIdx sh a / (size sh : ℝ)]⟩ := meanReduce_ok hxs hz
  obtain ⟨s1, h1, h2⟩ := gradient_root eps i opMean c ht.consistent ht.unshared s ht.training hsm ht.vars cfg ht.cfg hx hy
  obtain ⟨d, d1, d2⟩ := meanReduceBack_ok x ones1 sh a 1 hxs rfl hb
  obtain ⟨s2, k1, k2, k3⟩ := h2 ones1 d d1 d2.wf (by rw [d2.1, hxs.1])
  refine ⟨_, s1, s2, h1, by rw [eval, hx, bind_ok, hy], k1, k2, fun v hv => ⟨(k3 v hv).1, fun is his => ?_⟩⟩
  obtain ⟨X, D, m1, m2, _, m4, m5⟩ := (k3 v hv).2 is his
  have hX : ∀ h, (X h).Has sh (X h).at := fun h => by
    have := (m2 h).1.has
    rwa [(m2 h).2, hxs.1] at this
  have hbr : (b : ℝ) ≠ 0 := Nat.cast_ne_zero.mpr hb0
  have hzr : (size sh : ℝ) ≠ 0 := Nat.cast_ne_zero.mpr hz
  refine ⟨fun h => ⟨[1], [sumIdx sh (X h).at / (size sh : ℝ)]⟩, (b : ℝ) / (size sh : ℝ) * D, fun h => ?_, ?_, ?_⟩
  · rw [eval, m1, bind_ok]
    exact meanReduce_ok (hX h) hz
  · have e1 : ∀ h, pair x.shape d.at (X h).at = 1 / (b : ℝ) * sumIdx sh (X h).at := by
      intro h
      unfold pair
      rw [hxs.1, ← sumIdx_mul_left]
      exact sumIdx_congr (fun js hj => by rw [d2.at_eq hj])
    simp only [e1] at m4
    have := m4.const_mul ((b : ℝ) / (size sh : ℝ))
    refine this.congr_of_eventuallyEq (Filter.Eventually.of_forall (fun h => ?_))
    simp only [Ten.at, flat, List.getD_cons_zero, Nat.zero_mul, Nat.add_zero]
    field_simp
  · rw [m5]
    congr 1
    field_simp

/-- Not two factors. -/
theorem Stores.unique {eps : ℝ} {e : Ex ℝ} {s : St ℝ} {cfg : Nat → Cfg ℝ} {k k' : ℝ} (h : Stores eps e s cfg k) (h' : Stores eps e s cfg k') {v : Nat}
    (hv : v ∈ vars e) {is : List Nat} (his : ValidIdx (s.data v).shape is) {Y : ℝ → Ten ℝ} {d : ℝ}
    (hY : ∀ h : ℝ, eval s.leaf (upd s.data v (bump (s.data v) is h)) e = ok (Y h)) (hd : HasDerivAt (fun h => (Y h).at [0]) d 0) (hd0 : d ≠ 0) : k = k' := by
  obtain ⟨y, s1, s2, a1, a2, a3, a4, a5⟩ := h
  obtain ⟨y', s1', s2', b1, b2, b3, b4, b5⟩ := h'
  rw [a1] at b1
  simp only [ok.injEq, Prod.mk.injEq] at b1
  obtain ⟨rfl, rfl⟩ := b1
  rw [a3] at b3
  simp only [ok.injEq] at b3
  subst b3
  obtain ⟨Y1, d1, c1, c2, c3⟩ := (a5 v hv).2 is his
  obtain ⟨Y2, d2, e1, e2, e3⟩ := (b5 v hv).2 is his
  have h1 : Y1 = Y := funext fun h => by have := (c1 h).symm.trans (hY h); simpa using this
  have h2 : Y2 = Y := funext fun h => by have := (e1 h).symm.trans (hY h); simpa using this
  subst h1
  subst h2
  have := c2.unique hd
  subst this
  have := e2.unique hd
  subst this
  rw [c3] at e3
  have := add_right_cancel e3
  exact mul_right_cancel₀ hd0 this

theorem ev_leaf {k : Nat} (h : (L k).WF) (hne : (L k).data ≠ []) : Ev L D (.leaf k) (L k).shape (L k).at :=
  ⟨L k, by rw [eval, assert_true hne]; rfl, h.has⟩

theorem ev_var {v : Nat} {c : Cfg ℝ} (h : (D v).WF) : Ev L D (.var v c) (D v).shape (D v).at := ⟨D v, rfl, h.has⟩

section
variable {eps : ℝ} {i : Nat} {l r : Ex ℝ} {s : St ℝ} {cfg : Nat → Cfg ℝ} {sl sr sh : List Nat} {a b : List Nat → ℝ}

/-! ### Sums

Full statement of C99 (false of the code): for every loss and operands with right gradients, `Stores … 1`.  Missing here: the losses that are means
(`mse_gradient_violated` and so on below); the hypotheses `Smooth` and `Trains` are those of `gradient_is_derivative_partial`. -/

/-- C99 for `squared_loss`. -/
theorem squared_loss_gradient_partial (ht : Trains (squaredLoss K i l r) s cfg) (hl : Ev s.leaf s.data l sl a) (hr : Ev s.leaf s.data r sr b) (hf : Fits K sl sr sh)
    (hsl : Smooth s.leaf s.data l) (hsr : Smooth s.leaf s.data r) : Stores eps (squaredLoss K i l r) s cfg 1 :=
  smooth_stores eps ht (smooth_sum ((hl.minus hr hf i).el (i + 2) .square) hf.pos
    (smooth_el (hl.minus hr hf i) (smooth_minus hl hr hf hsl hsr i) (i + 2) .square (fun _ _ => trivial)) (i + 3)) (squared_loss_value hl hr hf i)

/-- C99 for `abs_loss`, where label and prediction differ. -/
theorem abs_loss_gradient_partial (ht : Trains (absLoss K i l r) s cfg) (hl : Ev s.leaf s.data l sl a) (hr : Ev s.leaf s.data r sr b) (hf : Fits K sl sr sh)
    (hsl : Smooth s.leaf s.data l) (hsr : Smooth s.leaf s.data r) (hne : ∀ is, ValidIdx sh is → a (bcIdx sl is) ≠ b (bcIdx sr is)) :
    Stores eps (absLoss K i l r) s cfg 1 :=
  smooth_stores eps ht (smooth_sum ((hl.minus hr hf i).el (i + 2) .abs) hf.pos
    (smooth_el (hl.minus hr hf i) (smooth_minus hl hr hf hsl hsr i) (i + 2) .abs (fun is hv => sub_ne_zero.mpr (hne is hv))) (i + 3)) (abs_loss_value hl hr hf i)

/-- C99 for `cross_entropy`, where the prediction is positive. -/
theorem cross_entropy_gradient_partial (ht : Trains (crossEntropy K i l r) s cfg) (hl : Ev s.leaf s.data l sh a) (hr : Ev s.leaf s.data r sh b) (hf : Fits1 K sh)
    (hsl : Smooth s.leaf s.data l) (hsr : Smooth s.leaf s.data r) (hp : ∀ is, ValidIdx sh is → 0 < b is) : Stores eps (crossEntropy K i l r) s cfg 1 :=
  smooth_stores eps ht (smooth_el (crossEntropy_ev hl hr hf.pos i) (smooth_sum (hl.had (hr.el i .log) hf.pos (i + 1)) hf.pos
    (smooth_had hl (hr.el i .log) hf hsl (smooth_el hr hsr i .log hp) (i + 1)) (i + 2)) (i + 3) .negative (fun _ _ => trivial)) (cross_entropy_value hl hr hf.pos i)

theorem smooth_logOf {e : Ex ℝ} (h : Ev s.leaf s.data e sh a) (hs : Smooth s.leaf s.data e) (hf : Fits1 K sh) (top : ℝ) (i : Nat)
    (hd : ∀ is, ValidIdx sh is → a is ≠ epsC ∧ a is ≠ top) : Smooth s.leaf s.data (logOf K top i e) :=
  smooth_el ((h.el i (.clip epsC top)).valuePlus hf 1 (i + 1)) (smooth_valuePlus (h.el i (.clip epsC top)) (smooth_el h hs i _ hd) hf 1 (i + 1)) (i + 2) .log
    (fun is _ => by
      simp only [EOp.fwd, EOp.Dom]
      have h1 : epsC ≤ max epsC (min (a is) top) := le_max_left _ _
      have h2 : 0 < epsC := epsC_pos
      linarith)

/-- C99 for `mean_squared_logarithmic_error` (which is a sum), where no element is at a bound of `clip`. -/
theorem msle_gradient_partial (top : ℝ) (ht : Trains (msle K top i l r) s cfg) (hl : Ev s.leaf s.data l sh a) (hr : Ev s.leaf s.data r sh b) (hf : Fits1 K sh)
    (hsl : Smooth s.leaf s.data l) (hsr : Smooth s.leaf s.data r) (hda : ∀ is, ValidIdx sh is → a is ≠ epsC ∧ a is ≠ top)
    (hdb : ∀ is, ValidIdx sh is → b is ≠ epsC ∧ b is ≠ top) : Stores eps (msle K top i l r) s cfg 1 :=
  have h1 := logOf_ev hl hf top i
  have h2 := logOf_ev hr hf top (i + 3)
  smooth_stores eps ht (smooth_sum ((h1.minus h2 hf.fits (i + 6)).el (i + 8) .square) hf.pos
    (smooth_el (h1.minus h2 hf.fits (i + 6)) (smooth_minus h1 h2 hf.fits (smooth_logOf hl hsl hf top i hda) (smooth_logOf hr hsr hf top (i + 3) hdb) (i + 6))
      (i + 8) .square (fun _ _ => trivial)) (i + 9)) (msle_value hl hr hf top i)

/-! ### Means

`c` is what `mean_reduce` divides by in backward: the first extent, or 1 for tensors of rank 1. -/

/-- What `mean_squared_error` stores. -/
theorem mse_gradient (ht : Trains (mse K i l r) s cfg) (hl : Ev s.leaf s.data l sl a) (hr : Ev s.leaf s.data r sr b) (hf : Fits K sl sr sh)
    (hsl : Smooth s.leaf s.data l) (hsr : Smooth s.leaf s.data r) {c : Nat} (hc : meanBatch sh = ok c) (hc0 : c ≠ 0) :
    Stores eps (mse K i l r) s cfg ((size sh : ℝ) / (c : ℝ)) :=
  mean_stores eps ht (smooth_el (hl.minus hr hf i) (smooth_minus hl hr hf hsl hsr i) (i + 2) .square (fun _ _ => trivial)) ((hl.minus hr hf i).el (i + 2) .square) hf.pos hc hc0

/-- What `mean_absolute_error` stores, where label and prediction differ. -/
theorem mae_gradient (ht : Trains (mae K i l r) s cfg) (hl : Ev s.leaf s.data l sl a) (hr : Ev s.leaf s.data r sr b) (hf : Fits K sl sr sh)
    (hsl : Smooth s.leaf s.data l) (hsr : Smooth s.leaf s.data r) (hne : ∀ is, ValidIdx sh is → a (bcIdx sl is) ≠ b (bcIdx sr is)) {c : Nat}
    (hc : meanBatch sh = ok c) (hc0 : c ≠ 0) : Stores eps (mae K i l r) s cfg ((size sh : ℝ) / (c : ℝ)) :=
  mean_stores eps ht (smooth_el (hl.minus hr hf i) (smooth_minus hl hr hf hsl hsr i) (i + 2) .abs (fun is hv => sub_ne_zero.mpr (hne is hv)))
    ((hl.minus hr hf i).el (i + 2) .abs) hf.pos hc hc0

/-- What `hinge_loss` stores, where no element is at the kink. -/
theorem hinge_gradient (ht : Trains (hinge K i l r) s cfg) (hl : Ev s.leaf s.data l sh a) (hr : Ev s.leaf s.data r sh b) (hf : Fits1 K sh)
    (hsl : Smooth s.leaf s.data l) (hsr : Smooth s.leaf s.data r) (hne : ∀ is, ValidIdx sh is → a is * b is ≠ 1) {c : Nat}
    (hc : meanBatch sh = ok c) (hc0 : c ≠ 0) : Stores eps (hinge K i l r) s cfg ((size sh : ℝ) / (c : ℝ)) :=
  have h1 := (hl.had (K := K) hr hf.pos i).el (K := K) (i + 1) .negative
  have h2 := h1.valuePlus hf 1 (i + 2)
  mean_stores eps ht (smooth_valueMax h2 (smooth_valuePlus h1 (smooth_el (hl.had hr hf.pos i) (smooth_had hl hr hf hsl hsr i) (i + 1) .negative (fun _ _ => trivial)) hf 1 (i + 2)) 0
    (fun is hv => by
      have := hne is hv
      simp only [EOp.fwd]
      intro h
      exact this (by linarith)) (i + 3)) (hinge_ev hl hr hf i) hf.pos hc hc0

/-- What `binary_cross_entropy_loss` would store were tensors passed by value (see `Verif.Loss.Shared`), for predictions between 0 and 1. -/
theorem bce_gradient (ht : Trains (bce K i l r) s cfg) (hl : Ev s.leaf s.data l sh a) (hr : Ev s.leaf s.data r sh b) (hf : Fits1 K sh)
    (hsl : Smooth s.leaf s.data l) (hsr : Smooth s.leaf s.data r) (hp : ∀ is, ValidIdx sh is → 0 < b is ∧ b is < 1) {c : Nat}
    (hc : meanBatch sh = ok c) (hc0 : c ≠ 0) : Stores eps (bce K i l r) s cfg ((size sh : ℝ) / (c : ℝ)) := by
  have ho := hl.ones i
  have so := smooth_ones hsl i
  have e1 := hr.el (K := K) (i + 1) .log
  have s1 := smooth_el (K := K) hr hsr (i + 1) .log (fun is hv => (hp is hv).1)
  have e2 := hl.had (K := K) e1 hf.pos (i + 2)
  have s2 := smooth_had (K := K) hl e1 hf hsl s1 (i + 2)
  have e3 := ho.minus hl hf.fits (i + 3)
  have s3 := smooth_minus ho hl hf.fits so hsl (i + 3)
  have e4 := ho.minus hr hf.fits (i + 5)
  have s4 := smooth_minus ho hr hf.fits so hsr (i + 5)
  have e5 := e4.el (K := K) (i + 7) .log
  have s5 := smooth_el (K := K) e4 s4 (i + 7) .log (fun is hv => by
    rw [bc_self hv]
    exact sub_pos.mpr (hp is hv).2)
  have e6 := e3.had (K := K) e5 hf.pos (i + 8)
  have s6 := smooth_had (K := K) e3 e5 hf s3 s5 (i + 8)
  have e7 := e2.plus e6 hf.fits (i + 9)
  have s7 := smooth_plus e2 e6 hf.fits s2 s6 (i + 9)
  exact mean_stores eps ht (smooth_el e7 s7 (i + 10) .negative (fun _ _ => trivial)) (bceError_ev hl hr hf i) hf.pos hc hc0

/-- C99 is false of `mean_squared_error`: whatever the operands, if the tensor averaged has more elements than its first extent (or rank 1 and more
than one element), what is stored is not the derivative of the loss, unless that derivative is zero everywhere. -/
theorem mse_gradient_violated (ht : Trains (mse K i l r) s cfg) (hl : Ev s.leaf s.data l sl a) (hr : Ev s.leaf s.data r sr b) (hf : Fits K sl sr sh)
    (hsl : Smooth s.leaf s.data l) (hsr : Smooth s.leaf s.data r) {c : Nat} (hc : meanBatch sh = ok c) (hc0 : c ≠ 0) (hne : size sh ≠ c)
    {v : Nat} (hv : v ∈ vars (mse K i l r)) {is : List Nat} (his : ValidIdx (s.data v).shape is) {Y : ℝ → Ten ℝ} {d : ℝ}
    (hY : ∀ h : ℝ, eval s.leaf (upd s.data v (bump (s.data v) is h)) (mse K i l r) = ok (Y h)) (hd : HasDerivAt (fun h => (Y h).at [0]) d 0) (hd0 : d ≠ 0) :
    ¬ Stores eps (mse K i l r) s cfg 1 := by
  intro h
  have := (mse_gradient (eps := eps) ht hl hr hf hsl hsr hc hc0).unique h hv his hY hd hd0
  rw [div_eq_one_iff_eq (Nat.cast_ne_zero.mpr hc0)] at this
  exact hne (by exact_mod_cast this)

/-- C99 for the losses that are means, where the mean is over the first extent only. -/
theorem mean_losses_gradient_partial (hsl : Smooth s.leaf s.data l) (hsr : Smooth s.leaf s.data r) (hl : Ev s.leaf s.data l sh a) (hr : Ev s.leaf s.data r sh b)
    (hf : Fits1 K sh) (hc : meanBatch sh = ok (size sh)) :
    (Trains (mse K i l r) s cfg → Stores eps (mse K i l r) s cfg 1) ∧
    (Trains (mae K i l r) s cfg → (∀ is, ValidIdx sh is → a is ≠ b is) → Stores eps (mae K i l r) s cfg 1) ∧
    (Trains (hinge K i l r) s cfg → (∀ is, ValidIdx sh is → a is * b is ≠ 1) → Stores eps (hinge K i l r) s cfg 1) ∧
    (Trains (bce K i l r) s cfg → (∀ is, ValidIdx sh is → 0 < b is ∧ b is < 1) → Stores eps (bce K i l r) s cfg 1) := by
  have h1 : (size sh : ℝ) / (size sh : ℝ) = 1 := div_self (Nat.cast_ne_zero.mpr hf.pos)
  refine ⟨fun ht => h1 ▸ mse_gradient ht hl hr hf.fits hsl hsr hc hf.pos, fun ht hne => h1 ▸ mae_gradient ht hl hr hf.fits hsl hsr (fun is hv => ?_) hc hf.pos,
    fun ht hne => h1 ▸ hinge_gradient ht hl hr hf hsl hsr hne hc hf.pos, fun ht hp => h1 ▸ bce_gradient ht hl hr hf hsl hsr hp hc hf.pos⟩
  rw [bc_self hv]
  exact hne is hv

end

/-! ### A place holder and a variable -/

/-- The derivative of `mean_squared_error( place holder, variable )`. -/
theorem mse_variable_derivative {s : St ℝ} {k v : Nat} {c : Cfg ℝ} {i : Nat} (hL : (s.leaf k).WF) (hLn : (s.leaf k).data ≠ []) (hD : (s.data v).WF)
    (hsh : (s.leaf k).shape = (s.data v).shape) (hf : Fits1 K (s.data v).shape) {is : List Nat} (his : ValidIdx (s.data v).shape is) :
    ∃ Y : ℝ → Ten ℝ, (∀ h : ℝ, eval s.leaf (upd s.data v (bump (s.data v) is h)) (mse K i (.leaf k) (.var v c)) = ok (Y h)) ∧
      HasDerivAt (fun h => (Y h).at [0]) (2 * ((s.data v).at is - (s.leaf k).at is) / (size (s.data v).shape : ℝ)) 0 := by
  have hm := moves_bump hD his
  have hl : ∀ D, Ev s.leaf D (.leaf k) (s.data v).shape (s.leaf k).at := fun D => hsh ▸ ev_leaf hL hLn
  have hr : ∀ h, Ev s.leaf (upd s.data v (bump (s.data v) is h)) (.var v c) (s.data v).shape (bump (s.data v) is h).at := by
    intro h
    exact ⟨_, by rw [eval, upd_same], hm.has h⟩
  refine ⟨_, fun h => mse_value (hl _) (hr h) hf.fits i, ?_⟩
  have hd := (hasDerivAt_sumIdx (s := (s.data v).shape) (f := fun h js => ((s.leaf k).at js - (bump (s.data v) is h).at js) ^ 2)
    (d := fun js => (2 * ((s.data v).at js - (s.leaf k).at js)) * unitAt is js) (fun js hj => by
      have h1 := ((hm.2 js hj).const_sub ((s.leaf k).at js)).pow 2
      rw [bump_zero hD his] at h1
      refine h1.congr_deriv ?_
      simp only [Nat.cast_ofNat, Nat.add_one_sub_one, pow_one]
      ring)).div_const (size (s.data v).shape : ℝ)
  rw [show sumIdx (s.data v).shape (fun js => (2 * ((s.data v).at js - (s.leaf k).at js)) * unitAt is js) = 2 * ((s.data v).at is - (s.leaf k).at is) from
    pair_unit his (fun js => 2 * ((s.data v).at js - (s.leaf k).at js))] at hd
  refine hd.congr_of_eventuallyEq (Filter.Eventually.of_forall (fun h => ?_))
  simp only [Ten.at, flat, List.getD_cons_zero, Nat.zero_mul, Nat.add_zero]
  congr 1
  refine sumIdx_congr (fun js hj => ?_)
  rw [bc_self hj]

end Verif.Loss
