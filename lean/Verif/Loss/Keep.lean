import Verif.Loss.Shared
import Verif.Loss.DenseExamples
/-!
# Property C100: losses that leave labels and variables alone

Full statement of C100 (false of the code, `mse_overwrites_labels_violated`): running a loss gives its value and leaves the tensors bound to place
holders, and the variables, as they were.  Proved here for expressions in which no operator occurs twice and no place holder or variable is
the left operand of a `plus`: `cross_entropy`, `hinge_loss` and `mean_squared_logarithmic_error` of anything, the other differences for labels
that are not a place holder themselves, and networks of dense layers.
-/
namespace Verif.Loss
open Verif Res View Data Ops Graph Optim Alias
open Verif.Tensor (Tn Heap bcIdx)

noncomputable section

/-- No place holder and no variable is the left operand of a `plus`. -/
def NoBase (kind : Nat → Kind) : Ex ℝ → Prop
  | .leaf _ => True
  | .var _ _ => True
  | .un _ _ e => NoBase kind e
  | .bin i op l r => (kind i = .plus → op.fwd = plusT ∧ l.id? ≠ none) ∧ NoBase kind l ∧ NoBase kind r

/-- Every part has a value: a tensor with at least one element, as many as its shape says. -/
def Valued (L D : Nat → Ten ℝ) : Ex ℝ → Prop
  | .leaf k => ∃ y, eval L D (.leaf k) = ok y ∧ Sound y
  | .var v c => ∃ y, eval L D (.var v c) = ok y ∧ Sound y
  | .un i op e => (∃ y, eval L D (.un i op e) = ok y ∧ Sound y) ∧ Valued L D e
  | .bin i op l r => (∃ y, eval L D (.bin i op l r) = ok y ∧ Sound y) ∧ Valued L D l ∧ Valued L D r

section
variable {L D : Nat → Ten ℝ} {kind : Nat → Kind}

theorem valued_plain (e : Ex ℝ) : Valued L D e → ∀ sl, ∀ p ∈ occs e sl, ∃ y, eval L D p.2 = ok y ∧ Sound y := by
  induction e with
  | leaf k => intro h sl p hp; simp only [occs, List.mem_singleton] at hp; subst hp; exact h
  | var v c => intro h sl p hp; simp only [occs, List.mem_singleton] at hp; subst hp; exact h
  | un i op e ih =>
    intro h sl p hp
    rcases List.mem_cons.mp hp with rfl | hp
    · exact h.1
    · exact ih h.2 _ p hp
  | bin i op l r ihl ihr =>
    intro h sl p hp
    rcases List.mem_cons.mp hp with rfl | hp
    · exact h.1
    · rcases List.mem_append.mp hp with hp | hp
      · exact ihl h.2.1 _ p hp
      · exact ihr h.2.2 _ p hp

theorem noBase_occs (e : Ex ℝ) : NoBase kind e → ∀ sl, ∀ p ∈ occs e sl, ∀ i op l r, p.2 = .bin i op l r → kind i = .plus →
    op.fwd = plusT ∧ l.id? ≠ none ∧ ∃ q ∈ occs e sl, q = (some (i, false), l) := by
  induction e with
  | leaf k => intro h sl p hp i op l r hpe; simp only [occs, List.mem_singleton] at hp; subst hp; simp at hpe
  | var v c => intro h sl p hp i op l r hpe; simp only [occs, List.mem_singleton] at hp; subst hp; simp at hpe
  | un j op' e ih =>
    intro h sl p hp i op l r hpe hk
    rcases List.mem_cons.mp hp with rfl | hp
    · simp at hpe
    · obtain ⟨a1, a2, q, a3, a4⟩ := ih h _ p hp i op l r hpe hk
      exact ⟨a1, a2, q, List.mem_cons_of_mem _ a3, a4⟩
  | bin j op' l' r' ihl ihr =>
    intro h sl p hp i op l r hpe hk
    rcases List.mem_cons.mp hp with rfl | hp
    · simp only [Ex.bin.injEq] at hpe
      obtain ⟨rfl, rfl, rfl, rfl⟩ := hpe
      exact ⟨(h.1 hk).1, (h.1 hk).2, _, List.mem_cons_of_mem _ (List.mem_append_left _ (mem_occs_self _ _)), rfl⟩
    · rcases List.mem_append.mp hp with hp | hp
      · obtain ⟨a1, a2, q, a3, a4⟩ := ihl h.2.1 _ p hp i op l r hpe hk
        exact ⟨a1, a2, q, List.mem_cons_of_mem _ (List.mem_append_left _ a3), a4⟩
      · obtain ⟨a1, a2, q, a3, a4⟩ := ihr h.2.2 _ p hp i op l r hpe hk
        exact ⟨a1, a2, q, List.mem_cons_of_mem _ (List.mem_append_right _ a3), a4⟩

theorem tidy_of_distinct {e : Ex ℝ} (hn : (ids e).Nodup) (hb : NoBase kind e) : Tidy kind e := by
  intro p hp i op l r hpe hk
  obtain ⟨h1, h2, q, h3, rfl⟩ := noBase_occs e hb none p hp i op l r hpe hk
  obtain ⟨a, ha⟩ := Option.ne_none_iff_exists'.mp h2
  refine ⟨h1, a, ha, fun q' hq' hi => ?_⟩
  rw [occ_unique hn hq' h3 hi ha]

/-- C100, in general: an expression in which no operator occurs twice and no place holder or variable is the left operand of a `plus`
has its value, and nothing bound is written. -/
theorem distinct_keeps_partial (e : Ex ℝ) (s : HSt ℝ) (hl : Layout (ids e) L D s) (hn : (ids e).Nodup) (hb : NoBase kind e) (hv : Valued L D e) :
    ∃ x s' y, eval L D e = ok y ∧ hrun kind e s = ok (x, s') ∧ denote s'.heap x = some y ∧ s'.leafT = s.leafT ∧ s'.varT = s.varT ∧
      (∀ k, denote s'.heap (s'.leafT k) = some (L k)) ∧ ∀ v, denote s'.heap (s'.varT v) = some (D v) := by
  obtain ⟨y, hy, _⟩ := valued_plain e hv none _ (mem_occs_self e none)
  obtain ⟨x, s', h1, h2, h3, h4, h5, h6⟩ := run_shared_storage_partial kind e L D s hl (distinct_consistent hn).1 (fun p hp y hy => by
    obtain ⟨z, hz, hs⟩ := valued_plain e hv none p hp
    rw [hz] at hy
    cases hy
    exact hs) (tidy_of_distinct hn hb) y hy
  exact ⟨x, s', y, hy, h1, h2, h5, h6, by rw [h5]; exact h3, by rw [h6]; exact h4⟩

theorem Ev.sound {e : Ex ℝ} {s : List Nat} {a : List Nat → ℝ} (h : Ev L D e s a) (hz : size s ≠ 0) (hm : s.getLast? ≠ some Tensor.minusOne) :
    ∃ y, eval L D e = ok y ∧ Sound y := let ⟨x, h1, h2⟩ := h; ⟨x, h1, sound_of hz hm h2⟩

theorem scalar_sound {e : Ex ℝ} {v : ℝ} (h : eval L D e = ok ⟨[1], [v]⟩) : ∃ y, eval L D e = ok y ∧ Sound y :=
  ⟨_, h, by simp, rfl, by simp [Tensor.minusOne]⟩

theorem Fits1.last {K : Kit} {s : List Nat} (h : Fits1 K s) : s.getLast? ≠ some Tensor.minusOne := h.fits.ml

variable {K : Kit} {l r : Ex ℝ} {sh : List Nat} {a b : List Nat → ℝ} {s : HSt ℝ}

/-- C100 for `cross_entropy`, of anything: the labels may be a place holder. -/
theorem cross_entropy_keeps_partial (i : Nat) (hk : ∀ j, i ≤ j → j ≤ i + 3 → kind j ≠ .plus) (hl : Ev L D l sh a) (hr : Ev L D r sh b) (hf : Fits1 K sh)
    (vl : Valued L D l) (vr : Valued L D r) (bl : NoBase kind l) (br : NoBase kind r) (hn : (ids (crossEntropy K i l r)).Nodup)
    (hs : Layout (ids (crossEntropy K i l r)) L D s) :
    ∃ x s', hrun kind (crossEntropy K i l r) s = ok (x, s') ∧ denote s'.heap x = some ⟨[1], [-sumIdx sh (fun is => a is * Real.log (b is))]⟩ ∧
      s'.leafT = s.leafT ∧ s'.varT = s.varT ∧ (∀ k, denote s'.heap (s'.leafT k) = some (L k)) ∧ ∀ v, denote s'.heap (s'.varT v) = some (D v) := by
  obtain ⟨x, s', y, h1, h2, h3, h4⟩ := distinct_keeps_partial (kind := kind) (crossEntropy K i l r) s hs hn
    ⟨fun h => absurd h (hk (i + 1) (by omega) (by omega)), bl, br⟩
    ⟨scalar_sound (cross_entropy_value (K := K) hl hr hf.pos i), (crossEntropy_ev hl hr hf.pos i).sound (by simp) (by simp [Tensor.minusOne]),
      (hl.had (hr.el i .log) hf.pos (i + 1)).sound hf.pos hf.last, vl, (hr.el i .log).sound hf.pos hf.last, vr⟩
  rw [cross_entropy_value (K := K) hl hr hf.pos i] at h1
  cases h1
  exact ⟨x, s', h2, h3, h4⟩

/-- C100 for the differences: `squared_loss`, `mean_squared_error`, `abs_loss` and `mean_absolute_error` (`f` and `op`), if the labels are neither a place
holder nor a variable. -/
theorem difference_keeps_partial (i : Nat) (f : EOp) (op : UOp ℝ) {v : ℝ} (hl : Ev L D l sh a) (hr : Ev L D r sh b) (hf : Fits1 K sh)
    (hval : eval L D (.un (i + 3) op (el K (i + 2) f (minusE K i l r))) = ok ⟨[1], [v]⟩) (hlid : l.id? ≠ none)
    (vl : Valued L D l) (vr : Valued L D r) (bl : NoBase kind l) (br : NoBase kind r) (hn : (ids (.un (i + 3) op (el K (i + 2) f (minusE K i l r)))).Nodup)
    (hs : Layout (ids (.un (i + 3) op (el K (i + 2) f (minusE K i l r)))) L D s) :
    ∃ x s', hrun kind (.un (i + 3) op (el K (i + 2) f (minusE K i l r))) s = ok (x, s') ∧ denote s'.heap x = some ⟨[1], [v]⟩ ∧
      s'.leafT = s.leafT ∧ s'.varT = s.varT ∧ (∀ k, denote s'.heap (s'.leafT k) = some (L k)) ∧ ∀ v, denote s'.heap (s'.varT v) = some (D v) := by
  have hm := hl.minus (K := K) hr hf.fits i
  obtain ⟨x, s', y, h1, h2, h3, h4⟩ := distinct_keeps_partial (kind := kind) _ s hs hn
    ⟨fun _ => ⟨rfl, hlid⟩, bl, br⟩
    ⟨scalar_sound hval, (hm.el (i + 2) f).sound hf.pos hf.last, hm.sound hf.pos hf.last, vl, (hr.el i .negative).sound hf.pos hf.last, vr⟩
  rw [hval] at h1
  cases h1
  exact ⟨x, s', h2, h3, h4⟩

/-- C100 for `hinge_loss`, of anything. -/
theorem hinge_keeps_partial (i : Nat) (hk : kind i ≠ .plus) (hl : Ev L D l sh a) (hr : Ev L D r sh b) (hf : Fits1 K sh)
    (vl : Valued L D l) (vr : Valued L D r) (bl : NoBase kind l) (br : NoBase kind r) (hn : (ids (hinge K i l r)).Nodup) (hs : Layout (ids (hinge K i l r)) L D s) :
    ∃ x s', hrun kind (hinge K i l r) s = ok (x, s') ∧ denote s'.heap x = some ⟨[1], [sumIdx sh (fun is => max 0 (1 - a is * b is)) / (size sh : ℝ)]⟩ ∧
      s'.leafT = s.leafT ∧ s'.varT = s.varT ∧ (∀ k, denote s'.heap (s'.leafT k) = some (L k)) ∧ ∀ v, denote s'.heap (s'.varT v) = some (D v) := by
  have h0 := hl.had (K := K) hr hf.pos i
  have hn1 := h0.el (K := K) (i + 1) .negative
  have hv := hn1.valuePlus hf 1 (i + 2)
  obtain ⟨x, s', y, h1, h2, h3, h4⟩ := distinct_keeps_partial (kind := kind) (hinge K i l r) s hs hn
    ⟨fun h => absurd h hk, bl, br⟩
    ⟨scalar_sound (hinge_value (K := K) hl hr hf i), (hv.valueMax (K := K) 0 (i + 3)).sound hf.pos hf.last, hv.sound hf.pos hf.last, hn1.sound hf.pos hf.last,
      h0.sound hf.pos hf.last, vl, vr⟩
  rw [hinge_value (K := K) hl hr hf i] at h1
  cases h1
  exact ⟨x, s', h2, h3, h4⟩

/-- C100 for `mean_squared_logarithmic_error`, of anything. -/
theorem msle_keeps_partial (i : Nat) (top : ℝ) (hl : Ev L D l sh a) (hr : Ev L D r sh b) (hf : Fits1 K sh)
    (vl : Valued L D l) (vr : Valued L D r) (bl : NoBase kind l) (br : NoBase kind r) (hn : (ids (msle K top i l r)).Nodup) (hs : Layout (ids (msle K top i l r)) L D s) :
    ∃ x s', hrun kind (msle K top i l r) s = ok (x, s') ∧
      denote s'.heap x = some ⟨[1], [sumIdx sh (fun is => (Real.log (1 + max epsC (min (a is) top)) - Real.log (1 + max epsC (min (b is) top))) ^ 2)]⟩ ∧
      s'.leafT = s.leafT ∧ s'.varT = s.varT ∧ (∀ k, denote s'.heap (s'.leafT k) = some (L k)) ∧ ∀ v, denote s'.heap (s'.varT v) = some (D v) := by
  have hll := logOf_ev hl hf top i
  have hlr := logOf_ev hr hf top (i + 3)
  have vlog : ∀ (e : Ex ℝ) (c : List Nat → ℝ) (j : Nat), Ev L D e sh c → Valued L D e → Valued L D (logOf K top j e) := fun e c j he hv =>
    ⟨(logOf_ev he hf top j).sound hf.pos hf.last, ((he.el j (.clip epsC top)).valuePlus hf 1 (j + 1)).sound hf.pos hf.last, (he.el j (.clip epsC top)).sound hf.pos hf.last, hv⟩
  have hm := hll.minus (K := K) hlr hf.fits (i + 6)
  obtain ⟨x, s', y, h1, h2, h3, h4⟩ := distinct_keeps_partial (kind := kind) (msle K top i l r) s hs hn
    ⟨fun _ => ⟨rfl, by simp [logOf, el, Ex.id?]⟩, bl, br⟩
    ⟨scalar_sound (msle_value (K := K) hl hr hf top i), (hm.el (i + 8) .square).sound hf.pos hf.last, hm.sound hf.pos hf.last, vlog l a i hl vl,
      (hlr.el (i + 6) .negative).sound hf.pos hf.last, vlog r b (i + 3) hr vr⟩
  rw [msle_value (K := K) hl hr hf top i] at h1
  cases h1
  exact ⟨x, s', h2, h3, h4⟩

/-! ## Networks on shared storages -/

/-- Networks of dense layers: none of their `plus` has a place holder or a variable on the left. -/
theorem mlp_noBase (ls : List Layer) : ∀ (i : Nat) (e : Ex ℝ), (∀ j, i ≤ j → j % 3 = i % 3 → kind j ≠ .plus) → NoBase kind e → NoBase kind (mlp K ls i e) := by
  induction ls with
  | nil => intro i e _ h; exact h
  | cons y ys ih =>
    intro i e hk h
    refine ih (i + 3) _ (fun j hj hm => hk j (by omega) (by omega)) ?_
    have hd : NoBase kind (dense K i y.w y.b y.cw y.cb e) := ⟨fun _ => ⟨rfl, by simp [Ex.id?]⟩, ⟨fun h' => absurd h' (hk i (le_refl _) rfl), h, trivial⟩, trivial⟩
    cases hy : y.act with
    | none => exact hd
    | some op => exact hd

theorem mlp_valued {m : Nat} (hf : NetFits K m) (ls : List Layer) : ∀ (k i : Nat) (e : Ex ℝ) (x : List Nat → ℝ), 0 < k → Built D ls k → Ev L D e [m, k] x → Valued L D e →
    Valued L D (mlp K ls i e) := by
  induction ls with
  | nil => intro k i e x _ _ _ hv; exact hv
  | cons y ys ih =>
    intro k i e x hk hb he hv
    obtain ⟨h1, h2, h3, h4, h5, h6, h7⟩ := hb
    have hfit : DenseFits K m k y.units := ⟨hf.reduces, hf.fuel, hf.m0, hk, h5, hf.m1, h6⟩
    have hd := dense_value (K := K) he (h2 ▸ h1.has) (h4 ▸ h3.has) hfit y.cw y.cb i
    have hm := ev_matmul (K := K) he (h2 ▸ h1.has) hfit y.cw i
    have hz : size [m, y.units] ≠ 0 := by simp only [size_cons, size_nil, mul_one]; exact (Nat.mul_pos hf.m0 h5).ne'
    have h6' : y.units ≠ Tensor.minusOne := h6
    have hlst : [m, y.units].getLast? ≠ some Tensor.minusOne := by simpa using h6'
    have hw : ∃ z, eval L D (.var y.w y.cw) = ok z ∧ Sound z := ⟨_, rfl, (data_ne_nil (h2 ▸ h1.has)).mpr (by simp only [size_cons, size_nil, mul_one]; exact (Nat.mul_pos hk h5).ne'), h1,
      by rw [h2]; simpa using h6'⟩
    have hbv : ∃ z, eval L D (.var y.b y.cb) = ok z ∧ Sound z := ⟨_, rfl, (data_ne_nil (h4 ▸ h3.has)).mpr (by simp only [size_cons, size_nil, mul_one]; omega), h3,
      by rw [h4]; simpa using h6'⟩
    have hdv : Valued L D (dense K i y.w y.b y.cw y.cb e) := ⟨hd.sound hz hlst, ⟨hm.sound hz hlst, hv, hw⟩, hbv⟩
    refine ih y.units (i + 3) _ _ h5 h7 (hd.act (i + 2) y.act) ?_
    cases hy : y.act with
    | none => exact hdv
    | some op => exact ⟨(hd.el (i + 2) op).sound hz hlst, hdv⟩

/-- C101 on shared storages: running a network of any depth on a place holder gives its outputs, and keeps inputs, weights and biases. -/
theorem mlp_run {m k inp : Nat} (hf : NetFits K m) (ls : List Layer) (hk0 : 0 < k) (hk1 : k ≠ minusOne) (hb : Built D ls k) (hi : (L inp).WF ∧ (L inp).shape = [m, k])
    (hkind : ∀ j, j % 3 = 0 → kind j ≠ .plus) (hs : Layout (ids (mlp K ls 0 (.leaf inp))) L D s) :
    ∃ x s' y, hrun kind (mlp K ls 0 (.leaf inp)) s = ok (x, s') ∧ denote s'.heap x = some y ∧
      y.Has [m, outputs ls k] (fun is => net D ls k (fun p => (L inp).at [is[0]?.getD 0, p]) (is[1]?.getD 0)) ∧
      s'.leafT = s.leafT ∧ s'.varT = s.varT ∧ (∀ k, denote s'.heap (s'.leafT k) = some (L k)) ∧ ∀ v, denote s'.heap (s'.varT v) = some (D v) := by
  have hz : size [m, k] ≠ 0 := by simp only [size_cons, size_nil, mul_one]; exact (Nat.mul_pos hf.m0 hk0).ne'
  have hne : (L inp).data ≠ [] := (data_ne_nil (hi.2 ▸ hi.1.has)).mpr hz
  have he : Ev L D (.leaf inp) [m, k] (L inp).at := by have := ev_leaf (D := D) hi.1 hne; rwa [hi.2] at this
  obtain ⟨x, s', y, h1, h2, h3, h4⟩ := distinct_keeps_partial (kind := kind) (mlp K ls 0 (.leaf inp)) s hs (mlp_ids ls 0 _ (by simp [ids]) (by simp [ids])).1
    (mlp_noBase ls 0 _ (fun j _ hj => hkind j (by omega)) trivial) (mlp_valued hf ls k 0 _ _ hk0 hb he (he.sound hz (by simpa using (show k ≠ Tensor.minusOne from hk1))))
  obtain ⟨z, hz1, hz2⟩ := mlp_value hf ls k 0 _ _ hk0 hb he
  rw [hz1] at h1
  cases h1
  exact ⟨x, s', _, h2, h3, hz2, h4⟩

end

/-! ## Examples -/

theorem eval_leaf_sound {k : Nat} (h : Sound (L k)) : Valued L D (.leaf k) := ⟨_, by rw [eval, assert_true h.1]; rfl, h⟩

theorem fits2 : Fits1 kit0 [2] := ⟨fits0.reduces, by simp, by simp [minusOne], by simp [minusOne], by simp [kit0], by simp [size]⟩

/-- Labels 1 and predictions 1/2; operator `i` has its cache in storage `i + 2`. -/
def stKeep : HSt ℝ := ⟨[[1, 1], [1/2, 1/2], [], [], [], [], []], fun _ => ⟨[2], 0⟩, fun _ => ⟨[2], 1⟩, fun i => i + 2, fun _ => none⟩

theorem stKeep_layout {I : List Nat} (h : ∀ i ∈ I, i < 5) : Layout I (fun _ => (⟨[2], [1, 1]⟩ : Ten ℝ)) (fun _ => ⟨[2], [1/2, 1/2]⟩) stKeep := by
  refine ⟨fun _ => rfl, fun _ => rfl, fun i hi => ?_, fun i hi j hj => by simp [stKeep], fun i hi => by simp [stKeep, Prot]⟩
  have := h i hi
  simp [stKeep]
  omega

theorem soundTwo (x y : ℝ) : Sound (⟨[2], [x, y]⟩ : Ten ℝ) := ⟨by simp, rfl, by simp [Tensor.minusOne]⟩

/-- `cross_entropy` of labels 1 and predictions 1/2 (twice) is 2 log 2, and the labels are still 1. -/
example : ∃ x s', hrun (kindOf [] [0]) (crossEntropy kit0 0 (.leaf 0) (.var 0 cfgL)) stKeep = ok (x, s') ∧ denote s'.heap x = some ⟨[1], [2 * Real.log 2]⟩ ∧
    denote s'.heap (s'.leafT 0) = some ⟨[2], [1, 1]⟩ := by
  obtain ⟨x, s', h1, h2, _, _, h3, _⟩ := cross_entropy_keeps_partial (kind := kindOf [] [0]) (K := kit0) (L := fun _ => (⟨[2], [1, 1]⟩ : Ten ℝ)) (D := fun _ => ⟨[2], [1/2, 1/2]⟩)
    (l := .leaf 0) (r := .var 0 cfgL) 0 (fun j h1 h2 => by simp only [kindOf, List.not_mem_nil, if_false]; split <;> simp) ⟨_, by rw [eval, assert_true (by simp)]; rfl, replicate_has [2] 1⟩
    ⟨_, rfl, replicate_has [2] (1/2)⟩ fits2 (eval_leaf_sound (soundTwo 1 1)) ⟨_, rfl, soundTwo _ _⟩ trivial trivial (by simp [crossEntropy, el, hadE, ids])
    (stKeep_layout (by simp [crossEntropy, el, hadE, ids]))
  refine ⟨x, s', h1, ?_, h3 0⟩
  rw [h2]
  simp [sumIdx]

/-- `mean_squared_error` of `2 label` and the prediction: `(2 - 1/2)^2`, and the labels are still 1. -/
example : ∃ x s', hrun (kindOf [1] []) (mse kit0 0 (el kit0 4 (.mulC 2) (.leaf 0)) (.var 0 cfgL)) stKeep = ok (x, s') ∧ denote s'.heap x = some ⟨[1], [9/4]⟩ ∧
    denote s'.heap (s'.leafT 0) = some ⟨[2], [1, 1]⟩ := by
  have e1 : Ev (fun _ => (⟨[2], [1, 1]⟩ : Ten ℝ)) (fun _ => ⟨[2], [1/2, 1/2]⟩) (.leaf 0) [2] (fun _ => 1) := ⟨_, by rw [eval, assert_true (by simp)]; rfl, replicate_has [2] 1⟩
  have e2 := e1.el (K := kit0) 4 (.mulC 2)
  have e3 : Ev (fun _ => (⟨[2], [1, 1]⟩ : Ten ℝ)) (fun _ => ⟨[2], [1/2, 1/2]⟩) (.var 0 cfgL) [2] (fun _ => 1/2) := ⟨_, rfl, replicate_has [2] (1/2)⟩
  obtain ⟨x, s', h1, h2, _, _, h3, _⟩ := difference_keeps_partial (kind := kindOf [1] []) (K := kit0) 0 .square opMean e2 e3 fits2
    (mse_value e2 e3 fits2.fits 0) (by simp [el, Ex.id?]) ⟨e2.sound (by simp [size]) (by simp [Tensor.minusOne]), eval_leaf_sound (soundTwo 1 1)⟩ ⟨_, rfl, soundTwo _ _⟩ trivial trivial
    (by simp [el, minusE, plusE, ids]) (stKeep_layout (by simp [el, minusE, plusE, ids]))
  refine ⟨x, s', h1, ?_, h3 0⟩
  rw [h2]
  simp [sumIdx, size, EOp.fwd]
  norm_num

/-- The network of `DenseExamples` on storages: inputs, four variables, and the caches of the operators. -/
def stNetHeap : HSt ℝ where
  heap := [[1, 1], [15], [1, 2, 3, 4], [1, -1], [1, 2], [1/2], [], [], [], [], []]
  leafT k := if k = 0 then ⟨[1, 2], 0⟩ else ⟨[1, 1], 1⟩
  varT v := if v = 0 then ⟨[2, 2], 2⟩ else if v = 1 then ⟨[1, 2], 3⟩ else if v = 2 then ⟨[2, 1], 4⟩ else ⟨[1, 1], 5⟩
  opc i := i + 6
  cache _ := none

example : ∃ x s' y, hrun (kindOf [1, 4] [0, 2, 3]) (mlp kit0 layersNet 0 (.leaf 0)) stNetHeap = ok (x, s') ∧ denote s'.heap x = some y ∧ y.at [0, 0] = 31/2 ∧
    denote s'.heap (s'.varT 0) = some ⟨[2, 2], [1, 2, 3, 4]⟩ := by
  obtain ⟨x, s', y, h1, h2, h3, _, _, _, h4⟩ := mlp_run (kind := kindOf [1, 4] [0, 2, 3]) (L := stNet.leaf) (inp := 0) (s := stNetHeap) netState0.fits layersNet netState0.k0 netState0.k1 netState0.built ⟨rfl, rfl⟩
    (fun j hj => by
      have h1 : j ≠ 1 := by omega
      have h4 : j ≠ 4 := by omega
      simp only [kindOf, List.mem_cons, List.not_mem_nil, h1, h4, or_self, if_false]
      split <;> simp)
    (by
      refine ⟨fun k => ?_, fun v => ?_, fun i hi => ?_, fun i hi j hj => by simp [stNetHeap], fun i hi hp => ?_⟩
      · by_cases h : k = 0 <;> simp [stNetHeap, stNet, h, denote]
      · by_cases h0 : v = 0
        · simp [stNetHeap, stNet, h0, denote]
        · by_cases h1 : v = 1
          · simp [stNetHeap, stNet, h1, denote]
          · by_cases h2 : v = 2 <;> simp [stNetHeap, stNet, h0, h1, h2, denote]
      · simp [mlp, layersNet, actE, el, dense, plusE, ids] at hi
        simp [stNetHeap]
        omega
      · rcases hp with ⟨k, hk⟩ | ⟨v, hv⟩
        · simp only [stNetHeap] at hk
          split at hk <;> simp at hk
        · simp only [stNetHeap] at hv
          split_ifs at hv <;> simp at hv)
  refine ⟨x, s', y, h1, h2, ?_, ?_⟩
  · rw [h3.at_eq (by simp [layersNet, outputs, ValidIdx])]
    simp [layersNet, net, actF, EOp.fwd, Finset.sum_range_succ, stNet, Ten.at, flat, size]
    norm_num
  · exact h4 0

end
end Verif.Loss
