import Verif.Runs.Props
import Verif.Descent.Net
import Verif.Train.Net
/-!
# Property C113: networks

`fit` on shared storages is descent, for networks of any layers but max pooling.
-/
namespace Verif.Runs
open Verif Res View Data Ops Graph Loss Optim Fit Train Descent Net
open Verif.Alias (denote_some denote_congr readT readT_ok)
open Verif.Net (Kind)
open Verif.Tensor (Tn)

noncomputable section

/-! ### the optimizers -/

theorem sgd_opt (eps : ℝ) : sgdOpt.step eps = Sgd.step eps := rfl
theorem adagrad_opt (eps : ℝ) : (adagradOpt eps).step eps = adagradStep eps := rfl
theorem rmsprop_opt (eps : ℝ) : (rmspropOpt eps).step eps = Rmsprop.step eps := rfl
theorem adadelta_opt (eps : ℝ) : (adadeltaOpt eps).step eps = Adadelta.step eps := rfl
theorem adam_opt (eps : ℝ) : (adamOpt eps).step eps = Adam.step eps := rfl
theorem gd_opt (eps : ℝ) : gdOpt.step eps = Gd.step eps := rfl

theorem updateVar_reg {rule : Rule} {s s' : OSt} {p : Nat × Bool} (h : updateVar rule s p = ok s') : s'.reg = s.reg := by
  unfold updateVar at h
  split at h
  · obtain ⟨⟨d, g, c⟩, _, h⟩ := bind_eq_ok.mp h
    simp only [pure_eq, ok.injEq] at h
    rw [← h]
  · cases h; rfl

theorem foldl_reg {rule : Rule} (ps : List (Nat × Bool)) : ∀ {s s' : OSt}, ps.foldlM (updateVar rule) s = ok s' → s'.reg = s.reg := by
  induction ps with
  | nil => intro s s' h; rw [List.foldlM_nil, pure_eq] at h; cases h; rfl
  | cons p ps ih =>
    intro s s' h
    rw [List.foldlM_cons] at h
    obtain ⟨s1, h1, h2⟩ := bind_eq_ok.mp h
    exact (ih h2).trans (updateVar_reg h1)

theorem step_reg {O : Type} {m : Opt O} {eps : ℝ} {e : Ex ℝ} {o o' : O} {s s' : OSt} (h : m.step eps e o s = ok (o', s')) : s'.reg = s.reg := by
  unfold Opt.step backprop at h
  simp only [bind_eq_ok, pure_eq, ok.injEq, Prod.mk.injEq] at h
  obtain ⟨s1, ⟨st, _, rfl⟩, s2, h2, _, rfl⟩ := h
  exact foldl_reg s.reg (rule := m.rule o) (s := { s with st := st }) h2

section
variable {κ O : Type} {M : Prog κ O} {U I X : List Nat} {inT outT : Tn} {inputs outputs : Ten ℝ} {bs n n' : Nat} {a b : List Nat} {XI YO : List Nat → ℝ}
  {law : Law} {J : Nat → O → Prop} {Mm : List (Ten ℝ) → List Nat → (List Nat → ℝ × ℝ) → Prop} {Q : κ → Prop}

/-- C113. Where `fit` by value is descent (C111), `fit` on shared storages is descent. -/
theorem fit_shared_descends (hm : Moves M.eps (M.opt.step M.eps) law J Mm) {V : List Nat} {k : ℝ} {p : Point} {F : Nat → (Nat → Ten ℝ) → ℝ} {epochs : Nat}
    (hbs : 0 < bs) (hi : inputs.Has (n :: a) XI) (ho : outputs.Has (n' :: b) YO) (hn : n ≤ n') (hne : M.inp ≠ M.gt)
    (hl : ∀ t, t < epochs * (n / bs) → Learns M.eps M.loss (fun q st => M.adv q st.leaf st.data) Q V M.inp M.gt k (batch inputs bs (t % (n / bs))) (batch outputs bs (t % (n / bs)))
      (path V law k F p t).w (F t))
    {q : κ} {o : O} {s : HO} {os : OSt} (hs : Along Q V J Mm 0 p (M.byValue.phase true (q, o, os)))
    (hr : ∀ ep l s, ep < epochs → l < n / bs → Along Q V J Mm (ep * (n / bs) + l) (path V law k F p (ep * (n / bs) + l)) s → s.2.2.reg = os.reg →
      Runs.Ready M U I (M.byValue.bind (batch inputs bs l) (batch outputs bs l) s))
    (h : Rel U I [] X s os) (hX : inT.loc ∈ X) (hX' : outT.loc ∈ X) (hdi : denote s.t.heap inT = some inputs) (hdo : denote s.t.heap outT = some outputs) (hVU : ∀ v ∈ V, v ∈ U) :
    ∃ g, hfit M inT outT bs epochs 0 (q, o, s) = ok g ∧
      (∀ v ∈ V, denote g.s.2.2.t.heap (g.s.2.2.t.varT v) = some ((path V law k F p (epochs * (n / bs))).w v)) ∧
      g.log = (List.range epochs).flatMap (fun ep => epochLog (batch inputs bs) (batch outputs bs)
        (fun l => F (ep * (n / bs) + l) (path V law k F p (ep * (n / bs) + l)).w) (fun _ => true) (n / bs)) ∧
      g.trainErr = (List.range epochs).map (fun ep => (∑ l ∈ Finset.range (n / bs), F (ep * (n / bs) + l) (path V law k F p (ep * (n / bs) + l)).w) / ((n / bs : Nat) : ℝ)) ∧
      (∀ q ∈ X, g.s.2.2.t.heap[q]? = s.t.heap[q]?) ∧ ∃ os', Rel U I [M.inp, M.gt] X g.s.2.2 os' := by
  have hT : trainingLoops 0 (n / bs) = n / bs := by unfold trainingLoops; simp
  obtain ⟨f, f1, f2, f3, f4⟩ := fit_descends hm hbs hi ho hn hne hl hs
  have hmod : ∀ ep l, l < n / bs → (ep * (n / bs) + l) % (n / bs) = l := fun ep l hl => by rw [Nat.mul_comm, Nat.mul_add_mod, Nat.mod_eq_of_lt hl]
  obtain ⟨g, g1, g2, g3, g4, g5, g6, g7, g8, g9⟩ := fit_shared (M := M) (U := U) (I := I) (X := X) (inT := inT) (outT := outT) (bs := bs) (epochs := epochs) (split := 0) hi ho hn hne h hX hX' hdi hdo
    (P := fun t s => Along Q V J Mm t (path V law k F p t) s ∧ s.2.2.reg = os.reg)
    ⟨fun ep l s hep hl hP => hr ep l s hep hl hP.1 hP.2, fun ep l s y s1 s2 hep hlt _ hP h1 h2 => by
      have hin : ep * (n / bs) + l < epochs * (n / bs) := by
        calc ep * (n / bs) + l < ep * (n / bs) + n / bs := by omega
          _ = (ep + 1) * (n / bs) := by ring
          _ ≤ epochs * (n / bs) := Nat.mul_le_mul_right _ hep
      have hl' := hl _ hin
      rw [hmod ep l hlt] at hl'
      obtain ⟨s1', s2', j1, j2, j3⟩ := batch_step hm hl' hne hP.1
      have e1 : M.byValue.loss (M.byValue.bind (batch inputs bs l) (batch outputs bs l) s) = ok (_, s1') := j1
      rw [h1] at e1
      cases e1
      have e2 : M.byValue.step s1 = ok s2' := j2
      rw [h2] at e2
      cases e2
      refine ⟨j3, ?_⟩
      have h1 : (run (M.loss s.1) _ >>= fun r => pure (r.1, (s.1, s.2.1, { s.2.2 with st := r.2 }))) = ok (_, s1) := h1
      obtain ⟨r, _, h1⟩ := bind_eq_ok.mp h1
      simp only [pure_eq, ok.injEq, Prod.mk.injEq] at h1
      obtain ⟨_, rfl⟩ := h1
      have h2 : (M.adv _ _ _ >>= fun q' => M.opt.step M.eps (M.loss s.1) s.2.1 { s.2.2 with st := r.2 } >>= fun r => pure (q', r.1, r.2)) = ok s2 := h2
      obtain ⟨q', _, h2⟩ := bind_eq_ok.mp h2
      obtain ⟨⟨o', os2⟩, a2, h2⟩ := bind_eq_ok.mp h2
      simp only [pure_eq, ok.injEq] at h2
      subst h2
      exact (step_reg a2).trans hP.2,
    fun ep l s y s1 hep hl hT' => by rw [hT] at hT'; omega⟩
    (fun x y => ⟨hs.bind (step := M.opt.step M.eps) M.loss (fun q st => M.adv q st.leaf st.data) M.inp M.gt x y, rfl⟩) f1
  refine ⟨g, g1, fun v hv => ?_, g2.trans f3, g3.trans f4, g8, _, g7⟩
  rw [g7.var v (hVU v hv), f2.weights v hv]

end

/-! ### networks -/

/-- A compiled network: `nk` says what becomes of the contents of caches. -/
def netProg {O : Type} (E : Kit → Nat → Ex ℝ → Ex ℝ → Ex ℝ) (nk : Kit → Kit) (s : List Nat) (inp gt : Nat) (fk : Nat → FKind) (bk : Nat → Bool → BKind) (eps : ℝ) (opt : Opt O) :
    Prog (Kit × List Kind) O :=
  ⟨netLoss E s inp gt, fun q L D => do
    let r ← netLeaves q.1 L D q.2 0 s (.leaf inp)
    pure (nk q.1, r), fk, bk, eps, inp, gt, opt⟩

/-- What is asked of a loss for place holder `gt` and outputs `r`, apart from `NetLoss`. -/
structure Shares (fk : Nat → FKind) (E : Kit → Nat → Ex ℝ → Ex ℝ → Ex ℝ) (i : Nat) (s' : List Nat) : Prop where
  ids : ∀ K l r, (Graph.ids r).Nodup → (∀ j ∈ Graph.ids r, j < i) → (Graph.ids (E K i (.leaf l) r)).Nodup ∧ ∀ j ∈ Graph.ids (E K i (.leaf l) r), j < i + 4
  safe : ∀ K l r, Safe fk r → l ∉ Train.leaves r → Safe fk (E K i (.leaf l) r)
  sound : ∀ (K : Kit) (l : Nat) (r : Ex ℝ) (L D : Nat → Ten ℝ) (a b : List Nat → ℝ), Fits1 K s' → Ev L D (.leaf l) s' a → Ev L D r s' b → Train.Sound fk L D r →
    Train.Sound fk L D (E K i (.leaf l) r)
  killed : ∀ K l r k, k ∈ Train.killed fk (E K i (.leaf l) r) → k ∈ Train.killed fk r ∨ k = l
  leaves : ∀ K l r k, k ∈ Train.leaves (E K i (.leaf l) r) → k ∈ Train.leaves r ∨ k = l
  ends : ∀ K l r, endOf fk (E K i (.leaf l) r) = .op

/-- The kinds of the operators of `squared_loss` and `mean_squared_error`: `negative`, `plus`, `square` and `reduce_sum` or `mean_reduce`. -/
def LossKinds (fk : Nat → FKind) (i : Nat) : Prop := fk i ≠ .share ∧ fk (i + 2) ≠ .share ∧ fk (i + 3) ≠ .share

theorem squared_shares {fk : Nat → FKind} {i : Nat} {s' : List Nat} (h : LossKinds fk i) : Shares fk squaredLoss i s' := by
  obtain ⟨hk0, hk2, hk3⟩ := h
  refine ⟨fun K l r h1 h2 => ?_, fun K l r h1 h2 => ?_, fun K l r L D a b hf e1 e3 h1 => ?_, fun K l r k hk => ?_, fun K l r k hk => ?_, fun K l r => if_neg hk3⟩
  · have hn : ∀ j, i ≤ j → j ∉ ids r := fun j hj hm => absurd (h2 j hm) (by omega)
    simp only [squaredLoss, el, minusE, plusE, ids, List.nil_append, List.nodup_cons, List.mem_cons, not_or]
    refine ⟨⟨⟨by omega, by omega, by omega, hn _ (by omega)⟩, ⟨by omega, by omega, hn _ (by omega)⟩, ⟨by omega, hn _ (by omega)⟩, hn _ (by omega), h1⟩, ?_⟩
    rintro j (h | h | h | h | h)
    · omega
    · omega
    · omega
    · omega
    · have := h2 j h
      omega
  · refine ⟨⟨⟨trivial, ⟨h1, fun h' => absurd h' hk0⟩, fun k hk' => by simp [Train.killed] at hk', fun k hk' => ?_, fun _ => ⟨pluses _ _, trivial, fun k hk' => ?_⟩⟩,
      fun h' => absurd h' hk2⟩, fun h' => absurd h' hk3⟩
    · simp only [Train.leaves, List.mem_singleton]
      rintro rfl
      exact h2 (killed_leaves r hk')
    · simp only [endOf, End.leaf.injEq] at hk'
      subst hk'
      exact h2
  · exact ⟨⟨⟨trivial, ⟨h1, fun h' => absurd h' hk0⟩, fun _ => plus_sound e1 (e3.el i .negative) hf.fits⟩, fun h' => absurd h' hk2⟩, fun h' => absurd h' hk3⟩
  · simp only [squaredLoss, el, minusE, plusE, Train.killed, endOf, List.nil_append, List.mem_append] at hk
    rcases hk with h | h
    · exact Or.inl h
    · split at h
      · simp at h; exact Or.inr h
      · simp at h
  · simp only [squaredLoss, el, minusE, plusE, Train.leaves, List.mem_append, List.mem_singleton] at hk
    exact hk.symm

theorem mse_shares {fk : Nat → FKind} {i : Nat} {s' : List Nat} (h : LossKinds fk i) : Shares fk mse i s' := by
  obtain ⟨hk0, hk2, hk3⟩ := h
  refine ⟨fun K l r h1 h2 => ?_, fun K l r h1 h2 => ?_, fun K l r L D a b hf e1 e3 h1 => ?_, fun K l r k hk => ?_, fun K l r k hk => ?_, fun K l r => if_neg hk3⟩
  · have hn : ∀ j, i ≤ j → j ∉ ids r := fun j hj hm => absurd (h2 j hm) (by omega)
    simp only [mse, el, minusE, plusE, ids, List.nil_append, List.nodup_cons, List.mem_cons, not_or]
    refine ⟨⟨⟨by omega, by omega, by omega, hn _ (by omega)⟩, ⟨by omega, by omega, hn _ (by omega)⟩, ⟨by omega, hn _ (by omega)⟩, hn _ (by omega), h1⟩, ?_⟩
    rintro j (h | h | h | h | h)
    · omega
    · omega
    · omega
    · omega
    · have := h2 j h
      omega
  · refine ⟨⟨⟨trivial, ⟨h1, fun h' => absurd h' hk0⟩, fun k hk' => by simp [Train.killed] at hk', fun k hk' => ?_, fun _ => ⟨pluses _ _, trivial, fun k hk' => ?_⟩⟩,
      fun h' => absurd h' hk2⟩, fun h' => absurd h' hk3⟩
    · simp only [Train.leaves, List.mem_singleton]
      rintro rfl
      exact h2 (killed_leaves r hk')
    · simp only [endOf, End.leaf.injEq] at hk'
      subst hk'
      exact h2
  · exact ⟨⟨⟨trivial, ⟨h1, fun h' => absurd h' hk0⟩, fun _ => plus_sound e1 (e3.el i .negative) hf.fits⟩, fun h' => absurd h' hk2⟩, fun h' => absurd h' hk3⟩
  · simp only [mse, el, minusE, plusE, Train.killed, endOf, List.nil_append, List.mem_append] at hk
    rcases hk with h | h
    · exact Or.inl h
    · split at h
      · simp at h; exact Or.inr h
      · simp at h
  · simp only [mse, el, minusE, plusE, Train.leaves, List.mem_append, List.mem_singleton] at hk
    exact hk.symm

/-- `cross_entropy`: `log`, `hadamard_product`, `reduce_sum` and `negative`. -/
theorem cross_entropy_shares {fk : Nat → FKind} {i : Nat} {s' : List Nat} (h : LossKinds fk i) (h1 : fk (i + 1) ≠ .plus) : Shares fk crossEntropy i s' := by
  obtain ⟨hk0, hk2, hk3⟩ := h
  refine ⟨fun K l r g1 g2 => ?_, fun K l r g1 g2 => ?_, fun K l r L D a b hf e1 e3 g1 => ?_, fun K l r k hk => ?_, fun K l r k hk => ?_, fun K l r => if_neg hk3⟩
  · have hn : ∀ j, i ≤ j → j ∉ ids r := fun j hj hm => absurd (g2 j hm) (by omega)
    simp only [crossEntropy, el, hadE, ids, List.nil_append, List.nodup_cons, List.mem_cons, not_or]
    refine ⟨⟨⟨by omega, by omega, by omega, hn _ (by omega)⟩, ⟨by omega, by omega, hn _ (by omega)⟩, ⟨by omega, hn _ (by omega)⟩, hn _ (by omega), g1⟩, ?_⟩
    rintro j (h | h | h | h | h)
    · omega
    · omega
    · omega
    · omega
    · have := g2 j h
      omega
  · refine ⟨⟨⟨trivial, ⟨g1, fun h' => absurd h' hk0⟩, fun k hk' => by simp [Train.killed] at hk', fun k hk' => ?_, fun h' => absurd h' h1⟩,
      fun h' => absurd h' hk2⟩, fun h' => absurd h' hk3⟩
    simp only [Train.leaves, List.mem_singleton]
    rintro rfl
    exact g2 (killed_leaves r hk')
  · exact ⟨⟨⟨trivial, ⟨g1, fun h' => absurd h' hk0⟩, fun h' => absurd h' h1⟩, fun h' => absurd h' hk2⟩, fun h' => absurd h' hk3⟩
  · simp only [crossEntropy, el, hadE, Train.killed, List.nil_append, List.mem_append, if_neg h1, List.not_mem_nil, or_false] at hk
    exact Or.inl hk
  · simp only [crossEntropy, el, hadE, Train.leaves, List.mem_append, List.mem_singleton] at hk
    exact hk.symm

theorem kinds_bare {fk : Nat → FKind} {i : Nat} {k k' : Kind} (h : bare k = bare k') (hk : Kinds fk i k) : Kinds fk i k' := by
  have e1 : shareAt k' = shareAt k := by
    have : ∀ k : Kind, shareAt (bare k) = shareAt k := fun k => by cases k <;> rfl
    rw [← this k', ← h, this]
  have e2 : plusAt k' = plusAt k := by
    have : ∀ k : Kind, plusAt (bare k) = plusAt k := fun k => by cases k <;> rfl
    rw [← this k', ← h, this]
  intro o ho
  rw [e1, e2]
  exact hk o ho

theorem netKinds_same {fk : Nat → FKind} (ks : List Kind) : ∀ (ks' : List Kind) (i : Nat), SameNet ks' ks → NetKinds fk ks i → NetKinds fk ks' i := by
  induction ks with
  | nil =>
    intro ks' i h _
    have := h.length
    rw [List.length_nil, List.length_eq_zero_iff] at this
    subst this; trivial
  | cons k ks ih =>
    intro ks' i h hk
    cases ks' with
    | nil => have := h.length; simp at this
    | cons k' ks' =>
      unfold SameNet at h
      simp only [List.map_cons, List.cons.injEq] at h
      exact ⟨kinds_bare h.1.symm hk.1, ih ks' _ h.2 hk.2⟩

/-- No layer overwrites a place holder. -/
theorem build_killed {K : Kit} {fk : Nat → FKind} (k : Kind) {i : Nat} {s : List Nat} {e : Ex ℝ} (hk : Kinds fk i k) : killed fk (build K i s e k) = killed fk e := by
  have ns : ∀ o, o < 9 → o ∉ shareAt k → fk (i + o) ≠ .share := fun o ho hn h => hn ((hk o ho).1 h)
  have np : ∀ o, o < 9 → o ∉ plusAt k → fk (i + o) ≠ .plus := fun o ho hn h => hn ((hk o ho).2 h)
  have conv : ∀ {i j : Nat} {g : Conv.Geo} {R C NC CH : Nat} {rec : List Nat} {x f : Ex ℝ} {b : Nat} {cb : Cfg ℝ}, killed fk f = [] → fk (i + 2) ≠ .plus → fk (i + 3) ≠ .share →
      killed fk (plusE K j (convE K i g R C NC CH rec x f) (.var b cb)) = killed fk x := by
    intro i j g R C NC CH rec x f b cb hf h2 h3
    have := endOf_conv (K := K) (fk := fk) (i := i) (g := g) (R := R) (C := C) (NC := NC) (CH := CH) (rec := rec) (x := x) (f := f) h3
    simp only [plusE, killed, this, List.append_nil, ite_self]
    simp only [convE, killed, if_neg h2, hf, List.nil_append, List.append_nil]
  cases k with
  | dense w b units cw cb =>
    have h0 : fk i ≠ .plus := np 0 (by omega) (by simp [plusAt])
    simp [build, Loss.dense, plusE, killed, endOf, if_neg h0]
  | conv2D p => exact conv rfl (np 2 (by omega) (by simp [plusAt])) (ns 3 (by omega) (by simp [shareAt]))
  | conv1D p => exact conv (i := i + 1) rfl (np 3 (by omega) (by simp [plusAt])) (ns 4 (by omega) (by simp [shareAt]))
  | convTranspose p => exact conv (i := i + 3) rfl (np 5 (by omega) (by simp [plusAt])) (ns 6 (by omega) (by simp [shareAt]))
  | _ => rfl

theorem network_killed {K : Kit} {fk : Nat → FKind} (ks : List Kind) : ∀ (i : Nat) (s : List Nat) (e : Ex ℝ), NetKinds fk ks i → killed fk (stack K ks i s e) = killed fk e := by
  induction ks with
  | nil => intros; rfl
  | cons k ks ih => intro i s e h; rw [stack, ih _ _ _ h.2, build_killed k h.1]

/-- What the operators of a network hold depends on the inputs and the weights. -/
theorem netLeaves_congr {K : Kit} {L L' D D' : Nat → Ten ℝ} (ks : List Kind) : ∀ (i : Nat) (s : List Nat) (e : Ex ℝ), (∀ k ∈ Train.leaves e, L k = L' k) → (∀ v ∈ vars e, D v = D' v) →
    (∀ v ∈ weightsOf ks, D v = D' v) → netLeaves K L D ks i s e = netLeaves K L' D' ks i s e := by
  induction ks with
  | nil => intros; rfl
  | cons k ks ih =>
    intro i s e h1 h2 h3
    have he : eval L D e = eval L' D' e := (Optim.eval_congr e h2).trans (by
      have : ∀ e : Ex ℝ, (∀ k ∈ Train.leaves e, L k = L' k) → eval L D' e = eval L' D' e := by
        intro e
        induction e with
        | leaf k => intro h; simp only [eval]; rw [h k (by simp [Train.leaves])]
        | var v c => intro _; rfl
        | un i op e ih => intro h; simp only [eval]; rw [ih h]
        | bin i op l r ihl ihr =>
          intro h
          simp only [Train.leaves, List.mem_append] at h
          simp only [eval]
          rw [ihl (fun k hk => h k (Or.inl hk)), ihr (fun k hk => h k (Or.inr hk))]
      exact this e h1)
    simp only [weightsOf, List.flatMap_cons, List.mem_append] at h3
    rw [netLeaves, netLeaves, he, ih (i + 9) _ _ (by rw [build_leaves]; exact h1) (fun v hv => by
      rcases (build_vars_iff k i s e v).mp hv with h | h
      · exact h2 v h
      · exact h3 v (Or.inl h)) (fun v hv => h3 v (Or.inr hv))]

section
variable {O : Type} {eps k : ℝ} {opt : Opt O} {law : Law} {J : Nat → O → Prop} {Mm : List (Ten ℝ) → List Nat → (List Nat → ℝ × ℝ) → Prop}
  {K : Kit} {ks : List Kind} {cfg : Nat → Cfg ℝ} {inp gt : Nat} {nk : Kit → Kit} {inputs outputs : Ten ℝ} {bs n n' : Nat} {a b : List Nat} {XI YO : List Nat → ℝ} {epochs : Nat}
  {p : Point} {q : Kit × List Kind} {o : O} {os : OSt} {s : HO} {fk : Nat → FKind} {bk : Nat → Bool → BKind} {U X : List Nat} {inT outT : Tn}
  {E : Kit → Nat → Ex ℝ → Ex ℝ → Ex ℝ} {fl : (List Nat → ℝ) → (List Nat → ℝ) → ℝ} {dom : (List Nat → ℝ) → Prop}

/-- A network whose operators are of the kinds `fk` says does not suffer from sharing, whatever weights of the right shapes it has. -/
theorem network_ready {sh : List Nat} (hE : NetLoss eps E fl dom k (netShape ks sh)) (hS : Shares fk E (9 * ks.length) (netShape ks sh)) (hT : Trainable eps K ks sh cfg p.w) (hne : inp ≠ gt)
    (hk : NetKinds fk ks 0) {w : Nat → Ten ℝ} (hw : ∀ v ∈ weightsOf ks, (w v).shape = (p.w v).shape ∧ ((p.w v).WF → (w v).WF)) {x y : Ten ℝ}
    (hx : x.WF ∧ x.shape = sh) (hy : y.WF ∧ y.shape = netShape ks sh) (hU : ∀ v ∈ weightsOf ks, v ∈ U) {s : (Kit × List Kind) × O × OSt}
    (hq : Holds K ks sh p.w s.1) (hd : ∀ v ∈ weightsOf ks, s.2.2.st.data v = w v) (hreg : ∀ r ∈ s.2.2.reg, r.1 ∈ U) :
    Runs.Ready (netProg E nk sh inp gt fk bk eps opt) U (List.range (9 * ks.length + 4)) ((netProg E nk sh inp gt fk bk eps opt).byValue.bind x y s) := by
  obtain ⟨q, o, os⟩ := s
  dsimp only at hq hd hreg
  obtain ⟨h1, h2, h3, h4, h5⟩ := hq
  have hkq : NetKinds fk q.2 0 := netKinds_same ks q.2 0 h3 hk
  have hlen := h3.length
  have hsh := h3.shape sh
  set st : St ℝ := { os.st with leaf := upd (upd os.st.leaf inp x) gt y } with hst
  have li : st.leaf inp = x := by simp only [hst]; rw [upd_ne _ _ hne, upd_same]
  have lg : st.leaf gt = y := by simp only [hst]; rw [upd_same]
  have hxd : x.data ≠ [] := fun h => by
    have := hx.1
    unfold Ten.WF at this
    rw [h, hx.2] at this
    exact hT.pos this.symm
  have hyd : y.data ≠ [] := fun h => by
    have := hy.1
    unfold Ten.WF at this
    rw [h, hy.2] at this
    exact hT.out.pos this.symm
  have einp : Ev st.leaf st.data (.leaf inp) sh x.at := by
    have := ev_leaf (L := st.leaf) (D := st.data) (k := inp) (by rw [li]; exact hx.1) (by rw [li]; exact hxd)
    rwa [li, hx.2] at this
  have egt : Ev st.leaf st.data (.leaf gt) (netShape ks sh) y.at := by
    have := ev_leaf (L := st.leaf) (D := st.data) (k := gt) (by rw [lg]; exact hy.1) (by rw [lg]; exact hyd)
    rwa [lg, hy.2] at this
  have hok : NetOk q.1 st.data q.2 sh := NetOk.congr h1 h2 q.2 sh (fun v hv => by
    rw [h3.weights] at hv
    show (os.st.data v).shape = _ ∧ _
    rw [hd v hv]
    exact hw v hv) h4
  have hids := network_ids (K := q.1) q.2 0 sh (.leaf inp) (by simp [ids]) (by simp [ids])
  rw [Nat.zero_add, hlen] at hids
  have hlv : Train.leaves (stack q.1 q.2 0 sh (.leaf inp)) = [inp] := network_leaves q.2 0 sh (.leaf inp)
  have hkl : killed fk (stack q.1 q.2 0 sh (.leaf inp)) = [] := network_killed q.2 0 sh (.leaf inp) hkq
  have hout : Fits1 q.1 (netShape ks sh) := ⟨by rw [h1]; exact hT.out.reduces, hT.out.ne, hT.out.ms, hT.out.rank, by rw [h2]; exact hT.out.fuel, hT.out.pos⟩
  have ev := network_value q.2 0 sh (.leaf inp) _ hok einp
  rw [hsh] at ev
  have hloss : (netProg E nk sh inp gt fk bk eps opt).loss q = E q.1 (9 * ks.length) (.leaf gt) (stack q.1 q.2 0 sh (.leaf inp)) := by
    show netLoss E sh inp gt q = _
    unfold netLoss
    rw [hlen]
  obtain ⟨i1, i2⟩ := hS.ids q.1 gt _ hids.1 hids.2
  refine ⟨⟨?_, ?_, ?_, ?_, ?_⟩, ?_, ?_, ?_, hreg⟩
  · show (ids ((netProg E nk sh inp gt fk bk eps opt).loss q)).Nodup
    rw [hloss]; exact i1
  · show Safe fk ((netProg E nk sh inp gt fk bk eps opt).loss q)
    rw [hloss]; exact hS.safe _ _ _ (network_safe q.2 0 sh _ hkq trivial) (by rw [hlv]; simpa using hne.symm)
  · show ∀ v ∈ vars ((netProg E nk sh inp gt fk bk eps opt).loss q), v ∈ U
    rw [hloss]
    intro v hv
    rw [hE.vars, stack_vars_iff, h3.weights] at hv
    simp only [Graph.vars, List.not_mem_nil, false_or] at hv
    exact hU v hv
  · show ∀ j ∈ ids ((netProg E nk sh inp gt fk bk eps opt).loss q), j ∈ List.range (9 * ks.length + 4)
    rw [hloss]
    exact fun j hj => List.mem_range.mpr (i2 j hj)
  · show ∀ j ∈ Train.leaves ((netProg E nk sh inp gt fk bk eps opt).loss q), j ∈ [inp, gt]
    rw [hloss]
    intro j hj
    rcases hS.leaves _ _ _ _ hj with h | h
    · rw [hlv] at h; simp at h; simp [h]
    · simp [h]
  · show Train.Sound fk st.leaf st.data ((netProg E nk sh inp gt fk bk eps opt).loss q)
    rw [hloss]
    exact hS.sound q.1 gt _ _ _ _ _ hout egt ev (network_sound q.2 0 sh _ _ hkq hok einp trivial)
  · show inp ∉ killed fk ((netProg E nk sh inp gt fk bk eps opt).loss q)
    rw [hloss]
    intro h
    rcases hS.killed _ _ _ _ h with h | h
    · rw [hkl] at h; simp at h
    · exact hne h
  · intro L L' D D' e1 e2
    show (netLeaves q.1 L D q.2 0 sh (.leaf inp) >>= fun r => pure (nk q.1, r)) = (netLeaves q.1 L' D' q.2 0 sh (.leaf inp) >>= fun r => pure (nk q.1, r))
    have e1 : L inp = L' inp := e1
    rw [netLeaves_congr (L := L) (L' := L') (D := D) (D' := D') q.2 0 sh (.leaf inp) (fun j hj => by simp only [Train.leaves, List.mem_singleton] at hj; rw [hj]; exact e1) (by simp [Graph.vars])
      (fun v hv => e2 v (hU v (by rwa [h3.weights] at hv)))]

/-- C113 for networks: `fit` on shared storages, for a network of any layers but max pooling, a loss that does not suffer from sharing and any optimizer of `Moves`, is
descent on the losses of the batches of the samples; the samples are as before. -/
theorem network_fit_shared (hm : Moves eps (opt.step eps) law J Mm) (hE : NetLoss eps E fl dom k (netShape ks (bs :: a))) (hS : Shares fk E (9 * ks.length) (netShape ks (bs :: a)))
    (hT : Trainable eps K ks (bs :: a) cfg p.w) (hk : ∀ K, (nk K).red = K.red ∧ (nk K).fuel = K.fuel) (hkd : NetKinds fk ks 0) (hi : inputs.Has (n :: a) XI) (ho : outputs.Has (n' :: b) YO)
    (hn : n ≤ n') (hlab : netShape ks (bs :: a) = bs :: b) (hne : inp ≠ gt)
    (hd : ∀ t, t < epochs * (n / bs) → NetDom (path (weightsOf ks) law k (fun t => batchLoss fl ks inputs outputs bs a (t % (n / bs))) p t).w ks (bs :: a) (batch inputs bs (t % (n / bs))).at ∧
      dom (netVal (path (weightsOf ks) law k (fun t => batchLoss fl ks inputs outputs bs a (t % (n / bs))) p t).w ks (bs :: a) (batch inputs bs (t % (n / bs))).at))
    (hs : Along (Holds K ks (bs :: a) p.w) (weightsOf ks) J Mm 0 p ((netProg E nk (bs :: a) inp gt fk bk eps opt).byValue.phase true (q, o, os)))
    (hU : ∀ v ∈ weightsOf ks, v ∈ U) (hreg : ∀ r ∈ os.reg, r.1 ∈ U) (h : Rel U (List.range (9 * ks.length + 4)) [] X s os) (hX : inT.loc ∈ X) (hX' : outT.loc ∈ X)
    (hdi : denote s.t.heap inT = some inputs) (hdo : denote s.t.heap outT = some outputs) :
    ∃ g, hfit (netProg E nk (bs :: a) inp gt fk bk eps opt) inT outT bs epochs 0 (q, o, s) = ok g ∧
      (∀ v ∈ weightsOf ks, denote g.s.2.2.t.heap (g.s.2.2.t.varT v) =
        some ((path (weightsOf ks) law k (fun t => batchLoss fl ks inputs outputs bs a (t % (n / bs))) p (epochs * (n / bs))).w v)) ∧
      g.trainErr = (List.range epochs).map (fun ep => (∑ l ∈ Finset.range (n / bs), batchLoss fl ks inputs outputs bs a l
        (path (weightsOf ks) law k (fun t => batchLoss fl ks inputs outputs bs a (t % (n / bs))) p (ep * (n / bs) + l)).w) / ((n / bs : Nat) : ℝ)) ∧
      denote g.s.2.2.t.heap inT = some inputs ∧ denote g.s.2.2.t.heap outT = some outputs := by
  have hbs : 0 < bs := by
    rcases Nat.eq_zero_or_pos bs with h | h
    · exact absurd (by rw [h]; simp) hT.pos
    · exact h
  have hmod : ∀ ep l, l < n / bs → (ep * (n / bs) + l) % (n / bs) = l := fun ep l hl => by rw [Nat.mul_comm, Nat.mul_add_mod, Nat.mod_eq_of_lt hl]
  have hbx : ∀ l, l < n / bs → (batch inputs bs l).WF ∧ (batch inputs bs l).shape = bs :: a := fun l hl => by
    have hx := batch_isBatch hi hl n a XI hi
    exact ⟨hx.wf, hx.1⟩
  have hby : ∀ l, l < n / bs → (batch outputs bs l).WF ∧ (batch outputs bs l).shape = netShape ks (bs :: a) := fun l hl => by
    have hy := batch_isBatch ho (lt_of_lt_of_le hl (Nat.div_le_div_right hn)) n' b YO ho
    exact ⟨hy.wf, by rw [hlab]; exact hy.1⟩
  obtain ⟨g, g1, g2, _, g4, g5, _⟩ := fit_shared_descends (M := netProg E nk (bs :: a) inp gt fk bk eps opt) (U := U) (I := List.range (9 * ks.length + 4)) (X := X) (inT := inT) (outT := outT)
    (epochs := epochs) (F := fun t => batchLoss fl ks inputs outputs bs a (t % (n / bs))) hm hbs hi ho hn hne (fun t ht => by
      have hpos : 0 < n / bs := by
        rcases Nat.eq_zero_or_pos (n / bs) with h | h
        · rw [h] at ht; omega
        · exact h
      have hlt : t % (n / bs) < n / bs := Nat.mod_lt _ hpos
      exact network_learns hE hT hk (hbx _ hlt) (hby _ hlt) (fun v _ => path_fits _ _ _ _ _ t v) (hd t ht).1 (hd t ht).2) hs
    (fun ep l s hep hl hA hr => network_ready hE hS hT hne hkd (fun v _ => path_fits _ _ _ _ _ _ v) (hbx l hl) (hby l hl) hU hA.held hA.weights (by rw [hr]; exact hreg))
    h hX hX' hdi hdo hU
  refine ⟨g, g1, g2, ?_, ?_, ?_⟩
  · rw [g4]
    refine List.map_congr_left (fun ep _ => ?_)
    congr 1
    refine Finset.sum_congr rfl (fun l hl => ?_)
    rw [hmod ep l (Finset.mem_range.mp hl)]
  · rw [denote_congr (g5 _ hX)]; exact hdi
  · rw [denote_congr (g5 _ hX')]; exact hdo

end
end
end Verif.Runs
