import Verif.Runs.Overwrite
/-!
# Property C113: networks and `train_on_batch`

One call of `train_on_batch` on shared storages is one step of descent; a second call with the same tensors is not, for losses that overwrite the labels.
-/
namespace Verif.Runs
open Verif Res View Data Ops Graph Loss Optim Fit Train Descent Net
open Verif.Alias (denote_some denote_congr readT readT_ok plus_same)
open Verif.Net (Kind)
open Verif.Tensor (Tn)

noncomputable section

variable {O : Type} {eps k : ℝ} {opt : Opt O} {law : Law} {J : Nat → O → Prop} {Mm : List (Ten ℝ) → List Nat → (List Nat → ℝ × ℝ) → Prop}
  {K : Kit} {ks : List Kind} {cfg : Nat → Cfg ℝ} {inp gt : Nat} {nk : Kit → Kit} {sh : List Nat} {w : Nat → Ten ℝ}
  {p : Point} {q : Kit × List Kind} {o : O} {s : HO} {fk : Nat → FKind} {bk : Nat → Bool → BKind} {U X : List Nat} {inT outT : Tn} {t : Nat} {x y : Ten ℝ}
  {E : Kit → Nat → Ex ℝ → Ex ℝ → Ex ℝ} {fl : (List Nat → ℝ) → (List Nat → ℝ) → ℝ} {dom : (List Nat → ℝ) → Prop}

/-- The program, its storages disjoint, is after `t` steps at the weights of `p`. -/
def At (K : Kit) (ks : List Kind) (sh : List Nat) (w : Nat → Ten ℝ) (J : Nat → O → Prop) (Mm : List (Ten ℝ) → List Nat → (List Nat → ℝ × ℝ) → Prop) (U X : List Nat) (t : Nat)
    (p : Point) (s : (Kit × List Kind) × O × HO) : Prop :=
  ∃ os : OSt, Rel U (List.range (9 * ks.length + 4)) [] X s.2.2 os ∧ Along (Holds K ks sh w) (weightsOf ks) J Mm t p (s.1, s.2.1, { os with st := { os.st with training := true } }) ∧
    ∀ r ∈ os.reg, r.1 ∈ U

theorem At.weights {s : (Kit × List Kind) × O × HO} (h : At K ks sh w J Mm U X t p s) (hU : ∀ v ∈ weightsOf ks, v ∈ U) :
    ∀ v ∈ weightsOf ks, denote s.2.2.t.heap (s.2.2.t.varT v) = some (p.w v) := by
  obtain ⟨os, h1, h2, -⟩ := h
  intro v hv
  rw [h1.var v (hU v hv), ← h2.weights v hv]

/-- One call by value. -/
theorem network_batch (hm : Moves eps (opt.step eps) law J Mm) (hE : NetLoss eps E fl dom k (netShape ks sh)) (hS : Shares fk E (9 * ks.length) (netShape ks sh))
    (hT : Trainable eps K ks sh cfg w) (hk : ∀ K, (nk K).red = K.red ∧ (nk K).fuel = K.fuel) (hkd : NetKinds fk ks 0) (hx : x.WF ∧ x.shape = sh) (hy : y.WF ∧ y.shape = netShape ks sh)
    (hne : inp ≠ gt) (hw : ∀ v ∈ weightsOf ks, (p.w v).shape = (w v).shape ∧ ((w v).WF → (p.w v).WF)) (hd : NetDom p.w ks sh x.at) (hd' : dom (netVal p.w ks sh x.at))
    (hU : ∀ v ∈ weightsOf ks, v ∈ U) {os : OSt} (hA : Along (Holds K ks sh w) (weightsOf ks) J Mm t p (q, o, { os with st := { os.st with training := true } }))
    (hreg : ∀ r ∈ os.reg, r.1 ∈ U) :
    Runs.Ready (netProg E nk sh inp gt fk bk eps opt) U (List.range (9 * ks.length + 4))
        ((netProg E nk sh inp gt fk bk eps opt).byValue.bind x y ((netProg E nk sh inp gt fk bk eps opt).byValue.phase true (q, o, os))) ∧
      (netProg E nk sh inp gt fk bk eps opt).loss q = E q.1 (9 * ks.length) (.leaf gt) (stack q.1 q.2 0 sh (.leaf inp)) ∧ Fits1 q.1 (netShape ks sh) ∧
      Ev ((netProg E nk sh inp gt fk bk eps opt).byValue.bind x y ((netProg E nk sh inp gt fk bk eps opt).byValue.phase true (q, o, os))).2.2.st.leaf os.st.data
        (stack q.1 q.2 0 sh (.leaf inp)) (netShape ks sh) (netVal p.w ks sh x.at) ∧
      killed fk (stack q.1 q.2 0 sh (.leaf inp)) = [] ∧
      ∃ s', trainOnBatch (netProg E nk sh inp gt fk bk eps opt).byValue x y (q, o, os) = ok (fl y.at (netVal p.w ks sh x.at), s') ∧
        Along (Holds K ks sh w) (weightsOf ks) J Mm (t + 1) (next (weightsOf ks) law k t (fun D => fl y.at (netVal D ks sh x.at)) p) s' ∧ s'.2.2.reg = os.reg := by
  set M := netProg E nk sh inp gt fk bk eps opt with hM
  have hq := hA.held
  have hL := network_learns (nk := nk) (inp := inp) (gt := gt) hE hT hk hx hy hw hd hd'
  obtain ⟨s1, s2, j1, j2, j3⟩ := batch_step hm hL hne hA
  have e1 : M.byValue.loss (M.byValue.bind x y (M.byValue.phase true (q, o, os))) = ok (⟨[1], [fl y.at (netVal p.w ks sh x.at)]⟩, s1) := j1
  have e2 : M.byValue.step s1 = ok s2 := j2
  have hready := network_ready (opt := opt) (nk := nk) (bk := bk) (p := ⟨w, p.mem⟩) (s := M.byValue.phase true (q, o, os)) hE hS hT hne hkd hw hx hy hU hq hA.weights hreg
  have hxd : x.data ≠ [] := fun h => by
    have := hx.1
    unfold Ten.WF at this
    rw [h, hx.2] at this
    exact hT.pos this.symm
  refine ⟨hready, ?_, ⟨by rw [hq.1]; exact hT.out.reduces, hT.out.ne, hT.out.ms, hT.out.rank, by rw [hq.2.1]; exact hT.out.fuel, hT.out.pos⟩, ?_,
    network_killed q.2 0 sh (.leaf inp) (netKinds_same ks q.2 0 hq.2.2.1 hkd), s2, ?_, j3, ?_⟩
  · show netLoss E sh inp gt q = _
    unfold netLoss
    rw [hq.2.2.1.length]
  · have hli : (M.byValue.bind x y (M.byValue.phase true (q, o, os))).2.2.st.leaf inp = x := by
      show upd (upd os.st.leaf inp x) gt y inp = x
      rw [upd_ne _ _ hne, upd_same]
    have einp := ev_leaf (L := (M.byValue.bind x y (M.byValue.phase true (q, o, os))).2.2.st.leaf) (D := os.st.data) (k := inp) (by rw [hli]; exact hx.1) (by rw [hli]; exact hxd)
    rw [hli, hx.2] at einp
    have hdat : ∀ v ∈ weightsOf ks, os.st.data v = p.w v := hA.weights
    have hok : NetOk q.1 os.st.data q.2 sh := NetOk.congr hq.1 hq.2.1 q.2 sh (fun v hv => by
      rw [hq.2.2.1.weights] at hv
      rw [hdat v hv]
      exact hw v hv) hq.2.2.2.1
    have ev := network_value q.2 0 sh (.leaf inp) _ hok einp
    rw [hq.2.2.1.shape, hq.2.2.1.val] at ev
    have hval : ∀ (ks' : List Kind) (s : List Nat) (a : List Nat → ℝ), (∀ v ∈ weightsOf ks', os.st.data v = p.w v) → netVal os.st.data ks' s a = netVal p.w ks' s a := by
      intro ks'
      induction ks' with
      | nil => intro s a _; rfl
      | cons k' ks' ih =>
        intro s a hv
        simp only [weightsOf, List.flatMap_cons, List.mem_append] at hv
        have hk' : val os.st.data s a k' = val p.w s a k' := by
          cases k' <;> simp only [val]
          case dense w b _ _ _ => rw [hv w (Or.inl (by simp [params])), hv b (Or.inl (by simp [params]))]
          case conv2D p => rw [hv p.w (Or.inl (by simp [params])), hv p.b (Or.inl (by simp [params]))]
          case conv1D p => rw [hv p.w (Or.inl (by simp [params])), hv p.b (Or.inl (by simp [params]))]
          case convTranspose p => rw [hv p.w (Or.inl (by simp [params])), hv p.b (Or.inl (by simp [params]))]
        simp only [netVal, hk']
        exact ih _ _ (fun v hv' => hv v (Or.inr hv'))
    rwa [hval ks sh x.at hdat] at ev
  · unfold trainOnBatch
    rw [e1, bind_ok]
    dsimp only
    rw [e2, bind_ok]
    rfl
  · have h1 : (run (M.loss q) _ >>= fun r => pure (r.1, (q, o, ({ os with st := r.2 } : OSt)))) = ok (_, s1) := e1
    obtain ⟨r, _, h1⟩ := bind_eq_ok.mp h1
    simp only [pure_eq, ok.injEq, Prod.mk.injEq] at h1
    obtain ⟨_, rfl⟩ := h1
    have h2 : (M.adv _ _ _ >>= fun q' => M.opt.step M.eps (M.loss q) o { os with st := r.2 } >>= fun r => pure (q', r.1, r.2)) = ok s2 := e2
    obtain ⟨q', _, h2⟩ := bind_eq_ok.mp h2
    obtain ⟨⟨o', os2⟩, a2, h2⟩ := bind_eq_ok.mp h2
    simp only [pure_eq, ok.injEq] at h2
    subst h2
    have := step_reg a2
    exact this

theorem Along.again {κ : Type} {Q : κ → Prop} {V : List Nat} {s : κ × O × OSt} (h : Along Q V J Mm t p s) : Along Q V J Mm t p (s.1, s.2.1, { s.2.2 with st := { s.2.2.st with training := true } }) :=
  ⟨h.1, h.2, rfl, h.4, h.5, h.6, h.7, h.8, h.9⟩

/-- C113 for networks and `train_on_batch`: a call returns the loss of the batch and is one step of descent on it.  It leaves the caller's tensors alone, and the labels
too if the loss does not overwrite them. -/
theorem network_train_on_batch_shared (hm : Moves eps (opt.step eps) law J Mm) (hE : NetLoss eps E fl dom k (netShape ks sh)) (hS : Shares fk E (9 * ks.length) (netShape ks sh))
    (hT : Trainable eps K ks sh cfg w) (hk : ∀ K, (nk K).red = K.red ∧ (nk K).fuel = K.fuel) (hkd : NetKinds fk ks 0) (hx : x.WF ∧ x.shape = sh) (hy : y.WF ∧ y.shape = netShape ks sh)
    (hne : inp ≠ gt) (hw : ∀ v ∈ weightsOf ks, (p.w v).shape = (w v).shape ∧ ((w v).WF → (p.w v).WF)) (hd : NetDom p.w ks sh x.at) (hd' : dom (netVal p.w ks sh x.at))
    (hU : ∀ v ∈ weightsOf ks, v ∈ U) (hX : inT.loc ∈ X) (hX' : outT.loc ∈ X) (hdis : inT.loc ≠ outT.loc) (hdx : denote s.t.heap inT = some x) (hdy : denote s.t.heap outT = some y)
    (hA : At K ks sh w J Mm U X t p (q, o, s)) :
    ∃ s', htrainOnBatch (netProg E nk sh inp gt fk bk eps opt) inT outT (q, o, s) = ok (fl y.at (netVal p.w ks sh x.at), s') ∧
      At K ks sh w J Mm U X (t + 1) (next (weightsOf ks) law k t (fun D => fl y.at (netVal D ks sh x.at)) p) s' ∧
      denote s'.2.2.t.heap inT = some x ∧ (∀ j ∈ X, j ≠ outT.loc → s'.2.2.t.heap[j]? = s.t.heap[j]?) ∧
      ((∀ K r, killed fk r = [] → gt ∉ killed fk (E K (9 * ks.length) (.leaf gt) r)) → denote s'.2.2.t.heap outT = some y) := by
  obtain ⟨os, R, hA, hreg⟩ := hA
  obtain ⟨k1, k2, k3, k4, k5, s', k6, k7, k8⟩ := network_batch (bk := bk) hm hE hS hT hk hkd hx hy hne hw hd hd' hU hA hreg
  obtain ⟨s2, g1, g2, g3, g4, -⟩ := train_on_batch_shared (M := netProg E nk sh inp gt fk bk eps opt) R hne hX hX' hdis hdx hdy k1
    (fun v => by rw [k2]; rw [show (netProg E nk sh inp gt fk bk eps opt).fk = fk from rfl, hS.ends]; simp) k6
  refine ⟨(s'.1, s'.2.1, s2), g1, ⟨s'.2.2, g2, Along.again k7, by rw [k8]; exact hreg⟩, ?_, g3, fun hg => ?_⟩
  · show denote s2.t.heap inT = some x
    rw [denote_congr (g3 _ hX hdis)]; exact hdx
  · show denote s2.t.heap outT = some y
    rw [denote_congr (g4 (by rw [k2]; exact hg _ _ k5))]; exact hdy

/-- C113 is false of `train_on_batch` and `squared_loss` and `mean_squared_error`: the caller's labels become `labels - outputs`. -/
theorem network_labels_violated {op1 : UOp ℝ} (hform : ∀ K i l r, E K i (.leaf l) r = .un (i + 3) op1 (el K (i + 2) .square (minusE K i (.leaf l) r)))
    (hm : Moves eps (opt.step eps) law J Mm) (hE : NetLoss eps E fl dom k (netShape ks sh)) (hS : Shares fk E (9 * ks.length) (netShape ks sh))
    (hT : Trainable eps K ks sh cfg w) (hk : ∀ K, (nk K).red = K.red ∧ (nk K).fuel = K.fuel) (hkd : NetKinds fk ks 0) (hlk : LossKinds fk (9 * ks.length))
    (hpl : fk (9 * ks.length + 1) = .plus) (hx : x.WF ∧ x.shape = sh) (hy : y.WF ∧ y.shape = netShape ks sh)
    (hne : inp ≠ gt) (hw : ∀ v ∈ weightsOf ks, (p.w v).shape = (w v).shape ∧ ((w v).WF → (p.w v).WF)) (hd : NetDom p.w ks sh x.at) (hd' : dom (netVal p.w ks sh x.at))
    (hU : ∀ v ∈ weightsOf ks, v ∈ U) (hX : inT.loc ∈ X) (hX' : outT.loc ∈ X) (hdis : inT.loc ≠ outT.loc) (hdx : denote s.t.heap inT = some x) (hdy : denote s.t.heap outT = some y)
    (hA : At K ks sh w J Mm U X t p (q, o, s)) :
    ∃ s' z, htrainOnBatch (netProg E nk sh inp gt fk bk eps opt) inT outT (q, o, s) = ok (fl y.at (netVal p.w ks sh x.at), s') ∧
      At K ks sh w J Mm U X (t + 1) (next (weightsOf ks) law k t (fun D => fl y.at (netVal D ks sh x.at)) p) s' ∧
      denote s'.2.2.t.heap inT = some x ∧ denote s'.2.2.t.heap outT = some z ∧ z.Has (netShape ks sh) (fun is => y.at is - netVal p.w ks sh x.at is) := by
  obtain ⟨os, R, hA, hreg⟩ := hA
  obtain ⟨k1, k2, k3, k4, k5, s', k6, k7, k8⟩ := network_batch (bk := bk) hm hE hS hT hk hkd hx hy hne hw hd hd' hU hA hreg
  obtain ⟨N, n1, n2⟩ := k4.el (K := q.1) (9 * ks.length) .negative
  have hyH : y.Has (netShape ks sh) y.at := by rw [← hy.2]; exact hy.1.has
  obtain ⟨c, z, z1, z2, z3⟩ := plusT_ok hyH n2 k3.fits.compat k3.fits.ml k3.fits.ml
  have hc : c = netShape ks sh := by
    have := k3.fits.sum
    rw [z1] at this
    exact ok.inj this
  subst hc
  obtain ⟨s2, g1, g2, g3, g4⟩ := train_on_batch_labels_violated (M := netProg E nk sh inp gt fk bk eps opt) (a := 9 * ks.length + 3) (b := 9 * ks.length + 2) (c := 9 * ks.length + 1)
    R hne hX hX' hdis hdx hdy k1 (k2.trans (hform _ _ _ _)) hlk.2.2 hlk.2.1 hpl rfl rfl n1 (by rw [n2.1, hy.2]) (fun h0 => by
      have := n2.wf
      unfold Ten.WF at this
      rw [h0, n2.1] at this
      exact hT.out.pos this.symm) z2 k6
  refine ⟨(s'.1, s'.2.1, s2), z, g1, ⟨s'.2.2, g2, Along.again k7, by rw [k8]; exact hreg⟩, ?_, g4, z3.congr (fun is his => ?_)⟩
  · show denote s2.t.heap inT = some x
    rw [denote_congr (g3 _ hX hdis)]; exact hdx
  · rw [bcIdx_suffix (pre := []) his]
    simp only [List.length_nil, List.drop_zero, EOp.fwd]
    ring

/-- C113 is false of `train_on_batch` called twice with the same tensors and `squared_loss` or `mean_squared_error`: the first call is a step of descent on the loss of
the batch, the second is one on the loss for the labels `labels - outputs` the first call left. -/
theorem network_train_twice_violated {op1 : UOp ℝ} (hform : ∀ K i l r, E K i (.leaf l) r = .un (i + 3) op1 (el K (i + 2) .square (minusE K i (.leaf l) r)))
    (hm : Moves eps (opt.step eps) law J Mm) (hE : NetLoss eps E fl dom k (netShape ks sh)) (hS : Shares fk E (9 * ks.length) (netShape ks sh))
    (hT : Trainable eps K ks sh cfg w) (hk : ∀ K, (nk K).red = K.red ∧ (nk K).fuel = K.fuel) (hkd : NetKinds fk ks 0) (hlk : LossKinds fk (9 * ks.length))
    (hpl : fk (9 * ks.length + 1) = .plus) (hx : x.WF ∧ x.shape = sh) (hy : y.WF ∧ y.shape = netShape ks sh)
    (hne : inp ≠ gt) (hw : ∀ v ∈ weightsOf ks, (p.w v).shape = (w v).shape ∧ ((w v).WF → (p.w v).WF))
    (hd : ∀ D, NetDom D ks sh x.at) (hd' : ∀ D, dom (netVal D ks sh x.at))
    (hU : ∀ v ∈ weightsOf ks, v ∈ U) (hX : inT.loc ∈ X) (hX' : outT.loc ∈ X) (hdis : inT.loc ≠ outT.loc) (hdx : denote s.t.heap inT = some x) (hdy : denote s.t.heap outT = some y)
    (hA : At K ks sh w J Mm U X t p (q, o, s)) :
    ∃ (s1 s2 : (Kit × List Kind) × O × HO) (z : Ten ℝ), htrainOnBatch (netProg E nk sh inp gt fk bk eps opt) inT outT (q, o, s) = ok (fl y.at (netVal p.w ks sh x.at), s1) ∧
      z.Has (netShape ks sh) (fun is => y.at is - netVal p.w ks sh x.at is) ∧
      htrainOnBatch (netProg E nk sh inp gt fk bk eps opt) inT outT s1 =
        ok (fl z.at (netVal (next (weightsOf ks) law k t (fun D => fl y.at (netVal D ks sh x.at)) p).w ks sh x.at), s2) ∧
      At K ks sh w J Mm U X (t + 2) (next (weightsOf ks) law k (t + 1) (fun D => fl z.at (netVal D ks sh x.at))
        (next (weightsOf ks) law k t (fun D => fl y.at (netVal D ks sh x.at)) p)) s2 := by
  obtain ⟨s1, z, h1, h2, h3, h4, h5⟩ := network_labels_violated (bk := bk) hform hm hE hS hT hk hkd hlk hpl hx hy hne hw (hd _) (hd' _) hU hX hX' hdis hdx hdy hA
  have hw1 : ∀ v ∈ weightsOf ks, ((next (weightsOf ks) law k t (fun D => fl y.at (netVal D ks sh x.at)) p).w v).shape = (w v).shape ∧
      ((w v).WF → ((next (weightsOf ks) law k t (fun D => fl y.at (netVal D ks sh x.at)) p).w v).WF) := fun v hv => by
    simp only [next, if_pos hv]
    exact ⟨(hw v hv).1, fun _ => (Optim.tenOf_has _ _).wf⟩
  obtain ⟨q1, o1, s1'⟩ := s1
  obtain ⟨s2, g1, g2, -⟩ := network_train_on_batch_shared (bk := bk) hm hE hS hT hk hkd hx ⟨h5.wf, h5.1⟩ hne hw1 (hd _) (hd' _) hU hX hX' hdis h3 h4 h2
  exact ⟨_, s2, z, h1, h5, g1, g2⟩

theorem squared_form (K : Kit) (i l : Nat) (r : Ex ℝ) : squaredLoss K i (.leaf l) r = .un (i + 3) opSum (el K (i + 2) .square (minusE K i (.leaf l) r)) := rfl
theorem mse_form (K : Kit) (i l : Nat) (r : Ex ℝ) : mse K i (.leaf l) r = .un (i + 3) opMean (el K (i + 2) .square (minusE K i (.leaf l) r)) := rfl

/-- `cross_entropy` does not overwrite the labels. -/
theorem cross_entropy_keeps {i : Nat} (h1 : fk (i + 1) ≠ .plus) (K : Kit) (r : Ex ℝ) (h : killed fk r = []) : gt ∉ killed fk (crossEntropy K i (.leaf gt) r) := by
  simp [crossEntropy, el, hadE, Train.killed, if_neg h1, h]

end
end Verif.Runs
