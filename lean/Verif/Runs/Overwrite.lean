import Verif.Runs.Net
import Verif.Runs.Batch
/-!
# Where property C113 fails: `train_on_batch` destroys the labels

`squared_loss` and `mean_squared_error` of place holder and output are `reduce_sum( square( labels + ( - outputs ) ) )` and the mean of it, and `plus` leaves its
result in the storage of its left operand (C56): here the tensor the caller passed to `train_on_batch`.
-/
namespace Verif.Runs
open Verif Res View Data Ops Graph Loss Optim Fit Train Descent Net
open Verif.Alias (denote_some denote_congr readT readT_ok plus_same)
open Verif.Net (Kind)
open Verif.Tensor (Tn addLike)

noncomputable section

section
variable {fk : Nat → FKind} {e : Ex ℝ} {N : Nat}

/-- `plus` with a place holder on the left and an operand of the same shape on the right leaves its result in the place holder's tensor. -/
theorem plus_overwrites {c k : Nat} {op : BOp ℝ} {r : Ex ℝ} {sl : Slot} {s : TSt ℝ} {st st' : St ℝ} {y : Ten ℝ} (hfk : fk c = .plus) (hnd : (ids (.bin c op (.leaf k) r)).Nodup)
    (hin : ∀ τ, InE (.bin c op (.leaf k) r) τ → InE e τ) (hsf : Safe fk (.bin c op (.leaf k) r)) (hso : Train.Sound fk st.leaf st.data (.bin c op (.leaf k) r)) (hl : Lay e N s)
    (hN : N ≤ s.heap.length) (hc : ∀ i ∈ ids (.bin c op (.leaf k) r), s.cache i = none) (hvc : ∀ i ∈ ids (.bin c op (.leaf k) r), st.cache i = none)
    (hlf : ∀ j ∈ Train.leaves (.bin c op (.leaf k) r), denote s.heap (s.leafT j) = some (st.leaf j)) (hsim : Sim e s st) (hsl : ∀ j b, sl = some (j, b) → j ∉ ids (.bin c op (.leaf k) r))
    (hsh : ∀ R, eval st.leaf st.data r = ok R → R.shape = (st.leaf k).shape ∧ R.data ≠ []) (h : forward (.bin c op (.leaf k) r) sl st = ok (y, st')) :
    ∃ s', hforward fk (.bin c op (.leaf k) r) sl s = ok (s.leafT k, s') ∧ denote s'.heap (s.leafT k) = some y ∧ Keep s s' ∧ eval st.leaf st.data (.bin c op (.leaf k) r) = ok y := by
  obtain ⟨x, s', h1, o⟩ := fwd_ok (fk := fk) (e := e) (N := N) _ sl s st y st' hnd hin hsf hso hl hN hc hvc hlf hsim hsl h
  suffices hx : x = s.leafT k by subst hx; exact ⟨s', h1, o.val, o.keep, o.ev⟩
  obtain ⟨x0, st1, y0, st2, hf1, hf2, -⟩ := forward_bin_inv (hvc c (by simp [ids])) h
  rw [forward] at hf1
  obtain ⟨u, hne, hf1⟩ := bind_eq_ok.mp hf1
  simp only [pure_eq, ok.injEq, Prod.mk.injEq] at hf1
  obtain ⟨rfl, rfl⟩ := hf1
  have hkne : (st.leaf k).data ≠ [] := by
    intro h0
    rw [assert_false (by simpa using h0)] at hne
    cases hne
  obtain ⟨-, hsfr, hkl, hkr, hsp⟩ := hsf
  obtain ⟨-, hpr, hpp⟩ := hso
  simp only [ids, List.nil_append, List.nodup_cons] at hnd
  have hdk := hlf k (by simp [Train.leaves])
  obtain ⟨stc, hf2, e1, e2, e3, e4, e5, e6⟩ : ∃ st' : St ℝ, forward r (some (c, true)) st' = ok (y0, st2) ∧ st'.leaf = st.leaf ∧ st'.data = st.data ∧ st'.grad = st.grad ∧
    st'.sync = st.sync ∧ st'.training = st.training ∧ st'.cache = st.cache := ⟨_, hf2, rfl, rfl, rfl, rfl, rfl, rfl⟩
  obtain ⟨xr, sr, h2, o2⟩ := fwd_ok (fk := fk) (e := e) (N := N) r (some (c, true)) s stc y0 st2 hnd.2 (fun τ hτ => hin τ (by
      cases τ with
      | leaf k => exact List.mem_append_right _ hτ
      | var v => exact List.mem_append_right _ hτ
      | grad v => exact List.mem_append_right _ hτ
      | opc j => exact List.mem_cons_of_mem _ (List.mem_append_right _ hτ)
      | bopc j b => exact List.mem_cons_of_mem _ (List.mem_append_right _ hτ))) hsfr (by rw [e1, e2]; exact hpr) hl hN (fun j hj => hc j (by simp [ids, hj])) (fun j hj => by rw [e6]; exact hvc j (by simp [ids, hj]))
    (fun j hj => by rw [e1]; exact hlf j (by simp [Train.leaves, hj])) (hsim.congr rfl rfl rfl rfl rfl e2 e3 e4 e5)
    (fun j b hj => by simp only [Option.some.injEq, Prod.mk.injEq] at hj; rw [← hj.1]; exact hnd.1) hf2
  have hev : eval st.leaf st.data r = ok y0 := by rw [← e1, ← e2]; exact o2.ev
  obtain ⟨hs1, hs2⟩ := hsh _ hev
  have hevk : eval st.leaf st.data (.leaf k) = ok (st.leaf k) := by rw [eval, assert_true hkne]; rfl
  obtain ⟨⟨w1, w2⟩, w3, w4⟩ := hpp hfk _ _ hevk hev
  have hkE : InE e (.leaf k) := hin (.leaf k) (by simp [InE, Train.leaves])
  have hkr' : k ∉ killed fk r := fun hk => hkr k hk (by simp [Train.leaves])
  have hk2 : denote sr.heap (s.leafT k) = some (st.leaf k) := by
    rw [denote_congr (h := s.heap) (o2.heap _ (denote_lt hdk) (fun τ hτ => hl.ne (τ := .leaf k) hkE (hin τ (by
      have := fwTag_in hτ
      cases τ with
      | leaf k => exact List.mem_append_right _ this
      | var v => exact List.mem_append_right _ this
      | grad v => exact List.mem_append_right _ this
      | opc j => exact List.mem_cons_of_mem _ (List.mem_append_right _ this)
      | bopc j b => exact List.mem_cons_of_mem _ (List.mem_append_right _ this))) (by rintro rfl; exact hkr' hτ)))]
    exact hdk
  obtain ⟨h3, z, a1, -⟩ := plus_same hk2 o2.val hs1.symm ⟨hkne, w1, w2⟩ ⟨hs2, w3, w4⟩
  rw [hforward, hquery_none (hc c (by simp [ids])), bind_ok] at h1
  dsimp only at h1
  rw [hforward, rd_ok (denote_some hdk).1, bind_ok, assert_true hkne, bind_ok, pure_eq, bind_ok] at h1
  dsimp only at h1
  rw [h2, bind_ok] at h1
  dsimp only at h1
  unfold apply2 at h1
  rw [if_pos hfk, a1, bind_ok] at h1
  simp only [pure_eq, ok.injEq, Prod.mk.injEq] at h1
  exact h1.1.symm

/-- An operator with a result of its own leaves other tensors alone. -/
theorem un_keeps {i : Nat} {op : UOp ℝ} {c : Ex ℝ} {sl : Slot} {s s1 s' : TSt ℝ} {x1 x T : Tn} {z : Ten ℝ} (hfk : fk i ≠ .share) (hi : s.cache i = none) (ho : s.opc i < s.heap.length)
    (h1 : hforward fk c (some (i, false)) s = ok (x1, s1)) (hk : Keep s s1) (hz : denote s1.heap T = some z) (hT : T.loc ≠ s.opc i) (h : hforward fk (.un i op c) sl s = ok (x, s')) :
    denote s'.heap T = some z := by
  rw [hforward, hquery_none hi, bind_ok] at h
  dsimp only at h
  rw [h1, bind_ok] at h
  dsimp only at h
  obtain ⟨xv, h2, h⟩ := bind_eq_ok.mp h
  obtain ⟨y, h3, h⟩ := bind_eq_ok.mp h
  obtain ⟨⟨t, hp⟩, h4, h⟩ := bind_eq_ok.mp h
  simp only [pure_eq, ok.injEq, Prod.mk.injEq] at h
  obtain ⟨-, rfl⟩ := h
  show denote hp T = some z
  have hnew : (leaveNew s1.heap y).2 = hp → denote hp T = some z := by
    rintro rfl
    obtain ⟨_, _, _, n4⟩ := leaveNew_ok s1.heap y
    rw [denote_congr (n4 _ (denote_lt hz))]; exact hz
  unfold put at h4
  cases hkk : fk i with
  | share => exact absurd hkk hfk
  | own =>
    rw [hkk] at h4
    obtain ⟨h', p1, p2, p3, p4⟩ := leaveAt_ok (h := s1.heap) (l := s1.opc i) (by rw [hk.opc]; exact lt_of_lt_of_le ho hk.grow) y
    rw [p1] at h4
    cases h4
    rw [denote_congr (p4 _ (by rw [hk.opc]; exact hT))]; exact hz
  | fresh =>
    rw [hkk] at h4
    exact hnew (congrArg Prod.snd (ok.inj h4))
  | plus =>
    rw [hkk] at h4
    exact hnew (congrArg Prod.snd (ok.inj h4))

end

variable {κ O : Type} {U I X : List Nat} {M : Prog κ O} {inT outT : Tn} {x y : Ten ℝ} {q : κ} {o : O} {s : HO} {os : OSt}

/-- C113 is false of `train_on_batch` and losses that are two operators with results of their own - `square` and `reduce_sum` or `mean_reduce` - on `labels + r`: after
the call the caller's tensor of the labels holds the value of `labels + r`. -/
theorem train_on_batch_labels_violated (h : Rel U I [] X s os) (hne : M.inp ≠ M.gt) (hX : inT.loc ∈ X) (hX' : outT.loc ∈ X) (hd : inT.loc ≠ outT.loc)
    (hx : denote s.t.heap inT = some x) (hy : denote s.t.heap outT = some y) (hr : Ready M U I (M.byValue.bind x y (M.byValue.phase true (q, o, os))))
    {a b c : Nat} {op1 op2 : UOp ℝ} {op : BOp ℝ} {r : Ex ℝ} (hloss : M.loss q = .un a op1 (.un b op2 (.bin c op (.leaf M.gt) r))) (hka : M.fk a ≠ .share) (hkb : M.fk b ≠ .share)
    (hkc : M.fk c = .plus) {L D : Nat → Ten ℝ} (hL : L = (M.byValue.bind x y (M.byValue.phase true (q, o, os))).2.2.st.leaf) (hD : D = os.st.data) {R z : Ten ℝ}
    (hR : eval L D r = ok R) (hsh : R.shape = y.shape) (hRne : R.data ≠ []) (hz : op.fwd y R = ok z) {e : ℝ} {s' : κ × O × OSt}
    (ht : trainOnBatch M.byValue x y (q, o, os) = ok (e, s')) :
    ∃ s2, htrainOnBatch M inT outT (q, o, s) = ok (e, (s'.1, s'.2.1, s2)) ∧ Rel U I [] X s2 s'.2.2 ∧ (∀ j ∈ X, j ≠ outT.loc → s2.t.heap[j]? = s.t.heap[j]?) ∧
      denote s2.t.heap outT = some z := by
  have hend : ∀ v, endOf M.fk (M.loss q) ≠ .var v := fun v => by
    rw [hloss]; simp [endOf, if_neg hka]
  obtain ⟨s2, k1, k2, k3, -, t, t1, k4, k5⟩ := train_on_batch_shared h hne hX hX' hd hx hy hr hend ht
  refine ⟨s2, k1, k2, k3, ?_⟩
  rw [denote_congr k5]
  -- the run of the loss
  set sb : TSt ℝ := { s.t with leafT := upd (upd s.t.leafT M.inp inT) M.gt outT, training := true } with hsb
  set stb : St ℝ := { os.st with leaf := upd (upd os.st.leaf M.inp x) M.gt y, training := true } with hstb
  have hL' : L = stb.leaf := hL
  have hD' : D = stb.data := hD
  have li : sb.leafT M.inp = inT := by show upd (upd s.t.leafT M.inp inT) M.gt outT M.inp = _; rw [upd_ne _ _ hne, upd_same]
  have lg : sb.leafT M.gt = outT := by show upd (upd s.t.leafT M.inp inT) M.gt outT M.gt = _; rw [upd_same]
  have lg' : stb.leaf M.gt = y := by show upd (upd os.st.leaf M.inp x) M.gt y M.gt = _; rw [upd_same]
  have li' : stb.leaf M.inp = x := by show upd (upd os.st.leaf M.inp x) M.gt y M.inp = _; rw [upd_ne _ _ hne, upd_same]
  have R0 := h.bindTo (inp := M.inp) (gt := M.gt) hne hX hX' hd (upd (upd os.st.leaf M.inp x) M.gt y) true
  have hf : Fine M.fk U I [M.inp, M.gt] (.un a op1 (.un b op2 (.bin c op (.leaf M.gt) r))) := by rw [← hloss]; exact hr.fine
  have hso : Train.Sound M.fk stb.leaf stb.data (.un a op1 (.un b op2 (.bin c op (.leaf M.gt) r))) := by rw [← hloss]; exact hr.sound
  have hlay : Lay (.un a op1 (.un b op2 (.bin c op (.leaf M.gt) r))) sb.heap.length sb := R0.lay hf
  have hsim : Sim (.un a op1 (.un b op2 (.bin c op (.leaf M.gt) r))) sb stb := R0.sim hf
  have hlf : ∀ j ∈ Train.leaves (.un a op1 (.un b op2 (.bin c op (.leaf M.gt) r))), denote sb.heap (sb.leafT j) = some (stb.leaf j) := fun j hj => by
    have := hf.leaves j hj
    simp only [List.mem_cons, List.not_mem_nil, or_false] at this
    rcases this with rfl | rfl
    · rw [li, li']; exact hx
    · rw [lg, lg']; exact hy
  have hrun' : hrun M.fk (.un a op1 (.un b op2 (.bin c op (.leaf M.gt) r))) sb = ok (t, t1.t) := by
    have k4 : (hrun M.fk (M.loss q) sb >>= fun p => pure (p.1, (q, o, ({ s with t := p.2 } : HO)))) = ok (t, (q, o, t1)) := k4
    rw [hloss] at k4
    obtain ⟨⟨t', t2⟩, k6, k7⟩ := bind_eq_ok.mp k4
    simp only [pure_eq, ok.injEq, Prod.mk.injEq] at k7
    obtain ⟨rfl, _, _, rfl⟩ := k7
    exact k6
  -- the run by value
  unfold trainOnBatch at ht
  obtain ⟨⟨v, s1⟩, g1, -⟩ := bind_eq_ok.mp ht
  have g1 : (run (M.loss q) stb >>= fun r => pure (r.1, (q, o, ({ os with st := r.2 } : OSt)))) = ok (v, s1) := g1
  rw [hloss] at g1
  obtain ⟨⟨v', st1⟩, g2, -⟩ := bind_eq_ok.mp g1
  unfold run at g2
  obtain ⟨v1, sa, f1, -⟩ := forward_un_inv rfl g2
  obtain ⟨v2, sbb, f2, -⟩ := forward_un_inv rfl f1
  obtain ⟨stb1, f1, d1, d2, d3, d4, d5, d6⟩ : ∃ st' : St ℝ, forward (.un b op2 (.bin c op (.leaf M.gt) r)) (some (a, false)) st' = ok (v1, sa) ∧ st'.leaf = stb.leaf ∧ st'.data = stb.data ∧ st'.grad = stb.grad ∧ st'.sync = stb.sync ∧ st'.training = stb.training ∧
    st'.cache = (fun _ => none) := ⟨_, f1, rfl, rfl, rfl, rfl, rfl, rfl⟩
  obtain ⟨stb2, f2, e1, e2, e3, e4, e5, e6⟩ : ∃ st' : St ℝ, forward (.bin c op (.leaf M.gt) r) (some (b, false)) st' = ok (v2, sbb) ∧ st'.leaf = stb.leaf ∧ st'.data = stb.data ∧ st'.grad = stb.grad ∧ st'.sync = stb.sync ∧ st'.training = stb.training ∧
    st'.cache = (fun _ => none) := ⟨_, f2, rfl, rfl, rfl, rfl, rfl, rfl⟩
  have hnd := hf.nodup
  simp only [ids, List.nil_append, List.nodup_cons, List.mem_cons, not_or] at hnd
  obtain ⟨⟨n1, n2, n3⟩, ⟨n4, n5⟩, n6, n7⟩ := hnd
  have hinR : ∀ i ∈ ids (Ex.bin c op (.leaf M.gt) r), i ≠ a ∧ i ≠ b := fun i hi => by
    simp only [ids, List.nil_append, List.mem_cons] at hi
    rcases hi with rfl | hi
    · exact ⟨fun h => n2 h.symm, fun h => n4 h.symm⟩
    · exact ⟨fun h => n3 (h ▸ hi), fun h => n5 (h ▸ hi)⟩
  have hlay0 : Lay (.un a op1 (.un b op2 (.bin c op (.leaf M.gt) r))) sb.heap.length { sb with cache := fun _ => none } :=
    hlay.keep ⟨rfl, rfl, rfl, rfl, fun _ => rfl, le_refl _, rfl⟩
  obtain ⟨s3, p1, p2, p3, p4⟩ := plus_overwrites (fk := M.fk) (e := .un a op1 (.un b op2 (.bin c op (.leaf M.gt) r))) (N := sb.heap.length) (sl := some (b, false))
    (s := { sb with cache := fun _ => none }) hkc (by simp only [ids, List.nil_append, List.nodup_cons]; exact ⟨n6, n7⟩)
    (fun τ hτ => by
      cases τ with
      | leaf k => exact hτ
      | var v => exact hτ
      | grad v => exact hτ
      | opc j => exact List.mem_cons_of_mem _ (List.mem_cons_of_mem _ hτ)
      | bopc j b => exact List.mem_cons_of_mem _ (List.mem_cons_of_mem _ hτ)) hf.safe.1.1 (by rw [e1, e2]; exact hso.1.1) hlay0 (le_refl _)
    (fun _ _ => rfl) (fun _ _ => by rw [e6]) (fun j hj => by rw [e1]; exact hlf j hj) (hsim.congr rfl rfl rfl rfl rfl e2 e3 e4 e5)
    (fun j b' hj => by
      simp only [Option.some.injEq, Prod.mk.injEq] at hj
      intro hm
      exact (hinR j hm).2 hj.1.symm)
    (fun R' hR' => by
      rw [e1, e2, ← hL', ← hD', hR] at hR'
      cases hR'
      exact ⟨by rw [hsh, e1, lg'], hRne⟩) f2
  obtain ⟨x4, s4, q1, q2⟩ := fwd_ok (fk := M.fk) (e := .un a op1 (.un b op2 (.bin c op (.leaf M.gt) r))) (N := sb.heap.length) (.un b op2 (.bin c op (.leaf M.gt) r)) (some (a, false))
    { sb with cache := fun _ => none } stb1 v1 sa (by simp only [ids, List.nil_append, List.nodup_cons, List.mem_cons, not_or]; exact ⟨⟨n4, n5⟩, n6, n7⟩)
    (fun τ hτ => by
      cases τ with
      | leaf k => exact hτ
      | var v => exact hτ
      | grad v => exact hτ
      | opc j => exact List.mem_cons_of_mem _ hτ
      | bopc j b => exact List.mem_cons_of_mem _ hτ) hf.safe.1 (by rw [d1, d2]; exact hso.1) hlay0 (le_refl _)
    (fun _ _ => rfl) (fun _ _ => by rw [d6]) (fun j hj => by rw [d1]; exact hlf j hj) (hsim.congr rfl rfl rfl rfl rfl d2 d3 d4 d5)
    (fun j b' hj => by
      simp only [Option.some.injEq, Prod.mk.injEq] at hj
      obtain ⟨rfl, -⟩ := hj
      simp only [ids, List.nil_append, List.mem_cons, not_or]
      exact ⟨n1, n2, n3⟩) f1
  have hv2 : v2 = z := by
    rw [e1, e2] at p4
    have hne' : y.data ≠ [] := by
      intro h0
      rw [eval, eval, lg', assert_false (by simpa using h0)] at p4
      cases p4
    rw [eval, eval, lg', assert_true hne', bind_ok, pure_eq, bind_ok, ← hL', ← hD', hR, bind_ok, hz] at p4
    exact (ok.inj p4).symm
  subst hv2
  have hlA : sb.opc a < sb.heap.length := hlay.lt (.opc a) (by simp [InE, ids])
  have hlB : sb.opc b < sb.heap.length := hlay.lt (.opc b) (by simp [InE, ids])
  have hgE : InE (.un a op1 (.un b op2 (.bin c op (.leaf M.gt) r))) (.leaf M.gt) := by simp [InE, Train.leaves]
  have nA : outT.loc ≠ sb.opc a := by rw [← lg]; exact hlay.ne (τ := .leaf M.gt) (τ' := .opc a) hgE (by simp [InE, ids]) (by simp)
  have nB : outT.loc ≠ sb.opc b := by rw [← lg]; exact hlay.ne (τ := .leaf M.gt) (τ' := .opc b) hgE (by simp [InE, ids]) (by simp)
  rw [lg] at p2
  exact un_keeps (s := { sb with cache := fun _ => none }) hka rfl hlA q1 q2.keep (un_keeps (s := { sb with cache := fun _ => none }) hkb rfl hlB p1 p3 p2 nB q1) nA hrun'

end
end Verif.Runs
