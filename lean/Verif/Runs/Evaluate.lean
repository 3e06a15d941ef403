import Verif.Runs.Net
import Verif.Loss.Props
/-!
# Property C113: networks and `evaluate`

`evaluate` on shared storages returns the mean of the losses of the batches, and leaves the weights and the samples alone.
-/
namespace Verif.Runs
open Verif Res View Data Ops Graph Loss Optim Fit Train Descent Net
open Verif.Alias (denote_some denote_congr readT readT_ok)
open Verif.Net (Kind)
open Verif.Tensor (Tn)

noncomputable section

/-- What `evaluate` returns when the loss of batch `l` is `errs l` in every state of `P`. -/
theorem evaluate_means {σ : Type} {m : Machine σ ℝ} {inputs outputs : Ten ℝ} {bs n n' : Nat} {a b : List Nat} {XI YO : List Nat → ℝ} {P : σ → Prop} {errs : Nat → ℝ} (hbs : 0 < bs)
    (hi : inputs.Has (n :: a) XI) (ho : outputs.Has (n' :: b) YO) (hn : n ≤ n') {s : σ} (h0 : ∀ x y, P (m.phase false (m.bind x y s)))
    (hl : ∀ l s, l < n / bs → P s → ∃ s', m.loss (m.bind (batch inputs bs l) (batch outputs bs l) s) = ok (⟨[1], [errs l]⟩, s') ∧ P s') :
    ∃ f s', evaluate m inputs outputs bs s = ok ((∑ l ∈ Finset.range (n / bs), errs l) / ((n / bs : Nat) : ℝ), f) ∧ f.s = m.phase true s' ∧ P s' := by
  unfold evaluate
  rw [rd_ok (v := n) (by rw [hi.1]; rfl), bind_ok, require_true (by omega), bind_ok, buffer_ok hi, buffer_ok ho, bind_ok, bind_ok]
  dsimp only
  have hxl : (List.replicate (size (bs :: inputs.shape.tail)) (0 : ℝ)).length = bs * size inputs.shape.tail := by simp
  have hyl : (List.replicate (size (bs :: outputs.shape.tail)) (0 : ℝ)).length = bs * size outputs.shape.tail := by simp
  rw [hxl, hyl]
  obtain ⟨f, h, _, h2, h3⟩ := loop_inv (n := n / bs) (s := (⟨m.phase false (m.bind ⟨bs :: inputs.shape.tail, List.replicate (size (bs :: inputs.shape.tail)) 0⟩
        ⟨bs :: outputs.shape.tail, List.replicate (size (bs :: outputs.shape.tail)) 0⟩ s), ⟨bs :: inputs.shape.tail, List.replicate (size (bs :: inputs.shape.tail)) 0⟩,
        ⟨bs :: outputs.shape.tail, List.replicate (size (bs :: outputs.shape.tail)) 0⟩, 0, 0, [], [], []⟩ : Frame σ ℝ))
    (body := fun l f => do
      let (e, f) ← feed m inputs outputs (bs * size inputs.shape.tail) (bs * size outputs.shape.tail) l f
      pure { f with ve := f.ve + e })
    (fun i f => Buf inputs outputs bs f ∧ P f.s ∧ f.ve = ∑ l ∈ Finset.range i, errs l)
    ⟨⟨rfl, hxl, rfl, hyl⟩, h0 _ _, rfl⟩ (by
      rintro l w hlt ⟨hb, hP, hve⟩
      obtain ⟨s', j1, j2⟩ := hl l w.s hlt hP
      rw [feed_eq hi ho hn hlt hb, j1, bind_ok]
      dsimp only
      rw [show asScalar (⟨[1], [errs l]⟩ : Ten ℝ) = ok (errs l) from rfl, bind_ok, pure_eq, bind_ok]
      refine ⟨_, rfl, batch_buf hi ho hn hlt _ rfl rfl, j2, ?_⟩
      dsimp only
      rw [hve, Finset.sum_range_succ])
  rw [h, bind_ok]
  exact ⟨_, f.s, by rw [h3]; rfl, rfl, h2⟩

section
variable {O : Type} {eps k : ℝ} {opt : Opt O} {K : Kit} {ks : List Kind} {cfg : Nat → Cfg ℝ} {inp gt : Nat} {nk : Kit → Kit} {bs n n' : Nat} {a b : List Nat} {XI YO : List Nat → ℝ}
  {inputs outputs : Ten ℝ} {w : Nat → Ten ℝ} {q : Kit × List Kind} {o : O} {os : OSt} {s : HO} {fk : Nat → FKind} {bk : Nat → Bool → BKind} {U X : List Nat} {inT outT : Tn}
  {E : Kit → Nat → Ex ℝ → Ex ℝ → Ex ℝ} {fl : (List Nat → ℝ) → (List Nat → ℝ) → ℝ} {dom : (List Nat → ℝ) → Prop}

/-- C113 for networks and `evaluate`: it returns the mean of the losses of the batches for the weights the network has; it leaves them and the samples alone. -/
theorem network_evaluate_shared (hE : NetLoss eps E fl dom k (netShape ks (bs :: a))) (hS : Shares fk E (9 * ks.length) (netShape ks (bs :: a)))
    (hT : Trainable eps K ks (bs :: a) cfg w) (hkd : NetKinds fk ks 0) (hi : inputs.Has (n :: a) XI) (ho : outputs.Has (n' :: b) YO)
    (hn : n ≤ n') (hlab : netShape ks (bs :: a) = bs :: b) (hne : inp ≠ gt) (hw : ∀ v ∈ weightsOf ks, (os.st.data v).shape = (w v).shape ∧ ((w v).WF → (os.st.data v).WF))
    (hq : Holds K ks (bs :: a) w q) (hU : ∀ v ∈ weightsOf ks, v ∈ U) (hreg : ∀ r ∈ os.reg, r.1 ∈ U) (h : Rel U (List.range (9 * ks.length + 4)) [] X s os) (hX : inT.loc ∈ X)
    (hX' : outT.loc ∈ X) (hdi : denote s.t.heap inT = some inputs) (hdo : denote s.t.heap outT = some outputs) :
    ∃ g, hevaluate (netProg E nk (bs :: a) inp gt fk bk eps opt) inT outT bs (q, o, s) =
        ok ((∑ l ∈ Finset.range (n / bs), batchLoss fl ks inputs outputs bs a l os.st.data) / ((n / bs : Nat) : ℝ), g) ∧ g.s.1 = q ∧ g.s.2.1 = o ∧
      (∀ v ∈ U, denote g.s.2.2.t.heap (g.s.2.2.t.varT v) = some (os.st.data v)) ∧ denote g.s.2.2.t.heap inT = some inputs ∧ denote g.s.2.2.t.heap outT = some outputs := by
  have hbs : 0 < bs := by
    rcases Nat.eq_zero_or_pos bs with h | h
    · exact absurd (by rw [h]; simp) hT.pos
    · exact h
  have hbx : ∀ l, l < n / bs → (batch inputs bs l).WF ∧ (batch inputs bs l).shape = bs :: a := fun l hl => by
    have hx := batch_isBatch hi hl n a XI hi
    exact ⟨hx.wf, hx.1⟩
  have hby : ∀ l, l < n / bs → (batch outputs bs l).WF ∧ (batch outputs bs l).shape = netShape ks (bs :: a) := fun l hl => by
    have hy := batch_isBatch ho (lt_of_lt_of_le hl (Nat.div_le_div_right hn)) n' b YO ho
    exact ⟨hy.wf, by rw [hlab]; exact hy.1⟩
  set M := netProg E nk (bs :: a) inp gt fk bk eps opt with hM
  let P : (Kit × List Kind) × O × OSt → Prop := fun s => s.1 = q ∧ s.2.1 = o ∧ s.2.2.st.data = os.st.data ∧ s.2.2.reg = os.reg
  have hready : ∀ l s, l < n / bs → P s → Runs.Ready M U (List.range (9 * ks.length + 4)) (M.byValue.bind (batch inputs bs l) (batch outputs bs l) s) := by
    rintro l ⟨q', o', os'⟩ hl ⟨rfl, rfl, h3, h4⟩
    exact network_ready (p := ⟨w, fun _ _ => 0⟩) (w := os.st.data) hE hS hT hne hkd hw (hbx l hl) (hby l hl) hU hq (fun v _ => by rw [h3]) (by rw [h4]; exact hreg)
  have hloss : ∀ l s, l < n / bs → P s → ∃ s', M.byValue.loss (M.byValue.bind (batch inputs bs l) (batch outputs bs l) s) =
      ok (⟨[1], [batchLoss fl ks inputs outputs bs a l os.st.data]⟩, s') ∧ P s' := by
    intro l s hl hP
    have hR := hready l s hl hP
    obtain ⟨q', o', os'⟩ := s
    obtain ⟨rfl, rfl, h3, h4⟩ := hP
    dsimp only at h3 h4
    obtain ⟨x1, x2⟩ := hbx l hl
    obtain ⟨y1, y2⟩ := hby l hl
    set x := batch inputs bs l
    set y := batch outputs bs l
    set st : St ℝ := { os'.st with leaf := upd (upd os'.st.leaf inp x) gt y } with hst
    have li : st.leaf inp = x := by simp only [hst]; rw [upd_ne _ _ hne, upd_same]
    have lg : st.leaf gt = y := by simp only [hst]; rw [upd_same]
    have hxd : x.data ≠ [] := fun h => by
      have := x1
      unfold Ten.WF at this
      rw [h, x2] at this
      exact hT.pos this.symm
    have hyd : y.data ≠ [] := fun h => by
      have := y1
      unfold Ten.WF at this
      rw [h, y2] at this
      exact hT.out.pos this.symm
    have einp : Ev st.leaf st.data (.leaf inp) (bs :: a) x.at := by
      have := ev_leaf (L := st.leaf) (D := st.data) (k := inp) (by rw [li]; exact x1) (by rw [li]; exact hxd)
      rwa [li, x2] at this
    have egt : Ev st.leaf st.data (.leaf gt) (netShape ks (bs :: a)) y.at := by
      have := ev_leaf (L := st.leaf) (D := st.data) (k := gt) (by rw [lg]; exact y1) (by rw [lg]; exact hyd)
      rwa [lg, y2] at this
    have hok : NetOk q'.1 st.data q'.2 (bs :: a) := NetOk.congr hq.1 hq.2.1 q'.2 (bs :: a) (fun v hv => by
      rw [hq.2.2.1.weights] at hv
      rw [show st.data = os.st.data from h3]
      exact hw v hv) hq.2.2.2.1
    have ev := network_value q'.2 0 (bs :: a) (.leaf inp) _ hok einp
    rw [hq.2.2.1.shape, hq.2.2.1.val] at ev
    have hF : Fits1 q'.1 (netShape ks (bs :: a)) := ⟨by rw [hq.1]; exact hT.out.reduces, hT.out.ne, hT.out.ms, hT.out.rank, by rw [hq.2.1]; exact hT.out.fuel, hT.out.pos⟩
    have hev : eval st.leaf st.data (M.loss q') = ok ⟨[1], [batchLoss fl ks inputs outputs bs a l os.st.data]⟩ := by
      have := hE.value q'.1 (9 * q'.2.length) (.leaf gt) _ _ _ _ _ hF egt ev
      rw [show st.data = os.st.data from h3] at this ⊢
      exact this
    obtain ⟨st', hrun⟩ := (run_fresh_partial (M.loss q') (distinct_consistent hR.fine.nodup).1 st).1 _ hev
    refine ⟨(q', o', { os' with st := st' }), ?_, rfl, rfl, (run_keeps hrun).2.1.trans h3, h4⟩
    show (run (M.loss q') st >>= fun r => pure (r.1, (q', o', ({ os' with st := r.2 } : OSt)))) = _
    rw [hrun, bind_ok]
    rfl
  obtain ⟨f, s', f1, f2, f3⟩ := evaluate_means (m := M.byValue) (s := (q, o, os)) (P := P) hbs hi ho hn (fun x y => ⟨rfl, rfl, rfl, rfl⟩) hloss
  obtain ⟨g, g1, -, g3, g4, g5, g6⟩ := evaluate_shared (M := M) (X := X) (inT := inT) (outT := outT) hi ho hn hne h hX hX' hdi hdo (P := fun _ => P) hready (fun l s y s1 hl hP h1 => by
    obtain ⟨s2, h2, h3⟩ := hloss l s hl hP
    rw [h1] at h2
    cases h2
    exact h3) (fun x y => ⟨rfl, rfl, rfl, rfl⟩) f1
  have hfs : f.s.1 = q ∧ f.s.2.1 = o ∧ f.s.2.2.st.data = os.st.data := by
    rw [f2]
    exact ⟨f3.1, f3.2.1, f3.2.2.1⟩
  refine ⟨g, g1, g3.trans hfs.1, g4.trans hfs.2.1, fun v hv => ?_, ?_, ?_⟩
  · rw [g5.var v hv, hfs.2.2]
  · rw [denote_congr (g6 _ hX)]; exact hdi
  · rw [denote_congr (g6 _ hX')]; exact hdo

end
end
end Verif.Runs
