import Verif.Runs.Spec
import Verif.Graph.Frame
/-!
# One batch on shared storages

The run of the loss and the step of the optimizer follow those by value.
-/
namespace Verif.Runs
open Verif Res View Tensor Data Graph Optim Fit Train
open Verif.Alias (denote_some denote_congr readT readT_ok)

noncomputable section

variable {U I P X : List Nat} {s : HO} {os : OSt} {fk : Nat → FKind} {e : Ex ℝ}

theorem forall2_heap {h h' : Heap ℝ} {ts : List Tn} {cs : List (Ten ℝ)} (hts : ∀ t ∈ ts, h'[t.loc]? = h[t.loc]?) (H : List.Forall₂ (fun t c => denote h t = some c) ts cs) :
    List.Forall₂ (fun t c => denote h' t = some c) ts cs := by
  induction H with
  | nil => exact List.Forall₂.nil
  | cons h1 h2 ih => exact List.Forall₂.cons (by rw [denote_congr (hts _ (by simp))]; exact h1) (ih (fun t ht => hts t (by simp [ht])))

theorem ctx_loc {s : HO} {v : Nat} {t : Tn} (ht : t ∈ s.ctxT v) : ∃ j, j < (s.ctxT v).length ∧ s.loc (.ctx v j) = t.loc := by
  obtain ⟨j, hj, rfl⟩ := List.getElem_of_mem ht
  exact ⟨j, hj, by simp [HO.loc, List.getD_eq_getElem?_getD, hj]⟩

theorem Apart.ne (h : Apart U I P X s) {l l' : Loc} (h1 : Part U I P s l) (h2 : Part U I P s l') (hn : l ≠ l') : s.loc l ≠ s.loc l' := fun he => hn (h.inj _ _ h1 h2 he)

theorem Fine.part (hf : Fine fk U I P e) {τ : Tag} (h : InE e τ) : Part U I P s (.tag τ) := by
  cases τ with
  | leaf k => exact hf.leaves k h
  | var v => exact hf.vars v h
  | grad v => exact hf.vars v h
  | opc i => exact hf.ids i h
  | bopc i b => exact hf.ids i h

theorem Rel.lay (h : Rel U I P X s os) (hf : Fine fk U I P e) : Lay e s.t.heap.length s.t :=
  ⟨fun τ hτ => h.apart.lt (.tag τ) (hf.part hτ), fun τ τ' h1 h2 h3 => by
    have := h.apart.inj (.tag τ) (.tag τ') (hf.part h1) (hf.part h2) h3
    simpa using this⟩

theorem Rel.sim (h : Rel U I P X s os) (hf : Fine fk U I P e) : Sim e s.t os.st :=
  ⟨fun v hv => h.var v (hf.vars v hv), fun v hv => h.grad v (hf.vars v hv), h.sync, h.training⟩

/-- After a half of a pass. -/
theorem Rel.half (h : Rel U I P X s os) (hf : Fine fk U I P e) {st' : St ℝ} {t' : TSt ℝ} (hh : Half fk e s.t st' t') (hd : st'.data = os.st.data)
    (hg : ∀ v, v ∉ vars e → st'.grad v = os.st.grad v) : Rel U I P X { s with t := t' } { os with st := st' } ∧ Stays P X s { s with t := t' } := by
  have hloc : ∀ l, HO.loc { s with t := t' } l = s.loc l := fun l => by
    cases l with
    | tag τ => exact hh.keep.loc τ
    | ctx v j => rfl
  have hpart : ∀ l, Part U I P { s with t := t' } l ↔ Part U I P s l := fun l => by
    cases l with
    | tag τ => cases τ <;> exact Iff.rfl
    | ctx v j => exact Iff.rfl
  have frame : ∀ l, Part U I P s l → (∀ τ, WrTag fk e τ → l ≠ .tag τ) → t'.heap[s.loc l]? = s.t.heap[s.loc l]? := fun l hl hw =>
    hh.heap _ (h.apart.lt l hl) (fun τ hτ => h.apart.ne (l' := .tag τ) hl (hf.part (wrTag_in hτ)) (hw τ hτ))
  refine ⟨⟨⟨fun l hl => ?_, fun l l' h1 h2 h3 => ?_, fun l hl => ?_, fun q hq => ?_⟩, fun v hv => ?_, fun v hv => ?_, fun v hv => ?_, hh.sim.sync, hh.sim.training, h.reg⟩,
    hh.keep.leafT, fun q hq => ?_, fun k hk => ?_⟩
  · rw [hloc]; exact lt_of_lt_of_le (h.apart.lt l ((hpart l).mp hl)) hh.keep.grow
  · rw [hloc, hloc] at h3; exact h.apart.inj l l' ((hpart l).mp h1) ((hpart l').mp h2) h3
  · rw [hloc]; exact h.apart.away l ((hpart l).mp hl)
  · exact lt_of_lt_of_le (h.apart.ext q hq) hh.keep.grow
  · show denote t'.heap (t'.varT v) = some (st'.data v)
    rw [hh.keep.varT, hd, denote_congr (frame (.tag (.var v)) hv (fun τ hτ hc => by cases hc; exact hτ))]
    exact h.var v hv
  · show denote t'.heap (t'.gradT v) = some (st'.grad v)
    by_cases hve : v ∈ vars e
    · exact hh.sim.grad v hve
    · rw [hh.gradT v hve, hg v hve, denote_congr (frame (.tag (.grad v)) hv (fun τ hτ hc => by cases hc; exact hve hτ))]
      exact h.grad v hv
  · refine forall2_heap (fun t ht => ?_) (h.ctx v hv)
    obtain ⟨j, hj, he⟩ := ctx_loc ht
    rw [← he]
    exact frame (.ctx v j) ⟨hv, hj⟩ (fun τ _ hc => by cases hc)
  · exact hh.heap q (h.apart.ext q hq) (fun τ hτ hc => h.apart.away (.tag τ) (hf.part (wrTag_in hτ)) (by rw [← show q = s.loc (.tag τ) from hc]; exact hq))
  · by_cases hke : k ∈ Train.leaves e
    · exact hh.len k hke
    · have : t'.heap[(s.t.leafT k).loc]? = s.t.heap[(s.t.leafT k).loc]? := frame (.tag (.leaf k)) hk (fun τ hτ hc => by cases hc; exact hke (killed_leaves e hτ))
      show Option.map List.length t'.heap[(s.t.leafT k).loc]? = _
      rw [this]

/-! ### the optimizer -/

theorem readAll_ok {h : Heap ℝ} {ts : List Tn} {cs : List (Ten ℝ)} (H : List.Forall₂ (fun t c => denote h t = some c) ts cs) : readAll h ts = ok cs := by
  induction H with
  | nil => rfl
  | cons h1 h2 ih => rw [readAll, readT_ok h1, bind_ok, ih]; rfl

theorem leaveAll_ok (ys : List (Ten ℝ)) : ∀ (ts : List Tn) (h : Heap ℝ), (∀ t ∈ ts, t.loc < h.length) → (ts.map (·.loc)).Nodup →
    ∃ ts' h', leaveAll ts ys h = ok (ts', h') ∧ List.Forall₂ (fun t c => denote h' t = some c) ts' ys ∧ h.length ≤ h'.length ∧
      (∀ q, q < h.length → (∀ t ∈ ts, q ≠ t.loc) → h'[q]? = h[q]?) ∧
      (∀ (j : Nat) (t' : Tn), ts'[j]? = some t' → (∃ t, ts[j]? = some t ∧ t'.loc = t.loc) ∨ (h.length ≤ t'.loc ∧ t'.loc < h'.length)) ∧ (ts'.map (·.loc)).Nodup := by
  induction ys with
  | nil => intro ts h _ _; exact ⟨[], h, by cases ts <;> rfl, List.Forall₂.nil, le_refl _, fun _ _ _ => rfl, by simp, by simp⟩
  | cons y ys ih =>
    intro ts h hlt hnd
    cases ts with
    | nil =>
      obtain ⟨n1, n2, n3, n4⟩ := leaveNew_ok h y
      obtain ⟨ts', h', k1, k2, k3, k4, k5, k6⟩ := ih [] (leaveNew h y).2 (by simp) (by simp)
      have hnew : ∀ t ∈ ts', h.length < t.loc ∧ t.loc < h'.length := by
        intro t ht
        obtain ⟨j, hj, rfl⟩ := List.getElem_of_mem ht
        rcases k5 j _ (List.getElem?_eq_getElem hj) with ⟨t, h1, _⟩ | h1
        · simp at h1
        · exact ⟨by omega, h1.2⟩
      refine ⟨(leaveNew h y).1 :: ts', h', ?_, List.Forall₂.cons ?_ k2, by omega, fun q hq _ => ?_, fun j t' hj => Or.inr ?_, ?_⟩
      · rw [leaveAll, k1]; rfl
      · rw [denote_congr (k4 _ (by omega) (by simp))]; exact n1
      · rw [k4 q (by omega) (by simp)]; exact n4 q hq
      · cases j with
        | zero =>
          simp only [List.getElem?_cons_zero, Option.some.injEq] at hj
          subst hj
          rw [n3]
          exact ⟨le_refl _, by omega⟩
        | succ j =>
          simp only [List.getElem?_cons_succ] at hj
          have := hnew t' (List.mem_of_getElem? hj)
          exact ⟨by omega, this.2⟩
      · rw [List.map_cons, List.nodup_cons]
        refine ⟨fun hm => ?_, k6⟩
        obtain ⟨t, ht, he⟩ := List.mem_map.mp hm
        have := (hnew t ht).1
        omega
    | cons t ts =>
      obtain ⟨h1, l1, l2, l3, l4⟩ := leaveAt_ok (hlt t (by simp)) y
      rw [List.map_cons, List.nodup_cons] at hnd
      obtain ⟨ts', h', k1, k2, k3, k4, k5, k6⟩ := ih ts h1 (fun u hu => by rw [l3]; exact hlt u (by simp [hu])) hnd.2
      have hne : ∀ u ∈ ts, t.loc ≠ u.loc := fun u hu he => hnd.1 (by rw [he]; exact List.mem_map_of_mem hu)
      have htl := hlt t (by simp)
      refine ⟨⟨y.shape, t.loc⟩ :: ts', h', ?_, List.Forall₂.cons ?_ k2, by omega, fun q hq hq' => ?_, fun j t' hj => ?_, ?_⟩
      · rw [leaveAll, l1, bind_ok]
        dsimp only
        rw [k1]; rfl
      · rw [denote_congr (h := h1) (t := ⟨y.shape, t.loc⟩) (k4 _ (by show t.loc < _; omega) hne)]; exact l2
      · rw [k4 q (by omega) (fun u hu => hq' u (by simp [hu]))]
        exact l4 q (hq' t (by simp))
      · cases j with
        | zero =>
          simp only [List.getElem?_cons_zero, Option.some.injEq] at hj
          subst hj
          exact Or.inl ⟨t, by simp, rfl⟩
        | succ j =>
          simp only [List.getElem?_cons_succ] at hj ⊢
          rcases k5 j t' hj with h2 | ⟨h2, h3⟩
          · exact Or.inl h2
          · exact Or.inr ⟨by omega, h3⟩
      · rw [List.map_cons, List.nodup_cons]
        refine ⟨fun hm => ?_, k6⟩
        obtain ⟨u, hu, he⟩ := List.mem_map.mp hm
        obtain ⟨j, hj, rfl⟩ := List.getElem_of_mem hu
        dsimp only at he
        rcases k5 j _ (List.getElem?_eq_getElem hj) with ⟨w, h2, h3⟩ | ⟨h2, _⟩
        · exact hne w (List.mem_of_getElem? h2) (by rw [← he, h3])
        · omega

/-- Where a step may have left something. -/
structure Grown (U I P : List Nat) (s s' : HO) : Prop where
  grow : s.t.heap.length ≤ s'.t.heap.length
  heap : ∀ q, q < s.t.heap.length → (∀ v ∈ U, q ≠ s.loc (.tag (.var v)) ∧ q ≠ s.loc (.tag (.grad v)) ∧ ∀ j, j < (s.ctxT v).length → q ≠ s.loc (.ctx v j)) →
    s'.t.heap[q]? = s.t.heap[q]?
  locs : ∀ l, Part U I P s' l → (Part U I P s l ∧ s'.loc l = s.loc l) ∨ s.t.heap.length ≤ s'.loc l

theorem update_var (h : Rel U I P X s os) {rule : Rule} {p : Nat × Bool} (hp : p.1 ∈ U) {os' : OSt} (hu : updateVar rule os p = ok os') :
    ∃ s', hupdateVar rule s p = ok s' ∧ Rel U I P X s' os' ∧ s'.t.leafT = s.t.leafT ∧ Grown U I P s s' := by
  unfold updateVar at hu
  unfold hupdateVar
  by_cases hb : p.2 = true
  · rw [if_pos hb] at hu ⊢
    obtain ⟨⟨d, g, c⟩, hr, hu⟩ := bind_eq_ok.mp hu
    simp only [pure_eq, ok.injEq] at hu
    obtain ⟨v, b⟩ := p
    dsimp only at hp hb hr hu ⊢
    have pv : Part U I P s (.tag (.var v)) := hp
    have pg : Part U I P s (.tag (.grad v)) := hp
    have nvg : (s.t.varT v).loc ≠ (s.t.gradT v).loc := h.apart.ne pv pg (by simp)
    have lv : (s.t.varT v).loc < s.t.heap.length := h.apart.lt _ pv
    have lg : (s.t.gradT v).loc < s.t.heap.length := h.apart.lt _ pg
    obtain ⟨h1, a1, a2, a3, a4⟩ := leaveAt_ok lv d
    obtain ⟨h2, b1, b2, b3, b4⟩ := leaveAt_ok (h := h1) (by rw [a3]; exact lg) (resetT g)
    have hcl : ∀ t ∈ s.ctxT v, t.loc < h2.length ∧ t.loc ≠ (s.t.varT v).loc ∧ t.loc ≠ (s.t.gradT v).loc := by
      intro t ht
      obtain ⟨j, hj, he⟩ := ctx_loc ht
      have pc : Part U I P s (.ctx v j) := ⟨hp, hj⟩
      rw [← he]
      exact ⟨by rw [b3, a3]; exact h.apart.lt _ pc, h.apart.ne pc pv (by simp), h.apart.ne pc pg (by simp)⟩
    have hnd : ((s.ctxT v).map (·.loc)).Nodup := by
      rw [List.nodup_iff_injective_getElem]
      intro i j hij
      have hi : i.1 < (s.ctxT v).length := by simpa using i.2
      have hj : j.1 < (s.ctxT v).length := by simpa using j.2
      simp only [List.getElem_map] at hij
      have := h.apart.inj (.ctx v i.1) (.ctx v j.1) ⟨hp, hi⟩ ⟨hp, hj⟩ (by simp [HO.loc, List.getD_eq_getElem?_getD, hi, hj, hij])
      simp only [Loc.ctx.injEq, true_and] at this
      exact Fin.ext this
    obtain ⟨cT, h3, c1, c2, c3, c4, c5, c6⟩ := leaveAll_ok c (s.ctxT v) h2 (fun t ht => (hcl t ht).1) hnd
    let s' : HO := { s with t := { s.t with heap := h3, varT := upd s.t.varT v ⟨d.shape, (s.t.varT v).loc⟩, gradT := upd s.t.gradT v ⟨(resetT g).shape, (s.t.gradT v).loc⟩ },
                            ctxT := upd s.ctxT v cT }
    have len : s.t.heap.length ≤ h3.length := by omega
    have kept : ∀ q, q < s.t.heap.length → q ≠ (s.t.varT v).loc → q ≠ (s.t.gradT v).loc → (∀ t ∈ s.ctxT v, q ≠ t.loc) → h3[q]? = s.t.heap[q]? := fun q hq k1 k2 k3 => by
      rw [c4 q (by omega) k3, b4 q k2, a4 q k1]
    have locs : ∀ l, Part U I P s' l → (Part U I P s l ∧ s'.loc l = s.loc l) ∨ (s.t.heap.length ≤ s'.loc l ∧ s'.loc l < h3.length ∧ ∃ j, l = .ctx v j) := by
      intro l hl
      cases l with
      | tag τ =>
        refine Or.inl ⟨by cases τ <;> exact hl, ?_⟩
        cases τ with
        | var w =>
          show (upd s.t.varT v _ w).loc = (s.t.varT w).loc
          by_cases hw : w = v
          · subst hw; rw [upd_same]
          · rw [upd_ne _ _ hw]
        | grad w =>
          show (upd s.t.gradT v _ w).loc = (s.t.gradT w).loc
          by_cases hw : w = v
          · subst hw; rw [upd_same]
          · rw [upd_ne _ _ hw]
        | leaf k => rfl
        | opc i => rfl
        | bopc i b => rfl
      | ctx w j =>
        by_cases hw : w = v
        · subst hw
          have hj : j < (upd s.ctxT w cT w).length := hl.2
          rw [upd_same] at hj
          have e1 : s'.loc (.ctx w j) = cT[j].loc := by
            show ((upd s.ctxT w cT w).getD j ⟨[], 0⟩).loc = _
            rw [upd_same]
            simp [List.getD_eq_getElem?_getD, hj]
          rcases c5 j _ (List.getElem?_eq_getElem hj) with ⟨t, k1, k2⟩ | k1
          · have hj' : j < (s.ctxT w).length := (List.getElem?_eq_some_iff.mp k1).1
            refine Or.inl ⟨⟨hp, hj'⟩, ?_⟩
            rw [e1, k2]
            simp [HO.loc, List.getD_eq_getElem?_getD, k1]
          · exact Or.inr ⟨by rw [e1]; omega, by rw [e1]; exact k1.2, j, rfl⟩
        · have hj : j < (upd s.ctxT v cT w).length := hl.2
          rw [upd_ne _ _ hw] at hj
          refine Or.inl ⟨⟨hl.1, hj⟩, ?_⟩
          show ((upd s.ctxT v cT w).getD j ⟨[], 0⟩).loc = _
          rw [upd_ne _ _ hw]
          rfl
    have inCtx : ∀ {w j}, Part U I P s' (.ctx w j) → w = v → ∃ hj : j < cT.length, s'.loc (.ctx w j) = cT[j].loc := by
      rintro w j hl rfl
      have hj : j < (upd s.ctxT w cT w).length := hl.2
      rw [upd_same] at hj
      refine ⟨hj, ?_⟩
      show ((upd s.ctxT w cT w).getD j ⟨[], 0⟩).loc = _
      rw [upd_same]
      simp [List.getD_eq_getElem?_getD, hj]
    have other : ∀ l, Part U I P s l → l ≠ .tag (.var v) → l ≠ .tag (.grad v) → (∀ j, l ≠ .ctx v j) → h3[s.loc l]? = s.t.heap[s.loc l]? := by
      intro l hl n1 n2 n3
      refine kept _ (h.apart.lt l hl) (h.apart.ne hl pv n1) (h.apart.ne hl pg n2) (fun t ht => ?_)
      obtain ⟨j, hj, he⟩ := ctx_loc ht
      rw [← he]
      exact h.apart.ne hl ⟨hp, hj⟩ (n3 j)
    have dv : denote h3 ⟨d.shape, (s.t.varT v).loc⟩ = some d := by
      rw [denote_congr (h := h2) (t := ⟨d.shape, (s.t.varT v).loc⟩) (c4 _ (by show (s.t.varT v).loc < _; omega) (fun t ht => (hcl t ht).2.1.symm)),
        denote_congr (h := h1) (t := ⟨d.shape, (s.t.varT v).loc⟩) (b4 _ nvg)]
      exact a2
    have dg : denote h3 ⟨(resetT g).shape, (s.t.gradT v).loc⟩ = some (resetT g) := by
      rw [denote_congr (h := h2) (t := ⟨(resetT g).shape, (s.t.gradT v).loc⟩) (c4 _ (by show (s.t.gradT v).loc < _; omega) (fun t ht => (hcl t ht).2.2.symm))]
      exact b2
    refine ⟨s', ?_, ⟨⟨fun l hl => ?_, fun l l' g1 g2 g3 => ?_, fun l hl => ?_, fun q hq => ?_⟩, fun w hw => ?_, fun w hw => ?_, fun w hw => ?_, ?_, ?_, ?_⟩, rfl, ⟨len, fun q hq hq' => ?_, fun l hl => ?_⟩⟩
    · rw [readT_ok (h.var v hp), bind_ok, readT_ok (h.grad v hp), bind_ok, readAll_ok (h.ctx v hp), bind_ok, hr, bind_ok]
      dsimp only
      rw [a1, bind_ok]
      dsimp only
      rw [b1, bind_ok]
      dsimp only
      rw [c1, bind_ok]
      rfl
    · rcases locs l hl with ⟨k1, k2⟩ | ⟨_, k2, _⟩
      · rw [k2]; exact lt_of_lt_of_le (h.apart.lt l k1) len
      · exact k2
    · rcases locs l g1 with ⟨k1, k2⟩ | ⟨k1, k2, j, rfl⟩
      · rcases locs l' g2 with ⟨k3, k4⟩ | ⟨k3, _⟩
        · exact h.apart.inj l l' k1 k3 (by rw [← k2, ← k4, g3])
        · have := h.apart.lt l k1
          omega
      · rcases locs l' g2 with ⟨k3, k4⟩ | ⟨_, _, j', rfl⟩
        · have := h.apart.lt l' k3
          omega
        · obtain ⟨hj, e1⟩ := inCtx g1 rfl
          obtain ⟨hj', e2⟩ := inCtx g2 rfl
          have := (List.nodup_iff_injective_getElem.mp c6) (a₁ := ⟨j, by simpa using hj⟩) (a₂ := ⟨j', by simpa using hj'⟩) (by simp [← e1, ← e2, g3])
          simp only [Fin.mk.injEq] at this
          rw [this]
    · rcases locs l hl with ⟨k1, k2⟩ | ⟨k1, _⟩
      · rw [k2]; exact h.apart.away l k1
      · intro hm
        have := h.apart.ext _ hm
        omega
    · exact lt_of_lt_of_le (h.apart.ext q hq) len
    · rw [← hu]
      show denote h3 (upd s.t.varT v _ w) = some (upd os.st.data v d w)
      by_cases hwv : w = v
      · subst hwv; rw [upd_same, upd_same]; exact dv
      · rw [upd_ne _ _ hwv, upd_ne _ _ hwv, denote_congr (other (.tag (.var w)) hw (by simpa using hwv) (by simp) (by simp))]
        exact h.var w hw
    · rw [← hu]
      show denote h3 (upd s.t.gradT v _ w) = some (upd os.st.grad v (resetT g) w)
      by_cases hwv : w = v
      · subst hwv; rw [upd_same, upd_same]; exact dg
      · rw [upd_ne _ _ hwv, upd_ne _ _ hwv, denote_congr (other (.tag (.grad w)) hw (by simp) (by simpa using hwv) (by simp))]
        exact h.grad w hw
    · rw [← hu]
      show List.Forall₂ (fun t c => denote h3 t = some c) (upd s.ctxT v cT w) (upd os.ctx v c w)
      by_cases hwv : w = v
      · subst hwv; rw [upd_same, upd_same]; exact c2
      · rw [upd_ne _ _ hwv, upd_ne _ _ hwv]
        refine forall2_heap (fun t ht => ?_) (h.ctx w hw)
        obtain ⟨j, hj, he⟩ := ctx_loc ht
        rw [← he]
        exact other (.ctx w j) ⟨hw, hj⟩ (by simp) (by simp) (fun j' hc => by cases hc; exact hwv rfl)
    · rw [← hu]; exact h.sync
    · rw [← hu]; exact h.training
    · rw [← hu]; exact h.reg
    · obtain ⟨m1, m2, m3⟩ := hq' v hp
      refine kept q hq m1 m2 (fun t ht => ?_)
      obtain ⟨j, hj, he⟩ := ctx_loc ht
      rw [← he]
      exact m3 j hj
    · rcases locs l hl with k | ⟨k, _⟩
      · exact Or.inl k
      · exact Or.inr k
  · rw [if_neg hb] at hu ⊢
    cases hu
    refine ⟨s, rfl, h, rfl, le_refl _, fun _ _ _ => rfl, fun l hl => Or.inl ⟨hl, rfl⟩⟩

theorem Grown.refl (s : HO) : Grown U I P s s := ⟨le_refl _, fun _ _ _ => rfl, fun _ hl => Or.inl ⟨hl, rfl⟩⟩

theorem Grown.trans {s s' s'' : HO} (h : Grown U I P s s') (h' : Grown U I P s' s'') : Grown U I P s s'' := by
  refine ⟨h.grow.trans h'.grow, fun q hq hq' => ?_, fun l hl => ?_⟩
  · rw [h'.heap q (lt_of_lt_of_le hq h.grow) (fun v hv => ?_)]
    · exact h.heap q hq hq'
    · have key : ∀ l, Part U I P s' l → (Part U I P s l → q ≠ s.loc l) → q ≠ s'.loc l := by
        intro l hl hk
        rcases h.locs l hl with ⟨k1, k2⟩ | k
        · rw [k2]; exact hk k1
        · omega
      exact ⟨key (.tag (.var v)) hv (fun _ => (hq' v hv).1), key (.tag (.grad v)) hv (fun _ => (hq' v hv).2.1), fun j hj => key (.ctx v j) ⟨hv, hj⟩ (fun hp => (hq' v hv).2.2 j hp.2)⟩
  · rcases h'.locs l hl with ⟨k1, k2⟩ | k
    · rcases h.locs l k1 with ⟨k3, k4⟩ | k3
      · exact Or.inl ⟨k3, k2.trans k4⟩
      · exact Or.inr (by rw [k2]; exact k3)
    · exact Or.inr (h.grow.trans k)

theorem update_list {rule : Rule} (ps : List (Nat × Bool)) : ∀ {s : HO} {os os' : OSt}, Rel U I P X s os → (∀ p ∈ ps, p.1 ∈ U) → ps.foldlM (updateVar rule) os = ok os' →
    ∃ s', ps.foldlM (hupdateVar rule) s = ok s' ∧ Rel U I P X s' os' ∧ s'.t.leafT = s.t.leafT ∧ Grown U I P s s' := by
  induction ps with
  | nil =>
    intro s os os' h _ hu
    rw [List.foldlM_nil, pure_eq] at hu
    cases hu
    exact ⟨s, rfl, h, rfl, Grown.refl s⟩
  | cons p ps ih =>
    intro s os os' h hp hu
    rw [List.foldlM_cons] at hu
    obtain ⟨os1, h1, h2⟩ := bind_eq_ok.mp hu
    obtain ⟨s1, k1, k2, k3, k4⟩ := update_var h (hp p (by simp)) h1
    obtain ⟨s2, l1, l2, l3, l4⟩ := ih k2 (fun p hp' => hp p (by simp [hp'])) h2
    refine ⟨s2, ?_, l2, l3.trans k3, k4.trans l4⟩
    rw [List.foldlM_cons, k1, bind_ok, l1]

theorem update_all (h : Rel U I P X s os) {rule : Rule} (hp : ∀ p ∈ os.reg, p.1 ∈ U) {os' : OSt} (hu : updateAll rule os = ok os') :
    ∃ s', hupdateAll rule s = ok s' ∧ Rel U I P X s' os' ∧ s'.t.leafT = s.t.leafT ∧ Grown U I P s s' := by
  unfold hupdateAll
  rw [h.reg]
  exact update_list os.reg h hp hu

/-- A storage that is part of the program but neither a variable's nor a gradient's nor a context's stays as it is, and so do those of the user. -/
theorem Grown.other (h : Apart U I P X s) {s' : HO} (g : Grown U I P s s') {q : Nat} (hq : q < s.t.heap.length)
    (hq' : (∃ l, Part U I P s l ∧ q = s.loc l ∧ (∀ v, l ≠ .tag (.var v)) ∧ (∀ v, l ≠ .tag (.grad v)) ∧ ∀ v j, l ≠ .ctx v j) ∨ ∀ l, Part U I P s l → q ≠ s.loc l) :
    s'.t.heap[q]? = s.t.heap[q]? := by
  refine g.heap q hq (fun v hv => ?_)
  rcases hq' with ⟨l, hl, rfl, n1, n2, n3⟩ | hq'
  · exact ⟨h.ne hl (l' := .tag (.var v)) hv (n1 v), h.ne hl (l' := .tag (.grad v)) hv (n2 v), fun j hj => h.ne hl (l' := .ctx v j) ⟨hv, hj⟩ (n3 v j)⟩
  · exact ⟨hq' (.tag (.var v)) hv, hq' (.tag (.grad v)) hv, fun j hj => hq' (.ctx v j) ⟨hv, hj⟩⟩

theorem Grown.stays (h : Apart U I P X s) {s' : HO} (g : Grown U I P s s') (hl : s'.t.leafT = s.t.leafT) : Stays P X s s' := by
  refine ⟨hl, fun q hq => g.other h (h.ext q hq) (Or.inr (fun l hl he => h.away l hl (by rw [← he]; exact hq))), fun k hk => ?_⟩
  have : s'.t.heap[(s.t.leafT k).loc]? = s.t.heap[(s.t.leafT k).loc]? :=
    g.other h (h.lt (.tag (.leaf k)) hk) (Or.inl ⟨.tag (.leaf k), hk, rfl, by simp, by simp, by simp⟩)
  rw [this]

/-- One batch: the run of the loss and the step of the optimizer follow those by value.  Place holders no `plus` overwrites keep what they hold while the loss is
run; the tensor with the value of the loss keeps it while the optimizer runs, if it is not a variable itself. -/
theorem batch_sim {O : Type} (m : Opt O) (eps : ℝ) (bk : Nat → Bool → BKind) (h : Rel U I P X s os) (hf : Fine fk U I P e) (hso : Train.Sound fk os.st.leaf os.st.data e)
    (hlf : ∀ k ∈ Train.leaves e, denote s.t.heap (s.t.leafT k) = some (os.st.leaf k)) (hp : ∀ p ∈ os.reg, p.1 ∈ U) {y : Ten ℝ} {st1 : St ℝ} (hr : run e os.st = ok (y, st1)) :
    ∃ x t1, hrun fk e s.t = ok (x, t1) ∧ denote t1.heap x = some y ∧ Rel U I P X { s with t := t1 } { os with st := st1 } ∧ Stays P X s { s with t := t1 } ∧
      (∀ k ∈ P, k ∉ killed fk e → t1.heap[(s.t.leafT k).loc]? = s.t.heap[(s.t.leafT k).loc]?) ∧
      ∀ o o' os2, m.step eps e o { os with st := st1 } = ok (o', os2) → ∃ s2, hstep m eps bk e o { s with t := t1 } = ok (o', s2) ∧ Rel U I P X s2 os2 ∧ Stays P X s s2 ∧
        ((∀ v, endOf fk e ≠ .var v) → denote s2.t.heap x = some y) ∧ ∀ k ∈ P, s2.t.heap[(s.t.leafT k).loc]? = t1.heap[(s.t.leafT k).loc]? := by
  obtain ⟨x, t1, h1, h2, h3, h4, h5⟩ := pass_frame eps fk bk e hf.nodup s.t os.st hf.safe hso (h.lay hf) hlf (h.sim hf) hr
  obtain ⟨r1, r2, r3, r4⟩ := run_keeps hr
  have hgr : ∀ v, v ∉ vars e → st1.grad v = os.st.grad v := fun v hv => by
    rcases r4 v with k | ⟨k, _⟩
    · exact k
    · exact absurd k hv
  obtain ⟨R1, S1⟩ := h.half hf h4 r2 hgr
  refine ⟨x, t1, h1, h2, R1, S1, fun k hk hkk => ?_, fun o o' os2 hst => ?_⟩
  · exact h4.heap _ (h.apart.lt (.tag (.leaf k)) hk) (fun τ hτ => h.apart.ne (l := .tag (.leaf k)) (l' := .tag τ) hk (hf.part (wrTag_in hτ)) (by
      rintro hc; cases hc; exact hkk hτ))
  · unfold Opt.step at hst
    obtain ⟨os1, b1, hst⟩ := bind_eq_ok.mp hst
    obtain ⟨os2', b2, hst⟩ := bind_eq_ok.mp hst
    simp only [pure_eq, ok.injEq, Prod.mk.injEq] at hst
    obtain ⟨rfl, rfl⟩ := hst
    unfold backprop at b1
    obtain ⟨st2, c1, c2⟩ := bind_eq_ok.mp b1
    simp only [pure_eq, ok.injEq] at c2
    subst c2
    obtain ⟨t2, d1, d2, d3, d4⟩ := h5 _ _ c1
    obtain ⟨e1, e2, e3, e4, e5⟩ := backward_keeps eps e none ones1 _ _ c1
    obtain ⟨R2, S2⟩ := h.half hf d3 (e2.trans r2) (fun v hv => (e5 v hv).trans (hgr v hv))
    obtain ⟨s2, f1, f2, f3, f4⟩ := update_all R2 hp b2
    refine ⟨s2, ?_, f2, S2.trans (f4.stays R2.apart f3), fun hend => ?_, fun k hk => ?_⟩
    · unfold hstep
      rw [show hbackward eps bk e none (leaveNew t1.heap ones1).1 { t1 with heap := (leaveNew t1.heap ones1).2 } = ok t2 from d1, bind_ok, f1]
      rfl
    · rw [denote_congr (h := t2.heap) (f4.other R2.apart (denote_lt d2) ?_)]
      · exact d2
      · rcases h3 with ⟨τ, k1, k2⟩ | k
        · refine Or.inl ⟨.tag τ, hf.part (rdTag_in (resTag_rd k1)), ?_, ?_, ?_, by simp⟩
          · rw [k2]; exact (d3.keep.loc τ).symm
          · rintro v hc; cases hc; exact hend v k1
          · rintro v hc; cases hc; exact k1
        · refine Or.inr (fun l hl he => ?_)
          have := h.apart.lt l (by cases l with | tag τ => cases τ <;> exact hl | ctx v j => exact hl)
          have e6 : HO.loc { s with t := t2 } l = s.loc l := by
            cases l with
            | tag τ => exact d3.keep.loc τ
            | ctx v j => rfl
          omega
    · have d4' : t2.heap[(s.t.leafT k).loc]? = t1.heap[(s.t.leafT k).loc]? := by
        by_cases hkl : k ∈ Train.leaves e
        · exact d4 k hkl
        · have hw : ∀ τ, WrTag fk e τ → (s.t.leafT k).loc ≠ s.t.loc τ := fun τ hτ =>
            h.apart.ne (l := .tag (.leaf k)) (l' := .tag τ) hk (hf.part (wrTag_in hτ)) (by rintro hc; cases hc; exact hkl (killed_leaves e hτ))
          exact (d3.heap _ (h.apart.lt (.tag (.leaf k)) hk) hw).trans (h4.heap _ (h.apart.lt (.tag (.leaf k)) hk) hw).symm
      rw [← d4']
      have e7 : (s.t.leafT k).loc = HO.loc { s with t := t2 } (.tag (.leaf k)) := (d3.keep.loc (.leaf k)).symm
      have hk' : k ∈ P := hk
      refine f4.other R2.apart (lt_of_lt_of_le (h.apart.lt (.tag (.leaf k)) hk') d3.keep.grow) (Or.inl ⟨.tag (.leaf k), hk', e7, by simp, by simp, by simp⟩)

end
end Verif.Runs
