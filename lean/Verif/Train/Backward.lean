import Verif.Train.Forward
/-!
# The backward half of a training pass on shared storages

Helper theorems for C106: if the fields hold what backward looks at, backward on shared storages leaves in the variables' gradients what backward by value
leaves.
-/
namespace Verif.Train
open Verif Res Tensor Graph
open Verif.Data (denote)
open Verif.Alias (denote_some denote_congr readT readT_ok)

variable {α : Type}

/-- Storages a backward pass may write to. -/
def BwTag (t : Ex α) : Tag → Prop
  | .grad v => v ∈ vars t
  | .bopc i _ => i ∈ ids t
  | _ => False

theorem bwTag_in {t : Ex α} {τ : Tag} (h : BwTag t τ) : InE t τ := by
  cases τ with
  | leaf k => exact h.elim
  | var v => exact h.elim
  | opc i => exact h.elim
  | grad v => exact h
  | bopc i b => exact h

theorem give_ok {k : BKind} {own : Nat} {gT : Tn} {g d : Ten α} {h : Heap α} (hg : denote h gT = some g) (ho : own < h.length) :
    ∃ t h', give k own gT d h = ok (t, h') ∧ denote h' t = some d ∧ h.length ≤ h'.length ∧ (∀ q, q < h.length → q ≠ gT.loc → q ≠ own → h'[q]? = h[q]?) ∧
      (t.loc = gT.loc ∨ t.loc = own ∨ h.length ≤ t.loc) := by
  cases k with
  | own =>
    obtain ⟨h', h1, h2, h3, h4⟩ := leaveAt_ok ho d
    exact ⟨_, h', h1, h2, by omega, fun q _ _ hq => h4 q hq, Or.inr (Or.inl rfl)⟩
  | fresh =>
    obtain ⟨h1, h2, h3, h4⟩ := leaveNew_ok h d
    exact ⟨(leaveNew h d).1, (leaveNew h d).2, rfl, h1, by rw [h2]; omega, fun q hq _ _ => h4 q hq, Or.inr (Or.inr h3.ge)⟩
  | inplace =>
    obtain ⟨h', h1, h2, h3, h4⟩ := leaveAt_ok (denote_lt hg) d
    exact ⟨_, h', h1, h2, by omega, fun q _ hq _ => h4 q hq, Or.inl rfl⟩
  | pass =>
    obtain ⟨h', h1, h2, h3, h4⟩ := leaveAt_ok (denote_lt hg) d
    exact ⟨_, h', h1, h2, by omega, fun q _ hq _ => h4 q hq, Or.inl rfl⟩

theorem give2_ok {k : BKind} {own : Nat} {d : Ten α} {h : Heap α} (ho : own < h.length) :
    ∃ t h', give2 k own d h = ok (t, h') ∧ denote h' t = some d ∧ h.length ≤ h'.length ∧ (∀ q, q < h.length → q ≠ own → h'[q]? = h[q]?) ∧
      (t.loc = own ∨ h.length ≤ t.loc) := by
  have new : ∃ t h', ok (leaveNew h d) = ok (t, h') ∧ denote h' t = some d ∧ h.length ≤ h'.length ∧ (∀ q, q < h.length → q ≠ own → h'[q]? = h[q]?) ∧
      (t.loc = own ∨ h.length ≤ t.loc) := by
    obtain ⟨h1, h2, h3, h4⟩ := leaveNew_ok h d
    exact ⟨(leaveNew h d).1, (leaveNew h d).2, rfl, h1, by rw [h2]; omega, fun q hq _ => h4 q hq, Or.inr h3.ge⟩
  cases k with
  | own =>
    obtain ⟨h', h1, h2, h3, h4⟩ := leaveAt_ok ho d
    exact ⟨_, h', h1, h2, by omega, fun q _ hq => h4 q hq, Or.inl rfl⟩
  | fresh => exact new
  | inplace => exact new
  | pass => exact new

variable [Zero α] [One α] [Add α] [Mul α] [Neg α] [LE α] [DecidableLE α]

/-- What a backward pass of `t` gives. -/
structure BOut (e t : Ex α) (gT : Tn) (s : TSt α) (st : St α) (s' : TSt α) (st' : St α) : Prop where
  keep : Keep s s'
  sim : Sim e s' st'
  obj : s'.obj = s.obj
  vobj : st'.obj = st.obj
  vdata : st'.data = st.data
  heap : ∀ q, q < s.heap.length → q ≠ gT.loc → (∀ τ, BwTag t τ → q ≠ s.loc τ) → s'.heap[q]? = s.heap[q]?

/-- The claim proved by induction. -/
def BwdOk (eps : α) (fk : Nat → FKind) (bk : Nat → Bool → BKind) (e : Ex α) (N : Nat) (t : Ex α) : Prop :=
  ∀ (sl : Slot) (kill : Bool) (gT : Tn) (g : Ten α) (s : TSt α) (st st' : St α), (ids t).Nodup → (∀ τ, InE t τ → InE e τ) → Safe fk t →
    (kill = true → Dead fk t) → Good fk s.heap s.obj st.obj t sl kill → backward eps t sl g st = ok st' → Sim e s st → Lay e N s → N ≤ s.heap.length →
    denote s.heap gT = some g → (∀ q, Reads fk s.obj t sl kill q → q < N ∧ ∀ τ, BwTag e τ → q ≠ s.loc τ) →
    (N ≤ gT.loc ∨ ∃ j b, j ∈ ids e ∧ j ∉ ids t ∧ gT.loc = s.bopc j b) → ∃ s', hbackward eps bk t sl gT s = ok s' ∧ BOut e t gT s st s' st'

theorem bwd_var {eps : α} {fk : Nat → FKind} {bk : Nat → Bool → BKind} {e : Ex α} {N : Nat} (v : Nat) (c : Cfg α) : BwdOk eps fk bk e N (.var v c) := by
  intro sl kill gT g s st st' hnd hin hsf hkd hgood h hsim hl hN hg hrd hgl
  have hve : v ∈ vars e := hin (.var v) (by simp [InE, vars])
  have hd := hsim.var v hve
  have hgr := hsim.grad v hve
  have hlt := denote_lt hgr
  rw [backward] at h
  rw [hbackward]
  unfold varBackward at h
  unfold hvarBackward
  by_cases ht : c.trainable = false
  · rw [if_pos ht] at h ⊢
    cases h
    exact ⟨s, rfl, Keep.refl s, hsim, rfl, rfl, rfl, fun _ _ _ _ => rfl⟩
  · rw [if_neg ht] at h ⊢
    obtain ⟨u, h1, h2⟩ := bind_eq_ok.mp h
    have hloc : ∀ (w : Ten α) (v' : Nat), (upd s.gradT v ⟨w.shape, (s.gradT v).loc⟩ v').loc = (s.gradT v').loc := by
      intro w v'
      by_cases hv : v' = v
      · subst hv; rw [upd_same]
      · rw [upd_ne _ _ hv]
    have fin : ∀ (w : Ten α) (sy : Slot → Bool) (st' : St α), st'.data = st.data → st'.grad = upd st.grad v w → st'.sync = sy → st'.training = st.training → st'.obj = st.obj →
        BOut e (.var v c) gT s st { s with heap := s.heap.set (s.gradT v).loc w.data, gradT := upd s.gradT v ⟨w.shape, (s.gradT v).loc⟩, sync := sy } st' := by
      intro w sy st' e1 e2 e3 e4 e5
      refine ⟨⟨rfl, rfl, rfl, rfl, hloc w, by simp, rfl⟩, ⟨fun v' hv' => ?_, fun v' hv' => ?_, e3.symm, by rw [e4]; exact hsim.training⟩, rfl, e5, e1, fun q hq _ hq' => ?_⟩
      · have hne : (s.gradT v).loc ≠ (s.varT v').loc := hl.ne (τ := .grad v) (τ' := .var v') hve hv' (by simp)
        dsimp only
        rw [e1, denote_congr (h := s.heap) (List.getElem?_set_ne hne)]
        exact hsim.var v' hv'
      · dsimp only
        rw [e2]
        by_cases hv : v' = v
        · subst hv
          rw [upd_same, upd_same]
          simp [denote, hlt]
        · have hne : (s.gradT v).loc ≠ (s.gradT v').loc := hl.ne (τ := .grad v) (τ' := .grad v') hve hv' (by simpa using Ne.symm hv)
          rw [upd_ne _ _ hv, upd_ne _ _ hv, denote_congr (h := s.heap) (List.getElem?_set_ne hne)]
          exact hsim.grad v' hv'
      · exact List.getElem?_set_ne (fun he => hq' (.grad v) (by simp [BwTag, vars]) he.symm)
    rw [readT_ok hgr, bind_ok, readT_ok hd, bind_ok, readT_ok hg, bind_ok, h1, bind_ok]
    by_cases hs : st.sync sl = false
    · rw [if_pos hs] at h2
      rw [if_pos (by rw [hsim.sync]; exact hs)]
      obtain ⟨w, h3, h4⟩ := bind_eq_ok.mp h2
      cases h4
      rw [h3, bind_ok, wr_ok hlt, bind_ok]
      exact ⟨_, rfl, fin w _ _ rfl rfl (by rw [hsim.sync]) rfl rfl⟩
    · rw [if_neg hs] at h2
      rw [if_neg (by rw [hsim.sync]; exact hs)]
      cases h2
      rw [wr_ok hlt, bind_ok]
      have := fin u s.sync { st with grad := upd st.grad v u } rfl rfl hsim.sync.symm rfl rfl
      exact ⟨_, rfl, this⟩

theorem bwd_un {eps : α} {fk : Nat → FKind} {bk : Nat → Bool → BKind} {e : Ex α} {N : Nat} {i : Nat} {op : UOp α} {c : Ex α} (ih : BwdOk eps fk bk e N c) :
    BwdOk eps fk bk e N (.un i op c) := by
  intro sl kill gT g s st st' hnd hin hsf hkd hgood h hsim hl hN hg hrd hgl
  have hic : i ∉ ids c := (List.nodup_cons.mp hnd).1
  have hinc : ∀ τ, InE c τ → InE e τ := by
    intro τ hτ
    refine hin τ ?_
    cases τ with
    | leaf k => exact hτ
    | var v => exact hτ
    | grad v => exact hτ
    | opc j => exact List.mem_cons_of_mem _ hτ
    | bopc j b => exact List.mem_cons_of_mem _ hτ
  have hie : InE e (.bopc i false) := hin (.bopc i false) (by simp [InE, ids])
  have hii : i ∈ ids e := hie
  rw [backward] at h
  obtain ⟨d, hb, hrest⟩ := bind_eq_ok.mp h
  rw [Good] at hgood
  obtain ⟨⟨x, k1, k2, k3⟩, ⟨y, k4, k5⟩, k6⟩ := hgood
  have hbw : op.bwd x y g = ok d := by
    rw [← hb]
    by_cases hs : fk i = .share
    · exact hsf.2 hs _ _ _ _ _ k2
    · rw [k3 hs]
      cases kill with
      | false => rw [k5 hs rfl]
      | true =>
        have := hkd rfl
        rw [Dead, if_neg hs] at this
        exact this _ _ _ _
  have hol : s.bopc i false < s.heap.length := by
    have := hl.lt _ hie
    simp only [TSt.loc] at this
    omega
  obtain ⟨t, h', p1, p2, p3, p4, p5⟩ := give_ok (k := bk i false) hg hol
  have hgne : ∀ q, q < N → (∀ τ, BwTag e τ → q ≠ s.loc τ) → q ≠ gT.loc := by
    intro q hq hq'
    rcases hgl with a | ⟨j, b, a1, a2, a3⟩
    · omega
    · rw [a3]; exact hq' (.bopc j b) a1
  have hrd' : ∀ q, Reads fk s.obj c (some (i, false)) (kill && decide (fk i = .share)) q → q < N ∧ ∀ τ, BwTag e τ → q ≠ s.loc τ :=
    fun q hq => hrd q (by rw [Reads]; exact Or.inr (Or.inr hq))
  have hsame : ∀ q, q < N → (∀ τ, BwTag e τ → q ≠ s.loc τ) → h'[q]? = s.heap[q]? :=
    fun q hq hq' => p4 q (by omega) (hgne q hq hq') (hq' (.bopc i false) hii)
  have hgv : ∀ τ, InE e τ → (∀ j b, τ ≠ .bopc j b) → h'[s.loc τ]? = s.heap[s.loc τ]? := by
    intro τ hτ hne
    have := hl.lt _ hτ
    refine p4 _ (by omega) ?_ (hl.ne hτ hie (hne i false))
    rcases hgl with a | ⟨j, b, a1, a2, a3⟩
    · omega
    · rw [a3]; exact hl.ne (τ' := .bopc j b) hτ a1 (hne j b)
  obtain ⟨s', q1, o⟩ := ih (some (i, false)) (kill && decide (fk i = .share)) t d { s with heap := h' } st st' (List.nodup_cons.mp hnd).2 hinc hsf.1
    (fun hk => by
      simp only [Bool.and_eq_true, decide_eq_true_eq] at hk
      have := hkd hk.1
      rw [Dead, if_pos hk.2] at this
      exact this)
    (good_congr p3 c (fun q hq => hsame q (hrd' q hq).1 (hrd' q hq).2) (fun _ _ => rfl) (fun _ _ => rfl) k6) hrest
    (hsim.frame rfl rfl rfl rfl ⟨rfl, rfl, rfl, rfl⟩ (fun v hv => ⟨hgv (.var v) hv nofun, hgv (.grad v) hv nofun⟩))
    (hl.keep ⟨rfl, rfl, rfl, rfl, fun _ => rfl, p3, rfl⟩) (hN.trans p3) p2
    (fun q hq => ⟨(hrd' q hq).1, fun τ hτ => by
      have := (hrd' q hq).2 τ hτ
      cases τ <;> exact this⟩)
    (by
      rcases p5 with a | a | a
      · rw [a]
        rcases hgl with b | ⟨j, b, b1, b2, b3⟩
        · exact Or.inl b
        · exact Or.inr ⟨j, b, b1, fun hj => b2 (List.mem_cons_of_mem _ hj), b3⟩
      · exact Or.inr ⟨i, false, hii, hic, a⟩
      · exact Or.inl (hN.trans a))
  have kp : Keep s { s with heap := h' } := ⟨rfl, rfl, rfl, rfl, fun _ => rfl, p3, rfl⟩
  refine ⟨s', ?_, kp.trans o.keep, o.sim, o.obj, o.vobj, o.vdata, fun q hq hq1 hq2 => ?_⟩
  · rw [hbackward, readT_ok k1, bind_ok, readT_ok k4, bind_ok, readT_ok hg, bind_ok, hbw, bind_ok, p1, bind_ok]
    exact q1
  · have hqb : q ≠ s.bopc i false := hq2 (.bopc i false) (by simp [BwTag, ids])
    have hqt : q ≠ t.loc := by
      rcases p5 with a | a | a
      · rw [a]; exact hq1
      · rw [a]; exact hqb
      · omega
    rw [o.heap q (lt_of_lt_of_le hq p3) hqt (fun τ hτ => ?_)]
    · exact p4 q hq hq1 hqb
    · have : q ≠ s.loc τ := by
        refine hq2 τ ?_
        cases τ with
        | grad v => exact hτ
        | bopc j b => exact List.mem_cons_of_mem _ hτ
        | leaf k => exact hτ.elim
        | var v => exact hτ.elim
        | opc j => exact hτ.elim
      cases τ <;> exact this

theorem bwd_bin {eps : α} {fk : Nat → FKind} {bk : Nat → Bool → BKind} {e : Ex α} {N : Nat} {i : Nat} {op : BOp α} {l r : Ex α} (ihl : BwdOk eps fk bk e N l)
    (ihr : BwdOk eps fk bk e N r) : BwdOk eps fk bk e N (.bin i op l r) := by
  intro sl kill gT g s st st' hnd hin hsf hkd hgood h hsim hl hN hg hrd hgl
  obtain ⟨hsfl, hsfr, hkl, hkr, hsp⟩ := hsf
  rw [ids, List.nodup_cons, List.nodup_append] at hnd
  obtain ⟨hi, hndl, hndr, hdis⟩ := hnd
  rw [List.mem_append, not_or] at hi
  obtain ⟨hil, hir⟩ := hi
  have hinl : ∀ τ, InE l τ → InE e τ := by
    intro τ hτ
    refine hin τ ?_
    cases τ with
    | leaf k => exact List.mem_append_left _ hτ
    | var v => exact List.mem_append_left _ hτ
    | grad v => exact List.mem_append_left _ hτ
    | opc j => exact List.mem_cons_of_mem _ (List.mem_append_left _ hτ)
    | bopc j b => exact List.mem_cons_of_mem _ (List.mem_append_left _ hτ)
  have hinr : ∀ τ, InE r τ → InE e τ := by
    intro τ hτ
    refine hin τ ?_
    cases τ with
    | leaf k => exact List.mem_append_right _ hτ
    | var v => exact List.mem_append_right _ hτ
    | grad v => exact List.mem_append_right _ hτ
    | opc j => exact List.mem_cons_of_mem _ (List.mem_append_right _ hτ)
    | bopc j b => exact List.mem_cons_of_mem _ (List.mem_append_right _ hτ)
  have hie : ∀ b, InE e (.bopc i b) := fun b => hin (.bopc i b) (by simp [InE, ids])
  have hii : i ∈ ids e := hie false
  rw [backward] at h
  obtain ⟨d, hb, hrest⟩ := bind_eq_ok.mp h
  obtain ⟨st1, hb1, hb2⟩ := bind_eq_ok.mp hrest
  rw [Good] at hgood
  obtain ⟨⟨x, k1, k2, k3⟩, ⟨y, k4, k5, k6⟩, ⟨z, k7, k8⟩, k9, k10⟩ := hgood
  have hbw : op.bwd x y z g = ok d := by
    rw [← hb]
    by_cases hs : fk i = .plus
    · exact (hsp hs).1.2 _ _ _ _ _ _ _ k2 k5
    · rw [k3 hs, k6 hs]
      cases kill with
      | false => rw [k8 hs rfl]
      | true =>
        have := hkd rfl
        rw [Dead, if_neg hs] at this
        exact this _ _ _ _ _
  have hol : ∀ b, s.bopc i b < s.heap.length := by
    intro b
    have := hl.lt _ (hie b)
    simp only [TSt.loc] at this
    omega
  obtain ⟨tl, h1, p1, p2, p3, p4, p5⟩ := give2_ok (k := bk i false) (d := d.1) (hol false)
  obtain ⟨tr, h2, r1, r2, r3, r4, r5⟩ := give2_ok (k := bk i true) (d := d.2) (lt_of_lt_of_le (hol true) p3)
  have hbb : s.bopc i false ≠ s.bopc i true := hl.ne (τ := .bopc i false) (τ' := .bopc i true) (hie false) (hie true) (by simp)
  have hoT := hl.lt _ (hie true)
  have hoF := hl.lt _ (hie false)
  simp only [TSt.loc] at hoT hoF
  -- the two gradients are in different storages
  have htl : tl.loc < h1.length := denote_lt p2
  have htr : tr.loc < h2.length := denote_lt r2
  have hlr : tr.loc ≠ tl.loc := by
    rcases p5 with a | a <;> rcases r5 with b | b
    · rw [a, b]; exact hbb.symm
    · rw [a]; omega
    · rw [b]; omega
    · omega
  have hltv : denote h2 tl = some d.1 := by
    rw [denote_congr (h := h1) (r4 _ htl ?_)]
    · exact p2
    · rcases p5 with a | a
      · rw [a]; exact hbb
      · omega
  have hsame : ∀ q, q < s.heap.length → (∀ b, q ≠ s.bopc i b) → h2[q]? = s.heap[q]? := by
    intro q hq hq'
    rw [r4 q (by omega) (hq' true), p4 q hq (hq' false)]
  have hrdl : ∀ q, Reads fk s.obj l (some (i, false)) (decide (fk i = .plus)) q → q < N ∧ ∀ τ, BwTag e τ → q ≠ s.loc τ :=
    fun q hq => hrd q (by rw [Reads]; exact Or.inr (Or.inr (Or.inr (Or.inl hq))))
  have hrdr : ∀ q, Reads fk s.obj r (some (i, true)) false q → q < N ∧ ∀ τ, BwTag e τ → q ≠ s.loc τ :=
    fun q hq => hrd q (by rw [Reads]; exact Or.inr (Or.inr (Or.inr (Or.inr hq))))
  have hgv : ∀ τ, InE e τ → (∀ j b, τ ≠ .bopc j b) → h2[s.loc τ]? = s.heap[s.loc τ]? := by
    intro τ hτ hne
    have := hl.lt _ hτ
    exact hsame _ (by omega) (fun b => hl.ne hτ (hie b) (hne i b))
  let s0 : TSt α := { s with heap := h2 }
  have kp : Keep s s0 := ⟨rfl, rfl, rfl, rfl, fun _ => rfl, p3.trans r3, rfl⟩
  obtain ⟨s1, q1, o⟩ := ihl (some (i, false)) (decide (fk i = .plus)) tl d.1 s0 st st1 hndl hinl hsfl
    (fun hk => (hsp (of_decide_eq_true hk)).2.1)
    (good_congr (p3.trans r3) l (fun q hq => hsame q (by have := (hrdl q hq).1; omega) (fun b => (hrdl q hq).2 (.bopc i b) hii)) (fun _ _ => rfl) (fun _ _ => rfl) k9) hb1
    (hsim.frame rfl rfl rfl rfl ⟨rfl, rfl, rfl, rfl⟩ (fun v hv => ⟨hgv (.var v) hv nofun, hgv (.grad v) hv nofun⟩))
    (hl.keep kp) (hN.trans kp.grow) hltv
    (fun q hq => ⟨(hrdl q hq).1, fun τ hτ => by rw [kp.loc]; exact (hrdl q hq).2 τ hτ⟩)
    (by
      rcases p5 with a | a
      · exact Or.inr ⟨i, false, hii, hil, a⟩
      · exact Or.inl (hN.trans a))
  have bwl : ∀ τ, BwTag l τ → BwTag e τ := by
    intro τ hτ
    have := hinl τ (bwTag_in hτ)
    cases τ with
    | grad v => exact this
    | bopc j b => exact this
    | leaf k => exact hτ.elim
    | var v => exact hτ.elim
    | opc j => exact hτ.elim
  have hnl : ∀ q, q < N → (∀ τ, BwTag e τ → q ≠ s.loc τ) → s1.heap[q]? = h2[q]? := by
    intro q hq hq'
    refine o.heap q (lt_of_lt_of_le (by omega) kp.grow) ?_ (fun τ hτ => by rw [kp.loc]; exact hq' τ (bwl τ hτ))
    rcases p5 with a | a
    · rw [a]; exact hq' (.bopc i false) hii
    · omega
  have hrv : denote s1.heap tr = some d.2 := by
    rw [denote_congr (h := h2) (o.heap _ htr hlr (fun τ hτ => ?_))]
    · exact r2
    · rw [kp.loc]
      have hτe := hinl τ (bwTag_in hτ)
      rcases r5 with b | b
      · rw [b]
        refine hl.ne (τ := .bopc i true) (hie true) hτe ?_
        rintro rfl
        exact hil hτ
      · have := hl.lt _ hτe
        omega
  have kp1 : Keep s s1 := kp.trans o.keep
  obtain ⟨s2, q2, o2⟩ := ihr (some (i, true)) false tr d.2 s1 st1 st' hndr hinr hsfr nofun
    (good_congr (h := h2) o.keep.grow r (fun q hq => hnl q (hrdr q hq).1 (hrdr q hq).2) (fun σ _ => by rw [o.obj]) (fun σ _ => by rw [o.vobj])
      (good_congr (ob' := s0.obj) (vb' := st.obj) (p3.trans r3) r (fun q hq => hsame q (by have := (hrdr q hq).1; omega) (fun b => (hrdr q hq).2 (.bopc i b) hii)) (fun _ _ => rfl) (fun _ _ => rfl) k10)) hb2
    o.sim (hl.keep kp1) (hN.trans kp1.grow) hrv
    (fun q hq => by
      rw [o.obj] at hq
      exact ⟨(hrdr q hq).1, fun τ hτ => by rw [kp1.loc]; exact (hrdr q hq).2 τ hτ⟩)
    (by
      rcases r5 with b | b
      · exact Or.inr ⟨i, true, hii, hir, by rw [kp1.bopc]; exact b⟩
      · exact Or.inl (by omega))
  · refine ⟨s2, ?_, kp1.trans o2.keep, o2.sim, by rw [o2.obj, o.obj], by rw [o2.vobj, o.vobj], by rw [o2.vdata, o.vdata], fun q hq hq1 hq2 => ?_⟩
    · rw [hbackward, readT_ok k1, bind_ok, readT_ok k4, bind_ok, readT_ok k7, bind_ok, readT_ok hg, bind_ok, hbw, bind_ok, p1, bind_ok]
      dsimp only
      rw [r1, bind_ok]
      dsimp only
      rw [show hbackward eps bk l (some (i, false)) tl { s with heap := h2 } = ok s1 from q1, bind_ok]
      exact q2
    · have hqb : ∀ b, q ≠ s.bopc i b := fun b => hq2 (.bopc i b) (by simp [BwTag, ids])
      have hqtl : q ≠ tl.loc := by
        rcases p5 with a | a
        · rw [a]; exact hqb false
        · omega
      have hqtr : q ≠ tr.loc := by
        rcases r5 with a | a
        · rw [a]; exact hqb true
        · omega
      have g1 := kp.grow
      have g2 := o.keep.grow
      rw [o2.heap q (lt_of_lt_of_le (lt_of_lt_of_le hq g1) g2) hqtr (fun τ hτ => ?_), o.heap q (lt_of_lt_of_le hq g1) hqtl (fun τ hτ => ?_)]
      · exact hsame q hq hqb
      · rw [kp.loc]
        refine hq2 τ ?_
        cases τ with
        | grad v => exact List.mem_append_left _ hτ
        | bopc j b => exact List.mem_cons_of_mem _ (List.mem_append_left _ hτ)
        | leaf k => exact hτ.elim
        | var v => exact hτ.elim
        | opc j => exact hτ.elim
      · rw [kp1.loc]
        refine hq2 τ ?_
        cases τ with
        | grad v => exact List.mem_append_right _ hτ
        | bopc j b => exact List.mem_cons_of_mem _ (List.mem_append_right _ hτ)
        | leaf k => exact hτ.elim
        | var v => exact hτ.elim
        | opc j => exact hτ.elim

/-- The backward pass on shared storages follows the backward pass by value. -/
theorem bwd_ok {eps : α} {fk : Nat → FKind} {bk : Nat → Bool → BKind} {e : Ex α} {N : Nat} (t : Ex α) : BwdOk eps fk bk e N t := by
  induction t with
  | leaf k =>
    intro sl kill gT g s st st' hnd hin hsf hkd hgood h hsim hl hN hg hrd hgl
    rw [backward] at h
    cases h
    exact ⟨s, rfl, Keep.refl s, hsim, rfl, rfl, rfl, fun _ _ _ _ => rfl⟩
  | var v c => exact bwd_var v c
  | un i op c ih => exact bwd_un ih
  | bin i op l r ihl ihr => exact bwd_bin ihl ihr

end Verif.Train
