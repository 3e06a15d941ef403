import Verif.Train.Props
/-!
# What a training pass leaves alone

`training_pass_partial` (C106) with the two halves of the pass apart, as `fit` runs them, and with what happens to all other storages.
-/
namespace Verif.Train
open Verif Res Tensor Graph
open Verif.Data (denote)
open Verif.Alias (denote_some denote_congr readT readT_ok)

variable {α : Type} [Zero α] [One α] [Add α] [Mul α] [Neg α] [LE α] [DecidableLE α]

/-- Storages a pass may write: labels a `plus` overwrites, gradients, caches. -/
def WrTag (fk : Nat → FKind) (e : Ex α) : Tag → Prop
  | .leaf k => k ∈ killed fk e
  | .var _ => False
  | .grad v => v ∈ vars e
  | .opc i => i ∈ ids e
  | .bopc i _ => i ∈ ids e

omit [Zero α] [One α] [Add α] [Mul α] [Neg α] [LE α] [DecidableLE α] in
theorem fw_wr {fk : Nat → FKind} {e : Ex α} {τ : Tag} (h : FwTag fk e τ) : WrTag fk e τ := by
  cases τ <;> first | exact h | exact h.elim

omit [Zero α] [One α] [Add α] [Mul α] [Neg α] [LE α] [DecidableLE α] in
theorem bw_wr {fk : Nat → FKind} {e : Ex α} {τ : Tag} (h : BwTag e τ) : WrTag fk e τ := by
  cases τ <;> first | exact h | exact h.elim

omit [Zero α] [One α] [Add α] [Mul α] [Neg α] [LE α] [DecidableLE α] in
theorem wrTag_in {fk : Nat → FKind} {t : Ex α} {τ : Tag} (h : WrTag fk t τ) : InE t τ := by
  cases τ with
  | leaf k => exact killed_leaves t h
  | var v => exact h.elim
  | grad v => exact h
  | opc i => exact h
  | bopc i b => exact h

/-- One half of a pass: storages stay where they are, those it may not write keep their contents, and those of place holders keep their sizes. -/
structure Half (fk : Nat → FKind) (e : Ex α) (s : TSt α) (st' : St α) (s' : TSt α) : Prop where
  keep : Keep s s'
  sim : Sim e s' st'
  heap : ∀ q, q < s.heap.length → (∀ τ, WrTag fk e τ → q ≠ s.loc τ) → s'.heap[q]? = s.heap[q]?
  len : ∀ k ∈ leaves e, s'.heap[(s.leafT k).loc]?.map List.length = s.heap[(s.leafT k).loc]?.map List.length
  gradT : ∀ v, v ∉ vars e → s'.gradT v = s.gradT v

/-- `backward` changes gradients of variables of the expression, only. -/
theorem hbackward_gradT (eps : α) (bk : Nat → Bool → BKind) (t : Ex α) : ∀ (sl : Slot) (g : Tn) (s s' : TSt α), hbackward eps bk t sl g s = ok s' →
    ∀ v, v ∉ vars t → s'.gradT v = s.gradT v := by
  induction t with
  | leaf k => intro sl g s s' h v _; rw [hbackward] at h; cases h; rfl
  | var w c =>
    intro sl g s s' h v hv
    have hne : v ≠ w := fun h => hv (by simp [vars, h])
    rw [hbackward] at h
    unfold hvarBackward at h
    split at h
    · cases h; rfl
    · simp only [bind_eq_ok] at h
      obtain ⟨_, _, _, _, _, _, _, _, h⟩ := h
      split at h
      · simp only [bind_eq_ok, pure_eq, ok.injEq] at h
        obtain ⟨_, _, _, _, rfl⟩ := h
        exact upd_ne _ _ hne
      · simp only [bind_eq_ok, pure_eq, ok.injEq] at h
        obtain ⟨_, _, rfl⟩ := h
        exact upd_ne _ _ hne
  | un i op e ih =>
    intro sl g s s' h v hv
    rw [hbackward] at h
    simp only [bind_eq_ok] at h
    obtain ⟨_, _, _, _, _, _, _, _, _, _, h⟩ := h
    exact ih _ _ _ _ h v hv
  | bin i op l r ihl ihr =>
    intro sl g s s' h v hv
    simp only [vars, List.mem_append, not_or] at hv
    rw [hbackward] at h
    simp only [bind_eq_ok] at h
    obtain ⟨_, _, _, _, _, _, _, _, _, _, _, _, _, _, s1, h1, h2⟩ := h
    rw [ihr _ _ _ _ h2 v hv.2]
    exact ihl _ _ _ _ h1 v hv.1

/-- The run of the loss, and the pass backward after it. -/
theorem pass_frame (eps : α) (fk : Nat → FKind) (bk : Nat → Bool → BKind) (e : Ex α) (hnd : (ids e).Nodup) (s : TSt α) (st : St α) (hsf : Safe fk e)
    (hso : Sound fk st.leaf st.data e) (hl : Lay e s.heap.length s) (hlf : ∀ k ∈ leaves e, denote s.heap (s.leafT k) = some (st.leaf k)) (hsim : Sim e s st)
    {y : Ten α} {st1 : St α} (hr : run e st = ok (y, st1)) :
    ∃ x s1, hrun fk e s = ok (x, s1) ∧ denote s1.heap x = some y ∧ ((∃ τ, ResTag fk e τ ∧ x.loc = s.loc τ) ∨ s.heap.length ≤ x.loc) ∧ Half fk e s st1 s1 ∧ ∀ g st2, backward eps e none g st1 = ok st2 →
      ∃ s2, hbackward eps bk e none (leaveNew s1.heap g).1 { s1 with heap := (leaveNew s1.heap g).2 } = ok s2 ∧ denote s2.heap x = some y ∧ Half fk e s st2 s2 ∧
        ∀ k ∈ leaves e, s2.heap[(s.leafT k).loc]? = s1.heap[(s.leafT k).loc]? := by
  have hsim0 : Sim e { s with cache := fun _ => none } { st with cache := fun _ => none } := hsim.congr rfl rfl rfl rfl rfl rfl rfl rfl rfl
  have kp0 : Keep s { s with cache := fun _ => none } := ⟨rfl, rfl, rfl, rfl, fun _ => rfl, le_refl _, rfl⟩
  have loc0 : ∀ τ, TSt.loc { s with cache := fun _ => none } τ = s.loc τ := fun τ => by cases τ <;> rfl
  obtain ⟨x, s1, h1, o⟩ := fwd_ok (fk := fk) (e := e) (N := s.heap.length) e none { s with cache := fun _ => none } { st with cache := fun _ => none } y st1 hnd
    (fun _ h => h) hsf hso (hl.keep kp0) (le_refl _) (fun _ _ => rfl) (fun _ _ => rfl) hlf hsim0 nofun hr
  have kp1 : Keep s s1 := kp0.trans o.keep
  have len1 : ∀ k ∈ leaves e, s1.heap[(s.leafT k).loc]?.map List.length = s.heap[(s.leafT k).loc]?.map List.length := fun k hk =>
    o.len _ (hl.lt (.leaf k) hk) (fun i hi => hl.ne (τ := .leaf k) (τ' := .opc i) hk hi (by simp))
  refine ⟨x, s1, h1, o.val, by simpa only [loc0] using o.res, ⟨kp1, o.sim, fun q hq hq' => o.heap q hq (fun τ hτ => by rw [loc0]; exact hq' τ (fw_wr hτ)), len1, fun v _ => by rw [o.gradT]⟩, fun g st2 hb => ?_⟩
  obtain ⟨n1, n2, n3, n4⟩ := leaveNew_ok s1.heap g
  let s2 : TSt α := { s1 with heap := (leaveNew s1.heap g).2 }
  have kp2 : Keep s1 s2 := ⟨rfl, rfl, rfl, rfl, fun _ => rfl, by show _ ≤ (leaveNew s1.heap g).2.length; rw [n2]; omega, rfl⟩
  have hlt : ∀ τ, InE e τ → s1.loc τ < s.heap.length := fun τ hτ => by rw [kp1.loc]; exact hl.lt τ hτ
  have hrd : ∀ q, Reads fk s1.obj e none false q → q < s1.heap.length ∧ ∀ τ, BwTag e τ → q ≠ s2.loc τ := by
    intro q hq
    rcases o.reads q hq with ⟨τ, h2, h3⟩ | ⟨h2, h3⟩
    · have hi := rdTag_in h2
      rw [loc0] at h3
      refine ⟨?_, fun τ' hτ' => ?_⟩
      · have := hl.lt τ hi
        rw [← h3] at this
        exact lt_of_lt_of_le this kp1.grow
      · rw [kp2.loc, kp1.loc, h3]
        refine hl.ne hi (bwTag_in hτ') ?_
        rintro rfl
        cases τ <;> first | exact h2 | exact hτ'
    · refine ⟨h3, fun τ hτ => ?_⟩
      rw [kp2.loc]
      have := hlt τ (bwTag_in hτ)
      have h2' : s.heap.length ≤ q := h2
      omega
  obtain ⟨s3, h3, o3⟩ := bwd_ok (eps := eps) (fk := fk) (bk := bk) (e := e) (N := s1.heap.length) e none false (leaveNew s1.heap g).1 g s2 st1 st2 hnd (fun _ h => h) hsf nofun
    (good_congr kp2.grow e (fun q hq => n4 q (hrd q hq).1) (fun _ _ => rfl) (fun _ _ => rfl) o.good) hb
    (o.sim.frame rfl rfl rfl rfl ⟨rfl, rfl, rfl, rfl⟩ (fun v hv =>
      ⟨n4 _ (lt_of_lt_of_le (hlt (.var v) hv) kp1.grow), n4 _ (lt_of_lt_of_le (hlt (.grad v) hv) kp1.grow)⟩))
    ((((hl.keep kp1).mono kp1.grow).keep kp2)) kp2.grow n1 hrd (Or.inl n3.ge)
  -- what backward leaves alone
  have hkeep : ∀ q, q < s1.heap.length → (∀ τ, BwTag e τ → q ≠ s1.loc τ) → s3.heap[q]? = s1.heap[q]? := by
    intro q hq hq'
    rw [o3.heap q (lt_of_lt_of_le hq kp2.grow) (by rw [n3]; omega) (fun τ hτ => by rw [kp2.loc]; exact hq' τ hτ)]
    exact n4 q hq
  have hlv : ∀ k ∈ leaves e, s3.heap[(s.leafT k).loc]? = s1.heap[(s.leafT k).loc]? := fun k hk =>
    hkeep _ (lt_of_lt_of_le (hl.lt (.leaf k) hk) kp1.grow) (fun τ hτ => by
      rw [kp1.loc]
      refine hl.ne (τ := .leaf k) (τ' := τ) hk (bwTag_in hτ) ?_
      rintro rfl
      exact hτ)
  refine ⟨s3, h3, ?_, ⟨(kp1.trans kp2).trans o3.keep, o3.sim, fun q hq hq' => ?_, fun k hk => ?_, fun v hv => ?_⟩, hlv⟩
  · rw [denote_congr (h := s1.heap) (hkeep _ (denote_lt o.val) (fun τ hτ => ?_))]
    · exact o.val
    · have ht := hlt τ (bwTag_in hτ)
      rcases o.res with ⟨τ', a, b⟩ | a
      · rw [b, loc0, kp1.loc]
        refine hl.ne (rdTag_in (resTag_rd a)) (bwTag_in hτ) ?_
        rintro rfl
        cases τ' <;> first | exact a | exact hτ
      · have a' : s.heap.length ≤ x.loc := a
        omega
  · rw [hkeep q (lt_of_lt_of_le hq kp1.grow) (fun τ hτ => by rw [kp1.loc]; exact hq' τ (bw_wr hτ))]
    exact o.heap q hq (fun τ hτ => by rw [loc0]; exact hq' τ (fw_wr hτ))
  · rw [hlv k hk]
    exact len1 k hk
  · rw [hbackward_gradT eps bk e none _ _ _ h3 v hv]
    show s1.gradT v = _
    rw [o.gradT]

end Verif.Train
