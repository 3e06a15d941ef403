import Verif.Train.Backward
/-!
# Property C106: training passes on shared storages
-/
namespace Verif.Train
open Verif Res Tensor Graph
open Verif.Data (denote)
open Verif.Alias (denote_some denote_congr readT readT_ok)

variable {α : Type} [Zero α] [One α] [Add α] [Mul α] [Neg α] [LE α] [DecidableLE α]

omit [Zero α] [One α] [Add α] [Mul α] [Neg α] [LE α] [DecidableLE α] in
theorem Sim.congr {e : Ex α} {s s' : TSt α} {st st' : St α} (h : Sim e s st) (h1 : s'.heap = s.heap) (h2 : s'.varT = s.varT) (h3 : s'.gradT = s.gradT) (h4 : s'.sync = s.sync)
    (h5 : s'.training = s.training) (k1 : st'.data = st.data) (k2 : st'.grad = st.grad) (k3 : st'.sync = st.sync) (k4 : st'.training = st.training) : Sim e s' st' :=
  ⟨by rw [h1, h2, k1]; exact h.var, by rw [h1, h3, k2]; exact h.grad, by rw [h4, k3]; exact h.sync, by rw [h5, k4]; exact h.training⟩

/-- C106: if no operator occurs twice, every `plus` may overwrite its left operand, and the storages of place holders, variables, gradients and caches are all
different, then a training pass on shared storages - wherever the operators leave the gradients - succeeds where a pass by value does, returns the same value,
and leaves the same contents in every variable and every gradient; every place holder no `plus` overwrites keeps its contents, and all storages stay where
they are. -/
theorem training_pass_partial (eps : α) (fk : Nat → FKind) (bk : Nat → Bool → BKind) (e : Ex α) (hnd : (ids e).Nodup) (s : TSt α) (st : St α) (hsf : Safe fk e)
    (hso : Sound fk st.leaf st.data e) (hl : Lay e s.heap.length s) (hlf : ∀ k ∈ leaves e, denote s.heap (s.leafT k) = some (st.leaf k)) (hsim : Sim e s st)
    {y g : Ten α} {st1 st2 : St α} (hr : run e st = ok (y, st1)) (hb : backward eps e none g st1 = ok st2) :
    ∃ x s', hpass eps fk bk e g s = ok (x, s') ∧ denote s'.heap x = some y ∧ Sim e s' st2 ∧ Keep s s' ∧
      ∀ k ∈ leaves e, k ∉ killed fk e → denote s'.heap (s'.leafT k) = some (st.leaf k) := by
  have hsim0 : Sim e { s with cache := fun _ => none } { st with cache := fun _ => none } := hsim.congr rfl rfl rfl rfl rfl rfl rfl rfl rfl
  have kp0 : Keep s { s with cache := fun _ => none } := ⟨rfl, rfl, rfl, rfl, fun _ => rfl, le_refl _, rfl⟩
  obtain ⟨x, s1, h1, o⟩ := fwd_ok (fk := fk) (e := e) (N := s.heap.length) e none { s with cache := fun _ => none } { st with cache := fun _ => none } y st1 hnd
    (fun _ h => h) hsf hso (hl.keep kp0) (le_refl _) (fun _ _ => rfl) (fun _ _ => rfl) hlf hsim0 nofun hr
  have kp1 : Keep s s1 := kp0.trans o.keep
  -- the gradient backward starts from
  obtain ⟨n1, n2, n3, n4⟩ := leaveNew_ok s1.heap g
  let s2 : TSt α := { s1 with heap := (leaveNew s1.heap g).2 }
  have kp2 : Keep s1 s2 := ⟨rfl, rfl, rfl, rfl, fun _ => rfl, by show _ ≤ (leaveNew s1.heap g).2.length; rw [n2]; omega, rfl⟩
  have hlt : ∀ τ, InE e τ → s1.loc τ < s.heap.length := fun τ hτ => by rw [kp1.loc]; exact hl.lt τ hτ
  have hrd : ∀ q, Reads fk s1.obj e none false q → q < s1.heap.length ∧ ∀ τ, BwTag e τ → q ≠ s2.loc τ := by
    intro q hq
    rcases o.reads q hq with ⟨τ, h2, h3⟩ | ⟨h2, h3⟩
    · have hi := rdTag_in h2
      rw [show TSt.loc { s with cache := fun _ => none } τ = s.loc τ by cases τ <;> rfl] at h3
      refine ⟨?_, fun τ' hτ' => ?_⟩
      · have := hl.lt τ hi
        rw [← h3] at this
        exact lt_of_lt_of_le this kp1.grow
      · rw [kp2.loc, kp1.loc, h3]
        refine hl.ne hi (bwTag_in hτ') ?_
        rintro rfl
        cases τ <;> first | exact h2 | exact hτ'
    · refine ⟨h3, fun τ hτ => ?_⟩
      rw [kp2.loc]
      have := hlt τ (bwTag_in hτ)
      have h2' : s.heap.length ≤ q := h2
      omega
  obtain ⟨s3, h3, o3⟩ := bwd_ok (eps := eps) (fk := fk) (bk := bk) (e := e) (N := s1.heap.length) e none false (leaveNew s1.heap g).1 g s2 st1 st2 hnd (fun _ h => h) hsf nofun
    (good_congr kp2.grow e (fun q hq => n4 q (hrd q hq).1) (fun _ _ => rfl) (fun _ _ => rfl) o.good) hb
    (o.sim.frame rfl rfl rfl rfl ⟨rfl, rfl, rfl, rfl⟩ (fun v hv =>
      ⟨n4 _ (lt_of_lt_of_le (hlt (.var v) hv) kp1.grow), n4 _ (lt_of_lt_of_le (hlt (.grad v) hv) kp1.grow)⟩))
    ((((hl.keep kp1).mono kp1.grow).keep kp2)) kp2.grow n1 hrd (Or.inl n3.ge)
  -- what backward leaves alone
  have hkeep : ∀ q, q < s1.heap.length → (∀ τ, BwTag e τ → q ≠ s1.loc τ) → s3.heap[q]? = s1.heap[q]? := by
    intro q hq hq'
    rw [o3.heap q (lt_of_lt_of_le hq kp2.grow) (by rw [n3]; omega) (fun τ hτ => by rw [kp2.loc]; exact hq' τ hτ)]
    exact n4 q hq
  refine ⟨x, s3, ?_, ?_, o3.sim, (kp1.trans kp2).trans o3.keep, fun k hk hkk => ?_⟩
  · unfold hpass hrun
    rw [h1, bind_ok]
    dsimp only
    rw [show hbackward eps bk e none (leaveNew s1.heap g).1 { s1 with heap := (leaveNew s1.heap g).2 } = ok s3 from h3, bind_ok]
    rfl
  · rw [denote_congr (h := s1.heap) (hkeep _ (denote_lt o.val) (fun τ hτ => ?_))]
    · exact o.val
    · have ht := hlt τ (bwTag_in hτ)
      rcases o.res with ⟨τ', a, b⟩ | a
      · rw [b, show TSt.loc { s with cache := fun _ => none } τ' = s.loc τ' by cases τ' <;> rfl, kp1.loc]
        refine hl.ne (rdTag_in (resTag_rd a)) (bwTag_in hτ) ?_
        rintro rfl
        cases τ' <;> first | exact a | exact hτ
      · have a' : s.heap.length ≤ x.loc := a
        omega
  · have hle : InE e (.leaf k) := hk
    have e1 : s3.leafT k = s.leafT k := by rw [((kp1.trans kp2).trans o3.keep).leafT]
    have hq : (s.leafT k).loc < s.heap.length := hl.lt (.leaf k) hle
    rw [e1, denote_congr (h := s1.heap) (hkeep _ (lt_of_lt_of_le hq kp1.grow) (fun τ hτ => ?_)), denote_congr (h := s.heap) (o.heap _ hq (fun τ hτ => ?_))]
    · exact hlf k hk
    · refine hl.ne (τ := .leaf k) (τ' := τ) hle (fwTag_in hτ) ?_
      rintro rfl
      exact hkk hτ
    · rw [kp1.loc]
      refine hl.ne (τ := .leaf k) (τ' := τ) hle (bwTag_in hτ) ?_
      rintro rfl
      exact hτ

end Verif.Train
