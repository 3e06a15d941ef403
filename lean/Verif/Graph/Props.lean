import Verif.Graph.Diff
import Mathlib.Algebra.BigOperators.Group.Finset.Basic
import Mathlib.Data.Finset.Dedup
import Mathlib.Tactic.Linarith
/-!
# Properties C53, C54, C57
-/
namespace Verif.Graph
open Verif Res View Data

/-! ## C57: what a variable accumulates -/

section
variable {α : Type} [CommRing α] [LinearOrder α]

theorem contrib_eq (eps : α) (v : Nat) (d : α) (is : List Nat) (c : Cfg α) (hct : c.trainable = true) : ∀ (l : List (Arrival α)) (seen : List Slot),
    (∀ a ∈ l, a.v = v → a.cfg = c) → (∀ a ∈ l, ∀ b ∈ l, a.slot = b.slot → a.v = b.v) →
    contrib eps v d is l seen = ((l.filter (fun a => a.v = v)).map (fun a => a.inc.at is)).sum +
      (((l.filter (fun a => a.v = v)).map (fun a => a.slot)).toFinset \ seen.toFinset).card • regTerm eps c d := by
  intro l
  induction l with
  | nil => intro seen _ _; simp [contrib]
  | cons a l ih =>
    intro seen h1 h2
    have i1 := fun seen => ih seen (fun b hb => h1 b (List.mem_cons_of_mem _ hb))
      (fun b hb b' hb' => h2 b (List.mem_cons_of_mem _ hb) b' (List.mem_cons_of_mem _ hb'))
    by_cases hv : a.v = v
    · have hcfg := h1 a List.mem_cons_self hv
      have hf : (a :: l).filter (fun a => a.v = v) = a :: l.filter (fun a => a.v = v) := by rw [List.filter_cons_of_pos (by simpa using hv)]
      simp only [contrib, hcfg, hct, if_true, if_pos hv, hf, List.map_cons, List.sum_cons, List.toFinset_cons, i1 (a.slot :: seen)]
      by_cases hs : a.slot ∈ seen
      · rw [if_pos hs, Finset.insert_eq_of_mem (List.mem_toFinset.mpr hs), Finset.insert_sdiff_of_mem _ (List.mem_toFinset.mpr hs)]
        ring
      · rw [if_neg hs, Finset.insert_sdiff_of_notMem _ (by simpa using hs)]
        have e : ∀ A S : Finset Slot, (insert a.slot (A \ S)).card = (A \ insert a.slot S).card + 1 := by
          intro A S
          rw [Finset.sdiff_insert, ← Finset.card_erase_add_one (Finset.mem_insert_self a.slot (A \ S)), Finset.erase_insert_eq_erase]
        rw [e, add_nsmul, one_nsmul]
        ring
    · have hf : (a :: l).filter (fun a => a.v = v) = l.filter (fun a => a.v = v) := by rw [List.filter_cons_of_neg (by simpa using hv)]
      have hsl : a.slot ∉ ((l.filter (fun a => a.v = v)).map (fun a => a.slot)).toFinset := by
        simp only [List.mem_toFinset, List.mem_map, List.mem_filter, decide_eq_true_eq, not_exists, not_and]
        intro b hb hbs
        exact hv ((h2 b (List.mem_cons_of_mem _ hb.1) a List.mem_cons_self hbs).symm.trans hb.2)
      rw [hf]
      by_cases ht : a.cfg.trainable = true
      · simp only [contrib, ht, if_true, if_neg hv, zero_add, i1 (a.slot :: seen), List.toFinset_cons]
        rw [Finset.sdiff_insert_of_notMem hsl]
      · simp only [contrib, if_neg ht, i1 seen]

/-- What the gradient of a variable is after any sequence of arrivals within one pass: what it was, plus the sum of the incoming
gradients, plus the derivative of the regularisation term once for every object the variable lives in. -/
theorem gradient_accumulated (eps : α) (l : List (Arrival α)) (s : St α) (sh : Nat → List Nat) (dv gv : Nat → List Nat → α)
    (hw : ∀ a ∈ l, (s.data a.v).Has (sh a.v) (dv a.v) ∧ (s.grad a.v).Has (sh a.v) (gv a.v) ∧ a.inc.WF ∧ a.inc.shape = sh a.v)
    (hs : ∀ a ∈ l, s.sync a.slot = false) (hd : ∀ a ∈ l, ∀ b ∈ l, a.slot = b.slot → a.v = b.v) :
    ∃ s', l.foldlM (arrive eps) s = ok s' ∧ s'.data = s.data ∧ (∀ v, v ∉ l.map (·.v) → s'.grad v = s.grad v) ∧
      ∀ v ∈ l.map (·.v), ∀ c : Cfg α, c.trainable = true → (∀ a ∈ l, a.v = v → a.cfg = c) →
        (s'.grad v).Has (sh v) (fun is => gv v is + ((l.filter (fun a => a.v = v)).map (fun a => a.inc.at is)).sum +
          ((l.filter (fun a => a.v = v)).map (fun a => a.slot)).toFinset.card • regTerm eps c (dv v is)) := by
  obtain ⟨s', h1, h2, _, _, h5⟩ := arriveAll_ok eps sh dv l s [] gv hw (fun a ha => by rw [hs a ha]; simp)
  refine ⟨s', h1, h2, fun v hv => (h5 v).1 hv, fun v hv c hc hcv => ((h5 v).2 hv).congr (fun is _ => ?_)⟩
  rw [contrib_eq eps v (dv v is) is c hc l [] hcv hd]
  simp [add_assoc]

/-- C57 for a variable that lives in one object only: the gradient gains the sum of the incoming gradients and the regularisation term
once, however many gradients arrive.  Missing from the full claim: variables living in several objects, see
`regulariser_per_copy_violated`. -/
theorem variable_accumulates_partial (eps : α) (l : List (Arrival α)) (s : St α) (sh : Nat → List Nat) (dv gv : Nat → List Nat → α)
    (hw : ∀ a ∈ l, (s.data a.v).Has (sh a.v) (dv a.v) ∧ (s.grad a.v).Has (sh a.v) (gv a.v) ∧ a.inc.WF ∧ a.inc.shape = sh a.v)
    (hs : ∀ a ∈ l, s.sync a.slot = false) (hd : ∀ a ∈ l, ∀ b ∈ l, a.slot = b.slot → a.v = b.v) (v : Nat) (c : Cfg α) (hc : c.trainable = true) (slot : Slot)
    (hv : v ∈ l.map (·.v)) (hone : ∀ a ∈ l, a.v = v → a.cfg = c ∧ a.slot = slot) :
    ∃ s', l.foldlM (arrive eps) s = ok s' ∧ s'.data = s.data ∧
      (s'.grad v).Has (sh v) (fun is => gv v is + ((l.filter (fun a => a.v = v)).map (fun a => a.inc.at is)).sum + regTerm eps c (dv v is)) := by
  obtain ⟨s', h1, h2, _, h3⟩ := gradient_accumulated eps l s sh dv gv hw hs hd
  refine ⟨s', h1, h2, (h3 v hv c hc (fun a ha hav => (hone a ha hav).1)).congr (fun is _ => ?_)⟩
  have : ((l.filter (fun a => a.v = v)).map (fun a => a.slot)).toFinset = {slot} := by
    ext x
    simp only [List.mem_toFinset, List.mem_map, List.mem_filter, decide_eq_true_eq, Finset.mem_singleton]
    constructor
    · rintro ⟨a, ⟨ha, hav⟩, rfl⟩
      exact (hone a ha hav).2
    · rintro rfl
      obtain ⟨a, ha, hav⟩ := List.mem_map.mp hv
      exact ⟨a, ⟨ha, hav⟩, (hone a ha hav).2⟩
  rw [this, Finset.card_singleton, one_nsmul]

/-- C57 is false of the code: a variable that lives in two objects (it is an operand of two operators, or both operands of one) gets the
regularisation term at least twice; the gradient is not the sum of the incoming gradients plus the term. -/
theorem regulariser_per_copy_violated [IsStrictOrderedRing α] (eps : α) (l : List (Arrival α)) (s : St α) (sh : Nat → List Nat) (dv gv : Nat → List Nat → α)
    (hw : ∀ a ∈ l, (s.data a.v).Has (sh a.v) (dv a.v) ∧ (s.grad a.v).Has (sh a.v) (gv a.v) ∧ a.inc.WF ∧ a.inc.shape = sh a.v)
    (hs : ∀ a ∈ l, s.sync a.slot = false) (hd : ∀ a ∈ l, ∀ b ∈ l, a.slot = b.slot → a.v = b.v) (v : Nat) (c : Cfg α) (hc : c.trainable = true)
    (hcfg : ∀ a ∈ l, a.v = v → a.cfg = c) (a b : Arrival α) (ha : a ∈ l) (hav : a.v = v) (hb : b ∈ l) (hbv : b.v = v) (hab : a.slot ≠ b.slot)
    (is : List Nat) (hv : ValidIdx (sh v) is) (hr : regTerm eps c (dv v is) ≠ 0) :
    ∃ s', l.foldlM (arrive eps) s = ok s' ∧
      (s'.grad v).at is ≠ gv v is + ((l.filter (fun a => a.v = v)).map (fun a => a.inc.at is)).sum + regTerm eps c (dv v is) := by
  obtain ⟨s', h1, _, _, h3⟩ := gradient_accumulated eps l s sh dv gv hw hs hd
  refine ⟨s', h1, ?_⟩
  rw [(h3 v (List.mem_map.mpr ⟨a, ha, hav⟩) c hc hcfg).at_eq hv]
  have hcard : 2 ≤ ((l.filter (fun a => a.v = v)).map (fun a => a.slot)).toFinset.card := by
    have : ({a.slot, b.slot} : Finset Slot) ⊆ ((l.filter (fun a => a.v = v)).map (fun a => a.slot)).toFinset := by
      intro x hx
      simp only [Finset.mem_insert, Finset.mem_singleton] at hx
      simp only [List.mem_toFinset, List.mem_map, List.mem_filter, decide_eq_true_eq]
      rcases hx with rfl | rfl
      · exact ⟨a, ⟨ha, hav⟩, rfl⟩
      · exact ⟨b, ⟨hb, hbv⟩, rfl⟩
    calc 2 = ({a.slot, b.slot} : Finset Slot).card := (Finset.card_pair hab).symm
      _ ≤ _ := Finset.card_le_card this
  obtain ⟨k, hk⟩ := Nat.exists_eq_add_of_le hcard
  rw [hk]
  intro he
  have h0 : (k + 1) • regTerm eps c (dv v is) = 0 := by
    have := add_left_cancel he
    rw [show 2 + k = (k + 1) + 1 by omega, add_nsmul, one_nsmul] at this
    simpa using this
  rw [nsmul_eq_mul] at h0
  rcases mul_eq_zero.mp h0 with h | h
  · exact absurd h (by exact_mod_cast Nat.succ_ne_zero k)
  · exact hr h

/-- A variable with one element 3 (gradient so far 0, `l2` coefficient 1) receiving the gradients 10 and 20 through two objects: the term
`2 * 3 * 1` is added twice. -/
example : (do
    let s : St Int := ⟨fun _ => noTensor, fun _ => ⟨[1], [3]⟩, fun _ => ⟨[1], [0]⟩, fun _ => false, fun _ => ⟨noTensor, noTensor, noTensor⟩, fun _ => none, true, []⟩
    let c : Cfg Int := ⟨0, 1, true⟩
    let s ← [⟨0, c, some (5, false), ⟨[1], [10]⟩⟩, (⟨0, c, some (5, true), ⟨[1], [20]⟩⟩ : Arrival Int)].foldlM (arrive 1) s
    pure (s.grad 0).data) = ok [42] := by decide

/-- The same through one object: added once. -/
example : (do
    let s : St Int := ⟨fun _ => noTensor, fun _ => ⟨[1], [3]⟩, fun _ => ⟨[1], [0]⟩, fun _ => false, fun _ => ⟨noTensor, noTensor, noTensor⟩, fun _ => none, true, []⟩
    let c : Cfg Int := ⟨0, 1, true⟩
    let s ← [⟨0, c, some (5, false), ⟨[1], [10]⟩⟩, (⟨0, c, some (5, false), ⟨[1], [20]⟩⟩ : Arrival Int)].foldlM (arrive 1) s
    pure (s.grad 0).data) = ok [36] := by decide

end

/-! ## C53: the gradient is the derivative -/

section
variable {α : Type}

theorem arrivals_occs {L D : Nat → Ten α} (t : Ex α) : ∀ (sl : Slot) (g : Ten α) (l : List (Arrival α)), arrivals L D t sl g = ok l →
    l.map (fun a => (a.slot, a.v)) = varOccs t sl ∧ ∀ a ∈ l, (a.slot, Ex.var a.v a.cfg) ∈ occs t sl := by
  induction t with
  | leaf k => intro sl g l h; cases h; exact ⟨rfl, fun a ha => by simp at ha⟩
  | var v c =>
    intro sl g l h
    cases h
    exact ⟨rfl, fun a ha => by rw [List.mem_singleton] at ha; subst ha; simp [occs]⟩
  | un i op c ih =>
    intro sl g l h
    unfold arrivals at h
    rw [bind_eq_ok] at h
    obtain ⟨x, _, h⟩ := h
    rw [bind_eq_ok] at h
    obtain ⟨y, _, h⟩ := h
    rw [bind_eq_ok] at h
    obtain ⟨d, _, h⟩ := h
    obtain ⟨h1, h2⟩ := ih _ _ _ h
    exact ⟨h1, fun a ha => by simp only [occs, List.mem_cons]; exact Or.inr (h2 a ha)⟩
  | bin i op lhs rhs ihl ihr =>
    intro sl g l h
    unfold arrivals at h
    rw [bind_eq_ok] at h
    obtain ⟨x, _, h⟩ := h
    rw [bind_eq_ok] at h
    obtain ⟨y, _, h⟩ := h
    rw [bind_eq_ok] at h
    obtain ⟨z, _, h⟩ := h
    rw [bind_eq_ok] at h
    obtain ⟨d, _, h⟩ := h
    rw [bind_eq_ok] at h
    obtain ⟨la, ha, h⟩ := h
    rw [bind_eq_ok] at h
    obtain ⟨lb, hb, h⟩ := h
    cases h
    obtain ⟨a1, a2⟩ := ihl _ _ _ ha
    obtain ⟨b1, b2⟩ := ihr _ _ _ hb
    refine ⟨by rw [List.map_append, a1, b1]; rfl, fun a ha => ?_⟩
    simp only [occs, List.mem_cons, List.mem_append]
    rcases List.mem_append.mp ha with h | h
    · exact Or.inr (Or.inl (a2 a h))
    · exact Or.inr (Or.inr (b2 a h))

theorem varOccs_vars (t : Ex α) : ∀ sl, (varOccs t sl).map (·.2) = vars t := by
  induction t with
  | leaf k => intro _; rfl
  | var v c => intro _; rfl
  | un i op c ih => intro _; exact ih _
  | bin i op l r ihl ihr => intro _; simp only [varOccs, vars, List.map_append, ihl, ihr]

/-- After a training run the gradients of the variables are zero and their copies are marked as changed. -/
theorem run_zeroes [Zero α] {e : Ex α} (hc : Consistent e) {s s1 : St α} {y : Ten α} (htr : s.training = true) (h : run e s = ok (y, s1)) :
    (∀ p ∈ varOccs e none, Zeroed s1 p) ∧ ∀ v, (s1.grad v).shape = (s.grad v).shape ∧ (s1.grad v).data.length = (s.grad v).data.length := by
  have hsp := forward_spec hc e none { s with cache := fun _ => none } (mem_occs_self e none) (inv_start s)
  rw [show forward e none { s with cache := fun _ => none } = _ from h] at hsp
  revert hsp
  cases eval s.leaf s.data e with
  | ok z =>
    rintro ⟨s2, e1, _, mo, _, hz, _⟩
    simp only [ok.injEq, Prod.mk.injEq] at e1
    obtain ⟨_, rfl⟩ := e1
    exact ⟨hz htr, mo.gshape⟩
  | abort => intro h; cases h
  | ub => intro h; cases h

end

/-- A training run and a backward pass of an expression that has a value and whose operators send gradients of the right shapes: what the
variables hold afterwards. -/
theorem training_pass_of (eps : ℝ) (e : Ex ℝ) (hc : Consistent e) (hu : Unshared e) (s : St ℝ) (htr : s.training = true)
    {y : Ten ℝ} (hy : eval s.leaf s.data e = ok y) (hg0 : ∀ v ∈ vars e, (s.data v).WF ∧ (s.grad v).WF ∧ (s.grad v).shape = (s.data v).shape)
    (cfg : Nat → Cfg ℝ) (hcfg : ∀ p ∈ occs e none, ∀ v c, p.2 = .var v c → c = cfg v ∧ (cfg v).trainable = true) :
    ∃ s1, run e s = ok (y, s1) ∧ ∀ (g : Ten ℝ) l, arrivals s.leaf s.data e none g = ok l → (∀ a ∈ l, a.inc.WF ∧ a.inc.shape = (s.data a.v).shape) →
      ∃ s2, (∀ a ∈ l, a.v ∈ vars e) ∧ backward eps e none g s1 = ok s2 ∧ s2.data = s.data ∧ ∀ v ∈ vars e, (s2.grad v).Has (s.data v).shape (fun is =>
        ((l.filter (fun a => a.v = v)).map (fun a => a.inc.at is)).sum +
          ((varOccs e none).filter (fun p => p.2 = v)).toFinset.card • regTerm eps (cfg v) ((s.data v).at is)) := by
  classical
  obtain ⟨s1, hrun⟩ := (run_fresh_partial e hc s).1 y hy
  refine ⟨s1, hrun, fun g l l1 l2 => ?_⟩
  obtain ⟨o1, o2⟩ := arrivals_occs e none g l l1
  obtain ⟨z1, z2⟩ := run_zeroes hc htr hrun
  obtain ⟨_, i1, _, _⟩ := forward_ok hc (mem_occs_self e none) (inv_start s) hrun
  have hmem : ∀ a ∈ l, a.v ∈ vars e := by
    intro a ha
    rw [← varOccs_vars e none, ← o1, List.map_map]
    exact List.mem_map.mpr ⟨a, ha, rfl⟩
  have hzero : ∀ v ∈ vars e, (s1.grad v).Has (s.data v).shape (fun _ => 0) := by
    intro v hv
    obtain ⟨w1, w2, w3⟩ := hg0 v hv
    obtain ⟨p, hp, hpv⟩ : ∃ p ∈ varOccs e none, p.2 = v := by rw [← varOccs_vars e none] at hv; simpa using hv
    have hz := (z1 p hp).1
    rw [hpv] at hz
    have hwf : (s1.grad v).WF := by unfold Ten.WF; rw [(z2 v).1, (z2 v).2]; exact w2
    have := hwf.has
    rw [(z2 v).1, w3] at this
    refine this.congr (fun is hv => ?_)
    unfold Ten.at
    have hl : flat (s1.grad v).shape is < (s1.grad v).data.length := by rw [hwf, (z2 v).1, w3]; exact flat_lt hv
    rw [List.getD_eq_getElem?_getD, List.getElem?_eq_getElem hl]
    exact hz _ (List.getElem_mem hl)
  obtain ⟨s2, f1, f2, _, f4⟩ := gradient_accumulated eps l s1 (fun v => (s.data v).shape) (fun v => (s.data v).at) (fun _ _ => 0)
    (fun a ha => ⟨by rw [i1.data]; exact (hg0 _ (hmem a ha)).1.has, hzero _ (hmem a ha), l2 a ha⟩)
    (fun a ha => (z1 (a.slot, a.v) (by rw [← o1]; exact List.mem_map.mpr ⟨a, ha, rfl⟩)).2)
    (fun a ha b hb hab => by
      have h1 := o2 a ha
      have h2 := o2 b hb
      rw [hab] at h1
      have := slot_unique hc h1 h2
      simp only [Ex.var.injEq] at this
      exact this.1)
  refine ⟨s2, hmem, by rw [backward_arrivals_partial eps e hc hu s s1 y g l hrun l1, f1], by rw [f2]; exact i1.data, fun v hv => ?_⟩
  have hvl : v ∈ l.map (·.v) := by
    have := hv
    rw [← varOccs_vars e none, ← o1, List.map_map] at this
    exact this
  have hcfgv : ∀ a ∈ l, a.v = v → a.cfg = cfg v := by
    intro a ha hav
    have := (hcfg _ (o2 a ha) a.v a.cfg rfl).1
    rw [hav] at this; exact this
  have htv : (cfg v).trainable = true := by
    obtain ⟨a, ha, hav⟩ := List.mem_map.mp hvl
    have := (hcfg _ (o2 a ha) a.v a.cfg rfl).2
    rwa [hav] at this
  have hgv := f4 v hvl (cfg v) htv hcfgv
  refine hgv.congr (fun is _ => ?_)
  rw [zero_add]
  congr 1
  -- the number of objects
  congr 1
  have : (varOccs e none).filter (fun p => p.2 = v) = (l.filter (fun a => a.v = v)).map (fun a => (a.slot, a.v)) := by
    rw [← o1, List.filter_map]; rfl
  rw [this]
  rw [← Finset.card_image_of_injOn (s := ((l.filter (fun a => a.v = v)).map (fun a => (a.slot, a.v))).toFinset) (f := Prod.fst)]
  · congr 1
    ext x
    simp
  · intro p hp q hq hpq
    simp only [List.coe_toFinset, List.mem_map, List.mem_filter, decide_eq_true_eq, Set.mem_ofPred_eq] at hp hq
    obtain ⟨a, ⟨_, ha⟩, rfl⟩ := hp
    obtain ⟨b, ⟨_, hb⟩, rfl⟩ := hq
    simp only at hpq
    rw [hpq, ha, hb]

/-- A training run and a backward pass: what arrives at the variables and what they hold afterwards. -/
theorem training_pass (eps : ℝ) (e : Ex ℝ) (hc : Consistent e) (hu : Unshared e) (s : St ℝ) (htr : s.training = true)
    (hsm : Smooth s.leaf s.data e) (hg0 : ∀ v ∈ vars e, (s.data v).WF ∧ (s.grad v).WF ∧ (s.grad v).shape = (s.data v).shape)
    (cfg : Nat → Cfg ℝ) (hcfg : ∀ p ∈ occs e none, ∀ v c, p.2 = .var v c → c = cfg v ∧ (cfg v).trainable = true) :
    ∃ y s1, run e s = ok (y, s1) ∧ eval s.leaf s.data e = ok y ∧ ∀ g : Ten ℝ, g.WF → g.shape = y.shape → ∃ l s2, arrivals s.leaf s.data e none g = ok l ∧
      (∀ a ∈ l, a.v ∈ vars e) ∧ backward eps e none g s1 = ok s2 ∧ s2.data = s.data ∧ ∀ v ∈ vars e, (s2.grad v).Has (s.data v).shape (fun is =>
        ((l.filter (fun a => a.v = v)).map (fun a => a.inc.at is)).sum +
          ((varOccs e none).filter (fun p => p.2 = v)).toFinset.card • regTerm eps (cfg v) ((s.data v).at is)) := by
  have hconst : ∀ v ∈ vars e, Moves (fun _ => s.data v) (s.data v).shape (fun _ => 0) :=
    fun v hv => ⟨fun _ => ⟨(hg0 v hv).1, rfl⟩, fun _ _ => hasDerivAt_const _ _⟩
  obtain ⟨y0, sy, dy, r1, r2, r3⟩ := reverse (leaf := s.leaf) (θ := fun _ => s.data) (δ := fun _ _ => 0) e hsm hconst
  have hsy : (y0 0).shape = sy := (r2.1 0).2
  subst hsy
  obtain ⟨s1, hrun, h⟩ := training_pass_of eps e hc hu s htr (r1 0) hg0 cfg hcfg
  refine ⟨y0 0, s1, hrun, r1 0, fun g hg hgs => ?_⟩
  obtain ⟨l, l1, l2, _⟩ := r3 g hg hgs none
  obtain ⟨s2, h1, h2, h3, h4⟩ := h g l l1 l2
  exact ⟨l, s2, l1, h1, h2, h3, h4⟩

theorem pair_sum (sh : List Nat) (δ : List Nat → ℝ) : ∀ m : List (Arrival ℝ),
    pair sh (fun is => (m.map (fun a => a.inc.at is)).sum) δ = (m.map (fun a => pair sh a.inc.at δ)).sum := by
  intro m
  induction m with
  | nil => simp only [List.map_nil, List.sum_nil]; unfold pair; rw [sumIdx_congr (g := fun _ => (0 : ℝ) * 0) (fun is _ => by simp), sumIdx_mul_left, zero_mul]
  | cons a m ih =>
    simp only [List.map_cons, List.sum_cons]
    rw [← ih]
    unfold pair
    rw [← sumIdx_add]
    exact sumIdx_congr (fun is _ => by ring)

theorem sum_fibers {S : Finset Nat} (f : Arrival ℝ → ℝ) : ∀ l : List (Arrival ℝ), (∀ a ∈ l, a.v ∈ S) →
    (l.map f).sum = ∑ v ∈ S, ((l.filter (fun a => a.v = v)).map f).sum := by
  intro l
  induction l with
  | nil => intro _; simp
  | cons a l ih =>
    intro h
    rw [List.map_cons, List.sum_cons, ih (fun b hb => h b (List.mem_cons_of_mem _ hb))]
    have : ∀ v, (((a :: l).filter (fun a => a.v = v)).map f).sum = (if a.v = v then f a else 0) + ((l.filter (fun a => a.v = v)).map f).sum := by
      intro v
      by_cases hav : a.v = v
      · rw [List.filter_cons_of_pos (by simpa using hav), if_pos hav]; simp
      · rw [List.filter_cons_of_neg (by simpa using hav), if_neg hav]; simp
    simp only [this, Finset.sum_add_distrib, Finset.sum_ite_eq, h a List.mem_cons_self, if_true]

/-- C53 (values; `Unshared` and the operators' own correctness as hypotheses).  After a training run of `e` and a backward pass with
gradient `g`, what is stored in the variables, without the regularisation terms, is the derivative of `⟨g, value of e⟩` with respect
to all variables together: along every curve `θ` of variables through the present ones, with velocity `δ`, that value has the derivative
`Σ_v ⟨stored gradient of v, δ v⟩`.  Missing from the full claim: see `gradient_is_derivative_partial`. -/
theorem gradient_directional_partial (eps : ℝ) (e : Ex ℝ) (hc : Consistent e) (hu : Unshared e) (s : St ℝ) (htr : s.training = true)
    (hsm : Smooth s.leaf s.data e) (hg0 : ∀ v ∈ vars e, (s.data v).WF ∧ (s.grad v).WF ∧ (s.grad v).shape = (s.data v).shape)
    (cfg : Nat → Cfg ℝ) (hcfg : ∀ p ∈ occs e none, ∀ v c, p.2 = .var v c → c = cfg v ∧ (cfg v).trainable = true) :
    ∃ y s1, run e s = ok (y, s1) ∧ eval s.leaf s.data e = ok y ∧ ∀ g : Ten ℝ, g.WF → g.shape = y.shape → ∃ s2, backward eps e none g s1 = ok s2 ∧
      s2.data = s.data ∧ (∀ v ∈ vars e, (s2.grad v).WF ∧ (s2.grad v).shape = (s.data v).shape) ∧
      ∀ (θ : ℝ → Nat → Ten ℝ) (δ : Nat → List Nat → ℝ), θ 0 = s.data → (∀ v ∈ vars e, Moves (fun t => θ t v) (s.data v).shape (δ v)) →
        ∃ Y : ℝ → Ten ℝ, (∀ t, eval s.leaf (θ t) e = ok (Y t)) ∧ HasDerivAt (fun t => pair y.shape g.at (Y t).at)
          (∑ v ∈ (vars e).toFinset, pair (s.data v).shape (fun is => (s2.grad v).at is -
            ((varOccs e none).filter (fun p => p.2 = v)).toFinset.card • regTerm eps (cfg v) ((s.data v).at is)) (δ v)) 0 := by
  classical
  obtain ⟨y, s1, h1, h2, h3⟩ := training_pass eps e hc hu s htr hsm hg0 cfg hcfg
  refine ⟨y, s1, h1, h2, fun g hg hgs => ?_⟩
  obtain ⟨l, s2, l1, l2, l3, l4, l5⟩ := h3 g hg hgs
  refine ⟨s2, l3, l4, fun v hv => ⟨(l5 v hv).wf, (l5 v hv).1⟩, fun θ δ h0 hm => ?_⟩
  obtain ⟨Y, sY, dY, k1, k2, k3⟩ := reverse (leaf := s.leaf) (θ := θ) (δ := δ) e (by rw [h0]; exact hsm) (by rw [h0]; exact hm)
  refine ⟨Y, k1, ?_⟩
  have e0 := k1 0
  rw [h0, h2] at e0
  simp only [ok.injEq] at e0
  have hsY : (Y 0).shape = sY := (k2.1 0).2
  rw [← e0] at hsY
  subst hsY
  obtain ⟨l', m1, _, m3⟩ := k3 g hg hgs none
  rw [h0, l1] at m1
  simp only [ok.injEq] at m1
  subst m1
  have hd := hasDerivAt_pair k2 g.at
  rw [← m3, sum_fibers (S := (vars e).toFinset) _ l (fun a ha => List.mem_toFinset.mpr (l2 a ha))] at hd
  refine hd.congr_deriv (Finset.sum_congr rfl (fun v hv => ?_))
  rw [List.mem_toFinset] at hv
  have e1 : ∀ a ∈ l.filter (fun a => a.v = v), pair (θ 0 a.v).shape a.inc.at (δ a.v) = pair (s.data v).shape a.inc.at (δ v) := by
    intro a ha
    have : a.v = v := by simpa using (List.mem_filter.mp ha).2
    rw [this, h0]
  rw [List.map_congr_left e1, ← pair_sum]
  unfold pair
  refine sumIdx_congr (fun is his => ?_)
  dsimp only
  rw [(l5 v hv).at_eq his]
  ring

/-- C53 (values; `Unshared` and the operators' own correctness as hypotheses).  After a training run of `e` and a backward pass with
gradient `g`, the gradient stored in variable `v` is at every index the partial derivative of `⟨g, value of e⟩` with respect to that
element of `v` - which occurs in `e` any number of times - plus the regularisation term once for every object `v` lives in.

Full statement (false of the code): the same for all expressions.  Missing: operators that look at their operands and live in two objects
(`shared_operand_stale`), operators whose backward action is wrong (`Smooth`), and operators writing into the storage of
others, as tensors are passed by value here (`Verif.Alias`). -/
theorem gradient_is_derivative_partial (eps : ℝ) (e : Ex ℝ) (hc : Consistent e) (hu : Unshared e) (s : St ℝ) (htr : s.training = true)
    (hsm : Smooth s.leaf s.data e) (hg0 : ∀ v ∈ vars e, (s.data v).WF ∧ (s.grad v).WF ∧ (s.grad v).shape = (s.data v).shape)
    (cfg : Nat → Cfg ℝ) (hcfg : ∀ p ∈ occs e none, ∀ v c, p.2 = .var v c → c = cfg v ∧ (cfg v).trainable = true) :
    ∃ y s1, run e s = ok (y, s1) ∧ eval s.leaf s.data e = ok y ∧ ∀ g : Ten ℝ, g.WF → g.shape = y.shape → ∃ s2, backward eps e none g s1 = ok s2 ∧
      s2.data = s.data ∧ ∀ v ∈ vars e, ((s2.grad v).WF ∧ (s2.grad v).shape = (s.data v).shape) ∧ ∀ is, ValidIdx (s.data v).shape is →
        ∃ (Y : ℝ → Ten ℝ) (D : ℝ), (∀ h : ℝ, eval s.leaf (upd s.data v (bump (s.data v) is h)) e = ok (Y h)) ∧ HasDerivAt (fun h => pair y.shape g.at (Y h).at) D 0 ∧
          (s2.grad v).at is = D + ((varOccs e none).filter (fun p => p.2 = v)).toFinset.card • regTerm eps (cfg v) ((s.data v).at is) := by
  classical
  obtain ⟨y, s1, h1, h2, h3⟩ := gradient_directional_partial eps e hc hu s htr hsm hg0 cfg hcfg
  refine ⟨y, s1, h1, h2, fun g hg hgs => ?_⟩
  obtain ⟨s2, l1, l2, l3, l4⟩ := h3 g hg hgs
  refine ⟨s2, l1, l2, fun v hv => ⟨l3 v hv, fun is his => ?_⟩⟩
  have hwf := (hg0 v hv).1
  have h0 : upd s.data v (bump (s.data v) is 0) = s.data := by
    funext w
    by_cases hw : w = v
    · rw [hw, upd_same, bump_zero hwf his]
    · rw [upd_ne _ _ hw]
  obtain ⟨Y, k1, k2⟩ := l4 (fun h => upd s.data v (bump (s.data v) is h)) (fun w => if w = v then unitAt is else fun _ => 0) h0 (by
    intro w hw
    by_cases hwv : w = v
    · subst hwv
      simp only [if_true, upd_same]
      exact moves_bump hwf his
    · simp only [if_neg hwv, upd_ne _ _ hwv]
      exact ⟨fun _ => ⟨(hg0 w hw).1, rfl⟩, fun _ _ => hasDerivAt_const _ _⟩)
  refine ⟨Y, _, k1, k2, ?_⟩
  rw [Finset.sum_eq_single v, if_pos rfl, pair_unit his]
  · ring
  · intro w _ hw
    rw [if_neg hw, pair_zero]
  · intro h
    exact absurd (List.mem_toFinset.mpr hv) h

/-- An expression whose outermost operator need not be right: after a training run of `op( c )` and a backward pass with gradient `g`, with
`d` what the backward action of `op` sends to `c`, what is stored in the variables is the derivative of `⟨d, value of c⟩`. -/
theorem gradient_root (eps : ℝ) (i : Nat) (op : UOp ℝ) (c : Ex ℝ) (hc : Consistent (.un i op c)) (hu : Unshared (.un i op c)) (s : St ℝ) (htr : s.training = true)
    (hsm : Smooth s.leaf s.data c) (hg0 : ∀ v ∈ vars c, (s.data v).WF ∧ (s.grad v).WF ∧ (s.grad v).shape = (s.data v).shape)
    (cfg : Nat → Cfg ℝ) (hcfg : ∀ p ∈ occs (.un i op c) none, ∀ v c, p.2 = .var v c → c = cfg v ∧ (cfg v).trainable = true)
    {x y : Ten ℝ} (hx : eval s.leaf s.data c = ok x) (hy : op.fwd x = ok y) :
    ∃ s1, run (.un i op c) s = ok (y, s1) ∧ ∀ g d : Ten ℝ, op.bwd x y g = ok d → d.WF → d.shape = x.shape → ∃ s2, backward eps (.un i op c) none g s1 = ok s2 ∧
      s2.data = s.data ∧ ∀ v ∈ vars c, ((s2.grad v).WF ∧ (s2.grad v).shape = (s.data v).shape) ∧ ∀ is, ValidIdx (s.data v).shape is →
        ∃ (X : ℝ → Ten ℝ) (D : ℝ), (∀ h : ℝ, eval s.leaf (upd s.data v (bump (s.data v) is h)) c = ok (X h)) ∧
          (∀ h, (X h).WF ∧ (X h).shape = x.shape) ∧ X 0 = x ∧ HasDerivAt (fun h => pair x.shape d.at (X h).at) D 0 ∧
          (s2.grad v).at is = D + ((varOccs c (some (i, false))).filter (fun p => p.2 = v)).toFinset.card • regTerm eps (cfg v) ((s.data v).at is) := by
  classical
  have hev : eval s.leaf s.data (.un i op c) = ok y := by unfold eval; rw [hx, bind_ok, hy]
  obtain ⟨s1, hrun, H⟩ := training_pass_of eps _ hc hu s htr hev hg0 cfg hcfg
  refine ⟨s1, hrun, fun g d hd hwf hsh => ?_⟩
  -- along a curve of variables
  have curve : ∀ (θ : ℝ → Nat → Ten ℝ) (δ : Nat → List Nat → ℝ), θ 0 = s.data → (∀ v ∈ vars c, Moves (fun t => θ t v) (s.data v).shape (δ v)) →
      ∃ (X : ℝ → Ten ℝ) (l : List (Arrival ℝ)), (∀ t, eval s.leaf (θ t) c = ok (X t)) ∧ (∀ h, (X h).WF ∧ (X h).shape = x.shape) ∧ X 0 = x ∧
        arrivals s.leaf s.data (.un i op c) none g = ok l ∧ (∀ a ∈ l, a.inc.WF ∧ a.inc.shape = (s.data a.v).shape) ∧
        HasDerivAt (fun t => pair x.shape d.at (X t).at) (l.map (fun a => pair (s.data a.v).shape a.inc.at (δ a.v))).sum 0 := by
    intro θ δ h0 hm
    obtain ⟨X, sX, dX, k1, k2, k3⟩ := reverse (leaf := s.leaf) (θ := θ) (δ := δ) c (by rw [h0]; exact hsm) (by rw [h0]; exact hm)
    have e0 := k1 0
    rw [h0, hx] at e0
    simp only [ok.injEq] at e0
    have hsX : (X 0).shape = sX := (k2.1 0).2
    rw [← e0] at hsX
    subst hsX
    obtain ⟨l, m1, m2, m3⟩ := k3 d hwf hsh (some (i, false))
    rw [h0] at m1 m2 m3
    refine ⟨X, l, k1, k2.1, e0.symm, ?_, m2, ?_⟩
    · unfold arrivals
      rw [hx, bind_ok, hy, bind_ok, hd, bind_ok, m1]
    · rw [m3]; exact hasDerivAt_pair k2 d.at
  obtain ⟨_, l, _, _, _, l1, l2, _⟩ := curve (fun _ => s.data) (fun _ _ => 0) rfl
    (fun v hv => ⟨fun _ => ⟨(hg0 v hv).1, rfl⟩, fun _ _ => hasDerivAt_const _ _⟩)
  obtain ⟨s2, hmem, hb, hdat, hgr⟩ := H g l l1 l2
  refine ⟨s2, hb, hdat, fun v hv => ⟨⟨(hgr v hv).wf, (hgr v hv).1⟩, fun is his => ?_⟩⟩
  have hwfv := (hg0 v hv).1
  have h0 : upd s.data v (bump (s.data v) is 0) = s.data := by
    funext w
    by_cases hw : w = v
    · rw [hw, upd_same, bump_zero hwfv his]
    · rw [upd_ne _ _ hw]
  obtain ⟨X, l', k1, k2, k3, k4, _, k5⟩ := curve (fun h => upd s.data v (bump (s.data v) is h)) (fun w => if w = v then unitAt is else fun _ => 0) h0 (by
    intro w hw
    by_cases hwv : w = v
    · subst hwv
      simp only [if_true, upd_same]
      exact moves_bump hwfv his
    · simp only [if_neg hwv, upd_ne _ _ hwv]
      exact ⟨fun _ => ⟨(hg0 w hw).1, rfl⟩, fun _ _ => hasDerivAt_const _ _⟩)
  rw [l1] at k4
  simp only [ok.injEq] at k4
  subst k4
  refine ⟨X, _, k1, k2, k3, k5, ?_⟩
  rw [(hgr v hv).at_eq his]
  refine congrArg₂ (· + ·) ?_ rfl
  rw [sum_fibers (S := (vars c).toFinset) _ l (fun a ha => List.mem_toFinset.mpr (hmem a ha)), Finset.sum_eq_single v]
  · have e1 : ∀ a ∈ l.filter (fun a => a.v = v), pair (s.data a.v).shape a.inc.at (if a.v = v then unitAt is else fun _ => 0) = a.inc.at is := by
      intro a ha
      have : a.v = v := by simpa using (List.mem_filter.mp ha).2
      rw [this, if_pos rfl, pair_unit his]
    rw [List.map_congr_left e1]
  · intro w _ hw
    have e1 : ∀ a ∈ l.filter (fun a => a.v = w), pair (s.data a.v).shape a.inc.at (if a.v = v then unitAt is else fun _ => 0) = 0 := by
      intro a ha
      have : a.v = w := by simpa using (List.mem_filter.mp ha).2
      rw [this, if_neg hw, pair_zero]
    rw [List.map_congr_left e1]
    simp
  · intro h
    exact absurd (List.mem_toFinset.mpr hv) h

end Verif.Graph
