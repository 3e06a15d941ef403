import Verif.Graph.Once
import Verif.Basic.Inplace
import Mathlib.Algebra.Order.Ring.Defs
/-!
# The backward pass (proofs, C53, C54, C57)

`backward` sends to the variables exactly the gradients reverse-mode differentiation of the written-out expression sends
(`arrivals`), provided no operator that looks at its operands lives in two objects; what a variable does with them.
-/
namespace Verif.Graph
open Verif Res View Data

variable {α : Type}

/-! ### What arrives -/

/-- The fields of all objects below `t` hold what the backward action needs. -/
def Ready (L D : Nat → Ten α) (obj : Slot → Fields α) : Slot → Ex α → Prop
  | _, .leaf _ => True
  | _, .var _ _ => True
  | sl, .un i op c => (∃ x y, eval L D c = ok x ∧ op.fwd x = ok y ∧ (obj sl).out = y ∧ ((obj sl).inL = x ∨ ∀ x x' y g, op.bwd x y g = op.bwd x' y g)) ∧
      Ready L D obj (some (i, false)) c
  | sl, .bin i op l r => (∃ x y z, eval L D l = ok x ∧ eval L D r = ok y ∧ op.fwd x y = ok z ∧ (obj sl).out = z ∧
        ((obj sl).inL = x ∧ (obj sl).inR = y ∨ ∀ x x' y y' z g, op.bwd x y z g = op.bwd x' y' z g)) ∧
      Ready L D obj (some (i, false)) l ∧ Ready L D obj (some (i, true)) r

theorem ready_of_done [Zero α] {e : Ex α} {L D : Nat → Ten α} {s : St α} (hu : Unshared e) (hi : Inv e L D s) (t : Ex α) :
    ∀ sl, (sl, t) ∈ occs e none → Done L D s sl t → Ready L D s.obj sl t := by
  induction t with
  | leaf k => intro _ _ _; trivial
  | var v c => intro _ _ _; trivial
  | un i op c ih =>
    intro sl ho hd
    obtain ⟨h1, h2⟩ := hd i rfl
    have hch := hi.child _ ho i rfl h1 false c rfl
    refine ⟨?_, ih _ (occs_child_un ho) hch⟩
    have h2' := h2
    unfold eval at h2'
    rw [bind_eq_ok] at h2'
    obtain ⟨x, hx, hy⟩ := h2'
    refine ⟨x, _, hx, hy, rfl, ?_⟩
    by_cases hg : (Ex.un i op c).IgnoresInput
    · exact Or.inr hg
    · left
      have := hi.inputs _ ho i rfl h1 (fun q hq hqi => by
        rcases hu _ ho _ hq i rfl hqi with h | h
        · exact h.symm
        · exact absurd h hg) false c rfl
      rw [hx] at this
      simpa [side] using this.symm
  | bin i op l r ihl ihr =>
    intro sl ho hd
    obtain ⟨h1, h2⟩ := hd i rfl
    refine ⟨?_, ihl _ (occs_child_bin ho).1 (hi.child _ ho i rfl h1 false l rfl), ihr _ (occs_child_bin ho).2 (hi.child _ ho i rfl h1 true r rfl)⟩
    have h2' := h2
    unfold eval at h2'
    rw [bind_eq_ok] at h2'
    obtain ⟨x, hx, h2'⟩ := h2'
    rw [bind_eq_ok] at h2'
    obtain ⟨y, hy, hz⟩ := h2'
    refine ⟨x, y, _, hx, hy, hz, rfl, ?_⟩
    by_cases hg : (Ex.bin i op l r).IgnoresInput
    · exact Or.inr hg
    · left
      have key := hi.inputs _ ho i rfl h1 (fun q hq hqi => by
        rcases hu _ ho _ hq i rfl hqi with h | h
        · exact h.symm
        · exact absurd h hg)
      have k1 := key false l rfl
      have k2 := key true r rfl
      rw [hx] at k1
      rw [hy] at k2
      exact ⟨by simpa [side] using k1.symm, by simpa [side] using k2.symm⟩

section
variable [Zero α] [One α] [Add α] [Mul α] [Neg α] [LE α] [DecidableLE α]

/-- One gradient arriving at a variable. -/
def arrive (eps : α) (s : St α) (a : Arrival α) : Res (St α) := varBackward eps a.v a.cfg a.slot a.inc s

theorem varBackward_obj {eps : α} {v : Nat} {c : Cfg α} {slot : Slot} {inc : Ten α} {s s' : St α} (h : varBackward eps v c slot inc s = ok s') :
    s'.obj = s.obj := by
  unfold varBackward at h
  split at h
  · cases h; rfl
  · rw [bind_eq_ok] at h
    obtain ⟨g, _, h⟩ := h
    split at h
    · rw [bind_eq_ok] at h
      obtain ⟨g', _, h⟩ := h
      cases h; rfl
    · cases h; rfl

theorem arriveAll_obj {eps : α} {l : List (Arrival α)} {s s' : St α} (h : l.foldlM (arrive eps) s = ok s') : s'.obj = s.obj := by
  induction l generalizing s with
  | nil => cases h; rfl
  | cons a l ih =>
    rw [List.foldlM_cons, bind_eq_ok] at h
    obtain ⟨s1, h1, h⟩ := h
    rw [ih h, varBackward_obj h1]

/-- The backward pass over objects with the right fields. -/
theorem backward_ready {L D : Nat → Ten α} (eps : α) (t : Ex α) : ∀ (sl : Slot) (s : St α) (g : Ten α) (l : List (Arrival α)),
    Ready L D s.obj sl t → arrivals L D t sl g = ok l → backward eps t sl g s = l.foldlM (arrive eps) s := by
  induction t with
  | leaf k => intro sl s g l _ h; cases h; rfl
  | var v c =>
    intro sl s g l _ h
    cases h
    simp only [backward, List.foldlM_cons, List.foldlM_nil, arrive]
    cases varBackward eps v c sl g s <;> rfl
  | un i op c ih =>
    intro sl s g l hr h
    obtain ⟨⟨x, y, hx, hy, ho, hin⟩, hr⟩ := hr
    unfold arrivals at h
    rw [hx, bind_ok, hy, bind_ok, bind_eq_ok] at h
    obtain ⟨d, hd, h⟩ := h
    unfold backward
    have : op.bwd (s.obj sl).inL (s.obj sl).out g = ok d := by
      rcases hin with h | h
      · rw [h, ho, hd]
      · rw [ho, h _ x, hd]
    rw [this, bind_ok]
    exact ih _ s d l hr h
  | bin i op lhs rhs ihl ihr =>
    intro sl s g l hr h
    obtain ⟨⟨x, y, z, hx, hy, hz, ho, hin⟩, hrl, hrr⟩ := hr
    unfold arrivals at h
    rw [hx, bind_ok, hy, bind_ok, hz, bind_ok, bind_eq_ok] at h
    obtain ⟨d, hd, h⟩ := h
    rw [bind_eq_ok] at h
    obtain ⟨la, ha, h⟩ := h
    rw [bind_eq_ok] at h
    obtain ⟨lb, hb, h⟩ := h
    cases h
    unfold backward
    have : op.bwd (s.obj sl).inL (s.obj sl).inR (s.obj sl).out g = ok d := by
      rcases hin with ⟨h1, h2⟩ | h
      · rw [h1, h2, ho, hd]
      · rw [ho, h _ x _ y, hd]
    rw [this, bind_ok, ihl _ s d.1 la hrl ha, List.foldlM_append]
    cases hs : la.foldlM (arrive eps) s with
    | abort => rfl
    | ub => rfl
    | ok s1 =>
      rw [bind_ok, bind_ok]
      exact ihr _ s1 d.2 lb (by rw [arriveAll_obj hs]; exact hrr) hb

end

/-- After a run the backward pass sends to the variables what reverse-mode differentiation of the written-out expression sends.
`Unshared` is not a property of all programs, see `shared_operand_stale`. -/
theorem backward_arrivals_partial [Zero α] [One α] [Add α] [Mul α] [Neg α] [LE α] [DecidableLE α] (eps : α) (e : Ex α) (hc : Consistent e) (hu : Unshared e) (s s1 : St α)
    (y g : Ten α) (l : List (Arrival α)) (h : run e s = ok (y, s1)) (hl : arrivals s.leaf s.data e none g = ok l) :
    backward eps e none g s1 = l.foldlM (arrive eps) s1 := by
  obtain ⟨_, i1, _, d1⟩ := forward_ok hc (mem_occs_self e none) (inv_start s) h
  exact backward_ready eps e none s1 g l (ready_of_done hu i1 e none (mem_occs_self e none) d1) hl

/-! ### What a variable does with it -/

section
variable [CommRing α] [LinearOrder α]

/-- The derivative of the regularisation term `l1 |d| + l2 d²` (with sign 1 at 0), dropped if the coefficient is below `eps`. -/
def regTerm (eps : α) (c : Cfg α) (d : α) : α :=
  (if eps ≤ c.l1 then if 0 ≤ d then c.l1 else -c.l1 else 0) + (if eps ≤ c.l2 then 2 * d * c.l2 else 0)

omit [LinearOrder α] in
theorem addGrad_ok {g data inc : Ten α} {s : List Nat} {a b : List Nat → α} (hg : g.Has s a) (hd : data.shape = s) (hi : inc.Has s b) :
    ∃ u, addGrad g data inc = ok u ∧ u.Has s (fun is => a is + b is) := by
  obtain ⟨o, h1, h2, h3⟩ := update1 (n := size s) (out := g.data)
    (body := fun i o => do
      let x ← rd o i
      let y ← rd inc.data i
      wr o i (x + y)) (a := fun p => a (unflat s p)) (g := fun p => a (unflat s p) + b (unflat s p))
    (fun j o hj _ ha => by rw [rd_ok ha, bind_ok, rd_ok (hi.2.pos hj), bind_ok]) hg.2.1 (fun p hp => hg.2.pos hp)
  refine ⟨⟨s, o⟩, ?_, rfl, isT_of_pos h2 h3 (fun is hv => by rw [unflat_flat hv])⟩
  unfold addGrad
  dsimp only
  rw [if_neg (by rw [hg.1, hd]; simp), hg.1, assert_true (show s = inc.shape from hi.1.symm), bind_ok, hg.2.1, h1]
  rfl

omit [LinearOrder α] in
theorem addReg_ok {f : α → α} {g data : Ten α} {s : List Nat} {a b : List Nat → α} (hg : g.Has s a) (hd : data.Has s b) :
    ∃ u, addReg f data g = ok u ∧ u.Has s (fun is => a is + f (b is)) := by
  obtain ⟨o, h1, h2, h3⟩ := update1 (n := size s) (out := g.data)
    (body := fun i o => do
      let d ← rd data.data i
      let x ← rd o i
      wr o i (x + f d)) (a := fun p => a (unflat s p)) (g := fun p => a (unflat s p) + f (b (unflat s p)))
    (fun j o hj _ ha => by rw [rd_ok (hd.2.pos hj), bind_ok, rd_ok ha, bind_ok]) hg.2.1 (fun p hp => hg.2.pos hp)
  refine ⟨⟨s, o⟩, ?_, rfl, isT_of_pos h2 h3 (fun is hv => by rw [unflat_flat hv])⟩
  unfold addReg
  rw [hd.2.1, h1, hg.1]
  rfl

theorem regularise_ok (eps : α) (c : Cfg α) {g data : Ten α} {s : List Nat} {a b : List Nat → α} (hg : g.Has s a) (hd : data.Has s b) :
    ∃ u, regularise eps c data g = ok u ∧ u.Has s (fun is => a is + regTerm eps c (b is)) := by
  unfold regularise regTerm
  by_cases h1 : eps ≤ c.l1 <;> by_cases h2 : eps ≤ c.l2 <;> simp only [h1, h2, if_true, if_false, bind_ok]
  · obtain ⟨u, e1, e2⟩ := addReg_ok (f := fun d => if 0 ≤ d then c.l1 else -c.l1) hg hd
    obtain ⟨w, e3, e4⟩ := addReg_ok (f := fun d => (1 + 1) * d * c.l2) e2 hd
    rw [e1, bind_ok, e3]
    exact ⟨w, rfl, e4.congr (fun is _ => by ring)⟩
  · obtain ⟨u, e1, e2⟩ := addReg_ok (f := fun d => if 0 ≤ d then c.l1 else -c.l1) hg hd
    rw [e1]
    exact ⟨u, rfl, e2.congr (fun is _ => by ring)⟩
  · obtain ⟨w, e3, e4⟩ := addReg_ok (f := fun d => (1 + 1) * d * c.l2) hg hd
    exact ⟨w, e3, e4.congr (fun is _ => by ring)⟩
  · exact ⟨g, rfl, hg.congr (fun is _ => by ring)⟩

/-- What is added to the gradient of `v` at an element with value `d`, by a list of arrivals; `seen` are the objects that have added
the regularisation term. -/
def contrib (eps : α) (v : Nat) (d : α) (is : List Nat) : List (Arrival α) → List Slot → α
  | [], _ => 0
  | a :: l, seen =>
    if a.cfg.trainable = true then
      (if a.v = v then a.inc.at is + (if a.slot ∈ seen then 0 else regTerm eps a.cfg d) else 0) + contrib eps v d is l (a.slot :: seen)
    else contrib eps v d is l seen

theorem arriveAll_ok (eps : α) (sh : Nat → List Nat) (dv : Nat → List Nat → α) : ∀ (l : List (Arrival α)) (s : St α) (seen : List Slot) (gv : Nat → List Nat → α),
    (∀ a ∈ l, (s.data a.v).Has (sh a.v) (dv a.v) ∧ (s.grad a.v).Has (sh a.v) (gv a.v) ∧ a.inc.WF ∧ a.inc.shape = sh a.v) →
    (∀ a ∈ l, s.sync a.slot = true ↔ a.slot ∈ seen) →
    ∃ s', l.foldlM (arrive eps) s = ok s' ∧ s'.data = s.data ∧ s'.obj = s.obj ∧ s'.leaf = s.leaf ∧
      ∀ v, (v ∉ l.map (·.v) → s'.grad v = s.grad v) ∧
        (v ∈ l.map (·.v) → (s'.grad v).Has (sh v) (fun is => gv v is + contrib eps v (dv v is) is l seen)) := by
  intro l
  induction l with
  | nil => intro s seen gv _ _; exact ⟨s, rfl, rfl, rfl, rfl, fun v => ⟨fun _ => rfl, fun h => by simp at h⟩⟩
  | cons a l ih =>
    intro s seen gv hw hs
    obtain ⟨hd, hg, hiw, his⟩ := hw a List.mem_cons_self
    rw [List.foldlM_cons]
    by_cases ht : a.cfg.trainable = true
    · -- the state after this arrival
      have hstep : ∃ u, arrive eps s a = ok { s with grad := upd s.grad a.v u, sync := upd s.sync a.slot true } ∧
          u.Has (sh a.v) (fun is => gv a.v is + (a.inc.at is + (if a.slot ∈ seen then 0 else regTerm eps a.cfg (dv a.v is)))) := by
        have hinc : a.inc.Has (sh a.v) a.inc.at := by have := hiw.has; rwa [his] at this
        obtain ⟨u, e1, e2⟩ := addGrad_ok hg hd.1 hinc
        unfold arrive varBackward
        rw [if_neg (by rw [ht]; simp), e1, bind_ok]
        by_cases hseen : a.slot ∈ seen
        · have hsync := (hs a List.mem_cons_self).mpr hseen
          rw [if_neg (by rw [hsync]; simp)]
          refine ⟨u, ?_, e2.congr (fun is _ => by rw [if_pos hseen, add_zero])⟩
          rw [pure_eq]
          congr 2
          funext k
          by_cases hk : k = a.slot
          · rw [hk, upd_same, hsync]
          · rw [upd_ne _ _ hk]
        · have hsync : s.sync a.slot = false := by
            rw [← Bool.not_eq_true]; intro h; exact hseen ((hs a List.mem_cons_self).mp h)
          obtain ⟨w, e3, e4⟩ := regularise_ok eps a.cfg e2 hd
          rw [if_pos hsync, e3, bind_ok]
          exact ⟨w, rfl, e4.congr (fun is _ => by rw [if_neg hseen, add_assoc])⟩
      obtain ⟨u, hu1, hu2⟩ := hstep
      rw [hu1, bind_ok]
      obtain ⟨s', k1, k2, k3, k4, k5⟩ := ih { s with grad := upd s.grad a.v u, sync := upd s.sync a.slot true } (a.slot :: seen)
        (fun v is => if v = a.v then gv a.v is + (a.inc.at is + (if a.slot ∈ seen then 0 else regTerm eps a.cfg (dv a.v is))) else gv v is)
        (by
          intro b hb
          obtain ⟨w1, w2, w3⟩ := hw b (List.mem_cons_of_mem _ hb)
          refine ⟨w1, ?_, w3⟩
          dsimp only
          by_cases hv : b.v = a.v
          · rw [hv, upd_same]; simp only [if_true]; exact hu2
          · rw [upd_ne _ _ hv]; simp only [hv, if_false]; exact w2)
        (by
          intro b hb
          dsimp only
          by_cases hk : b.slot = a.slot
          · rw [hk, upd_same]; simp
          · rw [upd_ne _ _ hk, hs b (List.mem_cons_of_mem _ hb)]; simp [hk])
      refine ⟨s', k1, k2, k3, k4, fun v => ⟨fun hv => ?_, fun hv => ?_⟩⟩
      · simp only [List.map_cons, List.mem_cons, not_or] at hv
        rw [(k5 v).1 hv.2]
        dsimp only
        rw [upd_ne _ _ hv.1]
      · by_cases hm : v ∈ l.map (·.v)
        · refine ((k5 v).2 hm).congr (fun is _ => ?_)
          simp only [contrib, ht, if_true]
          by_cases hva : v = a.v
          · subst hva; simp only [if_true]; ring
          · rw [if_neg hva, if_neg (fun h => hva h.symm)]; ring
        · simp only [List.map_cons, List.mem_cons] at hv
          have hva : v = a.v := hv.resolve_right hm
          subst hva
          rw [(k5 a.v).1 hm]
          dsimp only
          rw [upd_same]
          refine hu2.congr (fun is _ => ?_)
          have hz : ∀ (l : List (Arrival α)) (seen : List Slot), a.v ∉ l.map (·.v) → contrib eps a.v (dv a.v is) is l seen = 0 := by
            intro l
            induction l with
            | nil => intro _ _; rfl
            | cons b l ih =>
              intro seen hb
              simp only [List.map_cons, List.mem_cons, not_or] at hb
              simp only [contrib, if_neg (fun h : b.v = a.v => hb.1 h.symm), ih _ hb.2]
              simp
          simp only [contrib, ht, if_true, hz l _ hm, add_zero]
    · have hstep : arrive eps s a = ok s := by
        unfold arrive varBackward
        rw [if_pos (by simpa using ht)]
      rw [hstep, bind_ok]
      obtain ⟨s', k1, k2, k3, k4, k5⟩ := ih s seen gv (fun b hb => hw b (List.mem_cons_of_mem _ hb)) (fun b hb => hs b (List.mem_cons_of_mem _ hb))
      refine ⟨s', k1, k2, k3, k4, fun v => ⟨fun hv => ?_, fun hv => ?_⟩⟩
      · simp only [List.map_cons, List.mem_cons, not_or] at hv
        exact (k5 v).1 hv.2
      · by_cases hm : v ∈ l.map (·.v)
        · refine ((k5 v).2 hm).congr (fun is _ => ?_)
          simp only [contrib, if_neg ht]
        · simp only [List.map_cons, List.mem_cons] at hv
          have hva : v = a.v := hv.resolve_right hm
          subst hva
          rw [(k5 a.v).1 hm]
          refine hg.congr (fun is _ => ?_)
          have hz : ∀ (l : List (Arrival α)) (seen : List Slot), a.v ∉ l.map (·.v) → contrib eps a.v (dv a.v is) is l seen = 0 := by
            intro l
            induction l with
            | nil => intro _ _; rfl
            | cons b l ih =>
              intro seen hb
              simp only [List.map_cons, List.mem_cons, not_or] at hb
              simp only [contrib, if_neg (fun h : b.v = a.v => hb.1 h.symm), ih _ hb.2]
              simp
          simp only [contrib, if_neg ht, hz l _ hm, add_zero]

end

end Verif.Graph
