import Verif.Graph.Shared
/-!
# Operators in several objects

An expression used twice lives in two objects with one identity.  In a run its forward action happens in one of them; the others keep the operands they had before the run.
(For `Verif.Branch`; all values.)
-/
namespace Verif.Branch
open Verif Res Graph

variable {α : Type}

/-- The operands an object holds are the same in two states. -/
def Same (s s' : St α) (σ : Slot) : Prop := (s'.obj σ).inL = (s.obj σ).inL ∧ (s'.obj σ).inR = (s.obj σ).inR

theorem Same.trans {s s' s'' : St α} {σ : Slot} (h : Same s s' σ) (h' : Same s' s'' σ) : Same s s'' σ := ⟨h'.1.trans h.1, h'.2.trans h.2⟩

/-- The forward actions of a pass: object and identity, latest first. -/
structure Log [Zero α] (e : Ex α) (L D : Nat → Ten α) (t : Ex α) (sl : Slot) (i : Nat) (s s' : St α) (ws : List (Slot × Nat)) : Prop where
  occ : ∀ w ∈ ws, ∃ u, (w.1, u) ∈ occs t sl ∧ u.id? = some w.2
  same : ∀ σ, σ ∉ ws.map Prod.fst → Same s s' σ
  once : (ws.map Prod.snd).count i ≤ 1
  cached : (s.cache i).isSome → (ws.map Prod.snd).count i = 0
  caches : (ws.map Prod.snd).count i = 1 → (s'.cache i).isSome
  ins : ∀ w ∈ ws, ∀ u, (w.1, u) ∈ occs e none → ∀ b, InOk L D s' w.1 u b

theorem log_nil [Zero α] {e : Ex α} {L D : Nat → Ten α} (t : Ex α) (sl : Slot) (i : Nat) {s s' : St α} (h : ∀ σ, Same s s' σ) : Log e L D t sl i s s' [] :=
  ⟨by simp, fun σ _ => h σ, by simp, by simp, by simp, by simp⟩

theorem log_ids [Zero α] {e t : Ex α} {L D : Nat → Ten α} {sl : Slot} {i : Nat} {s s' : St α} {ws : List (Slot × Nat)} (h : Log e L D t sl i s s' ws) {j : Nat} (hj : j ∉ ids t) : (ws.map Prod.snd).count j = 0 := by
  refine List.count_eq_zero.mpr (fun hm => ?_)
  obtain ⟨w, hw, rfl⟩ := List.mem_map.mp hm
  obtain ⟨u, hu, hi⟩ := h.occ w hw
  refine hj ?_
  clear h hm
  induction t generalizing sl with
  | leaf k => simp only [occs, List.mem_singleton, Prod.mk.injEq] at hu; rw [hu.2] at hi; simp [Ex.id?] at hi
  | var v c => simp only [occs, List.mem_singleton, Prod.mk.injEq] at hu; rw [hu.2] at hi; simp [Ex.id?] at hi
  | un k op c ih =>
    simp only [occs, List.mem_cons, Prod.mk.injEq] at hu
    rcases hu with ⟨_, rfl⟩ | hu
    · simp only [Ex.id?, Option.some.injEq] at hi; simp [ids, hi]
    · exact List.mem_cons_of_mem _ (ih (fun h => hj (List.mem_cons_of_mem _ h)) hu)
  | bin k op l r ihl ihr =>
    simp only [occs, List.mem_cons, List.mem_append, Prod.mk.injEq] at hu
    rcases hu with ⟨_, rfl⟩ | hu | hu
    · simp only [Ex.id?, Option.some.injEq] at hi; simp [ids, hi]
    · exact List.mem_cons_of_mem _ (List.mem_append_left _ (ihl (fun h => hj (List.mem_cons_of_mem _ (List.mem_append_left _ h))) hu))
    · exact List.mem_cons_of_mem _ (List.mem_append_right _ (ihr (fun h => hj (List.mem_cons_of_mem _ (List.mem_append_right _ h))) hu))

/-- Forward passes in a consistent expression: an operator whose value is not empty acts at most once. -/
theorem forward_log [Zero α] {e : Ex α} {L D : Nat → Ten α} (hc : Consistent e) {i : Nat}
    (hne : ∀ p ∈ occs e none, ∀ y, p.2.id? = some i → eval L D p.2 = ok y → y.data ≠ []) (t : Ex α) :
    ∀ (sl : Slot) (s : St α), (sl, t) ∈ occs e none → Inv e L D s → ∀ y s', forward t sl s = ok (y, s') → ∃ ws, Log e L D t sl i s s' ws := by
  have out : ∀ (s : St α) (sl : Slot) (o : Ten α) (σ : Slot), Same s { s with obj := upd s.obj sl { s.obj sl with out := o } } σ := by
    intro s sl o σ
    by_cases h : σ = sl
    · subst h; simp only [Same, upd_same, and_self]
    · simp only [Same, upd_ne _ _ h, and_self]
  induction t with
  | leaf k =>
    intro sl s ho hi y s' h
    unfold forward at h
    rw [bind_eq_ok] at h
    obtain ⟨_, _, h⟩ := h
    cases h
    exact ⟨[], log_nil _ _ _ (fun σ => ⟨rfl, rfl⟩)⟩
  | var v c =>
    intro sl s ho hi y s' h
    unfold forward varForward at h
    split at h
    · cases h
      exact ⟨[], log_nil _ _ _ (fun σ => ⟨rfl, rfl⟩)⟩
    · cases h
      exact ⟨[], log_nil _ _ _ (fun σ => ⟨rfl, rfl⟩)⟩
  | un j op c ih =>
    intro sl s ho hi y s' h
    obtain ⟨q1, q2, q3⟩ := step_query hc hi ho (i := j) rfl
    unfold forward at h
    dsimp only at h
    by_cases hq : (query s.cache j).data = []
    · rw [if_pos hq] at h
      have hnone : j = i → s.cache j = none := by
        intro hji
        cases hs : s.cache j with
        | none => rfl
        | some z =>
          have := hne _ ho z (by rw [← hji]; rfl) (hi.value _ ho j z rfl hs)
          unfold query at hq
          rw [hs] at hq
          exact absurd hq this
      have hch := occs_child_un ho
      rw [bind_eq_ok] at h
      obtain ⟨⟨x, s1⟩, h1, h⟩ := h
      obtain ⟨ws, k⟩ := ih (some (j, false)) _ hch q1 x s1 h1
      have hev := (forward_ok hc hch q1 h1).1
      dsimp only at h
      rw [bind_eq_ok] at h
      obtain ⟨z, _, h⟩ := h
      cases h
      have hz : j = i → (ws.map Prod.snd).count i = 0 := fun hji => log_ids k (hji ▸ not_mem_child hc ho rfl (b := false) (c := c) rfl)
      refine ⟨(sl, j) :: ws, ?_, ?_, ?_, ?_, ?_, ?_⟩
      · intro w hw
        rcases List.mem_cons.mp hw with rfl | hw
        · exact ⟨_, mem_occs_self _ _, rfl⟩
        · obtain ⟨u, hu, hi⟩ := k.occ w hw
          exact ⟨u, List.mem_cons_of_mem _ hu, hi⟩
      · intro σ hσ
        simp only [List.map_cons, List.mem_cons, not_or] at hσ
        have := (out s sl (query s.cache j) σ).trans (k.same σ hσ.2)
        simp only [Same, upd_ne _ _ hσ.1]
        exact this
      · simp only [List.map_cons, List.count_cons]
        by_cases hji : j = i
        · simp [hji, hz hji]
        · have := k.once; simp [hji, this]
      · intro hs
        simp only [List.map_cons, List.count_cons]
        by_cases hji : j = i
        · rw [← hji, hnone hji] at hs; cases hs
        · simp [hji, k.cached hs]
      · intro hcnt
        dsimp only
        by_cases hji : i = j
        · rw [hji, upd_same]; rfl
        · rw [upd_ne _ _ hji]
          refine k.caches ?_
          simpa [List.count_cons, Ne.symm hji] using hcnt
      · intro w hw u hu b
        by_cases hw1 : w.1 = sl
        · rw [hw1] at hu ⊢
          rw [slot_unique hc hu ho]
          intro c' hc'
          cases b with
          | false => simp only [Ex.child?, Option.some.injEq] at hc'; subst hc'; simp only [side, upd_same]; exact hev
          | true => simp [Ex.child?] at hc'
        · rcases List.mem_cons.mp hw with rfl | hw
          · exact absurd rfl hw1
          · intro c' hc'
            have := k.ins w hw u hu b c' hc'
            dsimp only
            rw [upd_ne _ _ hw1, upd_ne _ _ hw1]
            exact this
    · rw [if_neg hq] at h
      cases h
      exact ⟨[], log_nil _ _ _ (out s sl _)⟩
  | bin j op l r ihl ihr =>
    intro sl s ho hi y s' h
    obtain ⟨q1, q2, q3⟩ := step_query hc hi ho (i := j) rfl
    unfold forward at h
    dsimp only at h
    by_cases hq : (query s.cache j).data = []
    · rw [if_pos hq] at h
      have hnone : j = i → s.cache j = none := by
        intro hji
        cases hs : s.cache j with
        | none => rfl
        | some z =>
          have := hne _ ho z (by rw [← hji]; rfl) (hi.value _ ho j z rfl hs)
          unfold query at hq
          rw [hs] at hq
          exact absurd hq this
      obtain ⟨hcl, hcr⟩ := occs_child_bin ho
      rw [bind_eq_ok] at h
      obtain ⟨⟨x, s1⟩, h1, h⟩ := h
      obtain ⟨ws, k⟩ := ihl (some (j, false)) _ hcl q1 x s1 h1
      obtain ⟨hev, i1, mm1, -⟩ := forward_ok hc hcl q1 h1
      obtain ⟨r1, -, -⟩ := step_input hc i1 ho (b := false) (c := l) rfl hev
      dsimp only at h
      rw [bind_eq_ok] at h
      obtain ⟨⟨w, s2⟩, h2, h⟩ := h
      obtain ⟨ws', m⟩ := ihr (some (j, true)) _ hcr r1 w s2 h2
      obtain ⟨hev', -, mm2, -⟩ := forward_ok hc hcr r1 h2
      dsimp only at h
      rw [bind_eq_ok] at h
      obtain ⟨z, _, h⟩ := h
      cases h
      have hz : j = i → (ws.map Prod.snd).count i = 0 := fun hji => log_ids k (hji ▸ not_mem_child hc ho rfl (b := false) (c := l) rfl)
      have hz' : j = i → (ws'.map Prod.snd).count i = 0 := fun hji => log_ids m (hji ▸ not_mem_child hc ho rfl (b := true) (c := r) rfl)
      -- an action on the left leaves a cached value for the right
      have excl : (ws.map Prod.snd).count i = 1 → (ws'.map Prod.snd).count i = 0 := fun h => m.cached (k.caches h)
      have k1 := k.once
      have m1 := m.once
      refine ⟨(sl, j) :: (ws' ++ ws), ?_, ?_, ?_, ?_, ?_, ?_⟩
      · intro w hw
        rcases List.mem_cons.mp hw with rfl | hw
        · exact ⟨_, mem_occs_self _ _, rfl⟩
        · rcases List.mem_append.mp hw with hw | hw
          · obtain ⟨u, hu, hi⟩ := m.occ w hw
            exact ⟨u, List.mem_cons_of_mem _ (List.mem_append_right _ hu), hi⟩
          · obtain ⟨u, hu, hi⟩ := k.occ w hw
            exact ⟨u, List.mem_cons_of_mem _ (List.mem_append_left _ hu), hi⟩
      · intro σ hσ
        simp only [List.map_cons, List.map_append, List.mem_cons, List.mem_append, not_or] at hσ
        obtain ⟨n1, n2, n3⟩ := hσ
        have e1 := (out s sl (query s.cache j) σ).trans (k.same σ n3)
        have e2 := m.same σ n2
        simp only [Same, setObj, upd_ne _ _ n1] at e2 ⊢
        exact ⟨e2.1.trans e1.1, e2.2.trans e1.2⟩
      · simp only [List.map_cons, List.map_append, List.count_cons, List.count_append]
        by_cases hji : j = i
        · have := hz hji; have := hz' hji
          simp only [hji, beq_self_eq_true, if_true]
          omega
        · rw [if_neg (by simpa using hji)]
          by_cases h1 : (ws.map Prod.snd).count i = 1
          · have := excl h1; omega
          · omega
      · intro hs
        simp only [List.map_cons, List.map_append, List.count_cons, List.count_append]
        by_cases hji : j = i
        · rw [← hji, hnone hji] at hs; cases hs
        · rw [if_neg (by simpa using hji)]
          have a1 := k.cached hs
          have a2 := m.cached (mm1.cache i hs)
          omega
      · intro hcnt
        dsimp only
        by_cases hji : i = j
        · rw [hji, upd_same]; rfl
        · rw [upd_ne _ _ hji]
          simp only [List.map_cons, List.map_append, List.count_cons, List.count_append] at hcnt
          rw [if_neg (by simpa using Ne.symm hji)] at hcnt
          by_cases h1 : (ws.map Prod.snd).count i = 1
          · exact mm2.cache i (k.caches h1)
          · exact m.caches (by omega)
      · intro w hw u hu b
        by_cases hw1 : w.1 = sl
        · rw [hw1] at hu ⊢
          rw [slot_unique hc hu ho]
          have hL : InOk L D s2 sl (.bin j op l r) false := mm2.inOk (sl, _) ho false (by
            intro c' hc'
            simp only [Ex.child?, Option.some.injEq] at hc'
            subst hc'
            simp only [side, setObj, setSide, upd_same]
            exact hev)
          intro c' hc'
          cases b with
          | false =>
            have := hL c' hc'
            simp only [side, upd_same] at this ⊢
            exact this
          | true => simp only [Ex.child?, Option.some.injEq] at hc'; subst hc'; simp only [side, upd_same]; exact hev'
        · rcases List.mem_cons.mp hw with rfl | hw
          · exact absurd rfl hw1
          · intro c' hc'
            dsimp only
            rw [upd_ne _ _ hw1, upd_ne _ _ hw1]
            rcases List.mem_append.mp hw with hw | hw
            · exact m.ins w hw u hu b c' hc'
            · refine mm2.inOk (w.1, u) hu b ?_ c' hc'
              intro c'' hc''
              have := k.ins w hw u hu b c'' hc''
              simp only [setObj, upd_ne _ _ hw1]
              exact this
    · rw [if_neg hq] at h
      cases h
      exact ⟨[], log_nil _ _ _ (out s sl _)⟩

/-- Of two objects of one operator, at least one keeps the operands it had before the run. -/
theorem shared_stale [Zero α] {e : Ex α} (hc : Consistent e) {s s1 : St α} {y : Ten α} (h : run e s = ok (y, s1)) {i : Nat} {p q : Slot × Ex α}
    (hp : p ∈ occs e none) (hq : q ∈ occs e none) (hpi : p.2.id? = some i) (hqi : q.2.id? = some i) (hpq : p.1 ≠ q.1)
    (hne : ∀ z, eval s.leaf s.data p.2 = ok z → z.data ≠ []) : Same s s1 p.1 ∨ Same s s1 q.1 := by
  obtain ⟨ws, k⟩ := forward_log (i := i) hc (L := s.leaf) (D := s.data) (fun p' hp' z hi hz => hne z (by rw [hc p hp p' hp' i hpi hi]; exact hz)) e none
    { s with cache := fun _ => none } (mem_occs_self e none) (inv_start s) y s1 h
  by_contra hcon
  rw [not_or] at hcon
  have mem : ∀ {r : Slot × Ex α}, r ∈ occs e none → r.2.id? = some i → ¬ Same s s1 r.1 → (r.1, i) ∈ ws := by
    intro r hr hri hs
    have : r.1 ∈ ws.map Prod.fst := by
      by_contra hm
      exact hs (k.same r.1 hm)
    obtain ⟨w, hw, e1⟩ := List.mem_map.mp this
    obtain ⟨u, hu, hi⟩ := k.occ w hw
    rw [e1] at hu
    have := slot_unique hc hu (t := u) (u := r.2) hr
    rw [this, hri] at hi
    have e2 : w = (r.1, i) := Prod.ext e1 (by simpa using hi.symm)
    exact e2 ▸ hw
  have h1 := mem hp hpi hcon.1
  have h2 := mem hq hqi hcon.2
  have := k.once
  obtain ⟨l, r, rfl⟩ := List.append_of_mem h1
  simp only [List.map_append, List.map_cons, List.count_append, List.count_cons_self] at this
  have h3 : (q.1, i) ∈ l ∨ (q.1, i) ∈ r := by
    rcases List.mem_append.mp h2 with h | h
    · exact Or.inl h
    · rcases List.mem_cons.mp h with h | h
      · simp only [Prod.mk.injEq, and_true] at h
        exact absurd h.symm hpq
      · exact Or.inr h
  rcases h3 with h | h
  · have := List.one_le_count_iff.mpr (List.mem_map.mpr ⟨_, h, rfl⟩ : i ∈ l.map Prod.snd)
    omega
  · have := List.one_le_count_iff.mpr (List.mem_map.mpr ⟨_, h, rfl⟩ : i ∈ r.map Prod.snd)
    omega

/-- After a first run with new objects, every object of every operator holds the values of its operands or none. -/
theorem run_inputs [Zero α] {e : Ex α} (hc : Consistent e) {s s1 : St α} {y : Ten α} (h : run e s = ok (y, s1)) {i : Nat} {p : Slot × Ex α} (hp : p ∈ occs e none) (hpi : p.2.id? = some i)
    (hne : ∀ z, eval s.leaf s.data p.2 = ok z → z.data ≠ []) (hf : (s.obj p.1).inL = noTensor ∧ (s.obj p.1).inR = noTensor) :
    (∀ b, InOk s.leaf s.data s1 p.1 p.2 b) ∨ (s1.obj p.1).inL = noTensor ∧ (s1.obj p.1).inR = noTensor := by
  obtain ⟨ws, k⟩ := forward_log (i := i) hc (L := s.leaf) (D := s.data) (fun p' hp' z hi hz => hne z (by rw [hc p hp p' hp' i hpi hi]; exact hz)) e none
    { s with cache := fun _ => none } (mem_occs_self e none) (inv_start s) y s1 h
  by_cases hm : p.1 ∈ ws.map Prod.fst
  · obtain ⟨w, hw, e1⟩ := List.mem_map.mp hm
    left
    rw [← e1]
    exact k.ins w hw p.2 (by rw [e1]; exact hp)
  · right
    obtain ⟨h1, h2⟩ := k.same p.1 hm
    exact ⟨h1.trans hf.1, h2.trans hf.2⟩

/-- Backward visits every occurrence, with the objects as they were. -/
theorem backward_visits [Zero α] [One α] [Add α] [Mul α] [Neg α] [LE α] [DecidableLE α] (eps : α) (t : Ex α) : ∀ (sl : Slot) (g : Ten α) (s s' : St α), backward eps t sl g s = ok s' →
    ∀ p ∈ occs t sl, ∃ g' s1 s2, backward eps p.2 p.1 g' s1 = ok s2 ∧ s1.obj = s.obj ∧ s1.data = s.data := by
  have dat : ∀ (t : Ex α) (sl : Slot) (g : Ten α) (s s' : St α), backward eps t sl g s = ok s' → s'.data = s.data := by
    intro t
    induction t with
    | leaf k => intro sl g s s' h; cases h; rfl
    | var v c =>
      intro sl g s s' h
      simp only [backward, varBackward] at h
      split at h
      · cases h; rfl
      · rw [bind_eq_ok] at h
        obtain ⟨_, _, h⟩ := h
        split at h
        · rw [bind_eq_ok] at h
          obtain ⟨_, _, h⟩ := h
          cases h; rfl
        · cases h; rfl
    | un i op c ih =>
      intro sl g s s' h
      simp only [backward, bind_eq_ok] at h
      obtain ⟨d, _, h⟩ := h
      exact ih _ _ _ _ h
    | bin i op l r ihl ihr =>
      intro sl g s s' h
      simp only [backward, bind_eq_ok] at h
      obtain ⟨d, _, s2, h2, h⟩ := h
      exact (ihr _ _ _ _ h).trans (ihl _ _ _ _ h2)
  induction t with
  | leaf k =>
    intro sl g s s' h p hp
    simp only [occs, List.mem_singleton] at hp
    subst hp
    exact ⟨g, s, s', h, rfl, rfl⟩
  | var v c =>
    intro sl g s s' h p hp
    simp only [occs, List.mem_singleton] at hp
    subst hp
    exact ⟨g, s, s', h, rfl, rfl⟩
  | un i op c ih =>
    intro sl g s s' h p hp
    rcases List.mem_cons.mp hp with rfl | hp
    · exact ⟨g, s, s', h, rfl, rfl⟩
    · simp only [backward, bind_eq_ok] at h
      obtain ⟨d, _, h⟩ := h
      exact ih _ _ _ _ h p hp
  | bin i op l r ihl ihr =>
    intro sl g s s' h p hp
    rcases List.mem_cons.mp hp with rfl | hp
    · exact ⟨g, s, s', h, rfl, rfl⟩
    · simp only [backward, bind_eq_ok] at h
      obtain ⟨d, _, s2, h2, h⟩ := h
      rcases List.mem_append.mp hp with hp | hp
      · exact ihl _ _ _ _ h2 p hp
      · obtain ⟨g', s3, s4, k1, k2, k3⟩ := ihr _ _ _ _ h p hp
        exact ⟨g', s3, s4, k1, by rw [k2]; exact backward_obj eps _ _ _ _ _ h2, by rw [k3]; exact dat _ _ _ _ _ h2⟩

/-- An expression with an operator in two objects, first run with new objects: when backward finishes, it has finished below an object of the operator that has no operands. -/
theorem shared_backward [Zero α] [One α] [Add α] [Mul α] [Neg α] [LE α] [DecidableLE α] (eps : α) {e : Ex α} (hc : Consistent e) {s s1 s2 : St α} {y g : Ten α} (h : run e s = ok (y, s1)) {i : Nat} {p q : Slot × Ex α}
    (hp : p ∈ occs e none) (hq : q ∈ occs e none) (hpi : p.2.id? = some i) (hqi : q.2.id? = some i) (hpq : p.1 ≠ q.1)
    (hne : ∀ z, eval s.leaf s.data p.2 = ok z → z.data ≠ []) (hfp : (s.obj p.1).inL = noTensor ∧ (s.obj p.1).inR = noTensor)
    (hfq : (s.obj q.1).inL = noTensor ∧ (s.obj q.1).inR = noTensor) (hb : backward eps e none g s1 = ok s2) :
    ∃ sl g' s3 s4, backward eps p.2 sl g' s3 = ok s4 ∧ (s3.obj sl).inL = noTensor ∧ (s3.obj sl).inR = noTensor ∧ s3.data = s.data := by
  have hd : s1.data = s.data := by
    obtain ⟨-, hi, -⟩ := forward_ok hc (mem_occs_self e none) (inv_start s) h
    exact hi.data
  rcases shared_stale hc h hp hq hpi hqi hpq hne with hs | hs
  · obtain ⟨g', s3, s4, k1, k2, k3⟩ := backward_visits eps e none g s1 s2 hb p hp
    exact ⟨p.1, g', s3, s4, k1, by rw [k2, hs.1, hfp.1], by rw [k2, hs.2, hfp.2], k3.trans hd⟩
  · obtain ⟨g', s3, s4, k1, k2, k3⟩ := backward_visits eps e none g s1 s2 hb q hq
    rw [hc q hq p hp i hqi hpi] at k1
    exact ⟨q.1, g', s3, s4, k1, by rw [k2, hs.1, hfq.1], by rw [k2, hs.2, hfq.2], k3.trans hd⟩

end Verif.Branch
