import Verif.Graph.Forward
/-!
# Each operator is evaluated exactly once per run
-/
namespace Verif.Graph
open Verif Res View Data

variable {α : Type}

/-- The identities of the operators of an expression. -/
def ids : Ex α → List Nat
  | .leaf _ => []
  | .var _ _ => []
  | .un i _ e => i :: ids e
  | .bin i _ l r => i :: (ids l ++ ids r)

/-- Size of an expression. -/
def Ex.depth : Ex α → Nat
  | .leaf _ => 0
  | .var _ _ => 0
  | .un _ _ e => e.depth + 1
  | .bin _ _ l r => max l.depth r.depth + 1

theorem occs_sub {e t : Ex α} {s0 sl : Slot} (h : (sl, t) ∈ occs e s0) : ∀ p ∈ occs t sl, p ∈ occs e s0 := by
  induction e generalizing s0 with
  | leaf k =>
    simp only [occs, List.mem_singleton, Prod.mk.injEq] at h
    obtain ⟨rfl, rfl⟩ := h
    exact fun p hp => hp
  | var v c =>
    simp only [occs, List.mem_singleton, Prod.mk.injEq] at h
    obtain ⟨rfl, rfl⟩ := h
    exact fun p hp => hp
  | un i op c ih =>
    simp only [occs, List.mem_cons, Prod.mk.injEq] at h
    rcases h with ⟨rfl, rfl⟩ | h
    · exact fun p hp => hp
    · intro p hp
      simp only [occs, List.mem_cons]
      exact Or.inr (ih h p hp)
  | bin i op l r ihl ihr =>
    simp only [occs, List.mem_cons, Prod.mk.injEq, List.mem_append] at h
    rcases h with ⟨rfl, rfl⟩ | h | h
    · exact fun p hp => hp
    · intro p hp
      simp only [occs, List.mem_cons, List.mem_append]
      exact Or.inr (Or.inl (ihl h p hp))
    · intro p hp
      simp only [occs, List.mem_cons, List.mem_append]
      exact Or.inr (Or.inr (ihr h p hp))

theorem mem_ids {t : Ex α} {i : Nat} (h : i ∈ ids t) (sl : Slot) : ∃ p ∈ occs t sl, p.2.id? = some i ∧ p.2.depth ≤ t.depth := by
  induction t generalizing sl with
  | leaf k => simp [ids] at h
  | var v c => simp [ids] at h
  | un j op c ih =>
    simp only [ids, List.mem_cons] at h
    rcases h with rfl | h
    · exact ⟨_, mem_occs_self _ _, rfl, le_refl _⟩
    · obtain ⟨p, hp, h1, h2⟩ := ih h (some (j, false))
      refine ⟨p, ?_, h1, ?_⟩
      · simp only [occs, List.mem_cons]; exact Or.inr hp
      · simp only [Ex.depth]; omega
  | bin j op l r ihl ihr =>
    simp only [ids, List.mem_cons, List.mem_append] at h
    rcases h with rfl | h | h
    · exact ⟨_, mem_occs_self _ _, rfl, le_refl _⟩
    · obtain ⟨p, hp, h1, h2⟩ := ihl h (some (j, false))
      refine ⟨p, ?_, h1, ?_⟩
      · simp only [occs, List.mem_cons, List.mem_append]; exact Or.inr (Or.inl hp)
      · simp only [Ex.depth]; omega
    · obtain ⟨p, hp, h1, h2⟩ := ihr h (some (j, true))
      refine ⟨p, ?_, h1, ?_⟩
      · simp only [occs, List.mem_cons, List.mem_append]; exact Or.inr (Or.inr hp)
      · simp only [Ex.depth]; omega

theorem not_mem_child {e t c : Ex α} {sl : Slot} {i : Nat} {b : Bool} (hc : Consistent e) (ho : (sl, t) ∈ occs e none) (ht : t.id? = some i)
    (hb : t.child? b = some c) : i ∉ ids c := by
  intro hi
  obtain ⟨p, hp, h1, h2⟩ := mem_ids hi (some (i, b))
  have hm := child_mem ho ht hb
  have := hc p (occs_sub hm p hp) _ ho i h1 ht
  simp only at this
  rw [this] at h2
  cases t with
  | leaf k => simp [Ex.id?] at ht
  | var v c => simp [Ex.id?] at ht
  | un j op d =>
    cases b with
    | false => simp only [Ex.child?, Option.some.injEq] at hb; subst hb; simp only [Ex.depth] at h2; omega
    | true => simp [Ex.child?] at hb
  | bin j op l r =>
    cases b <;> (simp only [Ex.child?, Option.some.injEq] at hb; subst hb; simp only [Ex.depth] at h2; omega)

theorem forward_ok [Zero α] {e : Ex α} {L D : Nat → Ten α} (hc : Consistent e) {t : Ex α} {sl : Slot} {s : St α} (ho : (sl, t) ∈ occs e none)
    (hi : Inv e L D s) {y : Ten α} {s' : St α} (h : forward t sl s = ok (y, s')) :
    eval L D t = ok y ∧ Inv e L D s' ∧ Mono e L D s s' ∧ Done L D s' sl t := by
  have hsp := forward_spec hc t sl s ho hi
  rw [h] at hsp
  revert hsp
  cases eval L D t with
  | ok z =>
    rintro ⟨s2, e1, a, b, c, -⟩
    simp only [ok.injEq, Prod.mk.injEq] at e1
    obtain ⟨rfl, rfl⟩ := e1
    exact ⟨rfl, a, b, c⟩
  | abort => intro h; cases h
  | ub => intro h; cases h

/-- What a forward pass adds to the log. -/
structure Adds1 (t : Ex α) (s s' : St α) (new : List Nat) : Prop where
  done : s'.done = new ++ s.done
  nodup : new.Nodup
  fresh : ∀ i ∈ new, s.cache i = none ∧ (s'.cache i).isSome ∧ i ∈ ids t
  all : ∀ i, (s'.cache i).isSome → (s.cache i).isSome ∨ i ∈ new

theorem forward_once [Zero α] {e : Ex α} {L D : Nat → Ten α} (hc : Consistent e)
    (hne : ∀ p ∈ occs e none, ∀ i y, p.2.id? = some i → eval L D p.2 = ok y → y.data ≠ []) (t : Ex α) :
    ∀ (sl : Slot) (s : St α), (sl, t) ∈ occs e none → Inv e L D s → ∀ y s', forward t sl s = ok (y, s') → ∃ new, Adds1 t s s' new := by
  induction t with
  | leaf k =>
    intro sl s ho hi y s' h
    unfold forward at h
    rw [bind_eq_ok] at h
    obtain ⟨_, _, h⟩ := h
    simp only [pure_eq, ok.injEq, Prod.mk.injEq] at h
    obtain ⟨_, rfl⟩ := h
    exact ⟨[], rfl, List.nodup_nil, fun i hi => by simp at hi, fun i h => Or.inl h⟩
  | var v c =>
    intro sl s ho hi y s' h
    unfold forward varForward at h
    split at h
    · simp only [ok.injEq, Prod.mk.injEq] at h
      obtain ⟨_, rfl⟩ := h
      exact ⟨[], rfl, List.nodup_nil, fun i hi => by simp at hi, fun i h => Or.inl h⟩
    · simp only [ok.injEq, Prod.mk.injEq] at h
      obtain ⟨_, rfl⟩ := h
      exact ⟨[], rfl, List.nodup_nil, fun i hi => by simp at hi, fun i h => Or.inl h⟩
  | un i op c ih =>
    intro sl s ho hi y s' h
    obtain ⟨q1, q2, q3⟩ := step_query hc hi ho (i := i) rfl
    unfold forward at h
    dsimp only at h
    by_cases hq : (query s.cache i).data = []
    · rw [if_pos hq] at h
      have hnone : s.cache i = none := by
        cases hs : s.cache i with
        | none => rfl
        | some z =>
          have := hne _ ho i z rfl (hi.value _ ho i z rfl hs)
          unfold query at hq
          rw [hs] at hq
          exact absurd hq this
      have hch := occs_child_un ho
      rw [bind_eq_ok] at h
      obtain ⟨⟨x, s1⟩, h1, h⟩ := h
      obtain ⟨new, k1, k2, k3, k4⟩ := ih (some (i, false)) _ hch q1 x s1 h1
      dsimp only at h
      rw [bind_eq_ok] at h
      obtain ⟨z, _, h⟩ := h
      simp only [pure_eq, ok.injEq, Prod.mk.injEq] at h
      obtain ⟨_, rfl⟩ := h
      refine ⟨i :: new, by rw [List.cons_append, ← show s1.done = new ++ s.done from k1], List.nodup_cons.mpr ⟨?_, k2⟩, ?_, ?_⟩
      · intro hm
        exact not_mem_child hc ho rfl (b := false) (c := c) rfl (k3 i hm).2.2
      · intro j hj
        rcases List.mem_cons.mp hj with rfl | hj
        · refine ⟨hnone, ?_, List.mem_cons_self⟩
          dsimp only; rw [upd_same]; rfl
        · obtain ⟨a, b, c⟩ := k3 j hj
          refine ⟨a, ?_, List.mem_cons_of_mem _ c⟩
          dsimp only
          by_cases hji : j = i
          · rw [hji, upd_same]; rfl
          · rw [upd_ne _ _ hji]; exact b
      · intro j hj
        dsimp only at hj
        by_cases hji : j = i
        · exact Or.inr (hji ▸ List.mem_cons_self)
        · rw [upd_ne _ _ hji] at hj
          rcases k4 j hj with h | h
          · exact Or.inl h
          · exact Or.inr (List.mem_cons_of_mem _ h)
    · rw [if_neg hq] at h
      simp only [pure_eq, ok.injEq, Prod.mk.injEq] at h
      obtain ⟨_, rfl⟩ := h
      exact ⟨[], rfl, List.nodup_nil, fun i hi => by simp at hi, fun i h => Or.inl h⟩
  | bin i op l r ihl ihr =>
    intro sl s ho hi y s' h
    obtain ⟨q1, q2, q3⟩ := step_query hc hi ho (i := i) rfl
    unfold forward at h
    dsimp only at h
    by_cases hq : (query s.cache i).data = []
    · rw [if_pos hq] at h
      have hnone : s.cache i = none := by
        cases hs : s.cache i with
        | none => rfl
        | some z =>
          have := hne _ ho i z rfl (hi.value _ ho i z rfl hs)
          unfold query at hq
          rw [hs] at hq
          exact absurd hq this
      obtain ⟨hcl, hcr⟩ := occs_child_bin ho
      rw [bind_eq_ok] at h
      obtain ⟨⟨x, s1⟩, h1, h⟩ := h
      obtain ⟨new, k1, k2, k3, k4⟩ := ihl (some (i, false)) _ hcl q1 x s1 h1
      obtain ⟨hev, i1, mm1, -⟩ := forward_ok hc hcl q1 h1
      obtain ⟨r1, -, -⟩ := step_input hc i1 ho (b := false) (c := l) rfl hev
      dsimp only at h
      rw [bind_eq_ok] at h
      obtain ⟨⟨w, s2⟩, h2, h⟩ := h
      obtain ⟨new', m1, m2, m3, m4⟩ := ihr (some (i, true)) _ hcr r1 w s2 h2
      dsimp only at h
      rw [bind_eq_ok] at h
      obtain ⟨z, _, h⟩ := h
      simp only [pure_eq, ok.injEq, Prod.mk.injEq] at h
      obtain ⟨_, rfl⟩ := h
      refine ⟨i :: (new' ++ new), ?_, List.nodup_cons.mpr ⟨?_, ?_⟩, ?_, ?_⟩
      · have e1 : s2.done = new' ++ s1.done := m1
        have e2 : s1.done = new ++ s.done := k1
        simp only [e1, e2, List.cons_append, List.append_assoc]
      · intro hm
        rcases List.mem_append.mp hm with hm | hm
        · exact not_mem_child hc ho rfl (b := true) (c := r) rfl (m3 i hm).2.2
        · exact not_mem_child hc ho rfl (b := false) (c := l) rfl (k3 i hm).2.2
      · rw [List.nodup_append]
        refine ⟨m2, k2, ?_⟩
        intro a ha b hb hab
        subst hab
        have u1 : s1.cache a = none := (m3 a ha).1
        have u2 := (k3 a hb).2.1
        rw [u1] at u2; cases u2
      · intro j hj
        rcases List.mem_cons.mp hj with rfl | hj
        · refine ⟨hnone, ?_, List.mem_cons_self⟩
          dsimp only; rw [upd_same]; rfl
        · have key : s.cache j = none ∧ (s2.cache j).isSome ∧ j ∈ ids (.bin i op l r) := by
            rcases List.mem_append.mp hj with hj | hj
            · obtain ⟨a, b, c⟩ := m3 j hj
              have a' : s1.cache j = none := a
              refine ⟨?_, b, List.mem_cons_of_mem _ (List.mem_append_right _ c)⟩
              cases hs : s.cache j with
              | none => rfl
              | some z =>
                have := mm1.cache j (by show (s.cache j).isSome = true; rw [hs]; rfl)
                rw [a'] at this; cases this
            · obtain ⟨a, b, c⟩ := k3 j hj
              refine ⟨a, ?_, List.mem_cons_of_mem _ (List.mem_append_left _ c)⟩
              exact (forward_ok hc hcr r1 h2).2.2.1.cache j b
          refine ⟨key.1, ?_, key.2.2⟩
          dsimp only
          by_cases hji : j = i
          · rw [hji, upd_same]; rfl
          · rw [upd_ne _ _ hji]; exact key.2.1
      · intro j hj
        dsimp only at hj
        by_cases hji : j = i
        · exact Or.inr (hji ▸ List.mem_cons_self)
        · rw [upd_ne _ _ hji] at hj
          rcases m4 j hj with h | h
          · have h' : (s1.cache j).isSome := h
            rcases k4 j h' with h | h
            · exact Or.inl h
            · exact Or.inr (List.mem_cons_of_mem _ (List.mem_append_right _ h))
          · exact Or.inr (List.mem_cons_of_mem _ (List.mem_append_left _ h))
    · rw [if_neg hq] at h
      simp only [pure_eq, ok.injEq, Prod.mk.injEq] at h
      obtain ⟨_, rfl⟩ := h
      exact ⟨[], rfl, List.nodup_nil, fun i hi => by simp at hi, fun i h => Or.inl h⟩

/-- Below an evaluated operator everything is evaluated. -/
theorem ids_cached [Zero α] {e : Ex α} {L D : Nat → Ten α} {s : St α} (hi : Inv e L D s) (t : Ex α) : ∀ sl, (sl, t) ∈ occs e none →
    Done L D s sl t → ∀ i ∈ ids t, (s.cache i).isSome := by
  induction t with
  | leaf k => intro sl _ _ i h; simp [ids] at h
  | var v c => intro sl _ _ i h; simp [ids] at h
  | un j op c ih =>
    intro sl ho hd i h
    have hj := (hd j rfl).1
    simp only [ids, List.mem_cons] at h
    rcases h with rfl | h
    · exact hj
    · exact ih _ (occs_child_un ho) (hi.child _ ho j rfl hj false c rfl) i h
  | bin j op l r ihl ihr =>
    intro sl ho hd i h
    have hj := (hd j rfl).1
    simp only [ids, List.mem_cons, List.mem_append] at h
    rcases h with rfl | h | h
    · exact hj
    · exact ihl _ (occs_child_bin ho).1 (hi.child _ ho j rfl hj false l rfl) i h
    · exact ihr _ (occs_child_bin ho).2 (hi.child _ ho j rfl hj true r rfl) i h

/-- C55, once: in a run each operator of the expression performs its forward action exactly once, provided the values are not empty
tensors (an empty cached value is taken for a missing one, include/operation.hpp lines 80, 173). -/
theorem run_once_partial [Zero α] (e : Ex α) (hc : Consistent e) (s : St α)
    (hne : ∀ p ∈ occs e none, ∀ i y, p.2.id? = some i → eval s.leaf s.data p.2 = ok y → y.data ≠ []) (y : Ten α) (s' : St α)
    (h : run e s = ok (y, s')) : ∃ new, s'.done = new ++ s.done ∧ new.Nodup ∧ ∀ i, i ∈ new ↔ i ∈ ids e := by
  obtain ⟨new, h1, h2, h3, h4⟩ := forward_once hc hne e none { s with cache := fun _ => none } (mem_occs_self e none) (inv_start s) y s' h
  refine ⟨new, h1, h2, fun i => ⟨fun hi => (h3 i hi).2.2, fun hi => ?_⟩⟩
  obtain ⟨-, i1, -, d1⟩ := forward_ok hc (mem_occs_self e none) (inv_start s) h
  have key := ids_cached i1 e none (mem_occs_self e none) d1 i hi
  rcases h4 i key with h | h
  · simp at h
  · exact h

end Verif.Graph
