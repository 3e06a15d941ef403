import Verif.Ids.Model
import Verif.Tensor.Lemmas
/-!
# C67 (identities), C68 (comparison of place holders)
-/
namespace Verif.Ids
open Verif Res Tensor

/-! ## C67 -/

/-- Where an object comes from: the position in the history of the creation it is, through copies, a copy of.  `none` for a program that
uses objects it does not have. -/
def originsFrom : Nat → List Op → List Nat → Option (List Nat)
  | _, [], o => some o
  | p, .create :: h, o => originsFrom (p + 1) h (o ++ [p])
  | p, .copy k :: h, o => do originsFrom (p + 1) h (o ++ [← o[k]?])
  | p, .assign k j :: h, o => do
    let i ← o[j]?
    if k < o.length then originsFrom (p + 1) h (o.set k i) else none

def origins (h : List Op) : Option (List Nat) := originsFrom 0 h []

/-- The number of creations in a program. -/
def creations (h : List Op) : Nat := (h.filter (fun o => match o with | .create => true | _ => false)).length

/-- Identities are a strictly increasing function of origins. -/
structure Agree (p : Nat) (s : St) (o : List Nat) (f : Nat → Nat) : Prop where
  ids : s.objs = o.map f
  lt : ∀ q, q ∈ o → q < p ∧ f q < s.next
  inj : ∀ q q', q ∈ o → q' ∈ o → f q = f q' → q = q'

theorem run_agree (h : List Op) : ∀ (p : Nat) (s s' : St) (o : List Nat) (f : Nat → Nat), Agree p s o f → h.foldlM exec s = ok s' →
    ∃ o' f', originsFrom p h o = some o' ∧ Agree (p + h.length) s' o' f' := by
  induction h with
  | nil =>
    intro p s s' o f ha h
    cases h
    exact ⟨o, f, rfl, ha⟩
  | cons op h ih =>
    intro p s s' o f ha hr
    rw [List.foldlM_cons, bind_eq_ok] at hr
    obtain ⟨s1, h1, h2⟩ := hr
    rw [List.length_cons, show p + (h.length + 1) = p + 1 + h.length from by omega]
    cases op with
    | create =>
      simp only [exec, generateUid, bind_eq_ok, pure_eq, ok.injEq] at h1
      obtain ⟨⟨i, s2⟩, ⟨_, _, h3⟩, rfl⟩ := h1
      obtain ⟨rfl, rfl⟩ := Prod.mk.injEq _ _ _ _ ▸ h3
      have hp : ∀ q, q ∈ o → (if q = p then s.next else f q) = f q := fun q hq => if_neg (by have := (ha.lt q hq).1; omega)
      refine ih (p + 1) _ s' (o ++ [p]) (fun q => if q = p then s.next else f q) ⟨?_, ?_, ?_⟩ h2
      · dsimp only
        rw [List.map_append, List.map_singleton, if_pos rfl, ha.ids]
        congr 1
        exact List.map_congr_left (fun q hq => (hp q hq).symm)
      · intro q hq
        rw [List.mem_append, List.mem_singleton] at hq
        rcases hq with hq | rfl
        · rw [hp q hq]
          have := ha.lt q hq
          dsimp only
          omega
        · rw [if_pos rfl]; dsimp only; omega
      · intro q q' hq hq' he
        rw [List.mem_append, List.mem_singleton] at hq hq'
        rcases hq with hq | rfl <;> rcases hq' with hq' | rfl
        · rw [hp q hq, hp q' hq'] at he; exact ha.inj q q' hq hq' he
        · rw [hp q hq, if_pos rfl] at he
          have := (ha.lt q hq).2; omega
        · rw [hp q' hq', if_pos rfl] at he
          have := (ha.lt q' hq').2; omega
        · rfl
    | copy k =>
      simp only [exec, bind_eq_ok, pure_eq, ok.injEq] at h1
      obtain ⟨i, h3, rfl⟩ := h1
      rw [rd_eq_ok, ha.ids, List.getElem?_map, Option.map_eq_some_iff] at h3
      obtain ⟨q, hq, rfl⟩ := h3
      have hmem : q ∈ o := List.mem_of_getElem? hq
      have hm : ∀ x, x ∈ o ++ [q] → x ∈ o := by
        intro x hx
        rw [List.mem_append, List.mem_singleton] at hx
        rcases hx with hx | rfl
        · exact hx
        · exact hmem
      obtain ⟨o', f', k1, k2⟩ := ih (p + 1) _ s' (o ++ [q]) f ⟨by simp [ha.ids], fun x hx => by have := ha.lt x (hm x hx); exact ⟨by omega, this.2⟩,
        fun x y hx hy => ha.inj x y (hm x hx) (hm y hy)⟩ h2
      exact ⟨o', f', by simp only [originsFrom, hq]; exact k1, k2⟩
    | assign k j =>
      simp only [exec, bind_eq_ok, pure_eq, ok.injEq] at h1
      obtain ⟨i, h3, u, h4, rfl⟩ := h1
      rw [rd_eq_ok, ha.ids, List.getElem?_map, Option.map_eq_some_iff] at h3
      obtain ⟨q, hq, rfl⟩ := h3
      rw [wr_eq_ok] at h4
      obtain ⟨hk, rfl⟩ := h4
      have hk' : k < o.length := by rw [ha.ids, List.length_map] at hk; exact hk
      have hmem : q ∈ o := List.mem_of_getElem? hq
      have hm : ∀ x, x ∈ o.set k q → x ∈ o := by
        intro x hx
        rcases List.mem_or_eq_of_mem_set hx with hx | rfl
        · exact hx
        · exact hmem
      obtain ⟨o', f', k1, k2⟩ := ih (p + 1) _ s' (o.set k q) f ⟨by simp [ha.ids, List.map_set], fun x hx => by have := ha.lt x (hm x hx); exact ⟨by omega, this.2⟩,
        fun x y hx hy => ha.inj x y (hm x hx) (hm y hy)⟩ h2
      exact ⟨o', f', by simp only [originsFrom, hq]; rw [← k1]; exact if_pos hk', k2⟩

/-- C67: after every program, two objects have the same identity exactly when they are copies of one creation. -/
theorem ids_unique (h : List Op) (s : St) (hr : run h = ok s) :
    ∃ o, origins h = some o ∧ o.length = s.objs.length ∧ ∀ (i j a b x y : Nat), s.objs[i]? = some a → s.objs[j]? = some b → o[i]? = some x → o[j]? = some y → (a = b ↔ x = y) := by
  obtain ⟨o, f, h1, h2⟩ := run_agree h 0 ⟨0, []⟩ s [] id ⟨rfl, by simp, by simp⟩ hr
  refine ⟨o, h1, by rw [h2.ids, List.length_map], fun i j a b x y ha hb hx hy => ?_⟩
  rw [h2.ids, List.getElem?_map, hx, Option.map_some, Option.some.injEq] at ha
  rw [h2.ids, List.getElem?_map, hy, Option.map_some, Option.some.injEq] at hb
  subst ha hb
  exact ⟨h2.inj x y (List.mem_of_getElem? hx) (List.mem_of_getElem? hy), fun e => by rw [e]⟩

theorem run_returns (h : List Op) : ∀ (p : Nat) (s : St) (o o' : List Nat), s.objs.length = o.length → originsFrom p h o = some o' → s.next + creations h ≤ maxInt →
    ∃ s', h.foldlM exec s = ok s' := by
  induction h with
  | nil => intro p s o o' _ _ _; exact ⟨s, rfl⟩
  | cons op h ih =>
    intro p s o o' hl ho hc
    rw [List.foldlM_cons]
    cases op with
    | create =>
      have hc' : s.next + (creations h + 1) ≤ maxInt := hc
      simp only [exec, generateUid]
      rw [require_true (by omega)]
      exact ih (p + 1) _ (o ++ [p]) o' (by simp [hl]) ho (by dsimp only; omega)
    | copy k =>
      have hc' : s.next + creations h ≤ maxInt := hc
      cases hk : o[k]? with
      | none => simp only [originsFrom, hk] at ho; cases ho
      | some q =>
        have hlt : k < s.objs.length := by rw [hl]; exact (List.getElem?_eq_some_iff.mp hk).1
        simp only [exec]
        rw [rd_ok (List.getElem?_eq_getElem hlt)]
        simp only [originsFrom, hk] at ho
        exact ih (p + 1) _ (o ++ [q]) o' (by simp [hl]) ho hc'
    | assign k j =>
      have hc' : s.next + creations h ≤ maxInt := hc
      cases hk : o[j]? with
      | none => simp only [originsFrom, hk] at ho; cases ho
      | some q =>
        have hlt : j < s.objs.length := by rw [hl]; exact (List.getElem?_eq_some_iff.mp hk).1
        simp only [exec]
        rw [rd_ok (List.getElem?_eq_getElem hlt)]
        simp only [originsFrom, hk] at ho
        by_cases hko : k < o.length
        · have ho' : originsFrom (p + 1) h (o.set k q) = some o' := by rw [← ho]; exact (if_pos hko).symm
          rw [bind_ok, wr_ok (by omega)]
          exact ih (p + 1) _ (o.set k q) o' (by simp [hl]) ho' hc'
        · exfalso
          rw [show (some q >>= fun i => if k < o.length then originsFrom (p + 1) h (o.set k i) else none) = none from if_neg hko] at ho
          cases ho

/-- C67: every program that uses only objects it has, with fewer than 2^31 creations, does run. -/
theorem ids_total (h : List Op) (ho : origins h ≠ none) (hc : creations h ≤ maxInt) : ∃ s, run h = ok s := by
  obtain ⟨o', h1⟩ := Option.ne_none_iff_exists'.mp ho
  exact run_returns h 0 ⟨0, []⟩ [] o' rfl h1 (by rw [Nat.zero_add]; exact hc)

/-- Two creations, a copy of the first, a third creation, and the third object assigned the second. -/
example : run [.create, .create, .copy 0, .create, .assign 2 1] = ok ⟨3, [0, 1, 1, 2]⟩ ∧
    origins [.create, .create, .copy 0, .create, .assign 2 1] = some [0, 1, 1, 3] := by constructor <;> rfl

/-! ## C68 -/

/-- C68 is violated by every pair of different place holders: `p > q` is not `q < p`. -/
theorem place_holder_gt_violated (p q : Nat) (h : p ≠ q) : phGt p q ≠ phLt q p := by
  unfold phGt phLt
  intro e
  rw [decide_eq_decide] at e
  omega

/-- The two place holders can be any two that were created separately. -/
example : ∃ s, run [.create, .create] = ok s ∧ ∃ p q, s.objs[0]? = some p ∧ s.objs[1]? = some q ∧ phGt p q = phLt p q ∧ phGt p q ≠ phLt q p :=
  ⟨_, rfl, 0, 1, rfl, rfl, rfl, place_holder_gt_violated 0 1 (by decide)⟩

/-- The other comparisons are those of one linear order. -/
theorem place_holder_order_partial (p q r : Nat) :
    (phEq p q = true ↔ p = q) ∧ phNe p q = !phEq p q ∧ phLe p q = (phLt p q || phEq p q) ∧ phGe p q = phLe q p ∧ phLt p q = !phGe p q ∧
    (phLt p q = true → phLt q r = true → phLt p r = true) ∧ (phEq p q = true ∨ phLt p q = true ∨ phLt q p = true) ∧ phGt p p = false := by
  unfold phEq phNe phLe phLt phGe phGt
  refine ⟨by simp, rfl, ?_, by simp, ?_, ?_, ?_, by simp⟩
  · rw [Bool.eq_iff_iff]; simp only [decide_eq_true_eq, Bool.or_eq_true, beq_iff_eq]; omega
  · rw [Bool.eq_iff_iff]; simp
  · simp only [decide_eq_true_eq]; omega
  · rcases Nat.lt_trichotomy p q with h | h | h <;> simp [h]

end Verif.Ids
