import Verif.Basic.Axis
/-!
# Element access and loops updating a buffer in place
-/
namespace Verif
open Res

variable {α : Type}

/-- The element of a tensor at an index (specification vocabulary); 0 outside. -/
def Ten.at [Zero α] (t : Ten α) (is : List Nat) : α := t.data.getD (flat t.shape is) 0

/-- A tensor with as many elements as its shape says. -/
def Ten.WF (t : Ten α) : Prop := t.data.length = size t.shape

theorem Ten.Has.at_eq [Zero α] {t : Ten α} {s : List Nat} {a : List Nat → α} (h : t.Has s a) {is : List Nat} (hv : ValidIdx s is) : t.at is = a is := by
  unfold Ten.at
  rw [h.1, List.getD_eq_getElem?_getD, h.2.2 is hv]; rfl

theorem Ten.Has.wf {t : Ten α} {s : List Nat} {a : List Nat → α} (h : t.Has s a) : t.WF := by unfold Ten.WF; rw [h.1, h.2.1]

theorem Ten.WF.has [Zero α] {t : Ten α} (h : t.WF) : t.Has t.shape t.at := by
  refine ⟨rfl, h, fun is hv => ?_⟩
  unfold Ten.at
  have : flat t.shape is < t.data.length := by rw [h]; exact flat_lt hv
  rw [List.getD_eq_getElem?_getD, List.getElem?_eq_getElem this]; rfl

/-- Updating every element of a buffer in place. -/
theorem update1 {n : Nat} {body : Nat → List α → Res (List α)} {a g : Nat → α} {out : List α}
    (h : ∀ j o, j < n → o.length = n → o[j]? = some (a j) → body j o = wr o j (g j)) (ho : out.length = n) (ha : ∀ p, p < n → out[p]? = some (a p)) :
    ∃ o', loop n (fun j o => body j o) out = ok o' ∧ o'.length = n ∧ ∀ p, p < n → o'[p]? = some (g p) := by
  obtain ⟨o', h1, h2, h3⟩ := loop_inv (n := n) (s := out) (body := body)
    (I := fun k o => o.length = n ∧ ∀ p, p < n → o[p]? = some (if p < k then g p else a p)) ⟨ho, fun p hp => by rw [if_neg (by omega), ha p hp]⟩ (by
      rintro i t hi ⟨hl, hp⟩
      refine ⟨t.set i (g i), ?_, by rw [List.length_set, hl], fun p hpn => ?_⟩
      · rw [h i t hi hl (by rw [hp i hi, if_neg (by omega)]), wr_ok (by omega)]
      · rw [List.getElem?_set]
        by_cases hip : i = p
        · subst hip
          rw [if_pos rfl, if_pos (by omega), if_pos (by omega)]
        · rw [if_neg hip, hp p hpn]
          by_cases h1 : p < i
          · rw [if_pos h1, if_pos (by omega)]
          · rw [if_neg h1, if_neg (by omega)])
  exact ⟨o', h1, h2, fun p hp => by rw [h3 p hp, if_pos hp]⟩

end Verif
