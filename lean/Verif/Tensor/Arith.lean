import Verif.Tensor.Broadcast
/-!
# Helper lemmas: `add` / `minus`
-/
namespace Verif.Tensor
open Verif Res

variable {α : Type}

theorem Holds.append {h : Heap α} {t : Tn} {a : List Nat → α} (hh : Holds h t a) (ext : Heap α) : Holds (h ++ ext) t a := by
  obtain ⟨b, hb, hT⟩ := hh
  exact ⟨b, by rw [List.getElem?_append_left (List.getElem?_eq_some_iff.mp hb).1, hb], hT⟩

theorem broadcastsTo_left {a b c : List Nat} (hl : c.length = max a.length b.length) (hc : ∀ k, dimR c k = rule a b k) :
    BroadcastsTo a c := by
  refine ⟨by omega, fun k _ => ?_⟩
  rw [hc k, rule]
  by_cases h : dimR a k = 1
  · exact Or.inr h
  · left; rw [if_neg h]

theorem broadcastsTo_right {a b c : List Nat} (h : Compatible a b) (hl : c.length = max a.length b.length)
    (hc : ∀ k, dimR c k = rule a b k) : BroadcastsTo b c := by
  refine ⟨by omega, fun k _ => ?_⟩
  rw [hc k, rule]
  by_cases h1 : dimR a k = 1
  · left; rw [if_pos h1]
  · rw [if_neg h1]
    rcases h k with e | e | e
    · exact Or.inl e.symm
    · exact absurd e h1
    · exact Or.inr e

theorem addLike_ok [Zero α] {f : α → α → α} {h : Heap α} {l r : Tn} {a b : List Nat → α} (hl : Holds h l a) (hr : Holds h r b)
    (hc : Compatible l.shape r.shape) (ml : l.shape.getLast? ≠ some minusOne) (mr : r.shape.getLast? ≠ some minusOne) :
    ∃ c t' h', broadcastShape l.shape r.shape = ok c ∧ addLike f h l r = ok (t', h') ∧ t'.shape = c ∧
      Holds h' t' (fun is => f (a (bcIdx l.shape is)) (b (bcIdx r.shape is))) ∧ h.length ≤ h'.length ∧
      (padShape l.shape c ≠ c → h.length ≤ t'.loc ∧ ∀ k, k < h.length → h'[k]? = h[k]?) ∧
      (padShape l.shape c = c → t'.loc = l.loc ∧ ∀ k, k < h.length → k ≠ l.loc → h'[k]? = h[k]?) := by
  obtain ⟨c, hbs, hcl, hcr⟩ := broadcastShape_ok hc
  obtain ⟨t1, e1, g1, g2, g3, g4, g5⟩ := broadcastTensor_ok hl (broadcastsTo_left hcl hcr) ml
  obtain ⟨t2, e2, k1, k2, k3, _, _⟩ := broadcastTensor_ok (hr.append e1) (broadcastsTo_right hc hcl hcr) mr
  obtain ⟨b1, hb1, hT1⟩ := g3.append e2
  obtain ⟨b2, hb2, hT2⟩ := k3
  have hlen : b1.length = b2.length := by rw [hT1.1, hT2.1, g2, k2]
  obtain ⟨b', hz, hbl, hbv⟩ := zipInto_spec (f := f) hb1 hb2 (by omega)
  have hlt : t1.loc < (h ++ e1 ++ e2).length := (List.getElem?_eq_some_iff.mp hb1).1
  refine ⟨c, t1, _, hbs, ?_, g2, ⟨b', List.getElem?_set_self hlt, by rw [hbl]; exact hT1.1, fun is hv => ?_⟩, ?_, ?_, ?_⟩
  · simp only [addLike, hbs, bind_ok, g1, k1, hz, pure_eq]
  · have := hT2.2 is (by rw [k2, ← g2]; exact hv)
    rw [k2, ← g2] at this
    exact hbv _ _ _ (hT1.2 is hv) this
  · simp
  · intro hp
    have := g5 hp
    refine ⟨this, fun k hk => ?_⟩
    rw [List.getElem?_set_ne (by omega), List.append_assoc, List.getElem?_append_left hk]
  · intro hp
    obtain ⟨hloc, _⟩ := g4 hp
    refine ⟨hloc, fun k hk hne => ?_⟩
    rw [List.getElem?_set_ne (by rw [hloc]; exact Ne.symm hne), List.append_assoc, List.getElem?_append_left hk]

end Verif.Tensor
