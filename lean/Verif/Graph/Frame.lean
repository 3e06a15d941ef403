import Verif.Graph.Shared
/-!
# What runs and backward passes leave alone
-/
namespace Verif.Graph
open Verif Res View Data

section
variable {α : Type}

/-- `forward` changes neither place holders nor variables; it changes the gradient of variables of the expression only, to zeros. -/
theorem forward_keeps [Zero α] (t : Ex α) : ∀ (sl : Slot) (s s' : St α) (y : Ten α), forward t sl s = ok (y, s') →
    s'.leaf = s.leaf ∧ s'.data = s.data ∧ s'.training = s.training ∧
      ∀ v, s'.grad v = s.grad v ∨ (v ∈ vars t ∧ s'.grad v = ⟨(s.grad v).shape, (s.grad v).data.map (fun _ => 0)⟩) := by
  have hz : ∀ g : Ten α, (⟨g.shape, (g.data.map (fun _ => (0 : α))).map (fun _ => 0)⟩ : Ten α) = ⟨g.shape, g.data.map (fun _ => 0)⟩ := by
    intro g; simp
  induction t with
  | leaf k =>
    intro sl s s' y h
    simp only [forward, bind_eq_ok, pure_eq] at h
    obtain ⟨_, _, h⟩ := h
    cases h
    exact ⟨rfl, rfl, rfl, fun v => Or.inl rfl⟩
  | var v c =>
    intro sl s s' y h
    simp only [forward, varForward] at h
    split at h
    · cases h
      refine ⟨rfl, rfl, rfl, fun w => ?_⟩
      by_cases hw : w = v
      · subst hw; exact Or.inr ⟨by simp [vars], upd_same _ _ _⟩
      · exact Or.inl (upd_ne _ _ hw)
    · cases h
      exact ⟨rfl, rfl, rfl, fun v => Or.inl rfl⟩
  | un i op c ih =>
    intro sl s s' y h
    simp only [forward] at h
    split at h
    · simp only [bind_eq_ok, pure_eq] at h
      obtain ⟨⟨x, s2⟩, ha, z, hb, h⟩ := h
      cases h
      have := ih _ _ _ _ ha
      exact this
    · cases h
      exact ⟨rfl, rfl, rfl, fun v => Or.inl rfl⟩
  | bin i op l r ihl ihr =>
    intro sl s s' y h
    simp only [forward] at h
    split at h
    · simp only [bind_eq_ok, pure_eq] at h
      obtain ⟨⟨x, s2⟩, ha, ⟨w, s3⟩, hb, z, hz', h⟩ := h
      cases h
      obtain ⟨a1, a2, a3, a4⟩ := ihl _ _ _ _ ha
      obtain ⟨b1, b2, b3, b4⟩ := ihr _ _ _ _ hb
      refine ⟨b1.trans a1, b2.trans a2, b3.trans a3, fun v => ?_⟩
      simp only [vars, List.mem_append]
      rcases b4 v with h | ⟨h, h'⟩
      · rcases a4 v with k | ⟨k, k'⟩
        · exact Or.inl (h.trans k)
        · exact Or.inr ⟨Or.inl k, h.trans k'⟩
      · rcases a4 v with k | ⟨k, k'⟩
        · dsimp only at h' k ⊢
          rw [k] at h'
          exact Or.inr ⟨Or.inr h, h'⟩
        · dsimp only at h' k' ⊢
          rw [k'] at h'
          exact Or.inr ⟨Or.inl k, h'.trans (hz (s.grad v))⟩
    · cases h
      exact ⟨rfl, rfl, rfl, fun v => Or.inl rfl⟩

theorem run_keeps [Zero α] {e : Ex α} {s s' : St α} {y : Ten α} (h : run e s = ok (y, s')) :
    s'.leaf = s.leaf ∧ s'.data = s.data ∧ s'.training = s.training ∧
      ∀ v, s'.grad v = s.grad v ∨ (v ∈ vars e ∧ s'.grad v = ⟨(s.grad v).shape, (s.grad v).data.map (fun _ => 0)⟩) :=
  forward_keeps e none { s with cache := fun _ => none } s' y h

/-- `backward` changes gradients of variables of the expression, only (and the flags of the regularisers). -/
theorem backward_keeps [Zero α] [One α] [Add α] [Mul α] [Neg α] [LE α] [DecidableLE α] (eps : α) (t : Ex α) : ∀ (sl : Slot) (g : Ten α) (s s' : St α),
    backward eps t sl g s = ok s' → s'.leaf = s.leaf ∧ s'.data = s.data ∧ s'.training = s.training ∧ s'.cache = s.cache ∧ ∀ v, v ∉ vars t → s'.grad v = s.grad v := by
  induction t with
  | leaf k => intro sl g s s' h; cases h; exact ⟨rfl, rfl, rfl, rfl, fun _ _ => rfl⟩
  | var v c =>
    intro sl g s s' h
    have hw : ∀ (x : Ten α) (w : Nat), w ∉ vars (Ex.var v c) → upd s.grad v x w = s.grad w := by
      intro x w hw
      exact upd_ne _ _ (by rintro rfl; exact hw (by simp [vars]))
    simp only [backward, varBackward] at h
    split at h
    · cases h; exact ⟨rfl, rfl, rfl, rfl, fun _ _ => rfl⟩
    · rw [bind_eq_ok] at h
      obtain ⟨u, _, h⟩ := h
      split at h
      · rw [bind_eq_ok] at h
        obtain ⟨u', _, h⟩ := h
        cases h
        exact ⟨rfl, rfl, rfl, rfl, hw _⟩
      · cases h
        exact ⟨rfl, rfl, rfl, rfl, hw _⟩
  | un i op c ih =>
    intro sl g s s' h
    simp only [backward, bind_eq_ok] at h
    obtain ⟨d, _, h⟩ := h
    exact ih _ _ _ _ h
  | bin i op l r ihl ihr =>
    intro sl g s s' h
    simp only [backward, bind_eq_ok] at h
    obtain ⟨d, _, s2, h1, h2⟩ := h
    obtain ⟨a1, a2, a3, a4, a5⟩ := ihl _ _ _ _ h1
    obtain ⟨b1, b2, b3, b4, b5⟩ := ihr _ _ _ _ h2
    refine ⟨b1.trans a1, b2.trans a2, b3.trans a3, b4.trans a4, fun v hv => ?_⟩
    simp only [vars, List.mem_append, not_or] at hv
    exact (b5 v hv.2).trans (a5 v hv.1)

end
end Verif.Graph
