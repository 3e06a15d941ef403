import Verif.Basic.Axis
/-!
# In-place updates that touch each cell once (helper lemmas)
-/
namespace Verif
open Res

variable {α : Type}

/-- Cells satisfying `S` go from `x` to `φ p x`, the others keep their value. -/
def Upd (f : List α → Res (List α)) (N : Nat) (S : Nat → Prop) (φ : Nat → α → α) : Prop :=
  ∀ o : List α, o.length = N → ∃ o', f o = ok o' ∧ o'.length = N ∧
    ∀ p x, o[p]? = some x → (S p → o'[p]? = some (φ p x)) ∧ (¬ S p → o'[p]? = some x)

theorem upd_at {N i : Nat} {φ : Nat → α → α} {f : List α → Res (List α)} (h : i < N)
    (hf : ∀ o x, o.length = N → o[i]? = some x → f o = wr o i (φ i x)) : Upd f N (fun p => p = i) φ := by
  intro o ho
  have hi : i < o.length := by omega
  refine ⟨o.set i (φ i o[i]), ?_, by simpa using ho, fun p x hp => ⟨fun e => ?_, fun e => ?_⟩⟩
  · rw [hf o _ ho (List.getElem?_eq_getElem hi), wr_ok hi]
  · subst e
    rw [List.getElem?_eq_getElem hi] at hp
    simp at hp
    rw [List.getElem?_set_self hi, hp]
  · rw [List.getElem?_set_ne (Ne.symm e)]; exact hp

theorem upd_nop {N : Nat} {φ : Nat → α → α} : Upd (fun o : List α => ok o) N (fun _ => False) φ :=
  fun o ho => ⟨o, rfl, ho, fun _ _ h => ⟨fun x => x.elim, fun _ => h⟩⟩

theorem Upd.congr {f : List α → Res (List α)} {N : Nat} {S T : Nat → Prop} {φ : Nat → α → α} (h : Upd f N S φ)
    (e : ∀ p, p < N → (S p ↔ T p)) : Upd f N T φ := by
  intro o ho
  obtain ⟨o', h1, h2, h3⟩ := h o ho
  refine ⟨o', h1, h2, fun p x hp => ?_⟩
  have hlt : p < N := by rw [← ho]; exact (List.getElem?_eq_some_iff.mp hp).1
  obtain ⟨a, b⟩ := h3 p x hp
  exact ⟨fun ht => a ((e p hlt).mpr ht), fun ht => b (fun hs => ht ((e p hlt).mp hs))⟩

theorem Upd.congr_prog {f g : List α → Res (List α)} {N : Nat} {S : Nat → Prop} {φ : Nat → α → α} (h : Upd f N S φ)
    (e : ∀ o, o.length = N → g o = f o) : Upd g N S φ := by
  intro o ho; rw [e o ho]; exact h o ho

theorem Upd.seq {f g : List α → Res (List α)} {N : Nat} {S T : Nat → Prop} {φ : Nat → α → α} (hf : Upd f N S φ)
    (hg : Upd g N T φ) (hd : ∀ p, p < N → ¬ (S p ∧ T p)) : Upd (fun o => f o >>= g) N (fun p => S p ∨ T p) φ := by
  intro o ho
  obtain ⟨o', h1, h2, h3⟩ := hf o ho
  obtain ⟨o'', g1, g2, g3⟩ := hg o' h2
  refine ⟨o'', by dsimp only; rw [h1, bind_ok, g1], g2, fun p x hp => ?_⟩
  have hlt : p < N := by rw [← ho]; exact (List.getElem?_eq_some_iff.mp hp).1
  obtain ⟨a, b⟩ := h3 p x hp
  refine ⟨fun hs => ?_, fun hs => ?_⟩
  · rcases hs with hs | ht
    · exact (g3 p _ (a hs)).2 (fun ht => hd p hlt ⟨hs, ht⟩)
    · exact (g3 p _ (b (fun hs => hd p hlt ⟨hs, ht⟩))).1 ht
  · exact (g3 p _ (b (fun h => hs (Or.inl h)))).2 (fun h => hs (Or.inr h))

theorem Upd.loop {n : Nat} {body : Nat → List α → Res (List α)} {N : Nat} {S : Nat → Nat → Prop} {φ : Nat → α → α}
    (h : ∀ i, i < n → Upd (body i) N (S i) φ) (hd : ∀ i j p, i < j → j < n → p < N → ¬ (S i p ∧ S j p)) :
    Upd (fun o => loop n body o) N (fun p => ∃ i, i < n ∧ S i p) φ := by
  induction n with
  | zero => exact fun o ho => ⟨o, rfl, ho, fun _ _ h => ⟨fun ⟨i, hi, _⟩ => absurd hi (by omega), fun _ => h⟩⟩
  | succ n ih =>
    refine Upd.congr ((ih (fun i hi => h i (by omega)) (fun i j p h1 h2 h3 => hd i j p h1 (by omega) h3)).seq (h n (by omega))
      (fun p hp => ?_)) (fun p _ => ?_)
    · rintro ⟨⟨i, hi, hs⟩, ht⟩
      exact hd i n p hi (by omega) hp ⟨hs, ht⟩
    · constructor
      · rintro (⟨i, hi, hs⟩ | hs)
        · exact ⟨i, by omega, hs⟩
        · exact ⟨n, by omega, hs⟩
      · rintro ⟨i, hi, hs⟩
        by_cases e : i = n
        · subst e; exact Or.inr hs
        · exact Or.inl ⟨i, by omega, hs⟩

/-- `for i: o[i] = φ(i, o[i])`. -/
theorem upd1 {n : Nat} {body : Nat → List α → Res (List α)} {φ : Nat → α → α}
    (h : ∀ i o x, i < n → o.length = n → o[i]? = some x → body i o = wr o i (φ i x)) {o : List α} (ho : o.length = n) :
    ∃ o', loop n body o = ok o' ∧ o'.length = n ∧ ∀ p x, o[p]? = some x → o'[p]? = some (φ p x) := by
  have hu : Upd (fun o => Verif.loop n body o) n (fun p => ∃ i, i < n ∧ p = i) φ := by
    refine Upd.loop (fun i hi => upd_at hi (fun o x ho hx => h i o x hi ho hx)) (fun i j p hij _ _ => ?_)
    rintro ⟨rfl, rfl⟩; omega
  obtain ⟨o', h1, h2, h3⟩ := hu o ho
  refine ⟨o', h1, h2, fun p x hp => (h3 p x hp).1 ⟨p, ?_, rfl⟩⟩
  rw [← ho]; exact (List.getElem?_eq_some_iff.mp hp).1

/-- `for i: for j: o[i*n+j] = φ(i*n+j, o[i*n+j])`. -/
theorem upd2 {m n : Nat} {body : Nat → Nat → List α → Res (List α)} {φ : Nat → α → α}
    (h : ∀ i j o x, i < m → j < n → o.length = m * n → o[i * n + j]? = some x → body i j o = wr o (i * n + j) (φ (i * n + j) x))
    {o : List α} (ho : o.length = m * n) :
    ∃ o', loop m (fun i o => loop n (fun j o => body i j o) o) o = ok o' ∧ o'.length = m * n ∧
      ∀ p x, o[p]? = some x → o'[p]? = some (φ p x) := by
  have hu : Upd (fun o => Verif.loop m (fun i o => Verif.loop n (fun j o => body i j o) o) o) (m * n)
      (fun p => ∃ i, i < m ∧ ∃ j, j < n ∧ p = i * n + j) φ := by
    refine Upd.loop (fun i hi => Upd.loop (fun j hj => upd_at (lt_mul_of_lt hi hj) (fun o x ho hx => h i j o x hi hj ho hx))
      (fun j j' p hij _ _ => ?_)) (fun i i' p hij _ _ => ?_)
    · rintro ⟨rfl, e⟩; omega
    · rintro ⟨⟨j, hj, rfl⟩, ⟨j', hj', e⟩⟩
      have := (mul_add_inj hj hj' e).1
      omega
  obtain ⟨o', h1, h2, h3⟩ := hu o ho
  refine ⟨o', h1, h2, fun p x hp => (h3 p x hp).1 ?_⟩
  have hlt : p < m * n := by rw [← ho]; exact (List.getElem?_eq_some_iff.mp hp).1
  obtain ⟨i, j, hi, hj, rfl⟩ := exists_div_mod hlt
  exact ⟨i, hi, j, hj, rfl⟩

end Verif
