import Mathlib.Tactic.Ring
import Mathlib.Data.List.Forall2
/-!
# Shapes and row-major indices (specification vocabulary)
-/
namespace Verif

/-- Number of elements of a shape (`std::accumulate( ..., std::multiplies )`, include/tensor.hpp lines 64, 249-252). -/
def size : List Nat → Nat
  | [] => 1
  | n :: s => n * size s

/-- A multi-index inside a shape. -/
def ValidIdx : List Nat → List Nat → Prop
  | [], [] => True
  | n :: s, i :: is => i < n ∧ ValidIdx s is
  | _, _ => False

instance : ∀ s is, Decidable (ValidIdx s is)
  | [], [] => isTrue trivial
  | n :: s, i :: is => by
    have := instDecidableValidIdx s is
    unfold ValidIdx; infer_instance
  | [], _ :: _ => isFalse (by simp [ValidIdx])
  | _ :: _, [] => isFalse (by simp [ValidIdx])

/-- Row-major position of a multi-index. -/
def flat : List Nat → List Nat → Nat
  | _ :: s, i :: is => i * size s + flat s is
  | _, _ => 0

@[simp] theorem size_nil : size [] = 1 := rfl
@[simp] theorem size_cons (n : Nat) (s : List Nat) : size (n :: s) = n * size s := rfl
@[simp] theorem flat_cons (n : Nat) (s : List Nat) (i : Nat) (is : List Nat) : flat (n :: s) (i :: is) = i * size s + flat s is := rfl
@[simp] theorem flat_nil (is : List Nat) : flat [] is = 0 := by cases is <;> rfl
@[simp] theorem validIdx_nil : ValidIdx [] [] := trivial
@[simp] theorem validIdx_cons {n i : Nat} {s is : List Nat} : ValidIdx (n :: s) (i :: is) ↔ i < n ∧ ValidIdx s is := Iff.rfl
@[simp] theorem validIdx_nil_cons {i : Nat} {is : List Nat} : ¬ ValidIdx [] (i :: is) := id
@[simp] theorem validIdx_cons_nil {n : Nat} {s : List Nat} : ¬ ValidIdx (n :: s) [] := id

theorem size_append (a b : List Nat) : size (a ++ b) = size a * size b := by
  induction a with
  | nil => simp
  | cons n a ih => simp [ih, Nat.mul_assoc]

theorem ValidIdx.length_eq {s is : List Nat} (h : ValidIdx s is) : is.length = s.length := by
  induction s generalizing is with
  | nil => cases is with
    | nil => rfl
    | cons => exact absurd h id
  | cons n s ih => cases is with
    | nil => exact absurd h id
    | cons i is => simp [ih h.2]

theorem lt_mul_of_lt {i n j m : Nat} (hi : i < n) (hj : j < m) : i * m + j < n * m := by
  have : (i + 1) * m ≤ n * m := Nat.mul_le_mul_right _ hi
  rw [Nat.succ_mul] at this
  omega

theorem flat_lt {s is : List Nat} (h : ValidIdx s is) : flat s is < size s := by
  induction s generalizing is with
  | nil => simp
  | cons n s ih =>
    cases is with
    | nil => exact absurd h id
    | cons i is => exact lt_mul_of_lt h.1 (ih h.2)

theorem div_mod_eq {i j m : Nat} (h : j < m) : (i * m + j) / m = i ∧ (i * m + j) % m = j := by
  have hm : 0 < m := by omega
  constructor
  · rw [Nat.add_comm, Nat.add_mul_div_right _ _ hm, Nat.div_eq_of_lt h, Nat.zero_add]
  · rw [Nat.add_comm, Nat.add_mul_mod_self_right, Nat.mod_eq_of_lt h]

theorem mul_add_inj {i j i' j' m : Nat} (h : j < m) (h' : j' < m) (e : i * m + j = i' * m + j') : i = i' ∧ j = j' := by
  have a := div_mod_eq (i := i) h
  have b := div_mod_eq (i := i') h'
  rw [e] at a
  exact ⟨a.1.symm.trans b.1, a.2.symm.trans b.2⟩

theorem flat_inj {s a b : List Nat} (ha : ValidIdx s a) (hb : ValidIdx s b) (e : flat s a = flat s b) : a = b := by
  induction s generalizing a b with
  | nil => cases a <;> cases b <;> first | rfl | exact absurd ha id | exact absurd hb id
  | cons n s ih =>
    cases a with
    | nil => exact absurd ha id
    | cons i is =>
      cases b with
      | nil => exact absurd hb id
      | cons j js =>
        obtain ⟨h1, h2⟩ := mul_add_inj (flat_lt ha.2) (flat_lt hb.2) e
        rw [h1, ih ha.2 hb.2 h2]

/-- The multi-index at a position. -/
def unflat : List Nat → Nat → List Nat
  | [], _ => []
  | _ :: s, p => p / size s :: unflat s (p % size s)

theorem unflat_spec {s : List Nat} {p : Nat} (h : p < size s) : ValidIdx s (unflat s p) ∧ flat s (unflat s p) = p := by
  induction s generalizing p with
  | nil => simp at h; simp [unflat, h]
  | cons n s ih =>
    have hs : 0 < size s := by
      rcases Nat.eq_zero_or_pos (size s) with h0 | h0
      · simp [h0] at h
      · exact h0
    obtain ⟨h1, h2⟩ := ih (Nat.mod_lt p hs)
    refine ⟨⟨?_, h1⟩, ?_⟩
    · rw [Nat.div_lt_iff_lt_mul hs]; exact h
    · simp only [unflat, flat_cons, h2]
      rw [Nat.mul_comm]; exact Nat.div_add_mod p (size s)

theorem unflat_flat {s is : List Nat} (h : ValidIdx s is) : unflat s (flat s is) = is :=
  flat_inj (unflat_spec (flat_lt h)).1 h (unflat_spec (flat_lt h)).2

theorem exists_idx {s : List Nat} {p : Nat} (h : p < size s) : ∃ is, ValidIdx s is ∧ flat s is = p :=
  ⟨_, unflat_spec h⟩

theorem validIdx_append {a b : List Nat} {i j : List Nat} (hl : i.length = a.length) :
    ValidIdx (a ++ b) (i ++ j) ↔ ValidIdx a i ∧ ValidIdx b j := by
  induction a generalizing i with
  | nil =>
    cases i with
    | nil => simp
    | cons => simp at hl
  | cons n a ih =>
    cases i with
    | nil => simp at hl
    | cons x i => simp [ih (by simpa using hl), and_assoc]

theorem flat_append {a b : List Nat} {i j : List Nat} (hl : i.length = a.length) :
    flat (a ++ b) (i ++ j) = flat a i * size b + flat b j := by
  induction a generalizing i with
  | nil =>
    cases i with
    | nil => simp
    | cons => simp at hl
  | cons n a ih =>
    cases i with
    | nil => simp at hl
    | cons x i =>
      simp only [List.cons_append, flat_cons, ih (by simpa using hl), size_append]
      ring

/-- Every index of `pre ++ [n] ++ post` splits. -/
theorem validIdx_split {pre post : List Nat} {n : Nat} {is : List Nat} (h : ValidIdx (pre ++ n :: post) is) :
    ∃ ip i iq, is = ip ++ i :: iq ∧ ValidIdx pre ip ∧ i < n ∧ ValidIdx post iq := by
  induction pre generalizing is with
  | nil =>
    cases is with
    | nil => exact absurd h id
    | cons i is => exact ⟨[], i, is, rfl, trivial, h.1, h.2⟩
  | cons m pre ih =>
    cases is with
    | nil => exact absurd h id
    | cons x is =>
      obtain ⟨ip, i, iq, rfl, h1, h2, h3⟩ := ih h.2
      exact ⟨x :: ip, i, iq, rfl, ⟨h.1, h1⟩, h2, h3⟩

theorem flat_axis {pre post : List Nat} {n : Nat} {ip iq : List Nat} {i : Nat} (h : ip.length = pre.length) :
    flat (pre ++ n :: post) (ip ++ i :: iq) = (flat pre ip * n + i) * size post + flat post iq := by
  rw [flat_append h]; simp; ring

end Verif
