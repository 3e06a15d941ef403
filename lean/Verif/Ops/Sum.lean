import Verif.Basic.Axis
import Mathlib.Algebra.BigOperators.Ring.Finset
import Mathlib.Algebra.Module.NatInt
/-!
# Sums over all multi-indices of a shape (specification vocabulary and lemmas)
-/
namespace Verif
open Res

variable {α : Type}

/-- The sum of `f` over all multi-indices of the shape. -/
def sumIdx [AddCommMonoid α] : List Nat → (List Nat → α) → α
  | [], f => f []
  | n :: s, f => ∑ i ∈ Finset.range n, sumIdx s (fun is => f (i :: is))

theorem sumIdx_congr [AddCommMonoid α] {s : List Nat} {f g : List Nat → α} (h : ∀ is, ValidIdx s is → f is = g is) :
    sumIdx s f = sumIdx s g := by
  induction s generalizing f g with
  | nil => exact h [] trivial
  | cons n s ih => exact Finset.sum_congr rfl (fun i hi => ih (fun is hv => h (i :: is) ⟨Finset.mem_range.mp hi, hv⟩))

theorem sumIdx_add [AddCommMonoid α] (s : List Nat) (f g : List Nat → α) : sumIdx s (fun is => f is + g is) = sumIdx s f + sumIdx s g := by
  induction s generalizing f g with
  | nil => rfl
  | cons n s ih => simp only [sumIdx, ih, Finset.sum_add_distrib]

theorem sumIdx_sum [AddCommMonoid α] (s : List Nat) (n : Nat) (f : Nat → List Nat → α) :
    sumIdx s (fun is => ∑ i ∈ Finset.range n, f i is) = ∑ i ∈ Finset.range n, sumIdx s (f i) := by
  induction n with
  | zero =>
    simp only [Finset.range_zero, Finset.sum_empty]
    induction s with
    | nil => rfl
    | cons n s ih => simp [sumIdx, ih]
  | succ n ih => simp only [Finset.sum_range_succ, sumIdx_add, ih]

theorem sumIdx_mul_left [NonUnitalNonAssocSemiring α] (s : List Nat) (c : α) (f : List Nat → α) :
    sumIdx s (fun is => c * f is) = c * sumIdx s f := by
  induction s generalizing f with
  | nil => rfl
  | cons n s ih => simp only [sumIdx, ih, Finset.mul_sum]

/-- Summing along one axis first. -/
theorem sumIdx_axis [AddCommMonoid α] (pre post : List Nat) (n : Nat) (f : List Nat → α) :
    sumIdx (pre ++ n :: post) f = sumIdx (pre ++ 1 :: post) (fun is => ∑ i ∈ Finset.range n, f (is.set pre.length i)) := by
  induction pre generalizing f with
  | nil => simp [sumIdx, sumIdx_sum, one_smul]
  | cons m pre ih =>
    simp only [List.cons_append, sumIdx, List.length_cons, List.set_cons_succ]
    exact Finset.sum_congr rfl (fun i _ => ih _)

theorem sumIdx_append [AddCommMonoid α] (pre post : List Nat) (f : List Nat → α) :
    sumIdx (pre ++ post) f = sumIdx pre (fun ip => sumIdx post (fun iq => f (ip ++ iq))) := by
  induction pre generalizing f with
  | nil => rfl
  | cons m pre ih =>
    simp only [List.cons_append, sumIdx]
    exact Finset.sum_congr rfl (fun i _ => ih _)

/-- The sum over multi-indices is the sum over storage positions. -/
theorem sumIdx_eq_range [AddCommMonoid α] (s : List Nat) (f : List Nat → α) :
    sumIdx s f = ∑ p ∈ Finset.range (size s), f (unflat s p) := by
  induction s generalizing f with
  | nil => simp [sumIdx, unflat, one_smul]
  | cons n s ih =>
    rw [sumIdx, size_cons]
    have : ∀ v : Nat → α, ∀ m k : Nat, ∑ p ∈ Finset.range (m * k), v p = ∑ i ∈ Finset.range m, ∑ j ∈ Finset.range k, v (i * k + j) := by
      intro v m k
      induction m with
      | zero => simp
      | succ m ih => rw [Nat.succ_mul, Finset.sum_range_add, ih, Finset.sum_range_succ]
    rw [this]
    refine Finset.sum_congr rfl (fun i _ => ?_)
    rw [ih]
    refine Finset.sum_congr rfl (fun j hj => ?_)
    have := div_mod_eq (i := i) (Finset.mem_range.mp hj)
    rw [unflat, this.1, this.2]

end Verif
