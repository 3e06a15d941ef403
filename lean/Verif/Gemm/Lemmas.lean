import Verif.Gemm.Spec
import Verif.Tensor.History
import Mathlib.Algebra.BigOperators.Ring.Finset
/-!
# Helper lemmas for matrix products
-/
namespace Verif.Gemm
open Verif Res View

variable {α : Type}

theorem fillN_sets {N : Nat} (v : α) : Sets (fun o => fillN N v o) N (fun p => ∃ i, i < N ∧ p = i) (fun _ => v) :=
  Sets.loop (fun _ hi => sets_wr hi rfl)

theorem fillN_ok {N : Nat} {v : α} {C : List α} (h : C.length = N) : fillN N v C = ok (List.replicate N v) := by
  rw [(fillN_sets v).eq_ok (fun p hp => ⟨p, hp, rfl⟩) h]
  congr 1
  apply List.ext_getElem? 
  intro p
  by_cases hp : p < N
  · simp [hp]
  · rw [List.getElem?_eq_none (by simp; omega), List.getElem?_eq_none (by simp; omega)]

/-- The triple loop with an arbitrary term. -/
theorem gemm_loop [AddCommMonoid α] {m n k : Nat} {body : Nat → Nat → Nat → List α → Res (List α)} {t : Nat → Nat → Nat → α}
    (h : ∀ r idx c o, r < m → idx < n → c < k → body r idx c o = addAt o (r * k + c) (t r idx c)) {C : List α}
    (hC : C = List.replicate (m * k) 0) :
    ∃ C', loop m (fun r C => loop n (fun idx C => loop k (fun c C => body r idx c C) C) C) C = ok C' ∧
      Is2 C' m k (fun r c => ∑ idx ∈ Finset.range n, t r idx c) := by
  have hadds : Adds (fun o => loop m (fun r C => loop n (fun idx C => loop k (fun c C => body r idx c C) C) C) o) (m * k)
      (fun p => ∑ r ∈ Finset.range m, ∑ idx ∈ Finset.range n, ∑ c ∈ Finset.range k, if p = r * k + c then t r idx c else 0) := by
    refine Adds.loop (fun r hr => Adds.loop (fun idx hi => Adds.loop (fun c hc => ?_)))
    exact (adds_addAt (lt_mul_of_lt hr hc)).congr_prog (fun o _ => h r idx c o hr hi hc)
  obtain ⟨C', h1, h2, h3⟩ := hadds.run (o := C) (by simp [hC]) (g := fun _ => 0) (by intro p hp; simp [hC, hp])
  refine ⟨C', h1, h2, fun i j hi hj => ?_⟩
  rw [h3 _ (lt_mul_of_lt hi hj), zero_add]
  congr 1
  rw [Finset.sum_eq_single i]
  · refine Finset.sum_congr rfl (fun idx _ => ?_)
    rw [Finset.sum_eq_single j]
    · simp
    · intro c hc hne
      rw [if_neg]
      intro e
      exact hne (mul_add_inj hj (Finset.mem_range.mp hc) e).2.symm
    · intro hc; exact absurd (Finset.mem_range.mpr hj) hc
  · intro r hr hne
    refine Finset.sum_eq_zero (fun idx _ => Finset.sum_eq_zero (fun c hc => ?_))
    rw [if_neg]
    intro e
    exact hne (mul_add_inj hj (Finset.mem_range.mp hc) e).1.symm
  · intro hc; exact absurd (Finset.mem_range.mpr hi) hc

theorem Is2.ext {A B : List α} {m n : Nat} {a : Nat → Nat → α} (ha : Is2 A m n a) (hb : Is2 B m n a) : A = B := by
  apply List.ext_getElem?
  intro p
  by_cases hp : p < m * n
  · obtain ⟨i, j, hi, hj, rfl⟩ := exists_div_mod hp
    rw [ha.2 i j hi hj, hb.2 i j hi hj]
  · rw [List.getElem?_eq_none (by rw [ha.1]; omega), List.getElem?_eq_none (by rw [hb.1]; omega)]

theorem gemmCpu_ok [CommSemiring α] {A B C : List α} {aT bT : Bool} {m n k : Nat} {a b : Nat → Nat → α}
    (hA : Stores A aT m n a) (hB : Stores B bT n k b) (hC : C.length = m * k) :
    ∃ C', gemmCpu A aT B bT m n k C = ok C' ∧ Is2 C' m k (prod n a b) := by
  unfold gemmCpu
  rw [fillN_ok hC, bind_ok]
  cases aT <;> cases bT
  · simp only [Stores, Bool.false_eq_true, if_false] at hA hB
    simp only [and_self, if_true, at2, Bool.false_eq_true, if_false]
    refine gemm_loop (t := fun r idx c => a r idx * b idx c) (fun r idx c o hr hi hc => ?_) rfl
    rw [hA.rd hr hi, bind_ok, hB.rd hi hc, bind_ok]
  · simp only [Stores, Bool.false_eq_true, if_false, if_true] at hA hB
    simp only [Bool.true_eq_false, and_false, and_self, if_false, if_true, at2, Bool.false_eq_true]
    refine gemm_loop (t := fun r idx c => a r idx * b idx c) (fun r idx c o hr hi hc => ?_) rfl
    rw [hA.rd hr hi, bind_ok, hB.rd hc hi, bind_ok]
  · simp only [Stores, Bool.false_eq_true, if_false, if_true] at hA hB
    simp only [Bool.true_eq_false, false_and, and_self, if_false, if_true, at2, Bool.false_eq_true]
    refine gemm_loop (t := fun r idx c => a r idx * b idx c) (fun r idx c o hr hi hc => ?_) rfl
    rw [hA.rd hi hr, bind_ok, hB.rd hi hc, bind_ok]
  · simp only [Stores, if_true] at hA hB
    simp only [Bool.true_eq_false, false_and, and_false, if_false, if_true, at2, Bool.false_eq_true]
    refine gemm_loop (t := fun r idx c => a r idx * b idx c) (fun r idx c o hr hi hc => ?_) rfl
    rw [hA.rd hi hr, bind_ok, hB.rd hc hi, bind_ok]

end Verif.Gemm
