import Verif.Basic.Axis
import Mathlib.Algebra.BigOperators.Ring.Finset
import Mathlib.Algebra.BigOperators.Group.Finset.Sigma
import Mathlib.Tactic.Ring
/-!
# Four-dimensional tables, inner products, gather and scatter
-/
namespace Verif
open Res

variable {α : Type}

theorem is4_iff {A : List α} {k l m n : Nat} {a : List Nat → α} :
    IsT A [k, l, m, n] a ↔ Is4 A k l m n (fun g h i j => a [g, h, i, j]) := by
  have hf : ∀ g h i j, flat [k, l, m, n] [g, h, i, j] = ((g * l + h) * m + i) * n + j := by
    intro g h i j; simp; ring
  constructor
  · rintro ⟨h1, h2⟩
    refine ⟨by rw [h1]; simp; ring, fun g h i j hg hh hi hj => ?_⟩
    rw [← hf]; exact h2 _ ⟨hg, hh, hi, hj, trivial⟩
  · rintro ⟨h1, h2⟩
    refine ⟨by rw [h1]; simp; ring, fun is hv => ?_⟩
    match is, hv with
    | [g, h, i, j], hv => rw [hf]; exact h2 g h i j hv.1 hv.2.1 hv.2.2.1 hv.2.2.2.1

/-- Filling a four-dimensional table by a loop nest that writes each cell once. -/
theorem fill4 {k l m n : Nat} {body : Nat → Nat → Nat → Nat → List α → Res (List α)} {f : Nat → Nat → Nat → Nat → α}
    (h : ∀ w x i j o, w < k → x < l → i < m → j < n → o.length = k * l * m * n →
      body w x i j o = wr o (((w * l + x) * m + i) * n + j) (f w x i j)) {out : List α} (ho : out.length = k * l * m * n) :
    ∃ o', loop k (fun w o => loop l (fun x o => loop m (fun i o => loop n (fun j o => body w x i j o) o) o) o) out = ok o' ∧
      Is4 o' k l m n f := by
  have hsets : Sets (fun o => loop k (fun w o => loop l (fun x o => loop m (fun i o => loop n (fun j o => body w x i j o) o) o) o) o)
      (k * l * m * n) (fun p => ∃ w, w < k ∧ ∃ x, x < l ∧ ∃ i, i < m ∧ ∃ j, j < n ∧ p = ((w * l + x) * m + i) * n + j)
      (fun p => f (dec4 l m n p).1 (dec4 l m n p).2.1 (dec4 l m n p).2.2.1 (dec4 l m n p).2.2.2) := by
    refine Sets.loop (fun w hw => Sets.loop (fun x hx => Sets.loop (fun i hi => Sets.loop (fun j hj => ?_))))
    refine Sets.congr_prog (sets_wr (x := f w x i j) (idx4_lt hw hx hi hj) (by rw [dec4_enc hx hi hj])) (fun o ho => ?_)
    exact h w x i j o hw hx hi hj ho
  obtain ⟨o', h1, h2, h3⟩ := hsets.total (fun p hp => by
    obtain ⟨w, x, i, j, hw, hx, hi, hj, rfl⟩ := exists_dec4 hp
    exact ⟨w, hw, x, hx, i, hi, j, hj, rfl⟩) ho
  refine ⟨o', h1, h2, fun w x i j hw hx hi hj => ?_⟩
  rw [h3 _ (idx4_lt hw hx hi hj), dec4_enc hx hi hj]

/-- Filling a three-dimensional table whose first two loops are exchanged. -/
theorem fill3swap {l m n : Nat} {body : Nat → Nat → Nat → List α → Res (List α)} {g : Nat → Nat → Nat → α}
    (h : ∀ i x j o, x < l → i < m → j < n → o.length = l * m * n →
      body i x j o = wr o ((x * m + i) * n + j) (g x i j)) {out : List α} (ho : out.length = l * m * n) :
    ∃ o', loop m (fun i o => loop l (fun x o => loop n (fun j o => body i x j o) o) o) out = ok o' ∧ Is3 o' l m n g := by
  have hsets : Sets (fun o => loop m (fun i o => loop l (fun x o => loop n (fun j o => body i x j o) o) o) o) (l * m * n)
      (fun p => ∃ i, i < m ∧ ∃ x, x < l ∧ ∃ j, j < n ∧ p = (x * m + i) * n + j)
      (fun p => g (dec3 m n p).1 (dec3 m n p).2.1 (dec3 m n p).2.2) := by
    refine Sets.loop (fun i hi => Sets.loop (fun x hx => Sets.loop (fun j hj => ?_)))
    refine Sets.congr_prog (sets_wr (x := g x i j) (idx3_lt hx hi hj) (by rw [dec3_enc hi hj])) (fun o ho => ?_)
    exact h i x j o hx hi hj ho
  obtain ⟨o', h1, h2, h3⟩ := hsets.total (fun p hp => by
    obtain ⟨x, i, j, hx, hi, hj, rfl⟩ := exists_dec3 hp
    exact ⟨i, hi, x, hx, j, hj, rfl⟩) ho
  refine ⟨o', h1, h2, fun x i j hx hi hj => ?_⟩
  rw [h3 _ (idx3_lt hx hi hj), dec3_enc hi hj]

/-! ### inner products -/

/-- Inner product of two buffers (specification). -/
def dot [AddCommMonoid α] [Mul α] (a b : List α) : α := (List.zipWith (· * ·) a b).sum

theorem dot_eq_sum [AddCommMonoid α] [Mul α] {n : Nat} {A B : List α} {a b : Nat → α} (hA : A.length = n) (hB : B.length = n)
    (ha : ∀ p, p < n → A[p]? = some (a p)) (hb : ∀ p, p < n → B[p]? = some (b p)) :
    dot A B = ∑ p ∈ Finset.range n, a p * b p := by
  have e : List.zipWith (· * ·) A B = (List.range n).map (fun p => a p * b p) := by
    apply List.ext_getElem?
    intro p
    by_cases hp : p < n
    · rw [List.getElem?_zipWith, ha p hp, hb p hp]; simp [hp]
    · rw [List.getElem?_eq_none (by simp; omega), List.getElem?_eq_none (by simp; omega)]
  rw [dot, e]
  clear e hA hB ha hb
  induction n with
  | zero => rfl
  | succ n ih => rw [List.range_succ, List.map_append, List.sum_append, ih, Finset.sum_range_succ]; simp

/-- Scattering is the adjoint of gathering. -/
theorem gather_scatter [CommSemiring α] (N M : Nat) (src : Nat → Option Nat) (hsrc : ∀ p, p < N → ∀ q, src p = some q → q < M)
    (x g : Nat → α) :
    ∑ p ∈ Finset.range N, (match src p with | none => 0 | some q => x q) * g p =
      ∑ q ∈ Finset.range M, x q * ∑ p ∈ Finset.range N, (if src p = some q then g p else 0) := by
  simp only [Finset.mul_sum]
  rw [Finset.sum_comm]
  refine Finset.sum_congr rfl (fun p hp => ?_)
  have hp' := Finset.mem_range.mp hp
  cases e : src p with
  | none => simp
  | some q0 =>
    have hq := hsrc p hp' q0 e
    rw [Finset.sum_eq_single q0]
    · simp
    · intro q _ hne
      rw [if_neg (by intro h; injection h with h; exact hne h.symm), mul_zero]
    · intro h; exact absurd (Finset.mem_range.mpr hq) h

/-- The scattering loop: `out[src p] += g p`. -/
theorem scatter_loop [AddCommMonoid α] {N M : Nat} {src : Nat → Option Nat} {g : Nat → α}
    (hsrc : ∀ p, p < N → ∀ q, src p = some q → q < M) {body : Nat → List α → Res (List α)}
    (hb : ∀ p o, p < N → o.length = M → body p o = (match src p with | none => ok o | some q => addAt o q (g p))) :
    ∃ o', loop N body (List.replicate M 0) = ok o' ∧ o'.length = M ∧
      ∀ q, q < M → o'[q]? = some (∑ p ∈ Finset.range N, (if src p = some q then g p else 0)) := by
  have hadds : Adds (fun o => loop N body o) M (fun q => ∑ p ∈ Finset.range N, (if src p = some q then g p else 0)) := by
    refine Adds.loop (fun p hp => ?_)
    cases e : src p with
    | none =>
      refine Adds.congr (adds_nop.congr_prog (fun o ho => ?_)) (fun q _ => by simp)
      rw [hb p o hp ho, e]
    | some q0 =>
      refine Adds.congr ((adds_addAt (v := g p) (hsrc p hp q0 e)).congr_prog (fun o ho => ?_)) (fun q _ => ?_)
      · rw [hb p o hp ho, e]
      · by_cases h : q = q0
        · simp [h]
        · rw [if_neg h, if_neg (by intro h'; injection h' with h'; exact h h'.symm)]
  obtain ⟨o', h1, h2, h3⟩ := hadds.run (o := List.replicate M (0 : α)) (g := fun _ => 0) (by simp) (fun p hp => by simp [hp])
  exact ⟨o', h1, h2, fun q hq => by rw [h3 q hq, zero_add]⟩

end Verif
