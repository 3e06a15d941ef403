import Verif.Cuda.Model
/-!
# The CUDA path: what is asked of cuBLAS, and of the cache
-/
namespace Verif.Cuda
open Verif Res Gemm

variable {α : Type}

/-- What cuBLAS reports as an invalid value. -/
def Illegal (q : Call) : Prop :=
  q.M < 0 ∨ q.N < 0 ∨ q.K < 0 ∨ q.lda < max 1 (if q.transA then q.K else q.M) ∨ q.ldb < max 1 (if q.transB then q.N else q.K) ∨ q.ldc < max 1 q.M

/-- Byte of entry `(i,l)` of `op(A)`, column-major with leading dimension `lda`. -/
def posA (q : Call) (i l : Nat) : Nat := q.A + q.width * (if q.transA then l + i * q.lda.toNat else i + l * q.lda.toNat)

/-- Byte of entry `(l,j)` of `op(B)`. -/
def posB (q : Call) (l j : Nat) : Nat := q.B + q.width * (if q.transB then j + l * q.ldb.toNat else l + j * q.ldb.toNat)

/-- Byte of entry `(i,j)` of `C`. -/
def posC (q : Call) (i j : Nat) : Nat := q.C + q.width * (i + j * q.ldc.toNat)

/-- Two elements of width `w` and `u`, at `p` and `q`, do not overlap. -/
def Apart (p w q u : Nat) : Prop := p + w ≤ q ∨ q + u ≤ p

/-- What is documented of `cublas<t>gemm` with `alpha = 1`, `beta = 0`: illegal sizes are reported (and stop the program); otherwise, if all entries of `op(A)` (`M x K`)
and `op(B)` (`K x N`) are there and `C` is inside the memory and apart from them, `C := op(A) * op(B)`.  Nothing else is written. -/
structure MeetsCublas [CommSemiring α] (cublas : Call → Block α → Res (Block α)) : Prop where
  illegal : ∀ q b, Illegal q → cublas q b = abort
  works : ∀ q b (opA opB : Nat → Nat → α), ¬ Illegal q → 0 < q.width →
    (∀ i l, i < q.M.toNat → l < q.K.toNat → b.cells (posA q i l) = some (q.width, opA i l)) →
    (∀ l j, l < q.K.toNat → j < q.N.toNat → b.cells (posB q l j) = some (q.width, opB l j)) →
    (∀ i j, i < q.M.toNat → j < q.N.toNat → posC q i j + q.width ≤ b.bytes) →
    (∀ i j i' l, i < q.M.toNat → j < q.N.toNat → i' < q.M.toNat → l < q.K.toNat → Apart (posC q i j) q.width (posA q i' l) q.width) →
    (∀ i j l j', i < q.M.toNat → j < q.N.toNat → l < q.K.toNat → j' < q.N.toNat → Apart (posC q i j) q.width (posB q l j') q.width) →
    ∃ b', cublas q b = ok b' ∧ b'.bytes = b.bytes ∧
      (∀ i j, i < q.M.toNat → j < q.N.toNat → b'.cells (posC q i j) = some (q.width, prod q.K.toNat opA opB i j)) ∧
      (∀ p, (∀ i j, i < q.M.toNat → j < q.N.toNat → p ≠ posC q i j) → b.cells p = none → b'.cells p = none) ∧
      (∀ p u v, b.cells p = some (u, v) → 0 < u → (∀ i j, i < q.M.toNat → j < q.N.toNat → Apart (posC q i j) q.width p u) → b'.cells p = some (u, v))

/-- Everything that was allocated and not released is the block the cache refers to, and the cache knows its size. -/
def Good (d : Dev α) : Prop :=
  (d.size = 0 ∧ ∀ (j : Nat) (b : Block α), d.blocks[j]? ≠ some (some b)) ∨
  (0 < d.size ∧ ∃ i b, d.data = some i ∧ d.blocks[i]? = some (some b) ∧ b.bytes = d.size ∧ ∀ (j : Nat) (b' : Block α), j ≠ i → d.blocks[j]? ≠ some (some b'))

/-- Before the first product. -/
def start : Dev α := ⟨[], none, 0⟩

end Verif.Cuda
