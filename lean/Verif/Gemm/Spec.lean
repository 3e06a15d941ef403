import Verif.Gemm.Model
/-!
# Specification vocabulary for matrix products
-/
namespace Verif.Gemm
open Verif Res

variable {α : Type}

/-- The buffer stores the `m x n` matrix `a`, row-major, as it is or transposed. -/
def Stores (A : List α) (transposed : Bool) (m n : Nat) (a : Nat → Nat → α) : Prop :=
  if transposed then Is2 A n m (fun i j => a j i) else Is2 A m n a

/-- Entry of the matrix product. -/
def prod [CommSemiring α] (n : Nat) (a b : Nat → Nat → α) (r c : Nat) : α := ∑ l ∈ Finset.range n, a r l * b l c

/-- What BLAS documents for `xGEMM` with column-major storage, `alpha = 1`, `beta = 0`: provided the leading dimensions are
legal and the arrays large enough, `C := op(A) * op(B)` where `op(A)` is `M x K`, `op(B)` is `K x N`, entry `(i,j)` of a
column-major matrix with leading dimension `ld` is at `i + j*ld`; everything else in C is left alone. -/
def MeetsBlasSpec [CommSemiring α] (blas : BlasCall α → List α) : Prop :=
  ∀ q : BlasCall α,
    max 1 (if q.transA then q.K else q.M) ≤ q.lda → max 1 (if q.transB then q.N else q.K) ≤ q.ldb → max 1 q.M ≤ q.ldc →
    ∀ opA opB : Nat → Nat → α,
    (∀ i l, i < q.M → l < q.K → q.A[if q.transA then l + i * q.lda else i + l * q.lda]? = some (opA i l)) →
    (∀ l j, l < q.K → j < q.N → q.B[if q.transB then j + l * q.ldb else l + j * q.ldb]? = some (opB l j)) →
    (∀ i j, i < q.M → j < q.N → i + j * q.ldc < q.C.length) →
    (blas q).length = q.C.length ∧
    (∀ i j, i < q.M → j < q.N → (blas q)[i + j * q.ldc]? = some (prod q.K opA opB i j)) ∧
    (∀ p, (∀ i j, i < q.M → j < q.N → p ≠ i + j * q.ldc) → (blas q)[p]? = q.C[p]?)

end Verif.Gemm
