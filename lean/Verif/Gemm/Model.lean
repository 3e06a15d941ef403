import Verif.View.Model
import Verif.Tensor.Model
/-!
# Matrix product (model)

`gemm_cpu`, `gemm`, `multiply` (include/tensor.tcc) and the CBLAS wrapper (include/backend/cblas.hpp).
Elements are any type with `0`, `+`, `*`; the order of additions is the one of the code.
-/
namespace Verif.Gemm
open Verif Res View

variable {α : Type}

/-- `std::fill_n( C, n, v )` (include/tensor.tcc line 435). -/
def fillN (n : Nat) (v : α) (C : List α) : Res (List α) := loop n (fun i o => wr o i v) C

/-- `gemm_cpu` : four loop nests, one per pair of transpose flags (include/tensor.tcc lines 429-457). -/
def gemmCpu [Zero α] [Add α] [Mul α] (A : List α) (aT : Bool) (B : List α) (bT : Bool) (m n k : Nat) (C : List α) : Res (List α) := do
  let C ← fillN (m * k) 0 C
  if aT = false ∧ bT = false then
    loop m (fun r C => loop n (fun idx C => loop k (fun c C => do
      let a ← rd A (at2 m n aT r idx)
      let b ← rd B (at2 n k bT idx c)
      addAt C (at2 m k false r c) (a * b)) C) C) C
  else if aT = false ∧ bT = true then
    loop m (fun r C => loop n (fun idx C => loop k (fun c C => do
      let a ← rd A (at2 m n aT r idx)
      let b ← rd B (at2 n k bT c idx)
      addAt C (at2 m k false r c) (a * b)) C) C) C
  else if aT = true ∧ bT = false then
    loop m (fun r C => loop n (fun idx C => loop k (fun c C => do
      let a ← rd A (at2 m n aT idx r)
      let b ← rd B (at2 n k bT idx c)
      addAt C (at2 m k false r c) (a * b)) C) C) C
  else
    loop m (fun r C => loop n (fun idx C => loop k (fun c C => do
      let a ← rd A (at2 m n aT idx r)
      let b ← rd B (at2 n k bT c idx)
      addAt C (at2 m k false r c) (a * b)) C) C) C

/-- Arguments of one call of `cblas_sgemm` / `cblas_dgemm` with `CblasColMajor`
(include/backend/cblas.hpp lines 15-25).  `alpha`, `beta` are 1 and 0 in every call of the library. -/
structure BlasCall (α : Type) where
  transA : Bool
  transB : Bool
  M : Nat
  N : Nat
  K : Nat
  A : List α
  lda : Nat
  B : List α
  ldb : Nat
  C : List α
  ldc : Nat

/-- `cblas_gemm` : the operands are exchanged and the call is column-major (include/backend/cblas.hpp lines 35-75).
The conversion of the sizes to `int` is not modelled. -/
def cblasCall (A : List α) (aT : Bool) (B : List α) (bT : Bool) (m n k : Nat) (C : List α) : BlasCall α :=
  { transA := bT, transB := aT, M := k, N := m, K := n,
    A := B, lda := if bT then n else k,
    B := A, ldb := if aT then m else n,
    C := C, ldc := k }

/-- `gemm( view_2d, view_2d, view_2d )` on non-transposed views with its assertions (include/tensor.tcc lines 553-566). -/
def gemmView [Zero α] [Add α] [Mul α] (x : List α) (xr xc : Nat) (y : List α) (yr yc : Nat) (z : List α) (zr zc : Nat) : Res (List α) := do
  Res.assert (xr = zr)
  Res.assert (yc = zc)
  Res.assert (xc = yr)
  gemmCpu x false y false xr xc yc z

open Tensor in
/-- `multiply( lhs, rhs, ans )` for 2-D operands (include/tensor.tcc lines 680-697): `ans` is resized and receives the product. -/
def multiply2 [Zero α] [Add α] [Mul α] (h : Heap α) (l r ans : Tn) : Res (Tn × Heap α) := do
  Res.assert (r.shape.length = 2)
  match l.shape, r.shape with
  | [l0, l1], [r0, r1] => do
    let res ← resize h ans [l0, r1]
    let x ← rd res.2 l.loc
    let y ← rd res.2 r.loc
    let z ← rd res.2 res.1.loc
    let z' ← gemmView x l0 l1 y r0 r1 z l0 r1
    let h' ← wr res.2 res.1.loc z'
    pure (res.1, h')
  | _, _ => abort

open Tensor in
/-- The second test of `multiply`: a 1-D right operand is reshaped - through a copy, so sharing its storage - to
`{lhs.size(), 1}` (include/tensor.tcc lines 677-678). -/
def multiplyR [Zero α] [Add α] [Mul α] (h : Heap α) (l r ans : Tn) : Res (Tn × Heap α) := do
  if r.shape.length = 1 then
    let n ← sizeT h l
    let q ← reshape h r [n, 1]
    multiply2 q.2 l q.1 ans
  else multiply2 h l r ans

open Tensor in
/-- `multiply( lhs, rhs )` = `lhs * rhs` (include/tensor.tcc lines 671-711): a 1-D left operand is reshaped to `{1, size}`. -/
def multiply [Zero α] [Add α] [Mul α] (h : Heap α) (l r : Tn) : Res (Tn × Heap α) := do
  let ans := newDefault h
  if l.shape.length = 1 then
    let n ← sizeT ans.2 l
    let q ← reshape ans.2 l [1, n]
    multiplyR q.2 q.1 r ans.1
  else multiplyR ans.2 l r ans.1

end Verif.Gemm
