import Verif.Data.Model
import Verif.Gemm.Model

/-!
# The checked functions in both builds (model)

`better_assert` (include/utils/better_assert.hpp lines 7-18, 36) evaluates its condition in every build, but stops the program only where `debug_mode` is set, that is
without `NDEBUG` (include/config.hpp lines 30-34).  The functions below are those of `Verif.Tensor`, `Verif.Data` and `Verif.Gemm` that have checks, with the build as
an argument: `dbg = true` with, `dbg = false` without stopping.  What follows a check that stops, and is never reached in a debug build, is modelled here as well.
-/
namespace Verif.Release
open Verif Res View Tensor

variable {α : Type}

/-- `better_assert( c )` (include/utils/better_assert.hpp lines 7-18, 36). -/
def check (dbg : Bool) (c : Prop) [Decidable c] : Res PUnit := if dbg then Res.assert c else ok ⟨⟩

/-! ### tensors -/

/-- `tensor( shape, {values...} )` (include/tensor.hpp lines 63-74). -/
def newInit (dbg : Bool) (h : Heap α) (shape : List Nat) (vs : List α) : Res (Tn × Heap α) := do
  check dbg (vs.length = size shape)
  pure (⟨shape, h.length⟩, h ++ [vs])

/-- `operator +=`, `-=`, `*=`, `/=` with a tensor (include/tensor.hpp lines 407-452). -/
def opAssign (dbg : Bool) (f : α → α → α) (h : Heap α) (t o : Tn) : Res (Heap α) := do
  check dbg (t.shape = o.shape)
  zipInto f h t o

/-- `as_scalar()` (include/tensor.hpp lines 467-471). -/
def asScalar (dbg : Bool) (h : Heap α) (t : Tn) : Res α := do
  let n ← sizeT h t
  check dbg (n = 1)
  getT h t 0

/-! ### broadcasting -/

/-- One iteration of the loop of `broadcast_shape` (include/tensor.tcc lines 394-419). -/
def broadcastDim (dbg : Bool) (a b : List Nat) (idx : Nat) (ans : List Nat) : Res (List Nat) := do
  let da ← dimAt a idx
  let db ← dimAt b idx
  if da = 1 then pure (ans ++ [db])
  else if db = 1 then pure (ans ++ [da])
  else do
    check dbg (da = db)
    pure (ans ++ [da])

/-- `broadcast_shape` (include/tensor.tcc lines 385-423). -/
def broadcastShape (dbg : Bool) (a b : List Nat) : Res (List Nat) :=
  if a = b then ok a
  else do
    let r ← loop (max a.length b.length) (broadcastDim dbg a b) []
    pure r.reverse

/-- `broadcast_tensor` (include/tensor.tcc lines 302-353), with fuel as in `Tensor.broadcastGo`. -/
def broadcastGo [Zero α] (dbg : Bool) : Nat → Heap α → Tn → List Nat → Res (Tn × Heap α)
  | 0, _, _, _ => ub
  | fuel + 1, h, t, new =>
    if t.shape = new then ok (t, h)
    else do
      let upd := padShape t.shape new
      let r ← padTensor h t new
      if upd = new then pure r
      else do
        let od ← findDim upd new upd.length
        match od with
        | none => ub
        | some d => do
          let u ← rd upd d
          check dbg (u = 1)
          let repeats ← rd new d
          let headings := size (upd.take d)
          let tailings := size (upd.drop d)
          let expanded := upd.set d repeats
          let src ← rd r.2 r.1.loc
          let out ← expandKernel headings repeats tailings src (List.replicate (size expanded) 0)
          broadcastGo dbg fuel (r.2 ++ [out]) ⟨expanded, r.2.length⟩ new

/-- `broadcast_tensor( tsor, new_shape )` (include/tensor.tcc lines 302-353). -/
def broadcastTensor [Zero α] (dbg : Bool) (h : Heap α) (t : Tn) (new : List Nat) : Res (Tn × Heap α) :=
  broadcastGo dbg (new.length + 1) h t new

/-- `add` / `minus` (include/tensor.tcc lines 577-586, 608-618). -/
def addLike [Zero α] (dbg : Bool) (f : α → α → α) (h : Heap α) (lhs rhs : Tn) : Res (Tn × Heap α) := do
  let s ← broadcastShape dbg lhs.shape rhs.shape
  let l ← broadcastTensor dbg h lhs s
  let r ← broadcastTensor dbg l.2 rhs s
  let h' ← zipInto f r.2 l.1 r.1
  pure (l.1, h')

/-! ### matrix products -/

/-- `gemm( view_2d, view_2d, view_2d )` (include/tensor.tcc lines 553-566). -/
def gemmView [Zero α] [Add α] [Mul α] (dbg : Bool) (x : List α) (xr xc : Nat) (y : List α) (yr yc : Nat) (z : List α) (zr zc : Nat) : Res (List α) := do
  check dbg (xr = zr)
  check dbg (yc = zc)
  check dbg (xc = yr)
  Gemm.gemmCpu x false y false xr xc yc z

/-- `multiply( lhs, rhs, ans )` after the cases of rank 1 (include/tensor.tcc lines 680-697).  Without a left operand of rank 2 the last check is all there is: `ans`
stays as it is. -/
def multiply2 [Zero α] [Add α] [Mul α] (dbg : Bool) (h : Heap α) (l r ans : Tn) : Res (Tn × Heap α) := do
  check dbg (r.shape.length = 2)
  match l.shape with
  | [l0, l1] => do
    let r0 ← rd r.shape 0
    let r1 ← rd r.shape 1
    let res ← resize h ans [l0, r1]
    let x ← rd res.2 l.loc
    let y ← rd res.2 r.loc
    let z ← rd res.2 res.1.loc
    let z' ← gemmView dbg x l0 l1 y r0 r1 z l0 r1
    let h' ← wr res.2 res.1.loc z'
    pure (res.1, h')
  | _ => do
    check dbg False
    pure (ans, h)

/-- The second test of `multiply` (include/tensor.tcc lines 677-678). -/
def multiplyR [Zero α] [Add α] [Mul α] (dbg : Bool) (h : Heap α) (l r ans : Tn) : Res (Tn × Heap α) := do
  if r.shape.length = 1 then
    let n ← sizeT h l
    let q ← reshape h r [n, 1]
    multiply2 dbg q.2 l q.1 ans
  else multiply2 dbg h l r ans

/-- `multiply( lhs, rhs )` = `lhs * rhs` (include/tensor.tcc lines 671-711). -/
def multiply [Zero α] [Add α] [Mul α] (dbg : Bool) (h : Heap α) (l r : Tn) : Res (Tn × Heap α) := do
  let ans := newDefault h
  if l.shape.length = 1 then
    let n ← sizeT ans.2 l
    let q ← reshape ans.2 l [1, n]
    multiplyR dbg q.2 q.1 r ans.1
  else multiplyR dbg ans.2 l r ans.1

/-! ### element by element -/

/-- `elementwise_product` once the larger operand is on the left (include/tensor.tcc lines 720-730). -/
def ewpGo [Mul α] (dbg : Bool) (l r : Ten α) : Res (Ten α) := do
  require (r.data.length ≠ 0)
  let repeats := l.data.length / r.data.length
  check dbg (r.data.length * repeats = l.data.length)
  let d ← loop repeats (fun idx d => loop r.data.length (fun jdx d => do
    let x ← rd d (idx * r.data.length + jdx)
    let y ← rd r.data jdx
    wr d (idx * r.data.length + jdx) (x * y)) d) l.data
  pure ⟨l.shape, d⟩

/-- `elementwise_product` / `hadamard_product` (include/tensor.tcc lines 713-738). -/
def elementwiseProduct [Mul α] (dbg : Bool) (l r : Ten α) : Res (Ten α) :=
  if l.data.length < r.data.length then ewpGo dbg r l else ewpGo dbg l r

/-- `elementwise_divide` (include/tensor.tcc lines 740-747). -/
def elementwiseDivide [Zero α] [Div α] (dbg : Bool) (l r : Ten α) : Res (Ten α) := do
  check dbg (l.shape = r.shape)
  let d ← loop l.data.length (fun i o => do
    let x ← rd l.data i
    let y ← rd r.data i
    wr o i (x / y)) (List.replicate (size l.shape) 0)
  pure ⟨l.shape, d⟩

/-! ### concatenate -/

/-- `concatenate` for equal ranks (include/tensor.tcc lines 930-956). -/
def concatEq [Zero α] (dbg : Bool) (l r : Ten α) (axis : Nat) : Res (Ten α) := do
  check dbg (l.shape.length = r.shape.length)
  let axis := if axis = minusOne then l.shape.length - 1 else axis
  check dbg (axis < l.shape.length)
  check dbg (l.shape.take axis = r.shape.take axis)
  check dbg (l.shape.drop (axis + 1) = r.shape.drop (axis + 1))
  let times := max 1 (size (l.shape.take axis))
  let ls := size (l.shape.drop axis)
  let rs := size (r.shape.drop axis)
  let la ← rd l.shape axis
  let ra ← rd r.shape axis
  let shape := l.shape.set axis (la + ra)
  let d ← loop times (fun idx o => do
    let o ← Data.copyTo l.data (ls * idx) ls o ((ls + rs) * idx)
    Data.copyTo r.data (rs * idx) rs o ((ls + rs) * idx + ls)) (List.replicate (size shape) 0)
  pure ⟨shape, d⟩

/-! ### reductions -/

/-- `sum( tsor )` (include/tensor.tcc lines 1038-1044). -/
def sumAll [Zero α] [Add α] (dbg : Bool) (t : Ten α) : Res α := do
  check dbg (t.data.length ≠ 0)
  loop t.data.length (fun i acc => do let x ← rd t.data i; pure (acc + x)) 0

/-- `mean( tsor )` (include/tensor.tcc lines 1046-1052): the empty tensor has mean 0. -/
def meanAll [Zero α] [Add α] [Div α] [NatCast α] (dbg : Bool) (t : Ten α) : Res α := do
  check dbg (t.data.length ≠ 0)
  if t.data.length = 0 then pure 0
  else do
    let s ← sumAll dbg t
    pure (s / (t.data.length : α))

/-- `max( tsor )` / `amax` (include/tensor.tcc lines 1002-1018): the empty tensor has maximum 0. -/
def maxAll [Zero α] [LT α] [DecidableLT α] (dbg : Bool) (numMin : α) (t : Ten α) : Res α := do
  check dbg (t.data.length ≠ 0)
  if t.data.length = 0 then pure 0
  else loop t.data.length (fun i acc => do let x ← rd t.data i; pure (if x < acc then acc else x)) numMin

/-- `min( tsor )` / `amin` (include/tensor.tcc lines 1020-1036): the empty tensor has minimum 0. -/
def minAll [Zero α] [LT α] [DecidableLT α] (dbg : Bool) (numMax : α) (t : Ten α) : Res α := do
  check dbg (t.data.length ≠ 0)
  if t.data.length = 0 then pure 0
  else loop t.data.length (fun i acc => do let x ← rd t.data i; pure (if acc < x then acc else x)) numMax

/-! ### shapes -/

/-- `squeeze( tsor, axis )` for an axis other than -1 (include/tensor.tcc lines 811-824): the result is a copy that is reshaped, so it shares the storage.  A negative
axis becomes a large number by the conversion to `unsigned long`. -/
def squeezeAxis [Zero α] (dbg : Bool) (h : Heap α) (t : Tn) (axis : Nat) : Res (Tn × Heap α) := do
  check dbg (axis < t.shape.length)
  let n ← rd t.shape axis
  check dbg (n = 1)
  reshape h t (t.shape.eraseIdx axis)

/-- The forward pass of the operator `reshape( new_shape, include_batch_flag )` (include/operation.hpp lines 1121-1148): the result is a copy that is reshaped, so it
shares the storage. -/
def reshapeOp [Zero α] (dbg batch : Bool) (h : Heap α) (t : Tn) (new : List Nat) : Res (Tn × Heap α) := do
  let total ← sizeT h t
  require (size new ≠ 0)
  let bs := total / size new
  check dbg (bs * size new = total)
  if batch = false then do
    check dbg (bs = 1)
    reshape h t new
  else reshape h t (bs :: new)

end Verif.Release
