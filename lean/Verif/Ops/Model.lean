import Verif.Data.Model
import Verif.Gemm.Model
/-!
# Actions of the basic operators (model)

Forward and backward actions of the binary and scalar-valued operators at the start of `include/operation.hpp`.  Tensors are by
value; the storage sharing of `plus` is in `Verif.Tensor` (`addLike`) and `Verif.Alias`.  The `has_nan` assertions are left out:
elements are exact numbers.
-/
namespace Verif.Ops
open Verif Res View Data

variable {α : Type}

/-- `while( input.ndim() < ans.ndim() ) ans = sum( ans, 0 );` (include/operation.hpp lines 547-548, 859-860); `red` stands for
`std::reduce`.  `fuel` bounds the number of rounds; running out of it stands for a loop that does not end. -/
def dropLead [Zero α] (red : List α → α) (rank : Nat) : Nat → Ten α → Res (Ten α)
  | 0, t => if rank < t.shape.length then ub else ok t
  | fuel + 1, t => if rank < t.shape.length then do
      let u ← reduce red t 0 0 false
      dropLead red rank fuel u
    else ok t

/-- `for ( axis : range( input.ndim() ) ) if ( shape[axis] == 1 ) ans = sum( ans, axis, true );`
(include/operation.hpp lines 549-552, 861-864). -/
def sumOnes [Zero α] (red : List α → α) (shape : List Nat) (t : Ten α) : Res (Ten α) :=
  loop shape.length (fun axis u => do
    let d ← rd shape axis
    if d = 1 then reduce red u axis 0 true else ok u) t

/-- `grad_fun` of `plus` (include/operation.hpp lines 544-554) applied to an operand of shape `shape`. -/
def plusGrad [Zero α] (red : List α → α) (fuel : Nat) (shape : List Nat) (grad : Ten α) : Res (Ten α) := do
  let t ← dropLead red shape.length fuel grad
  sumOnes red shape t

/-- Backward action of `plus` (include/operation.hpp lines 540-556): from the shapes of the operands and the gradient. -/
def plusBack [Zero α] (red : List α → α) (fuel : Nat) (l r : List Nat) (grad : Ten α) : Res (Ten α × Ten α) := do
  let dl ← plusGrad red fuel l grad
  let dr ← plusGrad red fuel r grad
  pure (dl, dr)

/-- `grad_fun( input, other_input )` of the operator `elementwise_product` (include/operation.hpp lines 856-866). -/
def ewpGrad [Zero α] [Mul α] (red : List α → α) (fuel : Nat) (shape : List Nat) (other grad : Ten α) : Res (Ten α) := do
  let p ← elementwiseProduct grad other
  let t ← dropLead red shape.length fuel p
  sumOnes red shape t

/-- Backward action of the operator `elementwise_product` (include/operation.hpp lines 854-868). -/
def ewpBack [Zero α] [Mul α] (red : List α → α) (fuel : Nat) (l r grad : Ten α) : Res (Ten α × Ten α) := do
  let dl ← ewpGrad red fuel l.shape r grad
  let dr ← ewpGrad red fuel r.shape l grad
  pure (dl, dr)

/-- Forward action of the matrix product (include/operation.hpp lines 593-604, include/tensor.tcc lines 680-697); `cache` is the
tensor in `forward_cache`. -/
def matmul [Zero α] [Add α] [Mul α] (cache l r : Ten α) : Res (Ten α) := do
  Res.assert (l.data.length ≠ 0)
  Res.assert (r.data.length ≠ 0)
  match l.shape, r.shape with
  | [m, n], [n', k] => do
    let ans := resizeV cache [m, k]
    let d ← Gemm.gemmView l.data m n r.data n' k ans.data m k
    pure ⟨[m, k], d⟩
  | _, _ => abort

/-- Backward action of the matrix product (include/operation.hpp lines 611-629); the caches are the tensors in
`backward_cache_lhs` and `backward_cache_rhs`. -/
def matmulBack [Zero α] [Add α] [Mul α] (cacheL cacheR l r grad : Ten α) : Res (Ten α × Ten α) := do
  let m ← rd grad.shape 0
  let n ← rd grad.shape 1
  require (l.shape ≠ [])
  let k := l.shape.getLastD 0
  let gl := resizeV cacheL l.shape
  let dl ← Gemm.gemmCpu grad.data false r.data true m n k gl.data
  let gr := resizeV cacheR r.shape
  let dr ← Gemm.gemmCpu l.data true grad.data false k m n gr.data
  pure (⟨l.shape, dl⟩, ⟨r.shape, dr⟩)

/-- Forward action of `sum_reduce` (include/operation.hpp lines 924-928; the result has shape `{1}`, include/tensor.tcc lines
1038-1052). -/
def sumReduce [Zero α] [Add α] (t : Ten α) : Res (Ten α) := do
  let x ← sumAll t
  pure ⟨[1], [x]⟩

/-- `ones_like( input )` times `grad[0]` (include/operation.hpp lines 933-934, 972-973). -/
def onesTimes [One α] [Mul α] (input grad : Ten α) : Res (Ten α) := do
  let g ← rd grad.data 0
  let d ← loop (size input.shape) (fun i o => do let x ← rd o i; wr o i (x * g)) (List.replicate (size input.shape) 1)
  pure ⟨input.shape, d⟩

/-- Backward action of `sum_reduce` (include/operation.hpp lines 929-936). -/
def sumReduceBack [One α] [Mul α] (input grad : Ten α) : Res (Ten α) := do
  Res.assert (grad.data.length = 1)
  onesTimes input grad

/-- Forward action of `mean_reduce` (include/operation.hpp lines 963-967). -/
def meanReduce [Zero α] [Add α] [Div α] [NatCast α] (t : Ten α) : Res (Ten α) := do
  let x ← meanAll t
  pure ⟨[1], [x]⟩

/-- The divisor of the backward action of `mean_reduce` (include/operation.hpp line 974). -/
def meanBatch (shape : List Nat) : Res Nat := if shape.length = 1 then ok 1 else rd shape 0

/-- Backward action of `mean_reduce` (include/operation.hpp lines 968-977): divided by the first extent. -/
def meanReduceBack [One α] [Mul α] [Div α] [NatCast α] (input grad : Ten α) : Res (Ten α) := do
  Res.assert (grad.data.length = 1)
  let t ← onesTimes input grad
  let batch ← meanBatch input.shape
  let d ← loop t.data.length (fun i o => do let x ← rd o i; wr o i (x / (batch : α))) t.data
  pure ⟨t.shape, d⟩

/-- Forward action of the operator `broadcast( new_shape )` (include/operation.hpp lines 473-490). -/
def broadcastOp [Zero α] (new : List Nat) (cache t : Ten α) : Res (Ten α) := do
  Res.assert (t.data.length ≠ 0)
  if new = t.shape then ok t
  else do
    let factor := size new / size t.shape
    let ans := resizeV cache new
    let d ← loop factor (fun idx o => loop t.data.length (fun i o => do
      let x ← rd t.data i
      wr o (idx * size t.shape + i) x) o) ans.data
    pure ⟨new, d⟩

/-- Backward action of the operator `broadcast` (include/operation.hpp lines 491-514). -/
def broadcastOpBack [Zero α] [Add α] (cache input output grad : Ten α) : Res (Ten α) := do
  Res.assert (input.data.length ≠ 0)
  Res.assert (output.data.length ≠ 0)
  Res.assert (grad.data.length ≠ 0)
  if input.shape = output.shape then ok grad
  else do
    Res.assert (output.shape = grad.shape)
    let factor := size grad.shape / size input.shape
    let ans := resizeV cache input.shape
    let z ← Gemm.fillN ans.data.length 0 ans.data
    let d ← loop factor (fun idx o => loop z.length (fun i o => do
      let g ← rd grad.data (idx * size input.shape + i)
      addAt o i g) o) z
    pure ⟨input.shape, d⟩

end Verif.Ops
