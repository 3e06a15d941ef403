import Verif.Basic.Axis
import Verif.View.Model
/-!
# Data movement and reductions on tensors (model)

Free functions of `include/tensor.tcc` and the operators of `include/operation.hpp` that are thin wrappers around them.
Tensors are by value (`Ten`): these functions read their arguments and write a storage of their own.
Simplified: storage length and product of the shape are not assumed equal unless a theorem says so, but a `deep_copy` is the
plain copy of shape and elements (its out-of-bounds behaviour for inconsistent tensors is in `Verif.Tensor`).
-/
namespace Verif.Data
open Verif Res View

variable {α : Type}

/-- `static_cast<unsigned long>( -1 )` (include/tensor.hpp line 357, include/tensor.tcc lines 932, 1112). -/
def minusOne : Nat := 2 ^ 64 - 1

/-- `std::copy_n( src + s, n, dst + d )` between different storages (include/tensor.tcc lines 949-952, 972). -/
def copyTo (src : List α) (s n : Nat) (dst : List α) (d : Nat) : Res (List α) :=
  loop n (fun i o => do let x ← rd src (s + i); wr o (d + i) x) dst

/-- `reshape( new_shape )` (include/tensor.hpp lines 354-368), storage by value. -/
def reshapeV [Zero α] (t : Ten α) (shape : List Nat) : Res (Ten α) := do
  require (shape ≠ [])
  if shape.getLast? = some minusOne then
    require (size shape.dropLast ≠ 0)
    let shape' := shape.dropLast ++ [t.data.length / size shape.dropLast]
    if t.data.length ≠ size shape' then pure ⟨shape', List.replicate (size shape') 0⟩ else pure ⟨shape', t.data⟩
  else
    if t.data.length ≠ size shape then pure ⟨shape, List.replicate (size shape) 0⟩ else pure ⟨shape, t.data⟩

/-- `resize( shape )` (include/tensor.hpp lines 335-343, include/utils/vector.hpp lines 87-101), storage by value. -/
def resizeV [Zero α] (t : Ten α) (shape : List Nat) : Ten α :=
  ⟨shape, if t.data.length = size shape then t.data else List.replicate (size shape) 0⟩

/-! ### products -/

/-- `elementwise_product` once the larger operand is on the left (include/tensor.tcc lines 720-730).  The division by a
zero size is undefined. -/
def ewpGo [Mul α] (l r : Ten α) : Res (Ten α) := do
  require (r.data.length ≠ 0)
  let repeats := l.data.length / r.data.length
  Res.assert (r.data.length * repeats = l.data.length)
  let d ← loop repeats (fun idx d => loop r.data.length (fun jdx d => do
    let x ← rd d (idx * r.data.length + jdx)
    let y ← rd r.data jdx
    wr d (idx * r.data.length + jdx) (x * y)) d) l.data
  pure ⟨l.shape, d⟩

/-- `elementwise_product` / `hadamard_product` (include/tensor.tcc lines 713-738). -/
def elementwiseProduct [Mul α] (l r : Ten α) : Res (Ten α) :=
  if l.data.length < r.data.length then ewpGo r l else ewpGo l r

/-- `elementwise_divide` (include/tensor.tcc lines 740-747). -/
def elementwiseDivide [Zero α] [Div α] (l r : Ten α) : Res (Ten α) := do
  Res.assert (l.shape = r.shape)
  let d ← loop l.data.length (fun i o => do
    let x ← rd l.data i
    let y ← rd r.data i
    wr o i (x / y)) (List.replicate (size l.shape) 0)
  pure ⟨l.shape, d⟩

/-! ### concatenate, repeat, repmat -/

/-- The range `{ x.shape().begin(), x.shape().end() }` (or a prefix of it).  `shape()` returns by value
(include/tensor.hpp line 292), so the two iterators belong to different temporaries and traversing the range is undefined,
unless it is empty and both are null.  `benign = true` is the reading the author intended (one object). -/
def tempRange (benign : Bool) (s : List Nat) : Res (List Nat) :=
  if benign = true ∨ s = [] then ok s else ub

/-- `concatenate` for equal ranks (include/tensor.tcc lines 930-956).  The write position after `idx` rounds is
`(l_memory_stride + r_memory_stride) * idx`. -/
def concatEq [Zero α] (l r : Ten α) (axis : Nat) : Res (Ten α) := do
  Res.assert (l.shape.length = r.shape.length)
  let axis := if axis = minusOne then l.shape.length - 1 else axis
  Res.assert (axis < l.shape.length)
  Res.assert (l.shape.take axis = r.shape.take axis)
  Res.assert (l.shape.drop (axis + 1) = r.shape.drop (axis + 1))
  let times := max 1 (size (l.shape.take axis))
  let ls := size (l.shape.drop axis)
  let rs := size (r.shape.drop axis)
  let la ← rd l.shape axis
  let ra ← rd r.shape axis
  let shape := l.shape.set axis (la + ra)
  let d ← loop times (fun idx o => do
    let o ← copyTo l.data (ls * idx) ls o ((ls + rs) * idx)
    copyTo r.data (rs * idx) rs o ((ls + rs) * idx + ls)) (List.replicate (size shape) 0)
  pure ⟨shape, d⟩

/-- `repeat( tsor, n )` (include/tensor.tcc lines 749-766); `benign` as in `tempRange`. -/
def repeatB [Zero α] (benign : Bool) (t : Ten α) (n : Nat) : Res (Ten α) := do
  let d ← loop n (fun idx o => copyTo t.data 0 t.data.length o (idx * t.data.length)) (List.replicate (n * t.data.length) 0)
  let s ← tempRange benign t.shape
  reshapeV ⟨[n, t.data.length], d⟩ (n :: s)

/-- `repeat` as compiled. -/
def repeatT [Zero α] (t : Ten α) (n : Nat) : Res (Ten α) := repeatB false t n

/-- Rank alignment of `concatenate`, the operand of higher rank on the left (include/tensor.tcc lines 921-929). -/
def concatAlign [Zero α] (benign : Bool) (l r : Ten α) (axis : Nat) : Res (Ten α) := do
  let p ← tempRange benign (l.shape.take (l.shape.length - r.shape.length))
  let nr ← repeatB benign r (size p)
  let s ← tempRange benign r.shape
  let nr ← reshapeV nr (p ++ s)
  concatEq l nr axis

/-- `concatenate( lhs, rhs, axis )` (include/tensor.tcc lines 914-957): the operands are exchanged when the left one has
the smaller rank. -/
def concatenateB [Zero α] (benign : Bool) (l r : Ten α) (axis : Nat) : Res (Ten α) :=
  if l.shape.length < r.shape.length then concatAlign benign r l axis
  else if r.shape.length < l.shape.length then concatAlign benign l r axis
  else concatEq l r axis

/-- `concatenate` as compiled. -/
def concatenate [Zero α] (l r : Ten α) (axis : Nat) : Res (Ten α) := concatenateB false l r axis

/-- `repmat( tsor, row_rep, col_rep )` (include/tensor.tcc lines 959-975). -/
def repmat [Zero α] (t : Ten α) (rowRep colRep : Nat) : Res (Ten α) :=
  match t.shape with
  | [row, col] => do
    let d ← loop rowRep (fun rdx o => loop colRep (fun cdx o => loop row (fun odx o =>
      copyTo t.data (odx * col) col o (row * col * rdx * colRep + odx * col * colRep + col * cdx)) o) o)
      (List.replicate (size [row * rowRep, col * colRep]) 0)
    pure ⟨[row * rowRep, col * colRep], d⟩
  | _ => abort

/-! ### reductions -/

/-- What `std::reduce` may return on a list of operands: any bracketing of any permutation
(C++ standard, GENERALIZED_SUM; used in include/tensor.tcc lines 770, 1129). -/
inductive IsReduction (f : α → α → α) : List α → α → Prop
  | single (a : α) : IsReduction f [a] a
  | node {l l₁ l₂ : List α} {a b : α} : l.Perm (l₁ ++ l₂) → IsReduction f l₁ a → IsReduction f l₂ b → IsReduction f l (f a b)

/-- The elements a stride iterator visits: `n` of them, `step` apart, from `start`
(include/tensor.tcc lines 1126-1129, include/utils/stride_iterator.hpp lines 30-51). -/
def readStride (d : List α) (start step : Nat) : Nat → Res (List α)
  | 0 => ok []
  | n + 1 => do
    let xs ← readStride d start step n
    let x ← rd d (start + step * n)
    pure (xs ++ [x])

/-- `reduce( ts, axis, init, func, keepdims )` (include/tensor.tcc lines 1107-1141); `red` stands for
`std::reduce( ..., func )`, applied to `init` followed by the elements.  The incremented output iterator is at position
`idx * post + jdx`. -/
def reduce [Zero α] (red : List α → α) (t : Ten α) (axis : Nat) (init : α) (keepdims : Bool) : Res (Ten α) :=
  if t.data = [] then ok t
  else do
    let axis := if axis = minusOne then t.shape.length - 1 else axis
    Res.assert (axis < t.shape.length)
    let pres := size (t.shape.take axis)
    let post := size (t.shape.drop (axis + 1))
    let n ← rd t.shape axis
    let s1 := t.shape.set axis 1
    let d ← loop pres (fun idx o => loop post (fun jdx o => do
      let xs ← readStride t.data (idx * post * n + jdx) post n
      wr o (idx * post + jdx) (red (init :: xs))) o) (List.replicate (size s1) 0)
    if keepdims then pure ⟨s1, d⟩ else reshapeV ⟨s1, d⟩ (s1.eraseIdx axis)

/-- `sum( tsor )` with its assertion (include/tensor.tcc lines 1038-1044): `std::accumulate`, left to right. -/
def sumAll [Zero α] [Add α] (t : Ten α) : Res α := do
  Res.assert (t.data.length ≠ 0)
  loop t.data.length (fun i acc => do let x ← rd t.data i; pure (acc + x)) 0

/-- `mean( tsor )` (include/tensor.tcc lines 1046-1052). -/
def meanAll [Zero α] [Add α] [Div α] [NatCast α] (t : Ten α) : Res α := do
  Res.assert (t.data.length ≠ 0)
  let s ← sumAll t
  pure (s / (t.data.length : α))

/-- `max( tsor )` / `amax` (include/tensor.tcc lines 1002-1018); `numMin` is `std::numeric_limits<value_type>::min()`, which
for floating point types is the smallest positive normal number. -/
def maxAll [LT α] [DecidableLT α] (numMin : α) (t : Ten α) : Res α := do
  Res.assert (t.data.length ≠ 0)
  loop t.data.length (fun i acc => do let x ← rd t.data i; pure (if x < acc then acc else x)) numMin

/-- `min( tsor )` / `amin` (include/tensor.tcc lines 1020-1036); `numMax` is `std::numeric_limits<value_type>::max()`. -/
def minAll [LT α] [DecidableLT α] (numMax : α) (t : Ten α) : Res α := do
  Res.assert (t.data.length ≠ 0)
  loop t.data.length (fun i acc => do let x ← rd t.data i; pure (if acc < x then acc else x)) numMax

/-- `max( ts, axis, keepdims )` (include/tensor.tcc lines 1187-1191): `reduce` from `numMin`. -/
def maxAxis [Zero α] (red : List α → α) (numMin : α) (t : Ten α) (axis : Nat) (keepdims : Bool) : Res (Ten α) :=
  reduce red t axis numMin keepdims

/-- `min( ts, axis, keepdims )` (include/tensor.tcc lines 1193-1197): `reduce` from `numMax`. -/
def minAxis [Zero α] (red : List α → α) (numMax : α) (t : Ten α) (axis : Nat) (keepdims : Bool) : Res (Ten α) :=
  reduce red t axis numMax keepdims

/-- `clip( tsor, lower, upper )` (include/tensor.tcc lines 782-787): in place; the storage after the call. -/
def clip [LT α] [DecidableLT α] (lower upper : α) (t : Ten α) : Res (Ten α) := do
  let d ← loop t.data.length (fun i o => do
    let v ← rd o i
    let v := if v < upper then v else upper
    let v := if lower < v then v else lower
    wr o i v) t.data
  pure ⟨t.shape, d⟩

/-! ### squeeze, expand_dims -/

/-- `squeeze( tsor )` (include/tensor.tcc lines 789-809). -/
def squeezeAll [Zero α] (t : Ten α) : Res (Ten α) :=
  if t.data.length = 0 then ok t
  else if t.data.length = 1 then reshapeV t [1]
  else reshapeV t (t.shape.filter (fun s => 1 < s))

/-- `squeeze( tsor, axis )` with `int axis` (include/tensor.tcc lines 811-824); also the operator
(include/operation.hpp lines 1274-1283). -/
def squeezeAxis [Zero α] (t : Ten α) (axis : Int) : Res (Ten α) :=
  if axis = -1 then squeezeAll t
  else do
    Res.assert (0 ≤ axis ∧ axis.toNat < t.shape.length)
    let n ← rd t.shape axis.toNat
    Res.assert (n = 1)
    reshapeV t (t.shape.eraseIdx axis.toNat)

/-- `expand_dims( axis )`, forward (include/operation.hpp lines 1231-1245).  Inserting outside the vector is undefined. -/
def expandDims [Zero α] (t : Ten α) (axis : Int) : Res (Ten α) := do
  let ax := if axis = -1 then (t.shape.length : Int) else axis
  require (0 ≤ ax ∧ ax.toNat ≤ t.shape.length)
  reshapeV t (t.shape.insertIdx ax.toNat 1)

/-! ### flip, transpose, argmax -/

/-- `flip_3D` (include/tensor.tcc lines 1329-1363). -/
def flip3 (src dst : List α) (r c ch axis : Nat) : Res (List α) :=
  if axis = 0 then
    loop r (fun i o => loop c (fun j o => loop ch (fun k o => do
      let x ← rd src (at3 r c ch i j k)
      wr o (at3 r c ch (r - i - 1) j k) x) o) o) dst
  else if axis = 1 then
    loop r (fun i o => loop c (fun j o => loop ch (fun k o => do
      let x ← rd src (at3 r c ch i j k)
      wr o (at3 r c ch i (c - j - 1) k) x) o) o) dst
  else
    loop r (fun i o => loop c (fun j o => loop ch (fun k o => do
      let x ← rd src (at3 r c ch i j k)
      wr o (at3 r c ch i j (ch - k - 1)) x) o) o) dst

/-- `flip_1D`: `std::copy( begin, end, rbegin )` (include/tensor.tcc lines 1367-1371). -/
def flip1 (src dst : List α) : Res (List α) :=
  loop src.length (fun i o => do let x ← rd src i; wr o (o.length - 1 - i) x) dst

/-- The switch of `flip` after the axis has been resolved (include/tensor.tcc lines 1373-1409, 1426-1441).  The 2-D and 4-D
cases reshape argument and result around a 3-D flip; the shapes have the same number of elements, so the storages are
untouched by the reshapes. -/
def flipRank (t : Ten α) (dst : List α) (axis : Nat) : Res (Ten α) :=
  match t.shape with
  | [_] => do let d ← flip1 t.data dst; pure ⟨t.shape, d⟩
  | [a, b] => do let d ← flip3 t.data dst a b 1 axis; pure ⟨t.shape, d⟩
  | [a, b, c] => do let d ← flip3 t.data dst a b c axis; pure ⟨t.shape, d⟩
  | [a, b, c, d] =>
    if axis = 0 ∨ axis = 1 then do let o ← flip3 t.data dst a b (c * d) axis; pure ⟨t.shape, o⟩
    else do let o ← flip3 t.data dst (a * b) c d (axis - 1); pure ⟨t.shape, o⟩
  | _ => ub

/-- `flip( tsor, axis, ans )` (include/tensor.tcc lines 1411-1443).  `ans` is the caller's tensor; an empty input leaves it
alone.  A negative axis other than -1 is treated like the last case of the switch by the code; it is outside this model. -/
def flipInto [Zero α] (t : Ten α) (axis : Int) (ans : Ten α) : Res (Ten α) :=
  if t.data.length = 0 then ok ans
  else do
    Res.assert (t.shape.length ≤ 4)
    let ax := if axis = -1 then (t.shape.length : Int) - 1 else axis
    Res.assert (ax < (t.shape.length : Int))
    require (0 ≤ ax)
    flipRank t (resizeV ans t.shape).data ax.toNat

/-- `flip( tsor, axis )` (include/tensor.tcc lines 1449-1454). -/
def flip [Zero α] (t : Ten α) (axis : Int) : Res (Ten α) := flipInto t axis ⟨[], []⟩

/-- `transpose`, forward; `cache` is the tensor in `forward_cache` (include/operation.hpp lines 1478-1497).  The backward
pass runs the same loops on the gradient (lines 1498-1517). -/
def transposeInto [Zero α] (cache t : Ten α) : Res (Ten α) :=
  match t.shape with
  | [row, col] => do
    let ans := resizeV cache [col, row]
    let d ← loop row (fun r o => loop col (fun c o => do
      let x ← rd t.data (at2 row col false r c)
      wr o (at2 col row false c r) x) o) ans.data
    pure ⟨[col, row], d⟩
  | _ => abort

/-- The scan for the first largest element of one fibre (include/operation.hpp lines 1363-1373). -/
def argmaxScan [LT α] [DecidableLT α] (d : List α) (bs row col b c : Nat) : Res Nat := do
  let x0 ← rd d (at3 bs row col b 0 c)
  let r ← loop row (fun i s => do
    let x ← rd d (at3 bs row col b i c)
    if s.1 < x then pure (x, i) else pure s) (x0, 0)
  pure r.2

/-- `argmax( axis )`, forward (include/operation.hpp lines 1336-1377); `cast` converts the index to the element type, `cache`
is the tensor in `forward_cache`. -/
def argmaxInto [LT α] [DecidableLT α] [Zero α] (cast : Nat → α) (axis : Nat) (cache t : Ten α) : Res (Ten α) := do
  Res.assert (axis < t.shape.length)
  let outShape := t.shape.eraseIdx axis
  let ans := resizeV cache outShape
  let bs := size (t.shape.take axis)
  let row ← rd t.shape axis
  let col := size (t.shape.drop (axis + 1))
  let d ← loop bs (fun b o => loop col (fun c o => do
    let m ← argmaxScan t.data bs row col b c
    wr o (at2 bs col false b c) (cast m)) o) ans.data
  pure ⟨outShape, d⟩

/-- `argmax`, backward: zeros of the input's shape, whatever the gradient (include/operation.hpp lines 1378-1384). -/
def argmaxBack [Zero α] (cache input : Ten α) : Res (Ten α) := do
  let a := resizeV cache input.shape
  let d ← loop a.data.length (fun i o => wr o i 0) a.data
  pure ⟨input.shape, d⟩

/-- `argmin( axis )`, forward: `argmax` of the negated operand (include/operation.hpp lines 1412-1419, 673-685). -/
def argminInto [LT α] [DecidableLT α] [Zero α] [Neg α] (cast : Nat → α) (axis : Nat) (cache t : Ten α) : Res (Ten α) :=
  argmaxInto cast axis cache ⟨t.shape, t.data.map (fun x => -x)⟩

end Verif.Data
