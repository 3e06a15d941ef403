import Verif.Concat.Model
import Verif.Graph.Operators
import Verif.Conv.Model
import Verif.Pool.Model
/-!
# Shape calculators (model)

`unary_operator::shape()` and `binary_operator::shape()` (include/operation.hpp lines 99-102, 214-222) apply the operator's shape calculator
to the shapes of the operands without computing the value.  Shapes are `std::vector<unsigned long>`.
-/
namespace Verif.Shapes
open Verif Res Data Graph

variable {α : Type}

/-- `identity_output_shape_calculator` for two operands (include/operation.hpp lines 35-38); also the calculator of `elementwise_product`,
`maximum`, `minimum`, `atan2`, `equal` (lines 848-870, 2477-2590, 2676-2701). -/
def identity2 (l r : List Nat) : List Nat := if l.length > r.length then l else r

/-- Shape calculator of the matrix product (include/operation.hpp lines 645-651). -/
def matmulCalc (l r : List Nat) : Res (List Nat) := do
  Res.assert (l.length = 2)
  Res.assert (r.length = 2)
  let l1 ← rd l 1
  let r0 ← rd r 0
  Res.assert (l1 = r0)
  let l0 ← rd l 0
  let r1 ← rd r 1
  pure [l0, r1]

/-- `std::copy( v.begin() + src, v.end(), v.begin() + dst )` within one vector; iterators outside the vector are undefined. -/
def copyWithin (v : List Nat) (src dst : Nat) : Res (List Nat) := do
  require (src ≤ v.length ∧ dst ≤ v.length)
  loop (v.length - src) (fun i o => do
    let x ← rd o (src + i)
    wr o (dst + i) x) v

/-- `ans.resize( ans.size() - 1 )`. -/
def dropOne (v : List Nat) : Res (List Nat) := do
  require (v ≠ [])
  pure (v.take (v.length - 1))

/-- Shape calculator of `argmax( axis )` (include/operation.hpp lines 1382-1388). -/
def argmaxCalc (axis : Nat) (s : List Nat) : Res (List Nat) := do
  require (axis ≤ s.length)
  let v ← copyWithin s (axis + 1) axis
  dropOne v

/-- Shape calculator of `reduce_min( axis )`, `reduce_max( axis )` and `reduce_sum( axis )` (include/operation.hpp lines 3332-3339, 3467-3474,
3583-3590): the source of the copy is computed from `axis`, the target from `min( axis, size - 1 )`. -/
def reduceCalc (axis : Nat) (s : List Nat) : Res (List Nat) := do
  require (s ≠ [])
  let new := min axis (s.length - 1)
  require (axis ≤ s.length)
  let v ← copyWithin s (axis + 1) new
  dropOne v

/-- Shape calculator of `reshape( new_shape, include_batch_flag )` (include/operation.hpp lines 1155-1169); the products are those of
`unsigned long`. -/
def reshapeCalc (new : List Nat) (batch : Bool) (s : List Nat) : Res (List Nat) :=
  if batch = false then ok new
  else do
    require (size new % 2 ^ 64 ≠ 0)
    pure (size s % 2 ^ 64 / (size new % 2 ^ 64) :: new)

/-- `reshape( new_shape, false )`, forward (include/operation.hpp lines 1121-1135). -/
def reshapePlain [Zero α] (new : List Nat) (t : Ten α) : Res (Ten α) := do
  require (size new ≠ 0)
  let bs := t.data.length / size new
  Res.assert (bs * size new = t.data.length)
  Res.assert (bs = 1)
  reshapeV t new

/-- Conversion to `int` (32 bits, two's complement). -/
def toInt32 (z : Int) : Int := Int.bmod z (2 ^ 32)

/-- `std::accumulate( first, last, 1, … )` with the accumulator `int` and the operation on `unsigned long`; conversions keep the value modulo
2^32. -/
def accInt (s : List Nat) : Int := s.foldl (fun acc (d : Nat) => toInt32 (acc * (d : Int))) 1

/-- Conversion of an `int` to `unsigned long` (64 bits). -/
def toU64 (z : Int) : Nat := (z % (2 ^ 64)).toNat

/-- Shape calculator of `flatten` (include/operation.hpp lines 1213-1217). -/
def flattenCalc (s : List Nat) : Res (List Nat) := do
  let b ← rd s 0
  pure [b, toU64 (accInt s.tail)]

/-- `flatten`, forward (include/operation.hpp lines 1199-1205). -/
def flattenFwd [Zero α] (t : Ten α) : Res (Ten α) := do
  Res.assert (1 < t.shape.length)
  let b ← rd t.shape 0
  require (b ≠ 0)
  reshapeV t [b, t.data.length / b]

/-- Shape calculator of `expand_dims( axis )` (include/operation.hpp lines 1253-1261). -/
def expandCalc (axis : Int) (s : List Nat) : Res (List Nat) := do
  let off := if axis = -1 then (s.length : Int) else axis
  require (0 ≤ off ∧ off.toNat ≤ s.length)
  pure (s.insertIdx off.toNat 1)

/-- Shape calculator of `squeeze( axis )` (include/operation.hpp lines 1290-1304). -/
def squeezeCalc (axis : Int) (s : List Nat) : Res (List Nat) :=
  if axis = -1 then
    let v := s.filter (fun n => n ≠ 1)
    if 0 < v.length then ok v else ok [1]
  else do
    require (0 ≤ axis)
    let v ← copyWithin s (axis.toNat + 1) axis.toNat
    dropOne v

/-- Shape calculator of `transpose` (include/operation.hpp lines 1517-1521). -/
def transposeCalc (s : List Nat) : Res (List Nat) := do
  Res.assert (s.length = 2)
  let a ← rd s 1
  let b ← rd s 0
  pure [a, b]

/-- Shape calculator of `img2col` (include/operation.hpp lines 1644-1654).  Differences of unsigned numbers are outside the model if negative. -/
def img2colCalc (g : Conv.Geo) (s : List Nat) : Res (List Nat) :=
  match s with
  | [BS, R, C, CH] => do
    require (1 ≤ g.kr ∧ 1 ≤ g.kc ∧ 1 ≤ g.sr ∧ 1 ≤ g.sc ∧ g.dr * (g.kr - 1) + 1 ≤ R + 2 * g.pr ∧ g.dc * (g.kc - 1) + 1 ≤ C + 2 * g.pc)
    pure [g.kr * g.kc * CH, BS * ((R + 2 * g.pr - (g.dr * (g.kr - 1) + 1)) / g.sr + 1) * ((C + 2 * g.pc - (g.dc * (g.kc - 1) + 1)) / g.sc + 1)]
  | _ => abort

/-- Shape calculator of `max_pooling_2d( stride )` and `average_pooling_2d( stride )` (include/operation.hpp lines 2062-2066, 2132-2136). -/
def poolCalc (stride : Nat) (s : List Nat) : Res (List Nat) :=
  match s with
  | [b, r, c, ch] => do
    require (stride ≠ 0)
    pure [b, r / stride, c / stride, ch]
  | _ => abort

/-- Shape calculator of `up_sampling_2d( stride )` (include/operation.hpp lines 2226-2230). -/
def upCalc (stride : Nat) (s : List Nat) : Res (List Nat) :=
  match s with
  | [b, r, c, ch] => ok [b, r * stride, c * stride, ch]
  | _ => abort

/-- Shape calculator of `zero_padding_2d` (include/operation.hpp line 2858). -/
def padCalc (p : Pool.Pads) (s : List Nat) : Res (List Nat) := do
  let a ← rd s 0
  let b ← rd s 1
  let c ← rd s 2
  let d ← rd s 3
  pure [a, b + p.top + p.bottom, c + p.left + p.right, d]

/-- Shape calculator of `cropping_2d` (include/operation.hpp lines 2983-2986).  Negative differences are outside the model. -/
def cropCalc (p : Pool.Pads) (s : List Nat) : Res (List Nat) := do
  let a ← rd s 0
  let b ← rd s 1
  let c ← rd s 2
  let d ← rd s 3
  require (p.top + p.bottom ≤ b ∧ p.left + p.right ≤ c)
  pure [a, b - p.top - p.bottom, c - p.left - p.right, d]

/-- Shape calculator of `repeat( repeats, axis )` (include/operation.hpp lines 3199-3205). -/
def repeatCalc (rep axis : Nat) (s : List Nat) : Res (List Nat) := do
  require (s ≠ [])
  let ax := min axis (s.length - 1)
  let n ← rd s ax
  wr s ax (n * rep)

/-- The operators of one operand with their parameters and the tensors in their caches.  `map f` stands for every operator that applies one
function to each element and uses the default calculator. -/
inductive Op1 (α : Type) where
  | map (f : α → α) (cache : Ten α)
  | reshape (new : List Nat) (batch : Bool)
  | flatten
  | expandDims (axis : Int)
  | squeeze (axis : Int)
  | argmax (cast : Nat → α) (axis : Nat) (cache : Ten α)
  | flip (axis : Int) (cache : Ten α)
  | transpose (cache : Ten α)
  | img2col (g : Conv.Geo) (cache : Ten α) (rec : List Nat)
  | maxPool (stride : Nat) (mask cache : Ten α)
  | avgPool (stride : Nat) (cache : Ten α)
  | upSample (stride : Nat) (cache : Ten α)
  | zeroPad (p : Pool.Pads) (cache : Ten α)
  | crop (p : Pool.Pads) (cache : Ten α)
  | repeat_ (rep axis : Nat) (cache : Ten α)
  | reduceExt (better : α → α → Bool) (axis : Nat) (cache : Ten α) (index : Ten Nat)
  | reduceSum (axis : Nat) (cache : Ten α)
  | sumReduce
  | meanReduce
  | broadcast (new : List Nat) (cache : Ten α)

/-- The operators of two operands. -/
inductive Op2 (α : Type) where
  | plus
  | matmul (cache : Ten α)
  | product
  | maximum (cache mask : Ten α)
  | minimum (cache mask : Ten α)
  | concat (axe : Nat)

/-- Forward actions: the definitions of `Verif.Ops`, `Verif.Data`, `Verif.Pool`, `Verif.Conv`. -/
def Op1.fwd [Field α] [LinearOrder α] : Op1 α → Ten α → Res (Ten α)
  | .map f cache, t => Ops.mapT f cache t
  | .reshape new batch, t => if batch = true then Conv.reshapeOp new t else reshapePlain new t
  | .flatten, t => flattenFwd t
  | .expandDims axis, t => Data.expandDims t axis
  | .squeeze axis, t => squeezeAxis t axis
  | .argmax cast axis cache, t => argmaxInto cast axis cache t
  | .flip axis cache, t => flipInto t axis cache
  | .transpose cache, t => transposeInto cache t
  | .img2col g cache rec, t => do
    let r ← Conv.img2col g t cache rec
    pure r.1
  | .maxPool s mask cache, t => do
    let r ← Pool.maxPool s t mask cache
    pure r.1
  | .avgPool s cache, t => Pool.avgPool s t cache
  | .upSample s cache, t => Pool.upSample s t cache
  | .zeroPad p cache, t => Pool.zeroPad p t cache
  | .crop p cache, t => Pool.crop p t cache
  | .repeat_ rep axis cache, t => Pool.repeatOp rep axis t cache
  | .reduceExt better axis cache index, t => do
    let r ← Pool.reduceExt better axis t cache index
    pure r.1
  | .reduceSum axis cache, t => Pool.reduceSum axis t cache
  | .sumReduce, t => Ops.sumReduce t
  | .meanReduce, t => Ops.meanReduce t
  | .broadcast new cache, t => Ops.broadcastOp new cache t

/-- The shape calculator each operator is built with (include/operation.hpp; lines at the single definitions above; `sum_reduce` line 938,
`mean_reduce` line 979, `broadcast` lines 515-519). -/
def Op1.calc : Op1 α → List Nat → Res (List Nat)
  | .map _ _, s => ok s
  | .reshape new batch, s => reshapeCalc new batch s
  | .flatten, s => flattenCalc s
  | .expandDims axis, s => expandCalc axis s
  | .squeeze axis, s => squeezeCalc axis s
  | .argmax _ axis _, s => argmaxCalc axis s
  | .flip _ _, s => ok s
  | .transpose _, s => transposeCalc s
  | .img2col g _ _, s => img2colCalc g s
  | .maxPool stride _ _, s => poolCalc stride s
  | .avgPool stride _, s => poolCalc stride s
  | .upSample stride _, s => upCalc stride s
  | .zeroPad p _, s => padCalc p s
  | .crop p _, s => cropCalc p s
  | .repeat_ rep axis _, s => repeatCalc rep axis s
  | .reduceExt _ axis _ _, s => reduceCalc axis s
  | .reduceSum axis _, s => reduceCalc axis s
  | .sumReduce, _ => ok [1]
  | .meanReduce, _ => ok [1]
  | .broadcast new _, _ => ok new

/-- Forward actions of the operators of two operands. -/
def Op2.fwd [Field α] [LinearOrder α] : Op2 α → Ten α → Ten α → Res (Ten α)
  | .plus, l, r => plusT l r
  | .matmul cache, l, r => Ops.matmul cache l r
  | .product, l, r => elementwiseProduct l r
  | .maximum cache mask, l, r => do
    let u ← Pool.maximumFwd l r cache mask
    pure u.1
  | .minimum cache mask, l, r => do
    let u ← Pool.minimumFwd l r cache mask
    pure u.1
  | .concat axe, l, r => concatenate l r axe

/-- Their calculators (`plus` lines 564-567, `multiplication` lines 645-651, `concatenate` lines 2437-2446; the others use the default). -/
def Op2.calc : Op2 α → List Nat → List Nat → Res (List Nat)
  | .plus, l, r => Tensor.broadcastShape l r
  | .matmul _, l, r => matmulCalc l r
  | .product, l, r => ok (identity2 l r)
  | .maximum _ _, l, r => ok (identity2 l r)
  | .minimum _ _, l, r => ok (identity2 l r)
  | .concat axe, l, r => Concat.concatShape axe l r

/-- `shape()` of a whole expression (include/operation.hpp lines 99-102, 214-222, include/place_holder.hpp lines 78-83 for bound place holders,
include/variable.hpp): `ku i` and `kb i` are the operators with identity `i`. -/
def shapeOf (ku : Nat → Op1 α) (kb : Nat → Op2 α) (leaf data : Nat → Ten α) : Ex α → Res (List Nat)
  | .leaf k => ok (leaf k).shape
  | .var v _ => ok (data v).shape
  | .un i _ e => do
    let s ← shapeOf ku kb leaf data e
    (ku i).calc s
  | .bin i _ l r => do
    let a ← shapeOf ku kb leaf data l
    let b ← shapeOf ku kb leaf data r
    (kb i).calc a b

end Verif.Shapes
