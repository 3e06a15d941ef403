import Verif.Data.Model
import Verif.Tensor.Model
import Mathlib.Algebra.Field.Basic
/-!
# Statistics of tensors (model)

`include/tensor.tcc` lines 766-780 (`reduce_sum`, `reduce_mean`), 1054-1060 (`norm`), 1148-1184 (`mean`, `variance`, `standard_deviation` along an axis, `var`,
`std`), 1199-1212 (`linspace`).  Elements are in any field; `std::sqrt` is a function `root`.
-/
namespace Verif.Stats
open Verif Res Data

variable {α : Type} [Field α]

/-- `operator / ( Tsor const&, value_type )` (include/tensor.tcc lines 657-663). -/
def divS (t : Ten α) (c : α) : Ten α := ⟨t.shape, t.data.map (· / c)⟩

/-- `operator - ( Tsor const&, value_type )` (include/tensor.tcc lines 634-640). -/
def subS (t : Ten α) (c : α) : Ten α := ⟨t.shape, t.data.map (· - c)⟩

/-- `minus( lhs, rhs )` (include/tensor.tcc lines 608-618) on two tensors with storages of their own; the left one is not used afterwards. -/
def minusT (l r : Ten α) : Res (Ten α) := do
  let (t, h) ← Tensor.addLike (· - ·) [l.data, r.data] ⟨l.shape, 0⟩ ⟨r.shape, 1⟩
  let b ← rd h t.loc
  pure ⟨t.shape, b⟩

/-- `mean( ts, axis, keepdims )` (include/tensor.tcc lines 1148-1155). -/
def meanAxis (red : List α → α) (t : Ten α) (axis : Nat) (keepdims : Bool) : Res (Ten α) := do
  let axis := if axis = minusOne then t.shape.length - 1 else axis
  let u ← reduce red t axis 0 keepdims
  let n ← rd t.shape axis
  pure (divS u (n : α))

/-- `variance( ts, axis, keepdims )` (include/tensor.tcc lines 1157-1164). -/
def variance (red : List α → α) (t : Ten α) (axis : Nat) (keepdims : Bool) : Res (Ten α) := do
  let x ← meanAxis red t axis true
  let x ← minusT x t
  let x : Ten α := ⟨x.shape, x.data.map (fun v => v * v)⟩
  meanAxis red x axis keepdims

/-- `standard_deviation( ts, axis, keepdims )` (include/tensor.tcc lines 1166-1172). -/
def standardDeviation (root : α → α) (red : List α → α) (t : Ten α) (axis : Nat) (keepdims : Bool) : Res (Ten α) := do
  let x ← variance red t axis keepdims
  pure ⟨x.shape, x.data.map root⟩

/-- `var( ts )` (include/tensor.tcc lines 1174-1179): `std::inner_product` of the deviations with themselves. -/
def var (t : Ten α) : Res α := do
  let m ← meanAll t
  let x := subS t m
  loop x.data.length (fun i acc => do let v ← rd x.data i; pure (acc + v * v)) 0

/-- `std( ts )` (include/tensor.tcc lines 1181-1185). -/
def std (root : α → α) (t : Ten α) : Res α := do
  let v ← var t
  pure (root v)

/-- `norm( tsor )` (include/tensor.tcc lines 1054-1060). -/
def norm (root : α → α) (t : Ten α) : Res α := do
  Res.assert (t.data.length ≠ 0)
  let s ← loop t.data.length (fun i acc => do let v ← rd t.data i; pure (acc + v * v)) 0
  pure (root s / (t.data.length : α))

/-- `reduce_sum( tsor )` (include/tensor.tcc lines 766-771); `red` stands for `std::reduce`. -/
def reduceSum (red : List α → α) (t : Ten α) : Ten α := ⟨[1], [red (0 :: t.data)]⟩

/-- `reduce_mean( tsor )` (include/tensor.tcc lines 773-779). -/
def reduceMean (red : List α → α) (t : Ten α) : Ten α := divS (reduceSum red t) (t.data.length : α)

/-- `linspace( start, stop, num, endpoint )` (include/tensor.tcc lines 1199-1212). -/
def linspace (start stop : α) (num : Nat) (endpoint : Bool) : Res (Ten α) := do
  Res.assert (num > 1)
  let segs := if endpoint = true then num - 1 else num
  let distance := (stop - start) / (segs : α)
  let d ← loop num (fun i o => wr o i (start + distance * (i : α))) (List.replicate num 0)
  pure ⟨[num], d⟩

end Verif.Stats
