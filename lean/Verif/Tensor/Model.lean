import Verif.Basic.Kernel
/-!
# `ceras::tensor`: shared storage, shapes and in-place arithmetic (model)

Models `include/tensor.hpp` lines 41-480 and the broadcasting functions of `include/tensor.tcc`.

The heap is the list of all storages (`std::shared_ptr<vector<T>>`, include/tensor.hpp line 47) ever created; a
tensor is a shape and the index of its storage.  Copying a tensor copies that pair, so copies alias.

Simplified: storages are never reclaimed (reclaiming an unreachable storage is not observable here; the allocator
is modelled in `Verif.Alloc`), a fresh block is all zeros (proved of the allocator in `Verif.Alloc`), the `id_`
member is left out (see `Verif.Ids`), sizes are unbounded naturals.
-/
namespace Verif.Tensor
open Verif Res

/-- All storages (include/tensor.hpp line 47, include/utils/vector.hpp lines 9-24). -/
abbrev Heap (α : Type) := List (List α)

/-- A tensor object: its own shape and a pointer to a shared storage (include/tensor.hpp lines 45-47). -/
structure Tn where
  shape : List Nat
  loc : Nat
  deriving DecidableEq, Repr

variable {α : Type}

/-- `size()` is the length of the storage, not the product of the shape (include/tensor.hpp lines 249-253). -/
def sizeT (h : Heap α) (t : Tn) : Res Nat := do
  let b ← rd h t.loc
  pure b.length

/-- `operator[]( idx )`, read (include/tensor.hpp lines 321-330). -/
def getT (h : Heap α) (t : Tn) (i : Nat) : Res α := do
  let b ← rd h t.loc
  rd b i

/-- `operator[]( idx ) = v` (include/tensor.hpp lines 321-324). -/
def setT (h : Heap α) (t : Tn) (i : Nat) (v : α) : Res (Heap α) := do
  let b ← rd h t.loc
  let b' ← wr b i v
  wr h t.loc b'

/-- `tensor()` : empty shape, empty storage (include/tensor.hpp line 52). -/
def newDefault (h : Heap α) : Tn × Heap α := (⟨[], h.length⟩, h ++ [[]])

/-- `tensor( shape, init )` and `tensor( shape )` (include/tensor.hpp lines 75-106). -/
def newT (h : Heap α) (shape : List Nat) (v : α) : Tn × Heap α :=
  (⟨shape, h.length⟩, h ++ [List.replicate (size shape) v])

/-- `tensor( shape, {values...} )` with its assertion (include/tensor.hpp lines 57-70). -/
def newInit (h : Heap α) (shape : List Nat) (vs : List α) : Res (Tn × Heap α) := do
  Res.assert (vs.length = size shape)
  pure (⟨shape, h.length⟩, h ++ [vs])

/-- `reset( val )` (include/tensor.hpp lines 275-279). -/
def reset (h : Heap α) (t : Tn) (v : α) : Res (Heap α) := do
  let b ← rd h t.loc
  wr h t.loc (List.replicate b.length v)

/-- `vector::resize` : no-op for the same length, otherwise drop the block and take a fresh zeroed one
(include/utils/vector.hpp lines 87-101). -/
def vecResize [Zero α] (b : List α) (n : Nat) : List α :=
  if n = b.length then b else List.replicate n 0

/-- `resize( new_shape )` : the storage is shared, the shape is this object's own (include/tensor.hpp lines 335-343). -/
def resize [Zero α] (h : Heap α) (t : Tn) (shape : List Nat) : Res (Tn × Heap α) := do
  let b ← rd h t.loc
  let h' ← wr h t.loc (vecResize b (size shape))
  pure (⟨shape, t.loc⟩, h')

/-- `static_cast<unsigned long>( -1 )` (include/tensor.hpp line 357). -/
def minusOne : Nat := 2 ^ 64 - 1

/-- `reshape( new_shape )` (include/tensor.hpp lines 354-368).  `*rbegin()` of an empty shape and a division by a
zero product are undefined. -/
def reshape [Zero α] (h : Heap α) (t : Tn) (shape : List Nat) : Res (Tn × Heap α) := do
  let b ← rd h t.loc
  require (shape ≠ [])
  let front := shape.dropLast
  if shape.getLast? = some minusOne then
    require (size front ≠ 0)
    let shape' := front ++ [b.length / size front]
    if b.length ≠ size shape' then resize h t shape' else pure (⟨shape', t.loc⟩, h)
  else
    if b.length ≠ size shape then resize h t shape else pure (⟨shape, t.loc⟩, h)

/-- `std::copy_n( src, n, dst )` between different storages (include/tensor.hpp lines 304, 311). -/
def copyN (src : List α) (n : Nat) (dst : List α) : Res (List α) :=
  loop n (fun i d => do let x ← rd src i; wr d i x) dst

/-- `deep_copy()` : a new tensor of the same shape; `size()` elements of this one are copied
(include/tensor.hpp lines 308-313).  When the storage is longer than the shape says, the copy runs out of the block. -/
def deepCopy [Zero α] (h : Heap α) (t : Tn) : Res (Tn × Heap α) := do
  let b ← rd h t.loc
  let n := newT h t.shape 0
  let d ← copyN b b.length (List.replicate (size t.shape) 0)
  let h' ← wr n.2 n.1.loc d
  pure (n.1, h')

/-- `deep_copy( other )` : resize this one, then copy `size()` elements (include/tensor.hpp lines 301-306).
If both share a storage the copy is from a block onto itself. -/
def deepCopyFrom [Zero α] (h : Heap α) (t o : Tn) : Res (Tn × Heap α) := do
  let r ← resize h t o.shape
  let dst ← rd r.2 t.loc
  let src ← rd r.2 o.loc
  let d ← copyN src dst.length dst
  let h' ← wr r.2 t.loc d
  pure (r.1, h')

/-- The loop `for_each( x.begin(), x.end(), y.begin(), []( auto& x, auto y ){ x = f(x,y); } )` on possibly
shared storages (include/utils/for_each.hpp, sequential order; see `Verif.Parallel` for the parallel one;
used in include/tensor.hpp lines 411, 424, 437, 450 and include/tensor.tcc lines 584, 615). -/
def zipInto (f : α → α → α) (h : Heap α) (x y : Tn) : Res (Heap α) := do
  let n ← sizeT h x
  loop n (fun i h => do
    let a ← getT h x i
    let b ← getT h y i
    setT h x i (f a b)) h

/-- `operator +=`, `-=`, `*=`, `/=` with a tensor (include/tensor.hpp lines 407-451). -/
def opAssign (f : α → α → α) (h : Heap α) (t o : Tn) : Res (Heap α) := do
  Res.assert (t.shape = o.shape)
  zipInto f h t o

/-- `map( f )` and the scalar `+=`, `-=`, `*=`, `/=` (include/tensor.hpp lines 401-405, 415-458). -/
def mapT (f : α → α) (h : Heap α) (t : Tn) : Res (Heap α) := do
  let n ← sizeT h t
  loop n (fun i h => do
    let a ← getT h t i
    setT h t i (f a)) h

/-- Unary minus (include/tensor.hpp lines 460-465); also the scalar operators of include/tensor.tcc lines 594-662:
a deep copy mapped in place.  (Unary minus takes the loop bound from the original's `size()`, line 463; that is the same
number whenever the storage length is the product of the shape.) -/
def mapCopy [Zero α] (f : α → α) (h : Heap α) (t : Tn) : Res (Tn × Heap α) := do
  let r ← deepCopy h t
  let h' ← mapT f r.2 r.1
  pure (r.1, h')

/-- `as_scalar()` (include/tensor.hpp lines 467-471). -/
def asScalar (h : Heap α) (t : Tn) : Res α := do
  let n ← sizeT h t
  Res.assert (n = 1)
  getT h t 0

/-! ### broadcasting -/

/-- `(a_index < 0) ? 1 : shape_a[a_index]` with `a_index = size_a - 1 - idx` (include/tensor.tcc lines 396-403). -/
def dimAt (a : List Nat) (idx : Nat) : Res Nat := if idx < a.length then rd a (a.length - 1 - idx) else ok 1

/-- One iteration of the loop of `broadcast_shape`: dimension `idx` counted from the right
(include/tensor.tcc lines 394-419). -/
def broadcastDim (a b : List Nat) (idx : Nat) (ans : List Nat) : Res (List Nat) := do
  let da ← dimAt a idx
  let db ← dimAt b idx
  if da = 1 then pure (ans ++ [db])
  else if db = 1 then pure (ans ++ [da])
  else do
    Res.assert (da = db)
    pure (ans ++ [da])

/-- `broadcast_shape` (include/tensor.tcc lines 385-423).  The loop stops when both indices are negative, i.e. after
`max` iterations. -/
def broadcastShape (a b : List Nat) : Res (List Nat) :=
  if a = b then ok a
  else do
    let r ← loop (max a.length b.length) (broadcastDim a b) []
    pure r.reverse

/-- Insert leading ones until the rank is that of `new_shape` (include/tensor.tcc lines 311-316). -/
def padShape (s new : List Nat) : List Nat := List.replicate (new.length - s.length) 1 ++ s

/-- `_ans.reshape( updated_shape )` on a copy of the tensor when dimensions are missing (include/tensor.tcc lines 309-316). -/
def padTensor [Zero α] (h : Heap α) (t : Tn) (new : List Nat) : Res (Tn × Heap α) :=
  if t.shape.length < new.length then reshape h t (padShape t.shape new) else ok (t, h)

/-- The search for the last dimension that differs (include/tensor.tcc lines 324-330); `d` dimensions are left to
inspect.  `none` when the index runs below zero (the following read would be out of bounds). -/
def findDim (upd new : List Nat) : Nat → Res (Option Nat)
  | 0 => ok none
  | d + 1 => do
    let n ← rd new d
    let u ← rd upd d
    if n ≠ u then pure (some d) else findDim upd new d

/-- The copying loops `v3[r][c][ch] = v2[r][ch]` into the fresh tensor (include/tensor.tcc lines 343-349). -/
def expandKernel (headings repeats tailings : Nat) (src : List α) (out : List α) : Res (List α) :=
  loop headings (fun r o =>
    loop repeats (fun c o =>
      loop tailings (fun ch o => do
        let x ← rd src (r * tailings + ch)
        wr o (r * repeats * tailings + c * tailings + ch) x) o) o) out

/-- `broadcast_tensor` (include/tensor.tcc lines 302-353).  `fuel` bounds the recursion of line 352; the theorems show
that rank + 1 is always enough. -/
def broadcastGo [Zero α] : Nat → Heap α → Tn → List Nat → Res (Tn × Heap α)
  | 0, _, _, _ => ub
  | fuel + 1, h, t, new =>
    if t.shape = new then ok (t, h)
    else do
      let upd := padShape t.shape new
      let r ← padTensor h t new
      if upd = new then pure r
      else do
        let od ← findDim upd new upd.length
        match od with
        | none => ub
        | some d => do
          let u ← rd upd d
          Res.assert (u = 1)
          let repeats ← rd new d
          let headings := size (upd.take d)
          let tailings := size (upd.drop d)
          let expanded := upd.set d repeats
          let src ← rd r.2 r.1.loc
          let out ← expandKernel headings repeats tailings src (List.replicate (size expanded) 0)
          broadcastGo fuel (r.2 ++ [out]) ⟨expanded, r.2.length⟩ new

/-- `broadcast_tensor( tsor, new_shape )` (include/tensor.tcc lines 302-353). -/
def broadcastTensor [Zero α] (h : Heap α) (t : Tn) (new : List Nat) : Res (Tn × Heap α) :=
  broadcastGo (new.length + 1) h t new

/-- `add` / `minus` (include/tensor.tcc lines 577-586, 608-618): `f` is `x + y` or `x - y`.  The in-place loop runs on
whatever `broadcast_tensor` returned for the left operand. -/
def addLike [Zero α] (f : α → α → α) (h : Heap α) (lhs rhs : Tn) : Res (Tn × Heap α) := do
  let s ← broadcastShape lhs.shape rhs.shape
  let l ← broadcastTensor h lhs s
  let r ← broadcastTensor l.2 rhs s
  let h' ← zipInto f r.2 l.1 r.1
  pure (l.1, h')

end Verif.Tensor
