import Verif.Pool.Model
/-!
# Stride iterators and the algorithms run on them (model)

`include/utils/stride_iterator.hpp`, `col_begin` / `col_end` of `include/utils/view.hpp`, and the loops of `reduce` (`include/tensor.tcc`) and of the operators
`reduce_min`, `reduce_max`, `reduce_sum` (`include/operation.hpp`) written with the iterators they use; `Verif.Data` and `Verif.Pool` have the same functions
with the positions computed directly.

A pointer into a block of elements is its distance from the first one, an integer.  With `strict` a pointer may only be moved within the block and to the place
behind its end, as C++ demands; without it pointers may be moved anywhere, as on the machines the library runs on, and only dereferencing is checked.
The standard algorithms are those of libstdc++.  Simplified: `ptrdiff_t` does not overflow.
-/
namespace Verif.Stride
open Verif Res View Data

variable {α : Type}

/-- `stride_iterator` (include/utils/stride_iterator.hpp lines 19-20). -/
structure SIt where
  pos : Int
  step : Int
  deriving DecidableEq, Repr

/-- Moving a pointer in a block of `n` elements: `std::advance( iterator_, d )`. -/
def advance (strict : Bool) (n : Nat) (p d : Int) : Res Int := do
  require (strict = true → 0 ≤ p + d ∧ p + d ≤ n)
  pure (p + d)

/-- `operator ++` (include/utils/stride_iterator.hpp lines 30-34). -/
def inc (strict : Bool) (n : Nat) (a : SIt) : Res SIt := do
  let p ← advance strict n a.pos a.step
  pure ⟨p, a.step⟩

/-- `operator += dt` and `operator +` (include/utils/stride_iterator.hpp lines 41-55). -/
def add (strict : Bool) (n : Nat) (a : SIt) (dt : Int) : Res SIt := do
  let p ← advance strict n a.pos (a.step * dt)
  pure ⟨p, a.step⟩

/-- `operator --` (include/utils/stride_iterator.hpp lines 56-60). -/
def dec (strict : Bool) (n : Nat) (a : SIt) : Res SIt := do
  let p ← advance strict n a.pos (-a.step)
  pure ⟨p, a.step⟩

/-- `operator -= dt` and `operator -` (include/utils/stride_iterator.hpp lines 67-77). -/
def sub (strict : Bool) (n : Nat) (a : SIt) (dt : Int) : Res SIt := do
  let p ← advance strict n a.pos (-dt * a.step)
  pure ⟨p, a.step⟩

/-- `*p`. -/
def load (d : List α) (p : Int) : Res α := if 0 ≤ p then rd d p.toNat else ub

/-- `*p = v`. -/
def store (d : List α) (p : Int) (v : α) : Res (List α) := if 0 ≤ p then wr d p.toNat v else ub

/-- `operator *` (include/utils/stride_iterator.hpp lines 86-93). -/
def deref (d : List α) (a : SIt) : Res α := load d a.pos

/-- `operator [] ( dt )` (include/utils/stride_iterator.hpp lines 78-85). -/
def index (d : List α) (a : SIt) (dt : Int) : Res α := load d (a.pos + dt * a.step)

/-- The difference of two iterators (include/utils/stride_iterator.hpp lines 97-101). -/
def diff (a b : SIt) : Res Int := do
  Res.assert (a.step = b.step)
  require (a.step ≠ 0)
  pure ((a.pos - b.pos).tdiv a.step)

/-- `==`, made from the defaulted `operator <=>` (include/utils/stride_iterator.hpp line 95): both members. -/
def eqb (a b : SIt) : Bool := a.pos == b.pos && a.step == b.step

/-- `<`, made from the defaulted `operator <=>` (include/utils/stride_iterator.hpp line 95): the members in their order. -/
def ltb (a b : SIt) : Bool := decide (a.pos < b.pos) || (a.pos == b.pos && decide (a.step < b.step))

/-! ### algorithms of the standard library -/

/-- `for ( ; first != last; ++first ) body( first )`.  `fuel` bounds the number of rounds; running out of it stands for a loop that does not end. -/
def forRange {σ : Type} (strict : Bool) (n : Nat) (body : SIt → σ → Res σ) : Nat → SIt → SIt → σ → Res σ
  | 0, _, _, _ => ub
  | fuel + 1, first, last, s =>
    if eqb first last = true then ok s
    else do
      let s ← body first s
      let first ← inc strict n first
      forRange strict n body fuel first last s

/-- `std::accumulate` and the last loop of `std::reduce`. -/
def accumulate (strict : Bool) (op : α → α → α) (d : List α) (fuel : Nat) (first last : SIt) (init : α) : Res α :=
  forRange strict d.length (fun it acc => do
    let x ← deref d it
    pure (op acc x)) fuel first last init

/-- `std::fill`. -/
def fill (strict : Bool) (v : α) (fuel : Nat) (first last : SIt) (d : List α) : Res (List α) :=
  forRange strict d.length (fun it d => store d it.pos v) fuel first last d

/-- `std::max_element` and `std::min_element`; `better x y` says that `x` replaces `y`. -/
def bestElement (strict : Bool) (better : α → α → Bool) (d : List α) (fuel : Nat) (first last : SIt) : Res SIt :=
  if eqb first last = true then ok last
  else do
    let next ← inc strict d.length first
    forRange strict d.length (fun it res => do
      let x ← deref d it
      let y ← deref d res
      pure (if better x y = true then it else res)) fuel next last first

/-- The first loop of `std::reduce` for random access iterators (libstdc++, header numeric): four elements at a time. -/
def reduceFour (strict : Bool) (op : α → α → α) (d : List α) : Nat → SIt → SIt → α → Res (SIt × α)
  | 0, _, _, _ => ub
  | fuel + 1, first, last, init => do
    let n ← diff last first
    if 4 ≤ n then do
      let a ← index d first 0
      let b ← index d first 1
      let c ← index d first 2
      let e ← index d first 3
      let first ← add strict d.length first 4
      reduceFour strict op d fuel first last (op init (op (op a b) (op c e)))
    else pure (first, init)

/-- `std::reduce( first, last, init, op )` (libstdc++, header numeric). -/
def stdReduce (strict : Bool) (op : α → α → α) (d : List α) (fuel : Nat) (first last : SIt) (init : α) : Res α := do
  let r ← reduceFour strict op d fuel first last init
  accumulate strict op d fuel r.1 last r.2

/-! ### views and reductions -/

/-- `col_begin( c )` of a `view_2d` of `col` columns that starts at `base` (include/utils/view.hpp lines 81, 84). -/
def colBegin (strict : Bool) (n : Nat) (base : Int) (col c : Nat) : Res SIt := do
  let p ← advance strict n base c
  pure ⟨p, col⟩

/-- `col_end( c )` (include/utils/view.hpp lines 82, 85). -/
def colEnd (strict : Bool) (n : Nat) (base : Int) (row col c : Nat) : Res SIt := do
  let b ← colBegin strict n base col c
  add strict n b row

/-- `v3[it]` of a `view_3d` of `row` matrices `col * channel` (include/utils/view.hpp lines 102-110): where the `view_2d` starts. -/
def slab (strict : Bool) (n : Nat) (col channel it : Nat) : Res Int := advance strict n 0 ((it * col * channel : Nat) : Int)

/-- `reduce( ts, axis, init, func, keepdims )` (include/tensor.tcc lines 1106-1141) with its iterators; `Data.reduce` is the same with the positions computed. -/
def reduce [Zero α] (strict : Bool) (op : α → α → α) (t : Ten α) (axis : Nat) (init : α) (keepdims : Bool) : Res (Ten α) :=
  if t.data = [] then ok t
  else do
    let axis := if axis = minusOne then t.shape.length - 1 else axis
    Res.assert (axis < t.shape.length)
    let pres := size (t.shape.take axis)
    let post := size (t.shape.drop (axis + 1))
    let n ← rd t.shape axis
    let s1 := t.shape.set axis 1
    let d ← loop pres (fun idx o => loop post (fun jdx o => do
      let start ← advance strict t.data.length 0 ((idx * post * n + jdx : Nat) : Int)
      let si : SIt := ⟨start, post⟩
      let last ← add strict t.data.length si n
      let v ← stdReduce strict op t.data (t.data.length + 1) si last init
      wr o (idx * post + jdx) v) o) (List.replicate (size s1) 0)
    if keepdims then pure ⟨s1, d⟩ else reshapeV ⟨s1, d⟩ (s1.eraseIdx axis)

/-- `reduce_sum( axis )`, forward (include/operation.hpp lines 3487-3523) with its iterators. -/
def reduceSum [Zero α] [Add α] (strict : Bool) (axis : Nat) (t cache : Ten α) : Res (Ten α) := do
  require (t.shape ≠ [])
  let ax := min axis (t.shape.length - 1)
  let stride := size (t.shape.drop (ax + 1))
  let iterations := size (t.shape.take ax)
  let scales ← rd t.shape ax
  let shape := t.shape.eraseIdx ax
  let d ← loop iterations (fun it o => loop stride (fun st o => do
    let base ← slab strict t.data.length scales stride it
    let first ← colBegin strict t.data.length base stride st
    let last ← colEnd strict t.data.length base scales stride st
    let v ← accumulate strict (· + ·) t.data (t.data.length + 1) first last 0
    wr o (at2 iterations stride false it st) v) o) (resizeV cache shape).data
  pure ⟨shape, d⟩

/-- `reduce_sum( axis )`, backward (include/operation.hpp lines 3525-3553) with its iterators. -/
def reduceSumBack [Zero α] (strict : Bool) (axis : Nat) (t grad cache : Ten α) : Res (Ten α) := do
  require (t.shape ≠ [])
  let ax := min axis (t.shape.length - 1)
  let stride := size (t.shape.drop (ax + 1))
  let iterations := size (t.shape.take ax)
  let scales ← rd t.shape ax
  let ans := resizeV cache t.shape
  let z ← Gemm.fillN ans.data.length 0 ans.data
  let d ← loop iterations (fun it o => loop stride (fun st o => do
    let base ← slab strict o.length scales stride it
    let first ← colBegin strict o.length base stride st
    let last ← colEnd strict o.length base scales stride st
    let g ← rd grad.data (at2 iterations stride false it st)
    fill strict g (o.length + 1) first last o) o) z
  pure ⟨t.shape, d⟩

/-- `reduce_min( axis )` and `reduce_max( axis )`, forward (include/operation.hpp lines 3217-3263, 3352-3398) with their iterators: result and index tensor. -/
def reduceExt [Zero α] (strict : Bool) (better : α → α → Bool) (axis : Nat) (t cache : Ten α) (idx : Ten Nat) : Res (Ten α × Ten Nat) := do
  require (t.shape ≠ [])
  let ax := min axis (t.shape.length - 1)
  let stride := size (t.shape.drop (ax + 1))
  let iterations := size (t.shape.take ax)
  let scales ← rd t.shape ax
  let shape := t.shape.eraseIdx ax
  let r ← loop iterations (fun it st => loop stride (fun j (st : List α × List Nat) => do
    let base ← slab strict t.data.length scales stride it
    let first ← colBegin strict t.data.length base stride j
    let last ← colEnd strict t.data.length base scales stride j
    let best ← bestElement strict better t.data (t.data.length + 1) first last
    let v ← deref t.data best
    let o ← wr st.1 (at2 iterations stride false it j) v
    let k ← diff best first
    let i ← wr st.2 (at2 iterations stride false it j) k.toNat
    pure (o, i)) st) ((resizeV cache shape).data, (resizeV idx shape).data)
  pure (⟨shape, r.1⟩, ⟨shape, r.2⟩)

end Verif.Stride
