import Verif.Data.Model
import Verif.Gemm.Model
import Mathlib.Algebra.Order.Field.Basic
/-!
# Pooling, up-sampling, padding, cropping, repeat, reductions, maximum and minimum (model)

`include/operation.hpp` lines 1955-2240, 2476-2552, 2745-2990, 3100-3595.  The tensors an operator keeps in its `std::any` caches
are arguments and results.  Tensors are by value: that the returned tensor shares its storage with the cache is not modelled here
(see `Verif.Graph`).  Comparisons are those of a linear order, so NaN is excluded.
-/
namespace Verif.Pool
open Verif Res View Data

variable {α : Type}

/-! ### max_pooling_2d -/

/-- The scan of one window for its largest element (include/operation.hpp lines 1990-2000). -/
def maxScan [LT α] [DecidableLT α] (d : List α) (BS R C CH s b r c ch : Nat) : Res (Nat × Nat) :=
  loopFrom (r * s) (r * s + s) (fun y m => loopFrom (c * s) (c * s + s) (fun x (m : Nat × Nat) => do
    let v ← rd d (at4 BS R C CH b y x ch)
    let w ← rd d (at4 BS R C CH b m.1 m.2 ch)
    if w < v then ok (y, x) else ok m) m) (r * s, c * s)

/-- `max_pooling_2d( stride )`, forward (include/operation.hpp lines 1961-2006, 2049): result and new mask.  The mask is resized but
not cleared. -/
def maxPool [LT α] [DecidableLT α] [Zero α] [One α] (s : Nat) (t mask cache : Ten α) : Res (Ten α × Ten α) := do
  Res.assert (1 < s)
  match t.shape with
  | [BS, R, C, CH] => do
    let st ← loop BS (fun b st => loop (R / s) (fun r st => loop (C / s) (fun c st => loop CH (fun ch (st : List α × List α) => do
      let k ← maxScan t.data BS R C CH s b r c ch
      let m ← wr st.1 (at4 BS R C CH b k.1 k.2 ch) 1
      let v ← rd t.data (at4 BS R C CH b k.1 k.2 ch)
      let o ← wr st.2 (at4 BS (R / s) (C / s) CH b r c ch) v
      pure (m, o)) st) st) st) ((resizeV mask t.shape).data, (resizeV cache [BS, R / s, C / s, CH]).data)
    pure (⟨[BS, R / s, C / s, CH], st.2⟩, ⟨t.shape, st.1⟩)
  | _ => abort

/-- `max_pooling_2d( stride )`, backward (include/operation.hpp lines 2009-2039): positions whose mask is one get the gradient of
their window, the others keep what the cache held. -/
def maxPoolBack [Field α] [LinearOrder α] (s : Nat) (t mask grad cache : Ten α) : Res (Ten α) :=
  match t.shape with
  | [BS, R, C, CH] => do
    let d ← loop BS (fun b o => loop R (fun r o => loop C (fun c o => loop CH (fun ch o => do
      let m ← rd mask.data (at4 BS R C CH b r c ch)
      if |m - 1| < 1 / 100000 then do
        let g ← rd grad.data (at4 BS (R / s) (C / s) CH b (r / s) (c / s) ch)
        wr o (at4 BS R C CH b r c ch) g
      else ok o) o) o) o) (resizeV cache t.shape).data
    pure ⟨t.shape, d⟩
  | _ => ub

/-! ### average_pooling_2d -/

/-- `average_pooling_2d( stride )`, forward (include/operation.hpp lines 2083-2108). -/
def avgPool [Zero α] [One α] [Add α] [Mul α] [Div α] [NatCast α] (s : Nat) (t cache : Ten α) : Res (Ten α) := do
  Res.assert (1 < s)
  match t.shape with
  | [BS, R, C, CH] => do
    let factor : α := 1 / ((s * s : Nat) : α)
    let ans := resizeV cache [BS, R / s, C / s, CH]
    let z ← Gemm.fillN ans.data.length 0 ans.data
    let d ← loop BS (fun b o => loop (R / s) (fun r o => loop (C / s) (fun c o => loop CH (fun ch o =>
      loopFrom (r * s) (r * s + s) (fun y o => loopFrom (c * s) (c * s + s) (fun x o => do
        let v ← rd t.data (at4 BS R C CH b y x ch)
        addAt o (at4 BS (R / s) (C / s) CH b r c ch) (v * factor)) o) o) o) o) o) z
    pure ⟨[BS, R / s, C / s, CH], d⟩
  | _ => abort

/-- `average_pooling_2d( stride )`, backward (include/operation.hpp lines 2109-2130). -/
def avgPoolBack [Zero α] [One α] [Mul α] [Div α] [NatCast α] (s : Nat) (t grad cache : Ten α) : Res (Ten α) :=
  match t.shape with
  | [BS, R, C, CH] => do
    let factor : α := 1 / ((s * s : Nat) : α)
    let d ← loop BS (fun b o => loop R (fun r o => loop C (fun c o => loop CH (fun ch o => do
      let g ← rd grad.data (at4 BS (R / s) (C / s) CH b (r / s) (c / s) ch)
      wr o (at4 BS R C CH b r c ch) (factor * g)) o) o) o) (resizeV cache t.shape).data
    pure ⟨t.shape, d⟩
  | _ => ub

/-! ### up_sampling_2d -/

/-- `up_sampling_2d( stride )`, forward (include/operation.hpp lines 2146-2176, 2214). -/
def upSample [Zero α] (s : Nat) (t cache : Ten α) : Res (Ten α) := do
  Res.assert (1 < s)
  match t.shape with
  | [BS, R, C, CH] => do
    let ans := resizeV cache [BS, R * s, C * s, CH]
    let z ← Gemm.fillN ans.data.length 0 ans.data
    let d ← loop BS (fun b o => loop R (fun r o => loop C (fun c o => loop CH (fun ch o =>
      loopFrom (r * s) (r * s + s) (fun y o => loopFrom (c * s) (c * s + s) (fun x o => do
        let v ← rd t.data (at4 BS R C CH b r c ch)
        wr o (at4 BS (R * s) (C * s) CH b y x ch) v) o) o) o) o) o) z
    pure ⟨[BS, R * s, C * s, CH], d⟩
  | _ => abort

/-- `up_sampling_2d( stride )`, backward (include/operation.hpp lines 2178-2207). -/
def upSampleBack [Zero α] [Add α] (s : Nat) (t grad cache : Ten α) : Res (Ten α) :=
  match t.shape with
  | [BS, R, C, CH] => do
    let ans := resizeV cache t.shape
    let z ← Gemm.fillN ans.data.length 0 ans.data
    let d ← loop BS (fun b o => loop R (fun r o => loop C (fun c o => loop CH (fun ch o =>
      loopFrom (r * s) (r * s + s) (fun y o => loopFrom (c * s) (c * s + s) (fun x o => do
        let g ← rd grad.data (at4 BS (R * s) (C * s) CH b y x ch)
        addAt o (at4 BS R C CH b r c ch) g) o) o) o) o) o) z
    pure ⟨t.shape, d⟩
  | _ => ub

/-! ### zero_padding_2d and cropping_2d -/

/-- Top, bottom, left, right. -/
structure Pads where
  top : Nat
  bottom : Nat
  left : Nat
  right : Nat
  deriving DecidableEq, Repr

/-- Extracting and checking the four paddings (include/operation.hpp lines 2827-2845, 2952-2970). -/
def padsOf (padding : List Nat) : Res Pads := do
  let p ← match padding with
    | [a] => ok (Pads.mk a a a a)
    | [a, b] => ok (Pads.mk a a b b)
    | [a, b, c, d] => ok (Pads.mk a b c d)
    | _ => abort
  Res.assert (1 ≤ p.top)
  Res.assert (1 ≤ p.bottom)
  Res.assert (1 ≤ p.left)
  Res.assert (1 ≤ p.right)
  pure p

/-- `zero_padding_2d( padding )`, forward (include/operation.hpp lines 2749-2778): the output is resized but not cleared. -/
def zeroPad [Zero α] (p : Pads) (t cache : Ten α) : Res (Ten α) :=
  match t.shape with
  | [BS, R, C, CH] => do
    let ans := resizeV cache [BS, p.top + R + p.bottom, p.left + C + p.right, CH]
    let d ← loop BS (fun b o => loop R (fun r o => loop C (fun c o => loop CH (fun ch o => do
      let v ← rd t.data (at4 BS R C CH b r c ch)
      wr o (at4 BS (p.top + R + p.bottom) (p.left + C + p.right) CH b (p.top + r) (p.left + c) ch) v) o) o) o) ans.data
    pure ⟨[BS, p.top + R + p.bottom, p.left + C + p.right, CH], d⟩
  | _ => abort

/-- `zero_padding_2d( padding )`, backward (include/operation.hpp lines 2780-2807). -/
def zeroPadBack [Zero α] (p : Pads) (t grad cache : Ten α) : Res (Ten α) :=
  match t.shape with
  | [BS, R, C, CH] => do
    let ans := resizeV cache t.shape
    let z ← Gemm.fillN ans.data.length 0 ans.data
    let d ← loop BS (fun b o => loop R (fun r o => loop C (fun c o => loop CH (fun ch o => do
      let v ← rd grad.data (at4 BS (p.top + R + p.bottom) (p.left + C + p.right) CH b (r + p.top) (c + p.left) ch)
      wr o (at4 BS R C CH b r c ch) v) o) o) o) z
    pure ⟨t.shape, d⟩
  | _ => ub

/-- `cropping_2d( padding )`, forward (include/operation.hpp lines 2870-2903).  The assertions compare unsigned differences, so they
only reject a difference of exactly zero; a negative one wraps around and is outside the model. -/
def crop [Zero α] (p : Pads) (t cache : Ten α) : Res (Ten α) :=
  match t.shape with
  | [BS, R, C, CH] => do
    Res.assert (R ≠ p.top + p.bottom)
    Res.assert (C ≠ p.left + p.right)
    require (p.top + p.bottom ≤ R ∧ p.left + p.right ≤ C)
    let ans := resizeV cache [BS, R - p.top - p.bottom, C - p.left - p.right, CH]
    let d ← loop BS (fun b o => loop (R - p.top - p.bottom) (fun r o => loop (C - p.left - p.right) (fun c o => loop CH (fun ch o => do
      let v ← rd t.data (at4 BS R C CH b (p.top + r) (p.left + c) ch)
      wr o (at4 BS (R - p.top - p.bottom) (C - p.left - p.right) CH b r c ch) v) o) o) o) ans.data
    pure ⟨[BS, R - p.top - p.bottom, C - p.left - p.right, CH], d⟩
  | _ => abort

/-- `cropping_2d( padding )`, backward (include/operation.hpp lines 2905-2932): the sizes are taken from the gradient. -/
def cropBack [Zero α] (p : Pads) (t grad cache : Ten α) : Res (Ten α) :=
  match grad.shape with
  | [BS, R, C, CH] => do
    let ans := resizeV cache t.shape
    let z ← Gemm.fillN ans.data.length 0 ans.data
    let d ← loop BS (fun b o => loop R (fun r o => loop C (fun c o => loop CH (fun ch o => do
      let v ← rd grad.data (at4 BS R C CH b r c ch)
      wr o (at4 BS (R + p.top + p.bottom) (C + p.left + p.right) CH b (r + p.top) (c + p.left) ch) v) o) o) o) z
    pure ⟨t.shape, d⟩
  | _ => ub

/-! ### repeat -/

/-- `repeat( repeats, axis )`, forward (include/operation.hpp lines 3104-3136, 3187); an empty shape underflows. -/
def repeatOp [Zero α] (rep axis : Nat) (t cache : Ten α) : Res (Ten α) := do
  Res.assert (0 < rep)
  if rep = 1 then ok t
  else do
    require (t.shape ≠ [])
    let ax := min axis (t.shape.length - 1)
    let stride := size (t.shape.drop (ax + 1))
    let iterations := size (t.shape.take (ax + 1))
    let n ← rd t.shape ax
    let shape := t.shape.set ax (n * rep)
    let d ← loop iterations (fun it o => loop rep (fun re o =>
      copyTo t.data (it * stride) stride o (at3 iterations rep stride it re 0)) o) (resizeV cache shape).data
    pure ⟨shape, d⟩

/-- `repeat( repeats, axis )`, backward (include/operation.hpp lines 3138-3166). -/
def repeatBack [Zero α] [Add α] (rep axis : Nat) (t grad cache : Ten α) : Res (Ten α) :=
  if rep = 1 then ok grad
  else do
    require (t.shape ≠ [])
    let ax := min axis (t.shape.length - 1)
    let stride := size (t.shape.drop (ax + 1))
    let iterations := size (t.shape.take (ax + 1))
    let ans := resizeV cache t.shape
    let z ← Gemm.fillN ans.data.length 0 ans.data
    let d ← loop iterations (fun it o => loop rep (fun re o => loop stride (fun st o => do
      let g ← rd grad.data (at3 iterations rep stride it re st)
      addAt o (at2 iterations stride false it st) g) o) o) z
    pure ⟨t.shape, d⟩

/-! ### reduce_min, reduce_max, reduce_sum -/

/-- `std::min_element` / `std::max_element` over a column of a 2-D view: the position of the first best element; `better x y`
says that `x` replaces `y` (include/operation.hpp lines 3252-3257, 3387-3392).  An empty column dereferences its end. -/
def colBest (better : α → α → Bool) (d : List α) (base scales stride st : Nat) : Res Nat := do
  require (0 < scales)
  let x0 ← rd d (base + colPos stride st 0)
  let r ← loop scales (fun i (s : α × Nat) => do
    let x ← rd d (base + colPos stride st i)
    if better x s.1 = true then pure (x, i) else pure s) (x0, 0)
  pure r.2

/-- `reduce_min( axis )` (`better x y = (x < y)`) and `reduce_max( axis )` (`better x y = (y < x)`), forward: result and index
tensor (include/operation.hpp lines 3217-3263, 3352-3398). -/
def reduceExt [Zero α] (better : α → α → Bool) (axis : Nat) (t cache : Ten α) (index : Ten Nat) : Res (Ten α × Ten Nat) := do
  require (t.shape ≠ [])
  let ax := min axis (t.shape.length - 1)
  let stride := size (t.shape.drop (ax + 1))
  let iterations := size (t.shape.take ax)
  let scales ← rd t.shape ax
  let shape := t.shape.eraseIdx ax
  let r ← loop iterations (fun it st => loop stride (fun j (st : List α × List Nat) => do
    let k ← colBest better t.data (it * (scales * stride)) scales stride j
    let v ← rd t.data (it * (scales * stride) + colPos stride j k)
    let o ← wr st.1 (at2 iterations stride false it j) v
    let i ← wr st.2 (at2 iterations stride false it j) k
    pure (o, i)) st) ((resizeV cache shape).data, (resizeV index shape).data)
  pure (⟨shape, r.1⟩, ⟨shape, r.2⟩)

/-- `reduce_min( axis )` and `reduce_max( axis )`, backward (include/operation.hpp lines 3265-3301, 3400-3436). -/
def reduceExtBack [Zero α] (axis : Nat) (t grad cache : Ten α) (index : Ten Nat) : Res (Ten α) := do
  require (t.shape ≠ [])
  let ax := min axis (t.shape.length - 1)
  let stride := size (t.shape.drop (ax + 1))
  let iterations := size (t.shape.take ax)
  let scales ← rd t.shape ax
  let idx := resizeV index grad.shape
  let ans := resizeV cache t.shape
  let z ← Gemm.fillN ans.data.length 0 ans.data
  let d ← loop iterations (fun it o => loop stride (fun j o => do
    let k ← rd idx.data (at2 iterations stride false it j)
    let g ← rd grad.data (at2 iterations stride false it j)
    wr o (at3 iterations scales stride it k j) g) o) z
  pure ⟨t.shape, d⟩

/-- `reduce_sum( axis )`, forward (include/operation.hpp lines 3487-3523). -/
def reduceSum [Zero α] [Add α] (axis : Nat) (t cache : Ten α) : Res (Ten α) := do
  require (t.shape ≠ [])
  let ax := min axis (t.shape.length - 1)
  let stride := size (t.shape.drop (ax + 1))
  let iterations := size (t.shape.take ax)
  let scales ← rd t.shape ax
  let shape := t.shape.eraseIdx ax
  let d ← loop iterations (fun it o => loop stride (fun j o => do
    let v ← loop scales (fun i acc => do
      let x ← rd t.data (it * (scales * stride) + colPos stride j i)
      pure (acc + x)) 0
    wr o (at2 iterations stride false it j) v) o) (resizeV cache shape).data
  pure ⟨shape, d⟩

/-- `reduce_sum( axis )`, backward (include/operation.hpp lines 3525-3553). -/
def reduceSumBack [Zero α] (axis : Nat) (t grad cache : Ten α) : Res (Ten α) := do
  require (t.shape ≠ [])
  let ax := min axis (t.shape.length - 1)
  let stride := size (t.shape.drop (ax + 1))
  let iterations := size (t.shape.take ax)
  let scales ← rd t.shape ax
  let ans := resizeV cache t.shape
  let z ← Gemm.fillN ans.data.length 0 ans.data
  let d ← loop iterations (fun it o => loop stride (fun j o => do
    let g ← rd grad.data (at2 iterations stride false it j)
    loop scales (fun i o => wr o (it * (scales * stride) + colPos stride j i) g) o) o) z
  pure ⟨t.shape, d⟩

/-! ### maximum, minimum -/

/-- `maximum( a, b )`, forward (include/operation.hpp lines 2485-2497): result and mask. -/
def maximumFwd [Zero α] [One α] [LT α] [DecidableLT α] (l r cache mask : Ten α) : Res (Ten α × Ten α) := do
  Res.assert (l.shape = r.shape)
  let st ← loop l.data.length (fun i (st : List α × List α) => do
    let x ← rd l.data i
    let y ← rd r.data i
    let m ← wr st.2 i (if y < x then 1 else 0)
    let o ← wr st.1 i (if y < x then x else y)
    pure (o, m)) ((resizeV cache l.shape).data, (resizeV mask l.shape).data)
  pure (⟨l.shape, st.1⟩, ⟨l.shape, st.2⟩)

/-- `minimum( a, b )`, forward (include/operation.hpp lines 2524-2536): result and mask. -/
def minimumFwd [Zero α] [One α] [LT α] [DecidableLT α] (l r cache mask : Ten α) : Res (Ten α × Ten α) := do
  Res.assert (l.shape = r.shape)
  let st ← loop l.data.length (fun i (st : List α × List α) => do
    let x ← rd l.data i
    let y ← rd r.data i
    let m ← wr st.2 i (if y < x then 0 else 1)
    let o ← wr st.1 i (if y < x then y else x)
    pure (o, m)) ((resizeV cache l.shape).data, (resizeV mask l.shape).data)
  pure (⟨l.shape, st.1⟩, ⟨l.shape, st.2⟩)

/-- The common backward loop; `toLeft m` is the test on the mask. -/
def splitGrad [Zero α] (toLeft : α → Bool) (l r grad mask cl cr : Ten α) : Res (Ten α × Ten α) := do
  let st ← loop grad.data.length (fun i (st : List α × List α) => do
    let g ← rd grad.data i
    let m ← rd mask.data i
    let a ← wr st.1 i (if toLeft m = true then g else 0)
    let b ← wr st.2 i (if toLeft m = true then 0 else g)
    pure (a, b)) ((resizeV cl l.shape).data, (resizeV cr r.shape).data)
  pure (⟨l.shape, st.1⟩, ⟨r.shape, st.2⟩)

/-- `maximum`, backward (include/operation.hpp lines 2498-2510): `m > 0.5` goes left. -/
def maximumBack [Field α] [LinearOrder α] (l r grad mask cl cr : Ten α) : Res (Ten α × Ten α) :=
  splitGrad (fun m => decide (1 / 2 < m)) l r grad mask cl cr

/-- `minimum`, backward (include/operation.hpp lines 2537-2549): `m < 0.5` goes left. -/
def minimumBack [Field α] [LinearOrder α] (l r grad mask cl cr : Ten α) : Res (Ten α × Ten α) :=
  splitGrad (fun m => decide (m < 1 / 2)) l r grad mask cl cr

end Verif.Pool
