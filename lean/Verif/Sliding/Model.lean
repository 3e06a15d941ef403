import Verif.Pool.Model
/-!
# sliding_2d (model)

`include/operation.hpp` lines 2996-3098.  The tensor of shifts in `shift_cache` shares its storage with the local copy `shifts`
(include/tensor.hpp lines 108-145), so writing to the copy writes to the cache; the cached tensor's own shape is never used.
-/
namespace Verif.Sliding
open Verif Res View Data Pool

variable {α : Type}

/-- The sum of an `unsigned long` and a `long`. -/
def wrap (z : Int) : Nat := (z % 2 ^ 64).toNat

/-- The copying loops of both passes (include/operation.hpp lines 3029-3046, 3063-3080): position `( r, c )` receives what lies at
`( r + sgn * row_shift, c + sgn * col_shift )`.  The differences are of type `unsigned long`, so the tests `>= 0` are always true. -/
def pass (sgn : Int) (shifts : List Int) (BS R C CH : Nat) (src out : List α) : Res (List α) :=
  loop BS (fun bs o => loop CH (fun ch o => do
    let rs ← rd shifts (at2 CH 2 false ch 0)
    let cs ← rd shifts (at2 CH 2 false ch 1)
    loop R (fun r o =>
      if wrap (r + sgn * rs) < R then
        loop C (fun c o =>
          if wrap (c + sgn * cs) < C then do
            let v ← rd src (at4 BS R C CH bs (wrap (r + sgn * rs)) (wrap (c + sgn * cs)) ch)
            wr o (at4 BS R C CH bs r c ch) v
          else ok o) o
      else ok o) o) o) out

/-- `detailed_sliding_2d`, forward (include/operation.hpp lines 3004-3049): result and storage of the shifts; `draw k` is the `k`-th
random number.  Ranks other than four are outside the model. -/
def slideFwd [Zero α] (phase : Int) (draw : Nat → Int) (t cache : Ten α) (shifts : List Int) : Res (Ten α × List Int) :=
  if phase ≠ 1 then ok (t, shifts)
  else match t.shape with
    | [BS, R, C, CH] => do
      let start := if shifts.length = size [CH, 2] then shifts else List.replicate (size [CH, 2]) 0
      let sh ← loop start.length (fun k o => wr o k (draw k)) start
      let ans := resizeV cache t.shape
      let z ← Gemm.fillN ans.data.length 0 ans.data
      let d ← pass (-1) sh BS R C CH t.data z
      pure (⟨t.shape, d⟩, sh)
    | _ => ub

/-- `detailed_sliding_2d`, backward (include/operation.hpp lines 3050-3083): the learning phase is not looked at. -/
def slideBack [Zero α] (grad cache : Ten α) (shifts : List Int) : Res (Ten α) :=
  match grad.shape with
  | [BS, R, C, CH] => do
    let ans := resizeV cache grad.shape
    let z ← Gemm.fillN ans.data.length 0 ans.data
    let d ← pass 1 shifts BS R C CH grad.data z
    pure ⟨grad.shape, d⟩
  | _ => ub

/-- What one forward pass of `sliding_2d` leaves behind. -/
structure Trace (α : Type) where
  padded : Ten α
  slid : Ten α
  out : Ten α
  shifts : List Int

/-- `sliding_2d( pixels )`, forward: pad, slide, crop (include/operation.hpp lines 3088-3098); `cp`, `cs`, `cc` are the tensors in the
forward caches of the three operators. -/
def slidingFwd [Zero α] (phase : Int) (pixels : Nat) (draw : Nat → Int) (t cp cs cc : Ten α) (shifts : List Int) : Res (Trace α) := do
  let p ← padsOf [pixels]
  let a ← zeroPad p t cp
  let b ← slideFwd phase draw a cs shifts
  let c ← crop p b.1 cc
  pure ⟨a, b.1, c, b.2⟩

/-- `sliding_2d( pixels )`, backward. -/
def slidingBack [Zero α] (pixels : Nat) (t : Ten α) (tr : Trace α) (grad cp cs cc : Ten α) : Res (Ten α) := do
  let p ← padsOf [pixels]
  let a ← cropBack p tr.slid grad cc
  let b ← slideBack a cs tr.shifts
  zeroPadBack p t b cp

end Verif.Sliding
