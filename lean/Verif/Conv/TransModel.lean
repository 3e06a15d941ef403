import Verif.Conv.Model
/-!
# conv2d_transpose (model)

`include/operation.hpp` lines 1764-1876 (`conv2d_tranpose_intermediate`, `conv2d_transpose`).  Simplified: the extents are natural
numbers, so `row_kernel * 2 - 2` does not wrap; a kernel without rows or columns is rejected as undefined.  The string `padding` is a
`Bool`, `true` for anything but `"valid"` in the intermediate operator and for `"same"` in `general_conv2d`; other strings are
outside the model.
-/
namespace Verif.Conv
open Verif Res View Data

variable {α : Type}

/-- The extents of the spread image (include/operation.hpp lines 1779-1788). -/
def spreadDim (n k s : Nat) (same : Bool) : Nat := if same = true then n * s else n * s + (k * 2 - 2)

/-- Where the first pixel goes (include/operation.hpp lines 1810-1811, 1838-1839). -/
def spreadOff (k : Nat) (same : Bool) : Nat := if same = true then 0 else k - 1

/-- `conv2d_tranpose_intermediate`, forward (include/operation.hpp lines 1795-1821). -/
def spread [Zero α] (kr kc sr sc : Nat) (same : Bool) (t cache : Ten α) : Res (Ten α) :=
  match t.shape with
  | [BS, R, C, CH] => do
    require (1 ≤ kr ∧ 1 ≤ kc)
    let H := spreadDim R kr sr same
    let W := spreadDim C kc sc same
    let ans := resizeV cache [BS, H, W, CH]
    let z ← Gemm.fillN ans.data.length 0 ans.data
    let d ← loop BS (fun b o => loop R (fun r o => loop C (fun c o => loop CH (fun ch o => do
      let v ← rd t.data (at4 BS R C CH b r c ch)
      wr o (at4 BS H W CH b (spreadOff kr same + r * sr) (spreadOff kc same + c * sc) ch) v) o) o) o) z
    pure ⟨[BS, H, W, CH], d⟩
  | _ => ub

/-- `conv2d_tranpose_intermediate`, backward (include/operation.hpp lines 1822-1850). -/
def spreadBack [Zero α] (kr kc sr sc : Nat) (same : Bool) (t grad cache : Ten α) : Res (Ten α) :=
  match t.shape, grad.shape with
  | [BS, R, C, CH], [_, H, W, _] => do
    require (1 ≤ kr ∧ 1 ≤ kc)
    let ans := resizeV cache t.shape
    let d ← loop BS (fun b o => loop R (fun r o => loop C (fun c o => loop CH (fun ch o => do
      let v ← rd grad.data (at4 BS H W CH b (spreadOff kr same + r * sr) (spreadOff kc same + c * sc) ch)
      wr o (at4 BS R C CH b r c ch) v) o) o) o) ans.data
    pure ⟨t.shape, d⟩
  | _, _ => ub

/-- What the operators of one `conv2d_transpose` keep between runs. -/
structure TCache (α : Type) where
  spread : Ten α
  flip1 : Ten α
  flip2 : Ten α
  col : Ten α
  tr : Ten α
  record : List Nat

/-- `conv2d_transpose( row_kernel, col_kernel, ... )( lhs, rhs )`, forward (include/operation.hpp lines 1857-1876): the image is
spread out, the filter flipped along its axes 2 and 1, and `general_conv2d` applied with the same strides. -/
def conv2dTranspose [Zero α] [Add α] [Mul α] (kr kc sr sc dr dc : Nat) (same : Bool) (t filter : Ten α) (k : TCache α) :
    Res (Ten α × List Nat) := do
  let u ← spread kr kc sr sc same t k.spread
  let f ← flipInto filter 2 k.flip2
  let f ← flipInto f 1 k.flip1
  generalConv2d sr sc dr dc same u f k.col k.tr k.record

end Verif.Conv
