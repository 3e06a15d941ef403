import Verif.Conv.Spec
import Verif.Data.Model
import Verif.Gemm.Model
/-!
# img2col and conv2d (model)

`include/operation.hpp` lines 1525-1762.  The 32-bit record of image positions that an `img2col` operator keeps between runs is
part of the state.  Simplified: sizes are natural numbers, so the unsigned differences in the output extents do not wrap; a
geometry for which they would is rejected as undefined (`require`).  The signed 64-bit positions are integers.
-/
namespace Verif.Conv
open Verif Res View Data

variable {α : Type}

/-- The marker for padding in the record, `0xffffffff` (include/operation.hpp lines 1583, 1610, 1625). -/
def mark : Nat := 2 ^ 32 - 1

/-- `std::vector::resize` (include/operation.hpp line 1562): keeps the prefix, fills with zero. -/
def stdResize (l : List Nat) (n : Nat) : List Nat := l.take n ++ List.replicate (n - l.length) 0

/-- One entry of the record, including the conversion to 32 bits (include/operation.hpp lines 1570-1583). -/
def recEntry (g : Geo) (R C CH bs c h w : Nat) : Nat :=
  let wOff := c % g.kc
  let hOff := (c / g.kc) % g.kr
  let cIm := c / (g.kc * g.kr)
  let y : Int := (h * g.sr : Int) - g.pr + hOff * g.dr
  let x : Int := (w * g.sc : Int) - g.pc + wOff * g.dc
  if y < 0 ∨ y ≥ R ∨ x < 0 ∨ x ≥ C then mark
  else (((bs * R * C * CH : Nat) + (y * C + x) * CH + cIm) % (2 ^ 32)).toNat

/-- Computing the record (include/operation.hpp lines 1560-1605): the loop nest over batch, matrix row and output position, then
the re-arrangement `[bs, row, position]` to `[row, bs, position]` through a second vector. -/
def buildRecord (g : Geo) (BS R C CH : Nat) (rec : List Nat) : Res (List Nat) := do
  let oR := outDim R g.kr g.pr g.sr g.dr
  let oC := outDim C g.kc g.pc g.sc g.dc
  let K := g.kr * g.kc * CH
  let rec ← loop BS (fun bs o => loop (CH * g.kr * g.kc) (fun c o => loop oR (fun h o => loop oC (fun w o =>
    wr o (bs * oR * oC * g.kr * g.kc * CH + (c * oR + h) * oC + w) (recEntry g R C CH bs c h w)) o) o) o)
    (stdResize rec (K * (BS * oR * oC)))
  let tmp ← loop BS (fun bs o => loop K (fun r o => loop (oR * oC) (fun c o => do
    let x ← rd rec (at3 BS K (oR * oC) bs r c)
    wr o (at3 K BS (oR * oC) r bs c) x) o) o) (List.replicate rec.length 0)
  loop tmp.length (fun i o => do let x ← rd tmp i; wr o i x) rec

/-- Filling the matrix from the record (include/operation.hpp lines 1608-1612). -/
def fillFrom [Zero α] (rec : List Nat) (img : List α) (out : List α) : Res (List α) :=
  loop out.length (fun i o => do
    let q ← rd rec i
    let v ← if q = mark then ok 0 else rd img q
    wr o i v) out

/-- Recomputing the record if its length changes (include/operation.hpp line 1560). -/
def updRecord (g : Geo) (BS R C CH : Nat) (rec : List Nat) : Res (List Nat) :=
  if rec.length ≠ g.kr * g.kc * CH * (BS * outDim R g.kr g.pr g.sr g.dr * outDim C g.kc g.pc g.sc g.dc) then
    buildRecord g BS R C CH rec
  else ok rec

/-- `img2col`, forward (include/operation.hpp lines 1534-1613, 1634-1639): from the input, the tensor in `output_cache` and the
record to the result and the new record. -/
def img2col [Zero α] (g : Geo) (t cache : Ten α) (rec : List Nat) : Res (Ten α × List Nat) :=
  match t.shape with
  | [BS, R, C, CH] => do
    require (1 ≤ g.kr ∧ 1 ≤ g.kc ∧ 1 ≤ g.sr ∧ 1 ≤ g.sc ∧ g.dr * (g.kr - 1) + 1 ≤ R + 2 * g.pr ∧ g.dc * (g.kc - 1) + 1 ≤ C + 2 * g.pc)
    let oR := outDim R g.kr g.pr g.sr g.dr
    let oC := outDim C g.kc g.pc g.sc g.dc
    let shape := [g.kr * g.kc * CH, BS * oR * oC]
    let rec' ← updRecord g BS R C CH rec
    let d ← fillFrom rec' t.data (resizeV cache shape).data
    pure (⟨shape, d⟩, rec')
  | _ => abort

/-- `img2col`, backward (include/operation.hpp lines 1615-1629). -/
def img2colBack [Zero α] [Add α] (input grad cache : Ten α) (rec : List Nat) : Res (Ten α) := do
  let ans := resizeV cache input.shape
  let z ← Gemm.fillN ans.data.length 0 ans.data
  let d ← loop grad.data.length (fun i o => do
    let q ← rd rec i
    if q ≠ mark then do
      let x ← rd grad.data i
      addAt o q x
    else ok o) z
  pure ⟨input.shape, d⟩

/-- The operator `reshape( new_shape )` with the batch dimension in front, forward (include/operation.hpp lines 1121-1147). -/
def reshapeOp [Zero α] (shape : List Nat) (t : Ten α) : Res (Ten α) := do
  require (size shape ≠ 0)
  let bs := t.data.length / size shape
  Res.assert (bs * size shape = t.data.length)
  reshapeV t (bs :: shape)

/-- What `conv2d` and `general_conv2d` compute once the paddings are known (include/operation.hpp lines 1693-1705, 1745-1757):
`img2col`, reshape of the filter, matrix product, transpose, reshape.  `rowIn`, `colIn` are the extents the output shape is
computed from; the column extent is computed with the row padding. -/
def convWith [Zero α] [Add α] [Mul α] (g : Geo) (rowIn colIn : Nat) (t filter cache cacheT : Ten α) (rec : List Nat) :
    Res (Ten α × List Nat) :=
  match filter.shape with
  | [NC, _, _, CH] => do
    let c ← img2col g t cache rec
    let f ← reshapeOp [g.kr * g.kc * CH] filter
    match f.shape, c.1.shape with
    | [f0, f1], [c0, c1] => do
      let d ← Gemm.gemmView f.data f0 f1 c.1.data c0 c1 (List.replicate (f0 * c1) 0) f0 c1
      let tr ← transposeInto cacheT ⟨[f0, c1], d⟩
      require (g.dr * (g.kr - 1) + 1 ≤ rowIn + 2 * g.pr ∧ g.dc * (g.kc - 1) + 1 ≤ colIn + 2 * g.pr)
      let o ← reshapeOp [outDim rowIn g.kr g.pr g.sr g.dr, outDim colIn g.kc g.pr g.sc g.dc, NC] tr
      pure (o, c.2)
    | _, _ => abort
  | _ => abort

/-- Total padding in one direction for `padding == "same"` (include/operation.hpp lines 1684, 1686, 1738, 1739); a negative
total wraps around and is outside the model. -/
def sameTotal (k d s : Nat) : Res Nat := do
  require (1 ≤ k ∧ 1 ≤ d ∧ s ≤ k + (k - 1) * (d - 1))
  pure (k + (k - 1) * (d - 1) - s)

/-- Padding for `"same"` (include/operation.hpp lines 1688-1689, 1740-1741). -/
def samePad (k total : Nat) : Nat := (k % 2 + total) / 2

/-- The geometry `conv2d` uses for padding "same" (include/operation.hpp lines 1682-1690): totals must be even. -/
def sameGeo (kr kc sr sc dr dc : Nat) : Res Geo := do
  let tr ← sameTotal kr dr sr
  Res.assert (tr % 2 = 0)
  let tc ← sameTotal kc dc sc
  Res.assert (tc % 2 = 0)
  pure ⟨kr, kc, samePad kr tr, samePad kc tc, sr, sc, dr, dc⟩

/-- The geometry `general_conv2d` uses for padding "same" (include/operation.hpp lines 1736-1742): no assertions. -/
def sameGeoGeneral (kr kc sr sc dr dc : Nat) : Res Geo := do
  let tr ← sameTotal kr dr sr
  let tc ← sameTotal kc dc sc
  pure ⟨kr, kc, samePad kr tr, samePad kc tc, sr, sc, dr, dc⟩

/-- `conv2d( row_input, col_input, ..., padding )( lhs, rhs )`, forward (include/operation.hpp lines 1660-1707). -/
def conv2d [Zero α] [Add α] [Mul α] (rowIn colIn sr sc dr dc : Nat) (same : Bool) (t filter cache cacheT : Ten α) (rec : List Nat) :
    Res (Ten α × List Nat) :=
  match filter.shape with
  | [_, kr, kc, _] =>
    if same = true then do
      let g ← sameGeo kr kc sr sc dr dc
      convWith g rowIn colIn t filter cache cacheT rec
    else convWith ⟨kr, kc, 0, 0, sr, sc, dr, dc⟩ rowIn colIn t filter cache cacheT rec
  | _ => abort

/-- `general_conv2d( ... )( lhs, rhs )`, forward (include/operation.hpp lines 1713-1762); the expression's shape is the shape of
its value. -/
def generalConv2d [Zero α] [Add α] [Mul α] (sr sc dr dc : Nat) (same : Bool) (t filter cache cacheT : Ten α) (rec : List Nat) :
    Res (Ten α × List Nat) :=
  match t.shape, filter.shape with
  | [_, R, C, _], [_, kr, kc, _] =>
    if same = true then do
      let g ← sameGeoGeneral kr kc sr sc dr dc
      convWith g R C t filter cache cacheT rec
    else convWith ⟨kr, kc, 0, 0, sr, sc, dr, dc⟩ R C t filter cache cacheT rec
  | _, _ => abort

end Verif.Conv
