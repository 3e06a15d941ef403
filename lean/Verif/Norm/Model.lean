import Verif.Data.Model
import Mathlib.Analysis.SpecialFunctions.Sqrt
/-!
# Batch normalisation (model)

`normalization_batch` of `include/operation.hpp` lines 2243-2371.  The state are the six caches the lambdas of one call share; `none` is an
`any` without a value (`include/utils/context_cast.hpp`).  Numbers are reals; tensors are values (the caches are tensors of their own).
-/
namespace Verif.Norm
open Verif Res Data

noncomputable section

/-- The caches (include/operation.hpp lines 2246-2251). -/
structure NSt where
  gAvg : Option (Ten ℝ)
  gVar : Option (Ten ℝ)
  avg : Option (Ten ℝ)
  var : Option (Ten ℝ)
  fwd : Option (Ten ℝ)
  bwd : Option (Ten ℝ)

/-- After the call `normalization_batch( momentum )`. -/
def NSt.new : NSt := ⟨none, none, none, none, none, none⟩

/-- A default-constructed tensor (include/tensor.hpp line 58). -/
def emptyT : Ten ℝ := ⟨[], []⟩

/-- `zeros_like` (include/tensor.tcc lines 982-986). -/
def zerosLike (t : Ten ℝ) : Ten ℝ := ⟨t.shape, List.replicate (size t.shape) 0⟩

/-- `context_cast` (include/utils/context_cast.hpp lines 10-18): the cached tensor, or the given one. -/
def ctx (c : Option (Ten ℝ)) (init : Ten ℝ) : Ten ℝ := c.getD init

/-- `context_extract` (include/utils/context_cast.hpp lines 20-27). -/
def extract : Option (Ten ℝ) → Res (Ten ℝ)
  | some t => ok t
  | none => abort

/-- `tensor.resize( {channels,} )` and `std::fill` with zeros (include/operation.hpp lines 2298-2299, 2311-2312). -/
def cleared (c : Option (Ten ℝ)) (channels : Nat) : List ℝ := (resizeV (ctx c emptyT) [channels]).data.map (fun _ => 0)

/-- Adding up a number for every row, channel by channel (include/operation.hpp lines 2301-2303, 2313-2315). -/
def chanSum (rows channels : Nat) (f : Nat → Nat → Res ℝ) (out : List ℝ) : Res (List ℝ) :=
  loop rows (fun i o => loop channels (fun j o => do
    let v ← f i j
    addAt o j v) o) out

/-- `operator /=` with a number (include/tensor.hpp lines 454-458). -/
def divAll (x : ℝ) (out : List ℝ) : Res (List ℝ) :=
  loop out.length (fun i o => do
    let v ← rd o i
    wr o i (v / x)) out

/-- `( input - average ) / sqrt( variance + eps )` (include/operation.hpp lines 2288-2290, 2325-2327). -/
def normalise (eps : ℝ) (rows channels : Nat) (input avg var out : List ℝ) : Res (List ℝ) :=
  loop rows (fun i o => loop channels (fun j o => do
    let x ← rd input (i * channels + j)
    let a ← rd avg j
    let v ← rd var j
    wr o (i * channels + j) ((x - a) / √(v + eps))) o) out

/-- The running averages (include/operation.hpp lines 2338-2342); the loop runs over the size of the first. -/
def running (momentum : ℝ) (avg : List ℝ) (g : List ℝ) (n : Nat) : Res (List ℝ) :=
  loop n (fun i g => do
    let x ← rd g i
    let a ← rd avg i
    wr g i (x * momentum + a * (1 - momentum))) g

/-- Forward action (include/operation.hpp lines 2258-2346). -/
def forward (phase : Int) (eps momentum : ℝ) (input : Ten ℝ) (s : NSt) : Res (Ten ℝ × NSt) := do
  Res.assert (1 < input.shape.length)
  let channels := input.shape.getLastD 0
  require (channels ≠ 0)
  let rows := input.data.length / channels
  if phase = 0 then do
    let gA := ctx s.gAvg emptyT
    let s := { s with gAvg := some gA }
    if gA.data = [] then ok (input, s)
    else do
      let gV ← extract s.gVar
      let ans := resizeV (ctx s.fwd (zerosLike input)) input.shape
      let d ← normalise eps rows channels input.data gA.data gV.data ans.data
      pure (⟨input.shape, d⟩, { s with fwd := some ⟨input.shape, d⟩ })
  else do
    let avg ← chanSum rows channels (fun i j => rd input.data (i * channels + j)) (cleared s.avg channels)
    let avg ← divAll rows avg
    let var ← chanSum rows channels (fun i j => do
      let x ← rd input.data (i * channels + j)
      let a ← rd avg j
      pure ((x - a) ^ 2)) (cleared s.var channels)
    let var ← divAll rows var
    let ans := resizeV (ctx s.fwd emptyT) input.shape
    let d ← normalise eps rows channels input.data avg var ans.data
    let gA := ctx s.gAvg ⟨[channels], List.replicate channels 0⟩
    let gV := ctx s.gVar ⟨[channels], List.replicate channels 0⟩
    let gA' ← running momentum avg gA.data gA.data.length
    let gV' ← running momentum var gV.data gA.data.length
    pure (⟨input.shape, d⟩, { s with gAvg := some ⟨gA.shape, gA'⟩, gVar := some ⟨gV.shape, gV'⟩, avg := some ⟨[channels], avg⟩,
                                     var := some ⟨[channels], var⟩, fwd := some ⟨input.shape, d⟩ })

/-- Backward action (include/operation.hpp lines 2348-2364); the cache is not resized. -/
def backward (eps : ℝ) (input grad : Ten ℝ) (s : NSt) : Res (Ten ℝ × NSt) := do
  let var ← extract s.var
  require (input.shape ≠ [])
  let channels := input.shape.getLastD 0
  require (channels ≠ 0)
  let rows := input.data.length / channels
  let ans := ctx s.bwd (zerosLike input)
  let d ← loop rows (fun i o => loop channels (fun j o => do
    let g ← rd grad.data (i * channels + j)
    let v ← rd var.data j
    wr o (i * channels + j) (g / √(v + eps))) o) ans.data
  pure (⟨ans.shape, d⟩, { s with bwd := some ⟨ans.shape, d⟩ })

end
end Verif.Norm
