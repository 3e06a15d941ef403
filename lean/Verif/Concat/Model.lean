import Verif.Data.Move
import Verif.Graph.Model
/-!
# The operator concatenate (model)

`include/operation.hpp` lines 2392-2474.
-/
namespace Verif.Concat
open Verif Res View Data

variable {α : Type}

/-- The range `{ x.shape().begin()+ax, x.shape().end() }` (include/operation.hpp line 2414).  `shape()` returns by value (include/tensor.hpp line 292), so the two iterators
belong to different temporaries.  `benign = true` is the reading the author intended (one object). -/
def tempTail (benign : Bool) (s : List Nat) (ax : Nat) : Res (List Nat) := do
  require (ax ≤ s.length)
  require (benign = true ∨ s = [])
  pure (s.drop ax)

/-- The backward action (include/operation.hpp lines 2403-2435). -/
def concatBackB [Zero α] (benign : Bool) (axe : Nat) (l r grad : Ten α) : Res (Ten α × Ten α) := do
  let la := List.replicate (size l.shape) (0 : α)
  let ra := List.replicate (size r.shape) (0 : α)
  Res.assert (la.length + ra.length = grad.data.length)
  let ax := if axe = minusOne then grad.shape.length - 1 else axe
  let tail ← tempTail benign grad.shape ax
  let gc := size tail
  require (gc ≠ 0)
  let gr := grad.data.length / gc
  require (gr ≠ 0)
  let lc := l.data.length / gr
  let rc := r.data.length / gr
  Res.assert (gc = lc + rc)
  let (la, ra) ← loop gr (fun i o => do
    let x ← copyTo grad.data (i * gc) lc o.1 (i * lc)
    let y ← copyTo grad.data (i * gc + lc) (gc - lc) o.2 (i * rc)
    pure (x, y)) (la, ra)
  pure (⟨l.shape, la⟩, ⟨r.shape, ra⟩)

/-- The operator as compiled (include/operation.hpp lines 2393-2448). -/
def opConcat [Zero α] (axe : Nat) : Graph.BOp α := ⟨fun l r => concatenate l r axe, fun l r _ g => concatBackB false axe l r g⟩

/-- The shape calculator (include/operation.hpp lines 2437-2445). -/
def concatShape (axe : Nat) (l r : List Nat) : Res (List Nat) := do
  Res.assert (l.length = r.length)
  let ax := if l.length < axe then l.length - 1 else axe
  let x ← rd l ax
  let y ← rd r ax
  wr l ax (x + y)

end Verif.Concat
