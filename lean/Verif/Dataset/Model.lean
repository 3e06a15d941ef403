import Verif.Data.Model
/-!
# Loading MNIST (model)

`include/dataset.hpp` lines 44-63 and, the same, 115-134 (`fashion_mnist`).  Files are lists of bytes.
-/
namespace Verif.Dataset
open Verif Res View Data

/-- `extract_image` (include/dataset.hpp lines 44-51, 115-122).  A file of fewer than 16 bytes makes `image_data.size()-offset` wrap around: the tensor
cannot be allocated; here this is undefined behaviour. -/
def extractImage (file : List UInt8) : Res (Ten UInt8) := do
  require (16 ≤ file.length)
  let samples := (file.length - 16) / (28 * 28)
  let d ← copyTo file 16 (file.length - 16) (List.replicate (size [samples, 28, 28]) 0) 0
  pure ⟨[samples, 28, 28], d⟩

/-- `extract_label` (include/dataset.hpp lines 53-63, 124-134); `ans_2d[r][c]` is element `r * 10 + c` (include/utils/view.hpp lines 27-36).  Files of
fewer than 8 bytes as above. -/
def extractLabel (file : List UInt8) : Res (Ten UInt8) := do
  require (8 ≤ file.length)
  let samples := file.length - 8
  let d ← loop samples (fun idx d => do
    let label ← rd file (idx + 8)
    wr d (idx * 10 + label.toNat) 1) (List.replicate (size [samples, 10]) 0)
  pure ⟨[samples, 10], d⟩

end Verif.Dataset
