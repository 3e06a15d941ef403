import Verif.Gemm.Spec
/-!
# The CUDA path of the matrix product (model)

`include/backend/cuda.hpp` lines 211-333 (copies, allocation, `cuda_memory_cache`) and 388-439 (`cuda_gemm`), `include/tensor.tcc` lines 460-551
(`update_cuda_gemm_threshold`, `gemm`), with `cuda_mode = 1`.  The device is a list of blocks of bytes, in which elements of `w` bytes are written and read as such;
reading bytes that were not written as one element is undefined.  Sizes are 64-bit, the sizes handed to cuBLAS 32-bit.  Elements of both widths are taken from one
type `α`.  Not modelled: the cuBLAS handle and the choice of the device (lines 366-386), alignment, the time calls take (an oracle), and the order in which the two
static objects are destroyed.
-/
namespace Verif.Cuda
open Verif Res

variable {α : Type}

/-- A block of device memory: the elements that start at each byte, with their width. -/
structure Block (α : Type) where
  bytes : Nat
  cells : Nat → Option (Nat × α)

/-- The device and the one `cuda_memory_cache` (include/backend/cuda.hpp lines 289-294): all blocks handed out so far (`none`: released), `data_` (`none`: null or
indeterminate) and `size_`. -/
structure Dev (α : Type) where
  blocks : List (Option (Block α))
  data : Option Nat
  size : Nat

/-- 64-bit arithmetic. -/
def wrap (n : Nat) : Nat := n % 2 ^ 64

/-- `cudaMalloc` : whether the request of so many bytes is granted, given how many were granted before. -/
abbrev Grant := Nat → Nat → Bool

/-- `allocate` (include/backend/cuda.hpp lines 257-264): the result of `cudaMalloc` is not looked at; if it fails, the pointer returned is indeterminate. -/
def allocate (grant : Grant) (w n : Nat) (d : Dev α) : Dev α :=
  if grant d.blocks.length (wrap (n * w)) = true then
    { d with blocks := d.blocks ++ [some ⟨wrap (n * w), fun _ => none⟩], data := some d.blocks.length }
  else { d with data := none }

/-- `deallocate( data_ )` (include/backend/cuda.hpp lines 266-271): what is no live block cannot be released. -/
def deallocate (d : Dev α) : Res (Dev α) :=
  match d.data with
  | none => ub
  | some i =>
    match d.blocks[i]? with
    | some (some _) => ok { d with blocks := d.blocks.set i none }
    | _ => ub

/-- `if ( size_ > 0 ) deallocate( data_ );` (include/backend/cuda.hpp lines 308-309, 326-327). -/
def release (d : Dev α) : Res (Dev α) := if 0 < d.size then deallocate d else ok d

/-- `cuda_memory_cache::reserve` (include/backend/cuda.hpp lines 296-314). -/
def reserve (grant : Grant) (w len : Nat) (d : Dev α) : Res (Dev α) :=
  let need := wrap (len * w)
  if need ≤ d.size then ok d
  else do
    let bytes := wrap ((1 + wrap (need + d.size) / 2 ^ 20) * 2 ^ 20)
    let d ← release d
    let d := allocate grant w (bytes / w) d
    pure { d with size := bytes }

/-- `~cuda_memory_cache` (include/backend/cuda.hpp lines 322-331). -/
def destroy (d : Dev α) : Res (Dev α) := do
  let d ← release d
  pure { d with size := 0, data := none }

/-- Writing an element: what it overlaps is gone. -/
def put (w p : Nat) (v : α) (b : Block α) : Res (Block α) := do
  require (p + w ≤ b.bytes)
  pure { b with cells := fun q => if q = p then some (w, v) else
    match b.cells q with
    | some (u, x) => if q < p + w ∧ p < q + u then none else some (u, x)
    | none => none }

/-- Reading an element. -/
def get (w p : Nat) (b : Block α) : Res α :=
  match b.cells p with
  | some (u, v) => if u = w then ok v else ub
  | none => ub

/-- `host_to_device_n` (include/backend/cuda.hpp lines 211-216): `n` elements, to byte `p` of the block. -/
def copyIn (w n p : Nat) (src : List α) (b : Block α) : Res (Block α) :=
  loop n (fun i b => do
    let v ← rd src i
    put w (p + i * w) v b) b

/-- `device_to_host_n` (include/backend/cuda.hpp lines 228-233). -/
def copyOut (w n p : Nat) (b : Block α) (dst : List α) : Res (List α) :=
  loop n (fun i o => do
    let v ← get w (p + i * w) b
    wr o i v) dst

/-- `int x = n` for an `std::size_t n`. -/
def toInt (n : Nat) : Int := if n % 2 ^ 32 < 2 ^ 31 then ((n % 2 ^ 32 : Nat) : Int) else ((n % 2 ^ 32 : Nat) : Int) - 2 ^ 32

/-- Arguments of one call of `cublasSgemm_v2` (`width` 4) or `cublasDgemm_v2` (`width` 8) (include/backend/cuda.hpp lines 357-360); the pointers are bytes of the
block.  `alpha`, `beta` are 1 and 0. -/
structure Call where
  width : Nat
  transA : Bool
  transB : Bool
  M : Int
  N : Int
  K : Int
  A : Nat
  lda : Int
  B : Nat
  ldb : Int
  C : Nat
  ldc : Int

/-- The call `cuda_gemm` makes (include/backend/cuda.hpp lines 398-430): the operands are exchanged, and lie behind each other in the block. -/
def gemmCall (w : Nat) (aT bT : Bool) (m n k : Nat) : Call :=
  { width := w, transA := bT, transB := aT, M := toInt k, N := toInt m, K := toInt n,
    A := w * (m * n), lda := toInt (if bT then n else k),
    B := 0, ldb := toInt (if aT then m else n),
    C := w * (m * n + n * k), ldc := toInt k }

/-- `cuda_gemm` for elements of `w` bytes (include/backend/cuda.hpp lines 388-439).  `cublas` is the library called, on the block of the cache; it stops the program if
it does not report success (lines 144-157). -/
def cudaGemm (grant : Grant) (cublas : Call → Block α → Res (Block α)) (w : Nat) (A : List α) (aT : Bool) (B : List α) (bT : Bool) (m n k : Nat) (C : List α)
    (d : Dev α) : Res (List α × Dev α) := do
  let d ← reserve grant w (wrap (m * n + n * k + m * k)) d
  match d.data with
  | none => ub
  | some i =>
    match d.blocks[i]? with
    | some (some b) => do
      let b ← copyIn w (m * n) 0 A b
      let b ← copyIn w (n * k) (w * (m * n)) B b
      let b ← cublas (gemmCall w aT bT m n k) b
      let C ← copyOut w (m * k) (w * (m * n + n * k)) b C
      pure (C, { d with blocks := d.blocks.set i (some b) })
    | _ => ub

/-- The global state of the products: the device, and `cuda_gemm_threshold` (include/config.hpp line 55). -/
structure Env (α : Type) where
  dev : Dev α
  threshold : Nat

/-- The search of `update_cuda_gemm_threshold` (include/tensor.tcc lines 478-492, 500-514): squares of growing size are multiplied, until the processor is slower than
the device; `slower dim` is what the clock says.  At most `fuel` rounds are run; a search that needs more of them for every `fuel` never ends. -/
def search [Zero α] (grant : Grant) (cublas : Call → Block α → Res (Block α)) (slower : Nat → Bool) : Nat → Nat → Dev α → Res (Nat × Dev α)
  | 0, _, _ => ub
  | fuel + 1, dim, d => do
    let z : List α := List.replicate (dim * dim) 0
    let (_, d) ← cudaGemm grant cublas 4 z false z false dim dim dim z d
    if slower dim = true then ok (dim, d) else search grant cublas slower fuel (dim + 16) d

/-- `update_cuda_gemm_threshold` (include/tensor.tcc lines 460-521). -/
def updateThreshold [Zero α] (grant : Grant) (cublas : Call → Block α → Res (Block α)) (slower : Nat → Bool) (fuel : Nat) (e : Env α) : Res (Env α) := do
  let z : List α := List.replicate (128 * 128) 0
  let (_, d) ← cudaGemm grant cublas 4 z false z false 128 128 128 z e.dev
  let (dim, d) ← search grant cublas slower fuel 16 d
  pure ⟨d, wrap (dim * dim * dim)⟩

/-- `gemm` (include/tensor.tcc lines 525-552): `host` is the product on the processor, `gemm_cpu` or `cblas_gemm`. -/
def gemm [Zero α] (grant : Grant) (cublas : Call → Block α → Res (Block α)) (slower : Nat → Bool) (fuel : Nat)
    (host : List α → Bool → List α → Bool → Nat → Nat → Nat → List α → Res (List α)) (w : Nat) (A : List α) (aT : Bool) (B : List α) (bT : Bool) (m n k : Nat) (C : List α)
    (e : Env α) : Res (List α × Env α) := do
  let e ← if e.threshold = 0 then updateThreshold grant cublas slower fuel e else ok e
  if e.threshold ≤ wrap (m * n * k) then do
    let (C, d) ← cudaGemm grant cublas w A aT B bT m n k C e.dev
    pure (C, { e with dev := d })
  else do
    let C ← host A aT B bT m n k C
    pure (C, e)

end Verif.Cuda
