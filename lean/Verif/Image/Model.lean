import Verif.Data.Model
import Mathlib.Algebra.Order.Floor.Defs
import Mathlib.Algebra.Order.Field.Basic

/-!
# Pictures in files (model)

`include/utils/imageio.hpp`.  The files are a table from names to pictures; the reading, writing and scaling of pictures by the bundled library
(include/utils/3rd_party) is an argument of the model, used through its documentation.  Bytes are naturals.  Simplified: sizes are below 2^31, so that their conversion
to `int` (lines 48-50) keeps them; the scaling of `imwrite` is in exact arithmetic.
-/
namespace Verif.Image
open Verif Res

/-- What a file holds, in the order of the library: `h` lines of `w` pixels of `ch` bytes
(include/utils/3rd_party/stb_image.h lines 148-154). -/
structure Img where
  w : Nat
  h : Nat
  ch : Nat
  bytes : List Nat
  deriving DecidableEq, Repr

/-- The files by name. -/
abbrev Files := List Char → Option Img

/-- The formats `direct_imwrite` writes (include/utils/imageio.hpp lines 62-75). -/
inductive Format where
  | png | bmp | tga | jpg | hdr
  deriving DecidableEq, Repr

/-- What the library does when it is asked to write a picture: what a file in that format then reads back as, or failure
(include/utils/3rd_party/stb_image_write.h lines 77-84). -/
abbrev Store := Format → Img → Option Img

/-- `imread( path )` (include/utils/imageio.hpp lines 29-39). -/
def imread (files : Files) (path : List Char) : Res (Ten Nat) :=
  match files path with
  | none => ok ⟨[], []⟩
  | some i => do
    let d ← Data.copyTo i.bytes 0 (i.w * i.h * i.ch) (List.replicate (size [i.w, i.h, i.ch]) 0) 0
    pure ⟨[i.w, i.h, i.ch], d⟩

/-- `path.substr( path.find_last_of('.') )` (include/utils/imageio.hpp line 55): the part from the last dot on; without a dot `substr( npos )` throws. -/
def extension : List Char → Option (List Char)
  | [] => none
  | c :: cs =>
    match extension cs with
    | some e => some e
    | none => if c = '.' then some (c :: cs) else none

/-- Number of bytes a writer reads: `w * h * ch` samples of one byte, or - for `.hdr` - of the four bytes of a `float`
(include/utils/imageio.hpp lines 62-75, include/utils/3rd_party/stb_image_write.h lines 79-84, 102-104). -/
def needed (f : Format) (w h ch : Nat) : Nat :=
  match f with
  | .hdr => w * h * ch * 4
  | _ => w * h * ch

/-- One call of a writer of the library on a tensor of bytes, into file `path` (include/utils/imageio.hpp lines 62-79). -/
def writeAs (store : Store) (files : Files) (path : List Char) (f : Format) (w h ch : Nat) (d : List Nat) : Res (Bool × Files) := do
  require (needed f w h ch ≤ d.length)
  match store f ⟨w, h, ch, d.take (needed f w h ch)⟩ with
  | none => pure (false, files)
  | some i => pure (true, fun p => if p = path then some i else files p)

/-- The format and the file for a path with a given extension (include/utils/imageio.hpp lines 62-79). -/
def target (path ext : List Char) : Format × List Char :=
  if ext = ['.', 'p', 'n', 'g'] then (.png, path)
  else if ext = ['.', 'b', 'm', 'p'] then (.bmp, path)
  else if ext = ['.', 't', 'g', 'a'] then (.tga, path)
  else if ext = ['.', 'j', 'p', 'g'] ∨ ext = ['.', 'j', 'p', 'e', 'g'] then (.jpg, path)
  else if ext = ['.', 'h', 'd', 'r'] then (.hdr, path)
  else (.png, path ++ ['.', 'p', 'n', 'g'])

/-- `direct_imwrite( path, image )` (include/utils/imageio.hpp lines 42-80).  The exception of `substr` is `abort`.  Without an extension `.png` is to be added
(lines 56-60). -/
def directImwrite (store : Store) (files : Files) (path : List Char) (t : Ten Nat) : Res (Bool × Files) := do
  Res.assert (t.shape.length = 2 ∨ t.shape.length = 3)
  let w ← rd t.shape 0
  let h ← rd t.shape 1
  let ch ← if t.shape.length = 2 then ok 1 else rd t.shape 2
  Res.assert (ch = 1 ∨ ch = 3 ∨ ch = 4)
  match extension path with
  | none => abort
  | some ext =>
    let full := if ext = [] then path ++ ['.', 'p', 'n', 'g'] else path
    let ext := if ext = [] then ['.', 'p', 'n', 'g'] else ext
    let f := target full ext
    writeAs store files f.2 f.1 w h ch t.data

section scale
variable {K : Type} [Field K] [LinearOrder K] [IsStrictOrderedRing K] [FloorRing K]

/-- `static_cast<std::uint8_t>( 255.0 * (x - mn) / (mx-mn+1.0e-10) )` (include/utils/imageio.hpp line 95): truncation; undefined outside the type. -/
def toByte (mx mn x : K) : Res Nat := do
  let v := 255 * (x - mn) / (mx - mn + 1 / 10 ^ 10)
  require (0 ≤ v ∧ v < 256)
  pure ⌊v⌋.toNat

/-- `imwrite( path, image )` for elements of more than one byte (include/utils/imageio.hpp lines 82-97): `numMin` and `numMax` are the limits `amax` and `amin` start
from.  (For elements of one byte it is `direct_imwrite`, lines 86-89.) -/
def imwrite (numMin numMax : K) (store : Store) (files : Files) (path : List Char) (t : Ten K) : Res (Bool × Files) := do
  let mx ← Data.maxAll numMin t
  let mn ← Data.minAll numMax t
  let d ← loop t.data.length (fun i o => do
    let x ← rd t.data i
    let v ← toByte mx mn x
    wr o i v) (List.replicate (size t.shape) 0)
  directImwrite store files path ⟨t.shape, d⟩

end scale

/-- `stbir_resize_uint8` (include/utils/3rd_party/stb_image_resize.h lines 16-17, 228-230): `iw * ih * ch` bytes in, `ow * oh * ch` bytes out. -/
abbrev Resizer := (iw ih ow oh ch : Nat) → List Nat → List Nat

/-- One call of the resizer from one storage into another. -/
def resizeCall (rs : Resizer) (iw ih ow oh ch : Nat) (src dst : List Nat) : Res (List Nat) := do
  require (iw * ih * ch ≤ src.length)
  require (ow * oh * ch ≤ dst.length)
  pure (rs iw ih ow oh ch (src.take (iw * ih * ch)) ++ dst.drop (ow * oh * ch))

/-- `imresize( image, shape )` (include/utils/imageio.hpp lines 12-27). -/
def imresize (rs : Resizer) (t : Ten Nat) (shape : List Nat) : Res (Ten Nat) :=
  if t.shape.length = 3 then do
    let oc ← rd shape 2
    let ic ← rd t.shape 2
    Res.assert (oc = ic)
    let iw ← rd t.shape 0
    let ih ← rd t.shape 1
    let ow ← rd shape 0
    let oh ← rd shape 1
    let d ← resizeCall rs iw ih ow oh ic t.data (List.replicate (size shape) 0)
    pure ⟨shape, d⟩
  else do
    let iw ← rd t.shape 0
    let ih ← rd t.shape 1
    let ow ← rd shape 0
    let oh ← rd shape 1
    let d ← resizeCall rs iw ih ow oh 2 t.data (List.replicate (size shape) 0)
    pure ⟨shape, d⟩

end Verif.Image
