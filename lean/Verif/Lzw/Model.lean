import Verif.Basic.Res
/-!
# Model of include/utils/lzw.hpp

Bytes are `Fin 256` (the unsigned reading of a `char`), codes are `Nat`.  The dictionary capacity
`globals::dms` is a parameter `dms`; the code fixes it to `dmsRepo` = 1024*1024.
-/
namespace Verif.Lzw
open Verif Res

/-- A `char`, by its unsigned value (include/utils/lzw.hpp uses `char` throughout). -/
abbrev Byte := Fin 256

/-- `globals::dms` (include/utils/lzw.hpp line 28). -/
def dmsRepo : Nat := 1024 * 1024

/-- `MetaCode::Eof` (include/utils/lzw.hpp line 38). -/
def eof : Nat := 256

/-- Signed value of a `char` (x86 `char` is signed), used by `<`/`>` on chars
(include/utils/lzw.hpp lines 124, 136). -/
def sc (b : Byte) : Int := if b.val < 128 then b.val else (b.val : Int) - 256

/-- `EncoderDictionary::Node` (include/utils/lzw.hpp lines 50-66). -/
structure Node where
  first : Nat
  c : Byte
  left : Nat
  right : Nat
  deriving DecidableEq, Repr

/-- `Node(char c)` (include/utils/lzw.hpp line 57). -/
def mkNode (dms : Nat) (c : Byte) : Node := ⟨dms, c, dms, dms⟩

/-- The `k`-th char counting up from `std::numeric_limits<char>::min()`: unsigned value `k+128 mod 256`
(loops in include/utils/lzw.hpp lines 77-80, 96-99, 490-491). -/
def nthChar (k : Fin 256) : Byte := k + 128

/-- `search_initials` with the table built in the constructor
(include/utils/lzw.hpp lines 72-81 and 168-171): the index of `c` in that enumeration. -/
def initials (c : Byte) : Nat := (c + 128 : Fin 256).val

/-- `EncoderDictionary::reset` (include/utils/lzw.hpp lines 90-103). -/
def resetNodes (dms : Nat) : List Node :=
  (List.finRange 256).map (fun k => mkNode dms (nthChar k)) ++ [mkNode dms 0]

/-- The `while (true)` descent of `search_and_insert` (include/utils/lzw.hpp lines 122-152).
`Sum.inl ci` : the pair was found at `ci`; `Sum.inr vn` : a link to the new node was stored.
`fuel` bounds the loop; running out of it would be an endless loop (`ub`). -/
def descend (dms : Nat) (vn : List Node) (c : Byte) : Nat → Nat → Res (Sum Nat (List Node))
  | 0, _ => ub
  | fuel+1, ci => do
    let n ← rd vn ci
    if sc c < sc n.c then
      if n.left = dms then ok (.inr (vn.set ci { n with left := vn.length }))
      else descend dms vn c fuel n.left
    else if sc c > sc n.c then
      if n.right = dms then ok (.inr (vn.set ci { n with right := vn.length }))
      else descend dms vn c fuel n.right
    else ok (.inl ci)

/-- `EncoderDictionary::search_and_insert` (include/utils/lzw.hpp lines 112-161). -/
def searchAndInsert (dms : Nat) (vn : List Node) (i : Nat) (c : Byte) : Res (Nat × List Node) :=
  if i = dms then ok (initials c, vn)
  else do
    let n ← rd vn i
    if n.first ≠ dms then do
      match ← descend dms vn c (vn.length + 1) n.first with
      | .inl ci => ok (ci, vn)
      | .inr vn' => ok (dms, vn' ++ [mkNode dms c])
    else ok (dms, vn.set i { n with first := vn.length } ++ [mkNode dms c])

/-- `required_bits` (include/utils/lzw.hpp lines 409-419). -/
def requiredBits (n : Nat) : Nat :=
  if n / 2 = 0 then 1 else requiredBits (n / 2) + 1
termination_by n
decreasing_by omega

/-- `CodeWriter` with its `ByteCache` (include/utils/lzw.hpp lines 190-204, 209-303).
`out` are the bytes put to the stream so far.  `log` is a ghost field of the model: the codes passed
to `write` together with the width used, in order. -/
structure Writer where
  out : List Byte
  bits : Nat
  used : Nat
  data : Nat
  log : List (Nat × Nat)
  deriving DecidableEq, Repr

/-- Fresh `CodeWriter` (include/utils/lzw.hpp lines 196-198, 215-217): 9 bits, nothing cached. -/
def Writer.init : Writer := ⟨[], 9, 0, 0, []⟩

/-- `static_cast<char>(k)` (include/utils/lzw.hpp lines 230, 273, 284). -/
def toByte (k : Nat) : Byte := Fin.ofNat 256 k

/-- The `while (remaining_bits != 0)` loop of `CodeWriter::write` (include/utils/lzw.hpp lines 281-294);
returns the bytes put and the new `lo`.  `fuel` is `remaining_bits` (each round uses up 8 of it). -/
def writeRest : Nat → Nat → Nat → List Byte × Nat × Nat
  | 0, _, _ => ([], 0, 0)
  | fuel+1, rem, k =>
    if rem = 0 then ([], 0, 0)
    else if rem ≥ 8 then
      let r := writeRest fuel (rem - 8) (k >>> 8)
      (toByte k :: r.1, r.2.1, r.2.2)
    else ([], rem, k % 256)

/-- `CodeWriter::write` (include/utils/lzw.hpp lines 267-297).  The stream is assumed to accept every byte. -/
def Writer.write (w : Writer) (k : Nat) : Writer :=
  if w.used ≠ 0 then
    let b := toByte (w.data ||| (k <<< w.used))
    let r := writeRest (w.bits - (8 - w.used)) (w.bits - (8 - w.used)) (k >>> (8 - w.used))
    { w with out := w.out ++ b :: r.1, used := r.2.1, data := r.2.2, log := w.log ++ [(k, w.bits)] }
  else
    let r := writeRest w.bits w.bits k
    { w with out := w.out ++ r.1, used := r.2.1, data := r.2.2, log := w.log ++ [(k, w.bits)] }

/-- Local state of `compress` (include/utils/lzw.hpp lines 431-435); `rbwf` is always false between iterations. -/
structure Enc where
  vn : List Node
  i : Nat
  w : Writer
  deriving DecidableEq, Repr

/-- State before the first byte (include/utils/lzw.hpp lines 431-435). -/
def Enc.init (dms : Nat) : Enc := ⟨resetNodes dms, dms, Writer.init⟩

/-- One round of the loop in `compress` (include/utils/lzw.hpp lines 437-463). -/
def encStep (dms : Nat) (st : Enc) (c : Byte) : Res Enc := do
  let vn := if st.vn.length = dms then resetNodes dms else st.vn
  let rbwf := decide (st.vn.length = dms)
  let temp := st.i
  let (i, vn) ← searchAndInsert dms vn temp c
  let (i, w) :=
    if i = dms then
      let w := st.w.write temp
      let w := if requiredBits (vn.length - 1) > w.bits then { w with bits := w.bits + 1 } else w
      (initials c, w)
    else (i, st.w)
  let w := if rbwf then { w with bits := 9 } else w
  ok ⟨vn, i, w⟩

/-- The loop of `compress` over the whole input. -/
def encLoop (dms : Nat) (st : Enc) : List Byte → Res Enc
  | [] => ok st
  | c :: s => encStep dms st c >>= fun st' => encLoop dms st' s

/-- End of `compress` and destructor of `CodeWriter`
(include/utils/lzw.hpp lines 465-469 and 223-232). -/
def encFinish (dms : Nat) (st : Enc) : Writer :=
  let w := if st.i ≠ dms then st.w.write st.i else st.w
  w.write eof

/-- The bytes in the output stream once the writer is destroyed (include/utils/lzw.hpp lines 228-231). -/
def Writer.flushed (w : Writer) : List Byte :=
  if w.used ≠ 0 then w.out ++ [toByte w.data] else w.out

/-- `lzw::compress` (include/utils/lzw.hpp lines 428-470). -/
def compress (dms : Nat) (s : List Byte) : Res (List Byte) := do
  let st ← encLoop dms (Enc.init dms) s
  ok (encFinish dms st).flushed

/-- Input half of `CodeReader`: unread bytes and its `ByteCache` (include/utils/lzw.hpp lines 190-204, 309-403). -/
structure Reader where
  inp : List Byte
  used : Nat
  data : Nat
  deriving DecidableEq, Repr

/-- The loop of `CodeReader::read` (include/utils/lzw.hpp lines 363-376).  Returns `k`, the new reader and
whether the stream is still good (`get` at the end of the stream makes it bad).
`masks[r]` is `2^r - 1`. -/
def readLoop : List Byte → Nat → Nat → Nat → Nat × Reader × Bool
  | inp, 0, _, k => (k, ⟨inp, 0, 0⟩, true)
  | [], _+1, _, k => (k, ⟨[], 0, 0⟩, false)
  | t :: inp, rem+1, offset, k =>
    if rem + 1 ≥ 8 then readLoop inp (rem + 1 - 8) (offset + 8) (k ||| (t.val <<< offset))
    else (k ||| ((t.val &&& (2 ^ (rem + 1) - 1)) <<< offset),
          ⟨inp, 8 - (rem + 1), t.val >>> (rem + 1)⟩, true)

/-- Result of `CodeReader::read`: code, new reader, return value, and whether the Eof metacode was seen. -/
structure ReadResult where
  k : Nat
  rdr : Reader
  good : Bool
  feof : Bool
  deriving DecidableEq, Repr

/-- `CodeReader::read` with width `bits` (include/utils/lzw.hpp lines 352-386). -/
def Reader.read (r : Reader) (bits : Nat) : ReadResult :=
  let x := readLoop r.inp (bits - r.used) r.used r.data
  if x.1 = eof then ⟨x.1, x.2.1, false, true⟩ else ⟨x.1, x.2.1, x.2.2, false⟩

/-- `reset_dictionary` of `decompress` (include/utils/lzw.hpp lines 483-496). -/
def resetDict (dms : Nat) : List (Nat × Byte) :=
  (List.finRange 256).map (fun k => (dms, nthChar k)) ++ [(0, 0)]

/-- `rebuild_string` (include/utils/lzw.hpp lines 497-515); `acc` holds the bytes pushed so far, already
reversed.  `fuel` bounds the loop; a chain longer than the dictionary is a cycle, i.e. an endless loop. -/
def rebuild (dms : Nat) (dict : List (Nat × Byte)) : Nat → Nat → List Byte → Res (List Byte)
  | 0, _, _ => ub
  | fuel+1, k, acc =>
    if k = dms then ok acc
    else do
      let e ← rd dict k
      rebuild dms dict fuel e.1 (e.2 :: acc)

/-- `s->front()`; undefined on an empty vector (include/utils/lzw.hpp lines 547, 556, 559). -/
def front (s : List Byte) : Res Byte :=
  match s with
  | [] => ub
  | b :: _ => ok b

/-- Local state of `decompress` apart from the input (include/utils/lzw.hpp lines 481, 517-519):
dictionary, bit width, previous code, bytes written. -/
structure Dec where
  dict : List (Nat × Byte)
  bits : Nat
  i : Nat
  out : List Byte
  deriving DecidableEq, Repr

/-- Start of `decompress` (include/utils/lzw.hpp lines 516-518). -/
def Dec.init (dms : Nat) : Dec := ⟨resetDict dms, 9, dms, []⟩

/-- Top of the loop in `decompress`: dictionary reset and width adjustment (include/utils/lzw.hpp lines 523-533). -/
def Dec.top (dms : Nat) (d : Dec) : Dec :=
  let d := if d.dict.length = dms then { d with dict := resetDict dms, bits := 9 } else d
  if requiredBits d.dict.length > d.bits then { d with bits := d.bits + 1 } else d

/-- Handling of one data code `k <= dictionary.size()` (include/utils/lzw.hpp lines 546-561). -/
def Dec.take (dms : Nat) (d : Dec) (k : Nat) : Res Dec := do
  if k = d.dict.length then
    let si ← rebuild dms d.dict (d.dict.length + 1) d.i []
    let f ← front si
    let dict := d.dict ++ [(d.i, f)]
    let s ← rebuild dms dict (dict.length + 1) k []
    let _ ← front s
    ok { d with dict := dict, i := k, out := d.out ++ s }
  else
    let s ← rebuild dms d.dict (d.dict.length + 1) k []
    let f ← front s
    ok { d with dict := if d.i ≠ dms then d.dict ++ [(d.i, f)] else d.dict, i := k, out := d.out ++ s }

/-- The loop of `decompress` (include/utils/lzw.hpp lines 521-570).  The result is what has been written and the
returned status (0 success, -1 failure; a debug build aborts where -1 is returned). -/
def decLoop (dms : Nat) : Nat → Dec → Reader → Res (List Byte × Int)
  | 0, _, _ => ub
  | fuel+1, d, r =>
    let d := d.top dms
    let rr := r.read d.bits
    if rr.good = false then ok (d.out, if rr.feof then 0 else -1)
    else if rr.k > d.dict.length then ok (d.out, -1)
    else do
      let d' ← d.take dms rr.k
      decLoop dms fuel d' rr.rdr

/-- `lzw::decompress` (include/utils/lzw.hpp lines 478-571).  The fuel is larger than the number of bits in the
stream; every round that continues consumes at least nine of them. -/
def decompress (dms : Nat) (inp : List Byte) : Res (List Byte × Int) :=
  decLoop dms (8 * inp.length + 1) (Dec.init dms) ⟨inp, 0, 0⟩

end Verif.Lzw
