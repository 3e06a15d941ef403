import Verif.Data.Model
import Verif.Lzw.Model
/-!
# Writing and reading tensors and sessions as text (model)

`include/tensor.tcc` lines 1214-1267 and `include/session.hpp` lines 83-168.  An element is printed by `pr` (`operator <<` with the
precision of the stream) and a word is read by `ps` (`operator >>`, `none` for a failure); both are parameters.  Reading takes whole words
between spaces.  Files can always be opened, written and read.
-/
namespace Verif.Text
open Verif Res Data

variable {α : Type}

/-- `std::isspace` in the "C" locale. -/
def isSpace (c : Char) : Bool := c = ' ' || c = '\n' || c = '\t' || c = '\r' || c = Char.ofNat 11 || c = Char.ofNat 12

/-- An input stream: what is left, and `good()`. -/
structure Stream where
  rest : List Char
  good : Bool

/-- `std::getline`: up to the next newline, which is removed; without one the end is reached. -/
def getline (s : Stream) : List Char × Stream :=
  if s.good then
    let line := s.rest.takeWhile (· ≠ '\n')
    match s.rest.dropWhile (· ≠ '\n') with
    | _ :: rest => (line, ⟨rest, true⟩)
    | [] => (line, ⟨[], false⟩)
  else ([], s)

/-- The words of a line; `cur` is the current one, reversed. -/
def words (cur : List Char) : List Char → List (List Char)
  | [] => if cur = [] then [] else [cur.reverse]
  | c :: cs =>
    if isSpace c then if cur = [] then words [] cs else cur.reverse :: words [] cs
    else words (c :: cur) cs

/-- `std::copy( std::istream_iterator<T>( ss ), {}, std::back_inserter( v ) )`: up to the first word that cannot be read. -/
def parseMany (ps : List Char → Option α) : List (List Char) → List α
  | [] => []
  | w :: ws => match ps w with
    | some x => x :: parseMany ps ws
    | none => []

/-- Reading an unsigned decimal number below `limit`. -/
def parseNat (limit : Nat) (w : List Char) : Option Nat :=
  if w ≠ [] ∧ w.all Char.isDigit then
    if Nat.ofDigitChars 10 w 0 < limit then some (Nat.ofDigitChars 10 w 0) else none
  else none

/-- Printing an unsigned number. -/
def printNat (n : Nat) : List Char := Nat.toDigits 10 n

/-- `write_tensor` (include/tensor.tcc lines 1248-1267). -/
def writeTensor (pr : α → List Char) (t : Ten α) : List Char :=
  t.shape.flatMap (fun n => printNat n ++ [' ']) ++ ['\n'] ++ (t.data.flatMap (fun x => pr x ++ [' ']) ++ ['\n'])

/-- `read_tensor` (include/tensor.tcc lines 1214-1246) into a tensor holding `x`. -/
def readTensor [Zero α] (ps : List Char → Option α) (s : Stream) (x : Ten α) : Res (Ten α × Stream) := do
  Res.assert (s.good = true)
  let l1 := getline s
  let shape := parseMany (parseNat (2 ^ 64)) (words [] l1.1)
  let l2 := getline l1.2
  let buff := parseMany ps (words [] l2.1)
  let x := resizeV x shape
  Res.assert (x.data.length = buff.length)
  let d ← copyTo buff 0 buff.length x.data 0
  pure (⟨shape, d⟩, l2.2)

/-- The variables of a session, in the order of iteration of the hash table. -/
abbrev Vars (α : Type) := List (Nat × Ten α)

/-- `session::save_original` (include/session.hpp lines 122-141). -/
def saveOriginal (pr : α → List Char) (V : Vars α) : List Char :=
  V.flatMap (fun e => printNat e.1 ++ [' ']) ++ ['\n'] ++ V.flatMap (fun e => writeTensor pr e.2)

/-- `variables_.find( id )`. -/
def find (V : Vars α) (id : Nat) : Option (Ten α) := V.lookup id

/-- Writing to the data of variable `id`. -/
def update (V : Vars α) (id : Nat) (t : Ten α) : Vars α := V.map (fun e => if e.1 = id then (e.1, t) else e)

/-- The loop of `restore_original` (include/session.hpp lines 158-165). -/
def restoreLoop [Zero α] (ps : List Char → Option α) : List Nat → Vars α → Stream → Res (Vars α)
  | [], V, _ => pure V
  | id :: ids, V, s => match find V id with
    | none => abort
    | some x => do
      let r ← readTensor ps s x
      restoreLoop ps ids (update V id r.1) r.2

/-- `session::restore_original` (include/session.hpp lines 143-168). -/
def restoreOriginal [Zero α] (ps : List Char → Option α) (text : List Char) (V : Vars α) : Res (Vars α) :=
  let l := getline ⟨text, true⟩
  restoreLoop ps (parseMany (parseNat (2 ^ 31)) (words [] l.1)) V l.2

/-- `session::save` (include/session.hpp lines 83-100): the bytes of the file. -/
def save (pr : α → List Char) (V : Vars α) : Res (List Lzw.Byte) := Lzw.compress Lzw.dmsRepo ((saveOriginal pr V).map (fun c => Lzw.toByte c.toNat))

/-- `session::restore` (include/session.hpp lines 102-120); the result of `lzw::decompress` is ignored. -/
def restore [Zero α] (ps : List Char → Option α) (file : List Lzw.Byte) (V : Vars α) : Res (Vars α) := do
  let r ← Lzw.decompress Lzw.dmsRepo file
  restoreOriginal ps (r.1.map (fun b => Char.ofNat b.val)) V

end Verif.Text
