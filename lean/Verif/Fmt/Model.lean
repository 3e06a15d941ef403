import Verif.Basic.Res
import Verif.Text.Number
/-!
# `fmt::format` (model)

`include/utils/fmt.hpp` lines 822-1060.  Text is a list of characters.  What a value of a class prints through `operator <<` is its text already; numbers are printed as
by a stream with its default precision (`Verif/Text/Number.lean`).  The overload of `to_string` that is meant is taken to be found for parts of pairs, tuples and
pointers.  Not modelled: `std::any`, and structures (lines 25-818 take them apart into tuples).
-/
namespace Verif.Fmt
open Verif Res

abbrev Str := List Char

/-! ### values as text -/

/-- A value that is formatted. -/
inductive Arg where
  | bool (b : Bool)
  | str (s : Str)
  | chr (c : Char)
  | int (z : Int)
  | num (x : ℚ)
  | list (l : List Arg)
  | pair (a b : Arg)
  | tuple (l : List Arg)
  | opt (a : Option Arg)
  | smart (a : Option Arg)
  | raw (a : Option Arg)

/-- A `std::stringstream`: what is in it, and the place where the next character is put. -/
structure Out where
  buf : Str
  pos : Nat

/-- `ss << s`. -/
def Out.put (o : Out) (s : Str) : Out := ⟨o.buf.take o.pos ++ s ++ o.buf.drop (o.pos + s.length), o.pos + s.length⟩

/-- `ss.seekp( -k, ss.cur )`, where there are `k` characters before. -/
def Out.back (o : Out) (k : Nat) : Out := ⟨o.buf, o.pos - k⟩

/-- The loop `ss << to_string( x ) << ", "` over the texts (include/utils/fmt.hpp lines 857, 990-991). -/
def putAll (o : Out) (l : List Str) : Out := l.foldl (fun o s => (o.put s).put ", ".toList) o

/-- `to_string( std::tuple )`, given the texts of the elements (include/utils/fmt.hpp lines 852-861). -/
def tupleText (l : List Str) : Str :=
  let ss := (⟨[], 0⟩ : Out).put "( ".toList
  let ss := putAll ss l
  let ss := ss.back 2
  (ss.put " )".toList).buf

/-- `max_element_to_format` (include/utils/fmt.hpp line 823). -/
def maxElements : Nat := 8

/-- `iterator_to_string`, given the texts of the elements (include/utils/fmt.hpp lines 978-1000). -/
def listText (l : List Str) : Str :=
  let shown := if maxElements < l.length then l.take maxElements else l
  let ss := (⟨[], 0⟩ : Out).put "{ ".toList
  let ss := putAll ss shown
  let ss := if l.length = shown.length then ss.back 1 else ss.put " ...".toList
  (ss.put " }".toList).buf

/-- An integer, as `operator <<` prints it. -/
def intText (z : Int) : Str := if z < 0 then '-' :: Nat.toDigits 10 z.natAbs else Nat.toDigits 10 z.natAbs

mutual
/-- `to_string` (include/utils/fmt.hpp lines 831-890, 949-976).  `std::string{1, ch}` is the text of the two characters 1 and `ch`. -/
def Arg.text : Arg → Str
  | .bool b => if b then "true".toList else "false".toList
  | .str s => s
  | .chr c => [Char.ofNat 1, c]
  | .int z => intText z
  | .num x => Text.printG 6 x
  | .list l => listText (Arg.texts l)
  | .pair a b => "(".toList ++ a.text ++ ", ".toList ++ b.text ++ ")".toList
  | .tuple l => tupleText (Arg.texts l)
  | .opt a => match a with
    | some a => a.text
    | none => "[EMPTY]".toList
  | .smart a => match a with
    | some a => a.text
    | none => "<NULL>".toList
  | .raw a => match a with
    | some a => "<".toList ++ a.text ++ ">".toList
    | none => "<Null>".toList
/-- The texts of several values. -/
def Arg.texts : List Arg → List Str
  | [] => []
  | a :: l => a.text :: Arg.texts l
end

/-! ### substitution -/

/-- The first place from `k` on (which `s` is the text behind) where `what` stands. -/
def findFrom (what : Str) : Str → Nat → Option Nat
  | [], k => if what = [] then some k else none
  | c :: s, k => if what.isPrefixOf (c :: s) then some k else findFrom what s (k + 1)

/-- `s.find( what, pos )`. -/
def find (s what : Str) (pos : Nat) : Option Nat := findFrom what (s.drop pos) pos

/-- `s.replace( pos, n, by )`. -/
def replaceAt (s : Str) (pos n : Nat) (by' : Str) : Str := s.take pos ++ by' ++ s.drop (pos + n)

/-- The loop of `replace_all` (include/utils/fmt.hpp lines 1005-1006), at most `fuel` rounds. -/
def replaceAllGo (what by' : Str) : Nat → Str → Nat → Res Str
  | 0, _, _ => ub
  | fuel + 1, ans, pos =>
    match find ans what pos with
    | none => ok ans
    | some p => replaceAllGo what by' fuel (replaceAt ans p what.length by') (p + by'.length)

/-- `replace_all` (include/utils/fmt.hpp lines 1002-1008). -/
def replaceAll (orig what by' : Str) : Res Str := replaceAllGo what by' (orig.length + 1) orig 0

/-- `replace_once` (include/utils/fmt.hpp lines 1010-1019). -/
def replaceOnce (orig what by' : Str) : Str :=
  match find orig what 0 with
  | none => orig
  | some p => replaceAt orig p what.length by'

/-- `{i}`. -/
def hole (i : Nat) : Str := '{' :: (Nat.toDigits 10 i ++ ['}'])

/-- `indexed_format` (include/utils/fmt.hpp lines 1021-1034), given the texts of the arguments. -/
def indexedFormat : Nat → Str → List Str → Res Str
  | _, s, [] => ok s
  | i, s, a :: as => do
    let s ← replaceAll s (hole i) a
    indexedFormat (i + 1) s as

/-- `plain_format` (include/utils/fmt.hpp lines 1036-1049). -/
def plainFormat : Str → List Str → Str
  | s, [] => s
  | s, a :: as => plainFormat (replaceOnce s "{}".toList a) as

/-- `format`, given the texts of the arguments (include/utils/fmt.hpp lines 1053-1060). -/
def formatText (s : Str) (as : List Str) : Res Str := if (find s "{}".toList 0).isSome then ok (plainFormat s as) else indexedFormat 0 s as

/-- `fmt::format`. -/
def format (s : Str) (as : List Arg) : Res Str := formatText s (Arg.texts as)

/-! ### the format strings of `make_argumented_operator_serializer` -/

/-- `arg_string_formater` (include/operation.hpp lines 344-348, 360-364). -/
def argFormat (n : Nat) : Str := (List.range' 1 (n - 1)).foldl (fun s _ => s ++ ", {}".toList) "{}".toList

/-- `code_formater` of a unary operator (include/operation.hpp line 349). -/
def codeFormat1 (n : Nat) : Str := "auto {} = {}( ".toList ++ argFormat n ++ " )( {} );".toList

/-- `code_formater` of a binary operator (include/operation.hpp line 366). -/
def codeFormat2 (n : Nat) : Str := "auto {} = {}( ".toList ++ argFormat n ++ " )( {}, {} );".toList

end Verif.Fmt
