import Verif.Basic.Res
/-!
# File names with wildcards (model)

include/utils/3rd_party/glob.hpp: `translate` turns a pattern into the text of a regular expression, which `std::regex` parses and
`std::regex_match` compares with names; `glob` walks the directories.  Strings are lists of characters.  An exception is `abort`.

The standard library is modelled for the texts `translate` writes: ECMAScript expressions of groups, alternatives, `.`, `*`, `$`, escaped characters
and brackets.  Quantifiers other than `*`, escapes that are letters, and `[:`, `[.`, `[=` inside brackets are not modelled (they are `abort`, and
no theorem is about texts that have them).  Paths are lists of names; `~` is not modelled, nor are symbolic links and permissions.
-/
namespace Verif.Glob
open Verif Res

abbrev Str := List Char

/-! ## translate -/

/-- `string_replace( str, "\\", R"(\\)" )`: the first backslash is doubled (lines 21-29 as used in line 78). -/
def doubleFirst : Str → Str
  | [] => []
  | c :: s => if c = '\\' then '\\' :: '\\' :: s else c :: doubleFirst s

/-- `stuff.find( "--" ) != npos` (line 76). -/
def hasDashes : Str → Bool
  | [] => false
  | [_] => false
  | a :: b :: s => (a = '-' && b = '-') || hasDashes (b :: s)

/-- The characters replaced in line 134. -/
def isOp (c : Char) : Bool := c = '&' || c = '~' || c = '|'

/-- `std::regex_replace( …, "[&~|]", R"(\\\1)" )` (lines 131-136).  In the format of ECMAScript only `$` refers to the match: the four
characters `\\\1` are inserted as they are. -/
def escapeOps (s : Str) : Str := s.flatMap (fun c => if isOp c then ['\\', '\\', '\\', '1'] else [c])

/-- Lines 139-146: `!` becomes `^`; two backslashes are put before `^` and `[`. -/
def bracketStart : Str → Str
  | [] => []
  | c :: s => if c = '!' then '^' :: s else if c = '^' ∨ c = '[' then '\\' :: '\\' :: c :: s else c :: s

/-- What becomes of the text between brackets (lines 74-148).  Behind `--` (lines 81-127) the first thing that happens is
`pattern.find( "-", k, j )`, which searches for the first `j` characters of a literal that has two: `ub`. -/
def bracket (stuff : Str) : Res Str :=
  if hasDashes stuff then ub else pure ('[' :: bracketStart (escapeOps (doubleFirst stuff)) ++ [']'])

/-- `special_characters` (line 158). -/
def specials : List Char := ['(', ')', '[', ']', '{', '}', '?', '*', '+', '-', '|', '^', '$', '\\', '.', '&', '~', '#', ' ', '\t', '\n', '\r', '\x0b', '\x0c']

/-- Index of the closing bracket in the text behind an opening one (lines 51-66). -/
def closing (r : Str) : Nat :=
  let j := if r[0]? = some '!' then 1 else 0
  let j := if r[j]? = some ']' then j + 1 else j
  j + ((r.drop j).takeWhile (fun c => c ≠ ']')).length

/-- The loop of translate (lines 36-178); `n` bounds the number of rounds. -/
def translateLoop : Nat → Str → Res Str
  | 0, _ => pure []
  | _ + 1, [] => pure []
  | n + 1, c :: r =>
    if c = '*' then do
      let t ← translateLoop n r
      pure ('.' :: '*' :: t)
    else if c = '?' then do
      let t ← translateLoop n r
      pure ('.' :: t)
    else if c = '[' then
      if r.length ≤ closing r then do
        let t ← translateLoop n r
        pure ('\\' :: '[' :: t)
      else do
        let b ← bracket (r.take (closing r))
        let t ← translateLoop n (r.drop (closing r + 1))
        pure (b ++ t)
    else do
      let t ← translateLoop n r
      pure ((if c ∈ specials then ['\\', c] else [c]) ++ t)

/-- `translate` (lines 31-182): the text is `((`…`)|[\r\n])$` around the loop's, with the letters of the escapes. -/
def translate (p : Str) : Res Str := do
  let t ← translateLoop p.length p
  pure (['(', '('] ++ t ++ [')', '|', '[', '\\', 'r', '\\', 'n', ']', ')', '$'])

/-! ## std::regex -/

/-- A member of a bracket. -/
inductive CI where
  | one (c : Char)
  | range (a b : Char)
deriving DecidableEq

/-- `c` is such a member. -/
def CI.Has (c : Char) : CI → Prop
  | .one d => c = d
  | .range a b => a ≤ c ∧ c ≤ b

inductive Tok where
  | lpar | rpar | bar | star | dot | dollar
  | chr (c : Char)
  | cls (neg : Bool) (items : List CI)

/-- One character of a bracket: escaped or as it is.  `\r` and `\n` are those characters, a digit behind a backslash is an error (inside a
bracket there are no references), other letters are not modelled. -/
def unit : Str → Res (Char × Str)
  | [] => abort
  | c :: r =>
    if c = '\\' then
      match r with
      | [] => abort
      | d :: r => if d = 'r' then pure ('\r', r) else if d = 'n' then pure ('\n', r) else if d.isAlphanum then abort else pure (d, r)
    else if c = '[' ∧ (r[0]? = some ':' ∨ r[0]? = some '.' ∨ r[0]? = some '=') then abort
    else pure (c, r)

/-- The members of a bracket and the text behind it. -/
def classBody : Nat → Str → Res (List CI × Str)
  | 0, _ => abort
  | _ + 1, [] => abort
  | n + 1, c :: s =>
    if c = ']' then pure ([], s) else do
      let (a, r) ← unit (c :: s)
      if r[0]? = some '-' ∧ r[1]? ≠ some ']' then do
        let (b, r) ← unit (r.drop 1)
        if a ≤ b then do
          let (l, r) ← classBody n r
          pure (CI.range a b :: l, r)
        else abort
      else do
        let (l, r) ← classBody n r
        pure (CI.one a :: l, r)

/-- The tokens of a text. -/
def tokens : Nat → Str → Res (List Tok)
  | 0, _ => pure []
  | _ + 1, [] => pure []
  | n + 1, c :: s =>
    if c = '(' then do let t ← tokens n s; pure (.lpar :: t)
    else if c = ')' then do let t ← tokens n s; pure (.rpar :: t)
    else if c = '|' then do let t ← tokens n s; pure (.bar :: t)
    else if c = '*' then do let t ← tokens n s; pure (.star :: t)
    else if c = '.' then do let t ← tokens n s; pure (.dot :: t)
    else if c = '$' then do let t ← tokens n s; pure (.dollar :: t)
    else if c = '?' ∨ c = '+' ∨ c = '{' ∨ c = '^' then abort
    else if c = '\\' then
      match s with
      | [] => abort
      | d :: s => if d.isAlphanum then abort else do let t ← tokens n s; pure (.chr d :: t)
    else if c = '[' then do
      let neg := s[0]? = some '^'
      let (l, r) ← classBody s.length (if neg then s.drop 1 else s)
      let t ← tokens n r
      pure (.cls neg l :: t)
    else do let t ← tokens n s; pure (.chr c :: t)

inductive Rx where
  | eps | dot | dollar
  | chr (c : Char)
  | cls (neg : Bool) (items : List CI)
  | cat (a b : Rx)
  | alt (a b : Rx)
  | star (a : Rx)

/-- An open group: the alternatives that are complete, the sequence so far, and its last term (to which a `*` belongs). -/
structure Frame where
  alts : Option Rx
  seq : Rx
  last : Option Rx

def Frame.empty : Frame := ⟨none, .eps, none⟩

/-- The sequence with its last term. -/
def Frame.body (f : Frame) : Rx := match f.last with
  | none => f.seq
  | some r => .cat f.seq r

/-- The group. -/
def Frame.rx (f : Frame) : Rx := match f.alts with
  | none => f.body
  | some a => .alt a f.body

def Frame.push (f : Frame) (r : Rx) : Frame := ⟨f.alts, f.body, some r⟩

/-- One token. -/
def shift : Tok → List Frame → Res (List Frame)
  | _, [] => abort
  | .lpar, fs => pure (Frame.empty :: fs)
  | .rpar, f :: g :: fs => pure (g.push f.rx :: fs)
  | .rpar, [_] => abort
  | .bar, f :: fs => pure (⟨some f.rx, .eps, none⟩ :: fs)
  | .star, ⟨a, s, some r⟩ :: fs => pure (⟨a, s, some (.star r)⟩ :: fs)
  | .star, ⟨_, _, none⟩ :: _ => abort
  | .dot, f :: fs => pure (f.push .dot :: fs)
  | .dollar, f :: fs => pure (f.push .dollar :: fs)
  | .chr c, f :: fs => pure (f.push (.chr c) :: fs)
  | .cls n l, f :: fs => pure (f.push (.cls n l) :: fs)

def shifts (l : List Tok) (fs : List Frame) : Res (List Frame) := l.foldlM (fun fs t => shift t fs) fs

/-- `std::regex( text, ECMAScript )`. -/
def parse (s : Str) : Res Rx := do
  let l ← tokens s.length s
  let fs ← shifts l [Frame.empty]
  match fs with
  | [f] => pure f.rx
  | _ => abort

/-- `Mt r s t`: `r` takes from `s` what is before `t`.  `.` is every character but the ends of lines; `$` is the end. -/
inductive Mt : Rx → Str → Str → Prop
  | eps {s} : Mt .eps s s
  | dot {c s} : c ≠ '\n' → c ≠ '\r' → Mt .dot (c :: s) s
  | dollar : Mt .dollar [] []
  | chr {c s} : Mt (.chr c) (c :: s) s
  | cls {neg l c s} : (neg = true ↔ ¬ ∃ i ∈ l, CI.Has c i) → Mt (.cls neg l) (c :: s) s
  | cat {a b s t u} : Mt a s t → Mt b t u → Mt (.cat a b) s u
  | left {a b s t} : Mt a s t → Mt (.alt a b) s t
  | right {a b s t} : Mt b s t → Mt (.alt a b) s t
  | none {a s} : Mt (.star a) s s
  | more {a s t u} : Mt a s t → Mt (.star a) t u → Mt (.star a) s u

/-- `compile_pattern` (lines 184-187). -/
def compile (p : Str) : Res Rx := do
  let t ← translate p
  parse t

open Classical in
/-- `fnmatch_case` (lines 189-192). -/
noncomputable def fnmatch (name p : Str) : Res Bool := do
  let r ← compile p
  pure (decide (Mt r name []))

/-- `filter` (lines 194-207). -/
noncomputable def filter (names : List Str) (p : Str) : Res (List Str) :=
  names.foldlM (fun acc n => do
    let b ← fnmatch n p
    pure (if b then acc ++ [n] else acc)) []

/-- `has_magic` (lines 233-237). -/
def hasMagic (s : Str) : Bool := s.any (fun c => c = '*' || c = '?' || c = '[')

end Verif.Glob
