import Verif.Glob.Brackets
/-!
# Directories (model)

The part of include/utils/3rd_party/glob.hpp that looks for files, for calls `glob( pathname )` (not `rglob`) of names that do not begin with `~`.  A file system
is a tree without symbolic links; a path is a list of names that may be absolute.  `std::filesystem` is modelled by what it does with such trees:
`.` and `..` are followed from directories only, `relative` is the path from the current directory.
-/
namespace Verif.Glob
open Verif Res

inductive Node where
  | file
  | dir (entries : List (Str × Node))

/-- The tree and the current directory. -/
structure Fs where
  root : Node
  cwd : List Str

/-- A path: absolute or not, and its names. -/
structure Path where
  abs : Bool
  names : List Str
deriving DecidableEq

def dot : Str := ['.']
def dotdot : Str := ['.', '.']

/-- The entry of that name. -/
def entry (es : List (Str × Node)) (n : Str) : Option Node := (es.find? (fun e => e.1 = n)).map (·.2)

/-- What is at a place in the tree. -/
def nodeAt : Node → List Str → Option Node
  | t, [] => some t
  | .file, _ :: _ => none
  | .dir es, n :: p => match entry es n with
    | some t => nodeAt t p
    | none => none

/-- One name further: from a directory only. -/
def go (fs : Fs) (pos : List Str) (n : Str) : Option (List Str) :=
  match nodeAt fs.root pos with
  | some (.dir es) =>
    if n = dot ∨ n = [] then some pos
    else if n = dotdot then some pos.dropLast
    else if (entry es n).isSome then some (pos ++ [n]) else none
  | _ => none

/-- Where a path leads. -/
def resolve (fs : Fs) (p : Path) : Option (List Str) := p.names.foldlM (go fs) (if p.abs then [] else fs.cwd)

def isDir (fs : Fs) (p : Path) : Bool := match resolve fs p with
  | some pos => match nodeAt fs.root pos with
    | some (.dir _) => true
    | _ => false
  | none => false

/-- `lexically_relative`: what leads from the second place to the first. -/
def relTo : List Str → List Str → List Str
  | a, [] => a
  | [], b => b.map (fun _ => dotdot)
  | x :: a, y :: b => if x = y then relTo a b else (y :: b).map (fun _ => dotdot) ++ x :: a

/-- `std::filesystem::relative` of a place. -/
def relative (fs : Fs) (pos : List Str) : Path := ⟨false, if relTo pos fs.cwd = [] then [dot] else relTo pos fs.cwd⟩

def Node.isDir : Node → Bool
  | .dir _ => true
  | .file => false

/-- `iter_directory` (lines 249-289).  What is no directory has no entries (the exception is caught, lines 281-285). -/
def iterDirectory (fs : Fs) (d : Path) (dironly : Bool) : List Path :=
  let cur : Path := if d.abs = false ∧ d.names = [] then ⟨true, fs.cwd⟩ else d
  match resolve fs cur with
  | none => []
  | some pos => match nodeAt fs.root pos with
    | some (.dir es) => (es.filter (fun e => !dironly || e.2.isDir)).map (fun e => if d.abs then ⟨true, cur.names ++ [e.1]⟩ else relative fs (pos ++ [e.1]))
    | _ => []

/-- `is_hidden( n.string() )` (lines 239-242): the first character of the whole path is a dot. -/
def isHidden (p : Path) : Bool := !p.abs && (p.names.headD [])[0]? = some '.'

/-- `filename()`. -/
def filename (p : Path) : Str := p.names.getLastD []

/-- `glob1` (lines 332-346). -/
noncomputable def glob1 (fs : Fs) (d : Path) (p : Str) (dironly : Bool) : Res (List Str) :=
  filter (((iterDirectory fs d dironly).filter (fun n => !isHidden n)).map filename) p

/-- `glob0` (lines 348-369). -/
def glob0 (fs : Fs) (d : Path) (base : Str) : List Str :=
  if base = [] then (if isDir fs d then [base] else [])
  else if (resolve fs ⟨d.abs, d.names ++ [base]⟩).isSome then [base] else []

/-- The loop over the directories (lines 450-463). -/
noncomputable def inDirs (fs : Fs) (dirs : List Path) (base : Str) (dironly : Bool) : Res (List Path) :=
  dirs.foldlM (fun acc d => do
    let ns ← (if hasMagic base then glob1 fs d base dironly else pure (glob0 fs d base))
    pure (acc ++ ns.map (fun n => (⟨d.abs, d.names ++ [n]⟩ : Path)))) []

/-- `glob( pathname, false, dironly )` (lines 371-466), for the names of the path in reverse.  The assertion of line 387 is that of `assert`. -/
noncomputable def globR (fs : Fs) (abs : Bool) : List Str → Bool → Res (List Path)
  | [], _ => pure (if abs then (if isDir fs ⟨abs, []⟩ then [⟨abs, []⟩] else []) else [])
  | base :: rdir, dironly =>
    let dirname : Path := ⟨abs, rdir.reverse⟩
    let path : Path := ⟨abs, (base :: rdir).reverse⟩
    if (base :: rdir).any hasMagic = false then do
      Res.assert (dironly = false)
      if base ≠ [] then pure (if (resolve fs path).isSome then [path] else [])
      else pure (if isDir fs dirname then [path] else [])
    else if abs = false ∧ rdir = [] then do
      let ns ← glob1 fs dirname base dironly
      pure (ns.map (fun n => ⟨false, [n]⟩))
    else do
      let dirs ← (if rdir.any hasMagic then globR fs abs rdir true else pure [dirname])
      inDirs fs dirs base dironly

/-- `glob( pathname )` (lines 470-473). -/
noncomputable def glob (fs : Fs) (p : Path) : Res (List Path) := globR fs p.abs p.names.reverse false

end Verif.Glob
