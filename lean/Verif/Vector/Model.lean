import Verif.Alloc.Model
/-!
# `ceras::vector` on the caching allocator (model)

include/utils/vector.hpp with `cached_allocator` (include/utils/cached_allocator.hpp), the storage of every tensor (include/tensor.hpp lines 37-47).

An element is the list of its `w = sizeof(T)` bytes (`T` is trivially copyable).  Objects have names; an operation on an object that does not exist, giving back a block nobody holds, and access outside a block that is held are undefined.  Simplified: sizes do not overflow, the system does not run out of memory (C09 treats that), `std::copy_n` and `std::fill_n` are loops over the elements.
-/
namespace Verif.Vector
open Verif Res

/-- An element of `w` bytes. -/
abbrev Elem (w : Nat) := Fin w → Nat

/-- The members of `vector` (include/utils/vector.hpp lines 23-24). -/
structure Vec where
  size : Nat
  data : Nat

/-- `size_{ 0 }, data_{ nullptr }`. -/
def Vec.null : Vec := ⟨0, 0⟩

/-- The system: the address it answers a request with; and the choice of `find` among blocks of one size (`Alloc.cacheAllocate`). -/
structure Env where
  sys : Alloc.St → Nat → Nat
  pick : Alloc.St → Nat → Nat

/-- The block a vector points to. -/
def Vec.block (w : Nat) (v : Vec) : Alloc.Block := (v.size * w, v.data)

/-- `clear` (include/utils/vector.hpp lines 78-87). -/
def clear (w : Nat) (a : Alloc.St) (v : Vec) : Res (Alloc.St × Vec) :=
  if v.size ≠ 0 then do
    require (v.block w ∈ a.owned)
    pure (Alloc.deallocate a (v.block w), Vec.null)
  else pure (a, Vec.null)

/-- `resize` (include/utils/vector.hpp lines 89-102). -/
def resize (w : Nat) (E : Env) (a : Alloc.St) (v : Vec) (n : Nat) : Res (Alloc.St × Vec) :=
  if n = v.size then pure (a, v)
  else do
    let (a, v) ← clear w a v
    if n ≠ 0 then do
      let (a, p) ← Alloc.allocate a (n * w) (E.pick a (n * w)) (some (E.sys a (n * w))) none
      pure (a, ⟨n, p⟩)
    else pure (a, v)

/-- `data_[i]`. -/
def readElem (w : Nat) (a : Alloc.St) (v : Vec) (i : Nat) : Res (Elem w) := do
  require (v.block w ∈ a.owned ∧ i < v.size)
  pure (fun k => a.mem (v.data + i * w + k.val))

/-- `data_[i] = e`. -/
def writeElem (w : Nat) (a : Alloc.St) (v : Vec) (i : Nat) (e : Elem w) : Res Alloc.St := do
  require (v.block w ∈ a.owned ∧ i < v.size)
  pure { a with mem := fun x =>
    if h : v.data + i * w ≤ x ∧ x < v.data + i * w + w then e ⟨x - (v.data + i * w), by omega⟩ else a.mem x }

/-- `std::fill_n( data_, size_, init )` (include/utils/vector.hpp line 48). -/
def fill (w : Nat) (a : Alloc.St) (v : Vec) (e : Elem w) : Res Alloc.St :=
  loop v.size (fun i a => writeElem w a v i e) a

/-- `std::copy_n( other.data_, size_, data_ )` (include/utils/vector.hpp lines 55, 62). -/
def copyN (w : Nat) (a : Alloc.St) (v u : Vec) : Res Alloc.St :=
  loop v.size (fun i a => do
    let e ← readElem w a u i
    writeElem w a v i e) a

/-- `std::copy( init.begin(), init.end(), data() )` (include/utils/vector.hpp line 70). -/
def copyList (w : Nat) (a : Alloc.St) (v : Vec) (l : List (Elem w)) : Res Alloc.St :=
  loop l.length (fun i a => do
    let e ← rd l i
    writeElem w a v i e) a

/-- The objects of a program and the allocator. -/
structure St where
  a : Alloc.St
  vec : Nat → Option Vec

/-- What a program does with vectors. -/
inductive Op (w : Nat) where
  | make (x n : Nat) (e : Elem w)
  | makeList (x : Nat) (l : List (Elem w))
  | copyMake (x y : Nat)
  | moveMake (x y : Nat)
  | assign (x y : Nat)
  | moveAssign (x y : Nat)
  | resize (x n : Nat)
  | clear (x : Nat)
  | set (x i : Nat) (e : Elem w)
  | destroy (x : Nat)

/-- The object called `x`. -/
def St.get (s : St) (x : Nat) : Res Vec :=
  match s.vec x with
  | some v => ok v
  | none => ub

/-- Change the entry of one name. -/
def put {β : Type} (f : Nat → β) (x : Nat) (b : β) : Nat → β := fun y => if y = x then b else f y

variable {w : Nat}

/-- One operation (include/utils/vector.hpp: constructors lines 26-32, 43-56, 66-71; assignments lines 34-41, 58-64; destructor lines 73-76). -/
def step (E : Env) (s : St) : Op w → Res St
  | .make x n e => do
    require (s.vec x = none)
    let (a, v) ← resize w E s.a Vec.null n
    let a ← if v.size ≠ 0 then fill w a v e else pure a
    pure ⟨a, put s.vec x (some v)⟩
  | .makeList x l => do
    require (s.vec x = none)
    let (a, v) ← resize w E s.a Vec.null l.length
    let a ← if v.size ≠ 0 then copyList w a v l else pure a
    pure ⟨a, put s.vec x (some v)⟩
  | .copyMake x y => do
    require (s.vec x = none)
    let u ← s.get y
    let (a, v) ← resize w E s.a Vec.null u.size
    let a ← if v.size ≠ 0 then copyN w a v u else pure a
    pure ⟨a, put s.vec x (some v)⟩
  | .moveMake x y => do
    require (s.vec x = none)
    let u ← s.get y
    pure ⟨s.a, put (put s.vec x (some u)) y (some Vec.null)⟩
  | .assign x y => do
    let v ← s.get x
    let u ← s.get y
    let (a, v) ← resize w E s.a v u.size
    let a ← if v.size ≠ 0 then copyN w a v u else pure a
    pure ⟨a, put s.vec x (some v)⟩
  | .moveAssign x y => do
    let _ ← s.get x
    let u ← s.get y
    pure ⟨s.a, put (put s.vec x (some u)) y (some Vec.null)⟩
  | .resize x n => do
    let v ← s.get x
    let (a, v) ← resize w E s.a v n
    pure ⟨a, put s.vec x (some v)⟩
  | .clear x => do
    let v ← s.get x
    let (a, v) ← clear w s.a v
    pure ⟨a, put s.vec x (some v)⟩
  | .set x i e => do
    let v ← s.get x
    let a ← writeElem w s.a v i e
    pure ⟨a, s.vec⟩
  | .destroy x => do
    let v ← s.get x
    let (a, _) ← clear w s.a v
    pure ⟨a, put s.vec x none⟩

/-- A program. -/
def run (E : Env) (s : St) : List (Op w) → Res St
  | [] => ok s
  | o :: os => step E s o >>= fun s => run E s os

/-- Start of the program. -/
def St.init : St := ⟨Alloc.St.init, fun _ => none⟩

end Verif.Vector
