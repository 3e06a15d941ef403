import Verif.Basic.Kernel
/-!
# The vector that keeps a tensor's shape (model)

`tensor::shape_` is a `std::vector<unsigned long, buffered_allocator<unsigned long, 256>>` (include/tensor.hpp line 52).  The allocator
(include/utils/buffered_allocator.hpp) hands out its own member `cache_` for blocks of at most 256 bytes, so that the elements of the vector
lie inside the vector object itself, and every block of one vector is the same memory.  `std::vector` is modelled as in libstdc++: range
and copy constructor, copy assignment, `resize` and destructor ask the allocator stored in the object; `select_on_container_copy_construction`
copies the allocator with its bytes, assignment does not propagate it.  Words are natural numbers of eight bytes.  Names stand for the
addresses of the objects; a pointer is null, points to the first word of the cache inside an object, or to a block of the heap.
-/
namespace Verif.ShapeVec
open Verif Res

/-- The object a vector lives in. -/
abbrev Name := Nat

inductive Ptr where
  | null | cache (y : Name) | heap (a : Nat)
  deriving DecidableEq, Repr

/-- A vector object: the allocator's `cache_` (include/utils/buffered_allocator.hpp line 68; 32 words), the pointer to the elements, their
number and the capacity. -/
structure Vec where
  cache : Nat → Nat
  ptr : Ptr
  size : Nat
  cap : Nat

/-- A block of the heap: the number of elements it was asked for with, and its words. -/
structure Block where
  count : Nat
  data : Nat → Nat

structure St where
  vec : Name → Option Vec
  heap : Nat → Option Block
  next : Nat

/-- Words of the cache: 256 bytes of eight (include/tensor.hpp line 52). -/
def words : Nat := 32

def put {β : Type} (f : Nat → Option β) (x : Nat) (v : Option β) : Nat → Option β := fun y => if y = x then v else f y

def get (s : St) (x : Name) : Res Vec :=
  match s.vec x with
  | some v => ok v
  | none => ub

/-- `p[i]`, read. -/
def read (s : St) (p : Ptr) (i : Nat) : Res Nat :=
  match p with
  | .null => ub
  | .cache y => match s.vec y with
    | none => ub
    | some v => if i < words then ok (v.cache i) else ub
  | .heap a => match s.heap a with
    | none => ub
    | some b => if i < b.count then ok (b.data i) else ub

def wset (f : Nat → Nat) (i e : Nat) : Nat → Nat := fun k => if k = i then e else f k

/-- `p[i] = e`. -/
def write (s : St) (p : Ptr) (i e : Nat) : Res St :=
  match p with
  | .null => ub
  | .cache y => match s.vec y with
    | none => ub
    | some v => if i < words then ok { s with vec := put s.vec y (some { v with cache := wset v.cache i e }) } else ub
  | .heap a => match s.heap a with
    | none => ub
    | some b => if i < b.count then ok { s with heap := put s.heap a (some { b with data := wset b.data i e }) } else ub

/-- `buffered_allocator::allocate( n )` of the allocator inside `x` (include/utils/buffered_allocator.hpp lines 33-48).  On the heap it asks
for as many elements as it wants bytes.  `junk` is what the memory holds. -/
def allocate (junk : Nat → Nat) (s : St) (x : Name) (n : Nat) : St × Ptr :=
  let bytes := 8 * n
  if bytes ≤ 256 then (s, .cache x)
  else ({ s with heap := put s.heap s.next (some ⟨bytes, junk⟩), next := s.next + 1 }, .heap s.next)

/-- `buffered_allocator::deallocate( p, n )` (include/utils/buffered_allocator.hpp lines 50-66).  `std::allocator::deallocate` requires the
number of elements given to `allocate`. -/
def deallocate (s : St) (p : Ptr) (n : Nat) : Res St :=
  let bytes := 8 * n
  if bytes ≤ 256 then ok s
  else match p with
    | .heap a => match s.heap a with
      | some b => do
        require (b.count = n)
        pure { s with heap := put s.heap a none }
      | none => ub
    | _ => ub

/-- `_M_allocate`: null for no elements. -/
def vAllocate (junk : Nat → Nat) (s : St) (x : Name) (n : Nat) : St × Ptr := if n = 0 then (s, .null) else allocate junk s x n

/-- `_M_deallocate`: nothing for null. -/
def vDeallocate (s : St) (p : Ptr) (n : Nat) : Res St := if p = .null then ok s else deallocate s p n

/-- Copy the elements of a range that does not belong to the vectors here. -/
def writeList (s : St) (p : Ptr) (l : List Nat) : Res St := loop l.length (fun i s => do
  let e ← rd l i
  write s p i e) s

/-- Copy `n` elements from one pointer to another. -/
def copyN (s : St) (src : Ptr) (n : Nat) (dst : Ptr) : Res St := loop n (fun i s => do
  let e ← read s src i
  write s dst i e) s

/-- Zeros from position `k` on. -/
def zeroN (s : St) (p : Ptr) (k n : Nat) : Res St := loop n (fun i s => write s p (k + i) 0) s

/-- Set the three pointers of a vector. -/
def setFields (s : St) (x : Name) (p : Ptr) (size cap : Nat) : Res St := do
  let v ← get s x
  pure { s with vec := put s.vec x (some { v with ptr := p, size := size, cap := cap }) }

/-- `shape_{ shape.begin(), shape.end() }` (include/tensor.hpp lines 65, 71, 81, 86, 95, 102): a new vector with the elements of a
range. -/
def make (junk : Nat → Nat) (x : Name) (l : List Nat) (s : St) : Res St := do
  require (s.vec x = none)
  let s := { s with vec := put s.vec x (some ⟨junk, .null, 0, 0⟩) }
  let (s, p) := vAllocate junk s x l.length
  let s ← writeList s p l
  setFields s x p l.length l.length

/-- `shape_{ other.shape_ }` (copy and move constructor of tensor, include/tensor.hpp lines 111, 120): the allocator is copied with its
bytes, then the elements. -/
def copyMake (junk : Nat → Nat) (x y : Name) (s : St) : Res St := do
  require (s.vec x = none)
  let u ← get s y
  let s := { s with vec := put s.vec x (some ⟨u.cache, .null, 0, 0⟩) }
  let (s, p) := vAllocate junk s x u.size
  let s ← copyN s u.ptr u.size p
  setFields s x p u.size u.size

/-- `shape_ = other.shape_` (copy and move assignment of tensor, include/tensor.hpp lines 131, 142). -/
def assign (junk : Nat → Nat) (x y : Name) (s : St) : Res St := do
  let v ← get s x
  let u ← get s y
  if x = y then pure s
  else if v.cap < u.size then do
    let (s, p) := vAllocate junk s x u.size
    let s ← copyN s u.ptr u.size p
    let s ← vDeallocate s v.ptr v.cap
    setFields s x p u.size u.size
  else do
    let s ← copyN s u.ptr u.size v.ptr
    setFields s x v.ptr u.size v.cap

/-- `shape_.resize( n )`: in place if the capacity allows, else `_M_default_append` with a new block of `size + max( size, n - size )`
elements: the new elements first, then the old ones are moved over, then the old block is given back. -/
def resize (junk : Nat → Nat) (x : Name) (n : Nat) (s : St) : Res St := do
  let v ← get s x
  if v.size < n then
    if n ≤ v.cap then do
      let s ← zeroN s v.ptr v.size (n - v.size)
      setFields s x v.ptr n v.cap
    else do
      let len := v.size + max v.size (n - v.size)
      let (s, p) := vAllocate junk s x len
      let s ← zeroN s p v.size (n - v.size)
      let s ← copyN s v.ptr v.size p
      let s ← vDeallocate s v.ptr v.cap
      setFields s x p n len
  else setFields s x v.ptr n v.cap

/-- The part of `tensor::resize` and `tensor::reshape` that sets the shape (include/tensor.hpp lines 340-341, 365-366). -/
def setShape (junk : Nat → Nat) (x : Name) (l : List Nat) (s : St) : Res St := do
  let s ← resize junk x l.length s
  let v ← get s x
  writeList s v.ptr l

/-- The destructor. -/
def destroy (x : Name) (s : St) : Res St := do
  let v ← get s x
  let s ← vDeallocate s v.ptr v.cap
  pure { s with vec := put s.vec x none }

/-- `tensor::shape()` (include/tensor.hpp lines 292-295): the elements. -/
def shapeOf (x : Name) (s : St) : Res (List Nat) := do
  let v ← get s x
  loop v.size (fun i acc => do
    let e ← read s v.ptr i
    pure (acc ++ [e])) []

/-- What a program does to the shapes of its tensors. -/
inductive Cmd where
  | make (x : Name) (l : List Nat)
  | copy (x y : Name)
  | assign (x y : Name)
  | set (x : Name) (l : List Nat)
  | destroy (x : Name)

def step (junk : Nat → Nat) : Cmd → St → Res St
  | .make x l => make junk x l
  | .copy x y => copyMake junk x y
  | .assign x y => assign junk x y
  | .set x l => setShape junk x l
  | .destroy x => destroy x

def run (junk : Nat → Nat) : List Cmd → St → Res St
  | [], s => ok s
  | c :: cs, s => do
    let s ← step junk c s
    run junk cs s

/-- Before the first tensor. -/
def start : St := ⟨fun _ => none, fun _ => none, 0⟩

end Verif.ShapeVec
