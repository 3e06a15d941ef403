import Verif.Basic.Res
/-!
# Model of include/utils/cached_allocator.hpp

A block is a pair (size, address) like `struct memory` (lines 22-27).  The system allocator
(`std::allocator<std::byte>`) is the environment: each system request carries its answer.  Releasing a block the
system does not regard as live, or writing through one, is undefined behaviour.
-/
namespace Verif.Alloc
open Verif Res

/-- (size, address), as `struct memory` (include/utils/cached_allocator.hpp lines 22-27). -/
abbrev Block := Nat × Nat

/-- `memory_cache` (include/utils/cached_allocator.hpp lines 38-41) plus the environment it acts on: blocks the
system has handed out (`live`), logs of what was obtained from and released to the system, the memory, and the
blocks currently held by users of the allocator (`owned`). -/
structure St where
  allocated : List Block
  reserved : List Block
  live : List Block
  obtained : List Block
  released : List Block
  owned : List Block
  mem : Nat → Nat

/-- Program start (include/utils/cached_allocator.hpp lines 108-111: the singleton is empty). -/
def St.init : St := ⟨[], [], [], [], [], [], fun _ => 0⟩

/-- `std::unordered_set::emplace` (include/utils/cached_allocator.hpp lines 49, 70): no duplicates. -/
def setInsert (l : List Block) (b : Block) : List Block := if b ∈ l then l else b :: l

/-- `alloc.deallocate( address, size )` of the system allocator (include/utils/cached_allocator.hpp lines 87, 92, 104). -/
def sysFree (s : St) (b : Block) : Res St :=
  if b ∈ s.live then ok { s with live := s.live.erase b, released := s.released ++ [b] } else ub

/-- Release a list of blocks one after the other (the loops at include/utils/cached_allocator.hpp lines 84-93, 103-104). -/
def sysFreeAll (s : St) : List Block → Res St
  | [] => ok s
  | b :: l => sysFree s b >>= fun s' => sysFreeAll s' l

/-- `memory_cache::gc` (include/utils/cached_allocator.hpp lines 97-107); `none` is the return value `false`.
The released entries stay in `reserved_memory`. -/
def gc (s : St) : Res (Option St) :=
  if s.reserved = [] then ok none
  else sysFreeAll s s.reserved >>= fun s' => ok (some s')

/-- The system hands out a block. -/
def obtain (s : St) (b : Block) : St := { s with live := b :: s.live, obtained := s.obtained ++ [b] }

/-- `memory_cache::allocate` (include/utils/cached_allocator.hpp lines 42-72).  `pick` chooses which of several
matching reserved blocks `find` returns; `sys1`, `sys2` are the system's answers (`none` = bad_alloc).  A second
bad_alloc leaves the function as an exception and ends the program (`abort`). -/
def cacheAllocate (s : St) (size pick : Nat) (sys1 sys2 : Option Nat) : Res (St × Nat) :=
  match (s.reserved.filter (fun b => b.1 = size))[pick % (s.reserved.filter (fun b => b.1 = size)).length]? with
  | some b => ok ({ s with allocated := setInsert s.allocated b, reserved := s.reserved.erase b }, b.2)
  | none =>
    match sys1 with
    | some a =>
      let s := obtain s (size, a)
      ok ({ s with allocated := setInsert s.allocated (size, a) }, a)
    | none => do
      match ← gc s with
      | none => abort
      | some s =>
        match sys2 with
        | none => abort
        | some a =>
          let s := obtain s (size, a)
          ok ({ s with allocated := setInsert s.allocated (size, a) }, a)

/-- `std::memset( ans, 0, n )` (include/utils/cached_allocator.hpp line 144) on a block that must be live. -/
def memset0 (s : St) (b : Block) : Res St :=
  if b ∈ s.live then ok { s with mem := fun x => if b.2 ≤ x ∧ x < b.2 + b.1 then 0 else s.mem x } else ub

/-- `cached_allocator::allocate` (include/utils/cached_allocator.hpp lines 141-147); sizes are in bytes. -/
def allocate (s : St) (size pick : Nat) (sys1 sys2 : Option Nat) : Res (St × Nat) := do
  let (s, a) ← cacheAllocate s size pick sys1 sys2
  let s ← memset0 s (size, a)
  ok ({ s with owned := (size, a) :: s.owned }, a)

/-- `cached_allocator::deallocate` / `memory_cache::deallocate`
(include/utils/cached_allocator.hpp lines 74-78, 149-152). -/
def deallocate (s : St) (b : Block) : St :=
  { s with allocated := s.allocated.erase b, reserved := b :: s.reserved, owned := s.owned.erase b }

/-- `~memory_cache` (include/utils/cached_allocator.hpp lines 80-94). -/
def shutdown (s : St) : Res St :=
  sysFreeAll s s.allocated >>= fun s => sysFreeAll s s.reserved

/-- What the rest of the program does with the allocator: ask for a block, give back a block, write a byte. -/
inductive Op where
  | allocate (size pick : Nat) (sys1 sys2 : Option Nat)
  | deallocate (b : Block)
  | write (addr val : Nat)

/-- One event (entry points of include/utils/cached_allocator.hpp, used by include/utils/vector.hpp lines 74-98). -/
def step (s : St) : Op → Res St
  | .allocate size pick sys1 sys2 => allocate s size pick sys1 sys2 >>= fun r => ok r.1
  | .deallocate b => ok (deallocate s b)
  | .write x v => ok { s with mem := fun y => if y = x then v else s.mem y }

/-- A history of events. -/
def run (s : St) : List Op → Res St
  | [] => ok s
  | o :: os => step s o >>= fun s' => run s' os

end Verif.Alloc
