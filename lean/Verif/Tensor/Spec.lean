import Verif.Tensor.Model
/-!
# Specification vocabulary for tensors
-/
namespace Verif.Tensor
open Verif Res

variable {α : Type}

/-- Tensor `t` is well formed in heap `h` and its element at every multi-index `is` of its shape is `a is`. -/
def Holds (h : Heap α) (t : Tn) (a : List Nat → α) : Prop := ∃ b, h[t.loc]? = some b ∧ IsT b t.shape a

/-- All elements seen through `t`, in storage order. -/
def contents (h : Heap α) (t : Tn) : Option (List α) := h[t.loc]?

/-- Size of dimension `k` counted from the right; a missing dimension counts as 1. -/
def dimR (s : List Nat) (k : Nat) : Nat := if h : k < s.length then s[s.length - 1 - k] else 1

/-- NumPy compatibility of two shapes. -/
def Compatible (a b : List Nat) : Prop := ∀ k, dimR a k = dimR b k ∨ dimR a k = 1 ∨ dimR b k = 1

/-- `s` broadcasts to `new`: not more dimensions, and each right-aligned dimension is equal or 1. -/
def BroadcastsTo (s new : List Nat) : Prop := s.length ≤ new.length ∧ ∀ k, k < s.length → dimR s k = dimR new k ∨ dimR s k = 1

/-- The index of the original element shown at index `is` after broadcasting: drop the surplus leading coordinates,
use 0 in every dimension of extent 1. -/
def bcIdx (s : List Nat) (is : List Nat) : List Nat :=
  List.zipWith (fun d i => if d = 1 then 0 else i) s (is.drop (is.length - s.length))

/-! ### histories of operations on several tensor variables -/

/-- Operations a program may perform on its tensor variables (numbered). -/
inductive Cmd (α : Type) where
  | new (shape : List Nat) (v : α)
  | init (shape : List Nat) (vs : List α)
  | copy (i : Nat)
  | assign (i j : Nat)
  | resize (i : Nat) (shape : List Nat)
  | reshape (i : Nat) (shape : List Nat)
  | deepCopy (i : Nat)
  | deepCopyFrom (i j : Nat)
  | opAssign (f : α → α → α) (i j : Nat)
  | map (f : α → α) (i : Nat)
  | reset (i : Nat) (v : α)
  | set (i k : Nat) (v : α)

/-- A program state: the tensor variables and the heap. -/
abbrev State (α : Type) := List Tn × Heap α

/-- Execute one operation. -/
def step [Zero α] (s : State α) : Cmd α → Res (State α)
  | .new shape v => let r := newT s.2 shape v; ok (s.1 ++ [r.1], r.2)
  | .init shape vs => do let r ← newInit s.2 shape vs; pure (s.1 ++ [r.1], r.2)
  | .copy i => do let t ← rd s.1 i; pure (s.1 ++ [t], s.2)
  | .assign i j => do let t ← rd s.1 j; let e ← wr s.1 i t; pure (e, s.2)
  | .resize i shape => do let t ← rd s.1 i; let r ← Tensor.resize s.2 t shape; let e ← wr s.1 i r.1; pure (e, r.2)
  | .reshape i shape => do let t ← rd s.1 i; let r ← Tensor.reshape s.2 t shape; let e ← wr s.1 i r.1; pure (e, r.2)
  | .deepCopy i => do let t ← rd s.1 i; let r ← Tensor.deepCopy s.2 t; pure (s.1 ++ [r.1], r.2)
  | .deepCopyFrom i j => do
      let t ← rd s.1 i
      let o ← rd s.1 j
      let r ← Tensor.deepCopyFrom s.2 t o
      let e ← wr s.1 i r.1
      pure (e, r.2)
  | .opAssign f i j => do let t ← rd s.1 i; let o ← rd s.1 j; let h ← Tensor.opAssign f s.2 t o; pure (s.1, h)
  | .map f i => do let t ← rd s.1 i; let h ← mapT f s.2 t; pure (s.1, h)
  | .reset i v => do let t ← rd s.1 i; let h ← Tensor.reset s.2 t v; pure (s.1, h)
  | .set i k v => do let t ← rd s.1 i; let h ← setT s.2 t k v; pure (s.1, h)

/-- Execute a history. -/
def run [Zero α] : List (Cmd α) → State α → Res (State α)
  | [], s => ok s
  | c :: cs, s => do let s' ← step s c; run cs s'

/-- Variable `i` shares its storage with no other variable. -/
def Unshared (s : State α) (i : Nat) : Prop :=
  ∀ t, s.1[i]? = some t → ∀ j u, s.1[j]? = some u → u.loc = t.loc → j = i

/-- The number of elements asked for by `reshape`, a trailing -1 being resolved. -/
def askedSize (n : Nat) (shape : List Nat) : Nat :=
  if shape.getLast? = some minusOne then size shape.dropLast * (n / size shape.dropLast) else size shape

/-- The discipline under which the size stays the product of the shape: an operation that changes the number of
elements of a storage is applied only to a variable that does not share it. -/
def Disciplined (s : State α) : Cmd α → Prop
  | .resize i shape => (∃ t b, s.1[i]? = some t ∧ s.2[t.loc]? = some b ∧ b.length = size shape) ∨ Unshared s i
  | .reshape i shape => (∃ t b, s.1[i]? = some t ∧ s.2[t.loc]? = some b ∧ b.length = askedSize b.length shape) ∨ Unshared s i
  | .deepCopyFrom i j => (∃ t o b, s.1[i]? = some t ∧ s.1[j]? = some o ∧ s.2[t.loc]? = some b ∧ b.length = size o.shape) ∨ Unshared s i
  | _ => True

/-- Every operation of the history is disciplined in the state it is executed in. -/
def AllDisciplined [Zero α] : List (Cmd α) → State α → Prop
  | [], _ => True
  | c :: cs, s => Disciplined s c ∧ ∀ s', step s c = ok s' → AllDisciplined cs s'

/-- The property of C11 in one state. -/
def SizesMatch (s : State α) : Prop := ∀ t ∈ s.1, sizeT s.2 t = ok (size t.shape)

/-! ### element writes -/

/-- A sequence of element writes, each through one of two tensors (`true`: the first). -/
def writes (h : Heap α) (a b : Tn) : List (Bool × Nat × α) → Res (Heap α)
  | [] => ok h
  | (w, i, v) :: ws => do let h' ← setT h (if w then a else b) i v; writes h' a b ws

/-- What the writes through one side alone make of a list. -/
def applyWrites (l : List α) (ws : List (Nat × α)) : List α := ws.foldl (fun l w => l.set w.1 w.2) l

/-- The writes that went through side `w`. -/
def through (w : Bool) (ws : List (Bool × Nat × α)) : List (Nat × α) := (ws.filter (fun x => x.1 == w)).map (·.2)

end Verif.Tensor
