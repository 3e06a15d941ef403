/-!
# Outcomes and loops

The vocabulary all models are written in.  It models no particular function of /repo; it fixes what a
C++ computation may do: finish (`ok`), stop in a `better_assert`
(`include/utils/better_assert.hpp` lines 7-36) or have undefined behaviour.
-/
namespace Verif

/-- Outcome of a modelled C++ computation. -/
inductive Res (α : Type u) where
  /-- normal return -/
  | ok (a : α)
  /-- a `better_assert` fired (include/utils/better_assert.hpp lines 7-36; active without NDEBUG) -/
  | abort
  /-- undefined behaviour: out-of-bounds access, dangling pointer, endless loop, ... -/
  | ub
  deriving DecidableEq, Repr

namespace Res

/-- Sequencing of two computations (`a; b` in C++). -/
def bind {α β : Type u} : Res α → (α → Res β) → Res β
  | ok a, f => f a
  | abort, _ => abort
  | ub, _ => ub

instance : Monad Res where
  pure := ok
  bind := bind

@[simp] theorem pure_eq {α : Type u} (a : α) : (pure a : Res α) = ok a := rfl
@[simp] theorem bind_ok {α β : Type u} (a : α) (f : α → Res β) : (ok a >>= f) = f a := rfl
@[simp] theorem bind_abort {α β : Type u} (f : α → Res β) : ((abort : Res α) >>= f) = abort := rfl
@[simp] theorem bind_ub {α β : Type u} (f : α → Res β) : ((ub : Res α) >>= f) = ub := rfl

theorem bind_assoc {α β γ : Type u} (x : Res α) (f : α → Res β) (g : β → Res γ) :
    ((x >>= f) >>= g) = x >>= fun a => f a >>= g := by
  cases x <;> rfl

theorem bind_eq_ok {α β : Type u} {x : Res α} {f : α → Res β} {b : β} :
    (x >>= f) = ok b ↔ ∃ a, x = ok a ∧ f a = ok b := by
  cases x <;> simp

theorem map_eq {α β : Type u} (x : Res α) (f : α → β) : (f <$> x) = x >>= fun a => ok (f a) := by
  cases x <;> rfl

instance : LawfulMonad Res := LawfulMonad.mk'
  (id_map := by intro α x; cases x <;> rfl)
  (pure_bind := by intros; rfl)
  (bind_assoc := by intro α β γ x f g; cases x <;> rfl)

/-- `better_assert( c )` (include/utils/better_assert.hpp lines 7-36). -/
def assert (c : Prop) [Decidable c] : Res PUnit := if c then ok ⟨⟩ else abort

/-- A precondition whose failure is undefined behaviour. -/
def require (c : Prop) [Decidable c] : Res PUnit := if c then ok ⟨⟩ else ub

@[simp] theorem assert_true {c : Prop} [Decidable c] (h : c) : assert c = ok ⟨⟩ := by simp [assert, h]
@[simp] theorem assert_false {c : Prop} [Decidable c] (h : ¬ c) : assert c = abort := by simp [assert, h]
@[simp] theorem require_true {c : Prop} [Decidable c] (h : c) : require c = ok ⟨⟩ := by simp [require, h]
@[simp] theorem require_false {c : Prop} [Decidable c] (h : ¬ c) : require c = ub := by simp [require, h]

end Res

open Res

/-- `for ( auto idx : range(n) ) body` : run `body 0`, `body 1`, ..., `body (n-1)` on a state
(include/utils/range.hpp lines 23-165, and plain `for` loops). -/
def loop {σ : Type u} (n : Nat) (body : Nat → σ → Res σ) (s : σ) : Res σ :=
  match n with
  | 0 => ok s
  | n+1 => loop n body s >>= body n

/-- `for ( auto idx : range(a,b) ) body` (include/utils/range.hpp lines 23-165).  The iterator stops
only on equality with the end (line 52), so a range with `b < a` never ends. -/
def loopFrom {σ : Type u} (a b : Nat) (body : Nat → σ → Res σ) (s : σ) : Res σ :=
  if b < a then ub else loop (b - a) (fun i => body (a + i)) s

@[simp] theorem loop_zero {σ : Type u} (body : Nat → σ → Res σ) (s : σ) : loop 0 body s = ok s := rfl
theorem loop_succ {σ : Type u} (n : Nat) (body : Nat → σ → Res σ) (s : σ) :
    loop (n+1) body s = loop n body s >>= body n := rfl

/-- Loop rule with an invariant indexed by the iteration count. -/
theorem loop_inv {σ : Type u} {n : Nat} {body : Nat → σ → Res σ} {s : σ} (I : Nat → σ → Prop)
    (h0 : I 0 s) (hs : ∀ i t, i < n → I i t → ∃ t', body i t = ok t' ∧ I (i+1) t') :
    ∃ t, loop n body s = ok t ∧ I n t := by
  induction n with
  | zero => exact ⟨s, rfl, h0⟩
  | succ n ih =>
    obtain ⟨t, ht, hI⟩ := ih (fun i t hi hI => hs i t (by omega) hI)
    obtain ⟨t', ht', hI'⟩ := hs n t (by omega) hI
    exact ⟨t', by rw [loop_succ, ht, bind_ok, ht'], hI'⟩

theorem loop_congr {σ : Type u} {n : Nat} {f g : Nat → σ → Res σ} (s : σ)
    (h : ∀ i t, i < n → f i t = g i t) : loop n f s = loop n g s := by
  induction n with
  | zero => rfl
  | succ n ih =>
    rw [loop_succ, loop_succ, ih (fun i t hi => h i t (by omega))]
    cases loop n g s <;> simp [h n _ (Nat.lt_succ_self n)]

/-- Checked read `p[i]` from a buffer; outside the buffer it is undefined behaviour
(raw pointer subscripts, e.g. include/tensor.hpp lines 321-330, include/utils/view.hpp). -/
def rd {α : Type u} (b : List α) (i : Nat) : Res α :=
  match b[i]? with
  | some v => ok v
  | none => ub

/-- Checked write `p[i] = v` (same source lines as `rd`). -/
def wr {α : Type u} (b : List α) (i : Nat) (v : α) : Res (List α) :=
  if i < b.length then ok (b.set i v) else ub

theorem rd_ok {α : Type u} {b : List α} {i : Nat} {v : α} (h : b[i]? = some v) : rd b i = ok v := by
  simp [rd, h]

theorem rd_ub {α : Type u} {b : List α} {i : Nat} (h : b.length ≤ i) : rd b i = ub := by
  simp [rd, h]

theorem rd_eq_ok {α : Type u} {b : List α} {i : Nat} {v : α} : rd b i = ok v ↔ b[i]? = some v := by
  unfold rd; split <;> simp_all

theorem wr_ok {α : Type u} {b : List α} {i : Nat} {v : α} (h : i < b.length) :
    wr b i v = ok (b.set i v) := by simp [wr, h]

theorem wr_ub {α : Type u} {b : List α} {i : Nat} {v : α} (h : b.length ≤ i) : wr b i v = ub := by
  simp [wr, Nat.not_lt.mpr h]

end Verif
