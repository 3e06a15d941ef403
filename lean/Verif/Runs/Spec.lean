import Verif.Runs.Model
import Verif.Train.Frame
/-!
# Training runs on shared storages (specification)

When a program with shared storages does what a program by value does: what has to have a storage of its own, and what the storages have to hold.
-/
namespace Verif.Runs
open Verif Res View Tensor Data Graph Optim Fit Train
open Verif.Alias (readT)

noncomputable section

/-- The storages of a program: those of `Verif.Train`, and those of the contexts of the variables. -/
inductive Loc where
  | tag (τ : Tag)
  | ctx (v j : Nat)

def HO.loc (s : HO) : Loc → Nat
  | .tag τ => s.t.loc τ
  | .ctx v j => ((s.ctxT v).getD j ⟨[], 0⟩).loc

/-- The storages of the place holders `P`, the variables `U` (with gradients and contexts) and the operators `I`. -/
def Part (U I P : List Nat) (s : HO) : Loc → Prop
  | .tag (.leaf k) => k ∈ P
  | .tag (.var v) => v ∈ U
  | .tag (.grad v) => v ∈ U
  | .tag (.opc i) => i ∈ I
  | .tag (.bopc i _) => i ∈ I
  | .ctx v j => v ∈ U ∧ j < (s.ctxT v).length

/-- They are all different, and none is one of the storages `X` (of the user). -/
structure Apart (U I P X : List Nat) (s : HO) : Prop where
  lt : ∀ l, Part U I P s l → s.loc l < s.t.heap.length
  inj : ∀ l l', Part U I P s l → Part U I P s l' → s.loc l = s.loc l' → l = l'
  away : ∀ l, Part U I P s l → s.loc l ∉ X
  ext : ∀ q ∈ X, q < s.t.heap.length

/-- The program with shared storages is in the state `s`, the one by value in the state `os`. -/
structure Rel (U I P X : List Nat) (s : HO) (os : OSt) : Prop where
  apart : Apart U I P X s
  var : ∀ v ∈ U, denote s.t.heap (s.t.varT v) = some (os.st.data v)
  grad : ∀ v ∈ U, denote s.t.heap (s.t.gradT v) = some (os.st.grad v)
  ctx : ∀ v ∈ U, List.Forall₂ (fun t c => denote s.t.heap t = some c) (s.ctxT v) (os.ctx v)
  sync : s.t.sync = os.st.sync
  training : s.t.training = os.st.training
  reg : s.reg = os.reg

/-- Place holders stay bound to the same tensors, the storages of the user keep their contents, those of the place holders their sizes. -/
structure Stays (P X : List Nat) (s s' : HO) : Prop where
  leafT : s'.t.leafT = s.t.leafT
  ext : ∀ q ∈ X, s'.t.heap[q]? = s.t.heap[q]?
  len : ∀ k ∈ P, s'.t.heap[(s.t.leafT k).loc]?.map List.length = s.t.heap[(s.t.leafT k).loc]?.map List.length

/-- A loss whose variables, operators and place holders are among `U`, `I` and `P`, and that does not suffer from sharing (`Verif.Train.Safe`). -/
structure Fine (fk : Nat → FKind) (U I P : List Nat) (e : Ex ℝ) : Prop where
  nodup : (ids e).Nodup
  safe : Safe fk e
  vars : ∀ v ∈ vars e, v ∈ U
  ids : ∀ i ∈ ids e, i ∈ I
  leaves : ∀ k ∈ Train.leaves e, k ∈ P

theorem Stays.refl (P X : List Nat) (s : HO) : Stays P X s s := ⟨rfl, fun _ _ => rfl, fun _ _ => rfl⟩

theorem Stays.trans {P X : List Nat} {s s' s'' : HO} (h : Stays P X s s') (h' : Stays P X s' s'') : Stays P X s s'' :=
  ⟨h'.leafT.trans h.leafT, fun q hq => (h'.ext q hq).trans (h.ext q hq), fun k hk => by rw [← h.len k hk, ← h.leafT]; exact h'.len k hk⟩

end
end Verif.Runs
