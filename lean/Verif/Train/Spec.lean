import Verif.Train.Model
import Verif.Graph.Spec
import Verif.Graph.Operators
import Verif.Alias.Run
/-!
# Training passes on shared storages (specification)

When sharing storages does no harm: which operators' results may be overwritten, and what has to have a storage of its own.
-/
namespace Verif.Train
open Verif Res Tensor Graph
open Verif.Data (denote)

variable {α : Type}

/-- The place holders and constants of an expression. -/
def leaves : Ex α → List Nat
  | .leaf k => [k]
  | .var _ _ => []
  | .un _ _ e => leaves e
  | .bin _ _ l r => leaves l ++ leaves r

/-- Whose storage the result of an expression may be in, apart from operators' caches and new tensors. -/
inductive End where
  | op
  | leaf (k : Nat)
  | var (v : Nat)
  deriving DecidableEq

/-- Following `reshape`-like operators and left operands of `plus`. -/
def endOf (fk : Nat → FKind) : Ex α → End
  | .leaf k => .leaf k
  | .var v _ => .var v
  | .un i _ e => if fk i = .share then endOf fk e else .op
  | .bin i _ l _ => if fk i = .plus then endOf fk l else .op

/-- The place holders whose tensors a forward pass may overwrite: those a `plus` finds at the end of its left operand. -/
def killed (fk : Nat → FKind) : Ex α → List Nat
  | .leaf _ => []
  | .var _ _ => []
  | .un _ _ e => killed fk e
  | .bin i _ l r => killed fk l ++ killed fk r ++ (if fk i = .plus then (match endOf fk l with | .leaf k => [k] | _ => []) else [])

/-- Backward does not look at the result. -/
def OutFree (op : UOp α) : Prop := ∀ x y y' g, op.bwd x y g = op.bwd x y' g
def OutFree2 (op : BOp α) : Prop := ∀ x y z z' g, op.bwd x y z g = op.bwd x y z' g

/-- Backward looks at the operand's shape only. -/
def Reshapes (op : UOp α) : Prop := ∀ x x' y y' g, x.shape = x'.shape → op.bwd x y g = op.bwd x' y' g

/-- Forward is `plus`, backward looks at the operands' shapes only. -/
def Pluses [Zero α] [Add α] (op : BOp α) : Prop := op.fwd = plusT ∧ ∀ x x' y y' z z' g, x.shape = x'.shape → y.shape = y'.shape → op.bwd x y z g = op.bwd x' y' z' g

/-- The result of the expression may be overwritten once it has been used: it is not a variable, and backward of the operator that made it does not look
at it. -/
def Dead (fk : Nat → FKind) : Ex α → Prop
  | .leaf _ => True
  | .var _ _ => False
  | .un i op e => if fk i = .share then Dead fk e else OutFree op
  | .bin i op l _ => if fk i = .plus then Dead fk l else OutFree2 op

/-- The operators are of the kinds `fk` says; every `plus` has a left operand that may be overwritten; no place holder overwritten is used twice. -/
def Safe [Zero α] [Add α] (fk : Nat → FKind) : Ex α → Prop
  | .leaf _ => True
  | .var _ _ => True
  | .un i op e => Safe fk e ∧ (fk i = .share → Reshapes op)
  | .bin i op l r => Safe fk l ∧ Safe fk r ∧ (∀ k ∈ killed fk l, k ∉ leaves r) ∧ (∀ k ∈ killed fk r, k ∉ leaves l) ∧
      (fk i = .plus → Pluses op ∧ Dead fk l ∧ ∀ k, endOf fk l = .leaf k → k ∉ leaves r)

/-- The operands of every `plus` have as many elements as their shapes say, and every operator that leaves its result in its operand's storage has a result with
the operand's elements. -/
def Sound (fk : Nat → FKind) (L D : Nat → Ten α) : Ex α → Prop
  | .leaf _ => True
  | .var _ _ => True
  | .un i op e => Sound fk L D e ∧ (fk i = .share → ∀ x y, eval L D e = ok x → op.fwd x = ok y → y.data = x.data)
  | .bin i _ l r => Sound fk L D l ∧ Sound fk L D r ∧ (fk i = .plus → ∀ x y, eval L D l = ok x → eval L D r = ok y →
      (x.WF ∧ x.shape.getLast? ≠ some minusOne) ∧ (y.WF ∧ y.shape.getLast? ≠ some minusOne))

/-- The storages that exist before a pass: of place holders, of variables, of their gradients, of the operators' caches. -/
inductive Tag where
  | leaf (k : Nat)
  | var (v : Nat)
  | grad (v : Nat)
  | opc (i : Nat)
  | bopc (i : Nat) (b : Bool)

def TSt.loc (s : TSt α) : Tag → Nat
  | .leaf k => (s.leafT k).loc
  | .var v => (s.varT v).loc
  | .grad v => (s.gradT v).loc
  | .opc i => s.opc i
  | .bopc i b => s.bopc i b

/-- The storages of an expression. -/
def InE (e : Ex α) : Tag → Prop
  | .leaf k => k ∈ leaves e
  | .var v => v ∈ vars e
  | .grad v => v ∈ vars e
  | .opc i => i ∈ ids e
  | .bopc i _ => i ∈ ids e

/-- The storages of an expression are all different (and below `N`). -/
structure Lay (e : Ex α) (N : Nat) (s : TSt α) : Prop where
  lt : ∀ τ, InE e τ → s.loc τ < N
  inj : ∀ τ τ', InE e τ → InE e τ' → s.loc τ = s.loc τ' → τ = τ'

/-- The variables of an expression, their gradients and flags are what they are in a state by value. -/
structure Sim (e : Ex α) (s : TSt α) (st : St α) : Prop where
  var : ∀ v ∈ vars e, denote s.heap (s.varT v) = some (st.data v)
  grad : ∀ v ∈ vars e, denote s.heap (s.gradT v) = some (st.grad v)
  sync : s.sync = st.sync
  training : s.training = st.training

end Verif.Train
