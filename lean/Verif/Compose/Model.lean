import Verif.Graph.Spec
import Verif.Serial.Model
/-!
# Using a model as a layer (model)

`replace_placeholder_with_expression`, `model::operator()` and `make_trainable`, `include/model.hpp` lines 17-68, 382-385, 407-410.

As the code stands these templates only compile for models whose expression is a leaf: they name members (`ex.op_`, `ex.forward_action_`, ...) that have since moved to
`state_` (include/operation.hpp lines 58-66).  The model here is what they say, with the members read from `state_`.

Identities of new operators are taken from a counter (include/utils/id.hpp); the identities of the tensors in a new operator are not counted here.
-/
namespace Verif.Compose
open Verif Res Graph

variable {α : Type}

/-- `replace_placeholder_with_expression` (include/model.hpp lines 43-68); `ph` tells place holders from constants.  The parameter `old_place_holder` is not used.
Constructing an operator takes a new identity; its operands are built before it.  For a binary operator the two operands are arguments of one call, whose order of
evaluation is left open by C++; here from left to right. -/
def replace (ph : Nat → Bool) (new : Ex α) : Ex α → Nat → Ex α × Nat
  | .leaf k, n => (if ph k then new else .leaf k, n)
  | .var v c, n => (.var v c, n)
  | .un _ op e, n =>
    let (e', n) := replace ph new e n
    (.un n op e', n + 1)
  | .bin _ op l r, n =>
    let (l', n) := replace ph new l n
    let (r', n) := replace ph new r n
    (.bin n op l' r', n + 1)

/-- The same on the serialised side: the operators are rebuilt without their serializer, that is with the default one (include/operation.hpp lines 123-124,
247-248). -/
def replaceS (new : Serial.SEx) : Serial.SEx → Nat → Serial.SEx × Nat
  | .ph _ _, n => (new, n)
  | .val id ty d, n => (.val id ty d, n)
  | .con id tid ty, n => (.con id tid ty, n)
  | .var id tid ty regs, n => (.var id tid ty regs, n)
  | .un _ name _ x, n =>
    let (x', n) := replaceS new x n
    (.un n name .plain x', n + 1)
  | .bin _ name _ l r, n =>
    let (l', n) := replaceS new l n
    let (r', n) := replaceS new r n
    (.bin n name none l' r', n + 1)

/-- `make_trainable` (include/model.hpp lines 17-33). -/
def makeTrainable (t : Bool) : Ex α → Ex α
  | .leaf k => .leaf k
  | .var v c => .var v { c with trainable := t }
  | .un id op e => .un id op (makeTrainable t e)
  | .bin id op l r => .bin id op (makeTrainable t l) (makeTrainable t r)

end Verif.Compose
