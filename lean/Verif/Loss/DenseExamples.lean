import Verif.Loss.Dense
import Verif.Loss.Examples
/-!
# Dense layers: the hypotheses of C101 can be met
-/
namespace Verif.Loss
open Verif Res View Data Ops Graph Optim

noncomputable section

/-- Two inputs, two hidden units with `relu`, one output; one sample. -/
def stNet : St ℝ where
  leaf k := if k = 0 then ⟨[1, 2], [1, 1]⟩ else ⟨[1, 1], [15]⟩
  data v := if v = 0 then ⟨[2, 2], [1, 2, 3, 4]⟩ else if v = 1 then ⟨[1, 2], [1, -1]⟩ else if v = 2 then ⟨[2, 1], [1, 2]⟩ else ⟨[1, 1], [1/2]⟩
  grad v := if v = 0 then ⟨[2, 2], [0, 0, 0, 0]⟩ else if v = 1 then ⟨[1, 2], [0, 0]⟩ else if v = 2 then ⟨[2, 1], [0, 0]⟩ else ⟨[1, 1], [0]⟩
  sync _ := false
  obj _ := ⟨noTensor, noTensor, noTensor⟩
  cache _ := none
  training := true
  done := []

def layersNet : List Layer := [⟨0, 1, 2, cfgL, cfgL, some .relu⟩, ⟨2, 3, 1, cfgL, cfgL, none⟩]

theorem netState0 : NetState kit0 layersNet 1 2 0 1 stNet (fun _ => cfgL) := by
  refine ⟨⟨fits0.reduces, le_refl 2, by decide, by decide⟩, by decide, by decide, ?_, ⟨rfl, rfl⟩, ⟨rfl, rfl⟩, rfl, ?_, ?_, ?_⟩
  · exact ⟨rfl, rfl, rfl, rfl, by decide, by decide, rfl, rfl, rfl, rfl, by decide, by decide, trivial⟩
  · intro y hy v hv
    simp only [layersNet, List.mem_cons, List.not_mem_nil, or_false] at hy
    rcases hy with rfl | rfl <;> rcases hv with rfl | rfl <;> exact ⟨rfl, rfl, rfl⟩
  · intro y hy
    simp only [layersNet, List.mem_cons, List.not_mem_nil, or_false] at hy
    rcases hy with rfl | rfl <;> exact ⟨rfl, rfl, rfl, rfl⟩
  · refine ⟨fun r j hr hj => ?_, fun _ _ _ _ => trivial, trivial⟩
    have hr0 : r = 0 := by omega
    subst hr0
    have hj' : j < 2 := hj
    have hj2 : j = 0 ∨ j = 1 := by omega
    rcases hj2 with rfl | rfl <;> simp [actDom, EOp.Dom, Finset.sum_range_succ, stNet, Ten.at, flat, size] <;> norm_num

/-- The network gives 31/2, the label is 15. -/
example : eval stNet.leaf stNet.data (squaredLoss kit0 6 (.leaf 1) (mlp kit0 layersNet 0 (.leaf 0))) = ok ⟨[1], [1/4]⟩ := by
  have := mlp_squared_value netState0
  rw [show 3 * layersNet.length = 6 from rfl] at this
  rw [this]
  simp [layersNet, net, outputs, actF, EOp.fwd, Finset.sum_range_succ, stNet, Ten.at, flat, size]
  norm_num

example (eps : ℝ) : Stores eps (squaredLoss kit0 6 (.leaf 1) (mlp kit0 layersNet 0 (.leaf 0))) stNet (fun _ => cfgL) 1 := mlp_squared_gradient eps netState0

end
end Verif.Loss
