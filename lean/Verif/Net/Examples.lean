import Verif.Net.Props
import Verif.Loss.Examples
/-!
# Networks of layers: the hypotheses of C105 can be met
-/
namespace Verif.Net
open Verif Res View Data Ops Graph Loss Optim Pool

noncomputable section

def kit1 : Kit := { kit0 with fuel := 4 }

/-- An image of three by three pixels, a two-by-two filter, and a dense layer with one unit. -/
def stConv : St ℝ where
  leaf k := if k = 0 then ⟨[1, 3, 3, 1], [1, 2, 3, 4, 5, 6, 7, 8, 9]⟩ else ⟨[1, 1], [54]⟩
  data v := if v = 0 then ⟨[1, 2, 2, 1], [1, 0, 0, 1]⟩ else if v = 1 then ⟨[1, 1, 1], [-1]⟩ else if v = 2 then ⟨[1, 1], [4]⟩ else ⟨[1, 1], [1]⟩
  grad v := if v = 0 then ⟨[1, 2, 2, 1], [0, 0, 0, 0]⟩ else if v = 1 then ⟨[1, 1, 1], [0]⟩ else if v = 2 then ⟨[1, 1], [0]⟩ else ⟨[1, 1], [0]⟩
  sync _ := false
  obj _ := ⟨noTensor, noTensor, noTensor⟩
  cache _ := none
  training := true
  done := []

/-- Convolution, `relu`, max pooling, `Flatten`, `Dense`. -/
def convNet : List Kind :=
  [.conv2D ⟨0, 1, cfgL, cfgL, 1, 2, 2, 1, 1, 1, 1, false, []⟩, .act .relu, .maxPool 2 ⟨[], []⟩ ⟨[], []⟩, .flatten, .dense 2 3 1 cfgL cfgL]

theorem reduces1 : Reduces (· + ·) kit1.red := fits0.reduces

theorem convOk0 : ConvOk kit1 stConv.data ⟨0, 1, cfgL, cfgL, 1, 2, 2, 1, 1, 1, 1, false, []⟩ 1 3 3 1 := by
  refine ⟨reduces1, le_refl 4, ⟨rfl, rfl⟩, ⟨rfl, rfl⟩, ⟨?_, by norm_num, ?_, by decide, by decide, by decide, by decide, by decide, by decide, rfl⟩, by simp,
    by decide, by decide, by decide⟩
  · unfold Conv.Geo.Fits; decide
  · exact Conv.recFor_nil

/-- What the convolution gives: the sum of a pixel and its diagonal neighbour, less 1. -/
theorem conv0 (r c : Nat) (hr : r < 2) (hc : c < 2) :
    convBias (Net.geo 2 2 1 1 1 1 false) 3 3 1 (asStored 1 2 2 1 (stConv.data 0).at) (stConv.data 1).at (stConv.leaf 0).at [0, r, c, 0] = 6 * r + 2 * c + 5 := by
  have h1 : r = 0 ∨ r = 1 := by omega
  have h2 : c = 0 ∨ c = 1 := by omega
  rcases h1 with rfl | rfl <;> rcases h2 with rfl | rfl <;>
    simp [convBias, Conv.direct, Finset.sum_range_succ, Net.geo, asStored, reidx, Conv.pixel, Conv.tapRow, Conv.tapCol, stConv, Ten.at, flat, size, unflat] <;> norm_num

theorem relu0 (r c : Nat) (hr : r < 2) (hc : c < 2) :
    val stConv.data [1, 2, 2, 1] (val stConv.data [1, 3, 3, 1] (stConv.leaf 0).at (.conv2D ⟨0, 1, cfgL, cfgL, 1, 2, 2, 1, 1, 1, 1, false, []⟩)) (.act .relu) [0, r, c, 0] =
      6 * r + 2 * c + 5 := by
  show EOp.relu.fwd (convBias (Net.geo 2 2 1 1 1 1 false) 3 3 1 (asStored 1 2 2 1 (stConv.data 0).at) (stConv.data 1).at (stConv.leaf 0).at [0, r, c, 0]) = _
  rw [conv0 r c hr hc]
  simp only [EOp.fwd]
  exact max_eq_left (by positivity)

theorem ready0 : Ready kit1 convNet [1, 3, 3, 1] 0 1 stConv (fun _ => cfgL) := by
  refine ⟨⟨⟨1, 3, 3, 1, rfl, convOk0⟩, trivial, ⟨1, 2, 2, 1, rfl, by decide, ?_, ?_⟩, ⟨1, [1, 1, 1], rfl, by simp, by decide, by decide, by decide⟩,
    ⟨1, 1, rfl, ⟨reduces1, by decide, by decide, by decide, by decide, by decide, by decide⟩, ⟨rfl, rfl⟩, rfl, rfl⟩, trivial⟩, ⟨rfl, rfl, by simp [stConv]⟩, ⟨rfl, rfl⟩,
    ⟨reduces1, by decide, by decide, by decide, by decide, by decide⟩, rfl, ?_, ?_, ?_⟩
  · exact Or.inr (by simp)
  · exact Or.inr (by simp)
  · intro k hk vc hvc
    simp only [convNet, List.mem_cons, List.not_mem_nil, or_false] at hk
    rcases hk with rfl | rfl | rfl | rfl | rfl <;> simp only [params, List.mem_cons, List.not_mem_nil, or_false] at hvc <;>
      rcases hvc with rfl | rfl <;> exact ⟨rfl, rfl, rfl⟩
  · intro k hk vc hvc
    simp only [convNet, List.mem_cons, List.not_mem_nil, or_false] at hk
    rcases hk with rfl | rfl | rfl | rfl | rfl <;> simp only [params, List.mem_cons, List.not_mem_nil, or_false] at hvc <;>
      rcases hvc with rfl | rfl <;> exact ⟨rfl, rfl⟩
  · refine ⟨trivial, ?_, ?_, trivial, trivial, trivial⟩
    · intro is hv
      have hv' : ValidIdx [1, 2, 2, 1] is := hv
      match is, hv' with
      | [b, r, c, ch], ⟨hb, hr, hc, hch, _⟩ =>
        have hb0 : b = 0 := by omega
        have hch0 : ch = 0 := by omega
        subst hb0 hch0
        show (convBias (Net.geo 2 2 1 1 1 1 false) 3 3 1 (asStored 1 2 2 1 (stConv.data 0).at) (stConv.data 1).at (stConv.leaf 0).at [0, r, c, 0]) ≠ 0
        rw [conv0 r c hr hc]
        positivity
    · intro b r c ch hb hr hc hch
      have hb0 : b = 0 := by simp [outShape] at hb; exact hb
      have hch0 : ch = 0 := by simp [outShape] at hch; exact hch
      have hr0 : r = 0 := by have : r < 2 / 2 := hr; omega
      have hc0 : c = 0 := by have : c < 2 / 2 := hc; omega
      subst hb0 hch0 hr0 hc0
      refine ⟨1, 1, ⟨by omega, by omega, by omega, by omega⟩, fun y' x' hw hne => ?_⟩
      obtain ⟨_, w1, _, w2⟩ := hw
      refine lt_of_eq_of_lt (relu0 y' x' (by omega) (by omega)) (lt_of_lt_of_eq ?_ (relu0 1 1 (by omega) (by omega)).symm)
      have h1 : y' = 0 ∨ y' = 1 := by omega
      have h2 : x' = 0 ∨ x' = 1 := by omega
      rcases h1 with rfl | rfl <;> rcases h2 with rfl | rfl <;> first | (simp at hne; done) | norm_num

/-- The window of max pooling has the largest element 13. -/
theorem pool0 : windowMax 2 (val stConv.data [1, 2, 2, 1] (val stConv.data [1, 3, 3, 1] (stConv.leaf 0).at (.conv2D ⟨0, 1, cfgL, cfgL, 1, 2, 2, 1, 1, 1, 1, false, []⟩))
    (.act .relu)) [0, 0, 0, 0] = 13 := by
  rw [windowMax_eq (y := 1) (x := 1) ⟨by omega, by omega, by omega, by omega⟩, relu0 1 1 (by omega) (by omega)]
  · norm_num
  · intro y' x' hw
    obtain ⟨_, w1, _, w2⟩ := hw
    rw [relu0 y' x' (by omega) (by omega), relu0 1 1 (by omega) (by omega)]
    have h1 : y' = 0 ∨ y' = 1 := by omega
    have h2 : x' = 0 ∨ x' = 1 := by omega
    rcases h1 with rfl | rfl <;> rcases h2 with rfl | rfl <;> norm_num

/-- The network gives 53, the label is 54. -/
example : eval stConv.leaf stConv.data (squaredLoss kit1 45 (.leaf 1) (stack kit1 convNet 0 [1, 3, 3, 1] (.leaf 0))) = ok ⟨[1], [1]⟩ := by
  have := network_squared_value ready0
  rw [show 9 * convNet.length = 45 from rfl] at this
  rw [this]
  have h : netVal stConv.data convNet [1, 3, 3, 1] (stConv.leaf 0).at [0, 0] = 53 := by
    show ∑ p ∈ Finset.range 1, windowMax 2 _ (unflat [1, 1, 1, 1] (flat [1, 1] [0, p])) * (stConv.data 2).at [p, 0] + (stConv.data 3).at [0, 0] = 53
    rw [Finset.sum_range_one, show unflat [1, 1, 1, 1] (flat [1, 1] [0, 0]) = [0, 0, 0, 0] from rfl]
    erw [pool0]
    simp [stConv, Ten.at, flat, size]
    norm_num
  rw [show netShape convNet [1, 3, 3, 1] = [1, 1] from rfl]
  simp only [sumIdx, Finset.sum_range_one]
  rw [h]
  simp [stConv, Ten.at, flat, size]
  norm_num

example (eps : ℝ) : Stores eps (squaredLoss kit1 45 (.leaf 1) (stack kit1 convNet 0 [1, 3, 3, 1] (.leaf 0))) stConv (fun _ => cfgL) 1 := network_squared_gradient eps ready0

/-- Every other layer can be applied to something. -/
example : Ok kit1 stConv.data [1, 3, 1, 1] (.convTranspose ⟨0, 1, cfgL, cfgL, 1, 2, 2, 2, 2, 1, 1, false, []⟩) := by
  refine ⟨1, 3, 1, 1, rfl, ⟨reduces1, le_refl 4, ⟨rfl, rfl⟩, ⟨rfl, rfl⟩, ⟨?_, by decide, ?_, by decide, by decide, by decide, by decide, by decide, by decide, rfl⟩, by simp,
    by decide, by decide, by decide⟩⟩
  · unfold Conv.Geo.Fits; decide
  · exact Conv.recFor_nil
example : Ok kit1 (fun v => if v = 0 then ⟨[2, 3, 1, 1], [1, 2, 3, 4, 5, 6]⟩ else ⟨[1, 1, 2], [1, 2]⟩) [4, 7, 1] (.conv1D ⟨0, 1, cfgL, cfgL, 2, 3, 1, 2, 1, 1, 1, false, []⟩) := by
  refine ⟨4, 7, 1, rfl, by decide, ⟨reduces1, le_refl 4, ⟨rfl, rfl⟩, ⟨rfl, rfl⟩, ⟨?_, by decide, ?_, by decide, by decide, by decide, by decide, by decide, by decide, rfl⟩, nofun,
    by decide, by decide, by decide⟩⟩
  · unfold Conv.Geo.Fits; decide
  · exact Conv.recFor_nil
example (K : Kit) (D : Nat → Ten ℝ) : Ok K D [5, 4, 6, 3] (.avgPool 2) := ⟨5, 4, 6, 3, rfl, by decide, by decide, by decide⟩
example (K : Kit) (D : Nat → Ten ℝ) : Ok K D [5, 4, 6, 3] (.upSample 3) := ⟨5, 4, 6, 3, rfl, by decide⟩
example (K : Kit) (D : Nat → Ten ℝ) : Ok K D [5, 4, 6, 3] (.crop ⟨1, 2, 3, 2⟩) := ⟨5, 4, 6, 3, rfl, by decide, by decide⟩
example (K : Kit) (D : Nat → Ten ℝ) : Ok K D [5, 4, 6, 3] (.reshape [12, 2, 3]) := ⟨by decide, by decide, by decide, by decide, by decide, by decide⟩
example (K : Kit) (D : Nat → Ten ℝ) : Ok K D [1, 1, 1, 1] (.zeroPad ⟨1, 0, 0, 1⟩ ⟨[], []⟩) := ⟨1, 1, 1, 1, rfl, Or.inl (by decide)⟩

end
end Verif.Net
