import Verif.Branch.Violated
import Verif.Net.Examples
/-!
# Networks that branch: the hypotheses of C112 can be met
-/
namespace Verif.Branch
open Verif Res View Data Ops Graph Loss Net

noncomputable section

theorem allOk_nil {K : Kit} {D : Nat → Ten ℝ} {s : List Nat} {a : List Nat → ℝ} : AllOk K D s a [] := fun pre n h => by simp at h

theorem allOk_snoc {K : Kit} {D : Nat → Ten ℝ} {s : List Nat} {a : List Nat → ℝ} {ns : List Node} {n : Node} (h : AllOk K D s a ns) (hn : n.Ok K D (ns.length + 1) (valOf D s a ns)) :
    AllOk K D s a (ns ++ [n]) := by
  intro pre m hp
  rcases List.prefix_concat_iff.mp hp with h' | h'
  · obtain ⟨rfl, h2⟩ := List.append_inj' h' rfl
    cases h2
    exact hn
  · exact h pre m h'

theorem allDom_nil {D : Nat → Ten ℝ} {s : List Nat} {a : List Nat → ℝ} : AllDom D s a [] := fun pre n h => by simp at h

theorem allDom_snoc {D : Nat → Ten ℝ} {s : List Nat} {a : List Nat → ℝ} {ns : List Node} {n : Node} (h : AllDom D s a ns) (hn : n.Dom (valOf D s a ns)) : AllDom D s a (ns ++ [n]) := by
  intro pre m hp
  rcases List.prefix_concat_iff.mp hp with h' | h'
  · obtain ⟨rfl, h2⟩ := List.append_inj' h' rfl
    cases h2
    exact hn
  · exact h pre m h'

/-- Two inputs, two labels, two dense layers with two units each. -/
def stB : St ℝ where
  leaf k := if k = 0 then ⟨[1, 2], [1, 1]⟩ else ⟨[1, 2], [15, 16]⟩
  data v := if v = 0 then ⟨[2, 2], [1, 2, 3, 4]⟩ else if v = 1 then ⟨[1, 2], [1, -1]⟩ else if v = 2 then ⟨[2, 2], [1, 0, 0, 2]⟩ else ⟨[1, 2], [1/2, 0]⟩
  grad v := if v = 0 then ⟨[2, 2], [0, 0, 0, 0]⟩ else if v = 1 then ⟨[1, 2], [0, 0]⟩ else if v = 2 then ⟨[2, 2], [0, 0, 0, 0]⟩ else ⟨[1, 2], [0, 0]⟩
  sync _ := false
  obj _ := ⟨noTensor, noTensor, noTensor⟩
  cache _ := none
  training := true
  done := []

/-- Two dense layers of the input, one of them through `relu`, multiplied. -/
def gated : List Node := [.layer (.dense 0 1 2 cfgL cfgL) 0, .layer (.act .relu) 1, .layer (.dense 2 3 2 cfgL cfgL) 0, .mul 2 3]

theorem dense01 {D : Nat → Ten ℝ} (h : D = stB.data) {len : Nat} {V : Nat → List Nat × (List Nat → ℝ)} {x : Nat} (hx : x < len) (hV : (V x).1 = [1, 2]) :
    (Node.layer (.dense 0 1 2 cfgL cfgL) x).Ok kit0 D len V := by
  refine ⟨by simpa [Node.operands] using hx, ?_⟩
  show Net.Ok _ _ _ _
  rw [hV, h]
  exact ⟨1, 2, rfl, ⟨fits0.reduces, by decide, by decide, by decide, by decide, by decide, by decide⟩, ⟨rfl, rfl⟩, rfl, rfl⟩

theorem dense23 {D : Nat → Ten ℝ} (h : D = stB.data) {len : Nat} {V : Nat → List Nat × (List Nat → ℝ)} {x : Nat} (hx : x < len) (hV : (V x).1 = [1, 2]) :
    (Node.layer (.dense 2 3 2 cfgL cfgL) x).Ok kit0 D len V := by
  refine ⟨by simpa [Node.operands] using hx, ?_⟩
  show Net.Ok _ _ _ _
  rw [hV, h]
  exact ⟨1, 2, rfl, ⟨fits0.reduces, by decide, by decide, by decide, by decide, by decide, by decide⟩, ⟨rfl, rfl⟩, rfl, rfl⟩

theorem fits12 : Fits1 kit0 [1, 2] := ⟨fits0.reduces, by simp, by decide, by decide, by decide, by decide⟩

theorem gated_ok : AllOk kit0 stB.data [1, 2] (stB.leaf 0).at gated :=
  allOk_snoc (ns := [_, _, _]) (allOk_snoc (ns := [_, _]) (allOk_snoc (ns := [_]) (allOk_snoc (ns := []) allOk_nil (dense01 rfl (by simp) rfl))
    ⟨by simp [Node.operands], trivial⟩) (dense23 rfl (by simp) rfl)) ⟨by simp [Node.operands], rfl, fits12⟩

/-- The first dense layer of the input gives 5 and 5. -/
theorem dense0 (j : Nat) (hj : j < 2) : Net.val stB.data [1, 2] (stB.leaf 0).at (.dense 0 1 2 cfgL cfgL) [0, j] = 5 := by
  have h : j = 0 ∨ j = 1 := by omega
  rcases h with rfl | rfl <;> simp [Net.val, affine, stB, Ten.at, flat, size, Finset.sum_range_succ] <;> norm_num

theorem gated_dom : AllDom stB.data [1, 2] (stB.leaf 0).at gated := by
  refine allDom_snoc (ns := [_, _, _]) (allDom_snoc (ns := [_, _]) (allDom_snoc (ns := [_]) (allDom_snoc (ns := []) allDom_nil trivial) ?_) trivial) trivial
  intro is hv
  match is, hv with
  | [b, j], ⟨hb, hj, _⟩ =>
    have hb0 : b = 0 := by have : b < 1 := hb; omega
    subst hb0
    show Net.val stB.data [1, 2] (stB.leaf 0).at (.dense 0 1 2 cfgL cfgL) [0, j] ≠ 0
    rw [dense0 j hj]
    norm_num

theorem gated_ready : Ready kit0 gated [1, 2] 0 1 4 stB (fun _ => cfgL) := by
  refine ⟨gated_ok, by simp [Once, gated, Node.operands], by simp [gated], ⟨rfl, rfl, by simp [stB]⟩, ⟨rfl, rfl⟩, fits12, rfl, ?_, ?_, gated_dom⟩
  · intro n hn vc hvc
    simp only [gated, List.mem_cons, List.not_mem_nil, or_false] at hn
    rcases hn with rfl | rfl | rfl | rfl <;> simp only [Node.params, Net.params, List.mem_cons, List.not_mem_nil, or_false] at hvc <;>
      rcases hvc with rfl | rfl <;> exact ⟨rfl, rfl, rfl⟩
  · intro n hn vc hvc
    simp only [gated, List.mem_cons, List.not_mem_nil, or_false] at hn
    rcases hn with rfl | rfl | rfl | rfl <;> simp only [Node.params, Net.params, List.mem_cons, List.not_mem_nil, or_false] at hvc <;>
      rcases hvc with rfl | rfl <;> exact ⟨rfl, rfl⟩

example (eps : ℝ) : Stores eps (squaredLoss kit0 45 (.leaf 1) (exprOf kit0 [1, 2] 0 gated 4)) stB (fun _ => cfgL) 1 := branch_squared_gradient_partial eps gated_ready

/-- Its output is 7.5 and 10. -/
theorem gated_out : outV stB [1, 2] 0 gated 4 [0, 0] = 15 / 2 ∧ outV stB [1, 2] 0 gated 4 [0, 1] = 10 := by
  have r : ∀ j, j < 2 → Net.val stB.data [1, 2] (Net.val stB.data [1, 2] (stB.leaf 0).at (.dense 0 1 2 cfgL cfgL)) (.act .relu) [0, j] = 5 := by
    intro j hj
    show EOp.relu.fwd (Net.val stB.data [1, 2] (stB.leaf 0).at (.dense 0 1 2 cfgL cfgL) [0, j]) = 5
    rw [dense0 j hj]
    exact max_eq_left (by norm_num)
  constructor
  · show Net.val stB.data [1, 2] (Net.val stB.data [1, 2] (stB.leaf 0).at (.dense 0 1 2 cfgL cfgL)) (.act .relu) [0, 0] *
      Net.val stB.data [1, 2] (stB.leaf 0).at (.dense 2 3 2 cfgL cfgL) [0, 0] = _
    rw [r 0 (by omega)]
    simp [Net.val, affine, stB, Ten.at, flat, size, Finset.sum_range_succ]
    norm_num
  · show Net.val stB.data [1, 2] (Net.val stB.data [1, 2] (stB.leaf 0).at (.dense 0 1 2 cfgL cfgL)) (.act .relu) [0, 1] *
      Net.val stB.data [1, 2] (stB.leaf 0).at (.dense 2 3 2 cfgL cfgL) [0, 1] = _
    rw [r 1 (by omega)]
    simp [Net.val, affine, stB, Ten.at, flat, size, Finset.sum_range_succ]
    norm_num

/-- The labels are 15 and 16. -/
example : eval stB.leaf stB.data (squaredLoss kit0 45 (.leaf 1) (exprOf kit0 [1, 2] 0 gated 4)) = ok ⟨[1], [225 / 4 + 36]⟩ := by
  have := branch_squared_value gated_ready
  rw [show 9 * (gated.length + 1) = 45 from rfl] at this
  rw [this, show outS stB [1, 2] 0 gated 4 = [1, 2] from rfl]
  simp only [sumIdx, Finset.sum_range_succ, Finset.sum_range_zero,
    gated_out.1, gated_out.2]
  simp [stB, Ten.at, flat, size]
  norm_num

example (eps : ℝ) : Stores eps (crossEntropy kit0 45 (.leaf 1) (exprOf kit0 [1, 2] 0 gated 4)) stB (fun _ => cfgL) 1 :=
  branch_cross_entropy_gradient_partial eps gated_ready (fun is hv => by
    match is, hv with
    | [b, j], ⟨hb, hj, _⟩ =>
      have hb0 : b = 0 := by have : b < 1 := hb; omega
      have hj' : j < 2 := hj
      have h : j = 0 ∨ j = 1 := by omega
      subst hb0
      rcases h with rfl | rfl
      · rw [gated_out.1]; norm_num
      · rw [gated_out.2]; norm_num)

example (eps : ℝ) : Stores eps (mse kit0 45 (.leaf 1) (exprOf kit0 [1, 2] 0 gated 4)) stB (fun _ => cfgL) ((2 : ℕ) / (1 : ℕ) : ℝ) :=
  branch_mse_gradient_partial eps gated_ready (c := 1) rfl (by decide)

/-- A residual block: a dense layer, added to a second dense layer of it. -/
def residual : List Node := [.layer (.dense 0 1 2 cfgL cfgL) 0, .layer (.dense 2 3 2 cfgL cfgL) 1, .add 1 2]

theorem residual_ok : AllOk kit0 stB.data [1, 2] (stB.leaf 0).at residual :=
  allOk_snoc (ns := [_, _]) (allOk_snoc (ns := [_]) (allOk_snoc (ns := []) allOk_nil (dense01 rfl (by simp) rfl)) (dense23 rfl (by simp) rfl))
    ⟨by simp [Node.operands], rfl, fits12⟩

theorem evIn : Ev stB.leaf stB.data (.leaf 0) [1, 2] (stB.leaf 0).at := ev_leaf (L := stB.leaf) (k := 0) rfl (by simp [stB])
theorem evLab : Ev stB.leaf stB.data (.leaf 1) [1, 2] (stB.leaf 1).at := ev_leaf (L := stB.leaf) (k := 1) rfl (by simp [stB])

/-- The forward pass of the residual block finishes, the backward pass does not. -/
example (eps : ℝ) : ∃ z st1, run (squaredLoss kit0 36 (.leaf 1) (exprOf kit0 [1, 2] 0 residual 3)) stB = ok (z, st1) ∧
    ∀ g st2, backward eps (squaredLoss kit0 36 (.leaf 1) (exprOf kit0 [1, 2] 0 residual 3)) none g st1 ≠ ok st2 := by
  obtain ⟨st1, h1, h2⟩ := branch_squared_violated (K := kit0) (ns := residual) (x := 3) (y := 1) (gt := 1) eps residual_ok evIn (by simp [residual]) ⟨le_refl 1, rfl⟩
    (by simp [Single, Biased, cfgL, stB])
    (Or.inl ⟨2, 3, _, _, by decide, ⟨by decide, rfl⟩, ⟨by decide, rfl⟩, by simp [Node.operands], by simp [Node.operands],
      .step ⟨by decide, rfl⟩ (n := .add 1 2) (m := 3) (by simp [Node.operands]) (.refl 3), .refl 3⟩)
    (by show size [1, 2] ≠ 0; decide) (fun _ => ⟨rfl, rfl⟩) evLab fits12
  exact ⟨_, st1, h1, h2⟩

/-- Two dense layers side by side. -/
def wide : List Node := [.layer (.dense 0 1 2 cfgL cfgL) 0, .layer (.dense 2 3 2 cfgL cfgL) 0, .concat minusOne 1 2]

theorem wide_ok : AllOk kit0 stB.data [1, 2] (stB.leaf 0).at wide :=
  allOk_snoc (ns := [_, _]) (allOk_snoc (ns := [_]) (allOk_snoc (ns := []) allOk_nil (dense01 rfl (by simp) rfl)) (dense23 rfl (by simp) rfl))
    ⟨by simp [Node.operands], [1], 2, 2, [], rfl, rfl, by decide, Or.inr ⟨rfl, rfl⟩⟩

/-- Their value has four elements. -/
example : Ev stB.leaf stB.data (exprOf kit0 [1, 2] 0 wide 3) [1, 4] (valOf stB.data [1, 2] (stB.leaf 0).at wide 3).2 := branch_value wide wide_ok evIn (le_refl 3)

/-- The sum of their elements cannot be differentiated. -/
example (eps : ℝ) : ∃ z st1, run (.un 100 opSum (exprOf kit0 [1, 2] 0 wide 3)) stB = ok (z, st1) ∧
    ∀ g st2, backward eps (.un 100 opSum (exprOf kit0 [1, 2] 0 wide 3)) none g st1 ≠ ok st2 := by
  have hv : Ev stB.leaf stB.data (exprOf kit0 [1, 2] 0 wide 3) [1, 4] _ := branch_value wide wide_ok evIn (le_refl 3)
  have hc : Consistent (.un 100 opSum (exprOf kit0 [1, 2] 0 wide 3)) :=
    (distinct_consistent (by simp [exprOf, exprs, wide, Node.expr, build, dense, plusE, Graph.ids])).1
  obtain ⟨st1, h1⟩ := (run_fresh_partial _ hc stB).1 _ (hv.sum (by decide) 100)
  exact ⟨_, st1, h1, branch_concat_violated (K := kit0) (ns := wide) (x := 3) (m := 3) eps hc (sl := some (100, false)) (by simp [occs, mem_occs_self]) wide_ok evIn ⟨by decide, rfl⟩ (.refl 3)
    (by show size [1, 2] ≠ 0; decide) (by show size [1, 2] ≠ 0; decide) (by show size [1, 4] ≠ 0; decide) (fun _ => ⟨rfl, rfl⟩) h1⟩

end
end Verif.Branch
