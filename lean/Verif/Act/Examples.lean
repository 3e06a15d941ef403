import Verif.Act.Props
import Verif.Loss.DenseExamples
/-!
# Composite activations: the hypotheses of C110 can be met
-/
namespace Verif.Act
open Verif Res View Data Ops Graph Loss

noncomputable section

example : Ev stLoss.leaf stLoss.data (swish kit0 0 exR) [2, 2] (fun _ => 1 / 4 / (1 + Real.exp (-(1 / 4)))) := swish_value evR fits0.pos 0

example : Ev stLoss.leaf stLoss.data (divide kit0 0 exL exR) [2, 2] (fun _ => 4) :=
  (divide_value evL evR fits0.pos 0 (fun _ _ => by rw [abs_of_pos] <;> norm_num [epsC])).congr (fun _ _ => by norm_num)

example : Ev stLoss.leaf stLoss.data (heavisideStep kit0 20 0 exR) [2, 2] (fun _ => 1 / (1 + Real.exp (-10))) :=
  (heaviside_value evR fits0.pos 20 0).congr (fun _ _ => by norm_num)

/-- A quarter is `exp(-10)` close to 1. -/
example : ∃ u, Ev stLoss.leaf stLoss.data (unitStep kit0 0 exR) [2, 2] u ∧ ∀ is, |u is - 1| ≤ Real.exp (-10) := by
  obtain ⟨u, h1, h2⟩ := unit_step_value (K := kit0) evR fits0.pos 0
  refine ⟨u, h1, fun is => ?_⟩
  have := (h2 is).2 (by norm_num)
  rw [if_pos (by norm_num), abs_of_pos (show (0 : ℝ) < 1 / 4 by norm_num), show (40 * (1 / 4) : ℝ) = 10 by norm_num] at this
  exact this

example : Ev stLoss.leaf stLoss.data (crelu kit0 0 exR) [2, 4] (fun is => if is.getD 1 0 < 2 then 1 / 4 else 0) :=
  (crelu_value (pre := [2]) (n := 2) evR (by simp) 0).congr (fun is _ => by
    simp only [List.length_cons, List.length_nil, Nat.zero_add]
    split
    · exact max_eq_left (by norm_num)
    · exact max_eq_right (by norm_num))

theorem holds0 : Holds kit0 stLoss 0 cfgL := ⟨rfl, rfl, rfl, rfl, rfl, fits0⟩

example (eps : ℝ) : Stores eps (.un 2 opSum (swish kit0 0 exR)) stLoss (fun _ => cfgL) 1 := swish_gradient_partial holds0 0

example (eps : ℝ) : Stores eps (.un 3 opSum (tankShrink kit0 0 exR)) stLoss (fun _ => cfgL) 1 := tank_shrink_gradient_partial holds0 0

example (eps : ℝ) : Stores eps (.un 2 opSum (divide kit0 0 exL exR)) stLoss (fun _ => cfgL) 1 :=
  divide_gradient (i := 0) (holds0.trains (by simp [divide, hadE, el, exL, exR, ids]) (by simp [divide, hadE, el, exL, exR, vars]) (by simp [divide, hadE, el, exL, exR, occs]))
    evL evR smL smR fits0 (fun _ _ => by norm_num [epsC])

example (eps : ℝ) : Stores eps (.un 2 opSum (heavisideStep kit0 20 0 exR)) stLoss (fun _ => cfgL) 1 :=
  heaviside_gradient (i := 0) 20 (holds0.trains (by simp [heavisideStep, el, exR, ids]) (by simp [heavisideStep, el, exR, vars]) (by simp [heavisideStep, el, exR, occs])) evR smR fits0

/-- `lisht` of the two by two matrix of quarters. -/
example : ¬ Ev stLoss.leaf stLoss.data (lisht kit0 0 exR) [2, 2] (fun _ => 1 / 4 * Real.tanh (1 / 4)) := (mish_lisht_violated evR (le_refl 2) (by norm_num) 0).1

/-- `lisht` of a row of two. -/
example (y : Ten ℝ) : eval stNet.leaf stNet.data (lisht kit0 0 (.var 1 cfgL)) ≠ ok y :=
  (mish_lisht_rejects_violated (a := (stNet.data 1).at) (s := [1, 2]) ⟨_, rfl, (show (stNet.data 1).WF from rfl).has⟩ (fun n hn => by simp at hn; omega) 0 y).1

/-- `swish` of a dense layer: the forward pass finishes, the backward pass does not. -/
example (eps : ℝ) : ∃ z s1, run (.un 10 opSum (swish kit0 2 (dense kit0 0 0 1 cfgL cfgL (.leaf 0)))) stNet = ok (z, s1) ∧
    ∀ g s2, backward eps (.un 10 opSum (swish kit0 2 (dense kit0 0 0 1 cfgL cfgL (.leaf 0)))) none g s1 ≠ ok s2 := by
  have hx : Ev stNet.leaf stNet.data (.leaf 0) [1, 2] (stNet.leaf 0).at := ev_leaf (L := stNet.leaf) (k := 0) rfl (by simp [stNet])
  have hw : (stNet.data 0).Has [2, 2] (stNet.data 0).at := (show (stNet.data 0).WF from rfl).has
  have hb : (stNet.data 1).Has [1, 2] (stNet.data 1).at := (show (stNet.data 1).WF from rfl).has
  have hf : DenseFits kit0 1 2 2 := ⟨fits0.reduces, le_refl 2, by decide, by decide, by decide, by decide, by decide⟩
  have hv := (swish_value (K := kit0) (dense_value hx hw hb hf cfgL cfgL 0) hf.fits.pos 2).sum hf.fits.pos 10
  have hd : (ids (dense kit0 0 0 1 cfgL cfgL (.leaf 0))).Nodup := by simp [dense, plusE, ids]
  have hc : Consistent (.un 10 opSum (swish kit0 2 (dense kit0 0 0 1 cfgL cfgL (.leaf 0)))) :=
    gate_consistent (distinct_consistent hd).1 10 3 opSum (opEwp kit0.red kit0.fuel) [(2, opElem .sigmoid kit0.cacheF kit0.cacheB)] (by simp) (by simp) (by simp)
      (by simp [dense, plusE, ids]) (by simp [dense, plusE, ids]) (by simp) (by simp [dense, plusE, ids])
  obtain ⟨s1, h1⟩ := (run_fresh_partial _ hc stNet).1 _ hv
  exact ⟨_, s1, h1, fun g s2 => activation_of_dense_violated (K := kit0) (i := 0) (cw := cfgL) (cb := cfgL) eps stNet s1 _ 2 10 hx hw hb hf (by simp [ids]) (by simp [ids]) (by omega) (by omega) (fun _ => rfl) (swish kit0 2 (dense kit0 0 0 1 cfgL cfgL (.leaf 0))) (by simp) h1 g s2⟩

end
end Verif.Act
