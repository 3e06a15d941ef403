import Verif.Loss.Props
/-!
# Losses: the hypotheses of C98 and C99 can be met
-/
namespace Verif.Loss
open Verif Res View Data Ops Graph Optim

noncomputable section

/-- `std::reduce` adding from the left, empty caches. -/
def kit0 : Kit := ⟨⟨[], []⟩, ⟨[], []⟩, ⟨[], []⟩, fun l => match l with | [] => 0 | x :: xs => xs.foldl (· + ·) x, 2⟩

/-- Labels 1, predictions 1/4, two by two of them; the prediction is a variable. -/
def stLoss : St ℝ where
  leaf _ := ⟨[2, 2], [1, 1, 1, 1]⟩
  data _ := ⟨[2, 2], [1/4, 1/4, 1/4, 1/4]⟩
  grad _ := ⟨[2, 2], [0, 0, 0, 0]⟩
  sync _ := false
  obj _ := ⟨noTensor, noTensor, noTensor⟩
  cache _ := none
  training := true
  done := []

def cfgL : Cfg ℝ := ⟨0, 0, true⟩

def exL : Ex ℝ := .leaf 0
def exR : Ex ℝ := .var 0 cfgL

theorem fits0 : Fits1 kit0 [2, 2] := ⟨by
  intro l hl
  have := reduces_foldl (α := ℝ) (· + ·) 0 l hl
  cases l with
  | nil => exact absurd rfl hl
  | cons x xs => exact this, by simp, by simp [minusOne], by simp [minusOne], by simp [kit0], by simp [size]⟩

theorem evL : Ev stLoss.leaf stLoss.data exL [2, 2] (fun _ => 1) :=
  ⟨_, by rw [exL, eval, assert_true (by simp [stLoss])]; rfl, replicate_has [2, 2] 1⟩

theorem evR : Ev stLoss.leaf stLoss.data exR [2, 2] (fun _ => 1/4) := ⟨_, rfl, replicate_has [2, 2] (1/4)⟩

theorem smL : Smooth stLoss.leaf stLoss.data exL := ⟨rfl, by simp [stLoss]⟩
theorem smR : Smooth stLoss.leaf stLoss.data exR := rfl

theorem trains_of {e : Ex ℝ} (h1 : Consistent e) (h2 : Unshared e) (h3 : ∀ p ∈ occs e none, ∀ v c, p.2 = .var v c → c = cfgL) : Trains e stLoss (fun _ => cfgL) :=
  ⟨h1, h2, rfl, fun _ _ => ⟨rfl, rfl, rfl⟩, fun p hp v c hc => ⟨h3 p hp v c hc, rfl⟩⟩

theorem trains_mse : Trains (mse kit0 0 exL exR) stLoss (fun _ => cfgL) := by
  have h := distinct_consistent (e := mse kit0 0 exL exR) (by simp [mse, el, minusE, plusE, exL, exR, ids])
  refine trains_of h.1 h.2 (fun p hp v c hc => ?_)
  simp only [mse, el, minusE, plusE, exL, exR, occs, List.mem_cons, List.mem_append, List.not_mem_nil, or_false] at hp
  rcases hp with rfl | rfl | rfl | rfl | rfl | rfl <;> simp only [reduceCtorEq, Ex.var.injEq] at hc
  exact hc.2.symm

/-- `mean_squared_error` of labels 1 and predictions 1/4 is 9/16. -/
example : eval stLoss.leaf stLoss.data (mse kit0 0 exL exR) = ok ⟨[1], [9/16]⟩ := by
  rw [mse_value evL evR fits0.fits 0]
  simp [sumIdx, size]
  norm_num

/-- Twice the derivative is stored, which is not the derivative. -/
example (eps : ℝ) : Stores eps (mse kit0 0 exL exR) stLoss (fun _ => cfgL) 2 ∧ ¬ Stores eps (mse kit0 0 exL exR) stLoss (fun _ => cfgL) 1 := by
  constructor
  · have := mse_gradient (eps := eps) trains_mse evL evR fits0.fits smL smR (c := 2) rfl (by simp)
    have h2 : ((size [2, 2] : Nat) : ℝ) / ((2 : Nat) : ℝ) = 2 := by norm_num [size]
    rwa [h2] at this
  · obtain ⟨Y, h1, h2⟩ := mse_variable_derivative (K := kit0) (s := stLoss) (k := 0) (v := 0) (c := cfgL) (i := 0) rfl (by simp [stLoss]) rfl rfl fits0 (is := [0, 0])
      (by simp [stLoss, ValidIdx])
    refine mse_gradient_violated trains_mse evL evR fits0.fits smL smR (c := 2) rfl (by simp) (by simp [size]) (v := 0) (by simp [mse, el, minusE, plusE, exL, exR, vars])
      (is := [0, 0]) (by simp [stLoss, ValidIdx]) h1 h2 ?_
    simp [stLoss, Ten.at, flat, size]
    norm_num

theorem trains_hinge : Trains (hinge kit0 0 exL exR) stLoss (fun _ => cfgL) := by
  have h := distinct_consistent (e := hinge kit0 0 exL exR) (by simp [hinge, hingeError, el, hadE, exL, exR, ids])
  refine trains_of h.1 h.2 (fun p hp v c hc => ?_)
  simp only [hinge, hingeError, el, hadE, exL, exR, occs, List.mem_cons, List.mem_append, List.not_mem_nil, or_false] at hp
  rcases hp with rfl | rfl | rfl | rfl | rfl | rfl | rfl <;> simp only [reduceCtorEq, Ex.var.injEq] at hc
  exact hc.2.symm

example (eps : ℝ) : Stores eps (hinge kit0 0 exL exR) stLoss (fun _ => cfgL) ((size [2, 2] : ℝ) / ((2 : Nat) : ℝ)) :=
  hinge_gradient trains_hinge evL evR fits0 smL smR (fun _ _ => by norm_num) rfl (by simp)

example : eval stLoss.leaf stLoss.data (hinge kit0 0 exL exR) = ok ⟨[1], [3/4]⟩ := by
  rw [hinge_value evL evR fits0 0]
  have : max (0 : ℝ) (1 - 1 * (1/4)) = 3/4 := by norm_num
  simp only [this]
  simp [sumIdx, size]
  norm_num

theorem trains_cross : Trains (crossEntropy kit0 0 exL exR) stLoss (fun _ => cfgL) := by
  have h := distinct_consistent (e := crossEntropy kit0 0 exL exR) (by simp [crossEntropy, el, hadE, exL, exR, ids])
  refine trains_of h.1 h.2 (fun p hp v c hc => ?_)
  simp only [crossEntropy, el, hadE, exL, exR, occs, List.mem_cons, List.mem_append, List.not_mem_nil, or_false] at hp
  rcases hp with rfl | rfl | rfl | rfl | rfl | rfl <;> simp only [reduceCtorEq, Ex.var.injEq] at hc
  exact hc.2.symm

example (eps : ℝ) : Stores eps (crossEntropy kit0 0 exL exR) stLoss (fun _ => cfgL) 1 :=
  cross_entropy_gradient_partial trains_cross evL evR fits0 smL smR (fun _ _ => by norm_num)

theorem trains_squared : Trains (squaredLoss kit0 0 exL exR) stLoss (fun _ => cfgL) := by
  have h := distinct_consistent (e := squaredLoss kit0 0 exL exR) (by simp [squaredLoss, el, minusE, plusE, exL, exR, ids])
  refine trains_of h.1 h.2 (fun p hp v c hc => ?_)
  simp only [squaredLoss, el, minusE, plusE, exL, exR, occs, List.mem_cons, List.mem_append, List.not_mem_nil, or_false] at hp
  rcases hp with rfl | rfl | rfl | rfl | rfl | rfl <;> simp only [reduceCtorEq, Ex.var.injEq] at hc
  exact hc.2.symm

theorem trains_abs : Trains (absLoss kit0 0 exL exR) stLoss (fun _ => cfgL) := by
  have h := distinct_consistent (e := absLoss kit0 0 exL exR) (by simp [absLoss, el, minusE, plusE, exL, exR, ids])
  refine trains_of h.1 h.2 (fun p hp v c hc => ?_)
  simp only [absLoss, el, minusE, plusE, exL, exR, occs, List.mem_cons, List.mem_append, List.not_mem_nil, or_false] at hp
  rcases hp with rfl | rfl | rfl | rfl | rfl | rfl <;> simp only [reduceCtorEq, Ex.var.injEq] at hc
  exact hc.2.symm

theorem trains_mae : Trains (mae kit0 0 exL exR) stLoss (fun _ => cfgL) := by
  have h := distinct_consistent (e := mae kit0 0 exL exR) (by simp [mae, el, minusE, plusE, exL, exR, ids])
  refine trains_of h.1 h.2 (fun p hp v c hc => ?_)
  simp only [mae, el, minusE, plusE, exL, exR, occs, List.mem_cons, List.mem_append, List.not_mem_nil, or_false] at hp
  rcases hp with rfl | rfl | rfl | rfl | rfl | rfl <;> simp only [reduceCtorEq, Ex.var.injEq] at hc
  exact hc.2.symm

example (eps : ℝ) : Stores eps (squaredLoss kit0 0 exL exR) stLoss (fun _ => cfgL) 1 ∧ Stores eps (absLoss kit0 0 exL exR) stLoss (fun _ => cfgL) 1 ∧
    Stores eps (mae kit0 0 exL exR) stLoss (fun _ => cfgL) ((size [2, 2] : ℝ) / ((2 : Nat) : ℝ)) :=
  ⟨squared_loss_gradient_partial trains_squared evL evR fits0.fits smL smR, abs_loss_gradient_partial trains_abs evL evR fits0.fits smL smR (fun _ _ => by norm_num),
    mae_gradient trains_mae evL evR fits0.fits smL smR (fun _ _ => by norm_num) rfl (by simp)⟩

/-- `log( 1 + 1 )` and `log( 1 + 1/4 )` differ: `mean_squared_logarithmic_error` of these labels and predictions is not a mean. -/
example : eval stLoss.leaf stLoss.data (msle kit0 10 0 exL exR) ≠ ok ⟨[1], [sumIdx [2, 2] (fun _ =>
    (Real.log (1 + max epsC (min 1 10)) - Real.log (1 + max epsC (min (1/4) 10))) ^ 2) / (size [2, 2] : ℝ)]⟩ := by
  refine msle_not_mean_violated evL evR fits0 10 0 (by simp [size]) (is := [0, 0]) (by simp [ValidIdx]) ?_
  have e1 : max epsC (min (1 : ℝ) 10) = 1 := by rw [min_eq_left (by norm_num)]; exact max_eq_right (by unfold epsC; norm_num)
  have e2 : max epsC (min (1/4 : ℝ) 10) = 1/4 := by rw [min_eq_left (by norm_num)]; exact max_eq_right (by unfold epsC; norm_num)
  rw [e1, e2]
  have := Real.log_lt_log (x := 1 + 1/4) (y := 1 + 1) (by norm_num) (by norm_num)
  exact this.ne'

theorem trains_msle (top : ℝ) : Trains (msle kit0 top 0 exL exR) stLoss (fun _ => cfgL) := by
  have h := distinct_consistent (e := msle kit0 top 0 exL exR) (by simp [msle, logOf, el, minusE, plusE, exL, exR, ids])
  refine trains_of h.1 h.2 (fun p hp v c hc => ?_)
  simp only [msle, logOf, el, minusE, plusE, exL, exR, occs, List.mem_cons, List.mem_append, List.not_mem_nil, or_false] at hp
  rcases hp with rfl | rfl | rfl | (rfl | rfl | rfl | rfl) | rfl | rfl | rfl | rfl | rfl <;> simp only [reduceCtorEq, Ex.var.injEq] at hc
  exact hc.2.symm

example (eps : ℝ) : Stores eps (msle kit0 10 0 exL exR) stLoss (fun _ => cfgL) 1 :=
  msle_gradient_partial 10 (trains_msle 10) evL evR fits0 smL smR (fun _ _ => by unfold epsC; norm_num) (fun _ _ => by unfold epsC; norm_num)

theorem trains_bce : Trains (bce kit0 0 exL exR) stLoss (fun _ => cfgL) := by
  have hocc : ∀ p ∈ occs (bce kit0 0 exL exR) none, ∀ q ∈ occs (bce kit0 0 exL exR) none, ∀ i, p.2.id? = some i → q.2.id? = some i → p = q ∨ (p.2 = .un 0 opOnes exL ∧ q.2 = .un 0 opOnes exL) := by
    intro p hp q hq k h1 h2
    simp only [bce, bceError, el, minusE, plusE, hadE, exL, exR, occs, List.mem_cons, List.mem_append, List.not_mem_nil, or_false] at hp hq
    rcases hp with rfl | rfl | rfl | (rfl | rfl | rfl | rfl) | rfl | (rfl | (rfl | rfl) | rfl | rfl) | rfl | rfl | (rfl | rfl) | rfl | rfl <;>
      simp only [Ex.id?, Option.some.injEq, reduceCtorEq] at h1 <;> subst h1 <;>
      rcases hq with rfl | rfl | rfl | (rfl | rfl | rfl | rfl) | rfl | (rfl | (rfl | rfl) | rfl | rfl) | rfl | rfl | (rfl | rfl) | rfl | rfl <;>
      simp only [Ex.id?, Option.some.injEq, reduceCtorEq, Nat.reduceAdd, Nat.reduceEqDiff, OfNat.ofNat_ne_zero, OfNat.zero_ne_ofNat, OfNat.ofNat_ne_one, OfNat.one_ne_ofNat,
        zero_ne_one, one_ne_zero, Nat.zero_add] at h2 <;>
      first
      | exact Or.inl rfl
      | exact Or.inr ⟨rfl, rfl⟩
  refine trains_of (fun p hp q hq i h1 h2 => ?_) (fun p hp q hq i h1 h2 => ?_) (fun p hp v c hc => ?_)
  · rcases hocc p hp q hq i h1 h2 with rfl | ⟨h3, h4⟩
    · rfl
    · rw [h3, h4]
  · rcases hocc p hp q hq i h1 h2 with rfl | ⟨h3, h4⟩
    · exact Or.inl rfl
    · right
      rw [h3]
      intro x x' y g
      rfl
  · simp only [bce, bceError, el, minusE, plusE, hadE, exL, exR, occs, List.mem_cons, List.mem_append, List.not_mem_nil, or_false] at hp
    rcases hp with rfl | rfl | rfl | (rfl | rfl | rfl | rfl) | rfl | (rfl | (rfl | rfl) | rfl | rfl) | rfl | rfl | (rfl | rfl) | rfl | rfl <;>
      simp only [reduceCtorEq, Ex.var.injEq] at hc <;> exact hc.2.symm

example (eps : ℝ) : Stores eps (bce kit0 0 exL exR) stLoss (fun _ => cfgL) ((size [2, 2] : ℝ) / ((2 : Nat) : ℝ)) :=
  bce_gradient trains_bce evL evR fits0 smL smR (fun _ _ => by norm_num) rfl (by simp)

end
end Verif.Loss
