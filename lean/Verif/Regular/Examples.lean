import Verif.Regular.Violated
import Verif.Regular.Fit
import Verif.Descent.Examples
import Verif.Shapes.Props
/-!
# Regularised training: the hypotheses of C122 can be met
-/
namespace Verif.Regular
open Verif Res View Data Ops Graph Loss Optim Fit Net Pool Descent

noncomputable section

/-- One weight `w`. -/
def osW (w : ℝ) : OSt where
  st := { stLoss with data := fun _ => ⟨[1], [w]⟩, grad := fun _ => ⟨[1], [0]⟩ }
  ctx _ := []
  reg := [(0, true)]

/-- The square of the weight. -/
def lossQ (c : Cfg ℝ) : Ex ℝ := .un 0 (opElem .square noTensor noTensor) (.var 0 c)

/-- The product of two objects of the weight. -/
def lossP (c : Cfg ℝ) : Ex ℝ := .bin 0 (opEwp kit0.red 2) (.var 0 c) (.var 0 c)

theorem valueQ (c : Cfg ℝ) (L : Nat → Ten ℝ) (D : Nat → Ten ℝ) (w : ℝ) (h : D 0 = ⟨[1], [w]⟩) : eval L D (lossQ c) = ok ⟨[1], [w * w]⟩ := by
  obtain ⟨y, h1, h2⟩ := mapT_ok EOp.square.fwd noTensor ⟨[1], [w]⟩ (s := [1]) (a := fun _ => w) (by
    refine ⟨rfl, rfl, fun is his => ?_⟩
    cases is with
    | nil => simp [ValidIdx] at his
    | cons i is => cases is <;> simp_all [ValidIdx, flat])
  show (eval L D (.var 0 c) >>= _) = _
  rw [eval, h, bind_ok]
  refine h1.trans ?_
  congr 1
  refine h2.ext ⟨rfl, rfl, fun is his => ?_⟩
  cases is with
  | nil => simp [ValidIdx] at his
  | cons i is => cases is <;> simp_all [ValidIdx, flat, EOp.fwd]

theorem fitQ {c : Cfg ℝ} (hc : c.trainable = true) (w : ℝ) : Fit1 1 (lossQ c) (osW w) (fun _ => c) := by
  have h := distinct_consistent (e := lossQ c) (by simp [lossQ, ids])
  refine ⟨one_pos, h.1, h.2, rfl, ⟨rfl, fun x _ => opElem_good .square _ _ x (fun _ _ => trivial)⟩, fun p hp v c' hv => ?_, by simp [osW], fun v hv => ?_,
    fun v _ => ⟨rfl, rfl, rfl, fun _ => 0, Or.inl ⟨rfl, fun _ => rfl⟩⟩, fun y hy => ?_⟩
  · simp only [lossQ, occs, List.mem_cons, List.not_mem_nil, or_false] at hp
    rcases hp with rfl | rfl <;> simp only [reduceCtorEq, Ex.var.injEq] at hv
    exact ⟨hv.2.symm, hc⟩
  · simp only [lossQ, vars, List.mem_cons, List.not_mem_nil, or_false] at hv
    simp [hv, osW]
  · rw [valueQ c _ _ w rfl] at hy
    rw [← ok.inj hy]

theorem fitP {c : Cfg ℝ} (hc : c.trainable = true) (w : ℝ) : Fit1 1 (lossP c) (osW w) (fun _ => c) := by
  have h := distinct_consistent (e := lossP c) (by simp [lossP, ids])
  refine ⟨one_pos, h.1, h.2, rfl, ⟨rfl, rfl, fun x y hx hy => ?_⟩, fun p hp v c' hv => ?_, by simp [osW], fun v hv => ?_,
    fun v _ => ⟨rfl, rfl, rfl, fun _ => 0, Or.inl ⟨rfl, fun _ => rfl⟩⟩, fun y hy => ?_⟩
  · simp only [eval, ok.injEq] at hx hy
    subst hx; subst hy
    exact opEwp_good _ fits0.reduces _ _ _ [] [1] rfl rfl (by simp) (by simp [size]) (by simp [minusOne]) (by simp [minusOne]) (by simp)
  · simp only [lossP, occs, List.mem_cons, List.mem_append, List.not_mem_nil, or_false] at hp
    rcases hp with rfl | rfl | rfl <;> simp only [reduceCtorEq, Ex.var.injEq] at hv
    all_goals exact ⟨hv.2.symm, hc⟩
  · simp only [lossP, vars, List.mem_append, List.mem_cons, List.not_mem_nil, or_false, or_self] at hv
    simp [hv, osW]
  · have h1 : ewpGo (⟨[1], [w]⟩ : Ten ℝ) ⟨[1], [w]⟩ = ok y := hy
    exact (Shapes.ewpGo_shape (l := ⟨[1], [w]⟩) (show Ten.WF _ from rfl) h1).1

theorem copiesQ (c : Cfg ℝ) : copies (lossQ c) 0 = 1 := by simp [copies, lossQ, varOccs]
theorem copiesP (c : Cfg ℝ) : copies (lossP c) 0 = 2 := by
  unfold copies
  simp only [lossP, varOccs]
  decide

/-- Weight 3, L1 and L2 penalties 1: sgd with any small learning rate makes loss plus penalty smaller. -/
example : ∃ y, eval (osW 3).st.leaf (osW 3).st.data (lossQ ⟨1, 1, true⟩) = ok y ∧ ∃ η > 0, ∀ o : Sgd, o.mom = 0 → 0 < o.sch.rate → o.sch.rate < η →
    ∃ o' s' y', trainSgd 1 (lossQ ⟨1, 1, true⟩) o (osW 3) = ok (y, o', s') ∧ eval s'.st.leaf s'.st.data (lossQ ⟨1, 1, true⟩) = ok y' ∧
      y'.at [0] + penalty [0] (fun _ => ⟨1, 1, true⟩) s'.st.data < y.at [0] + penalty [0] (fun _ => ⟨1, 1, true⟩) (osW 3).st.data := by
  have H := fitQ (c := ⟨1, 1, true⟩) rfl 3
  obtain ⟨y, G, h1, h2, _, h4⟩ := sgd_descends_regularised_partial 1 H.epsPos _ H.consistent H.unshared _ H.training H.smooth _ H.cfgs H.nodup H.all H.fit H.scalar
    (fun v hv => by
      simp only [lossQ, vars, List.mem_cons, List.not_mem_nil, or_false] at hv
      subst hv
      exact copiesQ _) (fun v _ => ⟨Or.inr le_rfl, Or.inr le_rfl⟩) (fun v _ is his _ => by
      have : ValidIdx [1] is := his
      cases is with
      | nil => simp [ValidIdx] at this
      | cons i is => cases is <;> simp_all [ValidIdx, osW, Ten.at, flat])
  refine ⟨y, h1, h4 ⟨0, by simp [lossQ, vars], [0], by simp [osW, ValidIdx], ?_⟩⟩
  obtain ⟨Y, k1, k2⟩ := h2 0 (by simp [lossQ, vars]) [0] (by simp [osW, ValidIdx])
  have hY : Y = fun h => ⟨[1], [(3 + h) * (3 + h)]⟩ := by
    funext h
    have := k1 h
    rw [valueQ _ _ _ (3 + h) (by rw [upd_same]; simp [bump, osW, Ten.at, flat, size])] at this
    exact (ok.inj this).symm
  rw [hY] at k2
  have e1 : HasDerivAt (fun h : ℝ => (3 + h) * (3 + h)) 6 0 := by
    have := ((hasDerivAt_id (0 : ℝ)).const_add 3).mul ((hasDerivAt_id (0 : ℝ)).const_add 3)
    refine this.congr_deriv ?_
    norm_num
  have e2 := e1.add (pen_slope (c := ⟨1, 1, true⟩) (w := ((osW 3).st.data 0).at [0]) (by simp [osW, Ten.at, flat]))
  have e3 : (fun h : ℝ => ((⟨[1], [(3 + h) * (3 + h)]⟩ : Ten ℝ)).at [0] + pen ⟨1, 1, true⟩ (((osW 3).st.data 0).at [0] + h)) =
      (fun h : ℝ => (3 + h) * (3 + h)) + fun h => pen ⟨1, 1, true⟩ (((osW 3).st.data 0).at [0] + h) := by
    funext h
    simp [Ten.at, flat]
  rw [e3] at k2
  rw [k2.unique e2]
  simp [osW, Ten.at, flat]
  norm_num

/-- An L2 penalty. -/
def cfgR : Cfg ℝ := ⟨0, 2, true⟩

/-- `net0` with the penalty on all its variables. -/
def netR : List Kind := [.conv2D ⟨0, 1, cfgR, cfgR, 1, 2, 2, 1, 1, 1, 1, false, []⟩, .act .sigmoid, .flatten, .dense 2 3 1 cfgR cfgR]

theorem networkR : Network kit1 netR [1, 3, 3, 1] (fun _ => cfgR) weights0 := by
  refine ⟨⟨⟨1, 3, 3, 1, rfl, ?_⟩, trivial, ⟨1, [2, 2, 1], rfl, by simp, by decide, by decide, by decide⟩,
    ⟨1, 4, rfl, ⟨reduces1, by decide, by decide, by decide, by decide, by decide, by decide⟩, ⟨rfl, rfl⟩, rfl, rfl⟩, trivial⟩, ?_,
    ⟨reduces1, by decide, by decide, by decide, by decide, by decide⟩, by decide, ?_⟩
  · refine ⟨reduces1, le_refl 4, ⟨rfl, rfl⟩, ⟨rfl, rfl⟩, ⟨?_, by norm_num, ?_, by decide, by decide, by decide, by decide, by decide, by decide, rfl⟩, by simp,
      by decide, by decide, by decide⟩
    · unfold Conv.Geo.Fits; decide
    · exact Conv.recFor_nil
  · intro k hk n m c
    simp only [netR, List.mem_cons, List.not_mem_nil, or_false] at hk
    rcases hk with rfl | rfl | rfl | rfl <;> simp
  · intro k hk vc hvc
    simp only [netR, List.mem_cons, List.not_mem_nil, or_false] at hk
    rcases hk with rfl | rfl | rfl | rfl <;> simp only [params, List.mem_cons, List.not_mem_nil, or_false] at hvc <;>
      rcases hvc with rfl | rfl <;> exact ⟨rfl, rfl⟩

theorem weightsR : weightsOf netR = [0, 1, 2, 3] := rfl

/-- Whatever the number of epochs: `fit` of the regularised network returns, and its weights are those of gradient descent on loss plus penalty. -/
example (epochs : Nat) : ∃ f, fit (compiledWith (netLoss squaredLoss [1, 3, 3, 1] 0 1) (netAdv id [1, 3, 3, 1] 0) 0 1 (Sgd.step 1)) images0 labels0 1 epochs 0 ((kit1, netR), sgd0, os0) = ok f ∧
    ∀ v ∈ [0, 1, 2, 3], f.s.2.2.st.data v = (path [0, 1, 2, 3] (plainLaw (rates (1/10) (1/100))) 1
      (fun t D => batchLoss (squaredOf [1, 1]) netR images0 labels0 1 [3, 3, 1] (t % 2) D + ∑ v ∈ [0, 1, 2, 3].toFinset, 2 * sumIdx (D v).shape (fun is => (D v).at is ^ 2))
      ⟨weights0, fun _ _ => 0⟩ (epochs * 2)).w v := by
  have hi : images0.WF := rfl
  have ho : labels0.WF := rfl
  obtain ⟨f, h1, h2⟩ := squared_fit_l2 (K := kit1) (ks := netR) (cfg := fun _ => cfgR) (bs := 1) (a := [3, 3, 1]) (n := 2) (n' := 2) (b := [1]) (inp := 0) (gt := 1) (nk := id) (epochs := epochs)
    (p := ⟨weights0, fun _ _ => 0⟩) (s := ((kit1, netR), sgd0, os0)) one_pos (sgd_plain_moves 1 (1/10) (1/100) false) networkR (by rw [weightsR]; decide)
    (fun _ _ => ⟨rfl, Or.inr (by norm_num [cfgR])⟩) (by
      intro op hop x
      simp only [netR, List.mem_cons, List.not_mem_nil, or_false, reduceCtorEq, false_or, Kind.act.injEq] at hop
      subst hop
      trivial) (fun _ => ⟨rfl, rfl⟩) hi.has ho.has (le_refl 2) rfl (by decide) (by
      refine ⟨⟨rfl, rfl, rfl, networkR.ok, networkR.noMax⟩, ⟨⟨rfl, rfl, ?_⟩, rfl, rfl⟩, rfl, by decide, ?_, fun _ _ => rfl, ?_, ?_, ?_⟩
      · show (1/10 : ℝ) = _
        simp
      · intro v hv
        simp only [weightsR, List.mem_cons, List.not_mem_nil, or_false] at hv
        rcases hv with rfl | rfl | rfl | rfl <;> simp [compiledWith, os0]
      · intro v hv
        simp only [compiledWith, os0, List.mem_cons, List.not_mem_nil, or_false, Prod.mk.injEq, and_true] at hv
        rcases hv with rfl | rfl | rfl | rfl <;> exact ⟨rfl, rfl, rfl⟩
      · intro v _
        exact ⟨fun _ => 0, Or.inl ⟨rfl, fun _ => rfl⟩⟩
      · intro v _
        exact ⟨fun _ => 0, fun _ => 0, Or.inl ⟨rfl, fun _ => rfl⟩⟩)
  exact ⟨f, h1, h2⟩

/-- Weight 2 in two objects, L2 penalty 1: the loss is w², its derivative 4, that of the penalty 4; a step with learning rate 1 should go to -6. -/
example (o : Sgd) (hm : o.mom = 0) (hr : o.sch.rate ≠ 0) : ∃ d y o' s', Slope (lossP ⟨0, 1, true⟩) (osW 2) (fun _ => ⟨0, 1, true⟩) 0 [0] d ∧
    trainSgd 1 (lossP ⟨0, 1, true⟩) o (osW 2) = ok (y, o', s') ∧ (s'.st.data 0).at [0] ≠ ((osW 2).st.data 0).at [0] - o.sch.rate * d :=
  shared_penalty_violated (fitP rfl 2) (by simp [lossP, vars]) (by simp [osW, ValidIdx]) (by simp [osW, Ten.at, flat]) ⟨Or.inl rfl, Or.inr le_rfl⟩ (Or.inr le_rfl)
    (by rw [copiesP]) o hm hr

/-- Weight 2, L2 penalty 1/2 below `eps`: ignored. -/
example (o : Sgd) (hm : o.mom = 0) (hr : o.sch.rate ≠ 0) : ∃ d y o' s', Slope (lossQ ⟨0, 1/2, true⟩) (osW 2) (fun _ => ⟨0, 1/2, true⟩) 0 [0] d ∧
    trainSgd 1 (lossQ ⟨0, 1/2, true⟩) o (osW 2) = ok (y, o', s') ∧ (s'.st.data 0).at [0] ≠ ((osW 2).st.data 0).at [0] - o.sch.rate * d :=
  small_coefficient_violated (fitQ rfl 2) (by simp [lossQ, vars]) (by simp [osW, ValidIdx]) (by simp [osW, Ten.at, flat])
    (Or.inl ⟨rfl, by norm_num, by norm_num⟩) o hm hr

/-- Weight 0, L1 penalty 1, the loss w²: nothing could be better than 0, and yet the weight is moved. -/
example : ∃ y, eval (osW 0).st.leaf (osW 0).st.data (lossQ ⟨1, 0, true⟩) = ok y ∧ ∃ η > 0, ∀ o : Sgd, o.mom = 0 → 0 < o.sch.rate → o.sch.rate < η →
    ∃ o' s' y', trainSgd 1 (lossQ ⟨1, 0, true⟩) o (osW 0) = ok (y, o', s') ∧ eval s'.st.leaf s'.st.data (lossQ ⟨1, 0, true⟩) = ok y' ∧
      y.at [0] + penalty (vars (lossQ ⟨1, 0, true⟩)) (fun _ => ⟨1, 0, true⟩) (osW 0).st.data < y'.at [0] + penalty (vars (lossQ ⟨1, 0, true⟩)) (fun _ => ⟨1, 0, true⟩) s'.st.data := by
  refine l1_at_zero_violated (fitQ rfl 0) (fun _ _ => ⟨Or.inr le_rfl, Or.inl rfl⟩) (fun _ _ => 0) (fun v hv is his => ?_) (fun v hv is his => Or.inl ⟨?_, rfl⟩) (v0 := 0) (by simp [lossQ, vars])
    (is0 := [0]) (by simp [osW, ValidIdx]) (by simp [osW, Ten.at, flat]) rfl le_rfl (by rw [copiesQ]; decide)
  · simp only [lossQ, vars, List.mem_cons, List.not_mem_nil, or_false] at hv
    subst hv
    have his' : is = [0] := by
      have : ValidIdx [1] is := his
      cases is with
      | nil => simp [ValidIdx] at this
      | cons i is => cases is <;> simp_all [ValidIdx]
    subst his'
    refine ⟨fun h => ⟨[1], [(0 + h) * (0 + h)]⟩, fun h => valueQ _ _ _ _ ?_, ?_⟩
    · rw [upd_same]
      simp [bump, osW, Ten.at, flat, size]
    · have : HasDerivAt (fun h : ℝ => (0 + h) * (0 + h)) 0 0 := by
        have := ((hasDerivAt_id (0 : ℝ)).const_add 0).mul ((hasDerivAt_id (0 : ℝ)).const_add 0)
        refine this.congr_deriv ?_
        norm_num
      simpa [Ten.at, flat] using this
  · have : ValidIdx [1] is := his
    cases is with
    | nil => simp [ValidIdx] at this
    | cons i is => cases is <;> simp_all [ValidIdx, osW, Ten.at, flat]

end
end Verif.Regular
