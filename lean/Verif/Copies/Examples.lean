import Verif.Copies.Props
import Verif.Optim.Train
import Verif.Softmax.Props
/-!
# Copies of compiled models: examples
-/
namespace Verif.Copies
open Verif Res View Data Graph Optim Fit Runs Softmax
open Verif.Loss (opMean)

noncomputable section

/-- The operator `cross_entropy_loss` (include/loss.hpp lines 59-115). -/
def opCross (eps f : ℝ) : BOp ℝ := ⟨crossForward eps f, fun l r _ g => crossBackward eps f l r g⟩

/-- The labels against the scores held in variable 0, two classes. -/
def crossLoss : Ex ℝ := .bin 1 (opCross 0 0) (.leaf 4) (.var 0 ⟨0, 0, true⟩)

/-- sgd without momentum. -/
def sgdOpt : Opt Unit := ⟨fun _ => sgdRule 0 (1/10) false, id⟩

/-- A program with variable 0, of shape `[1, 2]`. -/
def scores (a b : ℝ) : OSt :=
  createVar 0 ⟨[1, 2], [a, b]⟩ true
    ⟨⟨fun _ => noTensor, fun _ => noTensor, fun _ => noTensor, fun _ => true, fun _ => noFields, fun _ => none, true, []⟩, fun _ => [], []⟩

theorem varForward_training (v : Nat) (sl : Slot) (s : St ℝ) (h : s.training = true) :
    varForward v sl s = (s.data v, { s with grad := upd s.grad v ⟨(s.grad v).shape, (s.grad v).data.map (fun _ => 0)⟩, sync := upd s.sync sl false }) := if_pos h

theorem row_has (a b : ℝ) : (⟨[1, 2], [a, b]⟩ : Ten ℝ).Has [1, 2] (fun is => [a, b].getD (is.getD 1 0) 0) := by
  refine ⟨rfl, rfl, fun is hv => ?_⟩
  match is, hv with
  | [0, 0], _ => rfl
  | [0, 1], _ => rfl

/-- The original has seen one batch, with the first class for a label, at address 1; its copy is at address 2. -/
def two (a b : ℝ) : World Unit :=
  ⟨fun p => if p = 1 ∨ p = 2 then some ⟨some ⟨⟨[1, 2], [1, 0]⟩, ⟨[1, 2], [3, 4]⟩, noTensor⟩, (), 1⟩ else none, scores a b⟩

theorem two_trains (a b y0 y1 : ℝ) (x : Ten ℝ) : ∃ r w, trainOnBatch (machine sgdOpt 1 crossLoss 3 4 2) x ⟨[1, 2], [y0, y1]⟩ (two a b) = ok (r, w) := by
  have hd : ((scores a b).st.data 0) = ⟨[1, 2], [a, b]⟩ := by unfold scores createVar; simp only [upd_same]
  have hg : ((scores a b).st.grad 0).Has [1, 2] (fun _ => 0) := by
    rw [show (scores a b).st.grad 0 = zerosLike ⟨[1, 2], [a, b]⟩ by unfold scores createVar; simp only [upd_same]]
    exact zerosLike_has (row_has a b)
  have hz : (⟨((scores a b).st.grad 0).shape, ((scores a b).st.grad 0).data.map (fun _ => 0)⟩ : Ten ℝ).Has [1, 2] (fun _ => 0) := resetT_has hg
  have hf := crossForward_ok 0 0 ⟨[1, 2], [y0, y1]⟩ ⟨[1, 2], [a, b]⟩ 1 [] 2 _ _ (row_has y0 y1) (row_has a b) (le_refl 2) (by decide)
  obtain ⟨L, R, hb, hR⟩ := crossBackward_ok 0 0 ⟨[1, 2], [1, 0]⟩ ⟨[1, 2], [3, 4]⟩ ones1 1 [] 2 _ _ 1 (row_has 1 0) (row_has 3 4) rfl (le_refl 2) (by decide)
  obtain ⟨g', e4, e5⟩ := addGrad_ok (data := ⟨[1, 2], [a, b]⟩) hz rfl hR
  obtain ⟨d', c', k1, -, -⟩ := sgdRule_ok 0 (1/10) false (row_has a b) e5 (c := []) (μ := fun _ => 0) (Or.inl ⟨rfl, fun _ => rfl⟩)
  rw [copy_step sgdOpt 1 crossLoss 3 4 1 2 (by decide) x _ (two a b) ⟨⟨[1, 2], [1, 0]⟩, ⟨[1, 2], [3, 4]⟩, noTensor⟩ () _ ⟨⟨[1, 2], [1, 0]⟩, ⟨[1, 2], [3, 4]⟩, noTensor⟩ rfl rfl rfl]
  have hrun : ∃ st t, run crossLoss { (two a b).os.st with obj := upd (two a b).os.st.obj none ⟨⟨[1, 2], [1, 0]⟩, ⟨[1, 2], [3, 4]⟩, noTensor⟩, training := true, leaf := upd (upd (two a b).os.st.leaf 3 x) 4 ⟨[1, 2], [y0, y1]⟩ } = ok (⟨[1], [t]⟩, st) ∧ st.data = (scores a b).st.data ∧
      st.grad 0 = ⟨((scores a b).st.grad 0).shape, ((scores a b).st.grad 0).data.map (fun _ => 0)⟩ ∧ st.sync (some (1, true)) = false := by
    unfold run crossLoss
    simp only [forward, query, Option.getD_none, noTensor, if_true, upd_same]
    rw [Res.assert_true (by simp)]
    simp only [bind_ok, pure_eq, two, varForward_training, hd, opCross]
    rw [hf, bind_ok]
    exact ⟨_, _, rfl, rfl, by simp only [upd_same], by simp only [upd_same]⟩
  obtain ⟨st, t, r1, r2, r3, r4⟩ := hrun
  rw [r1, bind_ok]
  dsimp only
  have hstep : ∃ s, sgdOpt.step 1 crossLoss () (withRoot ⟨⟨[1, 2], [1, 0]⟩, ⟨[1, 2], [3, 4]⟩, noTensor⟩ { (two a b).os with st := st }) = ok ((), s) := by
    unfold Opt.step backprop crossLoss
    simp only [backward, withRoot, upd_same, opCross, hb, bind_ok, varBackward, Bool.true_eq_false, if_false, r3, r2, hd, e4, r4, if_true, regularise, pure_eq,
      if_neg (show ¬ (1 : ℝ) ≤ 0 by norm_num)]
    unfold updateAll
    simp only [two, show (scores a b).reg = [(0, true)] from rfl, List.foldlM_cons, List.foldlM_nil, updateVar, if_true, hd, upd_same, sgdOpt,
      show (scores a b).ctx 0 = [] by unfold scores createVar; simp only [upd_same], k1, bind_ok, pure_eq]
    exact ⟨_, rfl⟩
  obtain ⟨s, hs⟩ := hstep
  rw [hs]
  exact ⟨_, _, rfl⟩

/-- A copy trained with the first or the second class for a label, or with anything: the scores come out the same. -/
example (a b y0 y1 z0 z1 : ℝ) (x : Ten ℝ) : ∃ r w r' w', trainOnBatch (machine sgdOpt 1 crossLoss 3 4 2) x ⟨[1, 2], [y0, y1]⟩ (two a b) = ok (r, w) ∧
    trainOnBatch (machine sgdOpt 1 crossLoss 3 4 2) x ⟨[1, 2], [z0, z1]⟩ (two a b) = ok (r', w') ∧ w.os.st.data = w'.os.st.data := by
  obtain ⟨r, w, h⟩ := two_trains a b y0 y1 x
  obtain ⟨r', w', h'⟩ := two_trains a b z0 z1 x
  refine ⟨r, w, r', w', h, h', ?_⟩
  exact (copy_ignores_labels_violated sgdOpt 1 1 _ _ 3 4 1 2 (by decide) (by simp [Train.leaves]) x _ _ (two a b) w w' _ () _ _ r r' rfl rfl rfl h h').1

/-- The copy cannot be trained once the original is gone, or has been moved. -/
example (a b : ℝ) (x y : Ten ℝ) (z : ℝ × World Unit) : trainOnBatch (machine sgdOpt 1 crossLoss 3 4 2) x y (destroyAt 1 (two a b)) ≠ ok z :=
  dangling_copy_violated sgdOpt 1 crossLoss 3 4 1 2 (by decide) x y _ (some ⟨⟨[1, 2], [1, 0]⟩, ⟨[1, 2], [3, 4]⟩, noTensor⟩) () (by simp [destroyAt, upd, two]) (fun c hc => by
    simp [destroyAt, upd] at hc) z

example (a b : ℝ) (x y : Ten ℝ) (z : ℝ × World Unit) : ∃ w', moveAt 1 7 (two a b) = ok w' ∧ trainOnBatch (machine sgdOpt 1 crossLoss 3 4 7) x y w' ≠ ok z :=
  ⟨_, rfl, moved_violated sgdOpt 1 crossLoss 3 4 1 7 (by decide) x y (two a b) _ _ () rfl rfl z⟩

/-- A mean of variable 0 as a loss. -/
def meanLoss : Ex ℝ := .un 1 opMean (.var 0 ⟨0, 0, true⟩)

example (a b : ℝ) (x y : Ten ℝ) (z : ℝ × World Unit) : ∃ w', copyAt 1 2 (compileAt 1 () ⟨fun _ => none, scores a b⟩) = ok w' ∧
    trainOnBatch (machine sgdOpt 1 meanLoss 3 4 2) x y w' ≠ ok z := by
  have h : ∃ w', copyAt 1 2 (compileAt 1 () (⟨fun _ => none, scores a b⟩ : World Unit)) = ok w' := by
    unfold copyAt
    rw [lookup_some (show (compileAt 1 () (⟨fun _ => none, scores a b⟩ : World Unit)).cms 1 = some ⟨some noFields, (), 1⟩ by simp [compileAt, upd]), bind_ok]
    exact ⟨_, rfl⟩
  obtain ⟨w', h⟩ := h
  exact ⟨w', h, fresh_copy_violated sgdOpt 1 1 _ 3 4 1 2 (by decide) x y ⟨fun _ => none, scores a b⟩ _ w' () rfl h z⟩

/-- The copy of a model that has been run, with a mean for a loss. -/
def twoMean (a b : ℝ) : World Unit :=
  ⟨fun p => if p = 1 ∨ p = 2 then some ⟨some ⟨⟨[1, 2], [3, 4]⟩, noTensor, noTensor⟩, (), 1⟩ else none, scores a b⟩

theorem mean_trains (a b : ℝ) (x y : Ten ℝ) (w : World Unit) (f : Fields ℝ) (h : w.cms 2 = some ⟨some f, (), 2⟩) (hw : w.os = scores a b) :
    ∃ r w' k, trainOnBatch (machine sgdOpt 1 meanLoss 3 4 2) x y w = ok (r, w') ∧ w'.cms 2 = some ⟨some k, (), 2⟩ ∧ k.inL.shape = [1, 2] := by
  have hd : ((scores a b).st.data 0) = ⟨[1, 2], [a, b]⟩ := by unfold scores createVar; simp only [upd_same]
  have hg : ((scores a b).st.grad 0).Has [1, 2] (fun _ => 0) := by
    rw [show (scores a b).st.grad 0 = zerosLike ⟨[1, 2], [a, b]⟩ by unfold scores createVar; simp only [upd_same]]
    exact zerosLike_has (row_has a b)
  have hz : (⟨((scores a b).st.grad 0).shape, ((scores a b).st.grad 0).data.map (fun _ => 0)⟩ : Ten ℝ).Has [1, 2] (fun _ => 0) := resetT_has hg
  obtain ⟨t, hf⟩ : ∃ t, Ops.meanReduce ⟨[1, 2], [a, b]⟩ = ok ⟨[1], [t]⟩ := by
    simp [Ops.meanReduce, meanAll, sumAll, Res.assert, loop, rd]
  obtain ⟨R, hb, hR⟩ : ∃ R, Ops.meanReduceBack ⟨[1, 2], [a, b]⟩ ones1 = ok R ∧ R.Has [1, 2] (fun is => [1, 1].getD (is.getD 1 0) 0) := by
    refine ⟨⟨[1, 2], [1, 1]⟩, ?_, row_has 1 1⟩
    simp [Ops.meanReduceBack, Ops.onesTimes, Ops.meanBatch, ones1, Res.assert, rd, wr, loop, size, List.replicate]
  obtain ⟨g', e4, e5⟩ := addGrad_ok (data := ⟨[1, 2], [a, b]⟩) hz rfl hR
  obtain ⟨d', c', k1, -, -⟩ := sgdRule_ok 0 (1/10) false (row_has a b) e5 (c := []) (μ := fun _ => 0) (Or.inl ⟨rfl, fun _ => rfl⟩)
  rw [original_trains_partial sgdOpt 1 meanLoss 3 4 2 x y w f () h, hw]
  unfold trainOnBatch
  simp only [compiled, withRoot]
  have hrun : ∃ st, run meanLoss { (scores a b).st with obj := upd (scores a b).st.obj none f, training := true, leaf := upd (upd (scores a b).st.leaf 3 x) 4 y } =
      ok (⟨[1], [t]⟩, st) ∧ st.data = (scores a b).st.data ∧ (st.obj none).inL = ⟨[1, 2], [a, b]⟩ ∧
      st.grad 0 = ⟨((scores a b).st.grad 0).shape, ((scores a b).st.grad 0).data.map (fun _ => 0)⟩ ∧ st.sync (some (1, false)) = false := by
    unfold run meanLoss
    simp only [forward, query, Option.getD_none, noTensor, if_true, varForward_training, upd_same, bind_ok, hd, opMean, hf, pure_eq]
    exact ⟨_, rfl, rfl, by simp only [upd_same], by simp only [upd_same], by simp only [upd_same]⟩
  obtain ⟨st, r1, r2, r3, r4, r5⟩ := hrun
  rw [r1, bind_ok]
  simp only [bind_ok, pure_eq]
  have hstep : ∃ s, sgdOpt.step 1 meanLoss () { scores a b with st := st } = ok ((), s) ∧ s.st.obj = st.obj := by
    have : ∃ s, sgdOpt.step 1 meanLoss () { scores a b with st := st } = ok ((), s) := by
      unfold Opt.step backprop meanLoss
      simp only [backward, opMean, r3, hb, bind_ok, varBackward, Bool.true_eq_false, if_false, r4, r2, hd, e4, r5, if_true, regularise, pure_eq,
        if_neg (show ¬ (1 : ℝ) ≤ 0 by norm_num)]
      unfold updateAll
      simp only [show (scores a b).reg = [(0, true)] from rfl, List.foldlM_cons, List.foldlM_nil, updateVar, if_true, hd, upd_same, sgdOpt,
        show (scores a b).ctx 0 = [] by unfold scores createVar; simp only [upd_same], k1, bind_ok, pure_eq]
      exact ⟨_, rfl⟩
    obtain ⟨s, hs⟩ := this
    exact ⟨s, hs, step_obj hs⟩
  obtain ⟨s, hs, ho⟩ := hstep
  rw [hs]
  refine ⟨_, _, s.st.obj none, rfl, by simp [upd], ?_⟩
  rw [ho, r3]

/-- After the original has seen a batch of that shape, the copy trains as a model of its own. -/
example (a b : ℝ) (x y : Ten ℝ) : ∃ r w' w'', trainOnBatch (machine sgdOpt 1 meanLoss 3 4 2) x y (twoMean a b) = ok (r, w'') ∧
    trainOnBatch (machine sgdOpt 1 meanLoss 3 4 2) x y { twoMean a b with cms := upd (twoMean a b).cms 2 (some ⟨some ⟨⟨[1, 2], [3, 4]⟩, noTensor, noTensor⟩, (), 2⟩) } = ok (r, w') ∧
      w''.os.st.data = w'.os.st.data := by
  obtain ⟨r, w', k, h1, h2, h3⟩ := mean_trains a b x y { twoMean a b with cms := upd (twoMean a b).cms 2 (some ⟨some ⟨⟨[1, 2], [3, 4]⟩, noTensor, noTensor⟩, (), 2⟩) }
    ⟨⟨[1, 2], [3, 4]⟩, noTensor, noTensor⟩ (by simp [upd]) rfl
  obtain ⟨w'', e1, e2, -⟩ := copy_trains_partial sgdOpt 1 1 _ 3 4 1 2 (by decide) x y (twoMean a b) w' _ () _ ⟨⟨[1, 2], [3, 4]⟩, noTensor, noTensor⟩ r rfl rfl rfl h1
    (fun c' k' hc hk => by
      rw [h2] at hc
      cases hc
      cases hk
      exact h3)
  exact ⟨r, w', w'', e1, h1, e2⟩

/-- The copy's loss can be evaluated, even if the original is gone. -/
example (a b : ℝ) : ∃ w', runLoss meanLoss 2 (destroyAt 1 (twoMean a b)) = ok (⟨[1], [(a + b) / 2]⟩, w') := by
  obtain ⟨w', h, -⟩ := copy_evaluates meanLoss (by simp [meanLoss, Consistent, occs, Ex.id?]) 2 (destroyAt 1 (twoMean a b)) ⟨⟨[1, 2], [3, 4]⟩, noTensor, noTensor⟩ () 1 (by simp [destroyAt, upd, twoMean]) ⟨[1], [(a + b) / 2]⟩
    (by simp [meanLoss, eval, destroyAt, twoMean, scores, createVar, upd, opMean, Ops.meanReduce, meanAll, sumAll, Res.assert, loop, rd])
  exact ⟨w', h⟩

/-- Once the original is gone, the loss of the copy still runs, and the step after it is undefined. -/
example (a b : ℝ) (x y : Ten ℝ) : trainOnBatch (machine sgdOpt 1 meanLoss 3 4 2) x y (destroyAt 1 (twoMean a b)) = ub := by
  have hd : ((scores a b).st.data 0) = ⟨[1, 2], [a, b]⟩ := by unfold scores createVar; simp only [upd_same]
  obtain ⟨t, hf⟩ : ∃ t, Ops.meanReduce ⟨[1, 2], [a, b]⟩ = ok ⟨[1], [t]⟩ := by
    simp [Ops.meanReduce, meanAll, sumAll, Res.assert, loop, rd]
  have hrun : ∃ z, run meanLoss { (scores a b).st with obj := upd (scores a b).st.obj none ⟨⟨[1, 2], [3, 4]⟩, noTensor, noTensor⟩, training := true, leaf := upd (upd (scores a b).st.leaf 3 x) 4 y } =
      ok z := by
    unfold run meanLoss
    simp only [forward, query, Option.getD_none, noTensor, if_true, varForward_training, upd_same, bind_ok, hd, opMean, hf, pure_eq]
    exact ⟨_, rfl⟩
  obtain ⟨⟨z, st⟩, hr⟩ := hrun
  exact dangling_copy_undefined sgdOpt 1 meanLoss 3 4 1 2 (by decide) x y (destroyAt 1 (twoMean a b)) ⟨⟨[1, 2], [3, 4]⟩, noTensor, noTensor⟩ () (by simp [destroyAt, upd, twoMean])
    (fun c hc => by simp [destroyAt, upd] at hc) z st hr

/-- `evaluate` of the copy returns, even if the original is gone. -/
example (a b : ℝ) : ∃ r f, evaluate (machine sgdOpt 1 meanLoss 3 4 2) ⟨[4, 1], [1, 2, 3, 4]⟩ ⟨[4, 1], [1, 2, 3, 4]⟩ 2 (destroyAt 1 (twoMean a b)) = ok (r, f) ∧
    f.s.os.st.grad = (scores a b).st.grad := by
  have hi : (⟨[4, 1], [1, 2, 3, 4]⟩ : Ten ℝ).WF := rfl
  let w : World Unit := destroyAt 1 (twoMean a b)
  have hw : Works ({ machine sgdOpt 1 meanLoss 3 4 2 with step := fun w => ok w } : Machine (World Unit) ℝ) 2 [1] [1]
      (fun w => w.os.st.data = (scores a b).st.data ∧ ∃ f, w.cms 2 = some ⟨some f, (), 1⟩) := by
    refine ⟨fun s x y _ _ _ _ h => h, fun s c h => h, fun s ⟨h, f, hf⟩ => ?_, fun s h => ⟨s, rfl, h⟩⟩
    obtain ⟨w', e1, e2⟩ := copy_evaluates meanLoss (by simp [meanLoss, Consistent, occs, Ex.id?]) 2 s f () 1 hf ⟨[1], [(a + b) / 2]⟩
      (by rw [h]; simp [meanLoss, eval, scores, createVar, upd, opMean, Ops.meanReduce, meanAll, sumAll, Res.assert, loop, rd])
    refine ⟨_, w', e1, rfl, e2.trans h, ?_⟩
    unfold runLoss at e1
    rw [lookup_some hf, bind_ok] at e1
    simp only [stateOf, bind_ok, bind_eq_ok, pure_eq, Prod.exists] at e1
    obtain ⟨t, st, -, e1⟩ := e1
    injection e1 with e1
    injection e1 with _ e1
    subst e1
    exact ⟨st.obj none, by simp [upd]⟩
  obtain ⟨r, f, h⟩ := evaluate_returns (bs := 2) (by decide) hw hi.has hi.has (le_refl 4) w ⟨rfl, _, by simp [w, destroyAt, upd, twoMean]; rfl⟩
  have h' : evaluate (machine sgdOpt 1 meanLoss 3 4 2) ⟨[4, 1], [1, 2, 3, 4]⟩ ⟨[4, 1], [1, 2, 3, 4]⟩ 2 w = ok (r, f) := h
  exact ⟨r, f, h', (copy_evaluate_keeps sgdOpt 1 meanLoss 3 4 2 _ _ 2 w h').1.2.2.1⟩

end

end Verif.Copies
