import Verif.Graph.Operators
import Verif.Graph.Once
/-!
# Shared operands (C54)

An operator used twice lives in two objects, which share the session's cache but not the fields `input_data_` / `output_data_`.
`forward` of the object visited second finds the result in the cache and returns early: its input field is not written.
-/
namespace Verif.Graph
open Verif Res View Data Ops

section
variable {α : Type}

/-- `forward` of `t` in the object `sl` writes to `sl` and to the objects of the operators of `t`, only. -/
theorem forward_frame [Zero α] (t : Ex α) : ∀ (sl : Slot) (s s' : St α) (y : Ten α), forward t sl s = ok (y, s') →
    ∀ σ : Slot, σ ≠ sl → (∀ i b, σ = some (i, b) → i ∉ ids t) → s'.obj σ = s.obj σ := by
  induction t with
  | leaf k =>
    intro sl s s' y h σ _ _
    simp only [forward, bind_eq_ok, pure_eq] at h
    obtain ⟨_, _, h⟩ := h
    cases h; rfl
  | var v c =>
    intro sl s s' y h σ _ _
    simp only [forward, varForward] at h
    split at h <;> (cases h; rfl)
  | un i op c ih =>
    intro sl s s' y h σ h1 h2
    simp only [forward] at h
    split at h
    · simp only [bind_eq_ok, pure_eq] at h
      obtain ⟨⟨x, s2⟩, ha, z, hb, h⟩ := h
      cases h
      have hσ : σ ≠ some (i, false) := fun e => h2 i false e (by simp [ids])
      have := ih _ _ _ _ ha σ hσ (fun j b e => fun hj => h2 j b e (by simp [ids, hj]))
      simp only [upd_ne _ _ h1] at this ⊢
      exact this
    · cases h
      simp only [upd_ne _ _ h1]
  | bin i op l r ihl ihr =>
    intro sl s s' y h σ h1 h2
    simp only [forward] at h
    split at h
    · simp only [bind_eq_ok, pure_eq] at h
      obtain ⟨⟨x, s2⟩, ha, ⟨w, s3⟩, hb, z, hz, h⟩ := h
      cases h
      have hσ : ∀ b, σ ≠ some (i, b) := fun b e => h2 i b e (by simp [ids])
      have e1 := ihl _ _ _ _ ha σ (hσ _) (fun j b e => fun hj => h2 j b e (by simp [ids, hj]))
      have e2 := ihr _ _ _ _ hb σ (hσ _) (fun j b e => fun hj => h2 j b e (by simp [ids, hj]))
      simp only [upd_ne _ _ h1] at e1 e2 ⊢
      exact e2.trans e1
    · cases h
      simp only [upd_ne _ _ h1]

theorem forward_un_cached [Zero α] {i : Nat} {op : UOp α} {c : Ex α} {sl : Slot} {s s' : St α} {y : Ten α} (h : forward (.un i op c) sl s = ok (y, s')) :
    s'.cache i = some y := by
  simp only [forward] at h
  split at h
  · simp only [bind_eq_ok, pure_eq] at h
    obtain ⟨_, _, z, _, h⟩ := h
    cases h
    exact upd_same _ _ _
  · rename_i hq
    cases h
    exact query_nonempty hq

/-- After a run of an operator with the same operator object as both operands, the second operand object still has the input it had
before the run, whatever that was. -/
theorem shared_operand_stale [Zero α] (j i : Nat) (b : BOp α) (op : UOp α) (c : Ex α) (hc : Consistent (.bin j b (.un i op c) (.un i op c))) (s s1 : St α) (z : Ten α)
    (h : run (.bin j b (.un i op c) (.un i op c)) s = ok (z, s1)) (hne : ∀ y, eval s.leaf s.data (.un i op c) = ok y → y.data ≠ []) :
    (s1.obj (some (j, true))).inL = (s.obj (some (j, true))).inL := by
  have ho := mem_occs_self (.bin j b (.un i op c) (.un i op c)) none
  have hji : j ∉ ids (.un i op c) := not_mem_child (b := false) hc ho rfl rfl
  have hol : (some (j, false), Ex.un i op c) ∈ occs (.bin j b (.un i op c) (.un i op c)) none := (occs_child_bin ho).1
  unfold run at h
  rw [forward] at h
  dsimp only at h
  rw [if_pos (show (query (fun _ => (none : Option (Ten α))) j).data = [] from rfl)] at h
  simp only [bind_eq_ok, pure_eq] at h
  obtain ⟨⟨x, s2⟩, ha, ⟨w, s3⟩, hb, z', hz, h⟩ := h
  cases h
  have hfr := forward_frame _ _ _ _ _ ha (some (j, true)) (by simp) (fun k d e => by cases e; exact hji)
  simp only at hfr
  rw [upd_ne _ _ (by simp)] at hfr
  have hx := forward_un_cached ha
  have hev := (forward_ok hc hol (inv_start { s with obj := upd s.obj none { (s.obj none) with out := query (fun _ => none) j } }) ha).1
  have hq : query s2.cache i = x := by unfold query; rw [hx]; rfl
  simp only [forward, hq, if_neg (hne x hev)] at hb
  cases hb
  simp only [upd_ne _ _ (show (some (j, true) : Slot) ≠ none by simp), upd_same]
  rw [← hfr]

section
variable [Zero α] [One α] [Add α] [Mul α] [Neg α] [LE α] [DecidableLE α]

theorem backward_obj (eps : α) (t : Ex α) : ∀ (sl : Slot) (g : Ten α) (s s' : St α), backward eps t sl g s = ok s' → s'.obj = s.obj := by
  induction t with
  | leaf k => intro sl g s s' h; cases h; rfl
  | var v c => intro sl g s s' h; exact varBackward_obj h
  | un i op c ih =>
    intro sl g s s' h
    simp only [backward, bind_eq_ok] at h
    obtain ⟨d, _, h⟩ := h
    exact ih _ _ _ _ h
  | bin i op l r ihl ihr =>
    intro sl g s s' h
    simp only [backward, bind_eq_ok] at h
    obtain ⟨d, _, s2, h1, h2⟩ := h
    exact (ihr _ _ _ _ h2).trans (ihl _ _ _ _ h1)

/-- C54 is false of the code: let `y` be an element-wise operator on a variable, used as both operands of a binary operator.  After the
first run (the fields of the operand objects are empty tensors), backward does not finish, whatever the binary operator and the
incoming gradient are: the second operand object differentiates at the empty tensor it has as its input, and the variable refuses the
resulting gradient. -/
theorem shared_elementwise_violated (eps : α) (j i v : Nat) (b : BOp α) (f : α → α) (f' : α → α → α → α) (c1 c2 : Ten α) (cfg : Cfg α) (hji : j ≠ i) (s s1 : St α) (z : Ten α)
    (htr : cfg.trainable = true) (hd : (s.data v).WF) (hne : (s.data v).data ≠ []) (hsh : (s.data v).shape ≠ [])
    (hfresh : (s.obj (some (j, true))).inL = noTensor)
    (h : run (.bin j b (.un i ⟨mapT f c1, zipT f' c2⟩ (.var v cfg)) (.un i ⟨mapT f c1, zipT f' c2⟩ (.var v cfg))) s = ok (z, s1)) (g : Ten α) (s2 : St α) :
    backward eps (.bin j b (.un i ⟨mapT f c1, zipT f' c2⟩ (.var v cfg)) (.un i ⟨mapT f c1, zipT f' c2⟩ (.var v cfg))) none g s1 ≠ ok s2 := by
  have hc : Consistent (.bin j b (.un i ⟨mapT f c1, zipT f' c2⟩ (.var v cfg)) (.un i ⟨mapT f c1, zipT f' c2⟩ (.var v cfg))) := by
    intro p hp q hq k hk1 hk2
    simp only [occs, List.mem_cons, List.mem_append, List.not_mem_nil, or_false] at hp hq
    rcases hp with rfl | (rfl | rfl) | (rfl | rfl) <;> rcases hq with rfl | (rfl | rfl) | (rfl | rfl) <;>
      simp only [Ex.id?, Option.some.injEq, reduceCtorEq] at hk1 hk2 ⊢ <;> omega
  have hst := shared_operand_stale j i b ⟨mapT f c1, zipT f' c2⟩ (.var v cfg) hc s s1 z h (fun y hy => by
    simp only [eval, bind_ok] at hy
    obtain ⟨u, hu, hu2⟩ := mapT_ok f c1 (s.data v) hd.has
    rw [hu] at hy
    cases hy
    intro he
    have := hu2.wf
    unfold Ten.WF at this hd
    rw [he, hu2.1, ← hd] at this
    exact hne (List.eq_nil_of_length_eq_zero this.symm))
  have hdata : s1.data = s.data := (forward_ok hc (mem_occs_self _ none) (inv_start s) h).2.1.data
  intro hb
  simp only [backward, bind_eq_ok] at hb
  obtain ⟨d, _, s3, ⟨dl, _, h3⟩, dr, h4, h5⟩ := hb
  have hobj : s3.obj = s1.obj := varBackward_obj h3
  have hd3 : s3.data = s1.data := by
    unfold varBackward at h3
    split at h3
    · cases h3; rfl
    · rw [bind_eq_ok] at h3
      obtain ⟨g, _, h3⟩ := h3
      split at h3
      · simp only [bind_eq_ok, pure_eq] at h3
        obtain ⟨g, _, h3⟩ := h3
        cases h3; rfl
      · cases h3; rfl
  rw [hobj, hst, hfresh] at h4
  have hdr : dr.shape = [] := by
    simp only [zipT, noTensor, List.length_nil, loop, bind_ok, pure_eq] at h4
    cases h4; rfl
  unfold varBackward at h5
  rw [if_neg (by simp [htr]), bind_eq_ok] at h5
  obtain ⟨g', h6, _⟩ := h5
  unfold addGrad at h6
  rw [hdr, hd3, hdata] at h6
  dsimp only at h6
  rw [assert_false] at h6
  · cases h6
  · split
    · exact hsh
    · rename_i hq
      push Not at hq
      rw [hq]; exact hsh

end

end

/-! ## Operators that do not look at their operands -/

/-- `sigmoid` (include/activation.hpp lines 249-273), with the backward action written as in the code: it uses the result only. -/
noncomputable def opSigmoid (cacheF cacheB : Ten ℝ) : UOp ℝ :=
  ⟨mapT (fun x => 1 / (1 + Real.exp (-x))) cacheF, fun _ y g => zipT (fun o _ g => g * o * (1 - o)) cacheB y y g⟩

theorem opSigmoid_good (cacheF cacheB x : Ten ℝ) : (opSigmoid cacheF cacheB).Good x := by
  intro c d hc hm
  obtain ⟨y, s', d', h1, h2, h3⟩ := opElem_good .sigmoid cacheF cacheB x (fun _ _ => trivial) c d hc hm
  have hf : ∀ t, mapT (fun x : ℝ => 1 / (1 + Real.exp (-x))) cacheF t = mapT EOp.sigmoid.fwd cacheF t := fun t => rfl
  refine ⟨y, s', d', h1, h2, fun g hg hgs => ?_⟩
  obtain ⟨u, h4, h5, h6, h7⟩ := h3 g hg hgs
  have hy := h2.has 0
  have hx := hm.has 0
  rw [hc] at hx
  have hyx : s' = x.shape := by
    obtain ⟨u, e1, e2⟩ := mapT_ok EOp.sigmoid.fwd cacheF x hx
    have := h1 0
    rw [hc] at this
    change mapT EOp.sigmoid.fwd cacheF x = _ at this
    rw [e1] at this
    cases this
    rw [← (h2.1 0).2]; exact e2.1
  have hgh := hg.has
  rw [hgs] at hgh
  obtain ⟨w, e1, e2⟩ := zipT_ok (fun o _ g => g * o * (1 - o)) cacheB (y 0) (y 0) g hy hy hgh
  rw [hyx] at hy hgh
  obtain ⟨w', e3, e4⟩ := zipT_ok EOp.sigmoid.bwd cacheB x (y 0) g hx hy hgh
  have : w' = u := by
    change zipT EOp.sigmoid.bwd cacheB x (y 0) g = _ at h4
    rw [e3] at h4
    simpa using h4
  subst this
  refine ⟨w, e1, e2.wf, by rw [e2.1, hyx], ?_⟩
  rw [← h7]
  refine pair_congr (fun is hv => ?_)
  rw [hyx] at e2
  rw [e4.at_eq hv, e2.at_eq hv]
  rfl

/-- A program state with one variable (number 0) of two elements, never run. -/
noncomputable def stOne : St ℝ :=
  ⟨fun _ => noTensor, fun _ => ⟨[2], [3, 4]⟩, fun _ => ⟨[2], [0, 0]⟩, fun _ => false, fun _ => ⟨noTensor, noTensor, noTensor⟩, fun _ => none, true, []⟩

noncomputable def cfgOne : Cfg ℝ := ⟨0, 1, true⟩

/-- `sigmoid(x) + sigmoid(x)` with the same sigmoid twice: backward delivers the derivative (the sigmoid lives in two objects but looks at
its result only).  The regularisation term is added once: both sigmoid objects share the one object of the variable. -/
example (eps : ℝ) (red : List ℝ → ℝ) (hred : Reduces (· + ·) red) :
    let y := Ex.un 1 (opSigmoid noTensor noTensor) (.var 0 cfgOne)
    let e := Ex.bin 2 (opPlus red 1) y y
    ∃ z s1, run e stOne = ok (z, s1) ∧ ∀ g : Ten ℝ, g.WF → g.shape = z.shape → ∃ s2, backward eps e none g s1 = ok s2 ∧
      ∀ is, ValidIdx [2] is → ∃ (Y : ℝ → Ten ℝ) (D : ℝ), (∀ h : ℝ, eval stOne.leaf (upd stOne.data 0 (bump (stOne.data 0) is h)) e = ok (Y h)) ∧
        HasDerivAt (fun h => pair z.shape g.at (Y h).at) D 0 ∧ (s2.grad 0).at is = D + regTerm eps cfgOne ((stOne.data 0).at is) := by
  intro y e
  have hc : Consistent e := by
    intro p hp q hq k hk1 hk2
    simp only [e, y, occs, List.mem_cons, List.mem_append, List.not_mem_nil, or_false] at hp hq
    rcases hp with rfl | (rfl | rfl) | (rfl | rfl) <;> rcases hq with rfl | (rfl | rfl) | (rfl | rfl) <;>
      simp only [Ex.id?, Option.some.injEq, reduceCtorEq] at hk1 hk2 ⊢ <;> omega
  have hu : Unshared e := by
    intro p hp q hq k hk1 hk2
    simp only [e, y, occs, List.mem_cons, List.mem_append, List.not_mem_nil, or_false] at hp hq
    rcases hp with rfl | (rfl | rfl) | (rfl | rfl)
    · rcases hq with rfl | (rfl | rfl) | (rfl | rfl)
      · exact Or.inl rfl
      all_goals (simp only [Ex.id?, Option.some.injEq, reduceCtorEq] at hk1 hk2; try omega)
    · exact Or.inr (fun x x' y g => rfl)
    · simp [Ex.id?] at hk1
    · exact Or.inr (fun x x' y g => rfl)
    · simp [Ex.id?] at hk1
  have hy : ∀ x, eval stOne.leaf stOne.data y = ok x → x.shape = [2] := by
    intro x hx
    obtain ⟨u, h1, h2⟩ := mapT_ok (fun x : ℝ => 1 / (1 + Real.exp (-x))) noTensor (stOne.data 0) (show (stOne.data 0).WF from rfl).has
    have : mapT (fun x : ℝ => 1 / (1 + Real.exp (-x))) noTensor (stOne.data 0) = ok x := hx
    rw [h1] at this
    cases this
    exact h2.1
  have hys : Smooth stOne.leaf stOne.data y := ⟨rfl, fun x _ => opSigmoid_good _ _ _⟩
  have hsm : Smooth stOne.leaf stOne.data e := by
    refine ⟨hys, hys, fun x x' hx hx' => ?_⟩
    have e1 := hy x hx
    have e2 := hy x' hx'
    refine opPlus_good red hred 1 x x' [2] (by rw [e1, e2]; rfl) (by rw [e1, e2]; exact fun k => Or.inl rfl) (by simp [e1]) (by simp [e2]) ?_ ?_ ?_ ?_ ?_ ?_
    · intro d hd; simp at hd; subst hd; decide
    · rw [e1]; decide
    · rw [e2]; decide
    · decide
    · decide
    · decide
  obtain ⟨z, s1, h1, _, h3⟩ := gradient_is_derivative_partial eps e hc hu stOne rfl hsm (fun v _ => ⟨rfl, rfl, rfl⟩) (fun _ => cfgOne) (by
    intro p hp v c hv
    simp only [e, y, occs, List.mem_cons, List.mem_append, List.not_mem_nil, or_false] at hp
    rcases hp with rfl | (rfl | rfl) | (rfl | rfl) <;> simp only [reduceCtorEq, Ex.var.injEq] at hv
    all_goals exact ⟨hv.2.symm, rfl⟩)
  refine ⟨z, s1, h1, fun g hg hgs => ?_⟩
  obtain ⟨s2, h4, _, h5⟩ := h3 g hg hgs
  refine ⟨s2, h4, fun is hv => ?_⟩
  obtain ⟨Y, D, h6, h7, h8⟩ := (h5 0 (by simp [e, y, vars])).2 is hv
  refine ⟨Y, D, h6, h7, ?_⟩
  rw [h8]
  simp [e, y, varOccs]

/-- The same expression with `square` instead: backward does not finish. -/
example (eps : ℝ) (b : BOp ℝ) (z g : Ten ℝ) (s1 s2 : St ℝ)
    (h : run (.bin 2 b (.un 1 ⟨mapT EOp.square.fwd noTensor, zipT EOp.square.bwd noTensor⟩ (.var 0 cfgOne))
      (.un 1 ⟨mapT EOp.square.fwd noTensor, zipT EOp.square.bwd noTensor⟩ (.var 0 cfgOne))) stOne = ok (z, s1)) :
    backward eps (.bin 2 b (.un 1 ⟨mapT EOp.square.fwd noTensor, zipT EOp.square.bwd noTensor⟩ (.var 0 cfgOne))
      (.un 1 ⟨mapT EOp.square.fwd noTensor, zipT EOp.square.bwd noTensor⟩ (.var 0 cfgOne))) none g s1 ≠ ok s2 :=
  shared_elementwise_violated eps 2 1 0 b _ _ _ _ cfgOne (by decide) stOne s1 z rfl rfl (by simp [stOne]) (by simp [stOne]) rfl h g s2

/-- A dense layer with a loss, `sum_reduce(sigmoid(W * x + b))`. -/
noncomputable def denseEx (red : List ℝ → ℝ) (c : Cfg ℝ) : Ex ℝ :=
  Ex.un 4 opSum (.un 3 (opSigmoid noTensor noTensor) (.bin 2 (opPlus red 2) (.bin 1 (opMatmul noTensor noTensor noTensor) (.leaf 0) (.var 0 c)) (.var 1 c)))

/-- It meets the hypotheses of `gradient_is_derivative_partial` for every `W`, `x` and `b` of matching shapes. -/
theorem dense_hyps (red : List ℝ → ℝ) (c : Cfg ℝ) (hred : Reduces (· + ·) red) (s : St ℝ) (m k n : Nat) (hm : 0 < m) (hk : 0 < k) (hn : 0 < n)
    (hmn : m ≠ minusOne ∧ n ≠ minusOne)
    (hx : (s.leaf 0).WF ∧ (s.leaf 0).shape = [m, k]) (hw : (s.data 0).WF ∧ (s.data 0).shape = [k, n]) (hb : (s.data 1).WF ∧ (s.data 1).shape = [1, n]) :
    Consistent (denseEx red c) ∧ Unshared (denseEx red c) ∧ Smooth s.leaf s.data (denseEx red c) := by
  have hc : Consistent (denseEx red c) := by
    intro p hp q hq k hk1 hk2
    simp only [denseEx, occs, List.mem_cons, List.mem_append, List.not_mem_nil, or_false] at hp hq
    rcases hp with rfl | rfl | rfl | (rfl | rfl | rfl) | rfl <;> rcases hq with rfl | rfl | rfl | (rfl | rfl | rfl) | rfl <;>
      simp only [Ex.id?, Option.some.injEq, reduceCtorEq] at hk1 hk2 ⊢ <;> omega
  have hu : Unshared (denseEx red c) := by
    intro p hp q hq k hk1 hk2
    left
    simp only [denseEx, occs, List.mem_cons, List.mem_append, List.not_mem_nil, or_false] at hp hq
    rcases hp with rfl | rfl | rfl | (rfl | rfl | rfl) | rfl <;> rcases hq with rfl | rfl | rfl | (rfl | rfl | rfl) | rfl <;>
      simp only [Ex.id?, Option.some.injEq, reduceCtorEq] at hk1 hk2 ⊢ <;> omega
  have hxne : (s.leaf 0).data ≠ [] := by
    intro h
    have := hx.1
    unfold Ten.WF at this
    rw [h, hx.2] at this
    simp at this
    omega
  have h1 : ∀ x, eval s.leaf s.data (.bin 1 (opMatmul noTensor noTensor noTensor) (.leaf 0) (.var 0 c)) = ok x → x.shape = [m, n] := by
    intro x hx'
    simp only [eval, assert_true hxne, bind_ok, pure_eq] at hx'
    obtain ⟨u, e1, e2⟩ := matmul_forward noTensor (s.leaf 0) (s.data 0) m k n (s.leaf 0).at (s.data 0).at (hx.2 ▸ hx.1.has) (hw.2 ▸ hw.1.has) hm hk hn
    have : matmul noTensor (s.leaf 0) (s.data 0) = ok x := hx'
    rw [e1] at this
    cases this
    exact e2.1
  have hplus : Verif.Tensor.broadcastShape [m, n] [1, n] = ok [m, n] ∧ Verif.Tensor.Compatible [m, n] [1, n] := by
    have hcomp : Verif.Tensor.Compatible [m, n] [1, n] := by
      intro k
      match k with
      | 0 => exact Or.inl rfl
      | 1 => exact Or.inr (Or.inr rfl)
      | k + 2 => left; simp [Verif.Tensor.dimR]
    refine ⟨?_, hcomp⟩
    unfold Verif.Tensor.broadcastShape
    by_cases h : [m, n] = [1, n]
    · rw [if_pos h]
    · have h' : m ≠ 1 := fun e => h (by rw [e])
      rw [if_neg h]
      have d1 : Verif.Tensor.dimAt [m, n] 0 = ok n := rfl
      have d2 : Verif.Tensor.dimAt [1, n] 0 = ok n := rfl
      have d3 : Verif.Tensor.dimAt [m, n] 1 = ok m := rfl
      have d4 : Verif.Tensor.dimAt [1, n] 1 = ok 1 := rfl
      by_cases hn1 : n = 1
      · subst hn1; simp [loop, Verif.Tensor.broadcastDim, d1, d2, d3, d4, h']
      · simp [loop, Verif.Tensor.broadcastDim, d1, d2, d3, d4, h', hn1, assert_true]
  have h2 : ∀ x, eval s.leaf s.data (.bin 2 (opPlus red 2) (.bin 1 (opMatmul noTensor noTensor noTensor) (.leaf 0) (.var 0 c)) (.var 1 c)) = ok x → x.WF ∧ x.shape = [m, n] := by
    intro x hx'
    rw [eval] at hx'
    simp only [bind_eq_ok] at hx'
    obtain ⟨u, e1, w, e2, e3⟩ := hx'
    simp only [eval, ok.injEq] at e2
    subst e2
    have hu := h1 u e1
    have huw : u.WF := by
      simp only [eval, assert_true hxne, bind_ok, pure_eq] at e1
      obtain ⟨u', f1, f2⟩ := matmul_forward noTensor (s.leaf 0) (s.data 0) m k n (s.leaf 0).at (s.data 0).at (hx.2 ▸ hx.1.has) (hw.2 ▸ hw.1.has) hm hk hn
      have : matmul noTensor (s.leaf 0) (s.data 0) = ok u := e1
      rw [f1] at this
      cases this
      exact f2.wf
    obtain ⟨c, t, f1, f2, f3⟩ := plusT_ok (hu ▸ huw.has) (hb.2 ▸ hb.1.has) hplus.2 (by simp [hmn.2]) (by simp [hmn.2])
    rw [hplus.1] at f1
    cases f1
    have : plusT u (s.data 1) = ok x := e3
    rw [f2] at this
    cases this
    exact ⟨f3.wf, f3.1⟩
  have hsm : Smooth s.leaf s.data (denseEx red c) := by
    refine ⟨⟨⟨⟨⟨hx.1, hxne⟩, hw.1, fun x y ex ey => ?_⟩, hb.1, fun x y ex ey => ?_⟩, fun x _ => opSigmoid_good _ _ _⟩, fun x ex => ?_⟩
    · simp only [eval, assert_true hxne, bind_ok, pure_eq, ok.injEq] at ex ey
      subst ex; subst ey
      exact opMatmul_good _ _ _ _ _ m k n hx.2 hw.2 hm hk hn
    · simp only [eval, ok.injEq] at ey
      subst ey
      have e1 := h1 x ex
      have hp := hplus
      rw [← e1, ← hb.2] at hp
      refine opPlus_good red hred 2 _ _ [m, n] (e1 ▸ hp.1) hp.2 (by simp [e1]) (by simp [hb.2]) ?_ ?_ ?_ ?_ ?_ ?_
      · intro d hd
        simp only [List.mem_cons, List.not_mem_nil, or_false] at hd
        rcases hd with rfl | rfl
        · exact hmn.1
        · exact hmn.2
      · simp [e1, hmn.2]
      · simp [hb.2, hmn.2]
      · simp [minusOne]
      · simp; omega
      · simp
    · refine opSum_good x ?_
      rw [eval, bind_eq_ok] at ex
      obtain ⟨u, e1, e2⟩ := ex
      have hu := h2 u e1
      obtain ⟨w, f1, f2⟩ := mapT_ok (fun x : ℝ => 1 / (1 + Real.exp (-x))) noTensor u hu.1.has
      have : mapT (fun x : ℝ => 1 / (1 + Real.exp (-x))) noTensor u = ok x := e2
      rw [f1] at this
      cases this
      rw [f2.1, hu.2]
      simp; omega
  exact ⟨hc, hu, hsm⟩

/-- Its gradients are its derivatives. -/
example (eps : ℝ) (red : List ℝ → ℝ) (hred : Reduces (· + ·) red) (s : St ℝ) (htr : s.training = true) (m k n : Nat) (hm : 0 < m) (hk : 0 < k) (hn : 0 < n)
    (hmn : m ≠ minusOne ∧ n ≠ minusOne)
    (hx : (s.leaf 0).WF ∧ (s.leaf 0).shape = [m, k]) (hw : (s.data 0).WF ∧ (s.data 0).shape = [k, n]) (hb : (s.data 1).WF ∧ (s.data 1).shape = [1, n])
    (hgw : (s.grad 0).WF ∧ (s.grad 0).shape = [k, n]) (hgb : (s.grad 1).WF ∧ (s.grad 1).shape = [1, n]) :
    ∃ y s1, run (denseEx red cfgOne) s = ok (y, s1) ∧ ∀ g : Ten ℝ, g.WF → g.shape = y.shape → ∃ s2, backward eps (denseEx red cfgOne) none g s1 = ok s2 ∧
      ∀ v, v = 0 ∨ v = 1 → ∀ is, ValidIdx (s.data v).shape is →
        ∃ (Y : ℝ → Ten ℝ) (D : ℝ), (∀ h : ℝ, eval s.leaf (upd s.data v (bump (s.data v) is h)) (denseEx red cfgOne) = ok (Y h)) ∧
          HasDerivAt (fun h => pair y.shape g.at (Y h).at) D 0 ∧ (s2.grad v).at is = D + regTerm eps cfgOne ((s.data v).at is) := by
  obtain ⟨hc, hu, hsm⟩ := dense_hyps red cfgOne hred s m k n hm hk hn hmn hx hw hb
  obtain ⟨y, s1, f1, _, f3⟩ := gradient_is_derivative_partial eps (denseEx red cfgOne) hc hu s htr hsm (fun v hv => by
    simp only [denseEx, vars, List.nil_append, List.cons_append, List.mem_cons, List.not_mem_nil, or_false] at hv
    rcases hv with rfl | rfl
    · exact ⟨hw.1, hgw.1, by rw [hw.2, hgw.2]⟩
    · exact ⟨hb.1, hgb.1, by rw [hb.2, hgb.2]⟩) (fun _ => cfgOne) (by
    intro p hp v c hv
    simp only [denseEx, occs, List.mem_cons, List.mem_append, List.not_mem_nil, or_false] at hp
    rcases hp with rfl | rfl | rfl | (rfl | rfl | rfl) | rfl <;> simp only [reduceCtorEq, Ex.var.injEq] at hv
    all_goals exact ⟨hv.2.symm, rfl⟩)
  refine ⟨y, s1, f1, fun g hg hgs => ?_⟩
  obtain ⟨s2, h4, _, h5⟩ := f3 g hg hgs
  refine ⟨s2, h4, fun v hv is his => ?_⟩
  obtain ⟨Y, D, h6, h7, h8⟩ := (h5 v (by rcases hv with rfl | rfl <;> simp [denseEx, vars])).2 is his
  refine ⟨Y, D, h6, h7, ?_⟩
  rw [h8]
  rcases hv with rfl | rfl <;> simp [denseEx, varOccs]

end Verif.Graph
