import Verif.Fit.Evaluate
/-!
# Property C102: fitting is training on the batches

`fit` without a validation split does what calling `train_on_batch` with one batch after the other does.
-/
namespace Verif.Fit
open Verif Res View Data Graph Optim

variable {σ α : Type}

/-- Calling `train_on_batch` with the batches `X 0, Y 0`, ..., and that `epochs` times. -/
def trainAll (m : Machine σ α) (X Y : Nat → Ten α) (loops epochs : Nat) (s : σ) : Res σ :=
  loop epochs (fun _ => loop loops (fun l s => do
    let (_, s) ← trainOnBatch m (X l) (Y l) s
    pure s)) s

/-- What is asked of the rest of the program: binding replaces what was bound before, and nobody else leaves the learning phase. -/
structure Phased (m : Machine σ α) (P : σ → Prop) : Prop where
  rebind : ∀ x y x' y' s, m.bind x y (m.phase true (m.bind x' y' s)) = m.bind x y (m.phase true s)
  on : ∀ s, P (m.phase true s)
  same : ∀ s, P s → m.phase true s = s
  bind : ∀ s x y, P s → P (m.bind x y s)
  loss : ∀ s t s', P s → m.loss s = ok (t, s') → P s'
  step : ∀ s s', P s → m.step s = ok s' → P s'

/-- C102, one batch: the optimizer is run once, after the loss of the batch, in the learning phase; the result is the loss before the step. -/
theorem train_on_batch_once {m : Machine σ α} {x y : Ten α} {s s' : σ} {e : α} (h : trainOnBatch m x y s = ok (e, s')) :
    ∃ t s1, m.loss (m.bind x y (m.phase true s)) = ok (t, s1) ∧ t.data = [e] ∧ m.step s1 = ok s' := by
  unfold trainOnBatch at h
  simp only [bind_eq_ok, pure_eq, ok.injEq, Prod.mk.injEq] at h
  obtain ⟨⟨t, s1⟩, h1, s2, h2, e', h3, rfl, rfl⟩ := h
  refine ⟨t, s1, h1, ?_, h2⟩
  unfold asScalar at h3
  by_cases hl : t.data.length = 1
  · rw [assert_true hl, bind_ok] at h3
    obtain ⟨d, hd⟩ := List.length_eq_one_iff.mp hl
    rw [hd] at h3 ⊢
    simp only [rd, List.getElem?_cons_zero, ok.injEq] at h3
    rw [h3]
  · rw [assert_false hl] at h3
    simp at h3

variable {m : Machine σ α} {inputs outputs : Ten α} {bs n n' : Nat} {a b : List Nat} {XI YO : List Nat → α}

/-- C102: `fit` without a validation split, where it returns, leaves the program in the state in which calling `train_on_batch` with its batches leaves it
(if there is a batch, and at least one epoch). -/
theorem fit_is_train_on_batch [Field α] {P : σ → Prop} (hm : Phased m P) (hi : inputs.Has (n :: a) XI) (ho : outputs.Has (n' :: b) YO) (hn : n ≤ n') (hl : 0 < n / bs)
    (epochs : Nat) (he : 0 < epochs) (s : σ) {f : Frame σ α} (h : fit m inputs outputs bs epochs 0 s = ok f) :
    ∃ X Y : Nat → Ten α, (∀ l, l < n / bs → IsBatch inputs bs l (X l) ∧ IsBatch outputs bs l (Y l)) ∧ trainAll m X Y (n / bs) epochs s = ok f.s := by
  refine ⟨batch inputs bs, batch outputs bs, fun l hl => ⟨batch_isBatch hi hl, batch_isBatch ho (lt_of_lt_of_le hl (Nat.div_le_div_right hn))⟩, ?_⟩
  have hT : trainingLoops 0 (n / bs) = n / bs := by unfold trainingLoops; simp
  unfold fit at h
  rw [rd_ok (v := n) (by rw [hi.1]; rfl), bind_ok, buffer_ok hi, buffer_ok ho] at h
  have hbs : bs ≠ 0 := by rintro rfl; simp at hl
  rw [require_true hbs, bind_ok, bind_ok, bind_ok] at h
  dsimp only at h
  have hxl : (List.replicate (size (bs :: inputs.shape.tail)) (0 : α)).length = bs * size inputs.shape.tail := by simp
  have hyl : (List.replicate (size (bs :: outputs.shape.tail)) (0 : α)).length = bs * size outputs.shape.tail := by simp
  rw [hxl, hyl, hT] at h
  have key := loop_partial (fun e f => Buf inputs outputs bs f ∧ P f.s ∧ ∃ s', trainAll m (batch inputs bs) (batch outputs bs) (n / bs) e s = ok s' ∧
    (∀ x y, m.bind x y (m.phase true f.s) = m.bind x y (m.phase true s')) ∧ (0 < e → s' = f.s)) h ?_ ?_
  · obtain ⟨_, _, s', k1, _, k2⟩ := key
    rw [k1, k2 he]
  · refine ⟨⟨rfl, hxl, rfl, hyl⟩, hm.on _, s, rfl, fun x y => ?_, fun h => absurd h (by omega)⟩
    dsimp only
    rw [hm.same _ (hm.on _), hm.rebind]
  · rintro e u u' _ ⟨hb, hP, s', k1, k2, k3⟩ hstep
    rw [bind_eq_ok] at hstep
    obtain ⟨v, j1, j2⟩ := hstep
    simp only [pure_eq, ok.injEq] at j2
    have key := loop_partial (fun i f => Buf inputs outputs bs f ∧ P f.s ∧ ∃ t', loop i (fun l s => do
        let (_, s) ← trainOnBatch m (batch inputs bs l) (batch outputs bs l) s
        pure s) s' = ok t' ∧
      (∀ x y, m.bind x y (m.phase true f.s) = m.bind x y (m.phase true t')) ∧ (0 < i → t' = f.s)) j1 ?_ ?_
    · obtain ⟨c1, c2, t', c3, _, c4⟩ := key
      subst j2
      refine ⟨⟨c1.xs, c1.xd, c1.ys, c1.yd⟩, c2, t', ?_, fun x y => by rw [c4 hl], fun _ => c4 hl⟩
      unfold trainAll at k1 ⊢
      rw [loop_succ, k1, bind_ok, c3]
    · exact ⟨⟨hb.xs, hb.xd, hb.ys, hb.yd⟩, hP, s', rfl, k2, fun h => absurd h (by omega)⟩
    · rintro i w w' hi' ⟨c1, c2, t', c3, c4, _⟩ hs
      unfold fitBody at hs
      rw [feed_eq hi ho hn hi' c1] at hs
      simp only [bind_eq_ok, pure_eq, ok.injEq] at hs
      obtain ⟨⟨e1, w1⟩, ⟨⟨t, s1⟩, g1, e', g2, hv⟩, hrest⟩ := hs
      obtain ⟨rfl, rfl⟩ := Prod.mk.injEq _ _ _ _ ▸ hv
      simp only [if_pos (show i ≤ n / bs by omega), bind_eq_ok, ok.injEq] at hrest
      obtain ⟨s2, g3, rfl⟩ := hrest
      have hP1 := hm.loss _ _ _ (hm.bind _ _ _ c2) g1
      refine ⟨batch_buf hi ho hn hi' _ rfl rfl, hm.step _ _ hP1 g3, s2, ?_, fun _ _ => rfl, fun _ => rfl⟩
      rw [loop_succ, c3, bind_ok]
      unfold trainOnBatch
      rw [← c4, hm.same _ c2, g1, bind_ok]
      dsimp only
      rw [show m.step s1 = ok s2 from g3, bind_ok, g2, bind_ok]
      rfl

/-- A run does not change the learning phase. -/
theorem forward_phase [Zero α] (t : Ex α) : ∀ (sl : Slot) (s s' : St α) (y : Ten α), forward t sl s = ok (y, s') → s'.training = s.training := by
  induction t with
  | leaf k =>
    intro sl s s' y h
    simp only [forward, bind_eq_ok, pure_eq] at h
    obtain ⟨_, _, h⟩ := h
    cases h
    rfl
  | var v c =>
    intro sl s s' y h
    simp only [forward, varForward] at h
    split at h <;> (cases h; rfl)
  | un i op c ih =>
    intro sl s s' y h
    simp only [forward] at h
    split at h
    · simp only [bind_eq_ok, pure_eq] at h
      obtain ⟨⟨x, s2⟩, ha, z, hb, h⟩ := h
      cases h
      have := ih _ _ _ _ ha
      exact this
    · cases h
      rfl
  | bin i op l r ihl ihr =>
    intro sl s s' y h
    simp only [forward] at h
    split at h
    · simp only [bind_eq_ok, pure_eq] at h
      obtain ⟨⟨x, s2⟩, ha, ⟨w, s3⟩, hb, z, hz', h⟩ := h
      cases h
      have h1 := ihl _ _ _ _ ha
      have h2 := ihr _ _ _ _ hb
      exact h2.trans h1
    · cases h
      rfl

/-- The compiled models of `Verif.Optim` are such programs, whatever the loss, if the optimizer leaves the learning phase alone. -/
theorem compiled_phased {O : Type} (loss : Ex ℝ) (inp gt : Nat) (step : O → OSt → Res (O × OSt)) (hs : ∀ o s o' s', step o s = ok (o', s') → s'.st.training = s.st.training) :
    Phased (compiled loss inp gt step) (fun s => s.2.st.training = true) := by
  refine ⟨fun x y x' y' s => ?_, fun s => rfl, fun s h => ?_, fun s x y h => h, fun s t s' h hl => ?_, fun s s' h hl => ?_⟩
  · simp only [compiled]
    congr 3
    funext k
    simp only [upd]
    split_ifs <;> rfl
  · obtain ⟨o, ⟨st, _, _⟩⟩ := s
    cases st
    simp only at h
    subst h
    rfl
  · simp only [compiled, bind_eq_ok, pure_eq, ok.injEq] at hl
    obtain ⟨⟨y, st⟩, h1, h2⟩ := hl
    cases h2
    unfold run at h1
    simpa using (forward_phase _ _ _ _ _ h1).trans h
  · obtain ⟨o', s'⟩ := s'
    exact (hs _ _ _ _ hl).trans h

/-- The machine counting its steps. -/
theorem counter_phased : Phased counter (fun _ => True) :=
  ⟨fun _ _ _ _ _ => rfl, fun _ => trivial, fun _ _ => rfl, fun _ _ _ _ => trivial, fun _ _ _ _ _ => trivial, fun _ _ _ _ => trivial⟩

example : ∃ X Y f, trainAll counter X Y 4 3 (0, 0) = ok f ∧ f.1 = 12 := by
  have hi : (⟨[9], [0, 1, 2, 3, 4, 5, 6, 7, 8]⟩ : Ten ℚ).WF := rfl
  have hf : (match fit counter ⟨[9], [0, 1, 2, 3, 4, 5, 6, 7, 8]⟩ ⟨[9], [0, 1, 2, 3, 4, 5, 6, 7, 8]⟩ 2 3 0 (0, 0) with
    | ok f => decide (f.s.1 = 12)
    | _ => false) = true := by decide +kernel
  split at hf
  · rename_i f h
    obtain ⟨X, Y, _, h2⟩ := fit_is_train_on_batch counter_phased hi.has hi.has (le_refl 9) (by decide) 3 (by decide) (0, 0) h
    exact ⟨X, Y, f.s, h2, by simpa using hf⟩
  · cases hf

end Verif.Fit
