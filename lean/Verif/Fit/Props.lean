import Verif.Fit.Model
import Verif.Basic.Inplace
import Mathlib.Algebra.BigOperators.Fin
import Mathlib.Tactic.FieldSimp
import Mathlib.Tactic.Linarith
import Mathlib.Tactic.LinearCombination
/-!
# C62 (training and validation batches), C63 (batches), C87 (evaluate does not train)
-/
namespace Verif.Fit
open Verif Res View Data

variable {σ α : Type}

/-! ## What is to happen -/

/-- Samples `l * bs`, ..., `(l + 1) * bs - 1` of a tensor of samples. -/
def IsBatch (t : Ten α) (bs l : Nat) (x : Ten α) : Prop :=
  ∀ (n : Nat) (a : List Nat) (X : List Nat → α), t.Has (n :: a) X → x.Has (bs :: a) (fun is => X ((l * bs + is.headD 0) :: is.tail))

/-- The history of an epoch: batch after batch, and a step after those batches the optimizer is run on. -/
def epochLog (X Y : Nat → Ten α) (errs : Nat → α) (train : Nat → Bool) (loops : Nat) : List (Ev α) :=
  (List.range loops).flatMap (fun l => Ev.feed (X l) (Y l) :: Ev.loss (errs l) :: if train l = true then [Ev.step] else [])

/-- The batches of inputs the optimizer was run on, in order; `b` is the batch fed last. -/
def trainedOn : Option (Ten α) → List (Ev α) → List (Option (Ten α))
  | _, [] => []
  | _, .feed x _ :: r => trainedOn (some x) r
  | b, .loss _ :: r => trainedOn b r
  | b, .step :: r => b :: trainedOn b r

/-! ## Lemmas -/

theorem loop_partial {n : Nat} {body : Nat → σ → Res σ} {s t : σ} (I : Nat → σ → Prop) (h : loop n body s = ok t) (h0 : I 0 s)
    (hs : ∀ i u u', i < n → I i u → body i u = ok u' → I (i + 1) u') : I n t := by
  induction n generalizing t with
  | zero => rw [loop_zero] at h; cases h; exact h0
  | succ n ih =>
    rw [loop_succ, bind_eq_ok] at h
    obtain ⟨u, h1, h2⟩ := h
    exact hs n u t (Nat.lt_succ_self n) (ih h1 (fun i u u' hi => hs i u u' (by omega))) h2

theorem copy_batch {src dst : List α} {s n : Nat} (hs : s + n ≤ src.length) (hd : dst.length = n) : copyTo src s n dst 0 = ok ((src.drop s).take n) := by
  rcases Nat.eq_zero_or_pos n with rfl | hn
  · simp only [copyTo, loop_zero, List.take_zero]
    rw [List.length_eq_zero_iff.mp hd]
  · have hne : 0 < src.length := by omega
    have hv : ∀ i, i < n → src[s + i]? = some (src.getD (s + (0 + i)) src[0]) := by
      intro i hi
      rw [Nat.zero_add, List.getD_eq_getElem?_getD, List.getElem?_eq_getElem (by omega : s + i < src.length)]
      rfl
    rw [(copyTo_sets (N := n) (v := fun p => src.getD (s + p) src[0]) (by omega) hv).eq_ok (fun p hp => ⟨p, hp, by omega⟩) hd]
    congr 1
    apply List.ext_getElem?
    intro i
    rw [List.getElem?_map, List.getElem?_take]
    by_cases hi : i < n
    · rw [List.getElem?_range hi, if_pos hi, List.getElem?_drop, hv i hi, Nat.zero_add]; rfl
    · rw [if_neg hi, List.getElem?_eq_none (by simpa using hi)]; rfl

/-- A batch of a tensor. -/
def batch (t : Ten α) (bs l : Nat) : Ten α :=
  ⟨bs :: t.shape.tail, (t.data.drop (l * (bs * size t.shape.tail))).take (bs * size t.shape.tail)⟩

theorem batch_inside {n bs l c : Nat} (h : l < n / bs) : l * (bs * c) + bs * c ≤ n * c := by
  have h1 : (l + 1) * bs ≤ n := (Nat.mul_le_mul_right bs h).trans (Nat.div_mul_le_self n bs)
  calc l * (bs * c) + bs * c = (l + 1) * bs * c := by ring
    _ ≤ n * c := Nat.mul_le_mul_right c h1

theorem batch_isBatch {t : Ten α} {bs l n : Nat} {a : List Nat} {X : List Nat → α} (ht : t.Has (n :: a) X) (h : l < n / bs) : IsBatch t bs l (batch t bs l) := by
  intro n' a' X' ht'
  have e : n' :: a' = n :: a := by rw [← ht'.1, ht.1]
  cases e
  have hsh : t.shape.tail = a := by rw [ht.1]; rfl
  have hin := batch_inside (c := size a) h
  have hlen : t.data.length = n * size a := by rw [ht.2.1]; rfl
  refine ⟨by unfold batch; rw [hsh], ?_, fun is hv => ?_⟩
  · unfold batch; rw [hsh]
    simp only [List.length_take, List.length_drop, size_cons]
    omega
  · cases is with
    | nil => exact absurd hv id
    | cons i is =>
      have hlt := flat_lt hv
      simp only [size_cons, flat_cons] at hlt
      unfold batch; rw [hsh]
      simp only [flat_cons, List.headD_cons, List.tail_cons]
      rw [List.getElem?_take, if_pos hlt, List.getElem?_drop]
      have h1 : l * bs + i < n := by
        have h2 : (l + 1) * bs ≤ n := (Nat.mul_le_mul_right bs h).trans (Nat.div_mul_le_self n bs)
        have := hv.1
        rw [Nat.succ_mul] at h2
        omega
      have := ht'.2.2 ((l * bs + i) :: is) ⟨h1, hv.2⟩
      rw [flat_cons] at this
      rw [show l * (bs * size a) + (i * size a + flat a is) = (l * bs + i) * size a + flat a is from by ring]
      exact this

theorem epochLog_succ (X Y : Nat → Ten α) (errs : Nat → α) (train : Nat → Bool) (n : Nat) :
    epochLog X Y errs train (n + 1) = epochLog X Y errs train n ++ (Ev.feed (X n) (Y n) :: Ev.loss (errs n) :: if train n = true then [Ev.step] else []) := by
  unfold epochLog
  rw [List.range_succ, List.flatMap_append, List.flatMap_singleton]

theorem epochLog_congr {X Y : Nat → Ten α} {errs errs' : Nat → α} {train : Nat → Bool} {n : Nat} (h : ∀ l, l < n → errs l = errs' l) :
    epochLog X Y errs train n = epochLog X Y errs' train n := by
  unfold epochLog
  induction n with
  | zero => rfl
  | succ n ih =>
    rw [List.range_succ, List.flatMap_append, List.flatMap_append, ih (fun l hl => h l (by omega)), List.flatMap_singleton, List.flatMap_singleton, h n (by omega)]

/-- The buffers have the shape of a batch. -/
structure Buf (inputs outputs : Ten α) (bs : Nat) (f : Frame σ α) : Prop where
  xs : f.x.shape = bs :: inputs.shape.tail
  xd : f.x.data.length = bs * size inputs.shape.tail
  ys : f.y.shape = bs :: outputs.shape.tail
  yd : f.y.data.length = bs * size outputs.shape.tail

variable {m : Machine σ α} {inputs outputs : Ten α} {bs n n' : Nat} {a b : List Nat} {XI YO : List Nat → α}

/-- Feeding batch `l` gives the loss exactly that batch. -/
theorem feed_eq (hi : inputs.Has (n :: a) XI) (ho : outputs.Has (n' :: b) YO) (hn : n ≤ n') {l : Nat} (hl : l < n / bs) {f : Frame σ α} (hb : Buf inputs outputs bs f) :
    feed m inputs outputs (bs * size inputs.shape.tail) (bs * size outputs.shape.tail) l f = (do
      let (t, s) ← m.loss (m.bind (batch inputs bs l) (batch outputs bs l) f.s)
      let e ← asScalar t
      pure (e, { f with s := s, x := batch inputs bs l, y := batch outputs bs l, log := f.log ++ [.feed (batch inputs bs l) (batch outputs bs l), .loss e] })) := by
  have hia : inputs.shape.tail = a := by rw [hi.1]; rfl
  have hob : outputs.shape.tail = b := by rw [ho.1]; rfl
  have hlen : inputs.data.length = n * size a := by rw [hi.2.1]; rfl
  have hlen' : outputs.data.length = n' * size b := by rw [ho.2.1]; rfl
  have hl' : l < n' / bs := lt_of_lt_of_le hl (Nat.div_le_div_right hn)
  unfold feed
  rw [copy_batch (by rw [hia, hlen]; exact batch_inside hl) hb.xd, bind_ok, copy_batch (by rw [hob, hlen']; exact batch_inside hl') hb.yd, bind_ok]
  have ex : (⟨f.x.shape, (inputs.data.drop (l * (bs * size inputs.shape.tail))).take (bs * size inputs.shape.tail)⟩ : Ten α) = batch inputs bs l := by
    unfold batch; rw [hb.xs]
  have ey : (⟨f.y.shape, (outputs.data.drop (l * (bs * size outputs.shape.tail))).take (bs * size outputs.shape.tail)⟩ : Ten α) = batch outputs bs l := by
    unfold batch; rw [hb.ys]
  rw [ex, ey]

theorem batch_buf (hi : inputs.Has (n :: a) XI) (ho : outputs.Has (n' :: b) YO) (hn : n ≤ n') {l : Nat} (hl : l < n / bs) (f : Frame σ α)
    (hx : f.x = batch inputs bs l) (hy : f.y = batch outputs bs l) : Buf inputs outputs bs f := by
  have hl' : l < n' / bs := lt_of_lt_of_le hl (Nat.div_le_div_right hn)
  have h1 := batch_isBatch hi hl n a XI hi
  have h2 := batch_isBatch ho hl' n' b YO ho
  have hia : inputs.shape.tail = a := by rw [hi.1]; rfl
  have hob : outputs.shape.tail = b := by rw [ho.1]; rfl
  refine ⟨?_, ?_, ?_, ?_⟩
  · rw [hx]; rfl
  · rw [hx, h1.2.1, hia]; rfl
  · rw [hy]; rfl
  · rw [hy, h2.2.1, hob]; rfl

section field
variable [Field α]

/-- One epoch. -/
theorem epoch_spec (hi : inputs.Has (n :: a) XI) (ho : outputs.Has (n' :: b) YO) (hn : n ≤ n') (T : Nat) {f f' : Frame σ α} (hb : Buf inputs outputs bs f)
    (h : loop (n / bs) (fitBody m inputs outputs (bs * size inputs.shape.tail) (bs * size outputs.shape.tail) T) { f with te := 0, ve := 0 } = ok f') :
    Buf inputs outputs bs f' ∧ f'.trainErr = f.trainErr ∧ f'.valErr = f.valErr ∧ ∃ errs : Nat → α,
      f'.log = f.log ++ epochLog (batch inputs bs) (batch outputs bs) errs (fun l => decide (l ≤ T)) (n / bs) ∧
      f'.te = ∑ l ∈ Finset.range (n / bs), (if l ≤ T then errs l else 0) ∧ f'.ve = ∑ l ∈ Finset.range (n / bs), (if l ≤ T then 0 else errs l) := by
  refine loop_partial (fun i f' => Buf inputs outputs bs f' ∧ f'.trainErr = f.trainErr ∧ f'.valErr = f.valErr ∧ ∃ errs : Nat → α,
      f'.log = f.log ++ epochLog (batch inputs bs) (batch outputs bs) errs (fun l => decide (l ≤ T)) i ∧
      f'.te = ∑ l ∈ Finset.range i, (if l ≤ T then errs l else 0) ∧ f'.ve = ∑ l ∈ Finset.range i, (if l ≤ T then 0 else errs l)) h ?_ ?_
  · exact ⟨⟨hb.xs, hb.xd, hb.ys, hb.yd⟩, rfl, rfl, fun _ => 0, by simp [epochLog], by simp, by simp⟩
  · rintro i u u' hlt ⟨hbu, h1, h2, errs, h3, h4, h5⟩ hstep
    unfold fitBody at hstep
    rw [feed_eq hi ho hn hlt hbu] at hstep
    simp only [bind_eq_ok, pure_eq, ok.injEq] at hstep
    obtain ⟨⟨e, v⟩, ⟨⟨t, s⟩, _, e', _, hv⟩, hrest⟩ := hstep
    obtain ⟨rfl, rfl⟩ := Prod.mk.injEq _ _ _ _ ▸ hv
    have hold : ∀ l, l < i → errs l = (fun j => if j = i then e' else errs j) l := fun l hl => (if_neg (by omega)).symm
    have s1 : ∀ P : Nat → Prop, ∀ [DecidablePred P], (∑ l ∈ Finset.range i, (if P l then errs l else 0)) = ∑ l ∈ Finset.range i, (if P l then (fun j => if j = i then e' else errs j) l else 0) :=
      fun P _ => Finset.sum_congr rfl (fun l hl => by rw [hold l (Finset.mem_range.mp hl)])
    have s2 : (∑ l ∈ Finset.range i, (if l ≤ T then 0 else errs l)) = ∑ l ∈ Finset.range i, (if l ≤ T then 0 else (fun j => if j = i then e' else errs j) l) :=
      Finset.sum_congr rfl (fun l hl => by rw [hold l (Finset.mem_range.mp hl)])
    by_cases hT : i ≤ T
    · simp only [if_pos hT, bind_eq_ok, ok.injEq] at hrest
      obtain ⟨s', _, rfl⟩ := hrest
      refine ⟨batch_buf hi ho hn hlt _ rfl rfl, h1, h2, fun j => if j = i then e' else errs j, ?_, ?_, ?_⟩
      · dsimp only
        rw [h3, epochLog_congr hold, epochLog_succ]
        simp [hT]
      · dsimp only
        rw [Finset.sum_range_succ, h4, s1 (fun l => l ≤ T)]
        simp [hT]
      · dsimp only
        rw [Finset.sum_range_succ, h5, s2]
        simp [hT]
    · simp only [if_neg hT, ok.injEq] at hrest
      subst hrest
      refine ⟨batch_buf hi ho hn hlt _ rfl rfl, h1, h2, fun j => if j = i then e' else errs j, ?_, ?_, ?_⟩
      · dsimp only
        rw [h3, epochLog_congr hold, epochLog_succ]
        simp [hT]
      · dsimp only
        rw [Finset.sum_range_succ, h4, s1 (fun l => l ≤ T)]
        simp [hT]
      · dsimp only
        rw [Finset.sum_range_succ, h5, s2]
        simp [hT]

theorem buffer_ok {t : Ten α} {X : List Nat → α} (ht : t.Has (n :: a) X) : batchBuffer t bs = ok ⟨bs :: t.shape.tail, List.replicate (size (bs :: t.shape.tail)) 0⟩ := by
  unfold batchBuffer
  rw [ht.1, wr_ok (by simp)]
  rfl

/-- Everything about a call of `fit` that returns. -/
theorem fit_spec (hi : inputs.Has (n :: a) XI) (ho : outputs.Has (n' :: b) YO) (hn : n ≤ n') (epochs : Nat) (split : ℚ) (s : σ) {f : Frame σ α}
    (h : fit m inputs outputs bs epochs split s = ok f) :
    ∃ errs : Nat → Nat → α, f.log = (List.range epochs).flatMap (fun k =>
        epochLog (batch inputs bs) (batch outputs bs) (errs k) (fun l => decide (l ≤ trainingLoops split (n / bs))) (n / bs)) ∧
      f.trainErr = (List.range epochs).map (fun k => (∑ l ∈ Finset.range (n / bs), (if l ≤ trainingLoops split (n / bs) then errs k l else 0)) / (trainingLoops split (n / bs) : α)) ∧
      f.valErr = (List.range epochs).map (fun k => (∑ l ∈ Finset.range (n / bs), (if l ≤ trainingLoops split (n / bs) then 0 else errs k l)) / ((n / bs - trainingLoops split (n / bs) : Nat) : α)) := by
  unfold fit at h
  rw [rd_ok (v := n) (by rw [hi.1]; rfl), bind_ok, buffer_ok hi, buffer_ok ho] at h
  by_cases hbs : bs ≠ 0
  · rw [require_true hbs, bind_ok, bind_ok, bind_ok] at h
    dsimp only at h
    have hxl : (List.replicate (size (bs :: inputs.shape.tail)) (0 : α)).length = bs * size inputs.shape.tail := by simp
    have hyl : (List.replicate (size (bs :: outputs.shape.tail)) (0 : α)).length = bs * size outputs.shape.tail := by simp
    rw [hxl, hyl] at h
    refine (loop_partial (fun i f => Buf inputs outputs bs f ∧ ∃ errs : Nat → Nat → α, f.log = (List.range i).flatMap (fun k =>
        epochLog (batch inputs bs) (batch outputs bs) (errs k) (fun l => decide (l ≤ trainingLoops split (n / bs))) (n / bs)) ∧
      f.trainErr = (List.range i).map (fun k => (∑ l ∈ Finset.range (n / bs), (if l ≤ trainingLoops split (n / bs) then errs k l else 0)) / (trainingLoops split (n / bs) : α)) ∧
      f.valErr = (List.range i).map (fun k => (∑ l ∈ Finset.range (n / bs), (if l ≤ trainingLoops split (n / bs) then 0 else errs k l)) / ((n / bs - trainingLoops split (n / bs) : Nat) : α)))
      h ?_ ?_).2
    · exact ⟨⟨rfl, hxl, rfl, hyl⟩, fun _ _ => 0, rfl, rfl, rfl⟩
    · rintro i u u' _ ⟨hb, errs, h1, h2, h3⟩ hstep
      rw [bind_eq_ok] at hstep
      obtain ⟨v, k1, k2⟩ := hstep
      obtain ⟨hbv, k3, k4, es, k5, k6, k7⟩ := epoch_spec hi ho hn _ hb k1
      simp only [pure_eq, ok.injEq] at k2
      subst k2
      have hold : ∀ k, k ∈ List.range i → errs k = Function.update errs i es k := fun k hk => (Function.update_of_ne (by have := List.mem_range.mp hk; omega) _ _).symm
      refine ⟨⟨hbv.xs, hbv.xd, hbv.ys, hbv.yd⟩, Function.update errs i es, ?_, ?_, ?_⟩
      · dsimp only
        rw [List.range_succ, List.flatMap_append, List.flatMap_singleton, k5, h1, Function.update_self]
        congr 1
        exact List.flatMap_congr (fun k hk => by rw [hold k hk])
      · dsimp only
        rw [List.range_succ, List.map_append, List.map_singleton, k3, h2, Function.update_self, k6]
        congr 1
        exact List.map_congr_left (fun k hk => by rw [hold k hk])
      · dsimp only
        rw [List.range_succ, List.map_append, List.map_singleton, k4, h3, Function.update_self, k7]
        congr 1
        exact List.map_congr_left (fun k hk => by rw [hold k hk])
  · rw [require_false hbs] at h
    cases h

/-! ## Batches (C63) -/

/-- What was fed, in order. -/
def fed : List (Ev α) → List (Ten α × Ten α)
  | [] => []
  | .feed x y :: r => (x, y) :: fed r
  | .loss _ :: r => fed r
  | .step :: r => fed r

omit [Field α] in
theorem fed_append (u v : List (Ev α)) : fed (u ++ v) = fed u ++ fed v := by
  induction u with
  | nil => rfl
  | cons e u ih => cases e <;> simp [fed, ih]

omit [Field α] in
theorem fed_epochLog (X Y : Nat → Ten α) (errs : Nat → α) (train : Nat → Bool) (n : Nat) : fed (epochLog X Y errs train n) = (List.range n).map (fun l => (X l, Y l)) := by
  induction n with
  | zero => rfl
  | succ n ih =>
    rw [epochLog_succ, fed_append, ih, List.range_succ, List.map_append]
    split <;> simp [fed]

omit [Field α] in
theorem fed_epochs (X Y : Nat → Ten α) (errs : Nat → Nat → α) (train : Nat → Bool) (n e : Nat) :
    fed ((List.range e).flatMap (fun k => epochLog X Y (errs k) train n)) = (List.range e).flatMap (fun _ => (List.range n).map (fun l => (X l, Y l))) := by
  induction e with
  | zero => rfl
  | succ e ih => rw [List.range_succ, List.flatMap_append, fed_append, ih, List.flatMap_append, List.flatMap_singleton, List.flatMap_singleton, fed_epochLog]

/-- C63, arithmetic: sample `k` is sample `i` of batch `l` for one pair only, unless it is among the last `n % bs`, fewer than a batch. -/
theorem batches_partition (n bs : Nat) (hbs : 0 < bs) :
    (∀ k, k < n / bs * bs → ∃! p : Nat × Nat, p.1 < n / bs ∧ p.2 < bs ∧ p.1 * bs + p.2 = k) ∧
    (∀ l i, l < n / bs → i < bs → l * bs + i < n) ∧ n / bs * bs ≤ n ∧ n - n / bs * bs < bs := by
  have hle := Nat.div_mul_le_self n bs
  refine ⟨fun k hk => ⟨(k / bs, k % bs), ⟨?_, Nat.mod_lt _ hbs, ?_⟩, ?_⟩, fun l i hl hi => ?_, hle, ?_⟩
  · exact (Nat.div_lt_iff_lt_mul hbs).mpr hk
  · exact Nat.div_add_mod' k bs
  · rintro ⟨l, i⟩ ⟨_, h2, h3⟩
    dsimp only at h2 h3
    rw [← h3, Nat.mul_comm l bs, Nat.mul_add_div hbs, Nat.div_eq_of_lt h2, Nat.mul_add_mod, Nat.mod_eq_of_lt h2, Nat.add_zero]
  · have : (l + 1) * bs ≤ n / bs * bs := Nat.mul_le_mul_right bs hl
    rw [Nat.succ_mul] at this
    omega
  · have := Nat.div_add_mod' n bs
    have := Nat.mod_lt n hbs
    omega

/-- C63: in every epoch `fit` feeds batch 0, 1, ..., each with the samples it is to have, of both tensors. -/
theorem fit_batches (hi : inputs.Has (n :: a) XI) (ho : outputs.Has (n' :: b) YO) (hn : n ≤ n') (epochs : Nat) (split : ℚ) (s : σ) {f : Frame σ α}
    (h : fit m inputs outputs bs epochs split s = ok f) :
    ∃ X Y : Nat → Ten α, (∀ l, l < n / bs → IsBatch inputs bs l (X l) ∧ IsBatch outputs bs l (Y l)) ∧
      fed f.log = (List.range epochs).flatMap (fun _ => (List.range (n / bs)).map (fun l => (X l, Y l))) := by
  obtain ⟨errs, h1, _⟩ := fit_spec hi ho hn epochs split s h
  refine ⟨batch inputs bs, batch outputs bs, fun l hl => ⟨batch_isBatch hi hl, batch_isBatch ho (lt_of_lt_of_le hl (Nat.div_le_div_right hn))⟩, ?_⟩
  rw [h1, fed_epochs]

/-- Everything about a call of `evaluate` that returns: the history has no step, and the result is the mean of the errors. -/
theorem evaluate_spec (hi : inputs.Has (n :: a) XI) (ho : outputs.Has (n' :: b) YO) (hn : n ≤ n') (s : σ) {f : Frame σ α} {r : α}
    (h : evaluate m inputs outputs bs s = ok (r, f)) :
    ∃ errs : Nat → α, f.log = epochLog (batch inputs bs) (batch outputs bs) errs (fun _ => false) (n / bs) ∧
      r = (∑ l ∈ Finset.range (n / bs), errs l) / ((n / bs : Nat) : α) := by
  unfold evaluate at h
  rw [rd_ok (v := n) (by rw [hi.1]; rfl), bind_ok, buffer_ok hi, buffer_ok ho] at h
  by_cases hbs : bs ≠ 0
  · rw [require_true hbs, bind_ok, bind_ok, bind_ok] at h
    dsimp only at h
    have hxl : (List.replicate (size (bs :: inputs.shape.tail)) (0 : α)).length = bs * size inputs.shape.tail := by simp
    have hyl : (List.replicate (size (bs :: outputs.shape.tail)) (0 : α)).length = bs * size outputs.shape.tail := by simp
    rw [hxl, hyl, bind_eq_ok] at h
    obtain ⟨g, h, hr⟩ := h
    simp only [pure_eq, ok.injEq] at hr
    obtain ⟨rfl, rfl⟩ := Prod.mk.injEq _ _ _ _ ▸ hr
    obtain ⟨_, errs, h1, h2⟩ := loop_partial (fun i f => Buf inputs outputs bs f ∧ ∃ errs : Nat → α,
        f.log = epochLog (batch inputs bs) (batch outputs bs) errs (fun _ => false) i ∧ f.ve = ∑ l ∈ Finset.range i, errs l) h
      ⟨⟨rfl, hxl, rfl, hyl⟩, fun _ => 0, rfl, rfl⟩ (by
        rintro i u u' hlt ⟨hbu, errs, h3, h4⟩ hstep
        rw [feed_eq hi ho hn hlt hbu] at hstep
        simp only [bind_eq_ok, pure_eq, ok.injEq] at hstep
        obtain ⟨⟨e, v⟩, ⟨⟨t, s⟩, _, e', _, hv⟩, hrest⟩ := hstep
        obtain ⟨rfl, rfl⟩ := Prod.mk.injEq _ _ _ _ ▸ hv
        subst hrest
        have hold : ∀ l, l < i → errs l = Function.update errs i e' l := fun l hl => (Function.update_of_ne (by omega) _ _).symm
        refine ⟨batch_buf hi ho hn hlt _ rfl rfl, Function.update errs i e', ?_, ?_⟩
        · dsimp only
          rw [h3, epochLog_congr hold, epochLog_succ, Function.update_self]
          rfl
        · dsimp only
          rw [Finset.sum_range_succ, h4, Function.update_self]
          congr 1
          exact Finset.sum_congr rfl (fun l hl => hold l (Finset.mem_range.mp hl)))
    exact ⟨errs, h1, by rw [h2]⟩
  · rw [require_false hbs] at h
    cases h

/-- C63: so does `evaluate`. -/
theorem evaluate_batches (hi : inputs.Has (n :: a) XI) (ho : outputs.Has (n' :: b) YO) (hn : n ≤ n') (s : σ) {f : Frame σ α} {r : α}
    (h : evaluate m inputs outputs bs s = ok (r, f)) :
    ∃ X Y : Nat → Ten α, (∀ l, l < n / bs → IsBatch inputs bs l (X l) ∧ IsBatch outputs bs l (Y l)) ∧ fed f.log = (List.range (n / bs)).map (fun l => (X l, Y l)) := by
  obtain ⟨errs, h1, _⟩ := evaluate_spec hi ho hn s h
  refine ⟨batch inputs bs, batch outputs bs, fun l hl => ⟨batch_isBatch hi hl, batch_isBatch ho (lt_of_lt_of_le hl (Nat.div_le_div_right hn))⟩, ?_⟩
  rw [h1, fed_epochLog]

/-- What is asked of the rest of the program: an invariant `P` that running the loss and the optimizer keep, where they return. -/
structure Works (m : Machine σ α) (bs : Nat) (a b : List Nat) (P : σ → Prop) : Prop where
  bind : ∀ s x y, x.WF → y.WF → x.shape = bs :: a → y.shape = bs :: b → P s → P (m.bind x y s)
  phase : ∀ s c, P s → P (m.phase c s)
  loss : ∀ s, P s → ∃ t s', m.loss s = ok (t, s') ∧ t.data.length = 1 ∧ P s'
  step : ∀ s, P s → ∃ s', m.step s = ok s' ∧ P s'

omit [Field α] in
theorem asScalar_ok {t : Ten α} (h : t.data.length = 1) : ∃ e, asScalar t = ok e := by
  unfold asScalar
  rw [assert_true h, bind_ok]
  exact ⟨t.data[0], rd_ok (List.getElem?_eq_getElem (by omega))⟩

omit [Field α] in
theorem feed_works {P : σ → Prop} (hw : Works m bs a b P) (hi : inputs.Has (n :: a) XI) (ho : outputs.Has (n' :: b) YO) (hn : n ≤ n') {l : Nat} (hl : l < n / bs)
    {f : Frame σ α} (hb : Buf inputs outputs bs f) (hP : P f.s) :
    ∃ e f', feed m inputs outputs (bs * size inputs.shape.tail) (bs * size outputs.shape.tail) l f = ok (e, f') ∧ Buf inputs outputs bs f' ∧ P f'.s := by
  have hl' : l < n' / bs := lt_of_lt_of_le hl (Nat.div_le_div_right hn)
  have h1 := batch_isBatch hi hl n a XI hi
  have h2 := batch_isBatch ho hl' n' b YO ho
  obtain ⟨t, s', k1, k2, k3⟩ := hw.loss _ (hw.bind f.s _ _ h1.wf h2.wf h1.1 h2.1 hP)
  obtain ⟨e, k4⟩ := asScalar_ok k2
  refine ⟨e, { f with s := s', x := batch inputs bs l, y := batch outputs bs l, log := f.log ++ [.feed (batch inputs bs l) (batch outputs bs l), .loss e] }, ?_,
    batch_buf hi ho hn hl _ rfl rfl, k3⟩
  · rw [feed_eq hi ho hn hl hb, k1, bind_ok]
    dsimp only
    rw [k4, bind_ok]
    rfl

/-- C63, nothing outside the data is read: `fit` returns whatever the sizes, as long as the loss and the optimizer do. -/
theorem fit_returns {P : σ → Prop} (hbs : 0 < bs) (hw : Works m bs a b P) (hi : inputs.Has (n :: a) XI) (ho : outputs.Has (n' :: b) YO) (hn : n ≤ n')
    (epochs : Nat) (split : ℚ) (s : σ) (hP : P s) : ∃ f, fit m inputs outputs bs epochs split s = ok f := by
  unfold fit
  rw [rd_ok (v := n) (by rw [hi.1]; rfl), bind_ok, require_true (by omega), bind_ok, buffer_ok hi, buffer_ok ho, bind_ok, bind_ok]
  dsimp only
  have hia : inputs.shape.tail = a := by rw [hi.1]; rfl
  have hob : outputs.shape.tail = b := by rw [ho.1]; rfl
  have hxl : (List.replicate (size (bs :: inputs.shape.tail)) (0 : α)).length = bs * size inputs.shape.tail := by simp
  have hyl : (List.replicate (size (bs :: outputs.shape.tail)) (0 : α)).length = bs * size outputs.shape.tail := by simp
  rw [hxl, hyl]
  obtain ⟨f, h, _⟩ := loop_inv (n := epochs) (s := (⟨m.phase true (m.bind ⟨bs :: inputs.shape.tail, List.replicate (size (bs :: inputs.shape.tail)) 0⟩
        ⟨bs :: outputs.shape.tail, List.replicate (size (bs :: outputs.shape.tail)) 0⟩ s), ⟨bs :: inputs.shape.tail, List.replicate (size (bs :: inputs.shape.tail)) 0⟩,
        ⟨bs :: outputs.shape.tail, List.replicate (size (bs :: outputs.shape.tail)) 0⟩, 0, 0, [], [], []⟩ : Frame σ α))
    (body := fun _ f => do
      let f ← loop (n / bs) (fitBody m inputs outputs (bs * size inputs.shape.tail) (bs * size outputs.shape.tail) (trainingLoops split (n / bs))) { f with te := 0, ve := 0 }
      pure { f with trainErr := f.trainErr ++ [f.te / (trainingLoops split (n / bs) : α)], valErr := f.valErr ++ [f.ve / ((n / bs - trainingLoops split (n / bs) : Nat) : α)] })
    (fun _ f => Buf inputs outputs bs f ∧ P f.s)
    ⟨⟨rfl, hxl, rfl, hyl⟩, hw.phase _ _ (hw.bind _ _ _ (by simp [Ten.WF]) (by simp [Ten.WF]) (by rw [hia]) (by rw [hob]) hP)⟩ (by
      rintro i u _ ⟨hb, hu⟩
      obtain ⟨v, k1, k2, k3⟩ := loop_inv (n := n / bs) (s := { u with te := 0, ve := 0 })
        (body := fitBody m inputs outputs (bs * size inputs.shape.tail) (bs * size outputs.shape.tail) (trainingLoops split (n / bs)))
        (fun _ f => Buf inputs outputs bs f ∧ P f.s) ⟨⟨hb.xs, hb.xd, hb.ys, hb.yd⟩, hu⟩ (by
          rintro l w hl ⟨hb, hP⟩
          obtain ⟨e, f', j1, j2, j3⟩ := feed_works hw hi ho hn hl hb hP
          unfold fitBody
          rw [j1, bind_ok]
          dsimp only
          split
          · obtain ⟨s', j4, j5⟩ := hw.step _ j3
            rw [j4, bind_ok]
            exact ⟨_, rfl, ⟨j2.xs, j2.xd, j2.ys, j2.yd⟩, j5⟩
          · exact ⟨_, rfl, ⟨j2.xs, j2.xd, j2.ys, j2.yd⟩, j3⟩)
      rw [k1, bind_ok]
      exact ⟨_, rfl, ⟨k2.xs, k2.xd, k2.ys, k2.yd⟩, k3⟩)
  exact ⟨f, h⟩

/-- C63, nothing outside the data is read by `evaluate`. -/
theorem evaluate_returns {P : σ → Prop} (hbs : 0 < bs) (hw : Works m bs a b P) (hi : inputs.Has (n :: a) XI) (ho : outputs.Has (n' :: b) YO) (hn : n ≤ n')
    (s : σ) (hP : P s) : ∃ r f, evaluate m inputs outputs bs s = ok (r, f) := by
  unfold evaluate
  rw [rd_ok (v := n) (by rw [hi.1]; rfl), bind_ok, require_true (by omega), bind_ok, buffer_ok hi, buffer_ok ho, bind_ok, bind_ok]
  dsimp only
  have hia : inputs.shape.tail = a := by rw [hi.1]; rfl
  have hob : outputs.shape.tail = b := by rw [ho.1]; rfl
  have hxl : (List.replicate (size (bs :: inputs.shape.tail)) (0 : α)).length = bs * size inputs.shape.tail := by simp
  have hyl : (List.replicate (size (bs :: outputs.shape.tail)) (0 : α)).length = bs * size outputs.shape.tail := by simp
  rw [hxl, hyl]
  obtain ⟨f, h, _⟩ := loop_inv (n := n / bs) (s := (⟨m.phase false (m.bind ⟨bs :: inputs.shape.tail, List.replicate (size (bs :: inputs.shape.tail)) 0⟩
        ⟨bs :: outputs.shape.tail, List.replicate (size (bs :: outputs.shape.tail)) 0⟩ s), ⟨bs :: inputs.shape.tail, List.replicate (size (bs :: inputs.shape.tail)) 0⟩,
        ⟨bs :: outputs.shape.tail, List.replicate (size (bs :: outputs.shape.tail)) 0⟩, 0, 0, [], [], []⟩ : Frame σ α))
    (body := fun l f => do
      let (e, f) ← feed m inputs outputs (bs * size inputs.shape.tail) (bs * size outputs.shape.tail) l f
      pure { f with ve := f.ve + e })
    (fun _ f => Buf inputs outputs bs f ∧ P f.s)
    ⟨⟨rfl, hxl, rfl, hyl⟩, hw.phase _ _ (hw.bind _ _ _ (by simp [Ten.WF]) (by simp [Ten.WF]) (by rw [hia]) (by rw [hob]) hP)⟩ (by
      rintro l w hl ⟨hb, hP⟩
      obtain ⟨e, f', j1, j2, j3⟩ := feed_works hw hi ho hn hl hb hP
      rw [j1, bind_ok]
      exact ⟨_, rfl, ⟨j2.xs, j2.xd, j2.ys, j2.yd⟩, j3⟩)
  rw [h, bind_ok]
  exact ⟨_, _, rfl⟩

/-! ## Training and validation (C62) -/

omit [Field α] in
theorem trainedOn_epochLog (X Y : Nat → Ten α) (errs : Nat → α) (train : Nat → Bool) (n : Nat) : ∀ (b : Option (Ten α)) (r : List (Ev α)),
    ∃ b', trainedOn b (epochLog X Y errs train n ++ r) = ((List.range n).filter train).map (fun l => some (X l)) ++ trainedOn b' r := by
  induction n with
  | zero => intro b r; exact ⟨b, rfl⟩
  | succ n ih =>
    intro b r
    rw [epochLog_succ, List.append_assoc]
    obtain ⟨b', h⟩ := ih b ((Ev.feed (X n) (Y n) :: Ev.loss (errs n) :: if train n = true then [Ev.step] else []) ++ r)
    rw [h]
    refine ⟨some (X n), ?_⟩
    rw [List.range_succ, List.filter_append, List.map_append, List.append_assoc]
    congr 1
    by_cases ht : train n = true
    · simp [ht, trainedOn]
    · simp [ht, trainedOn]

omit [Field α] in
theorem trainedOn_epochs (X Y : Nat → Ten α) (errs : Nat → Nat → α) (train : Nat → Bool) (n e : Nat) : ∀ b r,
    ∃ b', trainedOn b ((List.range e).flatMap (fun k => epochLog X Y (errs k) train n) ++ r) =
      (List.range e).flatMap (fun _ => ((List.range n).filter train).map (fun l => some (X l))) ++ trainedOn b' r := by
  induction e with
  | zero => intro b r; exact ⟨b, rfl⟩
  | succ e ih =>
    intro b r
    rw [List.range_succ, List.flatMap_append, List.append_assoc, List.flatMap_singleton]
    obtain ⟨b1, h1⟩ := ih b (epochLog X Y (errs e) train n ++ r)
    obtain ⟨b2, h2⟩ := trainedOn_epochLog X Y (errs e) train n b1 r
    exact ⟨b2, by rw [h1, h2, List.flatMap_append, List.flatMap_singleton, List.append_assoc]⟩

theorem filter_le (n T : Nat) : (List.range n).filter (fun l => decide (l ≤ T)) = List.range (min n (T + 1)) := by
  induction n with
  | zero => simp
  | succ n ih =>
    rw [List.range_succ, List.filter_append, ih]
    by_cases h : n ≤ T
    · rw [show min (n + 1) (T + 1) = n + 1 from by omega, show min n (T + 1) = n from by omega, List.range_succ]
      simp [h]
    · rw [show min (n + 1) (T + 1) = min n (T + 1) from by omega]
      simp [h]

/-- The batches the optimizer is run on: in every epoch batches 0 to `T`, where there are that many. -/
theorem fit_trains_on (hi : inputs.Has (n :: a) XI) (ho : outputs.Has (n' :: b) YO) (hn : n ≤ n') (epochs : Nat) (split : ℚ) (s : σ) {f : Frame σ α}
    (h : fit m inputs outputs bs epochs split s = ok f) :
    trainedOn none f.log = (List.range epochs).flatMap (fun _ => (List.range (min (n / bs) (trainingLoops split (n / bs) + 1))).map (fun l => some (batch inputs bs l))) := by
  obtain ⟨errs, h1, _⟩ := fit_spec hi ho hn epochs split s h
  obtain ⟨b', h2⟩ := trainedOn_epochs (batch inputs bs) (batch outputs bs) errs (fun l => decide (l ≤ trainingLoops split (n / bs))) (n / bs) epochs none []
  rw [List.append_nil] at h2
  rw [h1, h2, filter_le, trainedOn, List.append_nil]

/-- C62, as the documentation has it: the batches of the first `T` loops of every epoch. -/
def docTrained (inputs : Ten α) (bs epochs T : Nat) : List (Option (Ten α)) :=
  (List.range epochs).flatMap (fun _ => (List.range T).map (fun l => some (batch inputs bs l)))

omit [Field α] in
theorem docTrained_length (inputs : Ten α) (bs epochs T : Nat) : (docTrained inputs bs epochs T).length = epochs * T := by
  unfold docTrained
  simp

/-- C62 is violated whenever there is a batch to validate on: in every epoch the optimizer is also run on batch `T`, the first validation batch. -/
theorem fit_trains_validation_violated (hi : inputs.Has (n :: a) XI) (ho : outputs.Has (n' :: b) YO) (hn : n ≤ n') (epochs : Nat) (he : 0 < epochs) (split : ℚ) (s : σ)
    (hT : trainingLoops split (n / bs) < n / bs) {f : Frame σ α} (h : fit m inputs outputs bs epochs split s = ok f) :
    trainedOn none f.log = docTrained inputs bs epochs (trainingLoops split (n / bs) + 1) ∧
    trainedOn none f.log ≠ docTrained inputs bs epochs (trainingLoops split (n / bs)) := by
  have h1 := fit_trains_on hi ho hn epochs split s h
  rw [show min (n / bs) (trainingLoops split (n / bs) + 1) = trainingLoops split (n / bs) + 1 from by omega] at h1
  refine ⟨h1, fun h2 => ?_⟩
  have h3 := congrArg List.length h2
  rw [h1] at h3
  change (docTrained inputs bs epochs (trainingLoops split (n / bs) + 1)).length = _ at h3
  rw [docTrained_length, docTrained_length] at h3
  have := Nat.eq_of_mul_eq_mul_left he h3
  omega

omit [Field α] in
/-- The errors that were seen. -/
theorem mem_epochs {X Y : Nat → Ten α} {errs : Nat → Nat → α} {train : Nat → Bool} {n e k l : Nat} (hk : k < e) (hl : l < n) :
    Ev.loss (errs k l) ∈ (List.range e).flatMap (fun k => epochLog X Y (errs k) train n) := by
  rw [List.mem_flatMap]
  refine ⟨k, List.mem_range.mpr hk, ?_⟩
  unfold epochLog
  rw [List.mem_flatMap]
  exact ⟨l, List.mem_range.mpr hl, by simp⟩

theorem sum_le_const (n T : Nat) (c : α) : (∑ l ∈ Finset.range n, if l ≤ T then c else 0) = (min n (T + 1) : Nat) * c := by
  induction n with
  | zero => simp
  | succ n ih =>
    rw [Finset.sum_range_succ, ih]
    by_cases h : n ≤ T
    · rw [if_pos h, show min (n + 1) (T + 1) = min n (T + 1) + 1 from by omega]; push_cast; ring
    · rw [if_neg h, show min (n + 1) (T + 1) = min n (T + 1) from by omega, add_zero]

theorem sum_gt_const (n T : Nat) (c : α) : (∑ l ∈ Finset.range n, if l ≤ T then 0 else c) = (n - (T + 1) : Nat) * c := by
  induction n with
  | zero => simp
  | succ n ih =>
    rw [Finset.sum_range_succ, ih]
    by_cases h : n ≤ T
    · rw [if_pos h, show n + 1 - (T + 1) = 0 from by omega, show n - (T + 1) = 0 from by omega, add_zero]
    · rw [if_neg h, show n + 1 - (T + 1) = n - (T + 1) + 1 from by omega]; push_cast; ring

/-- C62, the reported errors are violated too: if every batch has the error `c`, not 0, the reported training error is `(T + 1) * c / T` and
the validation error `(loops - T - 1) * c / (loops - T)`, neither of them `c`. -/
theorem fit_errors_violated [CharZero α] (hi : inputs.Has (n :: a) XI) (ho : outputs.Has (n' :: b) YO) (hn : n ≤ n') (epochs : Nat) (split : ℚ) (s : σ)
    (hT : trainingLoops split (n / bs) < n / bs) (hT0 : 0 < trainingLoops split (n / bs)) {f : Frame σ α} (h : fit m inputs outputs bs epochs split s = ok f)
    (c : α) (hc : c ≠ 0) (hlog : ∀ e, Ev.loss e ∈ f.log → e = c) :
    f.trainErr = List.replicate epochs ((trainingLoops split (n / bs) + 1) * c / trainingLoops split (n / bs)) ∧
    f.valErr = List.replicate epochs (((n / bs : Nat) - trainingLoops split (n / bs) - 1) * c / ((n / bs : Nat) - trainingLoops split (n / bs))) ∧
    (trainingLoops split (n / bs) + 1) * c / trainingLoops split (n / bs) ≠ c ∧
    ((n / bs : Nat) - trainingLoops split (n / bs) - 1) * c / ((n / bs : Nat) - trainingLoops split (n / bs)) ≠ c := by
  obtain ⟨errs, h1, h2, h3⟩ := fit_spec hi ho hn epochs split s h
  have hec : ∀ k l, k < epochs → l < n / bs → errs k l = c := fun k l hk hl => hlog _ (by rw [h1]; exact mem_epochs hk hl)
  generalize hTT : trainingLoops split (n / bs) = T at *
  generalize hL : n / bs = L at *
  have ha : (T : α) ≠ 0 := Nat.cast_ne_zero.mpr (by omega)
  have hsub : ((L - T : Nat) : α) = (L : α) - T := by rw [Nat.cast_sub hT.le]
  have hsub1 : ((L - (T + 1) : Nat) : α) = (L : α) - T - 1 := by rw [Nat.cast_sub hT]; push_cast; ring
  have hd : (L : α) - T ≠ 0 := by rw [← hsub]; exact Nat.cast_ne_zero.mpr (by omega)
  refine ⟨?_, ?_, ?_, ?_⟩
  · rw [h2, List.eq_replicate_iff]
    refine ⟨by simp, fun x hx => ?_⟩
    rw [List.mem_map] at hx
    obtain ⟨k, hk, rfl⟩ := hx
    rw [Finset.sum_congr rfl (g := fun l => if l ≤ T then c else 0) (fun l hl => by rw [hec k l (List.mem_range.mp hk) (Finset.mem_range.mp hl)]),
      sum_le_const, show min L (T + 1) = T + 1 from by omega]
    push_cast; rfl
  · rw [h3, List.eq_replicate_iff]
    refine ⟨by simp, fun x hx => ?_⟩
    rw [List.mem_map] at hx
    obtain ⟨k, hk, rfl⟩ := hx
    rw [Finset.sum_congr rfl (g := fun l => if l ≤ T then 0 else c) (fun l hl => by rw [hec k l (List.mem_range.mp hk) (Finset.mem_range.mp hl)]),
      sum_gt_const, hsub, hsub1]
  · intro h4
    rw [div_eq_iff ha] at h4
    exact hc (by linear_combination h4)
  · intro h4
    rw [div_eq_iff hd] at h4
    exact hc (by linear_combination -h4)

/-- C62 holds without a validation part: the optimizer is run on all batches, and the training error is the mean of their errors. -/
theorem fit_without_validation_partial (hi : inputs.Has (n :: a) XI) (ho : outputs.Has (n' :: b) YO) (hn : n ≤ n') (epochs : Nat) (s : σ) {f : Frame σ α}
    (h : fit m inputs outputs bs epochs 0 s = ok f) :
    trainingLoops 0 (n / bs) = n / bs ∧ trainedOn none f.log = docTrained inputs bs epochs (n / bs) ∧
    ∃ errs : Nat → Nat → α, f.trainErr = (List.range epochs).map (fun k => (∑ l ∈ Finset.range (n / bs), errs k l) / ((n / bs : Nat) : α)) ∧
      ∀ e, Ev.loss e ∈ f.log ↔ ∃ k l, k < epochs ∧ l < n / bs ∧ e = errs k l := by
  have hT : trainingLoops 0 (n / bs) = n / bs := by unfold trainingLoops; simp
  have h1 := fit_trains_on hi ho hn epochs 0 s h
  obtain ⟨errs, h2, h3, _⟩ := fit_spec hi ho hn epochs 0 s h
  rw [hT] at h1 h2 h3
  refine ⟨hT, by rw [h1, show min (n / bs) (n / bs + 1) = n / bs from by omega]; rfl, errs, ?_, fun e => ⟨fun he => ?_, ?_⟩⟩
  · rw [h3]
    refine List.map_congr_left (fun k _ => ?_)
    rw [Finset.sum_congr rfl (g := fun l => errs k l) (fun l hl => if_pos (by have := Finset.mem_range.mp hl; omega))]
  · rw [h2, List.mem_flatMap] at he
    obtain ⟨k, hk, he⟩ := he
    unfold epochLog at he
    rw [List.mem_flatMap] at he
    obtain ⟨l, hl, he⟩ := he
    refine ⟨k, l, List.mem_range.mp hk, List.mem_range.mp hl, ?_⟩
    simp only [List.mem_cons, reduceCtorEq, Ev.loss.injEq, false_or] at he
    rcases he with he | he
    · exact he
    · split at he <;> simp at he
  · rintro ⟨k, l, hk, hl, rfl⟩
    rw [h2]; exact mem_epochs hk hl

end field

/-! ## Examples -/

/-- A machine counting its steps, for examples: the loss is the first number of the batch plus 1. -/
def counter : Machine (Nat × ℚ) ℚ where
  bind x _ s := (s.1, x.data.headD 0)
  phase _ s := s
  loss s := ok (⟨[1], [s.2 + 1]⟩, s)
  step s := ok (s.1 + 1, s.2)

/-- Nothing is asked of its states. -/
example (bs : Nat) (a b : List Nat) : Works counter bs a b (fun _ => True) :=
  ⟨fun _ _ _ _ _ _ _ _ => trivial, fun _ _ _ => trivial, fun _ _ => ⟨_, _, rfl, rfl, trivial⟩, fun _ _ => ⟨_, rfl, trivial⟩⟩

/-- Nine samples in batches of two, one epoch, validation split 1/2: the four batches start with samples 0, 2, 4, 6; sample 8 is not used; the
optimizer is run three times, and not two. -/
example : (match fit counter ⟨[9], [0, 1, 2, 3, 4, 5, 6, 7, 8]⟩ ⟨[9], [0, 1, 2, 3, 4, 5, 6, 7, 8]⟩ 2 1 (1/2) (0, 0) with
    | ok f => decide (f.s.1 = 3 ∧ trainingLoops (1/2) (9/2) = 2 ∧ (fed f.log).map (fun p => p.1.data) = [[0, 1], [2, 3], [4, 5], [6, 7]] ∧
        f.trainErr = [(1 + 3 + 5) / 2] ∧ f.valErr = [7 / 2])
    | _ => false) = true := by
  decide +kernel

end Verif.Fit
