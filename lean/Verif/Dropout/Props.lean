import Verif.Dropout.Model
import Verif.Dataset.Props
import Verif.Tensor.Lemmas
import Verif.Pool.Lemmas
import Mathlib.MeasureTheory.Integral.IntervalIntegral.Basic
import Mathlib.Analysis.Calculus.Deriv.Mul
/-!
# C70, C90, C91: dropout

`keep` says which elements the mask keeps: `mask.data[p] = 1` or `0`.
-/
namespace Verif.Dropout
open Verif Res Tensor Pool

noncomputable section

/-- The mask keeps (factor 1) the elements at the positions `keep` and drops (factor 0) the others. -/
def Keeps (m : Ten ℝ) (n : Nat) (keep : Nat → Prop) [DecidablePred keep] : Prop := ∀ p, p < n → m.data[p]? = some (if keep p then 1 else 0)

theorem drawMask_ok (factor : ℝ) (rnd : Nat → ℝ) (x : Ten ℝ) (hx : x.WF) :
    ∃ m, drawMask factor rnd x = ok m ∧ m.shape = x.shape ∧ m.data.length = size x.shape ∧ Keeps m (size x.shape) (fun p => factor < rnd p) := by
  obtain ⟨d, h1, h2, h3⟩ := update1 (n := size x.shape) (out := List.replicate (size x.shape) (0 : ℝ))
    (body := fun i m => do
      let y ← rd ((List.range (size x.shape)).map rnd) i
      if factor < y then wr m i 1 else pure m) (a := fun _ => 0) (g := fun p => if factor < rnd p then 1 else 0)
    (fun j o hj ho h => by
      rw [rd_ok (v := rnd j) (by simp [hj]), bind_ok]
      split
      · rfl
      · obtain ⟨hj', he⟩ := List.getElem?_eq_some_iff.mp h
        rw [wr_ok hj', pure_eq, ← he, List.set_getElem_self])
    (by simp) (fun p hp => by simp [hp])
  refine ⟨⟨x.shape, d⟩, ?_, rfl, h2, h3⟩
  unfold drawMask
  dsimp only
  rw [hx, h1]; rfl

theorem scale_ok {x : Ten ℝ} {s : List Nat} {a : List Nat → ℝ} (hx : x.Has s a) {m : Ten ℝ} {keep : Nat → Prop} [DecidablePred keep] (hm : Keeps m (size s) keep) (f : ℝ → ℝ → ℝ) :
    ∃ d, loop x.data.length (fun i d => do
      let x ← rd d i
      let y ← rd m.data i
      wr d i (f x y)) x.data = ok d ∧ (⟨s, d⟩ : Ten ℝ).Has s (fun is => f (a is) (if keep (flat s is) then 1 else 0)) := by
  obtain ⟨d, h1, h2, h3⟩ := update1 (n := size s) (out := x.data)
    (body := fun i d => do
      let x ← rd d i
      let y ← rd m.data i
      wr d i (f x y)) (a := fun p => a (unflat s p)) (g := fun p => f (a (unflat s p)) (if keep p then 1 else 0))
    (fun j o hj _ h => by rw [rd_ok h, bind_ok, rd_ok (hm j hj), bind_ok]) hx.2.1 (fun p hp => hx.2.pos hp)
  refine ⟨d, by rw [hx.2.1]; exact h1, rfl, isT_of_pos h2 h3 (fun is hv => by rw [unflat_flat hv])⟩

/-! ## Forward -/

/-- C70, prediction: both directions are the identity, whatever the mask. -/
theorem prediction_identity_partial (factor : ℝ) (rnd : Nat → ℝ) (x g : Ten ℝ) (mask : Option (Ten ℝ)) :
    forward 0 factor rnd x mask = ok (x, mask) ∧ backward 0 g mask = ok g := by simp [forward, backward]

/-- C70, first training run: the elements whose random number is above the rate are divided by `1 - rate`, the others become 0, and the
mask is remembered. -/
theorem forward_first_partial (phase : Int) (hp : phase ≠ 0) (factor : ℝ) (rnd : Nat → ℝ) (x : Ten ℝ) (s : List Nat) (a : List Nat → ℝ) (hx : x.Has s a) :
    ∃ y m, forward phase factor rnd x none = ok (y, some m) ∧ y.Has s (fun is => if factor < rnd (flat s is) then a is / (1 - factor) else 0) ∧
      Keeps m (size s) (fun p => factor < rnd p) ∧ m.data.length = size s := by
  obtain ⟨m, h1, h2, h3, h4⟩ := drawMask_ok factor rnd x hx.wf
  rw [hx.1] at h3 h4
  obtain ⟨d, h5, h6⟩ := scale_ok hx h4 (fun x y => x * (y / (1 - factor)))
  refine ⟨⟨s, d⟩, m, ?_, h6.congr (fun is _ => ?_), h4, h3⟩
  · unfold forward
    rw [if_neg hp, maskFor, h1, bind_ok, h5, hx.1]; rfl
  · split <;> simp [div_eq_mul_inv]

/-- C70, every later training run on an input that is not larger: the same mask, position by position. -/
theorem forward_later_partial (phase : Int) (hp : phase ≠ 0) (factor : ℝ) (rnd : Nat → ℝ) (x : Ten ℝ) (s : List Nat) (a : List Nat → ℝ) (hx : x.Has s a) (m : Ten ℝ)
    (keep : Nat → Prop) [DecidablePred keep] (hm : Keeps m (size s) keep) :
    ∃ y, forward phase factor rnd x (some m) = ok (y, some m) ∧ y.Has s (fun is => if keep (flat s is) then a is / (1 - factor) else 0) := by
  obtain ⟨d, h5, h6⟩ := scale_ok hx hm (fun x y => x * (y / (1 - factor)))
  refine ⟨⟨s, d⟩, ?_, h6.congr (fun is _ => ?_)⟩
  · unfold forward
    rw [if_neg hp, maskFor, bind_ok, h5, hx.1]; rfl
  · split <;> simp [div_eq_mul_inv]

/-- C70: later inputs with more elements than the first one read past the end of the mask. -/
theorem forward_larger_violated (phase : Int) (hp : phase ≠ 0) (factor : ℝ) (rnd : Nat → ℝ) (x m : Ten ℝ) (h : m.data.length < x.data.length) :
    forward phase factor rnd x (some m) = ub := by
  unfold forward
  rw [if_neg hp, maskFor, bind_ok]
  have : loop x.data.length (fun i d => do
      let x ← rd d i
      let y ← rd m.data i
      wr d i (x * (y / (1 - factor)))) x.data = ub := by
    refine Dataset.ub_of (Dataset.loop_not_abort (fun i d h => ?_) _) (fun d hd => ?_)
    · cases hx : rd d i with
      | abort => exact Dataset.rd_not_abort _ _ hx
      | ub => rw [hx] at h; simp at h
      | ok v =>
        rw [hx, bind_ok] at h
        cases hy : rd m.data i with
        | abort => exact Dataset.rd_not_abort _ _ hy
        | ub => rw [hy] at h; simp at h
        | ok w =>
          rw [hy, bind_ok] at h
          exact Dataset.wr_not_abort _ _ _ h
    · obtain ⟨e, e', h1⟩ := loop_ok_step hd h
      rw [bind_eq_ok] at h1
      obtain ⟨v, _, h2⟩ := h1
      rw [rd_ub (by omega)] at h2
      simp at h2
  rw [this]; rfl

/-! ## Backward -/

/-- What backward does in training: the gradient is masked, and not divided by `1 - rate`. -/
theorem backward_masks_partial (phase : Int) (hp : phase ≠ 0) (g : Ten ℝ) (s : List Nat) (γ : List Nat → ℝ) (hg : g.Has s γ) (m : Ten ℝ)
    (keep : Nat → Prop) [DecidablePred keep] (hm : Keeps m (size s) keep) :
    ∃ u, backward phase g (some m) = ok u ∧ u.Has s (fun is => if keep (flat s is) then γ is else 0) := by
  obtain ⟨d, h5, h6⟩ := scale_ok hg hm (fun x y => x * y)
  refine ⟨⟨s, d⟩, ?_, h6.congr (fun is _ => ?_)⟩
  · unfold backward
    rw [if_neg hp]
    dsimp only
    rw [h5, hg.1]; rfl
  · split <;> simp

/-- C70 is false of the code in training: at every element kept, whose gradient is not 0, backward does not multiply by the factor `1/(1 - rate)`
that forward multiplies by, and so does not return the derivative. -/
theorem dropout_backward_violated (phase : Int) (hp : phase ≠ 0) (factor : ℝ) (h0 : 0 < factor) (h1 : factor < 1) (rnd : Nat → ℝ) (x g : Ten ℝ) (s : List Nat) (a γ : List Nat → ℝ)
    (hx : x.Has s a) (hg : g.Has s γ) (is : List Nat) (hv : ValidIdx s is) (hk : factor < rnd (flat s is)) (hγ : γ is ≠ 0) :
    ∃ y m u, forward phase factor rnd x none = ok (y, some m) ∧ y.at is = a is * (1 / (1 - factor)) ∧ backward phase g (some m) = ok u ∧
      u.at is = γ is ∧ u.at is ≠ γ is * (1 / (1 - factor)) := by
  obtain ⟨y, m, k1, k2, k3, _⟩ := forward_first_partial phase hp factor rnd x s a hx
  obtain ⟨u, k4, k5⟩ := backward_masks_partial phase hp g s γ hg m (fun p => factor < rnd p) k3
  refine ⟨y, m, u, k1, ?_, k4, ?_, ?_⟩
  · rw [k2.at_eq hv]; simp [hk, div_eq_mul_inv]
  · rw [k5.at_eq hv]; simp [hk]
  · rw [k5.at_eq hv]
    simp only [hk, if_true]
    intro h
    have h2 : (1 - factor) ≠ 0 := by linarith
    field_simp at h
    exact h0.ne' (by linarith)

/-- backward before any training forward stops the program. -/
theorem backward_before_forward (phase : Int) (hp : phase ≠ 0) (g : Ten ℝ) : backward phase g none = abort := by simp [backward, hp]

/-! ## One mask for ever -/

/-- C90 is false of the code: after the first training run the random numbers no longer matter; the elements dropped in one run are dropped
in every later one. -/
theorem mask_never_redrawn_violated (phase : Int) (hp : phase ≠ 0) (factor : ℝ) (rnd rnd' : Nat → ℝ) (x x' : Ten ℝ) (s : List Nat) (a a' : List Nat → ℝ) (hx : x.Has s a) (hx' : x'.Has s a') :
    ∃ y m y', forward phase factor rnd x none = ok (y, some m) ∧ forward phase factor rnd' x' (some m) = ok (y', some m) ∧
      ∀ is, ValidIdx s is → rnd (flat s is) ≤ factor → y.at is = 0 ∧ y'.at is = 0 := by
  obtain ⟨y, m, k1, k2, k3, _⟩ := forward_first_partial phase hp factor rnd x s a hx
  obtain ⟨y', k4, k5⟩ := forward_later_partial phase hp factor rnd' x' s a' hx' m (fun p => factor < rnd p) k3
  refine ⟨y, m, y', k1, k4, fun is hv h => ?_⟩
  rw [k2.at_eq hv, k5.at_eq hv]
  simp [not_lt.mpr h]

/-- C90, what holds: the first mask is drawn from the random numbers, an element being dropped exactly if its number is at most the rate. -/
theorem mask_drawn_partial (factor : ℝ) (rnd : Nat → ℝ) (x : Ten ℝ) (hx : x.WF) :
    ∃ m, drawMask factor rnd x = ok m ∧ ∀ p, p < size x.shape → (m.data[p]? = some 0 ↔ rnd p ≤ factor) := by
  obtain ⟨m, h1, _, _, h2⟩ := drawMask_ok factor rnd x hx
  refine ⟨m, h1, fun p hp => ?_⟩
  rw [h2 p hp]
  by_cases h : factor < rnd p <;> simp [h, not_le.mpr, not_lt.mp]

/-! ## The expected value -/

/-- C91: with a random number uniform on [0,1], the expected value of each element of the first training run is the element. -/
theorem expected_value (phase : Int) (hp : phase ≠ 0) (factor : ℝ) (h0 : 0 < factor) (h1 : factor < 1) (x : Ten ℝ) (s : List Nat) (a : List Nat → ℝ) (hx : x.Has s a)
    (is : List Nat) (hv : ValidIdx s is) (rnd : ℝ → Nat → ℝ) (hr : ∀ u, rnd u (flat s is) = u) (y : ℝ → Ten ℝ) (m : ℝ → Option (Ten ℝ))
    (hy : ∀ u, forward phase factor (rnd u) x none = ok (y u, m u)) : ∫ u in (0 : ℝ)..1, (y u).at is = a is := by
  have hval : ∀ u, (y u).at is = Set.indicator (Set.Ioi factor) (fun _ => a is / (1 - factor)) u := by
    intro u
    obtain ⟨y', m', k1, k2, _⟩ := forward_first_partial phase hp factor (rnd u) x s a hx
    rw [hy u] at k1
    injection k1 with k1
    injection k1 with k1 _
    rw [k1, k2.at_eq hv]
    simp [hr, Set.indicator]
  have h2 : (1 - factor) ≠ 0 := by linarith
  simp only [hval]
  rw [intervalIntegral.integral_of_le zero_le_one, MeasureTheory.setIntegral_indicator measurableSet_Ioi]
  have : Set.Ioc (0 : ℝ) 1 ∩ Set.Ioi factor = Set.Ioc factor 1 := by
    ext u
    simp only [Set.mem_inter_iff, Set.mem_Ioc, Set.mem_Ioi]
    constructor
    · rintro ⟨⟨_, b⟩, c⟩; exact ⟨c, b⟩
    · rintro ⟨b, c⟩; exact ⟨⟨by linarith, c⟩, b⟩
  rw [this, ← intervalIntegral.integral_of_le h1.le]
  rw [intervalIntegral.integral_const, smul_eq_mul]
  field_simp

/-- A rate of 1/2, the input (3, 5) and random numbers of which only the first is above the rate: (6, 0); the gradient (7, 7) becomes (7, 0),
not (14, 0). -/
example : ∃ y m u, forward 1 (1/2) (fun p => if p = 0 then 0.9 else 0.1) ⟨[2], [3, 5]⟩ none = ok (y, some m) ∧ y.at [0] = 6 ∧ y.at [1] = 0 ∧ backward 1 ⟨[2], [7, 7]⟩ (some m) = ok u ∧
    u.at [0] = 7 ∧ u.at [1] = 0 := by
  have hx : (⟨[2], [3, 5]⟩ : Ten ℝ).Has [2] _ := Ten.WF.has (t := ⟨[2], [3, 5]⟩) rfl
  have hg : (⟨[2], [7, 7]⟩ : Ten ℝ).Has [2] _ := Ten.WF.has (t := ⟨[2], [7, 7]⟩) rfl
  obtain ⟨y, m, k1, k2, k3, _⟩ := forward_first_partial 1 (by decide) (1/2) (fun p => if p = 0 then 0.9 else 0.1) _ _ _ hx
  obtain ⟨u, k4, k5⟩ := backward_masks_partial 1 (by decide) _ _ _ hg m _ k3
  refine ⟨y, m, u, k1, ?_, ?_, k4, ?_, ?_⟩
  · rw [k2.at_eq (by simp [ValidIdx])]; norm_num [flat, Ten.at]
  · rw [k2.at_eq (by simp [ValidIdx])]; norm_num [flat, Ten.at]
  · rw [k5.at_eq (by simp [ValidIdx])]; norm_num [flat, Ten.at]
  · rw [k5.at_eq (by simp [ValidIdx])]; norm_num [flat, Ten.at]

/-- C91 is about something: for every input such runs exist. -/
example : ∃ (y : ℝ → Ten ℝ) (m : ℝ → Option (Ten ℝ)), (∀ u, forward 1 (1/2) (fun _ => u) ⟨[2], [3, 5]⟩ none = ok (y u, m u)) ∧ ∫ u in (0 : ℝ)..1, (y u).at [1] = 5 := by
  have hx : (⟨[2], [3, 5]⟩ : Ten ℝ).Has [2] _ := Ten.WF.has (t := ⟨[2], [3, 5]⟩) rfl
  choose y m k _ using fun u : ℝ => forward_first_partial 1 (by decide) (1/2) (fun _ => u) _ _ _ hx
  refine ⟨y, fun u => some (m u), k, ?_⟩
  rw [expected_value 1 (by decide) (1/2) (by norm_num) (by norm_num) _ _ _ hx [1] (by simp [ValidIdx]) (fun u _ => u) (fun _ => rfl) y _ k]
  rfl

/-- C70: rates outside `]0, 1[` are refused. -/
theorem rate_checked (factor : ℝ) : make factor = if 0 < factor ∧ factor < 1 then ok none else abort := by
  unfold make
  by_cases h1 : factor < 1 <;> by_cases h0 : 0 < factor <;> simp [h0, h1]

end
end Verif.Dropout
