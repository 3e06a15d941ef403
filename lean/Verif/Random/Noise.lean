import Verif.Random.Props
import Verif.Ops.Scalar
import Mathlib.Analysis.Calculus.Deriv.Basic
import Mathlib.Algebra.Order.Round
/-!
# Noise: `poisson` and `random_normal_like` (model, and C140)

`include/tensor.tcc` lines 857-867, 890-894 and `include/operation.hpp` lines 2600-2622, 4878-4892.

`std::poisson_distribution<long>` is an unknown function `draw` from a mean and a state of `random_generator` to a number and the next state; its mean must be
positive (C++ standard, [rand.dist.pois.poisson]).  Elements are real numbers; converting one to `long` cuts off its fraction and is undefined beyond the range of
`long`.
-/
namespace Verif.Random
open Verif Res

noncomputable section

variable {σ : Type}

/-- `static_cast<long>( x )`. -/
def toLong (x : ℝ) : Res ℤ := do
  let n := if 0 ≤ x then ⌊x⌋ else ⌈x⌉
  require (-2 ^ 63 ≤ n ∧ n < 2 ^ 63)
  pure n

/-- `poisson( tsor )` (include/tensor.tcc lines 857-867). -/
def poisson (draw : ℤ → σ → Nat × σ) (t : Ten ℝ) (s : σ) : Res (Ten ℝ × σ) := do
  let r ← loop t.data.length (fun i (o : List ℝ × σ) => do
    let x ← rd t.data i
    let v ← toLong x
    require (0 < v)
    let (n, s) := draw v o.2
    let d ← wr o.1 i (n : ℝ)
    pure (d, s)) (List.replicate (size t.shape) 0, s)
  pure (⟨t.shape, r.1⟩, r.2)

/-- The backward action of the operator `poisson` (include/operation.hpp lines 4886-4889). -/
def poissonBack (grad : Ten ℝ) : Res (Ten ℝ) := pure grad

/-- The forward action of the operator `random_normal_like( mean, stddev )` (include/operation.hpp lines 2606-2609, include/tensor.tcc lines 890-894). -/
def normalLike (mean stddev : ℝ) (z : Nat → ℝ) (k : Nat) (t : Ten ℝ) : Res (Ten ℝ × Nat) := randn z k t.shape mean stddev

/-- Its backward action (include/operation.hpp lines 2610-2613). -/
def normalLikeBack (grad : Ten ℝ) : Res (Ten ℝ) := pure ⟨grad.shape, List.replicate (size grad.shape) 0⟩

/-! ## Specification -/

/-- The numbers drawn one after the other for the means `ms`. -/
def draws (draw : ℤ → σ → Nat × σ) : List ℤ → σ → List Nat × σ
  | [], s => ([], s)
  | m :: ms, s =>
    let (n, s) := draw m s
    let (ns, s) := draws draw ms s
    (n :: ns, s)

/-! ## Proofs -/

theorem toLong_ok {x : ℝ} (h1 : 1 ≤ x) (h2 : x < 2 ^ 63) : toLong x = ok ⌊x⌋ ∧ 0 < ⌊x⌋ := by
  have h0 : (0 : ℝ) ≤ x := by linarith
  have hp : 0 < ⌊x⌋ := Int.floor_pos.2 h1
  have hb : ⌊x⌋ < 2 ^ 63 := Int.floor_lt.2 (by rw [Int.cast_pow]; exact_mod_cast h2)
  refine ⟨?_, hp⟩
  unfold toLong
  dsimp only
  rw [if_pos h0, require_true ⟨by omega, hb⟩, bind_ok]
  rfl

theorem draws_append (draw : ℤ → σ → Nat × σ) (ms : List ℤ) (m : ℤ) (s : σ) :
    draws draw (ms ++ [m]) s = ((draws draw ms s).1 ++ [(draw m (draws draw ms s).2).1], (draw m (draws draw ms s).2).2) := by
  induction ms generalizing s with
  | nil => rfl
  | cons a ms ih => simp only [List.cons_append, draws, ih]

theorem draws_length (draw : ℤ → σ → Nat × σ) (ms : List ℤ) (s : σ) : (draws draw ms s).1.length = ms.length := by
  induction ms generalizing s with
  | nil => rfl
  | cons a ms ih => simp [draws, ih]

/-- Partial (C140): of numbers from 1 up (in the range of `long`), `poisson` makes a tensor of the same shape, drawn one after the other with the whole part of each
number as the mean. -/
theorem poisson_partial (draw : ℤ → σ → Nat × σ) (t : Ten ℝ) (hw : t.WF) (h : ∀ x ∈ t.data, 1 ≤ x ∧ x < 2 ^ 63) (s : σ) :
    poisson draw t s = ok (⟨t.shape, (draws draw (t.data.map Int.floor) s).1.map Nat.cast⟩, (draws draw (t.data.map Int.floor) s).2) := by
  unfold poisson
  have hlen : t.data.length = size t.shape := hw
  obtain ⟨r, e, hr⟩ := loop_inv (n := t.data.length) (s := (List.replicate (size t.shape) (0 : ℝ), s)) (body := fun i (o : List ℝ × σ) => do
      let x ← rd t.data i
      let v ← toLong x
      require (0 < v)
      let (n, s) := draw v o.2
      let d ← wr o.1 i (n : ℝ)
      pure (d, s))
    (fun i o => o = (((draws draw ((t.data.map Int.floor).take i) s).1.map (Nat.cast : ℕ → ℝ)) ++ List.replicate (t.data.length - i) 0, (draws draw ((t.data.map Int.floor).take i) s).2))
    (by simp [draws, hlen]) (fun i o hi ho => by
      obtain ⟨h1, h2⟩ := h t.data[i] (List.getElem_mem hi)
      obtain ⟨l1, l2⟩ := toLong_ok h1 h2
      subst ho
      refine ⟨_, ?_, rfl⟩
      rw [rd_ok (List.getElem?_eq_getElem hi), bind_ok, l1, bind_ok, require_true l2, bind_ok]
      have hl : (draws draw ((t.data.map Int.floor).take i) s).1.length = i := by rw [draws_length]; simp; omega
      have ht : (t.data.map Int.floor).take (i + 1) = (t.data.map Int.floor).take i ++ [⌊t.data[i]⌋] := by
        rw [List.take_add_one, List.getElem?_map, List.getElem?_eq_getElem hi]; rfl
      dsimp only
      rw [wr_ok (by simp [hl]; omega), bind_ok, ht, draws_append]
      have hrep : List.replicate (t.data.length - i) (0 : ℝ) = 0 :: List.replicate (t.data.length - (i + 1)) 0 := by
        rw [← List.replicate_succ]; congr 1; omega
      rw [hrep, List.set_append_right _ _ (by simp [hl])]
      simp [hl, Res.pure_eq])
  rw [e, bind_ok, hr, List.take_of_length_le (by simp)]
  simp [Res.pure_eq]

/-- C140 is false of the code for a tensor with an element below 1, for instance 0 or 0.5: its mean becomes 0, or negative, for which the distribution is
not defined. -/
theorem poisson_small_violated (draw : ℤ → σ → Nat × σ) (t : Ten ℝ) (hw : t.WF) (x : ℝ) (hx : x ∈ t.data) (h1 : x < 1) (s : σ) : poisson draw t s = ub := by
  have hlen : t.data.length = size t.shape := hw
  have small : ∀ y : ℝ, y < 1 → (toLong y >>= fun v => require (0 < v)) = ub := by
    intro y hy
    unfold toLong
    have : (if 0 ≤ y then ⌊y⌋ else ⌈y⌉) ≤ 0 := by
      split
      · exact Int.lt_add_one_iff.1 (Int.floor_lt.2 (by push_cast; linarith))
      · exact Int.ceil_le.2 (by push_cast; linarith)
    dsimp only
    by_cases hb : -2 ^ 63 ≤ (if 0 ≤ y then ⌊y⌋ else ⌈y⌉) ∧ (if 0 ≤ y then ⌊y⌋ else ⌈y⌉) < 2 ^ 63
    · rw [require_true hb, bind_ok]
      show require (0 < (if 0 ≤ y then ⌊y⌋ else ⌈y⌉)) = ub
      rw [require_false (by omega)]
    · rw [require_false hb]; rfl
  obtain ⟨i, hi, rfl⟩ := List.getElem_of_mem hx
  let body : Nat → List ℝ × σ → Res (List ℝ × σ) := fun i o => do
    let x ← rd t.data i
    let v ← toLong x
    require (0 < v)
    let (n, s) := draw v o.2
    let d ← wr o.1 i (n : ℝ)
    pure (d, s)
  have hlong : ∀ y, toLong y ≠ abort := by
    intro y
    unfold toLong require
    dsimp only
    by_cases hb : -2 ^ 63 ≤ (if 0 ≤ y then ⌊y⌋ else ⌈y⌉) ∧ (if 0 ≤ y then ⌊y⌋ else ⌈y⌉) < 2 ^ 63
    · rw [if_pos hb, bind_ok]; exact fun h => by cases h
    · rw [if_neg hb]; exact fun h => by cases h
  have hnot : ∀ j o, body j o ≠ abort := by
    intro j o
    show (rd t.data j >>= fun x => toLong x >>= fun v => require (0 < v) >>= fun _ => wr o.1 j ((draw v o.2).1 : ℝ) >>= fun d => pure (d, (draw v o.2).2)) ≠ abort
    unfold rd
    split
    · rw [bind_ok]
      rename_i y _
      cases e : toLong y with
      | abort => exact absurd e (hlong y)
      | ub => exact fun h => by cases h
      | ok v =>
        rw [bind_ok]
        unfold require wr
        split
        · rw [bind_ok]
          split
          · exact fun h => by cases h
          · exact fun h => by cases h
        · exact fun h => by cases h
    · exact fun h => by cases h
  have hi' : ∀ o, body i o = ub := by
    intro o
    show (rd t.data i >>= fun x => toLong x >>= fun v => require (0 < v) >>= fun _ => wr o.1 i ((draw v o.2).1 : ℝ) >>= fun d => pure (d, (draw v o.2).2)) = ub
    rw [rd_ok (List.getElem?_eq_getElem hi), bind_ok]
    have := small _ h1
    cases e : toLong t.data[i] with
    | abort => exact absurd e (hlong _)
    | ub => rfl
    | ok v =>
      rw [e, bind_ok] at this
      rw [bind_ok, this]
      rfl
  have key : ∀ n st, loop n body st ≠ abort ∧ (i < n → loop n body st = ub) := by
    intro n st
    induction n with
    | zero => exact ⟨(fun h => by cases h), fun h => absurd h (Nat.not_lt_zero _)⟩
    | succ n ih =>
      rw [loop_succ]
      cases e : loop n body st with
      | abort => exact absurd e ih.1
      | ub => exact ⟨(fun h => by cases h), fun _ => rfl⟩
      | ok o =>
        rw [bind_ok]
        refine ⟨hnot n o, fun h => ?_⟩
        by_cases hn : i < n
        · rw [ih.2 hn] at e; cases e
        · rw [show n = i by omega]; exact hi' o
  unfold poisson
  show (loop t.data.length body (List.replicate (size t.shape) 0, s) >>= fun r => pure ((⟨t.shape, r.1⟩ : Ten ℝ), r.2)) = ub
  rw [(key _ _).2 hi]
  rfl

/-- C140 is false of the code for numbers that are not whole: `poisson` makes of them what it makes of their whole parts, so 1.9 is drawn like 1. -/
theorem poisson_fraction_violated (draw : ℤ → σ → Nat × σ) (t : Ten ℝ) (hw : t.WF) (h : ∀ x ∈ t.data, 1 ≤ x ∧ x < 2 ^ 63) (s : σ) :
    poisson draw t s = poisson draw ⟨t.shape, t.data.map (fun x => (⌊x⌋ : ℝ))⟩ s := by
  rw [poisson_partial draw t hw h, poisson_partial draw ⟨t.shape, _⟩ (by simpa [Ten.WF] using hw)]
  · simp [Function.comp_def]
  · intro y hy
    obtain ⟨x, hx, rfl⟩ := List.mem_map.1 hy
    obtain ⟨h1, h2⟩ := h x hx
    refine ⟨by exact_mod_cast Int.floor_pos.2 h1, lt_of_le_of_lt (Int.floor_le x) h2⟩

/-- The same for its gradient: whatever number `E m` is expected of a draw with mean `m`, as a function of the element it has the derivative 0 wherever the element is
not whole, but the backward action hands on the gradient it gets. -/
theorem poisson_gradient_violated (E : ℤ → ℝ) (x : ℝ) (hx : (⌊x⌋ : ℝ) ≠ x) (shape : List Nat) (g : ℝ) (hg : g ≠ 0) :
    HasDerivAt (fun y : ℝ => E ⌊y⌋) 0 x ∧ ∃ b, poissonBack ⟨shape, [g]⟩ = ok b ∧ b.data = [g] ∧ b.data ≠ [g * 0] := by
  refine ⟨?_, _, rfl, rfl, by simpa using hg⟩
  have h1 : (⌊x⌋ : ℝ) < x := lt_of_le_of_ne (Int.floor_le x) hx
  have h2 : x < (⌊x⌋ : ℝ) + 1 := Int.lt_floor_add_one x
  refine (hasDerivAt_const x (E ⌊x⌋)).congr_of_eventuallyEq ?_
  filter_upwards [Ioo_mem_nhds h1 h2] with y hy
  show E ⌊y⌋ = E ⌊x⌋
  rw [Int.floor_eq_iff.2 ⟨hy.1.le, hy.2⟩]

/-- C140: the operator `random_normal_like` gives numbers of the normal distribution, new ones for every run, in the shape of its operand.  It does not look at the
elements, so its derivative is 0 in every direction, and 0 is what its backward action returns. -/
theorem normalLike_noise (mean stddev : ℝ) (hs : 0 < stddev) (z : Nat → ℝ) (k : Nat) (t u grad : Ten ℝ) (hu : u.shape = t.shape) (hg : grad.shape = t.shape) :
    (∃ r, normalLike mean stddev z k t = ok (r, k + size t.shape) ∧ r.shape = t.shape ∧ r.data = (List.range (size t.shape)).map (fun i => mean + stddev * z (k + i))) ∧
      normalLike mean stddev z k u = normalLike mean stddev z k t ∧
      ∃ b, normalLikeBack grad = ok b ∧ b.shape = t.shape ∧ b.data.length = size t.shape ∧ ∀ x ∈ b.data, x = 0 := by
  refine ⟨randn_normal z k t.shape mean stddev hs, by unfold normalLike; rw [hu], _, rfl, hg, by simp [hg], fun x hx => ?_⟩
  exact (List.mem_replicate.1 hx).2

/-- Without a positive deviation it is not defined. -/
theorem normalLike_deviation_violated (mean stddev : ℝ) (hs : stddev ≤ 0) (z : Nat → ℝ) (k : Nat) (t : Ten ℝ) : normalLike mean stddev z k t = ub := by
  unfold normalLike randn
  rw [require_false (not_lt.2 hs)]
  rfl

/-! ## Examples -/

/-- A generator that draws the mean and counts. -/
def meanDraw (m : ℤ) (s : Nat) : Nat × Nat := (m.toNat + s, s + 1)

example : poisson meanDraw ⟨[2], [1, 5 / 2]⟩ 0 = ok (⟨[2], [1, 3]⟩, 2) := by
  rw [poisson_partial meanDraw ⟨[2], [1, 5 / 2]⟩ rfl (by intro x hx; simp at hx; rcases hx with rfl | rfl <;> norm_num)]
  have : ⌊(5 / 2 : ℝ)⌋ = 2 := by norm_num
  simp [this, draws, meanDraw]

example : poisson meanDraw ⟨[2], [1, 1 / 2]⟩ 0 = ub := poisson_small_violated meanDraw ⟨[2], [1, 1 / 2]⟩ rfl (1 / 2) (by simp) (by norm_num) 0

end
end Verif.Random
