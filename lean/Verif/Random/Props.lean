import Verif.Random.Model
import Verif.Basic.Inplace
import Mathlib.Tactic.Linarith
import Mathlib.Tactic.Positivity
import Mathlib.Tactic.NormNum
/-!
# Properties C108, C109: random tensors, the initial weights of layers
-/
namespace Verif.Random
open Verif Res

noncomputable section

/-- Specification: numbers as `generate_canonical` gives them. -/
def Canonical (u : Nat → ℝ) : Prop := ∀ k, 0 ≤ u k ∧ u k < 1

theorem generate_ok (f : ℝ → ℝ) (u : Nat → ℝ) (k : Nat) (shape : List Nat) :
    ∃ t, generate f u k shape = ok (t, k + size shape) ∧ t.shape = shape ∧ t.data = (List.range (size shape)).map (fun i => f (u (k + i))) := by
  obtain ⟨d, h1, h2, h3⟩ := fill1 (n := size shape) (body := fun i o => wr o i (f (u (k + i)))) (g := fun i => f (u (k + i))) (fun _ _ _ _ => rfl)
    (out := List.replicate (size shape) 0) (by simp)
  refine ⟨⟨shape, d⟩, by unfold generate; rw [h1, bind_ok]; rfl, rfl, List.ext_getElem? (fun i => ?_)⟩
  by_cases hi : i < size shape
  · rw [h3 i hi]; simp [hi]
  · rw [List.getElem?_eq_none (by show d.length ≤ i; omega), List.getElem?_eq_none (by simpa using hi)]

/-- C108: `random( shape, min, max )` has the shape asked for, one number of the generator per element, none used twice, spread linearly over `[min, max]`; the
elements are at least `min`, and less than `max` if that is not `min`. -/
theorem random_uniform (u : Nat → ℝ) (hu : Canonical u) (k : Nat) (shape : List Nat) (min max : ℝ) (h : min ≤ max) :
    ∃ t, random u k shape min max = ok (t, k + size shape) ∧ t.shape = shape ∧ t.data = (List.range (size shape)).map (fun i => min + u (k + i) * (max - min)) ∧
      ∀ x ∈ t.data, min ≤ x ∧ x ≤ max ∧ (min < max → x < max) := by
  obtain ⟨t, h1, h2, h3⟩ := generate_ok (fun x => x * (max - min) + min) u k shape
  refine ⟨t, by unfold random; rw [require_true h, bind_ok, h1], h2, by rw [h3]; simp [add_comm], fun x hx => ?_⟩
  rw [h3, List.mem_map] at hx
  obtain ⟨i, _, rfl⟩ := hx
  obtain ⟨c1, c2⟩ := hu (k + i)
  refine ⟨by nlinarith, by nlinarith, fun hlt => by nlinarith⟩

/-- C108: `randn( shape, mean, stddev )` likewise shifts and scales one standard normal number per element. -/
theorem randn_normal (z : Nat → ℝ) (k : Nat) (shape : List Nat) (mean stddev : ℝ) (h : 0 < stddev) :
    ∃ t, randn z k shape mean stddev = ok (t, k + size shape) ∧ t.shape = shape ∧ t.data = (List.range (size shape)).map (fun i => mean + stddev * z (k + i)) := by
  obtain ⟨t, h1, h2, h3⟩ := generate_ok (fun x => x * stddev + mean) z k shape
  exact ⟨t, by unfold randn; rw [require_true h, bind_ok, h1], h2, by rw [h3]; simp [add_comm, mul_comm]⟩

/-! ### truncated_normal -/

section
variable (z : Nat → ℝ) (mean stddev lower upper : ℝ)

/-- Specification: the number at position `k` is acceptable. -/
def Accept (k : Nat) : Prop := lower ≤ mean + stddev * z k ∧ mean + stddev * z k ≤ upper

/-- Specification: the positions of acceptable numbers from `k` up to, not including, `k'`. -/
def accepted (k k' : Nat) : List Nat := by
  classical exact (List.range' k (k' - k)).filter (fun j => Accept z mean stddev lower upper j)

variable {z mean stddev lower upper}

theorem pick_some {fuel k k' : Nat} {x : ℝ} (h : pick z mean stddev lower upper fuel k = some (x, k')) :
    k < k' ∧ x = mean + stddev * z (k' - 1) ∧ Accept z mean stddev lower upper (k' - 1) ∧ ∀ j, k ≤ j → j < k' - 1 → ¬ Accept z mean stddev lower upper j := by
  induction fuel generalizing k with
  | zero => simp [pick] at h
  | succ fuel ih =>
    rw [pick] at h
    split at h
    · rename_i hc
      simp only [Option.some.injEq, Prod.mk.injEq] at h
      obtain ⟨rfl, rfl⟩ := h
      refine ⟨by omega, by simp; ring, ?_, fun j h1 h2 => by omega⟩
      show lower ≤ mean + stddev * z (k + 1 - 1) ∧ mean + stddev * z (k + 1 - 1) ≤ upper
      rw [Nat.add_sub_cancel]
      constructor <;> linarith [hc.1, hc.2]
    · rename_i hc
      obtain ⟨h1, h2, h3, h4⟩ := ih h
      refine ⟨by omega, h2, h3, fun j hj1 hj2 => ?_⟩
      by_cases e : j = k
      · subst e
        rintro ⟨a1, a2⟩
        exact hc ⟨by linarith, by linarith⟩
      · exact h4 j (by omega) hj2

theorem pick_none {fuel k : Nat} : pick z mean stddev lower upper fuel k = none ↔ ∀ j, k ≤ j → j < k + fuel → ¬ Accept z mean stddev lower upper j := by
  induction fuel generalizing k with
  | zero => simp [pick]; intro j h1 h2; omega
  | succ fuel ih =>
    rw [pick]
    split
    · rename_i hc
      simp only [reduceCtorEq, false_iff, not_forall, not_not]
      exact ⟨k, le_refl _, by omega, by linarith [hc.1], by linarith [hc.2]⟩
    · rename_i hc
      rw [ih]
      constructor
      · intro h j h1 h2
        by_cases e : j = k
        · subst e
          rintro ⟨a1, a2⟩
          exact hc ⟨by linarith, by linarith⟩
        · exact h j (by omega) (by omega)
      · exact fun h j h1 h2 => h j (by omega) (by omega)

theorem accepted_step {k m k' : Nat} (h1 : k < m) (h2 : m ≤ k') (ha : Accept z mean stddev lower upper (m - 1)) (hn : ∀ j, k ≤ j → j < m - 1 → ¬ Accept z mean stddev lower upper j) :
    accepted z mean stddev lower upper k k' = (m - 1) :: accepted z mean stddev lower upper m k' := by
  classical
  unfold accepted
  have e : List.range' k (k' - k) = List.range' k (m - 1 - k) ++ (m - 1) :: List.range' m (k' - m) := by
    have e1 : (m - 1) :: List.range' m (k' - m) = List.range' (m - 1) (k' - m + 1) := by
      rw [List.range'_succ]; congr 2; omega
    rw [e1]
    have := List.range'_append (s := k) (m := m - 1 - k) (n := k' - m + 1) (step := 1)
    rw [show k + 1 * (m - 1 - k) = m - 1 by omega] at this
    rw [this]
    congr 1; omega
  rw [e, List.filter_append, List.filter_eq_nil_iff.mpr, List.nil_append, List.filter_cons_of_pos (by simpa using ha)]
  intro j hj
  rw [List.mem_range'_1] at hj
  simpa using hn j hj.1 (by omega)

theorem elems_some {fuel n k k' : Nat} {l : List ℝ} (h : truncatedElems z mean stddev lower upper fuel n k = some (l, k')) :
    k ≤ k' ∧ l.length = n ∧ l = (accepted z mean stddev lower upper k k').map (fun j => mean + stddev * z j) := by
  induction n generalizing k l with
  | zero =>
    simp only [truncatedElems, Option.some.injEq, Prod.mk.injEq] at h
    obtain ⟨rfl, rfl⟩ := h
    exact ⟨le_refl _, rfl, by simp [accepted]⟩
  | succ n ih =>
    rw [truncatedElems] at h
    split at h
    · simp at h
    · rename_i x m hp
      split at h
      · simp at h
      · rename_i l' m' hr
        simp only [Option.some.injEq, Prod.mk.injEq] at h
        obtain ⟨rfl, rfl⟩ := h
        obtain ⟨p1, p2, p3, p4⟩ := pick_some hp
        obtain ⟨q1, q2, q3⟩ := ih hr
        refine ⟨by omega, by simp [q2], ?_⟩
        rw [accepted_step p1 q1 p3 p4, List.map_cons, ← q3, p2]

/-- C108: what `truncated_normal` returns are the next acceptable numbers, in order, as many as the shape has places, all between `lower` and `upper`. -/
theorem truncated_normal_range {fuel k k' : Nat} {shape : List Nat} {t : Ten ℝ} (h : truncatedNormal z k shape mean stddev lower upper fuel = some (t, k')) :
    t.shape = shape ∧ t.WF ∧ t.data = (accepted z mean stddev lower upper k k').map (fun j => mean + stddev * z j) ∧ ∀ x ∈ t.data, lower ≤ x ∧ x ≤ upper := by
  unfold truncatedNormal at h
  split at h
  · simp at h
  · rename_i l m hl
    simp only [Option.some.injEq, Prod.mk.injEq] at h
    obtain ⟨rfl, rfl⟩ := h
    obtain ⟨_, h2, h3⟩ := elems_some hl
    refine ⟨rfl, h2, h3, fun x hx => ?_⟩
    change x ∈ l at hx
    rw [h3, List.mem_map] at hx
    obtain ⟨j, hj, rfl⟩ := hx
    classical
    unfold accepted at hj
    have := (List.mem_filter.mp hj).2
    rw [decide_eq_true_eq] at this
    exact this

/-- C108: it returns if acceptable numbers keep coming. -/
theorem truncated_normal_returns (fuel : Nat) (h : ∀ k, ∃ j, k ≤ j ∧ j < k + fuel ∧ Accept z mean stddev lower upper j) (k : Nat) (shape : List Nat) :
    ∃ t k', truncatedNormal z k shape mean stddev lower upper fuel = some (t, k') := by
  have key : ∀ n k, ∃ l k', truncatedElems z mean stddev lower upper fuel n k = some (l, k') := by
    intro n
    induction n with
    | zero => exact fun k => ⟨[], k, rfl⟩
    | succ n ih =>
      intro k
      have hp : pick z mean stddev lower upper fuel k ≠ none := by
        rw [Ne, pick_none]
        push Not
        exact h k
      obtain ⟨⟨x, m⟩, hx⟩ := Option.ne_none_iff_exists'.mp hp
      obtain ⟨l, k', hl⟩ := ih m
      exact ⟨x :: l, k', by rw [truncatedElems, hx]; simp [hl]⟩
  obtain ⟨l, k', hl⟩ := key (size shape) k
  exact ⟨⟨shape, l⟩, k', by unfold truncatedNormal; rw [hl]⟩

/-- It never returns when no number is acceptable, as with `lower > upper` (unless the tensor is empty). -/
theorem truncated_normal_hangs (h : upper < lower) (k : Nat) (shape : List Nat) (hs : size shape ≠ 0) (fuel : Nat) :
    truncatedNormal z k shape mean stddev lower upper fuel = none := by
  unfold truncatedNormal
  obtain ⟨n, hn⟩ := Nat.exists_eq_succ_of_ne_zero hs
  have hp : pick z mean stddev lower upper fuel k = none := pick_none.mpr (fun j _ _ ha => absurd (ha.1.trans ha.2) (not_le.mpr h))
  rw [hn, truncatedElems, hp]

end

/-! ### initial weights -/

/-- Specification: the bound of Glorot and Bengio for a layer with so many inputs and outputs per unit. -/
def glorotBound (fanIn fanOut : Nat) : ℝ := Real.sqrt (6 / (fanIn + fanOut : ℝ))

/-- Specification: a tensor uniform on `[-B, B]`: one canonical number per element. -/
def UniformOn (u : Nat → ℝ) (k : Nat) (B : ℝ) (t : Ten ℝ) : Prop := t.data = (List.range (size t.shape)).map (fun i => (2 * u (k + i) - 1) * B)

/-- What `glorot_uniform` does with two extents or more. -/
theorem glorot_value (u : Nat → ℝ) (k a b : Nat) (rest : List Nat) (h : a + b ≠ 0) :
    ∃ t, glorotUniform u k (a :: b :: rest) = ok (t, k + size (a :: b :: rest)) ∧ t.shape = a :: b :: rest ∧ UniformOn u k (glorotBound a b) t := by
  have hm : max 1 ((a : ℝ) + b) = a + b := max_eq_right (by exact_mod_cast Nat.one_le_iff_ne_zero.mpr h)
  obtain ⟨t, h1, h2, h3⟩ := generate_ok (fun x => x * (glorotBound a b - -glorotBound a b) + -glorotBound a b) u k (a :: b :: rest)
  refine ⟨t, ?_, h2, ?_⟩
  · unfold glorotUniform
    rw [rd_ok (show (a :: b :: rest)[0]? = some a from rfl), bind_ok, rd_ok (show (a :: b :: rest)[1]? = some b from rfl), bind_ok]
    dsimp only
    rw [hm]
    unfold random
    have := Real.sqrt_nonneg (6 / ((a : ℝ) + b))
    rw [require_true (by linarith), bind_ok]
    exact h1
  · unfold UniformOn
    rw [h3, h2]
    refine List.map_congr_left (fun i _ => ?_)
    ring

/-- C109 for `Dense` (include/layer.hpp line 241): the weights of a dense layer are uniform between Glorot's bounds, so none is outside them. -/
theorem glorot_dense_partial (u : Nat → ℝ) (hu : Canonical u) (k fanIn fanOut : Nat) (h : fanIn + fanOut ≠ 0) :
    ∃ t, glorotUniform u k [fanIn, fanOut] = ok (t, k + size [fanIn, fanOut]) ∧ t.shape = [fanIn, fanOut] ∧ UniformOn u k (glorotBound fanIn fanOut) t ∧
      ∀ x ∈ t.data, |x| ≤ glorotBound fanIn fanOut := by
  obtain ⟨t, h1, h2, h3⟩ := glorot_value u k fanIn fanOut [] h
  refine ⟨t, h1, h2, h3, fun x hx => ?_⟩
  rw [h3, List.mem_map] at hx
  obtain ⟨i, _, rfl⟩ := hx
  obtain ⟨c1, c2⟩ := hu (k + i)
  have hb : 0 ≤ glorotBound fanIn fanOut := Real.sqrt_nonneg _
  rw [abs_mul, abs_of_nonneg hb]
  have : |2 * u (k + i) - 1| ≤ 1 := abs_le.mpr ⟨by linarith, by linarith⟩
  nlinarith

/-- C109 is false of the convolution layers (include/layer.hpp lines 70, 118, 179): the bound is computed from the number of filters and the rows of the kernel,
and is larger than Glorot's - `kr kc CH` inputs and `kr kc NC` outputs per unit - unless kernel and input channels are 1. -/
theorem glorot_conv_violated (k NC kr kc CH : Nat) (h1 : NC ≠ 0) (h2 : kr ≠ 0) (h3 : kc ≠ 0) (h4 : CH ≠ 0) (h : ¬ (kr = 1 ∧ kc = 1 ∧ CH = 1)) :
    glorotBound (kr * kc * CH) (kr * kc * NC) < glorotBound NC kr ∧
    ∃ u, Canonical u ∧ ∃ t, glorotUniform u k [NC, kr, kc, CH] = ok (t, k + size [NC, kr, kc, CH]) ∧ ∃ x ∈ t.data, glorotBound (kr * kc * CH) (kr * kc * NC) < |x| := by
  have hlt : glorotBound (kr * kc * CH) (kr * kc * NC) < glorotBound NC kr := by
    unfold glorotBound
    have hnat : NC + kr < kr * kc * CH + kr * kc * NC := by
      have p1 : 1 ≤ kr := by omega
      have p2 : 1 ≤ kc := by omega
      have p3 : 1 ≤ CH := by omega
      have p4 : 1 ≤ NC := by omega
      have q1 : kr ≤ kr * (kc * CH) := Nat.le_mul_of_pos_right _ (by positivity)
      have q2 : NC ≤ (kr * kc) * NC := Nat.le_mul_of_pos_left _ (by positivity)
      by_cases e : kr * kc = 1
      · have e1 : kr = 1 := Nat.eq_one_of_mul_eq_one_right e
        have e2 : kc = 1 := Nat.eq_one_of_mul_eq_one_left e
        subst e1 e2
        have : CH ≠ 1 := fun e3 => h ⟨rfl, rfl, e3⟩
        simp; omega
      · have : 2 ≤ kr * kc := by
          have : 1 ≤ kr * kc := Nat.one_le_iff_ne_zero.mpr (Nat.mul_ne_zero h2 h3)
          omega
        have : 2 * NC ≤ (kr * kc) * NC := Nat.mul_le_mul_right _ this
        rw [Nat.mul_assoc kr kc CH]; omega
    have hpos : (0 : ℝ) < (NC : ℝ) + kr := by exact_mod_cast (by omega : 0 < NC + kr)
    refine Real.sqrt_lt_sqrt (by positivity) ?_
    refine div_lt_div_of_pos_left (by norm_num) hpos ?_
    exact_mod_cast hnat
  refine ⟨hlt, fun _ => 0, fun _ => ⟨le_refl _, by norm_num⟩, ?_⟩
  obtain ⟨t, k1, k2, k3⟩ := glorot_value (fun _ => 0) k NC kr [kc, CH] (by omega)
  refine ⟨t, k1, (2 * 0 - 1) * glorotBound NC kr, ?_, ?_⟩
  · rw [k3, List.mem_map]
    refine ⟨0, ?_, rfl⟩
    rw [k2, List.mem_range]
    simp only [size_cons, size_nil, mul_one]
    positivity
  · have hb : 0 ≤ glorotBound NC kr := Real.sqrt_nonneg _
    rw [show (2 * 0 - 1) * glorotBound NC kr = -glorotBound NC kr by ring, abs_neg, abs_of_nonneg hb]
    exact hlt

/-- `glorot_uniform` of one extent, as in include/extra/applications/svm.hpp line 31, reads past the end of the list. -/
theorem glorot_vector_violated (u : Nat → ℝ) (k n : Nat) : glorotUniform u k [n] = ub := by
  unfold glorotUniform
  rw [rd_ok (show [n][0]? = some n from rfl), bind_ok]
  rfl

/-! ### examples -/

example : Canonical (fun k => 1 / (k + 2)) := fun k => by
  have : (0 : ℝ) < (k : ℝ) + 2 := by positivity
  refine ⟨by positivity, ?_⟩
  rw [div_lt_one this]
  have : (0 : ℝ) ≤ k := Nat.cast_nonneg k
  linarith
/-- A sequence that meets the hypothesis of `truncated_normal_returns`, half of it rejected. -/
example : ∀ k, ∃ j, k ≤ j ∧ j < k + 2 ∧ Accept (fun j => if j % 2 = 0 then 1 / 2 else 7) 0 1 0 1 j := by
  intro k
  by_cases h : k % 2 = 0
  · exact ⟨k, le_refl _, by omega, by simp [h], by simp [h]; norm_num⟩
  · exact ⟨k + 1, by omega, by omega, by simp [show (k + 1) % 2 = 0 by omega], by simp [show (k + 1) % 2 = 0 by omega]; norm_num⟩

end
end Verif.Random
