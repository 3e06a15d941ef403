import Verif.Step.Spec
import Verif.Ops.ScalarProps
import Verif.Pool.Lemmas
/-!
# Step functions (proofs, C116)
-/
namespace Verif.Step
open Verif Res View Data

/-! ### Rounding -/

theorem nearest_of_half {x : ℝ} {n : ℤ} (h : |x - n| ≤ 1 / 2) : Nearest x n := by
  intro m
  by_cases e : m = n
  · rw [e]
  have h1 : (1 : ℝ) ≤ |(n : ℝ) - m| := by
    have : (1 : ℤ) ≤ |n - m| := Int.one_le_abs (by omega)
    have h2 : ((1 : ℤ) : ℝ) ≤ ((|n - m| : ℤ) : ℝ) := by exact_mod_cast this
    simpa using h2
  have h3 : |(n : ℝ) - m| ≤ |x - m| + |x - n| := by
    rw [show (n : ℝ) - m = (x - m) - (x - n) by ring]; exact abs_sub _ _
  linarith

theorem half_of_nearest {x : ℝ} {n : ℤ} (h : Nearest x n) : |x - n| ≤ 1 / 2 := by
  have h0 := Int.floor_le x
  have h1 := Int.lt_floor_add_one x
  by_cases hc : x - ⌊x⌋ ≤ 1 / 2
  · refine (h ⌊x⌋).trans ?_
    rw [abs_of_nonneg (by linarith)]; exact hc
  · refine (h (⌊x⌋ + 1)).trans ?_
    push_cast
    rw [abs_of_nonpos (by linarith)]; linarith

theorem roundF_half (x : ℝ) : |x - roundF x| ≤ 1 / 2 := by
  unfold roundF
  split
  · have h1 := Int.floor_le (x + 1 / 2)
    have h2 := Int.lt_floor_add_one (x + 1 / 2)
    rw [abs_le]; constructor <;> linarith
  · have h1 := Int.floor_le (-x + 1 / 2)
    have h2 := Int.lt_floor_add_one (-x + 1 / 2)
    push_cast
    rw [abs_le]; constructor <;> linarith

theorem rintF_half (x : ℝ) : |x - rintF x| ≤ 1 / 2 := by
  have h0 := Int.floor_le x
  have h1 := Int.lt_floor_add_one x
  unfold rintF
  split
  · rw [abs_le]; constructor <;> linarith
  · split
    · push_cast; rw [abs_le]; constructor <;> linarith
    · split
      · rw [abs_le]; constructor <;> linarith
      · push_cast; rw [abs_le]; constructor <;> linarith

theorem roundF_tie {x : ℝ} (h : Tie x) : |x| < |(roundF x : ℝ)| := by
  obtain ⟨m, rfl⟩ := h
  unfold roundF
  split
  · next h =>
    rw [show (m : ℝ) + 1 / 2 + 1 / 2 = ((m + 1 : ℤ) : ℝ) by push_cast; ring, Int.floor_intCast]
    have hm : (0 : ℤ) ≤ m := by
      by_contra hc
      have : (m : ℝ) ≤ -1 := by exact_mod_cast (show m ≤ -1 by omega)
      linarith
    have : (0 : ℝ) ≤ m := by exact_mod_cast hm
    push_cast
    rw [abs_of_nonneg h, abs_of_nonneg (by linarith)]; linarith
  · next h =>
    rw [show -((m : ℝ) + 1 / 2) + 1 / 2 = ((-m : ℤ) : ℝ) by push_cast; ring, Int.floor_intCast]
    push_cast
    rw [abs_of_neg (by linarith), neg_neg, abs_of_neg (by linarith)]; linarith

theorem rintF_tie {x : ℝ} (h : Tie x) : Even (rintF x) := by
  obtain ⟨m, rfl⟩ := h
  have hf : ⌊(m : ℝ) + 1 / 2⌋ = m := by rw [Int.floor_eq_iff]; constructor <;> linarith
  unfold rintF
  rw [hf, if_neg (by linarith), if_neg (by linarith)]
  split
  · assumption
  · next h => exact Int.not_even_iff_odd.mp h |>.add_one

theorem toLong_in {u : ℤ → ℤ} {x : ℝ} {n : ℤ} (hx : InLong x) (h : |x - n| ≤ 1 / 2) : toLong u n = n := by
  unfold InLong at hx
  rw [abs_lt] at hx
  rw [abs_le] at h
  refine if_pos ⟨?_, ?_⟩
  · have : ((-2 ^ 63 : ℤ) : ℝ) ≤ (n : ℝ) := by push_cast; linarith
    exact_mod_cast this
  · have : (n : ℝ) < ((2 ^ 63 : ℤ) : ℝ) := by push_cast; linarith
    exact_mod_cast this

theorem abs_cast_le {m : ℤ} {y : ℝ} (h : |(m : ℝ)| ≤ y) : ((|m| : ℤ) : ℝ) ≤ y := by rwa [Int.cast_abs]

/-- What the functions return is what the specification asks for. -/
theorem fwd_gives (u : ℤ → ℤ) (op : SOp) (x : ℝ) (h : op.Long → InLong x) : ∃ n : ℤ, op.fwd u x = n ∧ op.Gives x n := by
  cases op with
  | ceil => exact ⟨_, rfl, Int.le_ceil x, fun m hm => Int.ceil_le.mpr hm⟩
  | floor => exact ⟨_, rfl, Int.floor_le x, fun m hm => Int.le_floor.mpr hm⟩
  | trunc =>
    refine ⟨_, rfl, ?_⟩
    simp only [SOp.Gives]
    unfold truncF
    split
    · next hx =>
      have hf : (0 : ℤ) ≤ ⌊x⌋ := Int.floor_nonneg.mpr hx
      have hf' : (0 : ℝ) ≤ ⌊x⌋ := by exact_mod_cast hf
      rw [abs_of_nonneg hx, abs_of_nonneg hf, abs_of_nonneg hf']
      exact ⟨Int.floor_le x, mul_nonneg hx hf', fun m hm => Int.le_floor.mpr (abs_cast_le hm)⟩
    · next hx =>
      have hx' : x < 0 := not_le.mp hx
      have hf : ⌈x⌉ ≤ (0 : ℤ) := Int.ceil_le.mpr (by simpa using hx'.le)
      have hf' : (⌈x⌉ : ℝ) ≤ 0 := by exact_mod_cast hf
      rw [abs_of_neg hx', abs_of_nonpos hf, abs_of_nonpos hf']
      refine ⟨by linarith [Int.le_ceil x], mul_nonneg_of_nonpos_of_nonpos hx'.le hf', fun m hm => ?_⟩
      have : ⌈x⌉ ≤ -|m| := Int.ceil_le.mpr (by push_cast; linarith)
      omega
  | round => exact ⟨_, rfl, nearest_of_half (roundF_half x), roundF_tie⟩
  | rint => exact ⟨_, rfl, nearest_of_half (rintF_half x), rintF_tie⟩
  | nearbyint => exact ⟨_, rfl, nearest_of_half (rintF_half x), rintF_tie⟩
  | lrint => exact ⟨rintF x, by rw [SOp.fwd, toLong_in (h trivial) (rintF_half x)], nearest_of_half (rintF_half x), rintF_tie⟩
  | llrint => exact ⟨rintF x, by rw [SOp.fwd, toLong_in (h trivial) (rintF_half x)], nearest_of_half (rintF_half x), rintF_tie⟩
  | lround => exact ⟨roundF x, by rw [SOp.fwd, toLong_in (h trivial) (roundF_half x)], nearest_of_half (roundF_half x), roundF_tie⟩
  | llround => exact ⟨roundF x, by rw [SOp.fwd, toLong_in (h trivial) (roundF_half x)], nearest_of_half (roundF_half x), roundF_tie⟩

theorem near_unique {x : ℝ} {n m : ℤ} (h : |x - n| < 1 / 2) (h' : |x - m| ≤ 1 / 2) : n = m := by
  have h3 : |(n : ℝ) - m| < 1 := by
    rw [show (n : ℝ) - m = (x - m) - (x - n) by ring]
    have := abs_sub (x - m) (x - n)
    linarith
  have h4 : |n - m| < 1 := by
    have : ((|n - m| : ℤ) : ℝ) < ((1 : ℤ) : ℝ) := by push_cast; exact h3
    exact_mod_cast this
  rw [abs_lt] at h4
  omega

theorem tie_of_half {x : ℝ} {n : ℤ} (h : |x - n| = 1 / 2) : Tie x := by
  rcases abs_cases (x - (n : ℝ)) with ⟨e, _⟩ | ⟨e, _⟩
  · exact ⟨n, by linarith⟩
  · exact ⟨n - 1, by push_cast; linarith⟩

/-- The specification leaves no choice. -/
theorem gives_unique {op : SOp} {x : ℝ} {n m : ℤ} (h : op.Gives x n) (h' : op.Gives x m) : n = m := by
  have hround : ∀ {n m : ℤ}, (Nearest x n ∧ (Tie x → |x| < |(n : ℝ)|)) → (Nearest x m ∧ (Tie x → |x| < |(m : ℝ)|)) → n = m := by
    rintro n m ⟨h1, h2⟩ ⟨h3, h4⟩
    have a := half_of_nearest h1
    have b := half_of_nearest h3
    rcases lt_or_eq_of_le a with a' | a'
    · exact near_unique a' b
    rcases lt_or_eq_of_le b with b' | b'
    · exact (near_unique b' a).symm
    have t := tie_of_half a'
    have h2 := h2 t
    have h4 := h4 t
    by_contra hne
    have key : ∀ p q : ℤ, p < q → |x - p| = 1 / 2 → |x - q| = 1 / 2 → |x| < |(p : ℝ)| → |x| < |(q : ℝ)| → False := by
      intro p q hpq hp hq h2 h4
      have hpq' : (p : ℝ) + 1 ≤ q := by exact_mod_cast hpq
      have hx1 : x = p + 1 / 2 := by
        rcases abs_cases (x - (p : ℝ)) with ⟨e, _⟩ | ⟨e, _⟩
        · linarith
        · rcases abs_cases (x - (q : ℝ)) with ⟨e', _⟩ | ⟨e', _⟩ <;> linarith
      have hx2 : x = q - 1 / 2 := by
        rcases abs_cases (x - (q : ℝ)) with ⟨e, _⟩ | ⟨e, _⟩ <;> linarith
      rcases le_or_gt 0 p with hp0 | hp0
      · have hp0' : (0 : ℝ) ≤ p := by exact_mod_cast hp0
        rw [abs_of_nonneg hp0', abs_of_nonneg (by linarith)] at h2
        linarith
      · have hp0' : (p : ℝ) ≤ -1 := by exact_mod_cast (show p ≤ -1 by omega)
        rw [abs_of_nonpos (by linarith : x ≤ 0), abs_of_nonpos (by linarith : (q : ℝ) ≤ 0)] at h4
        linarith
    rcases lt_or_gt_of_ne hne with hlt | hgt
    · exact key _ _ hlt a' b' h2 h4
    · exact key _ _ hgt b' a' h4 h2
  have hrint : ∀ {n m : ℤ}, (Nearest x n ∧ (Tie x → Even n)) → (Nearest x m ∧ (Tie x → Even m)) → n = m := by
    rintro n m ⟨h1, h2⟩ ⟨h3, h4⟩
    have a := half_of_nearest h1
    have b := half_of_nearest h3
    rcases lt_or_eq_of_le a with a' | a'
    · exact near_unique a' b
    rcases lt_or_eq_of_le b with b' | b'
    · exact (near_unique b' a).symm
    obtain ⟨k, hk⟩ := h2 (tie_of_half a')
    obtain ⟨l, hl⟩ := h4 (tie_of_half a')
    have h5 : |(n : ℝ) - m| ≤ 1 := by
      rw [show (n : ℝ) - m = (x - m) - (x - n) by ring]
      have := abs_sub (x - (m : ℝ)) (x - n)
      linarith
    have h6 : |n - m| ≤ 1 := by
      have : ((|n - m| : ℤ) : ℝ) ≤ ((1 : ℤ) : ℝ) := by push_cast; exact h5
      exact_mod_cast this
    rw [abs_le] at h6
    omega
  cases op with
  | ceil => exact le_antisymm (h.2 m h'.1) (h'.2 n h.1)
  | floor => exact le_antisymm (h'.2 n h.1) (h.2 m h'.1)
  | trunc =>
    have e := le_antisymm (h'.2.2 n h.1) (h.2.2 m h'.1)
    rcases abs_eq_abs.mp e with e | e
    · exact e
    · by_contra hne
      have hn0 : n ≠ 0 := fun e0 => hne (by omega)
      obtain ⟨a1, a2, _⟩ := h
      obtain ⟨_, b2, _⟩ := h'
      have hm : (m : ℝ) = -n := by rw [e]; push_cast; ring
      rw [hm] at b2
      have hz : x * n = 0 := by linarith
      rcases mul_eq_zero.mp hz with hx | hx
      · rw [hx, abs_zero] at a1
        have := abs_nonpos_iff.mp a1
        exact hn0 (by exact_mod_cast this)
      · exact hn0 (by exact_mod_cast hx)
  | round => exact hround h h'
  | lround => exact hround h h'
  | llround => exact hround h h'
  | rint => exact hrint h h'
  | nearbyint => exact hrint h h'
  | lrint => exact hrint h h'
  | llrint => exact hrint h h'

/-- C116: the rounding operators return at every index the integer that their name stands for, whatever the cache held (for the four that
go through a 64-bit integer: where that integer can hold it). -/
theorem step_forward (u : ℤ → ℤ) (op : SOp) (s : List Nat) (t cache : Ten ℝ) (a : List Nat → ℝ) (ht : t.Has s a)
    (hl : op.Long → ∀ is, ValidIdx s is → InLong (a is)) :
    ∃ (r : Ten ℝ) (v : List Nat → ℝ), stepForward u op cache t = ok r ∧ r.Has s v ∧
      ∀ is, ValidIdx s is → ∃ n : ℤ, v is = n ∧ op.Gives (a is) n := by
  obtain ⟨r, h1, h2⟩ := Ops.mapT_ok (op.fwd u) cache t ht
  exact ⟨r, _, h1, h2, fun is hv => fwd_gives u op (a is) (fun h => hl h is hv)⟩

/-- A tensor `[2.5, -2.5, 0.5, 3.7]`. -/
noncomputable def exT : Ten ℝ := ⟨[4], [2.5, -2.5, 0.5, 3.7]⟩

theorem exT_has : exT.Has [4] (fun is => [2.5, -2.5, 0.5, 3.7].getD (is.getD 0 0) 0) := by
  refine ⟨rfl, rfl, fun is hv => ?_⟩
  match is, hv with
  | [0], _ => rfl
  | [1], _ => rfl
  | [2], _ => rfl
  | [3], _ => rfl
  | [n + 4], h => exact absurd h.1 (by omega)

example : ∃ (r : Ten ℝ) (v : List Nat → ℝ), stepForward id .llround ⟨[7], [9]⟩ exT = ok r ∧ r.Has [4] v ∧ v [0] = 3 ∧ v [1] = -3 := by
  obtain ⟨r, v, h1, h2, h3⟩ := step_forward id .llround [4] exT ⟨[7], [9]⟩ _ exT_has (by
    intro _ is hv
    match is, hv with
    | [0], _ => norm_num [InLong, abs_lt]
    | [1], _ => norm_num [InLong, abs_lt]
    | [2], _ => norm_num [InLong, abs_lt]
    | [3], _ => norm_num [InLong, abs_lt]
    | [n + 4], h => exact absurd h.1 (by omega))
  refine ⟨r, v, h1, h2, ?_, ?_⟩
  · obtain ⟨n, e, g⟩ := h3 [0] ⟨by omega, trivial⟩
    have : n = 3 := gives_unique (op := .llround) g ⟨nearest_of_half (by norm_num [abs_le]), fun _ => by norm_num [abs_lt]⟩
    rw [e, this]; norm_num
  · obtain ⟨n, e, g⟩ := h3 [1] ⟨by omega, trivial⟩
    have : n = -3 := gives_unique (op := .llround) g ⟨nearest_of_half (by norm_num [abs_le]), fun _ => by norm_num [abs_lt]⟩
    rw [e, this]; norm_num

/-! ### The gradient -/

theorem hasDerivAt_locally {f : ℝ → ℝ} {x c : ℝ} {s : Set ℝ} (hs : IsOpen s) (hx : x ∈ s) (h : ∀ y ∈ s, f y = c) : HasDerivAt f 0 x :=
  Ops.hasDerivAt_congr (hasDerivAt_const x c) hs hx h

theorem near_const {f : ℝ → ℤ} (hf : ∀ x, |x - f x| ≤ 1 / 2) {x : ℝ} (hx : ¬Tie x) :
    ∃ (s : Set ℝ) (n : ℤ), IsOpen s ∧ x ∈ s ∧ ∀ y ∈ s, f y = n := by
  have hlt : |x - f x| < 1 / 2 := lt_of_le_of_ne (hf x) (fun e => hx (tie_of_half e))
  rw [abs_lt] at hlt
  refine ⟨Set.Ioo (f x - 1 / 2) (f x + 1 / 2), f x, isOpen_Ioo, ⟨by linarith, by linarith⟩, fun y hy => ?_⟩
  refine (near_unique ?_ (hf y)).symm
  rw [abs_lt]
  exact ⟨by linarith [hy.1], by linarith [hy.2]⟩

/-- Away from its jumps every rounding operator has the derivative zero. -/
theorem hasDerivAt_fwd (u : ℤ → ℤ) (op : SOp) {x : ℝ} (h : ¬op.Jump x) : HasDerivAt (op.fwd u) 0 x := by
  have hfl : (∀ n : ℤ, x ≠ n) → (⌊x⌋ : ℝ) < x := fun h => lt_of_le_of_ne (Int.floor_le x) (h _).symm
  have hce : (∀ n : ℤ, x ≠ n) → x < ⌈x⌉ := fun h => lt_of_le_of_ne (Int.le_ceil x) (h _)
  have hnear : ∀ {f : ℝ → ℤ} (g : ℤ → ℤ), (∀ x, |x - f x| ≤ 1 / 2) → ¬Tie x → HasDerivAt (fun y => ((g (f y) : ℤ) : ℝ)) 0 x := by
    intro f g hf ht
    obtain ⟨s, n, h1, h2, h3⟩ := near_const hf ht
    exact hasDerivAt_locally (c := g n) h1 h2 (fun y hy => by rw [h3 y hy])
  cases op with
  | ceil =>
    have hn : ∀ n : ℤ, x ≠ n := fun n e => h ⟨n, e⟩
    refine hasDerivAt_locally (c := ⌈x⌉) (s := Set.Ioo (⌈x⌉ - 1) ⌈x⌉) isOpen_Ioo ⟨by linarith [Int.ceil_lt_add_one x], hce hn⟩ (fun y hy => ?_)
    have : ⌈y⌉ = ⌈x⌉ := Int.ceil_eq_iff.mpr ⟨hy.1, hy.2.le⟩
    show ((⌈y⌉ : ℤ) : ℝ) = _
    rw [this]
  | floor =>
    have hn : ∀ n : ℤ, x ≠ n := fun n e => h ⟨n, e⟩
    refine hasDerivAt_locally (c := ⌊x⌋) (s := Set.Ioo ⌊x⌋ (⌊x⌋ + 1)) isOpen_Ioo ⟨hfl hn, Int.lt_floor_add_one x⟩ (fun y hy => ?_)
    have : ⌊y⌋ = ⌊x⌋ := Int.floor_eq_iff.mpr ⟨hy.1.le, hy.2⟩
    show ((⌊y⌋ : ℤ) : ℝ) = _
    rw [this]
  | trunc =>
    by_cases h1 : x ∈ Set.Ioo (-1 : ℝ) 1
    · refine hasDerivAt_locally (c := 0) isOpen_Ioo h1 (fun y hy => ?_)
      show ((truncF y : ℤ) : ℝ) = 0
      unfold truncF
      split
      · next hy0 =>
        have : ⌊y⌋ = 0 := Int.floor_eq_iff.mpr ⟨by simpa using hy0, by simpa using hy.2⟩
        rw [this, Int.cast_zero]
      · next hy0 =>
        have : ⌈y⌉ = 0 := Int.ceil_eq_iff.mpr ⟨by simpa using hy.1, by simpa using (not_le.mp hy0).le⟩
        rw [this, Int.cast_zero]
    · have hn : ∀ n : ℤ, x ≠ n := by
        intro n e
        refine h ⟨n, fun e0 => h1 ?_, e⟩
        rw [e, e0]; norm_num
      rcases lt_or_ge x 1 with hx | hx
      · have hx' : x ≤ -1 := by
          by_contra hc
          exact h1 ⟨not_le.mp hc, hx⟩
        have hc : (⌈x⌉ : ℝ) ≤ -1 := by exact_mod_cast (Int.ceil_le.mpr (by simpa using hx') : ⌈x⌉ ≤ -1)
        refine hasDerivAt_locally (c := ⌈x⌉) (s := Set.Ioo (⌈x⌉ - 1) ⌈x⌉) isOpen_Ioo ⟨by linarith [Int.ceil_lt_add_one x], hce hn⟩ (fun y hy => ?_)
        have e : ⌈y⌉ = ⌈x⌉ := Int.ceil_eq_iff.mpr ⟨hy.1, hy.2.le⟩
        show ((truncF y : ℤ) : ℝ) = _
        rw [truncF, if_neg (by have := hy.2; linarith), e]
      · have hc : (1 : ℝ) ≤ ⌊x⌋ := by exact_mod_cast (Int.le_floor.mpr (by simpa using hx) : (1 : ℤ) ≤ ⌊x⌋)
        refine hasDerivAt_locally (c := ⌊x⌋) (s := Set.Ioo ⌊x⌋ (⌊x⌋ + 1)) isOpen_Ioo ⟨hfl hn, Int.lt_floor_add_one x⟩ (fun y hy => ?_)
        have e : ⌊y⌋ = ⌊x⌋ := Int.floor_eq_iff.mpr ⟨hy.1.le, hy.2⟩
        show ((truncF y : ℤ) : ℝ) = _
        rw [truncF, if_pos (by have := hy.1; linarith), e]
  | round => exact hnear id roundF_half h
  | rint => exact hnear id rintF_half h
  | nearbyint => exact hnear id rintF_half h
  | lrint => exact hnear (toLong u) rintF_half h
  | llrint => exact hnear (toLong u) rintF_half h
  | lround => exact hnear (toLong u) roundF_half h
  | llround => exact hnear (toLong u) roundF_half h

/-- Specification: `w` is the gradient `g` sent back through the element-wise function `f` at the inputs `a`. -/
def SentBack (f : ℝ → ℝ) (s : List Nat) (a g w : List Nat → ℝ) : Prop :=
  ∀ is, ValidIdx s is → ∀ D, HasDerivAt f D (a is) → w is = g is * D

/-- C116, the full statement would be: for inputs off the jumps the backward action returns a tensor `d` with
`SentBack (op.fwd u) s a g`.  What holds: backward returns a tensor of the input's shape, which is the gradient sent back through the
identity instead. -/
theorem step_backward_partial (op : SOp) (s : List Nat) (t o grad : Ten ℝ) (a g : List Nat → ℝ) (hg : grad.Has s g) :
    ∃ d w, stepBackward op t o grad = ok d ∧ d.Has s w ∧ SentBack id s a g w := by
  refine ⟨grad, g, rfl, hg, fun is _ D hD => ?_⟩
  rw [hD.unique (hasDerivAt_id _), mul_one]

/-- C116 violated: off the jumps, the backward action of every rounding operator is wrong for every gradient that is not zero
everywhere. -/
theorem step_backward_violated (u : ℤ → ℤ) (op : SOp) (s : List Nat) (t o grad : Ten ℝ) (a g : List Nat → ℝ) (hg : grad.Has s g)
    (ha : ∀ is, ValidIdx s is → ¬op.Jump (a is)) (hne : ∃ is, ValidIdx s is ∧ g is ≠ 0) :
    ¬∃ d w, stepBackward op t o grad = ok d ∧ d.Has s w ∧ SentBack (op.fwd u) s a g w := by
  rintro ⟨d, w, h1, h2, h3⟩
  obtain ⟨is, hv, h0⟩ := hne
  cases h1
  have e := h3 is hv 0 (hasDerivAt_fwd u op (ha is hv))
  have e2 : w is = g is := Option.some.inj ((h2.2.2 is hv).symm.trans (hg.2.2 is hv))
  rw [e2, mul_zero] at e
  exact h0 e

example : ¬∃ d w, stepBackward .floor exT exT ⟨[4], [0, 0, 1, 0]⟩ = ok d ∧ d.Has [4] w ∧
    SentBack (SOp.fwd id .floor) [4] (fun is => [2.5, -2.5, 0.5, 3.7].getD (is.getD 0 0) 0) (fun is => [0, 0, 1, 0].getD (is.getD 0 0) 0) w := by
  have hj : ∀ (y : ℝ) (k : ℤ), (k : ℝ) < y → y < k + 1 → ¬SOp.Jump .floor y := by
    rintro y k h1 h2 ⟨n, rfl⟩
    have a : k < n := by exact_mod_cast h1
    have b : n < k + 1 := by exact_mod_cast h2
    omega
  refine step_backward_violated id .floor [4] exT exT _ _ _ ⟨rfl, rfl, fun is hv => ?_⟩ (fun is hv => ?_) ⟨[2], ⟨by omega, trivial⟩, ?_⟩
  · match is, hv with
    | [0], _ => rfl
    | [1], _ => rfl
    | [2], _ => rfl
    | [3], _ => rfl
    | [n + 4], h => exact absurd h.1 (by omega)
  · match is, hv with
    | [0], _ => exact hj _ 2 (by norm_num) (by norm_num)
    | [1], _ => exact hj _ (-3) (by norm_num) (by norm_num)
    | [2], _ => exact hj _ 0 (by norm_num) (by norm_num)
    | [3], _ => exact hj _ 3 (by norm_num) (by norm_num)
    | [n + 4], h => exact absurd h.1 (by omega)
  · norm_num

theorem zeros_has (s : List Nat) : (⟨s, List.replicate (size s) 0⟩ : Ten ℝ).Has s (fun _ => 0) :=
  ⟨rfl, by simp, fun is hv => by rw [List.getElem?_replicate, if_pos (flat_lt hv)]⟩

/-- C116: `sign` returns 1, 0 or -1 by the sign of the element, and sends the gradient back right wherever there is a derivative. -/
theorem sign_gradient (s : List Nat) (t o grad cache bcache : Ten ℝ) (a g : List Nat → ℝ) (ht : t.Has s a) :
    ∃ (r d : Ten ℝ) (v w : List Nat → ℝ), signForward cache t = ok r ∧ r.Has s v ∧ signBackward bcache t o grad = ok d ∧ d.Has s w ∧
      (∀ is, ValidIdx s is → (0 < a is → v is = 1) ∧ (a is = 0 → v is = 0) ∧ (a is < 0 → v is = -1)) ∧
      ((∀ is, ValidIdx s is → a is ≠ 0) → SentBack signF s a g w) := by
  obtain ⟨r, h1, h2⟩ := Ops.mapT_ok signF cache t ht
  refine ⟨r, ⟨s, List.replicate (size s) 0⟩, _, fun _ => 0, h1, h2, ?_, zeros_has s, fun is _ => ⟨fun h => ?_, fun h => ?_, fun h => ?_⟩,
    fun h is hv D hD => ?_⟩
  · unfold signBackward
    dsimp only
    rw [ht.1, Pool.fill0, bind_ok]; rfl
  · simp [signF, bit, h, h.le]
  · simp [signF, bit, h]
  · simp [signF, bit, h, h.le]
  · have : HasDerivAt signF 0 (a is) := by
      rcases lt_or_gt_of_ne (h is hv) with hx | hx
      · exact hasDerivAt_locally (c := -1) isOpen_Iio hx (fun y hy => by
          have hy' : y < 0 := hy
          simp [signF, bit, hy', hy'.le])
      · exact hasDerivAt_locally (c := 1) isOpen_Ioi hx (fun y hy => by
          have hy' : 0 < y := hy
          simp [signF, bit, hy', hy'.le])
    rw [hD.unique this, mul_zero]

example : ∃ (r : Ten ℝ) (v : List Nat → ℝ), signForward ⟨[7], [9]⟩ exT = ok r ∧ r.Has [4] v ∧ v [1] = -1 ∧ v [2] = 1 := by
  obtain ⟨r, d, v, w, h1, h2, h3, h4, h5, _⟩ := sign_gradient [4] exT exT exT ⟨[7], [9]⟩ ⟨[], []⟩ _ (fun _ => 0) exT_has
  exact ⟨r, v, h1, h2, (h5 [1] ⟨by omega, trivial⟩).2.2 (by norm_num), (h5 [2] ⟨by omega, trivial⟩).1 (by norm_num)⟩

/-- C116: `ones_like` and `zeros_like` return their constants in the input's shape, and the gradient of a constant. -/
theorem const_gradient (s : List Nat) (t o grad : Ten ℝ) (a g : List Nat → ℝ) (ht : t.Has s a) (hg : grad.Has s g) :
    ∃ (r z d : Ten ℝ) (w : List Nat → ℝ), onesForward t = ok r ∧ r.Has s (fun _ => 1) ∧ zerosForward t = ok z ∧ z.Has s (fun _ => 0) ∧
      constBackward t o grad = ok d ∧ d.Has s w ∧ SentBack (fun _ => 1) s a g w ∧ SentBack (fun _ => 0) s a g w := by
  refine ⟨⟨s, List.replicate (size s) 1⟩, ⟨s, List.replicate (size s) 0⟩, ⟨s, List.replicate (size s) 0⟩, fun _ => 0, ?_,
    ⟨rfl, by simp, fun is hv => by rw [List.getElem?_replicate, if_pos (flat_lt hv)]⟩, ?_, zeros_has s, ?_, zeros_has s,
    fun is _ D hD => ?_, fun is _ D hD => ?_⟩
  · unfold onesForward
    rw [ht.1, Gemm.fillN_ok (by simp), bind_ok]; rfl
  · unfold zerosForward; rw [ht.1]
  · unfold constBackward; rw [hg.1]
  · rw [hD.unique (hasDerivAt_const _ _), mul_zero]
  · rw [hD.unique (hasDerivAt_const _ _), mul_zero]

example : ∃ r, onesForward exT = ok r ∧ r.Has [4] (fun _ => 1) := by
  obtain ⟨r, _, _, _, h1, h2, _⟩ := const_gradient [4] exT exT exT _ _ exT_has exT_has
  exact ⟨r, h1, h2⟩

/-- C116: `equal` is one where the operands differ by at most the threshold and zero elsewhere, and sends back the gradient of that
function with respect to either operand wherever there is a derivative. -/
theorem equal_gradient (th : ℝ) (s : List Nat) (l r o grad cache bcache : Ten ℝ) (a b g : List Nat → ℝ) (hl : l.Has s a) (hr : r.Has s b) :
    ∃ (e d d' : Ten ℝ) (v w w' : List Nat → ℝ), equalForward th cache l r = ok e ∧ e.Has s v ∧
      equalBackward bcache l r o grad = ok (d, d') ∧ d.Has s w ∧ d'.Has s w' ∧
      (∀ is, ValidIdx s is → (|a is - b is| ≤ th → v is = 1) ∧ (th < |a is - b is| → v is = 0)) ∧
      ((∀ is, ValidIdx s is → |a is - b is| ≠ th) →
        (∀ is, ValidIdx s is → ∀ D, HasDerivAt (fun x => equalF th x (b is)) D (a is) → w is = g is * D) ∧
        (∀ is, ValidIdx s is → ∀ D, HasDerivAt (fun y => equalF th (a is) y) D (b is) → w' is = g is * D)) := by
  obtain ⟨d, h1, h2, h3⟩ := fill1 (n := size s) (out := (resizeV cache s).data)
    (body := fun i o => do
      let x ← rd l.data i
      let y ← rd r.data i
      wr o i (equalF th x y))
    (g := fun i => equalF th (a (unflat s i)) (b (unflat s i)))
    (fun i o hi _ => by rw [rd_ok (hl.2.pos hi), bind_ok, rd_ok (hr.2.pos hi), bind_ok]) (by rw [resizeV_length])
  have hd : ∀ {h : ℝ → ℝ} {x : ℝ} {f : ℝ → ℝ} (_ : Continuous h) (_ : |h x| ≠ th) (_ : ∀ y, f y = if |h y| > th then 0 else 1),
      HasDerivAt f 0 x := by
    intro h x f hc hne hf
    rcases lt_or_gt_of_ne hne with hx | hx
    · exact hasDerivAt_locally (c := 1) (isOpen_lt (hc.abs) continuous_const) hx (fun y hy => by
        rw [hf, if_neg (not_lt.mpr (le_of_lt hy))])
    · exact hasDerivAt_locally (c := 0) (isOpen_lt continuous_const (hc.abs)) hx (fun y hy => by rw [hf, if_pos (show th < |h y| from hy)])
  refine ⟨⟨s, d⟩, ⟨s, List.replicate (size s) 0⟩, ⟨s, List.replicate (size s) 0⟩, fun is => equalF th (a is) (b is), fun _ => 0, fun _ => 0,
    ?_, ⟨rfl, isT_of_pos h2 h3 (fun is hv => by rw [unflat_flat hv])⟩, ?_, zeros_has s, zeros_has s,
    fun is _ => ⟨fun h => if_neg (not_lt.mpr h), fun h => if_pos h⟩, fun hne => ⟨fun is hv D hD => ?_, fun is hv D hD => ?_⟩⟩
  · unfold equalForward equalForwardOf
    unfold equalF at h1
    rw [assert_true (by rw [hl.1, hr.1]), bind_ok, hl.1, hl.2.1, h1]; rfl
  · unfold equalBackward
    dsimp only
    rw [hl.1, Pool.fill0, bind_ok]; rfl
  · rw [hD.unique (hd (h := fun x => x - b is) (by fun_prop) (hne is hv) (fun y => rfl)), mul_zero]
  · rw [hD.unique (hd (h := fun y => a is - y) (by fun_prop) (hne is hv) (fun y => rfl)), mul_zero]

/-- C116: on whole numbers, with a threshold below one, `equal` is equality; operands of different shapes abort. -/
theorem equal_integers (th : ℝ) (h0 : 0 ≤ th) (h1 : th < 1) (s : List Nat) (l r cache : Ten ℝ) (a b : List Nat → ℤ)
    (hl : l.Has s (fun is => a is)) (hr : r.Has s (fun is => b is)) :
    ∃ (e : Ten ℝ) (v : List Nat → ℝ), equalForward th cache l r = ok e ∧ e.Has s v ∧
      ∀ is, ValidIdx s is → v is = if a is = b is then 1 else 0 := by
  obtain ⟨e, d, d', v, w, w', q1, q2, _, _, _, q6, _⟩ := equal_gradient th s l r ⟨[], []⟩ ⟨[], []⟩ cache ⟨[], []⟩ _ _ (fun _ => 0) hl hr
  refine ⟨e, v, q1, q2, fun is hv => ?_⟩
  split
  · next h => exact (q6 is hv).1 (by rw [h, sub_self, abs_zero]; exact h0)
  · next h =>
    refine (q6 is hv).2 (lt_of_lt_of_le h1 ?_)
    have : (1 : ℤ) ≤ |a is - b is| := Int.one_le_abs (by omega)
    have h2 : ((1 : ℤ) : ℝ) ≤ ((|a is - b is| : ℤ) : ℝ) := by exact_mod_cast this
    simpa using h2

theorem equal_mismatch (th : ℝ) (cache l r : Ten ℝ) (h : l.shape ≠ r.shape) : equalForward th cache l r = abort := by
  unfold equalForward equalForwardOf; rw [assert_false h]; rfl

example : ∃ (e : Ten ℝ) (v : List Nat → ℝ), equalForward (1 / 2) ⟨[], []⟩ ⟨[2], [3, 5]⟩ ⟨[2], [3, 4]⟩ = ok e ∧ e.Has [2] v ∧
    v [0] = 1 ∧ v [1] = 0 := by
  have hh : ∀ x y : ℤ, (⟨[2], [(x : ℝ), (y : ℝ)]⟩ : Ten ℝ).Has [2] (fun is => (([x, y].getD (is.getD 0 0) 0 : ℤ) : ℝ)) := by
    intro x y
    refine ⟨rfl, rfl, fun is hv => ?_⟩
    match is, hv with
    | [0], _ => rfl
    | [1], _ => rfl
    | [n + 2], h => exact absurd h.1 (by omega)
  obtain ⟨e, v, h1, h2, h3⟩ := equal_integers (1 / 2) (by norm_num) (by norm_num) [2] _ _ ⟨[], []⟩ _ _ (hh 3 5) (hh 3 4)
  refine ⟨e, v, by simpa using h1, h2, ?_, ?_⟩
  · rw [h3 [0] ⟨by omega, trivial⟩]; simp
  · rw [h3 [1] ⟨by omega, trivial⟩]; simp

end Verif.Step
