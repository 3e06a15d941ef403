import Verif.Bar.Model
/-!
# The progress bar (C144)
-/
namespace Verif.Bar
open Verif Res Fp Nan Finite

/-! ### the specification -/

/-- One filled cell: a green block on the default background. -/
def cell : Text := [27, 91, 48, 59, 52, 57, 59, 51, 50, 109, 226, 150, 136, 27, 91, 48, 109]

/-- The text goes to the beginning of the line and shows a bar of `c` cells, `k` of them filled and the others blank on light green. -/
def Shows (c k : Nat) (text : Text) : Prop :=
  k ≤ c ∧ ∃ pre post, text = 13 :: (pre ++ [91] ++ (List.replicate k cell).flatten ++ [27, 91, 48, 59, 49, 48, 50, 59, 51, 57, 109] ++ List.replicate (c - k) 32 ++ [27, 91, 48, 109] ++ [93] ++ post)

/-! ### colours -/

theorem lookup_known (m : List (String × String)) (d name : String) (h : (m.lookup d).isSome) : ∃ v, atKey m (known m d name) = ok v := by
  unfold atKey known
  cases e : m.lookup name with
  | none =>
    obtain ⟨v, hv⟩ := Option.isSome_iff_exists.mp h
    exact ⟨lit v, by simp [hv]⟩
  | some v => exact ⟨lit v, by simp [e]⟩

/-- C145: any text in any colours and formats, known or not: the text is kept, between two escape sequences that do not depend on it. -/
theorem rize_keeps (fg bg set reset : String) : ∃ a b, ∀ source, rize source fg bg set reset = ok (27 :: 91 :: a ++ 109 :: source ++ 27 :: 91 :: b ++ [109]) := by
  obtain ⟨s, hs⟩ := lookup_known formats "Default" set (by decide)
  obtain ⟨b, hb⟩ := lookup_known backgrounds "Default" bg (by decide)
  obtain ⟨f, hf⟩ := lookup_known foregrounds "Default" fg (by decide)
  obtain ⟨r, hr⟩ := lookup_known resets "All" reset (by decide)
  refine ⟨s ++ 59 :: b ++ 59 :: f, r, fun source => ?_⟩
  unfold rize
  simp only [hs, hb, hf, hr, bind_ok, pure_eq]
  congr 1
  simp [lit]

theorem rize_of {source s b f r : Text} {fg bg : String} (hs : atKey formats (known formats "Default" "Default") = ok s) (hb : atKey backgrounds (known backgrounds "Default" bg) = ok b)
    (hf : atKey foregrounds (known foregrounds "Default" fg) = ok f) (hr : atKey resets (known resets "All" "All") = ok r) :
    rize source fg bg = ok ([27, 91] ++ s ++ [59] ++ b ++ [59] ++ f ++ [109] ++ source ++ [27, 91] ++ r ++ [109]) := by
  unfold rize
  simp only [hs, hb, hf, hr, bind_ok, pure_eq]
  congr 1
  simp [lit]

theorem rize_green : rize block "Green" = ok cell := by
  rw [rize_of (s := [48]) (b := [52, 57]) (f := [51, 50]) (r := [48]) rfl rfl rfl rfl]
  rfl

theorem rize_blank (sp : Text) : rize sp "Default" "Light Green" = ok ([27, 91, 48, 59, 49, 48, 50, 59, 51, 57, 109] ++ sp ++ [27, 91, 48, 109]) := by
  rw [rize_of (s := [48]) (b := [49, 48, 50]) (f := [51, 57]) (r := [48]) rfl rfl rfl rfl]
  simp

/-! ### the cells -/

theorem fill_ok (k : Nat) (hk : k < 2 ^ 31) : ∀ (m idx : Nat) (ss : Text), idx + m = k → fillFrom k idx ss = ok (ss ++ (List.replicate m cell).flatten) := by
  intro m
  induction m with
  | zero =>
    intro idx ss h
    rw [fillFrom, if_pos (by exact_mod_cast h)]
    simp
  | succ m ih =>
    intro idx ss h
    rw [fillFrom, if_neg (by intro e; omega)]
    rw [rize_green, bind_ok, dif_pos (by omega), ih (idx + 1) _ (by omega), List.replicate_succ, List.flatten_cons, List.append_assoc]

theorem fill_neg (num : ℤ) (hn : num < 0) : ∀ (m idx : Nat) (ss : Text), idx + m = 2 ^ 31 → fillFrom num idx ss = ub := by
  intro m
  induction m with
  | zero =>
    intro idx ss h
    rw [fillFrom, if_neg (by omega), rize_green, bind_ok, dif_neg (by omega)]
  | succ m ih =>
    intro idx ss h
    rw [fillFrom, if_neg (by omega), rize_green, bind_ok]
    split
    · exact ih (idx + 1) _ (by omega)
    · rfl

theorem fixed_size {c : ℤ} (hc : |c| < 2 ^ 16) : Fixed float64 c := fixed_int (lt_trans hc (by show (2 : ℤ) ^ 16 < 2 ^ 53; norm_num))

theorem toNum_size {c : ℤ} (hc : |c| < 2 ^ 16) : ∃ g, toNum float64 (c : ℚ) = .num c g := by
  refine ⟨(fixed_size hc).1 ▸ rnd_grid float64 c, toNum_fixed (fixed_size hc)⟩

/-- The product of a share and a number of cells. -/
theorem mul_size {c : ℤ} (hc : |c| < 2 ^ 16) {q : ℚ} {g : Grid float64 q} (h0 : 0 ≤ q) (h1 : q ≤ 1) :
    ∃ g', (Num.num q g : Dbl) * toNum float64 c = .num (rnd float64 (q * c)) g' := by
  obtain ⟨g', e⟩ := toNum_size hc
  rw [e]
  refine ⟨rnd_grid _ _, ?_⟩
  show toNum float64 (q * c) = _
  have := (fixed_size hc).2
  rw [toNum_of (rnd_le_largest float64 ?_)]
  rw [abs_mul]
  calc |q| * |(c : ℚ)| ≤ 1 * |(c : ℚ)| := by apply mul_le_mul_of_nonneg_right _ (abs_nonneg _); rw [abs_of_nonneg h0]; exact h1
    _ ≤ largest float64 := by rw [one_mul]; exact this

theorem rnd_size_bounds {c : Nat} (hc : c < 2 ^ 16) {q : ℚ} (h0 : 0 ≤ q) (h1 : q ≤ 1) : 0 ≤ rnd float64 (q * c) ∧ rnd float64 (q * c) ≤ c := by
  have hf : Fixed float64 ((c : ℤ) : ℚ) := fixed_size (by rw [abs_of_nonneg (by positivity)]; exact_mod_cast hc)
  have hc0 : (0 : ℚ) ≤ c := by positivity
  constructor
  · have := rnd_mono (f := float64) (mul_nonneg h0 hc0)
    rwa [rnd_zero] at this
  · have := rnd_mono (f := float64) (show q * c ≤ c by nlinarith)
    have h2 := hf.1
    push_cast at h2
    rwa [h2] at this

/-- The number of filled cells for a share `q`. -/
def filledOf (c : Nat) (q : ℚ) : Nat := ⌊rnd float64 (q * c)⌋.toNat

theorem filled_le {c : Nat} (hc : c < 2 ^ 16) {q : ℚ} (h0 : 0 ≤ q) (h1 : q ≤ 1) : (⌊rnd float64 (q * c)⌋ : ℤ) = filledOf c q ∧ filledOf c q ≤ c := by
  obtain ⟨a, b⟩ := rnd_size_bounds hc h0 h1
  have h2 : 0 ≤ ⌊rnd float64 (q * c)⌋ := Int.floor_nonneg.mpr a
  have h3 : ⌊rnd float64 (q * c)⌋ ≤ (c : ℤ) := by
    have := Int.floor_mono b
    simpa using this
  unfold filledOf
  omega

theorem printBar_ok {c : Nat} (hc : c < 2 ^ 16) {q : ℚ} {g : Grid float64 q} (h0 : 0 ≤ q) (h1 : q ≤ 1) :
    printBar c (.num q g) = ok ([91] ++ (List.replicate (filledOf c q) cell).flatten ++ ([27, 91, 48, 59, 49, 48, 50, 59, 51, 57, 109] ++ List.replicate (c - filledOf c q) 32 ++ [27, 91, 48, 109]) ++ [93]) := by
  obtain ⟨g', e⟩ := mul_size (c := (c : ℤ)) (by rw [abs_of_nonneg (by positivity)]; exact_mod_cast hc) (g := g) h0 h1
  obtain ⟨k1, k2⟩ := filled_le hc h0 h1
  unfold printBar
  rw [e]
  have hfl : floorIndex (.num (rnd float64 (q * ((c : ℤ) : ℚ))) g') = ok (filledOf c q : ℤ) := by
    unfold floorIndex
    dsimp only
    have : (⌊rnd float64 (q * ((c : ℤ) : ℚ))⌋ : ℤ) = filledOf c q := by push_cast; exact k1
    rw [this, require_true (by constructor <;> omega)]
    rfl
  rw [hfl, bind_ok, fill_ok (filledOf c q) (by omega) (filledOf c q) 0 _ (by omega), bind_ok]
  unfold blanks
  rw [if_neg (by omega), bind_ok, rize_blank, bind_ok]
  have : ((c : ℤ) - filledOf c q).toNat = c - filledOf c q := by omega
  rw [this]
  rfl

theorem printBar_neg {c : ℤ} (hc : |c| < 2 ^ 16) (hn : c < 0) {q : ℚ} {g : Grid float64 q} (h0 : 1 / 2 ^ 63 ≤ q) (h1 : q ≤ 1) : printBar c (.num q g) = ub := by
  have hq0 : (0 : ℚ) ≤ q := le_trans (by positivity) h0
  obtain ⟨g', e⟩ := mul_size hc (g := g) hq0 h1
  unfold printBar
  rw [e]
  have hlt : rnd float64 (q * c) < 0 := by
    have hrep : Representable float64 (-(1 / 2 ^ 63) : ℚ) := by
      refine ⟨-1, -63, ?_, ?_, ?_⟩
      · show |(-1 : ℤ)| < 2 ^ 53
        norm_num
      · show (-1074 : ℤ) ≤ -63
        norm_num
      · rw [zpow_neg]; norm_num
    have hc1 : (c : ℚ) ≤ -1 := by exact_mod_cast (show c ≤ -1 by omega)
    have := rnd_mono (f := float64) (show q * c ≤ -(1 / 2 ^ 63) by nlinarith)
    rw [rnd_rep hrep] at this
    exact lt_of_le_of_lt this (by norm_num)
  have hfl : ⌊rnd float64 (q * c)⌋ < 0 := by
    rw [Int.floor_lt]
    exact_mod_cast hlt
  unfold floorIndex
  dsimp only
  by_cases h : (-2 ^ 63 ≤ ⌊rnd float64 (q * c)⌋ ∧ ⌊rnd float64 (q * c)⌋ < 2 ^ 63)
  · rw [require_true h]
    simp only [bind_ok, pure_eq]
    rw [fill_neg _ hfl (2 ^ 31) 0 _ (by norm_num)]
    rfl
  · rw [require_false h]
    rfl

/-! ### the share that is done -/

theorem clamp_neg {x : ℚ} (h : rnd float64 x < 0) : ∃ g, clamp (toNum float64 x) 0 1 = .num 0 g := by
  obtain ⟨o, go, eo, _, ho1, ho2⟩ := one_in (f := float64)
  have ho : o = 1 := le_antisymm ho2 ho1
  subst ho
  refine ⟨⟨0, by simp⟩, ?_⟩
  have hz : (0 : Dbl) = .num 0 ⟨0, by simp⟩ := rfl
  have hlt : toNum float64 x < 0 := by
    rw [hz]
    unfold toNum
    split
    · exact decide_eq_true h
    · have hx : x < 0 := by
        by_contra hc
        have := rnd_mono (f := float64) (not_lt.mp hc)
        rw [rnd_zero] at this
        linarith
      show decide (x < 0) = true
      exact decide_eq_true hx
  unfold clamp
  dsimp only
  rw [if_pos hlt, eo, hz, if_neg]
  intro hc
  have : (1 : ℚ) < 0 := of_decide_eq_true hc
  linarith

theorem clamp_pos {x : ℚ} (h : 0 ≤ x) : ∃ g, clamp (toNum float64 x) 0 1 = .num (min 1 (rnd float64 x)) g := by
  obtain ⟨o, go, eo, _, ho1, ho2⟩ := one_in (f := float64)
  have ho : o = 1 := le_antisymm ho2 ho1
  subst ho
  have hz : (0 : Dbl) = .num 0 ⟨0, by simp⟩ := rfl
  have hr : 0 ≤ rnd float64 x := by
    have := rnd_mono (f := float64) h
    rwa [rnd_zero] at this
  unfold clamp
  dsimp only
  rw [eo, hz]
  unfold toNum
  split
  · rw [if_neg (show ¬ ((Num.num (rnd float64 x) (rnd_grid float64 x) : Dbl) < .num 0 ⟨0, by simp⟩) from fun hc => by
      have : rnd float64 x < 0 := of_decide_eq_true hc
      linarith)]
    by_cases h1 : 1 < rnd float64 x
    · rw [if_pos (show (Num.num 1 go : Dbl) < .num (rnd float64 x) (rnd_grid float64 x) from decide_eq_true h1)]
      rw [min_eq_left h1.le]
      exact ⟨go, rfl⟩
    · rw [if_neg (show ¬ ((Num.num 1 go : Dbl) < .num (rnd float64 x) (rnd_grid float64 x)) from fun hc => h1 (of_decide_eq_true hc))]
      rw [min_eq_right (not_lt.mp h1)]
      exact ⟨rnd_grid float64 x, rfl⟩
  · rename_i hl
    have hd : decide (x < 0) = false := decide_eq_false (not_lt.mpr h)
    rw [hd]
    rw [if_neg (show ¬ ((Num.inf false : Dbl) < .num 0 ⟨0, by simp⟩) from fun hc => by cases hc)]
    rw [if_pos (show (Num.num 1 go : Dbl) < .inf false from rfl)]
    have : 1 ≤ rnd float64 x := by
      rw [abs_of_nonneg hr, not_le] at hl
      have := (fixed_one (f := float64)).2
      rw [abs_of_pos (by norm_num : (0 : ℚ) < 1)] at this
      linarith
    rw [min_eq_left this]
    exact ⟨go, rfl⟩

theorem big_largest : (2 : ℚ) ^ 65 ≤ largest float64 := by
  show (2 : ℚ) ^ 65 ≤ (2 ^ 53 - 1) * (2 : ℚ) ^ (971 : ℤ)
  have : (2 : ℚ) ^ (13 : ℕ) ≤ (2 : ℚ) ^ (971 : ℤ) := by
    rw [← zpow_natCast]
    exact zpow_le_zpow_right₀ (by norm_num) (by norm_num)
  calc (2 : ℚ) ^ 65 ≤ (2 ^ 53 - 1) * 2 ^ 13 := by norm_num
    _ ≤ _ := by apply mul_le_mul_of_nonneg_left this; norm_num

theorem toNum_count {k : ℤ} (hk : |k| ≤ 2 ^ 65) : toNum float64 (k : ℚ) = .num (rnd float64 k) (rnd_grid float64 k) := by
  have h : |(k : ℚ)| ≤ 2 ^ 65 := by exact_mod_cast hk
  exact toNum_of (rnd_le_largest float64 (h.trans big_largest))

/-- The least denominator: `1e-9`, rounded. -/
theorem tiny_in : ∃ q g, (toNum float64 ((0 : ℤ) : ℚ) + toNum float64 (1 / 10 ^ 9) : Dbl) = .num q g ∧ 0 < q ∧ q ≤ 1 := by
  have hrep : Representable float64 (1 / 2 ^ 30 : ℚ) := by
    refine ⟨1, -30, ?_, ?_, ?_⟩
    · show |(1 : ℤ)| < 2 ^ 53
      norm_num
    · show (-1074 : ℤ) ≤ -30
      norm_num
    · rw [zpow_neg]; norm_num
  have hf : Fixed float64 (1 / 2 ^ 30 : ℚ) := ⟨rnd_rep hrep, by
    rw [abs_of_pos (by norm_num)]
    exact le_trans (by norm_num) big_largest⟩
  have h1 : In (1 / 2 ^ 30) 1 (toNum float64 (1 / 10 ^ 9)) := toNum_in hf fixed_one (by norm_num) (by norm_num)
  have h0 : In 0 0 (toNum float64 ((0 : ℤ) : ℚ)) := toNum_in fixed_zero fixed_zero (by norm_num) (by norm_num)
  obtain ⟨q, g, e, _, a, b⟩ := add_in h0 h1 hf fixed_one (by norm_num) (by norm_num)
  exact ⟨q, g, e, lt_of_lt_of_le (by norm_num) a, b⟩

/-- The share that is done after `d` of `n` comparisons. -/
def rate (d n : Nat) : ℚ := if n = 0 then 1 else min 1 (rnd float64 (rnd float64 d / rnd float64 n))

theorem rnd_one_le {n : Nat} (hn : 1 ≤ n) : 1 ≤ rnd float64 n := by
  have := rnd_mono (f := float64) (show (1 : ℚ) ≤ n by exact_mod_cast hn)
  rwa [(fixed_one (f := float64)).1] at this

theorem calc_rate {d n : Nat} (hd1 : 1 ≤ d) (hd : d ≤ 2 ^ 64) (hn : n < 2 ^ 63) : ∃ g, clamp (calcProgress d n) 0 1 = .num (rate d n) g := by
  have hD := rnd_one_le hd1
  have e1 := toNum_count (k := (d : ℤ)) (by rw [abs_of_nonneg (by positivity)]; exact_mod_cast (by omega : d ≤ 2 ^ 65))
  push_cast at e1
  unfold calcProgress rate
  dsimp only
  by_cases h0 : n = 0
  · subst h0
    rw [if_pos rfl, if_pos (by norm_num)]
    obtain ⟨q, g, e, q0, q1⟩ := tiny_in
    have e' : (toNum float64 (((0 : Nat) : ℤ) : ℚ) + toNum float64 (1 / 10 ^ 9) : Dbl) = .num q g := e
    rw [e', e1]
    show ∃ g', clamp (if q = 0 then _ else toNum float64 (rnd float64 (d : ℚ) / q)) 0 1 = .num 1 g'
    rw [if_neg q0.ne']
    have hx : 1 ≤ rnd float64 (d : ℚ) / q := by rw [le_div_iff₀ q0]; linarith
    obtain ⟨g', hg'⟩ := clamp_pos (x := rnd float64 (d : ℚ) / q) (by linarith)
    have h1 : (1 : ℚ) ≤ rnd float64 (rnd float64 (d : ℚ) / q) := by
      have := rnd_mono (f := float64) hx
      rwa [(fixed_one (f := float64)).1] at this
    have hm := min_eq_left h1
    rw [hg']
    clear hg'
    revert g'
    rw [hm]
    exact fun g' => ⟨g', rfl⟩
  · rw [if_neg h0, if_neg (by exact_mod_cast h0)]
    have hN := rnd_one_le (n := n) (by omega)
    have e2 := toNum_count (k := (n : ℤ)) (by rw [abs_of_nonneg (by positivity)]; exact_mod_cast (by omega : n ≤ 2 ^ 65))
    rw [e1, e2]
    push_cast
    show ∃ g', clamp (if rnd float64 (n : ℚ) = 0 then _ else toNum float64 (rnd float64 (d : ℚ) / rnd float64 (n : ℚ))) 0 1 = _
    rw [if_neg (by linarith)]
    exact clamp_pos (div_nonneg (by linarith) (by linarith))

theorem rate_le (d n : Nat) : rate d n ≤ 1 := by
  unfold rate
  split
  · exact le_rfl
  · exact min_le_left _ _

theorem rate_pos {d n : Nat} (hd : 1 ≤ d) (hn : n < 2 ^ 63) : 1 / 2 ^ 63 ≤ rate d n := by
  unfold rate
  split
  · norm_num
  · rename_i h0
    have hD := rnd_one_le hd
    have hN := rnd_one_le (n := n) (by omega)
    have hrep : Representable float64 (1 / 2 ^ 63 : ℚ) := by
      refine ⟨1, -63, ?_, ?_, ?_⟩
      · show |(1 : ℤ)| < 2 ^ 53
        norm_num
      · show (-1074 : ℤ) ≤ -63
        norm_num
      · rw [zpow_neg]; norm_num
    have hrepN : Representable float64 (2 ^ 63 : ℚ) := by
      refine ⟨1, 63, ?_, ?_, ?_⟩
      · show |(1 : ℤ)| < 2 ^ 53
        norm_num
      · show (-1074 : ℤ) ≤ 63
        norm_num
      · norm_num
    have hN2 : rnd float64 (n : ℚ) ≤ 2 ^ 63 := by
      have := rnd_mono (f := float64) (show (n : ℚ) ≤ 2 ^ 63 by exact_mod_cast hn.le)
      rwa [rnd_rep hrepN] at this
    refine le_min (by norm_num) ?_
    have := rnd_mono (f := float64) (show (1 / 2 ^ 63 : ℚ) ≤ rnd float64 d / rnd float64 n by
      rw [div_le_div_iff₀ (by norm_num) (by linarith)]
      nlinarith)
    rwa [rnd_rep hrep] at this

theorem rate_mono {d d' n : Nat} (h : d ≤ d') : rate d n ≤ rate d' n := by
  unfold rate
  split
  · exact le_rfl
  · rename_i h0
    have hN := rnd_one_le (n := n) (by omega)
    refine min_le_min_left _ (rnd_mono ?_)
    exact div_le_div_of_nonneg_right (rnd_mono (by exact_mod_cast h)) (by linarith)

theorem rate_full {d n : Nat} (h : n ≤ d) : rate d n = 1 := by
  refine le_antisymm (rate_le d n) (le_trans ?_ (rate_mono h))
  unfold rate
  split
  · exact le_rfl
  · rename_i h0
    have hN := rnd_one_le (n := n) (by omega)
    rw [div_self (by linarith), (fixed_one (f := float64)).1]
    exact le_min le_rfl le_rfl

/-- The number of filled cells after `d` of `n` comparisons. -/
def filled (c n d : Nat) : Nat := filledOf c (rate d n)

theorem filled_mono {c n d d' : Nat} (h : d ≤ d') : filled c n d ≤ filled c n d' := by
  unfold filled filledOf
  exact Int.toNat_le_toNat (Int.floor_mono (rnd_mono (mul_le_mul_of_nonneg_right (rate_mono h) (by positivity))))

theorem filled_full {c n d : Nat} (hc : c < 2 ^ 16) (h : n ≤ d) : filled c n d = c := by
  unfold filled filledOf
  rw [rate_full h, one_mul]
  have hf : Fixed float64 ((c : ℤ) : ℚ) := fixed_size (by rw [abs_of_nonneg (by positivity)]; exact_mod_cast hc)
  have := hf.1
  push_cast at this
  rw [this]
  simp

/-- Within a cell of the exact share. -/
theorem filled_near {c n d : Nat} (hc : c < 2 ^ 16) (hd : 1 ≤ d) (hdn : d ≤ n) (hn : n < 2 ^ 53) : |(filled c n d : ℚ) - c * d / n| ≤ 1 + 1 / 1000 := by
  have hn0 : (0 : ℚ) < n := by exact_mod_cast (by omega : 0 < n)
  have hd0 : (0 : ℚ) ≤ d := by positivity
  have hdn' : (d : ℚ) ≤ n := by exact_mod_cast hdn
  have hc' : (c : ℚ) < 2 ^ 16 := by exact_mod_cast hc
  have hc0 : (0 : ℚ) ≤ c := by positivity
  have i1 : rnd float64 (d : ℚ) = d := by
    have := rnd_int float64 (k := (d : ℤ)) (by push_cast; rw [abs_of_nonneg hd0]; show (d : ℚ) < 2 ^ 53; exact_mod_cast (by omega : d < 2 ^ 53))
    push_cast at this
    exact this
  have i2 : rnd float64 (n : ℚ) = n := by
    have := rnd_int float64 (k := (n : ℤ)) (by push_cast; rw [abs_of_nonneg hn0.le]; show (n : ℚ) < 2 ^ 53; exact_mod_cast hn)
    push_cast at this
    exact this
  have hq : rate d n = rnd float64 (d / n) := by
    unfold rate
    rw [if_neg (by omega), i1, i2]
    apply min_eq_right
    have := rnd_mono (f := float64) (show (d : ℚ) / n ≤ 1 by rw [div_le_one hn0]; exact hdn')
    rwa [(fixed_one (f := float64)).1] at this
  have hs : (2 : ℚ) ^ float64.emin / 2 ≤ 1 / 2 ^ 40 := by
    show (2 : ℚ) ^ (-1074 : ℤ) / 2 ≤ 1 / 2 ^ 40
    have : (2 : ℚ) ^ (-1074 : ℤ) ≤ (2 : ℚ) ^ (-40 : ℤ) := zpow_le_zpow_right₀ (by norm_num) (by norm_num)
    have h2 : (2 : ℚ) ^ (-40 : ℤ) = 1 / 2 ^ 40 := by rw [zpow_neg]; norm_num
    rw [h2] at this
    have h3 : (0 : ℚ) < 1 / 2 ^ 40 := by norm_num
    linarith
  have hp : (1 / 2 : ℚ) ^ float64.p ≤ 1 / 2 ^ 40 := by
    show (1 / 2 : ℚ) ^ 53 ≤ 1 / 2 ^ 40
    norm_num
  have hr1 : (d : ℚ) / n ≤ 1 := by rw [div_le_one hn0]; exact hdn'
  have hr0 : 0 ≤ (d : ℚ) / n := div_nonneg hd0 hn0.le
  have e1 := rnd_err float64 ((d : ℚ) / n)
  rw [abs_of_nonneg hr0] at e1
  have e1' : |rate d n - d / n| ≤ 1 / 2 ^ 39 := by
    rw [hq]
    have := mul_le_mul hp hr1 hr0 (by norm_num)
    have h3 : (1 : ℚ) / 2 ^ 40 * 1 + 1 / 2 ^ 40 = 1 / 2 ^ 39 := by norm_num
    linarith
  have q0 : 0 ≤ rate d n := le_trans (by norm_num) (rate_pos hd (by omega : n < 2 ^ 63))
  have q1 := rate_le d n
  have e2 := rnd_err float64 (rate d n * c)
  rw [abs_of_nonneg (mul_nonneg q0 hc0)] at e2
  have e2' : |rnd float64 (rate d n * c) - rate d n * c| ≤ 1 / 2 ^ 20 := by
    have h4 : rate d n * c ≤ 2 ^ 16 := by nlinarith
    have := mul_le_mul hp h4 (mul_nonneg q0 hc0) (by norm_num)
    have h3 : (1 : ℚ) / 2 ^ 40 * 2 ^ 16 + 1 / 2 ^ 40 ≤ 1 / 2 ^ 20 := by norm_num
    linarith
  have e3 : |rate d n * c - c * d / n| ≤ 1 / 2 ^ 20 := by
    have : rate d n * c - c * d / n = (rate d n - d / n) * c := by ring
    rw [this, abs_mul, abs_of_nonneg hc0]
    have := mul_le_mul e1' hc'.le hc0 (by norm_num)
    have h3 : (1 : ℚ) / 2 ^ 39 * 2 ^ 16 ≤ 1 / 2 ^ 20 := by norm_num
    linarith
  obtain ⟨k1, k2⟩ := filled_le hc q0 q1
  have hk : (filled c n d : ℚ) = (⌊rnd float64 (rate d n * c)⌋ : ℤ) := by
    unfold filled
    rw [k1]
    push_cast
    rfl
  have f1 := Int.floor_le (rnd float64 (rate d n * c))
  have f2 := Int.lt_floor_add_one (rnd float64 (rate d n * c))
  rw [← hk] at f1 f2
  obtain ⟨a1, a2⟩ := abs_le.mp e2'
  obtain ⟨b1, b2⟩ := abs_le.mp e3
  have h5 : (1 : ℚ) / 2 ^ 20 + 1 / 2 ^ 20 ≤ 1 / 1000 := by norm_num
  rw [abs_le]
  constructor <;> linarith

/-! ### frames -/

/-- One more frame. -/
theorem display_ok {c : Nat} (hc : c < 2 ^ 16) (E : Env) (k : Nat) {q : ℚ} {g : Grid float64 q} (h0 : 0 ≤ q) (h1 : q ≤ 1) (st : State) :
    ∃ fr, display c E k (.num q g) st = ok ⟨(fr.length : ℤ), st.frames ++ [fr]⟩ ∧ Shows c (filledOf c q) fr ∧ st.cols ≤ fr.length := by
  obtain ⟨ta, tb, ht⟩ := rize_keeps "Magenta" "Default" "Default" "All"
  obtain ⟨ea, eb, he⟩ := rize_keeps "Blue" "Default" "Default" "All"
  unfold display
  rw [printBar_ok hc h0 h1, bind_ok, ht, bind_ok, he, bind_ok]
  set bar := [91] ++ (List.replicate (filledOf c q) cell).flatten ++ ([27, 91, 48, 59, 49, 48, 50, 59, 51, 57, 109] ++ List.replicate (c - filledOf c q) 32 ++ [27, 91, 48, 109]) ++ [93] with hbar
  set t := 27 :: 91 :: ta ++ 109 :: E.elapsed k ++ 27 :: 91 :: tb ++ [109]
  set e := 27 :: 91 :: ea ++ 109 :: E.eta k ++ 27 :: 91 :: eb ++ [109]
  dsimp only
  set sbar := [13] ++ lit "{" ++ E.percent k ++ lit "%} " ++ bar ++ lit " (" ++ t ++ lit "s < " ++ e ++ lit "s) " with hs
  have hb : blanks (max st.cols (sbar.length : ℤ) - sbar.length) = ok (List.replicate (max st.cols (sbar.length : ℤ) - sbar.length).toNat 32) := by
    unfold blanks
    rw [if_neg (by have := le_max_right st.cols (sbar.length : ℤ); omega)]
  rw [hb, bind_ok]
  clear_value t e
  refine ⟨sbar ++ List.replicate (max st.cols (sbar.length : ℤ) - sbar.length).toNat 32, ?_, ⟨(filled_le hc h0 h1).2, lit "{" ++ E.percent k ++ lit "%} ",
    lit " (" ++ t ++ lit "s < " ++ e ++ lit "s) " ++ List.replicate (max st.cols (sbar.length : ℤ) - sbar.length).toNat 32, ?_⟩, ?_⟩
  · rw [pure_eq]
    congr 2
    have hlen : (sbar ++ List.replicate (max st.cols (sbar.length : ℤ) - sbar.length).toNat 32).length = sbar.length + (max st.cols (sbar.length : ℤ) - sbar.length).toNat := by
      rw [List.length_append, List.length_replicate]
    rw [hlen]
    clear_value sbar
    have := le_max_right st.cols (sbar.length : ℤ)
    push_cast
    omega
  · rw [hs, hbar]
    simp only [List.append_assoc, List.singleton_append, List.cons_append, List.nil_append]
  · rw [List.length_append, List.length_replicate]
    push_cast
    have := le_max_left st.cols (sbar.length : ℤ)
    omega

/-- The frames after `done` comparisons. -/
def Inv (E : Env) (c n done : Nat) (st : State) : Prop :=
  ∃ ds : List Nat, List.Forall₂ (fun fr d => Shows c (filled c n d) fr) st.frames ds ∧ ds.Pairwise (· < ·) ∧ (∀ d ∈ ds, 1 ≤ d ∧ d ≤ done) ∧
    (∀ d, 1 ≤ d → d ≤ done → E.due d = true ∨ n ≤ d → d ∈ ds) ∧ st.frames.Pairwise (fun a b => a.length ≤ b.length) ∧ ∀ fr ∈ st.frames, (fr.length : ℤ) ≤ st.cols

theorem same_one {q : ℚ} {g : Grid float64 q} : same (.num q g) 1 = decide (q = 1) := by
  obtain ⟨o, go, eo, _, ho1, ho2⟩ := one_in (f := float64)
  have ho : o = 1 := le_antisymm ho2 ho1
  subst ho
  rw [eo]
  rfl

theorem update_inv {E : Env} {c n done : Nat} (hc : c < 2 ^ 16) (hn : n < 2 ^ 63) (hdone : done < 2 ^ 64) {st : State} (h : Inv E c n done st) :
    ∃ st', update c E (done + 1) (calcProgress (done + 1) n) st = ok st' ∧ Inv E c n (done + 1) st' := by
  obtain ⟨g, e⟩ := calc_rate (d := done + 1) (n := n) (by omega) (by omega) hn
  have q0 : 0 ≤ rate (done + 1) n := le_trans (by norm_num) (rate_pos (d := done + 1) (by omega) hn)
  have q1 := rate_le (done + 1) n
  obtain ⟨ds, a1, a2, a3, a4, a5, a6⟩ := h
  unfold update
  dsimp only
  rw [e]
  by_cases hs : (E.due (done + 1) || same (.num (rate (done + 1) n) g) 0 || same (.num (rate (done + 1) n) g) 1) = true
  · rw [if_pos hs]
    obtain ⟨fr, h1, h2, h3⟩ := display_ok hc E (done + 1) (g := g) q0 q1 st
    refine ⟨_, h1, ds ++ [done + 1], ?_, ?_, ?_, ?_, ?_, ?_⟩
    · exact List.rel_append a1 (List.Forall₂.cons h2 List.Forall₂.nil)
    · rw [List.pairwise_append]
      refine ⟨a2, List.pairwise_singleton _ _, fun d hd d' hd' => ?_⟩
      rw [List.mem_singleton] at hd'
      have := (a3 d hd).2
      omega
    · intro d hd
      rcases List.mem_append.mp hd with hd | hd
      · have := a3 d hd
        omega
      · rw [List.mem_singleton] at hd
        omega
    · intro d h1 h2 h3
      by_cases hd : d ≤ done
      · exact List.mem_append_left _ (a4 d h1 hd h3)
      · exact List.mem_append_right _ (List.mem_singleton.mpr (by omega))
    · rw [List.pairwise_append]
      refine ⟨a5, List.pairwise_singleton _ _, fun x hx y hy => ?_⟩
      rw [List.mem_singleton] at hy
      have := a6 x hx
      rw [hy]
      omega
    · intro x hx
      rcases List.mem_append.mp hx with hx | hx
      · have := a6 x hx
        exact this.trans h3
      · rw [List.mem_singleton] at hx
        rw [hx]
  · rw [if_neg hs]
    refine ⟨st, rfl, ds, a1, a2, fun d hd => ⟨(a3 d hd).1, by have := (a3 d hd).2; omega⟩, ?_, a5, a6⟩
    intro d h1 h2 h3
    by_cases hd : d ≤ done
    · exact a4 d h1 hd h3
    · exfalso
      have hd : d = done + 1 := by omega
      subst hd
      apply hs
      rcases h3 with h3 | h3
      · rw [h3]; rfl
      · rw [same_one, decide_eq_true (rate_full h3), Bool.or_true]

/-- Updating a bar of at least no cells. -/
theorem update_total {c : Nat} (hc : c < 2 ^ 16) (E : Env) (k : Nat) {p : Dbl} (hp : ∃ q g, clamp p 0 1 = .num q g ∧ 0 ≤ q ∧ q ≤ 1) (st : State) : ∃ st', update c E k p st = ok st' := by
  obtain ⟨q, g, e, q0, q1⟩ := hp
  unfold update
  dsimp only
  rw [e]
  split
  · obtain ⟨fr, h1, _⟩ := display_ok hc E k (g := g) q0 q1 st
    exact ⟨_, h1⟩
  · exact ⟨st, rfl⟩

theorem calc_neg {d : Nat} {num : ℤ} (hd1 : 1 ≤ d) (hd : d ≤ 2 ^ 65) (hn : num < 0) (hn2 : -2 ^ 63 ≤ num) : ∃ q g, clamp (calcProgress d num) 0 1 = .num q g ∧ 0 ≤ q ∧ q ≤ 1 := by
  have hD := rnd_one_le hd1
  have e1 := toNum_count (k := (d : ℤ)) (by rw [abs_of_nonneg (by positivity)]; exact_mod_cast hd)
  push_cast at e1
  have e2 := toNum_count (k := num) (by rw [abs_of_neg hn]; omega)
  have hN : rnd float64 num ≤ -1 := by
    have := rnd_mono (f := float64) (show (num : ℚ) ≤ -1 by exact_mod_cast (by omega : num ≤ -1))
    rwa [(fixed_one (f := float64)).neg.1] at this
  unfold calcProgress
  dsimp only
  rw [if_neg (by omega), e1, e2]
  show ∃ q g, clamp (if rnd float64 (num : ℚ) = 0 then _ else toNum float64 (rnd float64 (d : ℚ) / rnd float64 (num : ℚ))) 0 1 = _ ∧ _
  rw [if_neg (by linarith)]
  have hx : rnd float64 (d : ℚ) / rnd float64 num ≤ 0 := div_nonpos_of_nonneg_of_nonpos (by linarith) (by linarith)
  have hr : rnd float64 (rnd float64 (d : ℚ) / rnd float64 num) ≤ 0 := by
    have := rnd_mono (f := float64) hx
    rwa [rnd_zero] at this
  rcases eq_or_lt_of_le hx with h | h
  · obtain ⟨g, hg⟩ := clamp_pos (x := rnd float64 (d : ℚ) / rnd float64 num) (le_of_eq h.symm)
    refine ⟨_, g, hg, le_min (by norm_num) ?_, min_le_left _ _⟩
    rw [h, rnd_zero]
  · rcases eq_or_lt_of_le hr with h' | h'
    · have hz : toNum float64 (rnd float64 (d : ℚ) / rnd float64 num) = 0 := by
        rw [toNum_of (by rw [h', abs_zero]; exact le_trans (by norm_num) big_largest)]
        show Num.num _ _ = Num.num 0 _
        congr 1
      rw [hz]
      have := clamp_pos (x := 0) le_rfl
      have hz2 : toNum float64 0 = (0 : Dbl) := toNum_fixed fixed_zero
      rw [hz2] at this
      obtain ⟨g, hg⟩ := this
      exact ⟨_, g, hg, le_min (by norm_num) (by rw [rnd_zero]), min_le_left _ _⟩
    · obtain ⟨g, hg⟩ := clamp_neg h'
      exact ⟨0, g, hg, le_rfl, by norm_num⟩

theorem loop_head {σ : Type} (body : Nat → σ → Res σ) (s : σ) : ∀ n, loop (n + 1) body s = body 0 s >>= loop n (fun i => body (i + 1))
  | 0 => by
    show loop 0 body s >>= body 0 = _
    rw [loop_zero, bind_ok]
    cases body 0 s <;> rfl
  | n + 1 => by
    rw [loop_succ (n + 1), loop_head body s n]
    cases body 0 s <;> rfl

/-- The loop does what the plain one does, whatever the bar does, as long as the bar does not fail. -/
theorem trangeFrom_loop {E : Env} {c : ℤ} {num : ℤ} {last : BitVec 64} (I : Nat → State → Prop) (N : Nat)
    (hI : ∀ done st, done ≤ N → I done st → ∃ st', update c E (done + 1) (calcProgress (done + 1) num) st = ok st' ∧ I (done + 1) st') :
    ∀ (m : Nat) (cur : BitVec 64) (done : Nat) (st : State), (last - cur).toNat = m → done + m = N → I done st →
      ∃ st', I (N + 1) st' ∧ ∀ {σ : Type} (body : Nat → σ → Res σ) (s : σ),
        trangeFrom c E num last body cur done st s = loop m (fun i => body (cur + BitVec.ofNat 64 i).toNat) s >>= fun s' => ok (st', s') := by
  intro m
  induction m with
  | zero =>
    intro cur done st h hN hi
    have hcl : cur = last := by
      have : last - cur = 0 := BitVec.eq_of_toNat_eq (by simpa using h)
      exact (BitVec.sub_eq_iff_eq_add.mp this).symm ▸ by simp
    obtain ⟨st', h1, h2⟩ := hI done st (by omega) hi
    have hd : done = N := by omega
    subst hd
    refine ⟨st', h2, fun body s => ?_⟩
    rw [trangeFrom, h1, bind_ok, dif_pos hcl]
    rfl
  | succ m ih =>
    intro cur done st h hN hi
    have hcl : cur ≠ last := by
      intro e
      rw [e] at h
      simp at h
    obtain ⟨st', h1, h2⟩ := hI done st (by omega) hi
    have hm : (last - (cur + 1#64)).toNat = m := by bv_omega
    obtain ⟨st'', h3, h4⟩ := ih (cur + 1#64) (done + 1) st' hm (by omega) h2
    refine ⟨st'', h3, fun body s => ?_⟩
    rw [trangeFrom, h1, bind_ok, dif_neg hcl, loop_head]
    simp only [BitVec.add_zero, bind_assoc]
    cases body cur.toNat s with
    | ok s' =>
      simp only [bind_ok]
      rw [h4]
      congr 1
      apply loop_congr
      intro i t _
      congr 2
      rw [BitVec.add_assoc]
      congr 1
      apply BitVec.eq_of_toNat_eq
      simp only [BitVec.toNat_add, BitVec.toNat_ofNat]
      omega
    | abort => rfl
    | ub => rfl

theorem barSize_some (w : BitVec 16) : barSize (some w) = ok ((w.toNat : ℤ) - 40) := rfl

/-- The number of iterations. -/
theorem toInt_small {last : BitVec 64} (h : last.toNat < 2 ^ 63) : (last - 0#64).toInt = (last.toNat : ℤ) := by
  rw [BitVec.sub_zero, BitVec.toInt_eq_toNat_of_lt]
  omega

theorem body_index {σ : Type} (body : Nat → σ → Res σ) {last : BitVec 64} (s : σ) :
    loop last.toNat (fun i => body (0#64 + BitVec.ofNat 64 i).toNat) s = loop last.toNat body s := by
  apply loop_congr
  intro i t hi
  have : (0#64 + BitVec.ofNat 64 i).toNat = i := by
    rw [BitVec.zero_add, BitVec.toNat_ofNat]
    have := last.isLt
    omega
  rw [this]

/-- C144, on a terminal at least 40 columns wide: whatever the clock does, the loop does what the plain loop does. -/
theorem trange_loop_partial (w : BitVec 16) (hw : 40 ≤ w.toNat) (E : Env) (last : BitVec 64) :
    ∃ st, ∀ {σ : Type} (body : Nat → σ → Res σ) (s : σ), trange (some w) E last body s = loop last.toNat body s >>= fun s' => ok (st, s') := by
  have hlt := w.isLt
  obtain ⟨c, hc⟩ : ∃ c : Nat, (w.toNat : ℤ) - 40 = c := ⟨w.toNat - 40, by omega⟩
  have hc16 : c < 2 ^ 16 := by omega
  have hll := last.isLt
  obtain ⟨st', _, h⟩ := trangeFrom_loop (E := E) (c := c) (num := (last - 0#64).toInt) (last := last) (fun _ _ => True) last.toNat (fun done st hd _ => by
    rw [BitVec.sub_zero]
    by_cases hs : last.toNat < 2 ^ 63
    · have e : last.toInt = (last.toNat : ℤ) := by rw [← toInt_small hs, BitVec.sub_zero]
      rw [e]
      obtain ⟨g, hg⟩ := calc_rate (d := done + 1) (n := last.toNat) (by omega) (by omega) hs
      obtain ⟨st', h⟩ := update_total hc16 E (done + 1) (p := calcProgress (done + 1) last.toNat) ⟨_, g, hg, le_trans (by norm_num) (rate_pos (d := done + 1) (by omega) hs), rate_le _ _⟩ st
      exact ⟨st', h, trivial⟩
    · have e : last.toInt = (last.toNat : ℤ) - 2 ^ 64 := by rw [BitVec.toInt_eq_toNat_cond]; rw [if_neg (by omega)]; rfl
      obtain ⟨st', h⟩ := update_total hc16 E (done + 1) (p := calcProgress (done + 1) last.toInt) (calc_neg (by omega) (by omega) (by omega) (by omega)) st
      exact ⟨st', h, trivial⟩) last.toNat 0#64 0 ⟨1, []⟩ (by rw [BitVec.sub_zero]) (by omega) trivial
  refine ⟨st', fun body s => ?_⟩
  unfold trange trangeOf
  rw [barSize_some, bind_ok, hc, h, body_index]

/-- C144, on a terminal at least 40 columns wide: what is shown.  Each frame shows as many cells as the terminal has columns beyond 40; the frames come in the order of
the comparisons; a frame is shown whenever one is due and at the end; the filled cells never become fewer, are within a cell of the share that is done, and are all cells at
the end; and no frame is shorter than one before it. -/
theorem trange_frames_partial (w : BitVec 16) (hw : 40 ≤ w.toNat) (E : Env) (last : BitVec 64) (hl : last.toNat < 2 ^ 63) :
    ∃ (st : State) (ds : List Nat) (K : Nat → Nat), (∀ {σ : Type} (body : Nat → σ → Res σ) (s : σ), trange (some w) E last body s = loop last.toNat body s >>= fun s' => ok (st, s')) ∧
      List.Forall₂ (fun fr d => Shows (w.toNat - 40) (K d) fr) st.frames ds ∧ ds.Pairwise (· < ·) ∧ (∀ d ∈ ds, 1 ≤ d ∧ d ≤ last.toNat + 1) ∧
      (∀ d, 1 ≤ d → d ≤ last.toNat + 1 → E.due d = true ∨ last.toNat ≤ d → d ∈ ds) ∧
      Monotone K ∧ (∀ d, last.toNat ≤ d → K d = w.toNat - 40) ∧
      (∀ d, 1 ≤ d → d ≤ last.toNat → last.toNat < 2 ^ 53 → |(K d : ℚ) - (w.toNat - 40 : Nat) * d / last.toNat| ≤ 1 + 1 / 1000) ∧
      st.frames.Pairwise (fun a b => a.length ≤ b.length) := by
  have hlt := w.isLt
  obtain ⟨c, hc⟩ : ∃ c : Nat, (w.toNat : ℤ) - 40 = c := ⟨w.toNat - 40, by omega⟩
  have hcw : w.toNat - 40 = c := by omega
  have hc16 : c < 2 ^ 16 := by omega
  obtain ⟨st', hi, h⟩ := trangeFrom_loop (E := E) (c := c) (num := (last - 0#64).toInt) (last := last) (fun done st => Inv E c last.toNat done st) last.toNat (fun done st hd hi => by
    rw [toInt_small hl]
    exact update_inv hc16 hl (by omega) hi) last.toNat 0#64 0 ⟨1, []⟩ (by rw [BitVec.sub_zero]) (by omega) ⟨[], List.Forall₂.nil, List.Pairwise.nil, by simp, by intro d h1 h2; omega, List.Pairwise.nil, by simp⟩
  obtain ⟨ds, a1, a2, a3, a4, a5, _⟩ := hi
  rw [hcw]
  refine ⟨st', ds, filled c last.toNat, fun body s => ?_, a1, a2, a3, a4, fun d d' h => filled_mono h, fun d h => filled_full hc16 h, fun d h1 h2 h3 => filled_near hc16 h1 h2 h3, a5⟩
  unfold trange trangeOf
  rw [barSize_some, bind_ok, hc, h, body_index]

/-! ### narrow terminals -/

theorem update_narrow {c : ℤ} (hc : |c| < 2 ^ 16) (hneg : c < 0) (E : Env) {d n : Nat} (hd1 : 1 ≤ d) (hd : d ≤ 2 ^ 64) (hn : n < 2 ^ 63) (st : State) :
    update c E d (calcProgress d n) st = ub ∨ (update c E d (calcProgress d n) st = ok st ∧ d < n) := by
  obtain ⟨g, e⟩ := calc_rate hd1 hd hn
  unfold update
  dsimp only
  rw [e]
  by_cases hs : (E.due d || same (.num (rate d n) g) 0 || same (.num (rate d n) g) 1) = true
  · left
    rw [if_pos hs]
    unfold display
    rw [printBar_neg hc hneg (rate_pos hd1 hn) (rate_le d n)]
    rfl
  · right
    rw [if_neg hs]
    refine ⟨rfl, ?_⟩
    by_contra hdn
    apply hs
    rw [same_one, decide_eq_true (rate_full (not_lt.mp hdn)), Bool.or_true]

theorem narrow_from {c : ℤ} (hc : |c| < 2 ^ 16) (hneg : c < 0) (E : Env) {last : BitVec 64} (hl : last.toNat < 2 ^ 63) {σ : Type} (body : Nat → σ → Res σ) :
    ∀ (m : Nat) (cur : BitVec 64) (done : Nat) (st : State) (s : σ), (last - cur).toNat = m → done + m = last.toNat →
      (∀ x, trangeFrom c E last.toNat last body cur done st s ≠ ok x) ∧
      ((∃ t, loop (m - 1) (fun i => body (cur + BitVec.ofNat 64 i).toNat) s = ok t) → trangeFrom c E last.toNat last body cur done st s = ub) := by
  intro m
  induction m with
  | zero =>
    intro cur done st s h hN
    have : trangeFrom c E last.toNat last body cur done st s = ub := by
      rw [trangeFrom]
      rcases update_narrow hc hneg E (d := done + 1) (n := last.toNat) (by omega) (by omega) hl st with h1 | ⟨_, h2⟩
      · rw [h1, bind_ub]
      · omega
    exact ⟨fun x hx => (by rw [this] at hx; cases hx), fun _ => this⟩
  | succ m ih =>
    intro cur done st s h hN
    have hcl : cur ≠ last := by
      intro e
      rw [e] at h
      simp at h
    have hm : (last - (cur + 1#64)).toNat = m := by bv_omega
    rw [trangeFrom]
    rcases update_narrow hc hneg E (d := done + 1) (n := last.toNat) (by omega) (by omega) hl st with h1 | ⟨h1, h2⟩
    · rw [h1, bind_ub]
      exact ⟨fun x hx => (by cases hx), fun _ => rfl⟩
    · rw [h1, bind_ok, dif_neg hcl]
      cases hb : body cur.toNat s with
      | ok s' =>
        rw [bind_ok]
        obtain ⟨k1, k2⟩ := ih (cur + 1#64) (done + 1) st s' hm (by omega)
        refine ⟨k1, fun ht => k2 ?_⟩
        obtain ⟨t, ht⟩ := ht
        obtain ⟨m', rfl⟩ : ∃ m', m = m' + 1 := ⟨m - 1, by omega⟩
        rw [show m' + 1 + 1 - 1 = m' + 1 from rfl, loop_head] at ht
        simp only [BitVec.add_zero, hb, bind_ok] at ht
        refine ⟨t, ?_⟩
        rw [← ht]
        show loop m' _ s' = loop m' _ s'
        apply loop_congr
        intro i t _
        congr 2
        rw [BitVec.add_assoc]
        congr 1
        apply BitVec.eq_of_toNat_eq
        simp only [BitVec.toNat_add, BitVec.toNat_ofNat]
        omega
      | abort =>
        refine ⟨fun x hx => (by cases hx), fun ht => ?_⟩
        obtain ⟨t, ht⟩ := ht
        obtain ⟨m', rfl⟩ : ∃ m', m = m' + 1 := ⟨m - 1, by omega⟩
        rw [show m' + 1 + 1 - 1 = m' + 1 from rfl, loop_head] at ht
        simp only [BitVec.add_zero, hb, bind_abort] at ht
        cases ht
      | ub => exact ⟨fun x hx => (by cases hx), fun _ => rfl⟩

/-- C144, violated: on a terminal narrower than 40 columns no loop comes to its end, and one whose iterations but the last succeed has undefined behaviour before the last. -/
theorem trange_narrow_violated (w : BitVec 16) (hw : w.toNat < 40) (E : Env) (last : BitVec 64) (hl : last.toNat < 2 ^ 63) {σ : Type} (body : Nat → σ → Res σ) (s : σ) :
    (∀ x, trange (some w) E last body s ≠ ok x) ∧ ((∃ t, loop (last.toNat - 1) body s = ok t) → trange (some w) E last body s = ub) := by
  obtain ⟨h1, h2⟩ := narrow_from (c := (w.toNat : ℤ) - 40) (by rw [abs_of_neg (by omega)]; omega) (by omega) E hl body last.toNat 0#64 0 ⟨1, []⟩ s (by rw [BitVec.sub_zero]) (by omega)
  unfold trange trangeOf
  rw [barSize_some, bind_ok, toInt_small hl]
  refine ⟨h1, fun ht => h2 ?_⟩
  obtain ⟨t, ht⟩ := ht
  refine ⟨t, ?_⟩
  rw [← ht]
  apply loop_congr
  intro i t hi
  have : (0#64 + BitVec.ofNat 64 i).toNat = i := by
    rw [BitVec.zero_add, BitVec.toNat_ofNat]
    omega
  rw [this]

/-- C144, violated: when standard input is no terminal, every loop has undefined behaviour before its first iteration. -/
theorem trange_no_terminal_violated (E : Env) (last : BitVec 64) {σ : Type} (body : Nat → σ → Res σ) (s : σ) : trange none E last body s = ub := rfl

/-! ### fit and evaluate -/

open Fit View Data
variable {σ α : Type}

/-- C144, on a terminal at least 40 columns wide: `fit` with the bar gives what the model of `fit` without it gives. -/
theorem fit_shown_partial [Zero α] [Add α] [Div α] [NatCast α] (w : BitVec 16) (hw : 40 ≤ w.toNat) (E : Nat → Env) (m : Machine σ α) (inputs outputs : Ten α) (bs epochs : Nat) (split : ℚ) (s : σ)
    (hs : ∀ n, inputs.shape[0]? = some n → n < 2 ^ 64) :
    ∃ sts, sts.length = epochs ∧ fit (some w) E m inputs outputs bs epochs split s = Fit.fit m inputs outputs bs epochs split s >>= fun f => ok (sts, f) := by
  have key : ∀ loops : Nat, loops < 2 ^ 64 → ∃ S : Nat → State, ∀ e {τ : Type} (body : Nat → τ → Res τ) (t : τ),
      trange (some w) (E e) (BitVec.ofNat 64 loops) body t = loop loops body t >>= fun t' => ok (S e, t') := by
    intro loops hl
    choose S hS using fun e => trange_loop_partial w hw (E e) (BitVec.ofNat 64 loops)
    refine ⟨S, fun e τ body t => ?_⟩
    rw [hS e body t, BitVec.toNat_ofNat, Nat.mod_eq_of_lt hl]
  unfold fit Fit.fit
  cases hr : rd inputs.shape 0 with
  | abort => exact ⟨List.replicate epochs ⟨0, []⟩, by simp, rfl⟩
  | ub => exact ⟨List.replicate epochs ⟨0, []⟩, by simp, rfl⟩
  | ok samples =>
    have hsm := hs samples (rd_eq_ok.mp hr)
    obtain ⟨S, hS⟩ := key (samples / bs) (lt_of_le_of_lt (Nat.div_le_self _ _) hsm)
    refine ⟨(List.range epochs).map S, by simp, ?_⟩
    simp only [bind_ok]
    by_cases hb : bs ≠ 0
    · simp only [require_true hb, bind_ok]
      cases batchBuffer inputs bs with
      | abort => rfl
      | ub => rfl
      | ok x =>
        simp only [bind_ok]
        cases batchBuffer outputs bs with
        | abort => rfl
        | ub => rfl
        | ok y =>
          simp only [bind_ok, hS, bind_assoc]
          induction epochs with
          | zero => rfl
          | succ n ih =>
            rw [loop_succ, ih, loop_succ]
            cases loop n _ _ with
            | abort => rfl
            | ub => rfl
            | ok f =>
              simp only [bind_ok, bind_assoc]
              cases loop (samples / bs) _ _ with
              | abort => rfl
              | ub => rfl
              | ok f' => simp [List.range_succ]
    · simp only [require_false hb, bind_ub]

/-- C144, violated: on a terminal narrower than 40 columns, or on none, `fit` never returns. -/
theorem fit_narrow_violated [Zero α] [Add α] [Div α] [NatCast α] (width : Option (BitVec 16)) (hw : ∀ w, width = some w → w.toNat < 40) (E : Nat → Env) (m : Machine σ α)
    (inputs outputs : Ten α) (bs epochs : Nat) (split : ℚ) (s : σ) (he : epochs ≠ 0) (hs : ∀ n, inputs.shape[0]? = some n → n < 2 ^ 63) (x : List State × Frame σ α) :
    fit width E m inputs outputs bs epochs split s ≠ ok x := by
  have key : ∀ (e loops : Nat), loops < 2 ^ 63 → ∀ {τ : Type} (body : Nat → τ → Res τ) (t : τ) y, trange width (E e) (BitVec.ofNat 64 loops) body t ≠ ok y := by
    intro e loops hl τ body t y
    cases width with
    | none => intro h; cases h
    | some w => exact (trange_narrow_violated w (hw w rfl) (E e) (BitVec.ofNat 64 loops) (by rw [BitVec.toNat_ofNat]; omega) body t).1 y
  intro h
  unfold fit at h
  obtain ⟨samples, h1, h⟩ := bind_eq_ok.mp h
  obtain ⟨_, _, h⟩ := bind_eq_ok.mp h
  obtain ⟨bx, _, h⟩ := bind_eq_ok.mp h
  obtain ⟨by', _, h⟩ := bind_eq_ok.mp h
  have hl : samples / bs < 2 ^ 63 := lt_of_le_of_lt (Nat.div_le_self _ _) (hs samples (rd_eq_ok.mp h1))
  obtain ⟨n, rfl⟩ : ∃ n, epochs = n + 1 := ⟨epochs - 1, by omega⟩
  rw [loop_succ] at h
  obtain ⟨p, _, h⟩ := bind_eq_ok.mp h
  obtain ⟨y, h2, _⟩ := bind_eq_ok.mp h
  exact key n _ hl _ _ _ h2

/-- C144, on a terminal at least 40 columns wide: `evaluate` with the bar gives what the model of `evaluate` without it gives. -/
theorem evaluate_shown_partial [Zero α] [Add α] [Div α] [NatCast α] (w : BitVec 16) (hw : 40 ≤ w.toNat) (E : Env) (m : Machine σ α) (inputs outputs : Ten α) (bs : Nat) (s : σ)
    (hs : ∀ n, inputs.shape[0]? = some n → n < 2 ^ 64) :
    ∃ st, evaluate (some w) E m inputs outputs bs s = Fit.evaluate m inputs outputs bs s >>= fun p => ok (st, p) := by
  unfold evaluate Fit.evaluate
  cases hr : rd inputs.shape 0 with
  | abort => exact ⟨⟨0, []⟩, rfl⟩
  | ub => exact ⟨⟨0, []⟩, rfl⟩
  | ok samples =>
    have hsm : samples / bs < 2 ^ 64 := lt_of_le_of_lt (Nat.div_le_self _ _) (hs samples (rd_eq_ok.mp hr))
    obtain ⟨st, hS⟩ := trange_loop_partial w hw E (BitVec.ofNat 64 (samples / bs))
    rw [BitVec.toNat_ofNat, Nat.mod_eq_of_lt hsm] at hS
    refine ⟨st, ?_⟩
    simp only [bind_ok]
    by_cases hb : bs ≠ 0
    · simp only [require_true hb, bind_ok]
      cases batchBuffer inputs bs with
      | abort => rfl
      | ub => rfl
      | ok x =>
        simp only [bind_ok]
        cases batchBuffer outputs bs with
        | abort => rfl
        | ub => rfl
        | ok y =>
          simp only [bind_ok, hS, bind_assoc]
          cases loop (samples / bs) _ _ <;> rfl
    · simp only [require_false hb, bind_ub]

/-- C144, violated: on a terminal narrower than 40 columns, or on none, `evaluate` never returns. -/
theorem evaluate_narrow_violated [Zero α] [Add α] [Div α] [NatCast α] (width : Option (BitVec 16)) (hw : ∀ w, width = some w → w.toNat < 40) (E : Env) (m : Machine σ α)
    (inputs outputs : Ten α) (bs : Nat) (s : σ) (hs : ∀ n, inputs.shape[0]? = some n → n < 2 ^ 63) (x : State × α × Frame σ α) : evaluate width E m inputs outputs bs s ≠ ok x := by
  intro h
  unfold evaluate at h
  obtain ⟨samples, h1, h⟩ := bind_eq_ok.mp h
  obtain ⟨_, _, h⟩ := bind_eq_ok.mp h
  obtain ⟨bx, _, h⟩ := bind_eq_ok.mp h
  obtain ⟨by', _, h⟩ := bind_eq_ok.mp h
  have hl : samples / bs < 2 ^ 63 := lt_of_le_of_lt (Nat.div_le_self _ _) (hs samples (rd_eq_ok.mp h1))
  obtain ⟨y, h2, _⟩ := bind_eq_ok.mp h
  cases width with
  | none => cases h2
  | some w => exact (trange_narrow_violated w (hw w rfl) E (BitVec.ofNat 64 (samples / bs)) (by rw [BitVec.toNat_ofNat, Nat.mod_eq_of_lt (by omega)]; exact hl) _ _).1 y h2

/-- C145, violated: no background is magenta, though the foregrounds have that colour. -/
theorem rize_magenta_violated (source : Text) (fg set reset : String) : rize source fg "Magenta" set reset = rize source fg "Default" set reset ∧ foregrounds.lookup "Magenta" = some "35" := ⟨rfl, rfl⟩

/-- The number that digits stand for. -/
def decimal (s : String) : Nat := s.toList.foldl (fun n c => 10 * n + (c.toNat - 48)) 0

/-- C145: every other colour is there for the background too, with the code ten above that of the foreground. -/
theorem rize_names_partial (name code : String) (h : (name, code) ∈ foregrounds) (hm : name ≠ "Magenta") : ∃ code', backgrounds.lookup name = some code' ∧ decimal code' = decimal code + 10 := by
  simp only [foregrounds, List.mem_cons, Prod.mk.injEq, List.not_mem_nil, or_false] at h
  rcases h with ⟨rfl, rfl⟩ | ⟨rfl, rfl⟩ | ⟨rfl, rfl⟩ | ⟨rfl, rfl⟩ | ⟨rfl, rfl⟩ | ⟨rfl, rfl⟩ | ⟨rfl, rfl⟩ | ⟨rfl, rfl⟩ | ⟨rfl, rfl⟩ | ⟨rfl, rfl⟩ | ⟨rfl, rfl⟩ | ⟨rfl, rfl⟩ | ⟨rfl, rfl⟩ | ⟨rfl, rfl⟩ | ⟨rfl, rfl⟩ | ⟨rfl, rfl⟩ | ⟨rfl, rfl⟩ <;>
  first
  | exact absurd rfl hm
  | exact ⟨_, rfl, rfl⟩

/-- C145: every format but the default can be taken back by its name, with the code twenty above. -/
theorem rize_formats (name code : String) (h : (name, code) ∈ formats) (hm : name ≠ "Default") : ∃ code', resets.lookup name = some code' ∧ decimal code' = decimal code + 20 := by
  simp only [formats, List.mem_cons, Prod.mk.injEq, List.not_mem_nil, or_false] at h
  rcases h with ⟨rfl, rfl⟩ | ⟨rfl, rfl⟩ | ⟨rfl, rfl⟩ | ⟨rfl, rfl⟩ | ⟨rfl, rfl⟩ | ⟨rfl, rfl⟩ | ⟨rfl, rfl⟩ <;>
  first
  | exact absurd rfl hm
  | exact ⟨_, rfl, rfl⟩

/-! ### examples -/

/-- Underlined is 4, and is taken back by 24. -/
example : ∃ code', resets.lookup "Underlined" = some code' ∧ decimal code' = 24 := rize_formats "Underlined" "4" (by decide) (by decide)

/-- A clock: a refresh is due at every third comparison. -/
def exEnv : Env := ⟨fun k => k % 3 == 0, fun _ => lit " 50.0", fun _ => lit "1.5", fun k => if k < 5 then lit "10.25" else lit "0"⟩

/-- Ten iterations on a terminal of 80 columns: frames at the comparisons 3, 6, 9, 10 and 11; the sum of the indices is what the plain loop gives. -/
example : ∃ (st : State) (ds : List Nat), trange (some 80#16) exEnv 10#64 (fun i s => ok (s + i)) 0 = ok (st, 45) ∧ 3 ∈ ds ∧ 6 ∈ ds ∧ 10 ∈ ds ∧ 11 ∈ ds ∧ st.frames.length = ds.length := by
  obtain ⟨st, ds, K, h1, h2, _, _, h5, _⟩ := trange_frames_partial 80#16 (by decide) exEnv 10#64 (by decide)
  refine ⟨st, ds, ?_, h5 3 (by decide) (by decide) (Or.inl rfl), h5 6 (by decide) (by decide) (Or.inl rfl), h5 10 (by decide) (by decide) (Or.inr (by decide)), h5 11 (by decide) (by decide) (Or.inr (by decide)), h2.length_eq⟩
  rw [h1]
  rfl

/-- The same on a terminal of 30 columns. -/
example : trange (some 30#16) exEnv 10#64 (fun i s => ok (s + i)) 0 = ub := (trange_narrow_violated 30#16 (by decide) exEnv 10#64 (by decide) _ 0).2 ⟨36, rfl⟩

/-- A terminal that has no size (0 columns), and a single iteration: it is not reached, whatever it does. -/
example : trange (some 0#16) exEnv 1#64 (fun _ (_ : Nat) => abort) 0 = ub := (trange_narrow_violated 0#16 (by decide) exEnv 1#64 (by decide) _ 0).2 ⟨0, rfl⟩

/-- Two cells of which one is filled. -/
example : Shows 2 1 (13 :: ([91] ++ cell ++ [27, 91, 48, 59, 49, 48, 50, 59, 51, 57, 109] ++ [32] ++ [27, 91, 48, 109] ++ [93])) := ⟨by decide, [], [], rfl⟩

/-- A text with an unknown foreground and a background. -/
example : rize (lit "ok") "Pink" "Red" = ok ([27] ++ lit "[0;41;39mok" ++ [27] ++ lit "[0m") := rfl

end Verif.Bar
