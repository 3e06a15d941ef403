import Verif.Image.Props

/-!
# C129: the grey values of pictures of numbers
-/
namespace Verif.Image
open Verif Res

variable {K : Type} [Field K] [LinearOrder K] [IsStrictOrderedRing K] [FloorRing K]

theorem toByte_ok {mx mn x : K} (h1 : mn ≤ x) (h2 : x ≤ mx) : ∃ v : Nat, toByte mx mn x = ok v ∧ (v : K) * (mx - mn + 1 / 10 ^ 10) ≤ 255 * (x - mn) ∧
    255 * (x - mn) < ((v : K) + 1) * (mx - mn + 1 / 10 ^ 10) := by
  have he : (0 : K) < 1 / 10 ^ 10 := by positivity
  have hd : 0 < mx - mn + 1 / 10 ^ 10 := by linarith
  have h0 : 0 ≤ 255 * (x - mn) / (mx - mn + 1 / 10 ^ 10) := div_nonneg (by linarith) hd.le
  have h3 : 255 * (x - mn) / (mx - mn + 1 / 10 ^ 10) < 256 := by rw [div_lt_iff₀ hd]; nlinarith
  refine ⟨⌊255 * (x - mn) / (mx - mn + 1 / 10 ^ 10)⌋.toNat, ?_, ?_, ?_⟩
  · simp only [toByte, require_true (show 0 ≤ 255 * (x - mn) / (mx - mn + 1 / 10 ^ 10) ∧ 255 * (x - mn) / (mx - mn + 1 / 10 ^ 10) < 256 from ⟨h0, h3⟩), bind_ok, pure_eq]
  all_goals
    have hz : (0 : Int) ≤ ⌊255 * (x - mn) / (mx - mn + 1 / 10 ^ 10)⌋ := Int.floor_nonneg.mpr h0
    have hc : ((⌊255 * (x - mn) / (mx - mn + 1 / 10 ^ 10)⌋.toNat : Nat) : K) = (⌊255 * (x - mn) / (mx - mn + 1 / 10 ^ 10)⌋ : K) := by
      rw [← Int.cast_natCast, Int.toNat_of_nonneg hz]
    rw [hc]
  · rw [← le_div_iff₀ hd]
    exact Int.floor_le _
  · rw [← div_lt_iff₀ hd]
    exact Int.lt_floor_add_one _

/-- `imwrite` writes as many bytes as there are elements, scaled between the two extremes it found. -/
theorem imwrite_bytes (numMin numMax : K) (store : Store) (files : Files) (path : List Char) (t : Ten K) (ht : t.data.length = size t.shape) (hne : t.data ≠ [])
    (hmax : ∀ x ∈ t.data, x ≤ numMax) :
    ∃ mx mn d, imwrite numMin numMax store files path t = directImwrite store files path ⟨t.shape, d⟩ ∧ Data.maxAll numMin t = ok mx ∧
      (∀ x ∈ t.data, x ≤ mx) ∧ numMin ≤ mx ∧ Data.IsSmallest t.data mn ∧ d.length = t.data.length ∧
      ∀ (k : Nat) x, t.data[k]? = some x → ∃ v : Nat, d[k]? = some v ∧ (v : K) * (mx - mn + 1 / 10 ^ 10) ≤ 255 * (x - mn) ∧
        255 * (x - mn) < ((v : K) + 1) * (mx - mn + 1 / 10 ^ 10) := by
  obtain ⟨mx, e1, -, m2⟩ := Data.maxAll_ok numMin t hne
  obtain ⟨mn, e2, m3⟩ := Data.min_smallest numMax t hne hmax
  obtain ⟨d, e3, d1, d2⟩ := loop_inv (n := t.data.length) (body := fun i (o : List Nat) => do
      let x ← rd t.data i
      let v ← toByte mx mn x
      wr o i v) (s := List.replicate (size t.shape) 0)
    (fun n o => o.length = t.data.length ∧ ∀ (k : Nat) x, k < n → t.data[k]? = some x → ∃ v : Nat, o[k]? = some v ∧ (v : K) * (mx - mn + 1 / 10 ^ 10) ≤ 255 * (x - mn) ∧
        255 * (x - mn) < ((v : K) + 1) * (mx - mn + 1 / 10 ^ 10)) ⟨by simp [ht], fun k x hk => by omega⟩ (by
      rintro i o hi ⟨ho, hv⟩
      have hm : t.data[i] ∈ t.data := List.getElem_mem hi
      obtain ⟨v, v1, v2, v3⟩ := toByte_ok (m3.2 _ hm) (m2 _ (List.mem_cons_of_mem _ hm))
      refine ⟨o.set i v, ?_, by simpa using ho, fun k x hk hx => ?_⟩
      · rw [rd_ok (List.getElem?_eq_getElem hi), bind_ok, v1, bind_ok, wr_ok (by omega)]
      · by_cases e : k = i
        · subst e
          rw [List.getElem?_eq_getElem hi] at hx
          cases hx
          exact ⟨v, List.getElem?_set_self (by omega), v2, v3⟩
        · obtain ⟨v', w1, w2⟩ := hv k x (by omega) hx
          exact ⟨v', by rw [List.getElem?_set_ne (Ne.symm e), w1], w2⟩)
  refine ⟨mx, mn, d, ?_, e1, fun x hx => m2 x (List.mem_cons_of_mem _ hx), m2 _ (by simp), m3, d1, fun k x hx => d2 k x ?_ hx⟩
  · unfold imwrite
    rw [e1, bind_ok, e2, bind_ok, e3, bind_ok]
  · by_contra hk
    rw [List.getElem?_eq_none (by omega)] at hx
    cases hx

/-- The picture that `imwrite` leaves in a `.png` file, one byte for every element. -/
theorem imwrite_png (numMin numMax : K) (store : Store) (hs : PngLossless store) (files : Files) (a : List Char) (w h ch : Nat) (d : List K) (hd : d.length = w * h * ch)
    (hw : 0 < w) (hh : 0 < h) (hc : ch = 1 ∨ ch = 3 ∨ ch = 4) (hmax : ∀ x ∈ d, x ≤ numMax) :
    ∃ mx mn b files', imwrite numMin numMax store files (a ++ ['.', 'p', 'n', 'g']) ⟨[w, h, ch], d⟩ = ok (true, files') ∧
      files' (a ++ ['.', 'p', 'n', 'g']) = some ⟨w, h, ch, b⟩ ∧ (∀ p, p ≠ a ++ ['.', 'p', 'n', 'g'] → files' p = files p) ∧
      Data.maxAll numMin (⟨[w, h, ch], d⟩ : Ten K) = ok mx ∧ (∀ x ∈ d, x ≤ mx) ∧ numMin ≤ mx ∧ Data.IsSmallest d mn ∧ b.length = d.length ∧
      ∀ (k : Nat) x, d[k]? = some x → ∃ v : Nat, b[k]? = some v ∧ (v : K) * (mx - mn + 1 / 10 ^ 10) ≤ 255 * (x - mn) ∧
        255 * (x - mn) < ((v : K) + 1) * (mx - mn + 1 / 10 ^ 10) := by
  have hpos : 0 < w * h * ch := Nat.mul_pos (Nat.mul_pos hw hh) (by omega)
  obtain ⟨mx, mn, b, e1, e2, e3, e4, e5, e6, e7⟩ := imwrite_bytes numMin numMax store files (a ++ ['.', 'p', 'n', 'g']) ⟨[w, h, ch], d⟩ (by simp [hd, Nat.mul_assoc])
    (by rintro h0; simp only at h0; rw [h0] at hd; simp at hd; omega) hmax
  refine ⟨mx, mn, b, fun p => if p = a ++ ['.', 'p', 'n', 'g'] then some ⟨w, h, ch, b⟩ else files p, ?_, if_pos rfl, fun p hp => if_neg hp, e2, e3, e4, e5, e6, e7⟩
  rw [e1, direct_3 (target_format a ['p', 'n', 'g'] (by decide)).1, if_pos hc, (target_format a ['p', 'n', 'g'] (by decide)).2.1 rfl]
  exact writeAs_png hs (by rw [e6]; exact hd) hw hh (by omega)

/-- C129 for pictures of numbers, when some element reaches `numMin` (the smallest positive number of the type): the bytes in the file are the elements scaled between the
smallest and the largest - the smallest is 0 (black), a larger element is never darker, and every byte is within one step of `255 * (x - m) / (M - m)` as far as the
constant `1e-10` in the denominator allows.  Missing: all elements below `numMin`; 255 (white) for the largest. -/
theorem scaled_partial (numMin numMax : K) (store : Store) (hs : PngLossless store) (files : Files) (a : List Char) (w h ch : Nat) (d : List K) (hd : d.length = w * h * ch)
    (hw : 0 < w) (hh : 0 < h) (hc : ch = 1 ∨ ch = 3 ∨ ch = 4) (hmax : ∀ x ∈ d, x ≤ numMax) (hmin : ∃ x ∈ d, numMin ≤ x) (M m : K) (hM : Data.IsLargest d M)
    (hm : Data.IsSmallest d m) :
    ∃ b files', imwrite numMin numMax store files (a ++ ['.', 'p', 'n', 'g']) ⟨[w, h, ch], d⟩ = ok (true, files') ∧
      files' (a ++ ['.', 'p', 'n', 'g']) = some ⟨w, h, ch, b⟩ ∧ (∀ p, p ≠ a ++ ['.', 'p', 'n', 'g'] → files' p = files p) ∧ b.length = d.length ∧
      (∀ k : Nat, d[k]? = some m → b[k]? = some 0) ∧
      (∀ (j k : Nat) x y u v, d[j]? = some x → d[k]? = some y → b[j]? = some u → b[k]? = some v → x ≤ y → u ≤ v) ∧
      ∀ (k : Nat) x, d[k]? = some x → ∃ v : Nat, b[k]? = some v ∧ (v : K) * (M - m) ≤ 255 * (x - m) ∧ 255 * (x - m) < ((v : K) + 1) * (M - m + 1 / 10 ^ 10) := by
  obtain ⟨mx, mn, b, files', e1, e2, e3, e4, -, -, e5, e6, e7⟩ := imwrite_png numMin numMax store hs files a w h ch d hd hw hh hc hmax
  obtain ⟨M', e8, e9⟩ := Data.max_partial numMin (⟨[w, h, ch], d⟩ : Ten K) hmin
  rw [e4] at e8
  cases e8
  obtain rfl : mx = M := le_antisymm (hM.2 _ e9.1) (e9.2 _ hM.1)
  obtain rfl : mn = m := le_antisymm (e5.2 _ hm.1) (hm.2 _ e5.1)
  have he : (0 : K) < 1 / 10 ^ 10 := by positivity
  have hmM : mn ≤ mx := hM.2 _ hm.1
  have hD : 0 < mx - mn + 1 / 10 ^ 10 := by linarith
  refine ⟨b, files', e1, e2, e3, e6, fun k hk => ?_, fun j k x y u v hj hk hu hv hxy => ?_, fun k x hk => ?_⟩
  · obtain ⟨v, v1, v2, -⟩ := e7 k _ hk
    rw [sub_self, mul_zero] at v2
    have : (v : K) ≤ 0 := by
      by_contra hv
      have := mul_pos (not_le.mp hv) hD
      linarith
    have : v = 0 := by exact_mod_cast le_antisymm this (Nat.cast_nonneg v)
    rw [v1, this]
  · obtain ⟨u', u1, u2, -⟩ := e7 j x hj
    obtain ⟨v', v1, -, v3⟩ := e7 k y hk
    rw [hu] at u1
    rw [hv] at v1
    cases u1
    cases v1
    have : (u : K) * (mx - mn + 1 / 10 ^ 10) < ((v : K) + 1) * (mx - mn + 1 / 10 ^ 10) := by linarith
    have : (u : K) < (v : K) + 1 := lt_of_mul_lt_mul_right this hD.le
    have : u < v + 1 := by exact_mod_cast this
    omega
  · obtain ⟨v, v1, v2, v3⟩ := e7 k x hk
    exact ⟨v, v1, by nlinarith [(Nat.cast_nonneg v : (0 : K) ≤ v)], v3⟩

/-- C129 fails for white: no byte of a picture of numbers is ever 255, not even that of the largest element. -/
theorem no_white_violated (numMin numMax : K) (store : Store) (hs : PngLossless store) (files : Files) (a : List Char) (w h ch : Nat) (d : List K)
    (hd : d.length = w * h * ch) (hw : 0 < w) (hh : 0 < h) (hc : ch = 1 ∨ ch = 3 ∨ ch = 4) (hmax : ∀ x ∈ d, x ≤ numMax) :
    ∃ b files', imwrite numMin numMax store files (a ++ ['.', 'p', 'n', 'g']) ⟨[w, h, ch], d⟩ = ok (true, files') ∧
      files' (a ++ ['.', 'p', 'n', 'g']) = some ⟨w, h, ch, b⟩ ∧ b.length = d.length ∧ ∀ v ∈ b, v < 255 := by
  obtain ⟨mx, mn, b, files', e1, e2, -, -, e3, -, e5, e6, e7⟩ := imwrite_png numMin numMax store hs files a w h ch d hd hw hh hc hmax
  refine ⟨b, files', e1, e2, e6, fun v hv => ?_⟩
  obtain ⟨k, hk, rfl⟩ := List.getElem_of_mem hv
  have he : (0 : K) < 1 / 10 ^ 10 := by positivity
  have hkd : k < d.length := by omega
  obtain ⟨v, v1, v2, -⟩ := e7 k _ (List.getElem?_eq_getElem hkd)
  rw [List.getElem?_eq_getElem hk] at v1
  rw [Option.some.inj v1]
  have h1 := e3 _ (List.getElem_mem hkd)
  have h2 := e5.2 _ (List.getElem_mem hkd)
  by_contra hv
  have : (255 : K) ≤ v := by exact_mod_cast not_lt.mp hv
  nlinarith

/-- C129 fails for pictures of negative numbers: the largest is taken to be `numMin`.  With all elements between `2 * M` and `M`, `M` negative, everything is in the
darker half. -/
theorem negative_dark_violated (numMin numMax : K) (hn : 0 < numMin) (store : Store) (hs : PngLossless store) (files : Files) (a : List Char) (w h ch : Nat) (d : List K)
    (hd : d.length = w * h * ch) (hw : 0 < w) (hh : 0 < h) (hc : ch = 1 ∨ ch = 3 ∨ ch = 4) (hmax : ∀ x ∈ d, x ≤ numMax) (M : K) (hM : Data.IsLargest d M) (h0 : M < 0)
    (h2 : ∀ x ∈ d, 2 * M ≤ x) :
    ∃ b files', imwrite numMin numMax store files (a ++ ['.', 'p', 'n', 'g']) ⟨[w, h, ch], d⟩ = ok (true, files') ∧
      files' (a ++ ['.', 'p', 'n', 'g']) = some ⟨w, h, ch, b⟩ ∧ b.length = d.length ∧ ∀ v ∈ b, v ≤ 127 := by
  obtain ⟨mx, mn, b, files', e1, e2, -, -, -, e3, e5, e6, e7⟩ := imwrite_png numMin numMax store hs files a w h ch d hd hw hh hc hmax
  refine ⟨b, files', e1, e2, e6, fun v hv => ?_⟩
  obtain ⟨k, hk, rfl⟩ := List.getElem_of_mem hv
  have he : (0 : K) < 1 / 10 ^ 10 := by positivity
  have hkd : k < d.length := by omega
  obtain ⟨v, v1, v2, -⟩ := e7 k _ (List.getElem?_eq_getElem hkd)
  rw [List.getElem?_eq_getElem hk] at v1
  rw [Option.some.inj v1]
  have h1 := hM.2 _ (List.getElem_mem hkd)
  have h3 := h2 _ e5.1
  have h4 := hM.2 _ e5.1
  by_contra hv
  have : (128 : K) ≤ v := by exact_mod_cast not_le.mp hv
  nlinarith

/-- C129 fails for pictures of little contrast: if the elements are within `1e-10 / 254` of each other, everything is black. -/
theorem low_contrast_violated (numMin numMax : K) (store : Store) (hs : PngLossless store) (files : Files) (a : List Char) (w h ch : Nat) (d : List K)
    (hd : d.length = w * h * ch) (hw : 0 < w) (hh : 0 < h) (hc : ch = 1 ∨ ch = 3 ∨ ch = 4) (hmax : ∀ x ∈ d, x ≤ numMax)
    (hr : ∀ x ∈ d, ∀ y ∈ d, 254 * (x - y) < 1 / 10 ^ 10) :
    ∃ files', imwrite numMin numMax store files (a ++ ['.', 'p', 'n', 'g']) ⟨[w, h, ch], d⟩ = ok (true, files') ∧
      files' (a ++ ['.', 'p', 'n', 'g']) = some ⟨w, h, ch, List.replicate d.length 0⟩ := by
  obtain ⟨mx, mn, b, files', e1, e2, -, -, e3, -, e5, e6, e7⟩ := imwrite_png numMin numMax store hs files a w h ch d hd hw hh hc hmax
  refine ⟨files', e1, ?_⟩
  rw [e2]
  suffices b = List.replicate d.length 0 by rw [this]
  refine List.eq_replicate_iff.mpr ⟨e6, fun v hv => ?_⟩
  obtain ⟨k, hk, rfl⟩ := List.getElem_of_mem hv
  have he : (0 : K) < 1 / 10 ^ 10 := by positivity
  have hkd : k < d.length := by omega
  obtain ⟨v, v1, v2, -⟩ := e7 k _ (List.getElem?_eq_getElem hkd)
  rw [List.getElem?_eq_getElem hk] at v1
  rw [Option.some.inj v1]
  have h1 := e3 _ (List.getElem_mem hkd)
  have h2 := hr _ (List.getElem_mem hkd) _ e5.1
  have h4 := e5.2 _ (List.getElem_mem hkd)
  by_contra hv
  have : (1 : K) ≤ v := by exact_mod_cast Nat.one_le_iff_ne_zero.mpr hv
  nlinarith

omit [IsStrictOrderedRing K] in
/-- A tensor without elements stops in `amax`. -/
theorem imwrite_empty (numMin numMax : K) (store : Store) (files : Files) (path : List Char) (shape : List Nat) :
    imwrite numMin numMax store files path ⟨shape, []⟩ = abort := by
  simp [imwrite, Data.maxAll]

/-! ### the hypotheses can be met -/

private def some2 : Store := fun _ i => some i

private theorem some2_png : PngLossless some2 := fun _ _ _ _ _ => rfl

example := scaled_partial (K := ℚ) (1 / 2 ^ 126) (2 ^ 127) some2 some2_png (fun _ => none) ['a'] 1 2 1 [-1, 3] rfl (by decide) (by decide) (.inl rfl)
  (by simp; norm_num) ⟨3, by simp, by norm_num⟩ 3 (-1) ⟨by simp, by simp; norm_num⟩ ⟨by simp, by simp; norm_num⟩

example := negative_dark_violated (K := ℚ) (1 / 2 ^ 126) (2 ^ 127) (by positivity) some2 some2_png (fun _ => none) ['a'] 1 2 1 [-1, -2] rfl (by decide) (by decide) (.inl rfl)
  (by simp; norm_num) (-1) ⟨by simp, by simp⟩ (by norm_num) (by simp)

example := low_contrast_violated (K := ℚ) (1 / 2 ^ 126) (2 ^ 127) some2 some2_png (fun _ => none) ['a'] 1 2 1 [1, 1 + 1 / 10 ^ 13] rfl (by decide) (by decide) (.inl rfl)
  (by simp; norm_num) (by simp; norm_num)

example := no_white_violated (K := ℚ) (1 / 2 ^ 126) (2 ^ 127) some2 some2_png (fun _ => none) ['a'] 1 2 1 [1, 2] rfl (by decide) (by decide) (.inl rfl) (by simp; norm_num)

example := read_write_partial some2 some2_png (fun p => if p = ['b'] then some ⟨2, 1, 3, [1, 2, 3, 4, 5, 6]⟩ else none) ['b'] ['a'] ⟨2, 1, 3, [1, 2, 3, 4, 5, 6]⟩ (by simp)
  rfl (by decide) (by decide) (.inr (.inl rfl))

example := write_read some2 some2_png (fun _ => none) ['a'] 2 1 3 [1, 2, 3, 4, 5, 6] rfl (by decide) (by decide) (.inr (.inl rfl))

example := two_channels_violated some2 (fun _ => some ⟨1, 1, 2, [7, 255]⟩) ['b'] ['a'] ⟨1, 1, 2, [7, 255]⟩ rfl rfl rfl

example := square_pixels_partial (fun _ => some ⟨2, 2, 1, [1, 2, 3, 4]⟩) ['b'] ⟨2, 2, 1, [1, 2, 3, 4]⟩ rfl rfl rfl

example := pixel_order_violated 3 2 (by decide) (by decide) (by decide) (fun _ => none) ['b']

end Verif.Image
