import Verif.Conv.Trans
/-!
# C104: the size of a transposed convolution with strides
-/
namespace Verif.Conv
open Verif Res View Data Pool

variable {α : Type}

theorem isT_getD [Zero α] {d : List α} {s : List Nat} (h : d.length = size s) : IsT d s (fun is => d.getD (flat s is) 0) := by
  refine ⟨h, fun is hv => ?_⟩
  have := flat_lt hv
  dsimp only
  rw [List.getD_eq_getElem?_getD, List.getElem?_eq_getElem (by omega)]; rfl

/-- The extents of the result, for any strides and any number of channels; no dilation.  `pr`, `pc` are the paddings of
`general_conv2d`. -/
theorem conv2d_transpose_shape [CommSemiring α] (t filter : Ten α) (k : TCache α) (same : Bool) (BS R C CH NC kr kc sr sc pr pc : Nat)
    (a : List Nat → α) (ht : t.Has [BS, R, C, CH] a) (hfs : filter.shape = [NC, kr, kc, CH]) (hfl : filter.data.length = NC * kr * kc * CH)
    (hkr : 1 ≤ kr) (hkc : 1 ≤ kc) (hsr : 1 ≤ sr) (hsc : 1 ≤ sc) (hCH : CH ≠ 0) (hNC : NC ≠ 0)
    (hsz : BS * spreadDim R kr sr same * spreadDim C kc sc same * CH < 2 ^ 32) (hK : kr * kc * CH < 2 ^ 64 - 1) (hN : NC < 2 ^ 64 - 1)
    (hrec : k.record = [])
    (hp : same = false ∧ pr = 0 ∧ pc = 0 ∨ same = true ∧ sr ≤ kr ∧ sc ≤ kc ∧ pr = paddingFor kr sr 1 ∧ pc = paddingFor kc sc 1)
    (hpp : pr = pc) (hfr : kr ≤ spreadDim R kr sr same + 2 * pr) (hfc : kc ≤ spreadDim C kc sc same + 2 * pc) :
    ∃ u rec, conv2dTranspose kr kc sr sc 1 1 same t filter k = ok (u, rec) ∧
      u.shape = [BS, outDim (spreadDim R kr sr same) kr pr sr 1, outDim (spreadDim C kc sc same) kc pc sc 1, NC] := by
  obtain ⟨s, s1, s2⟩ := spread_values (same := same) (kr := kr) (kc := kc) k.spread ht hkr hkc hsr hsc
  obtain ⟨f, g, f1, f2, f3⟩ := flipped_filter (filter := filter) (w := fun is => filter.data.getD (flat [NC, kr, kc, CH] is) 0)
    ⟨hfs, isT_getD (by rw [hfl, size4])⟩ (by
    simp only [size_cons, size_nil]
    exact Nat.mul_ne_zero hNC (Nat.mul_ne_zero (by omega) (Nat.mul_ne_zero (by omega) (by omega)))) k.flip2 k.flip1
  obtain ⟨u, r, e1, _, e3⟩ := convWith_ok ⟨kr, kc, pr, pc, sr, sc, 1, 1⟩ s g k.col k.tr k.record BS _ _ CH NC kr kc _ _ s2
    ⟨hkr, hkc, hsr, hsc, by simp only; omega, by simp only; omega⟩ hsz (by rw [hrec]; exact recFor_nil)
    f3.1 (isT_getD (s := [NC, CH, kr, kc]) (by rw [f3.2.1, size4, size4]; ring)) hCH hNC (by unfold minusOne; simp only; omega)
    (by unfold minusOne; omega) (by simp only [hpp]) (by simp only; omega)
  refine ⟨u, r, ?_, e3.1⟩
  unfold conv2dTranspose
  rw [s1, bind_ok, f1, bind_ok, f2, bind_ok]
  unfold generalConv2d
  rw [s2.1, f3.1]
  dsimp only
  rcases hp with ⟨rfl, rfl, rfl⟩ | ⟨rfl, h1, h2, rfl, rfl⟩
  · exact e1
  · rw [if_pos rfl]
    unfold sameGeoGeneral
    rw [sameTotal_ok hkr (Nat.le_refl _) (by omega), bind_ok, sameTotal_ok hkc (Nat.le_refl _) (by omega), bind_ok]
    exact e1

theorem strided_rows_lt {n k s : Nat} (hn : 2 ≤ n) (hk : 1 ≤ k) (hs : 2 ≤ s) : outDim (spreadDim n k s false) k 0 s 1 < tconvDim n k s := by
  have h1 : outDim (spreadDim n k s false) k 0 s 1 = (n * s + k - 2) / s + 1 := by
    have : 1 ≤ n * s := Nat.mul_pos (by omega) (by omega)
    unfold outDim spreadDim
    simp only [Bool.false_eq_true, if_false]
    congr 2
    omega
  rw [h1]
  unfold tconvDim
  have h3 : (n - 1) * 2 ≤ (n - 1) * s := Nat.mul_le_mul_left _ hs
  rcases Nat.lt_or_ge k 2 with h | h
  · obtain rfl : k = 1 := by omega
    have : (n * s + 1 - 2) / s < n := by rw [Nat.div_lt_iff_lt_mul (by omega)]; have : 1 ≤ n * s := Nat.mul_pos (by omega) (by omega); omega
    omega
  · rw [show n * s + k - 2 = (k - 2) + n * s by omega, Nat.add_mul_div_right _ _ (by omega)]
    have : (k - 2) / s ≤ (k - 2) / 2 := by
      rw [Nat.le_div_iff_mul_le (by omega)]
      exact Nat.le_trans (Nat.mul_le_mul_left _ hs) (Nat.div_mul_le_self _ _)
    omega

/-- C104 is false of the code for padding `"valid"`: for every image of at least two rows and every row stride of at least 2, the result
has fewer rows than a transposed convolution has - whatever the image, the filters and the other extents. -/
theorem conv2d_transpose_stride_violated [CommSemiring α] (t filter : Ten α) (k : TCache α) (BS R C CH NC kr kc sr sc : Nat)
    (a : List Nat → α) (ht : t.Has [BS, R, C, CH] a) (hfs : filter.shape = [NC, kr, kc, CH]) (hfl : filter.data.length = NC * kr * kc * CH)
    (hkr : 1 ≤ kr) (hkc : 1 ≤ kc) (hsr : 2 ≤ sr) (hsc : 1 ≤ sc) (hR : 2 ≤ R) (hC : 1 ≤ C) (hCH : CH ≠ 0) (hNC : NC ≠ 0)
    (hsz : BS * (R * sr + (kr * 2 - 2)) * (C * sc + (kc * 2 - 2)) * CH < 2 ^ 32) (hK : kr * kc * CH < 2 ^ 64 - 1) (hN : NC < 2 ^ 64 - 1)
    (hrec : k.record = []) :
    ∃ u rec H W, conv2dTranspose kr kc sr sc 1 1 false t filter k = ok (u, rec) ∧ u.shape = [BS, H, W, NC] ∧ H < tconvDim R kr sr := by
  have h1 := spreadDim_valid_fit (n := R) (k := kr) (s := sr) (by omega) (by omega) hkr
  have h2 := spreadDim_valid_fit (n := C) (k := kc) (s := sc) hC hsc hkc
  obtain ⟨u, r, e1, e2⟩ := conv2d_transpose_shape t filter k false BS R C CH NC kr kc sr sc 0 0 a ht hfs hfl hkr hkc (by omega) hsc hCH hNC
    (by simpa [spreadDim] using hsz) hK hN hrec (Or.inl ⟨rfl, rfl, rfl⟩) rfl (by omega) (by omega)
  exact ⟨u, r, _, _, e1, e2, strided_rows_lt hR hkr hsr⟩

theorem same_rows_le {n k s : Nat} (hn : 2 ≤ n) (hs : 2 ≤ s) (hk : s ≤ k) :
    k ≤ n * s + 2 * paddingFor k s 1 ∧ outDim (n * s) k (paddingFor k s 1) s 1 ≤ n := by
  have h0 : 2 * s ≤ n * s := Nat.mul_le_mul_right _ hn
  have h1 : 2 * paddingFor k s 1 ≤ k % 2 + (k - s) ∧ k - s ≤ 2 * paddingFor k s 1 + 1 := by
    unfold paddingFor; omega
  refine ⟨by omega, ?_⟩
  unfold outDim
  have : (n * s + 2 * paddingFor k s 1 - (1 * (k - 1) + 1)) / s < n := by
    rw [Nat.div_lt_iff_lt_mul (by omega)]
    omega
  omega

/-- C104 is false of the code for padding `"same"`, a square kernel at least as large as the stride: no larger than the image, for every
stride of at least 2 - a transposed convolution has `R * s` rows. -/
theorem conv2d_transpose_same_stride_violated [CommSemiring α] (t filter : Ten α) (k : TCache α) (BS R C CH NC K s : Nat)
    (a : List Nat → α) (ht : t.Has [BS, R, C, CH] a) (hfs : filter.shape = [NC, K, K, CH]) (hfl : filter.data.length = NC * K * K * CH)
    (hs : 2 ≤ s) (hKs : s ≤ K) (hR : 2 ≤ R) (hC : 2 ≤ C) (hCH : CH ≠ 0) (hNC : NC ≠ 0)
    (hsz : BS * (R * s) * (C * s) * CH < 2 ^ 32) (hK : K * K * CH < 2 ^ 64 - 1) (hN : NC < 2 ^ 64 - 1) (hrec : k.record = []) :
    ∃ u rec H W, conv2dTranspose K K s s 1 1 true t filter k = ok (u, rec) ∧ u.shape = [BS, H, W, NC] ∧ H ≤ R ∧ W ≤ C ∧ H < R * s := by
  obtain ⟨u, r, e1, e2⟩ := conv2d_transpose_shape t filter k true BS R C CH NC K K s s (paddingFor K s 1) (paddingFor K s 1) a ht hfs hfl
    (by omega) (by omega) (by omega) (by omega) hCH hNC (by simpa [spreadDim] using hsz) hK hN hrec (Or.inr ⟨rfl, hKs, hKs, rfl, rfl⟩) rfl
    (by simpa [spreadDim] using (same_rows_le hR hs hKs).1) (by simpa [spreadDim] using (same_rows_le hC hs hKs).1)
  simp only [spreadDim, if_true] at e2
  have h1 := (same_rows_le hR hs hKs).2
  have h2 := (same_rows_le hC hs hKs).2
  have h3 : R * 2 ≤ R * s := Nat.mul_le_mul_left _ hs
  exact ⟨u, r, _, _, e1, e2, h1, h2, by omega⟩

/-- A pixel row `1 2` under a filter row `1 10 100` with stride 2: the transposed convolution is `1 10 102 20 200`, the code computes
`1 102 200`. -/
example : conv2dTranspose 1 3 1 2 1 1 false ⟨[1, 1, 2, 1], [1, (2 : Int)]⟩ ⟨[1, 1, 3, 1], [1, 10, 100]⟩
      ⟨⟨[], []⟩, ⟨[], []⟩, ⟨[], []⟩, ⟨[], []⟩, ⟨[], []⟩, []⟩ =
      ok (⟨[1, 1, 3, 1], [1, 102, 200]⟩, [0, 2, 4, 1, 3, 5, 2, 4, 6]) ∧
    (List.range 5).map (fun x => tconv 1 3 1 2 1 2 1 (fun is => [1, (2 : Int)].getD (is.getD 2 0) 0)
      (fun _ _ tc _ => [1, 10, (100 : Int)].getD tc 0) 0 0 x 0) = [1, 10, 102, 20, 200] := by
  constructor <;> decide +kernel

/-- A case meeting the hypotheses of `conv2d_transpose_valid_partial`: two rows `1 2` under a filter of two rows `1 10`, after a run that
left other tensors in the caches. -/
example : conv2dTranspose 2 1 1 1 1 1 false ⟨[1, 2, 1, 1], [1, (2 : Int)]⟩ ⟨[1, 2, 1, 1], [1, 10]⟩
      ⟨⟨[1, 4, 1, 1], [7, 7, 7, 7]⟩, ⟨[2], [1, 2]⟩, ⟨[], []⟩, ⟨[9], [9]⟩, ⟨[], []⟩, []⟩ =
      ok (⟨[1, 3, 1, 1], [1, 12, 20]⟩, [0, 1, 2, 1, 2, 3]) := by decide +kernel

/-- `conv2d_transpose_same_partial` with `m = 1`. -/
example : conv2dTranspose 3 3 1 1 1 1 true ⟨[1, 1, 2, 1], [1, (2 : Int)]⟩ ⟨[1, 3, 3, 1], [0, 0, 0, 1, 10, 100, 0, 0, 0]⟩
      ⟨⟨[], []⟩, ⟨[], []⟩, ⟨[], []⟩, ⟨[], []⟩, ⟨[], []⟩, []⟩ >>= (fun p => ok p.1) = ok ⟨[1, 1, 2, 1], [12, 120]⟩ := by decide +kernel

/-- `conv2d_transpose_stride_violated`: 2 rows, kernel 3, stride 2: 3 rows instead of 5. -/
example : outDim (spreadDim 2 3 2 false) 3 0 2 1 = 3 ∧ tconvDim 2 3 2 = 5 ∧ outDim (2 * 2) 3 (paddingFor 3 2 1) 2 1 = 2 := by decide

end Verif.Conv
