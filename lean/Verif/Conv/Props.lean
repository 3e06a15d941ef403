import Verif.Conv.Img2col
import Verif.Gemm.Props
/-!
# C37, C38, C78: conv2d
-/
namespace Verif.Conv
open Verif Res View Data

variable {α : Type}

theorem reshapeOp_ok [Zero α] {t : Ten α} {shape : List Nat} {n : Nat} (hne : size shape ≠ 0) (hs : shape ≠ [])
    (hm : shape.getLast? ≠ some minusOne) (hl : t.data.length = n * size shape) : reshapeOp shape t = ok ⟨n :: shape, t.data⟩ := by
  unfold reshapeOp
  have hd : t.data.length / size shape = n := by rw [hl]; exact Nat.mul_div_cancel _ (Nat.pos_of_ne_zero hne)
  rw [require_true hne, bind_ok]
  dsimp only
  rw [hd, assert_true hl.symm, bind_ok]
  refine reshapeV_same (by simp) ?_ (by simpa using hl)
  obtain ⟨x, xs, rfl⟩ := List.exists_cons_of_ne_nil hs
  simpa using hm

theorem sum_range_mul [AddCommMonoid α] (m n : Nat) (f : Nat → α) :
    ∑ l ∈ Finset.range (m * n), f l = ∑ i ∈ Finset.range m, ∑ j ∈ Finset.range n, f (i * n + j) := by
  induction m with
  | zero => simp
  | succ m ih => rw [Nat.succ_mul, Finset.sum_range_add, ih, Finset.sum_range_succ]

theorem sum_taps [AddCommMonoid α] (CH kr kc : Nat) (f : Nat → α) :
    ∑ l ∈ Finset.range (kr * kc * CH), f l =
      ∑ ch ∈ Finset.range CH, ∑ tr ∈ Finset.range kr, ∑ tc ∈ Finset.range kc, f ((ch * kr + tr) * kc + tc) := by
  rw [show kr * kc * CH = CH * kr * kc by ring, sum_range_mul, sum_range_mul]

theorem outDim_pos (len k p s d : Nat) : 0 < outDim len k p s d := Nat.succ_pos _

/-- The specification of the result: shape `[BS, oR, oC, NC]`, each element the direct convolution. -/
def IsConv [CommSemiring α] (u : Ten α) (g : Geo) (BS R C CH NC : Nat) (a : List Nat → α) (w : Nat → Nat → Nat → Nat → α) : Prop :=
  u.Has [BS, outDim R g.kr g.pr g.sr g.dr, outDim C g.kc g.pc g.sc g.dc, NC]
    (fun is => direct g R C CH a w (is.getD 0 0) (is.getD 1 0) (is.getD 2 0) (is.getD 3 0))

theorem convWith_ok [CommSemiring α] (g : Geo) (t filter cache cacheT : Ten α) (rec : List Nat) (BS R C CH NC k1 k2 : Nat)
    (a w : List Nat → α) (ht : t.Has [BS, R, C, CH] a) (hfit : g.Fits R C) (hsz : BS * R * C * CH < 2 ^ 32)
    (hrec : RecFor g BS R C CH rec ∨ rec.length ≠ g.kr * g.kc * CH * colsOf g BS R C)
    (hfs : filter.shape = [NC, k1, k2, CH]) (hfd : IsT filter.data [NC, CH, g.kr, g.kc] w) (hCH : CH ≠ 0) (hNC : NC ≠ 0)
    (hK : g.kr * g.kc * CH ≠ minusOne) (hN : NC ≠ minusOne)
    (hcol : outDim C g.kc g.pr g.sc g.dc = outDim C g.kc g.pc g.sc g.dc) (hfit' : g.dc * (g.kc - 1) + 1 ≤ C + 2 * g.pr) :
    ∃ u rec', convWith g R C t filter cache cacheT rec = ok (u, rec') ∧ RecFor g BS R C CH rec' ∧
      IsConv u g BS R C CH NC a (fun n tr tc ch => w [n, ch, tr, tc]) := by
  obtain ⟨d, rec', h1, h2, h3, h4⟩ := img2col_pos g t cache rec BS R C CH a ht hfit (by unfold mark; omega) hrec
  have hkr : g.kr ≠ 0 := by have := hfit.1; omega
  have hkc : g.kc ≠ 0 := by have := hfit.2.1; omega
  have hKne : g.kr * g.kc * CH ≠ 0 := Nat.mul_ne_zero (Nat.mul_ne_zero hkr hkc) hCH
  have hfl : filter.data.length = NC * (g.kr * g.kc * CH) := by rw [hfd.1]; simp; left; ring
  have hf := reshapeOp_ok (t := filter) (shape := [g.kr * g.kc * CH]) (n := NC) (by simpa using hKne) (by simp) (by simpa using hK)
    (by simpa using hfl)
  -- the two matrices
  have hA : Is2 filter.data NC (g.kr * g.kc * CH) (fun n l => w [n, l / g.kc / g.kr, l / g.kc % g.kr, l % g.kc]) := by
    refine ⟨hfl, fun n l hn hl => ?_⟩
    obtain ⟨ch, tr, tc, q1, q2, q3, rfl⟩ := exists_dec3 (l := CH) (m := g.kr) (n := g.kc) (p := l) (by
      rw [show CH * g.kr * g.kc = g.kr * g.kc * CH by ring]; exact hl)
    have := hfd.2 [n, ch, tr, tc] ⟨hn, q1, q2, q3, trivial⟩
    dsimp only
    rw [(div_mod_eq q3).1, (div_mod_eq q3).2, (div_mod_eq q2).1, (div_mod_eq q2).2, ← this]
    congr 1
    simp; ring
  have hB : Is2 d (g.kr * g.kc * CH) (colsOf g BS R C) (fun l c => match srcAt g BS R C CH (l * colsOf g BS R C + c) with
        | none => 0
        | some q => a (unflat [BS, R, C, CH] q)) := ⟨h3, fun l c hl hc => h4 _ (lt_mul_of_lt hl hc)⟩
  obtain ⟨P, p1, p2⟩ := Gemm.gemm_is_matrix_product filter.data d (List.replicate (NC * colsOf g BS R C) 0) false false NC
    (g.kr * g.kc * CH) (colsOf g BS R C) _ _ (by simpa [Gemm.Stores] using hA) (by simpa [Gemm.Stores] using hB) (by simp)
  obtain ⟨T, t1, t2, t3⟩ := transpose_values cacheT ⟨[NC, colsOf g BS R C], P⟩ NC (colsOf g BS R C)
    (fun is => P.getD (is.getD 0 0 * colsOf g BS R C + is.getD 1 0) 0) ⟨rfl, by simpa using p2.1, fun is hv => by
      match is, hv with
      | [n, c], hv =>
        have := p2.2 n c hv.1 hv.2.1
        simp [this]⟩
  have hTl : T.data.length = BS * (outDim R g.kr g.pr g.sr g.dr * outDim C g.kc g.pc g.sc g.dc * NC) := by
    rw [t3.1]; simp [colsOf]; ring
  have ho := reshapeOp_ok (t := T) (shape := [outDim R g.kr g.pr g.sr g.dr, outDim C g.kc g.pc g.sc g.dc, NC]) (n := BS)
    (by
      have := outDim_pos R g.kr g.pr g.sr g.dr
      have := outDim_pos C g.kc g.pc g.sc g.dc
      simp only [size_cons, size_nil]
      exact Nat.mul_ne_zero (by omega) (Nat.mul_ne_zero (by omega) (by omega))) (by simp) (by simpa using hN)
    (by rw [hTl]; simp [Nat.mul_assoc])
  refine ⟨⟨[BS, outDim R g.kr g.pr g.sr g.dr, outDim C g.kc g.pc g.sc g.dc, NC], T.data⟩, rec', ?_, h2, rfl,
    by simp only [hTl, size_cons, size_nil]; ring, fun is hv => ?_⟩
  · unfold convWith
    rw [hfs]
    dsimp only
    rw [h1, bind_ok, hf, bind_ok]
    dsimp only
    unfold Gemm.gemmView
    simp only [assert_true, bind_ok]
    rw [p1, bind_ok, t1, bind_ok]
    have := hfit.2.2.2.2.1
    rw [require_true ⟨this, hfit'⟩, bind_ok, hcol, ho]; rfl
  · match is, hv with
    | [b, i, j, n], ⟨hb, hi, hj, hn, _⟩ =>
      have hc : (b * outDim R g.kr g.pr g.sr g.dr + i) * outDim C g.kc g.pc g.sc g.dc + j < colsOf g BS R C := idx3_lt hb hi hj
      have e1 := t3.2 [(b * outDim R g.kr g.pr g.sr g.dr + i) * outDim C g.kc g.pc g.sc g.dc + j, n] ⟨hc, hn, trivial⟩
      have e2 := p2.2 n _ hn hc
      simp only [List.getD_cons_zero, List.getD_cons_succ] at e1 ⊢
      rw [List.getD_eq_getElem?_getD, e2, Option.getD_some] at e1
      have e3 : flat [BS, outDim R g.kr g.pr g.sr g.dr, outDim C g.kc g.pc g.sc g.dc, NC] [b, i, j, n] =
          flat [colsOf g BS R C, NC] [(b * outDim R g.kr g.pr g.sr g.dr + i) * outDim C g.kc g.pc g.sc g.dc + j, n] := by
        simp; ring
      rw [e3, e1]
      congr 1
      unfold direct
      dsimp only
      rw [sum_taps]
      refine Finset.sum_congr rfl (fun ch hch => Finset.sum_congr rfl (fun tr htr => Finset.sum_congr rfl (fun tc htc => ?_)))
      rw [Finset.mem_range] at hch htr htc
      rw [srcAt_enc hb htr htc hi hj, (div_mod_eq htc).1, (div_mod_eq htc).2, (div_mod_eq htr).1, (div_mod_eq htr).2]
      exact congrArg (w [n, ch, tr, tc] * ·) (srcOf_value hb hch)

/-- C37, for padding `"valid"`: `conv2d` built for the image's size gives the direct convolution, each filter being stored channel
by channel (`[NC, CH, kr, kc]`), whatever the caches hold, on first use or with a record of another length.
Missing: `"same"` with unequal row and column padding (see `conv2d_same_columns_violated`), and filters in the documented layout
`[NC, kr, kc, CH]` (C78). -/
theorem conv2d_valid_direct [CommSemiring α] (t filter cache cacheT : Ten α) (BS R C CH NC kr kc sr sc dr dc : Nat)
    (a w : List Nat → α) (ht : t.Has [BS, R, C, CH] a) (hfit : (Geo.mk kr kc 0 0 sr sc dr dc).Fits R C)
    (hsz : BS * R * C * CH < 2 ^ 32) (hfs : filter.shape = [NC, kr, kc, CH]) (hfd : IsT filter.data [NC, CH, kr, kc] w)
    (hCH : CH ≠ 0) (hNC : NC ≠ 0) (hK : kr * kc * CH < 2 ^ 64 - 1) (hN : NC < 2 ^ 64 - 1) :
    ∃ u rec, conv2d R C sr sc dr dc false t filter cache cacheT [] = ok (u, rec) ∧
      IsConv u ⟨kr, kc, 0, 0, sr, sc, dr, dc⟩ BS R C CH NC a (fun n tr tc ch => w [n, ch, tr, tc]) := by
  obtain ⟨u, r, h1, _, h3⟩ := convWith_ok ⟨kr, kc, 0, 0, sr, sc, dr, dc⟩ t filter cache cacheT [] BS R C CH NC kr kc a w ht hfit hsz
    recFor_nil hfs hfd hCH hNC (by unfold minusOne; simp only; omega) (by unfold minusOne; omega) rfl hfit.2.2.2.2.2
  refine ⟨u, r, ?_, h3⟩
  unfold conv2d
  rw [hfs]
  exact h1

/-- The padding of `"same"` used by the code in one direction. -/
def paddingFor (k s d : Nat) : Nat := (k % 2 + (d * (k - 1) + 1 - s)) / 2

theorem sameTotal_ok {k d s : Nat} (hk : 1 ≤ k) (hd : 1 ≤ d) (hs : s ≤ d * (k - 1) + 1) : sameTotal k d s = ok (d * (k - 1) + 1 - s) := by
  have e : k + (k - 1) * (d - 1) = d * (k - 1) + 1 := by
    obtain ⟨k, rfl⟩ := Nat.exists_eq_add_of_le hk
    obtain ⟨d, rfl⟩ := Nat.exists_eq_add_of_le hd
    simp only [Nat.add_sub_cancel_left]; ring
  unfold sameTotal
  rw [require_true ⟨hk, hd, by rw [e]; exact hs⟩, bind_ok, e]; rfl

/-- C37 for padding `"same"`: when the paddings in both directions agree (in particular for square kernels with equal strides and
dilations), the result is the direct convolution with those paddings. -/
theorem conv2d_same_direct_partial [CommSemiring α] (t filter cache cacheT : Ten α) (BS R C CH NC kr kc sr sc dr dc : Nat)
    (a w : List Nat → α) (ht : t.Has [BS, R, C, CH] a)
    (hfit : (Geo.mk kr kc (paddingFor kr sr dr) (paddingFor kc sc dc) sr sc dr dc).Fits R C)
    (hdr : 1 ≤ dr) (hdc : 1 ≤ dc) (hsr : sr ≤ dr * (kr - 1) + 1) (hsc : sc ≤ dc * (kc - 1) + 1)
    (her : (dr * (kr - 1) + 1 - sr) % 2 = 0) (hec : (dc * (kc - 1) + 1 - sc) % 2 = 0)
    (hpad : paddingFor kr sr dr = paddingFor kc sc dc)
    (hsz : BS * R * C * CH < 2 ^ 32) (hfs : filter.shape = [NC, kr, kc, CH]) (hfd : IsT filter.data [NC, CH, kr, kc] w)
    (hCH : CH ≠ 0) (hNC : NC ≠ 0) (hK : kr * kc * CH < 2 ^ 64 - 1) (hN : NC < 2 ^ 64 - 1) :
    ∃ u rec, conv2d R C sr sc dr dc true t filter cache cacheT [] = ok (u, rec) ∧
      IsConv u ⟨kr, kc, paddingFor kr sr dr, paddingFor kc sc dc, sr, sc, dr, dc⟩ BS R C CH NC a (fun n tr tc ch => w [n, ch, tr, tc]) := by
  obtain ⟨u, r, h1, _, h3⟩ := convWith_ok ⟨kr, kc, paddingFor kr sr dr, paddingFor kc sc dc, sr, sc, dr, dc⟩ t filter cache cacheT [] BS R C CH NC
    kr kc a w ht hfit hsz recFor_nil hfs hfd hCH hNC (by unfold minusOne; simp only; omega) (by unfold minusOne; omega)
    (by simp only [hpad]) (by have := hfit.2.2.2.2.2; simp only [hpad] at this ⊢; exact this)
  refine ⟨u, r, ?_, h3⟩
  unfold conv2d
  rw [hfs]
  dsimp only
  rw [if_pos rfl]
  unfold sameGeo
  rw [sameTotal_ok hfit.1 hdr hsr, bind_ok, assert_true her, bind_ok, sameTotal_ok hfit.2.1 hdc hsc, bind_ok, assert_true hec, bind_ok]
  exact h1

/-- C37 for `general_conv2d`, which takes the extents from its operand: padding `"valid"`. -/
theorem general_conv2d_valid_direct [CommSemiring α] (t filter cache cacheT : Ten α) (BS R C CH NC kr kc sr sc dr dc : Nat)
    (a w : List Nat → α) (ht : t.Has [BS, R, C, CH] a) (hfit : (Geo.mk kr kc 0 0 sr sc dr dc).Fits R C)
    (hsz : BS * R * C * CH < 2 ^ 32) (hfs : filter.shape = [NC, kr, kc, CH]) (hfd : IsT filter.data [NC, CH, kr, kc] w)
    (hCH : CH ≠ 0) (hNC : NC ≠ 0) (hK : kr * kc * CH < 2 ^ 64 - 1) (hN : NC < 2 ^ 64 - 1) :
    ∃ u rec, generalConv2d sr sc dr dc false t filter cache cacheT [] = ok (u, rec) ∧
      IsConv u ⟨kr, kc, 0, 0, sr, sc, dr, dc⟩ BS R C CH NC a (fun n tr tc ch => w [n, ch, tr, tc]) := by
  obtain ⟨u, r, h1, h2⟩ := conv2d_valid_direct t filter cache cacheT BS R C CH NC kr kc sr sc dr dc a w ht hfit hsz hfs hfd hCH hNC hK hN
  refine ⟨u, r, ?_, h2⟩
  unfold conv2d at h1
  unfold generalConv2d
  rw [ht.1]
  rw [hfs] at h1 ⊢
  exact h1

/-- C37 for `general_conv2d` and padding `"same"`: as for `conv2d`, and also with odd totals. -/
theorem general_conv2d_same_direct_partial [CommSemiring α] (t filter cache cacheT : Ten α) (BS R C CH NC kr kc sr sc dr dc : Nat)
    (a w : List Nat → α) (ht : t.Has [BS, R, C, CH] a)
    (hfit : (Geo.mk kr kc (paddingFor kr sr dr) (paddingFor kc sc dc) sr sc dr dc).Fits R C)
    (hdr : 1 ≤ dr) (hdc : 1 ≤ dc) (hsr : sr ≤ dr * (kr - 1) + 1) (hsc : sc ≤ dc * (kc - 1) + 1)
    (hpad : paddingFor kr sr dr = paddingFor kc sc dc)
    (hsz : BS * R * C * CH < 2 ^ 32) (hfs : filter.shape = [NC, kr, kc, CH]) (hfd : IsT filter.data [NC, CH, kr, kc] w)
    (hCH : CH ≠ 0) (hNC : NC ≠ 0) (hK : kr * kc * CH < 2 ^ 64 - 1) (hN : NC < 2 ^ 64 - 1) :
    ∃ u rec, generalConv2d sr sc dr dc true t filter cache cacheT [] = ok (u, rec) ∧
      IsConv u ⟨kr, kc, paddingFor kr sr dr, paddingFor kc sc dc, sr, sc, dr, dc⟩ BS R C CH NC a (fun n tr tc ch => w [n, ch, tr, tc]) := by
  obtain ⟨u, r, h1, _, h3⟩ := convWith_ok ⟨kr, kc, paddingFor kr sr dr, paddingFor kc sc dc, sr, sc, dr, dc⟩ t filter cache cacheT [] BS R C CH NC
    kr kc a w ht hfit hsz recFor_nil hfs hfd hCH hNC (by unfold minusOne; simp only; omega) (by unfold minusOne; omega)
    (by simp only [hpad]) (by have := hfit.2.2.2.2.2; simp only [hpad] at this ⊢; exact this)
  refine ⟨u, r, ?_, h3⟩
  unfold generalConv2d
  rw [ht.1, hfs]
  dsimp only
  rw [if_pos rfl]
  unfold sameGeoGeneral
  rw [sameTotal_ok hfit.1 hdr hsr, bind_ok, sameTotal_ok hfit.2.1 hdc hsc, bind_ok]
  exact h1

/-- Two rows of three, a kernel of one tap with strides 1 and 2. -/
example : generalConv2d 1 2 1 1 false ⟨[1, 2, 3, 1], [1, 2, 3, 4, 5, (6 : Int)]⟩ ⟨[1, 1, 1, 1], [10]⟩ ⟨[], []⟩ ⟨[], []⟩ [] =
      ok (⟨[1, 2, 2, 1], [10, 30, 40, 60]⟩, [0, 2, 3, 5]) := by decide +kernel

/-! ### C38 -/

theorem outDim_same {R k d : Nat} (h : (d * (k - 1) + 1 - 1) % 2 = 0) (hR : 1 ≤ R) : outDim R k (paddingFor k 1 d) 1 d = R := by
  unfold outDim paddingFor
  rw [Nat.div_one]
  generalize d * (k - 1) = e at *
  rcases Nat.mod_two_eq_zero_or_one k with hk | hk <;> omega

/-- C38 for kernels whose dilated extents agree in both directions: with stride 1 and padding `"same"` the output has the image's
rows and columns. -/
theorem conv2d_same_keeps_size_partial [CommSemiring α] (t filter cache cacheT : Ten α) (BS R C CH NC kr kc dr dc : Nat)
    (a : List Nat → α) (ht : t.Has [BS, R, C, CH] a) (hR : 1 ≤ R) (hC : 1 ≤ C) (hkr : 1 ≤ kr) (hkc : 1 ≤ kc)
    (hdr : 1 ≤ dr) (hdc : 1 ≤ dc) (heven : (dr * (kr - 1)) % 2 = 0) (hsq : dr * (kr - 1) = dc * (kc - 1))
    (hsz : BS * R * C * CH < 2 ^ 32) (hfs : filter.shape = [NC, kr, kc, CH]) (hfl : filter.data.length = NC * kr * kc * CH)
    (hCH : CH ≠ 0) (hNC : NC ≠ 0) (hK : kr * kc * CH < 2 ^ 64 - 1) (hN : NC < 2 ^ 64 - 1) :
    ∃ u rec, conv2d R C 1 1 dr dc true t filter cache cacheT [] = ok (u, rec) ∧ u.shape = [BS, R, C, NC] := by
  have hpad : paddingFor kr 1 dr = paddingFor kc 1 dc := by
    unfold paddingFor; rw [hsq]
    have : (dc * (kc - 1)) % 2 = 0 := by rw [← hsq]; exact heven
    generalize dc * (kc - 1) = e at *
    rcases Nat.mod_two_eq_zero_or_one kr with h | h <;> rcases Nat.mod_two_eq_zero_or_one kc with h' | h' <;> rw [h, h'] <;> omega
  have hp : ∀ k d, (d * (k - 1)) % 2 = 0 → 2 * paddingFor k 1 d = d * (k - 1) := by
    intro k d h
    unfold paddingFor
    generalize d * (k - 1) = e at *
    rcases Nat.mod_two_eq_zero_or_one k with hk | hk <;> omega
  have hev' : (dc * (kc - 1)) % 2 = 0 := by rw [← hsq]; exact heven
  obtain ⟨u, r, h1, h2⟩ := conv2d_same_direct_partial t filter cache cacheT BS R C CH NC kr kc 1 1 dr dc a
    (fun is => filter.data.getD (flat [NC, CH, kr, kc] is) 0) ht
    ⟨hkr, hkc, Nat.le_refl _, Nat.le_refl _, by simp only; rw [hp kr dr heven]; omega, by simp only; rw [hp kc dc hev']; omega⟩
    hdr hdc (by omega) (by omega) (by simpa using heven) (by simpa using hev') hpad hsz hfs
    ⟨by rw [hfl]; simp; ring, fun is hv => by
      have := flat_lt hv
      have h2 : flat [NC, CH, kr, kc] is < filter.data.length := by
        rw [hfl]
        have e : size [NC, CH, kr, kc] = NC * kr * kc * CH := by simp; ring
        omega
      dsimp only
      rw [List.getD_eq_getElem?_getD, List.getElem?_eq_getElem h2]; rfl⟩ hCH hNC hK hN
  refine ⟨u, r, h1, ?_⟩
  rw [h2.1]
  simp only
  rw [outDim_same (by simpa using heven) hR, outDim_same (by simpa using hev') hC]

/-- C38 (and C37) are false of the code when the kernel is not square: the number of output columns is computed from the row
padding, so a 1 x 3 image under a 3 x 1 kernel is turned into a 5-column result - and since that does not divide the data, the run
aborts in the reshape. -/
theorem conv2d_same_columns_violated :
    (∃ u rec, img2col ⟨3, 1, 1, 0, 1, 1, 1, 1⟩ ⟨[1, 1, 3, 1], [1, 2, (3 : Int)]⟩ ⟨[], []⟩ [] = ok (u, rec) ∧ u.shape = [3, 3]) ∧
    conv2d 1 3 1 1 1 1 true ⟨[1, 1, 3, 1], [1, 2, (3 : Int)]⟩ ⟨[1, 3, 1, 1], [1, 1, 1]⟩ ⟨[], []⟩ ⟨[], []⟩ [] = abort := by
  refine ⟨⟨⟨[3, 3], [0, 0, 0, 1, 2, 3, 0, 0, 0]⟩, [mark, mark, mark, 0, 1, 2, mark, mark, mark], ?_, rfl⟩, ?_⟩ <;> decide +kernel

/-- ... and when it does divide, the batch dimension is silently wrong: 5 images of 1 x 3 come out as 3 images of 1 x 5. -/
theorem conv2d_same_batch_violated :
    conv2d 1 3 1 1 1 1 true ⟨[5, 1, 3, 1], [1, 2, 3, 4, 5, 6, 7, 8, 9, 10, 11, 12, 13, 14, (15 : Int)]⟩ ⟨[1, 3, 1, 1], [0, 1, 0]⟩
      ⟨[], []⟩ ⟨[], []⟩ [] =
    ok (⟨[3, 1, 5, 1], [1, 2, 3, 4, 5, 6, 7, 8, 9, 10, 11, 12, 13, 14, 15]⟩,
      List.replicate 15 mark ++ [0, 1, 2, 3, 4, 5, 6, 7, 8, 9, 10, 11, 12, 13, 14] ++ List.replicate 15 mark) := by decide +kernel

/-- Even kernels are rejected by `conv2d` with padding `"same"` and stride 1 (odd total padding). -/
theorem conv2d_same_even_rejects [CommSemiring α] (t filter cache cacheT : Ten α) (rec : List Nat) (R C NC kr kc CH dr dc : Nat)
    (hfs : filter.shape = [NC, kr, kc, CH]) (hkr : 1 ≤ kr) (hdr : 1 ≤ dr) (hodd : (dr * (kr - 1)) % 2 = 1) :
    conv2d R C 1 1 dr dc true t filter cache cacheT rec = abort := by
  unfold conv2d
  rw [hfs]
  dsimp only
  rw [if_pos rfl]
  unfold sameGeo
  rw [sameTotal_ok hkr hdr (by omega), bind_ok, assert_false (by simp only [Nat.add_sub_cancel]; omega)]; rfl

/-- `general_conv2d` accepts an even kernel with padding `"same"` and returns fewer rows and columns than the image has. -/
theorem general_conv2d_same_even_violated :
    generalConv2d 1 1 1 1 true ⟨[1, 2, 2, 1], [1, 2, 3, (4 : Int)]⟩ ⟨[1, 2, 2, 1], [1, 1, 1, 1]⟩ ⟨[], []⟩ ⟨[], []⟩ [] =
      ok (⟨[1, 1, 1, 1], [10]⟩, [0, 1, 2, 3]) := by decide +kernel

/-! ### C78: the documented layout of the filter -/

/-- C78 for one channel, or kernels of one tap: a filter in the documented layout `[NC, kr, kc, CH]` is used as such.  Missing:
several channels with several taps, where the code reads it as `[NC, CH, kr, kc]`. -/
theorem conv2d_documented_layout_partial [CommSemiring α] (t filter cache cacheT : Ten α) (BS R C CH NC kr kc sr sc dr dc : Nat)
    (a w : List Nat → α) (ht : t.Has [BS, R, C, CH] a) (hfit : (Geo.mk kr kc 0 0 sr sc dr dc).Fits R C)
    (hsz : BS * R * C * CH < 2 ^ 32) (hf : filter.Has [NC, kr, kc, CH] w) (h1 : CH = 1 ∨ (kr = 1 ∧ kc = 1))
    (hCH : CH ≠ 0) (hNC : NC ≠ 0) (hK : kr * kc * CH < 2 ^ 64 - 1) (hN : NC < 2 ^ 64 - 1) :
    ∃ u rec, conv2d R C sr sc dr dc false t filter cache cacheT [] = ok (u, rec) ∧
      IsConv u ⟨kr, kc, 0, 0, sr, sc, dr, dc⟩ BS R C CH NC a (fun n tr tc ch => w [n, tr, tc, ch]) := by
  have hd : IsT filter.data [NC, CH, kr, kc] (fun is => w [is.getD 0 0, is.getD 2 0, is.getD 3 0, is.getD 1 0]) := by
    refine ⟨by rw [hf.2.1]; simp; ring_nf; simp, fun is hv => ?_⟩
    match is, hv with
    | [n, ch, tr, tc], ⟨q1, q2, q3, q4, _⟩ =>
      have := hf.2.2 [n, tr, tc, ch] ⟨q1, q3, q4, q2, trivial⟩
      simp only [List.getD_cons_zero, List.getD_cons_succ]
      rw [← this]
      congr 1
      rcases h1 with rfl | ⟨rfl, rfl⟩
      · obtain rfl : ch = 0 := by omega
        simp
      · obtain rfl : tr = 0 := by omega
        obtain rfl : tc = 0 := by omega
        simp
  obtain ⟨u, r, e1, e2⟩ := conv2d_valid_direct t filter cache cacheT BS R C CH NC kr kc sr sc dr dc a _ ht hfit hsz hf.1 hd hCH hNC hK hN
  exact ⟨u, r, e1, by simpa using e2⟩

/-- C78 is false of the code: two channels and a 1 x 2 kernel on a 1 x 2 image with pixels `(1, 10)` and `(100, 1000)`; the filter
`1 2 3 4` in the documented layout means `1, 2` for the two channels of the first tap and `3, 4` for those of the second, but is
read as the two taps of channel 0 followed by those of channel 1. -/
theorem conv2d_documented_layout_violated :
    conv2d 1 2 1 1 1 1 false ⟨[1, 1, 2, 2], [1, 10, 100, (1000 : Int)]⟩ ⟨[1, 1, 2, 2], [1, 2, 3, 4]⟩ ⟨[], []⟩ ⟨[], []⟩ [] =
      ok (⟨[1, 1, 1, 1], [1 * 1 + 2 * 100 + 3 * 10 + 4 * 1000]⟩, [0, 2, 1, 3]) ∧
    direct ⟨1, 2, 0, 0, 1, 1, 1, 1⟩ 1 2 2 (fun is => [1, 10, 100, (1000 : Int)].getD (flat [1, 1, 2, 2] is) 0)
      (fun n tr tc ch => [1, 2, 3, (4 : Int)].getD (flat [1, 1, 2, 2] [n, tr, tc, ch]) 0) 0 0 0 0 = 1 * 1 + 2 * 10 + 3 * 100 + 4 * 1000 := by
  constructor <;> decide +kernel

/-- A case meeting the hypotheses of `conv2d_valid_direct`: a 3 x 3 image and a 2 x 2 filter. -/
example : conv2d 3 3 1 1 1 1 false ⟨[1, 3, 3, 1], [1, 2, 3, 4, 5, 6, 7, 8, (9 : Int)]⟩ ⟨[1, 2, 2, 1], [1, 2, 3, 4]⟩ ⟨[9], [1]⟩ ⟨[], []⟩ [] =
    ok (⟨[1, 2, 2, 1], [37, 47, 67, 77]⟩, [0, 1, 3, 4, 1, 2, 4, 5, 3, 4, 6, 7, 4, 5, 7, 8]) := by decide +kernel

example : (Geo.mk 3 3 (paddingFor 3 1 1) (paddingFor 3 1 1) 1 1 1 1).Fits 4 4 ∧ paddingFor 3 1 1 = 1 := by
  unfold Geo.Fits paddingFor; decide

example : conv2d 2 2 1 1 1 1 true ⟨[1, 2, 2, 1], [1, 2, 3, (4 : Int)]⟩ ⟨[1, 3, 3, 1], [1, 1, 1, 1, 1, 1, 1, 1, 1]⟩ ⟨[], []⟩ ⟨[], []⟩ [] =
    ok (⟨[1, 2, 2, 1], [10, 10, 10, 10]⟩, [mark, mark, mark, 0, mark, mark, 0, 1, mark, mark, 1, mark, mark, 0, mark, 2, 0, 1, 2, 3, 1,
      mark, 3, mark, mark, 2, mark, mark, 2, 3, mark, mark, 3, mark, mark, mark]) := by decide +kernel

end Verif.Conv
