import Verif.Net.Ops
/-!
# Convolution layers in expressions

Helper theorems for C105: the values of `Conv2D`, `Conv1D` and `Conv2DTranspose`, and that their gradients are right where those of their operand are.
-/
namespace Verif.Net
open Verif Res View Data Ops Graph Loss Conv
open Verif.Tensor (bcIdx Compatible broadcastShape dimR rule BroadcastsTo)

noncomputable section

/-- A shape that broadcasts to `l` can be added to `l`. -/
theorem fits_of_broadcasts {K : Kit} {l r : List Nat} (hl : Fits1 K l) (hb : BroadcastsTo r l) (hr : r ≠ []) (hm : r.getLast? ≠ some minusOne) : Fits K l r l := by
  have hc : Compatible l r := by
    intro k
    by_cases hk : k < r.length
    · rcases hb.2 k hk with h | h
      · exact Or.inl h.symm
      · exact Or.inr (Or.inr h)
    · right; right
      unfold dimR
      rw [dif_neg hk]
  obtain ⟨c, h1, h2, h3⟩ := Verif.Tensor.broadcastShape_ok hc
  have hcl : c = l := by
    refine Verif.Tensor.dimR_ext (by rw [h2, max_eq_left hb.1]) (fun k => ?_)
    rw [h3, rule]
    by_cases h : dimR l k = 1
    · rw [if_pos h, h]
      by_cases hk : k < r.length
      · rcases hb.2 k hk with h' | h'
        · rw [h', h]
        · exact h'
      · unfold dimR
        rw [dif_neg hk]
    · rw [if_neg h]
  have f := hl.fits
  exact ⟨f.reduces, hc, by rw [h1, hcl], f.l0, hr, f.ml, hm, f.ms, f.rank, f.fuel, f.pos⟩

/-- Where a convolution of images `[BS, R, C, CH]` with filters `[NC, kr, kc, CH]` can be computed: the kernel fits the padded image, no extent is 0, none
stands for -1, the images have fewer than 2^32 elements, the record is of these images or of another length, and the columns of the output, computed with
the padding of the rows, are as many as there are (C37). -/
structure ConvFits (g : Geo) (BS R C CH NC : Nat) (rec : List Nat) : Prop where
  fit : g.Fits R C
  sz : BS * R * C * CH < 2 ^ 32
  record : RecOk g BS R C CH rec
  bs0 : BS ≠ 0
  ch0 : CH ≠ 0
  nc0 : NC ≠ 0
  ch1 : CH ≠ minusOne
  nc1 : NC ≠ minusOne
  taps : g.kr * g.kc * CH ≠ minusOne
  cols : outDim C g.kc g.pr g.sc g.dc = outDim C g.kc g.pc g.sc g.dc

section
variable {K : Kit} {L D : Nat → Ten ℝ}

theorem ev_matmul2 {e f : Ex ℝ} {m k n : Nat} {x w : List Nat → ℝ} (he : Ev L D e [m, k] x) (hf : Ev L D f [k, n] w) (hm : 0 < m) (hk : 0 < k) (hn : 0 < n) (i : Nat) :
    Ev L D (.bin i (opMatmul K.cacheF K.cacheB K.cacheB') e f) [m, n] (fun is => ∑ p ∈ Finset.range k, x [is[0]?.getD 0, p] * w [p, is[1]?.getD 0]) := by
  obtain ⟨u, h1, h2⟩ := he
  obtain ⟨v, k1, k2⟩ := hf
  obtain ⟨z, h3, h4⟩ := matmul_forward K.cacheF u v m k n x w h2 k2 hm hk hn
  refine ⟨z, ?_, h4⟩
  rw [eval, h1, bind_ok, k1, bind_ok]
  exact h3

theorem smooth_matmul2 {e f : Ex ℝ} {m k n : Nat} {x w : List Nat → ℝ} (he : Ev L D e [m, k] x) (hf : Ev L D f [k, n] w) (hm : 0 < m) (hk : 0 < k) (hn : 0 < n)
    (hse : Smooth L D e) (hsf : Smooth L D f) (i : Nat) : Smooth L D (.bin i (opMatmul K.cacheF K.cacheB K.cacheB') e f) := by
  obtain ⟨u, h1, h2⟩ := he
  obtain ⟨v, k1, k2⟩ := hf
  refine ⟨hse, hsf, fun u' v' hu hv => ?_⟩
  rw [h1] at hu
  rw [k1] at hv
  cases hu
  cases hv
  exact opMatmul_good _ _ _ _ _ m k n h2.1 k2.1 hm hk hn

variable {g : Geo} {BS R C CH NC : Nat} {rec : List Nat} {x f : Ex ℝ} {a w : List Nat → ℝ}

/-- The value of a convolution is the direct convolution with the filter as stored. -/
theorem ev_conv (hc : ConvFits g BS R C CH NC rec) (hx : Ev L D x [BS, R, C, CH] a) (hf : Ev L D f [NC, g.kr, g.kc, CH] w) (i : Nat) :
    Ev L D (convE K i g R C NC CH rec x f) [BS, outDim R g.kr g.pr g.sr g.dr, outDim C g.kc g.pc g.sc g.dc, NC]
      (fun is => direct g R C CH a (asStored NC g.kr g.kc CH w) (is.getD 0 0) (is.getD 1 0) (is.getD 2 0) (is.getD 3 0)) ∧
    (Smooth L D x → Smooth L D f → Smooth L D (convE K i g R C NC CH rec x f)) := by
  have hkr : g.kr ≠ 0 := by have := hc.fit.1; omega
  have hkc : g.kc ≠ 0 := by have := hc.fit.2.1; omega
  have hK : g.kr * g.kc * CH ≠ 0 := Nat.mul_ne_zero (Nat.mul_ne_zero hkr hkc) hc.ch0
  have hcols : colsOf g BS R C ≠ 0 := by
    unfold colsOf
    exact Nat.mul_ne_zero (Nat.mul_ne_zero hc.bs0 (outDim_pos _ _ _ _ _).ne') (outDim_pos _ _ _ _ _).ne'
  have A1 : Adjoint (opReshape [g.kr * g.kc * CH]) [NC, g.kr, g.kc, CH] [NC, g.kr * g.kc * CH] (reidx [NC, g.kr, g.kc, CH] [NC, g.kr * g.kc * CH]) :=
    adj_reshape (by simp) (by simpa using hc.ch1) (by simpa using hK) (by simp) (by simpa using hc.taps) (by simp [Nat.mul_assoc])
  have A2 := adj_img2col K hc.fit hc.sz hc.record
  have A3 := adj_transpose K NC (colsOf g BS R C)
  have A4 : Adjoint (opReshape [outDim R g.kr g.pr g.sr g.dr, outDim C g.kc g.pc g.sc g.dc, NC]) [colsOf g BS R C, NC]
      [BS, outDim R g.kr g.pr g.sr g.dr, outDim C g.kc g.pc g.sc g.dc, NC]
      (reidx [colsOf g BS R C, NC] [BS, outDim R g.kr g.pr g.sr g.dr, outDim C g.kc g.pc g.sc g.dc, NC]) := by
    refine adj_reshape (by simp) (by simpa using hc.nc1) ?_ (by simp) (by simpa using hc.nc1) (by simp [colsOf, Nat.mul_assoc])
    simp only [size_cons, size_nil, mul_one]
    exact Nat.mul_ne_zero (outDim_pos _ _ _ _ _).ne' (Nat.mul_ne_zero (outDim_pos _ _ _ _ _).ne' hc.nc0)
  have e1 := A1.ev hf i
  have e2 := A2.ev hx (i + 1)
  have e3 := ev_matmul2 (K := K) e1 e2 (Nat.pos_of_ne_zero hc.nc0) (Nat.pos_of_ne_zero hK) (Nat.pos_of_ne_zero hcols) (i + 2)
  have e4 := A3.ev e3 (i + 3)
  have e5 := A4.ev e4 (i + 4)
  unfold convE
  rw [hc.cols]
  refine ⟨e5.congr (fun is hv => ?_), fun hsx hsf => A4.smooth e4 (A3.smooth e3 (smooth_matmul2 e1 e2 (Nat.pos_of_ne_zero hc.nc0) (Nat.pos_of_ne_zero hK)
    (Nat.pos_of_ne_zero hcols) (A1.smooth hf hsf i) (A2.smooth hx hsx (i + 1)) (i + 2)) (i + 3)) (i + 4)⟩
  match is, hv with
  | [b, p, q, n], ⟨hb, hp, hq, hn, _⟩ =>
    have hcol : (b * outDim R g.kr g.pr g.sr g.dr + p) * outDim C g.kc g.pc g.sc g.dc + q < colsOf g BS R C := idx3_lt hb hp hq
    have hflat : flat [BS, outDim R g.kr g.pr g.sr g.dr, outDim C g.kc g.pc g.sc g.dc, NC] [b, p, q, n] =
        flat [colsOf g BS R C, NC] [(b * outDim R g.kr g.pr g.sr g.dr + p) * outDim C g.kc g.pc g.sc g.dc + q, n] := by
      simp; ring
    have e0 : reidx [colsOf g BS R C, NC] [BS, outDim R g.kr g.pr g.sr g.dr, outDim C g.kc g.pc g.sc g.dc, NC] (fun is : List Nat =>
        (fun is : List Nat => ∑ p ∈ Finset.range (g.kr * g.kc * CH), reidx [NC, g.kr, g.kc, CH] [NC, g.kr * g.kc * CH] w [is[0]?.getD 0, p] * colPix g R C a [p, is[1]?.getD 0])
          [is.getD 1 0, is.getD 0 0]) [b, p, q, n] =
        ∑ l ∈ Finset.range (g.kr * g.kc * CH), reidx [NC, g.kr, g.kc, CH] [NC, g.kr * g.kc * CH] w [n, l] *
          colPix g R C a [l, (b * outDim R g.kr g.pr g.sr g.dr + p) * outDim C g.kc g.pc g.sc g.dc + q] := by
      rw [reidx, hflat, unflat_flat (s := [colsOf g BS R C, NC]) (is := [_, n]) ⟨hcol, hn, trivial⟩]
      rfl
    rw [e0]
    simp only [List.getD_cons_zero, List.getD_cons_succ]
    unfold direct
    rw [sum_taps]
    refine Finset.sum_congr rfl (fun ch hch => Finset.sum_congr rfl (fun tr htr => Finset.sum_congr rfl (fun tc htc => ?_)))
    rw [Finset.mem_range] at hch htr htc
    rw [colPix_enc htr htc hp hq]
    congr 1
    unfold asStored reidx
    congr 2
    simp; ring

end

/-! ### the layers -/

/-- What is asked of a convolution layer over images `[BS, R, C, CH]`: the variables have the shapes the layer gives them, and the convolution can be
computed; `R'`, `C'` are the extents of the image the convolution is applied to. -/
structure ConvOk (K : Kit) (D : Nat → Ten ℝ) (p : ConvP) (BS R' C' CH : Nat) : Prop where
  reduces : Reduces (· + ·) K.red
  fuel : 4 ≤ K.fuel
  weight : (D p.w).WF ∧ (D p.w).shape = [p.NC, p.kr, p.kc, CH]
  bias : (D p.b).WF ∧ (D p.b).shape = [1, 1, p.NC]
  fits : ConvFits p.geo BS R' C' CH p.NC p.record
  same : p.same = true → 1 ≤ p.dr ∧ 1 ≤ p.dc ∧ p.sr ≤ p.kr + (p.kr - 1) * (p.dr - 1) ∧ p.sc ≤ p.kc + (p.kc - 1) * (p.dc - 1)
  bs1 : BS ≠ minusOne
  rows1 : outDim R' p.kr p.geo.pr p.sr p.dr ≠ minusOne
  cols1 : outDim C' p.kc p.geo.pc p.sc p.dc ≠ minusOne

@[simp] theorem geo_kr (p : ConvP) : p.geo.kr = p.kr := by unfold ConvP.geo geo; split <;> rfl
@[simp] theorem geo_kc (p : ConvP) : p.geo.kc = p.kc := by unfold ConvP.geo geo; split <;> rfl
@[simp] theorem geo_sr (p : ConvP) : p.geo.sr = p.sr := by unfold ConvP.geo geo; split <;> rfl
@[simp] theorem geo_sc (p : ConvP) : p.geo.sc = p.sc := by unfold ConvP.geo geo; split <;> rfl
@[simp] theorem geo_dr (p : ConvP) : p.geo.dr = p.dr := by unfold ConvP.geo geo; split <;> rfl
@[simp] theorem geo_dc (p : ConvP) : p.geo.dc = p.dc := by unfold ConvP.geo geo; split <;> rfl

/-- The rows and columns of the output of a convolution layer. -/
def ConvP.rows (p : ConvP) (R : Nat) : Nat := outDim R p.kr p.geo.pr p.sr p.dr
def ConvP.columns (p : ConvP) (C : Nat) : Nat := outDim C p.kc p.geo.pc p.sc p.dc

/-- Without `"same"` the output has a row and a column for every place the kernel fits into the image itself. -/
theorem conv_extents_valid {p : ConvP} (hs : p.same = false) (R C : Nat) :
    p.rows R = (R - (p.dr * (p.kr - 1) + 1)) / p.sr + 1 ∧ p.columns C = (C - (p.dc * (p.kc - 1) + 1)) / p.sc + 1 := by
  unfold ConvP.rows ConvP.columns ConvP.geo geo outDim
  rw [hs]
  simp

/-- With `"same"`, stride 1 and an odd kernel, the output has the image's extents. -/
theorem conv_extents_same {p : ConvP} (hs : p.same = true) (h1 : p.sr = 1) (h2 : p.sc = 1) (d1 : 1 ≤ p.dr) (d2 : 1 ≤ p.dc) (k1 : p.kr % 2 = 1) (k2 : p.kc % 2 = 1) {R C : Nat}
    (hR : 1 ≤ R) (hC : 1 ≤ C) : p.rows R = R ∧ p.columns C = C := by
  have key : ∀ k d n : Nat, 1 ≤ d → k % 2 = 1 → 1 ≤ n → outDim n k (Conv.samePad k (k + (k - 1) * (d - 1) - 1)) 1 d = n := by
    intro k d n hd hk hn
    obtain ⟨m, rfl⟩ : ∃ m, k = 2 * m + 1 := ⟨k / 2, by omega⟩
    obtain ⟨e, rfl⟩ : ∃ e, d = e + 1 := ⟨d - 1, by omega⟩
    have h : 2 * m + 1 + (2 * m + 1 - 1) * (e + 1 - 1) - 1 = 2 * (m * e + m) := by
      simp only [Nat.add_sub_cancel]
      ring_nf
      omega
    have h2 : (e + 1) * (2 * m + 1 - 1) = 2 * (m * e + m) := by
      simp only [Nat.add_sub_cancel]
      ring
    unfold outDim Conv.samePad
    rw [h, h2]
    omega
  unfold ConvP.rows ConvP.columns ConvP.geo geo
  rw [hs, if_pos rfl, h1, h2]
  exact ⟨key _ _ _ d1 k1 hR, key _ _ _ d2 k2 hC⟩

section
variable {K : Kit} {L D : Nat → Ten ℝ} {p : ConvP} {BS R C CH : Nat} {x f : Ex ℝ} {a w : List Nat → ℝ}

theorem ConvOk.fits1 (h : ConvOk K D p BS R C CH) : Fits1 K [BS, p.rows R, p.columns C, p.NC] := by
  refine ⟨h.reduces, by simp, ?_, by simp [minusOne], by simpa using h.fuel, ?_⟩
  · intro d hd
    simp only [List.mem_cons, List.not_mem_nil, or_false] at hd
    rcases hd with rfl | rfl | rfl | rfl
    · exact h.bs1
    · exact h.rows1
    · exact h.cols1
    · exact h.fits.nc1
  · simp only [size_cons, size_nil, mul_one]
    exact Nat.mul_ne_zero h.fits.bs0 (Nat.mul_ne_zero (outDim_pos _ _ _ _ _).ne' (Nat.mul_ne_zero (outDim_pos _ _ _ _ _).ne' h.fits.nc0))

theorem ConvOk.plus (h : ConvOk K D p BS R C CH) : Fits K [BS, p.rows R, p.columns C, p.NC] [1, 1, p.NC] [BS, p.rows R, p.columns C, p.NC] := by
  refine fits_of_broadcasts h.fits1 ⟨by simp, fun k hk => ?_⟩ (by simp) (by simpa using h.fits.nc1)
  match k, hk with
  | 0, _ => exact Or.inl rfl
  | 1, _ => exact Or.inr rfl
  | 2, _ => exact Or.inr rfl

/-- A convolution with a bias. -/
theorem ev_convPlus (h : ConvOk K D p BS R C CH) (hx : Ev L D x [BS, R, C, CH] a) (hf : Ev L D f [p.NC, p.kr, p.kc, CH] w) (i j : Nat) :
    Ev L D (plusE K j (convE K i p.geo R C p.NC CH p.record x f) (.var p.b p.cb)) [BS, p.rows R, p.columns C, p.NC]
      (convBias p.geo R C CH (asStored p.NC p.kr p.kc CH w) (D p.b).at a) ∧
    (Smooth L D x → Smooth L D f → Smooth L D (plusE K j (convE K i p.geo R C p.NC CH p.record x f) (.var p.b p.cb))) := by
  obtain ⟨e1, s1⟩ := ev_conv (K := K) h.fits hx (by simpa using hf) i
  simp only [geo_kr, geo_kc, geo_sr, geo_sc, geo_dr, geo_dc] at e1
  change Ev L D _ [BS, p.rows R, p.columns C, p.NC] _ at e1
  have hbh := h.bias.1.has
  rw [h.bias.2] at hbh
  have e2 : Ev L D (.var p.b p.cb) [1, 1, p.NC] (D p.b).at := ⟨D p.b, rfl, hbh⟩
  refine ⟨(Ev.plus e1 e2 h.plus j).congr (fun is hv => ?_), fun hsx hsf => smooth_plus e1 e2 h.plus (s1 hsx hsf) hbh.wf j⟩
  rw [bc_self hv]
  unfold convBias
  match is, hv with
  | [b, r, c, n], hv =>
    have : bcIdx [1, 1, p.NC] [b, r, c, n] = [0, 0, n] := by
      simp only [bcIdx, List.length_cons, List.length_nil, Nat.reduceAdd, Nat.reduceSub, List.drop_succ_cons, List.drop_zero, List.zipWith_cons_cons,
        List.zipWith_nil_left, if_true]
      by_cases hn : p.NC = 1
      · have : n = 0 := by have := hv.2.2.2.1; omega
        simp [this]
      · rw [if_neg hn]
    rw [this]
    rfl

theorem ev_conv2D (h : ConvOk K D p BS R C CH) (hx : Ev L D x [BS, R, C, CH] a) (i : Nat) :
    Ev L D (conv2DLayer K i p R C CH x) [BS, p.rows R, p.columns C, p.NC] (convBias p.geo R C CH (asStored p.NC p.kr p.kc CH (D p.w).at) (D p.b).at a) ∧
    (Smooth L D x → Smooth L D (conv2DLayer K i p R C CH x)) := by
  have hwh := h.weight.1.has
  rw [h.weight.2] at hwh
  have hw : Ev L D (.var p.w p.cw) [p.NC, p.kr, p.kc, CH] (D p.w).at := ⟨D p.w, rfl, hwh⟩
  obtain ⟨e1, s1⟩ := ev_convPlus h hx hw i (i + 5)
  exact ⟨e1, fun hsx => s1 hsx hwh.wf⟩

theorem ev_convTranspose (h : ConvOk K D p BS (spreadDim R p.kr p.sr p.same) (spreadDim C p.kc p.sc p.same) CH) (hx : Ev L D x [BS, R, C, CH] a) (i : Nat) :
    Ev L D (convTransposeLayer K i p R C CH x) [BS, p.rows (spreadDim R p.kr p.sr p.same), p.columns (spreadDim C p.kc p.sc p.same), p.NC]
      (convBias p.geo (spreadDim R p.kr p.sr p.same) (spreadDim C p.kc p.sc p.same) CH (asStored p.NC p.kr p.kc CH (reversed p.kr p.kc (D p.w).at)) (D p.b).at
        (spreadPix (spreadOff p.kr p.same) (spreadOff p.kc p.same) p.sr p.sc R C a)) ∧
    (Smooth L D x → Smooth L D (convTransposeLayer K i p R C CH x)) := by
  have hfit := h.fits.fit
  unfold Geo.Fits at hfit
  simp only [geo_kr, geo_kc, geo_sr, geo_sc, geo_dr, geo_dc] at hfit
  have hwh := h.weight.1.has
  rw [h.weight.2] at hwh
  have hw : Ev L D (.var p.w p.cw) [p.NC, p.kr, p.kc, CH] (D p.w).at := ⟨D p.w, rfl, hwh⟩
  have hne : size [p.NC, p.kr, p.kc, CH] ≠ 0 := by
    simp only [size_cons, size_nil, mul_one]
    exact Nat.mul_ne_zero h.fits.nc0 (Nat.mul_ne_zero (by omega) (Nat.mul_ne_zero (by omega) h.fits.ch0))
  have A1 := adj_spread K (BS := BS) (R := R) (C := C) (CH := CH) (same := p.same) hfit.1 hfit.2.1 hfit.2.2.1 hfit.2.2.2.1
  have A2 : Adjoint (opFlip K 2) [p.NC, p.kr, p.kc, CH] [p.NC, p.kr, p.kc, CH] (fun a is => a (is.set 2 (p.kc - 1 - is.getD 2 0))) :=
    adj_flip K [p.NC, p.kr] [CH] p.kc (by simp) hne
  have A3 : Adjoint (opFlip K 1) [p.NC, p.kr, p.kc, CH] [p.NC, p.kr, p.kc, CH] (fun a is => a (is.set 1 (p.kr - 1 - is.getD 1 0))) :=
    adj_flip K [p.NC] [p.kc, CH] p.kr (by simp) hne
  have e1 := A1.ev hx i
  have e2 := A2.ev hw (i + 1)
  have e3 : Ev L D (.un (i + 2) (opFlip K 1) (.un (i + 1) (opFlip K 2) (.var p.w p.cw))) [p.NC, p.kr, p.kc, CH] (reversed p.kr p.kc (D p.w).at) :=
    (A3.ev e2 (i + 2)).congr (fun is hv => by
      match is, hv with
      | [n, tr, tc, ch], _ => rfl)
  obtain ⟨e4, s4⟩ := ev_convPlus h e1 e3 (i + 3) (i + 8)
  exact ⟨e4, fun hsx => s4 (A1.smooth hx hsx i) (A3.smooth e2 (A2.smooth hw hwh.wf (i + 1)) (i + 2))⟩

/-- The two-dimensional layer `Conv1D` makes. -/
def ConvP.flatKernel (p : ConvP) : ConvP := { p with kc := 1, sc := 1, dc := 1 }

/-- `Conv1D`: what is asked is met only without padding of the rows (the columns are counted with it), and then the value is the one-dimensional
convolution. -/
theorem ev_conv1D {n : Nat} (h : ConvOk K D p.flatKernel BS n 1 CH) (hn1 : n ≠ minusOne) (hx : Ev L D x [BS, n, CH] a) (i : Nat) :
    Ev L D (conv1DLayer K i p n CH x) [BS, p.flatKernel.rows n, p.NC]
      (conv1Bias p.kr p.sr p.dr CH (fun nc t ch => asStored p.NC p.kr 1 CH (D p.w).at nc t 0 ch) (D p.b).at a) ∧
    (Smooth L D x → Smooth L D (conv1DLayer K i p n CH x)) := by
  have hf := h.fits
  have hpc : p.flatKernel.geo.pc = 0 := by
    unfold ConvP.geo geo
    have e : p.flatKernel.kc = 1 ∧ p.flatKernel.sc = 1 ∧ p.flatKernel.dc = 1 := ⟨rfl, rfl, rfl⟩
    rw [e.1, e.2.1, e.2.2]
    split
    · simp [samePad]
    · rfl
  have hpr : p.flatKernel.geo.pr = 0 := by
    have := hf.cols
    rw [hpc] at this
    simp only [geo_kc, geo_sc, geo_dc] at this
    have e : p.flatKernel.kc = 1 ∧ p.flatKernel.sc = 1 ∧ p.flatKernel.dc = 1 := ⟨rfl, rfl, rfl⟩
    rw [e.1, e.2.1, e.2.2] at this
    unfold outDim at this
    omega
  have hcol : p.flatKernel.columns 1 = 1 := by
    unfold ConvP.columns outDim
    have e : p.flatKernel.kc = 1 ∧ p.flatKernel.sc = 1 ∧ p.flatKernel.dc = 1 := ⟨rfl, rfl, rfl⟩
    rw [hpc, e.1, e.2.1, e.2.2]
  have hNC : p.flatKernel.NC = p.NC := rfl
  have A1 : Adjoint (opExpand 2) [BS, n, CH] [BS, n, 1, CH] (reidx [BS, n, CH] [BS, n, 1, CH]) :=
    adj_expand (k := 2) (by simp) (by
      simp only [List.mem_cons, List.not_mem_nil, or_false, not_or]
      exact ⟨h.bs1.symm, hn1.symm, hf.ch1.symm⟩) (by simp)
  have A2 : Adjoint (opSqueeze 2) [BS, p.flatKernel.rows n, 1, p.NC] [BS, p.flatKernel.rows n, p.NC] (reidx [BS, p.flatKernel.rows n, 1, p.NC] [BS, p.flatKernel.rows n, p.NC]) :=
    adj_squeeze (k := 2) (by
      simp only [List.mem_cons, List.not_mem_nil, or_false, not_or]
      exact ⟨h.bs1.symm, h.rows1.symm, by decide, hf.nc1.symm⟩) rfl (by simp)
  have e1 := A1.ev hx i
  obtain ⟨e2, s2⟩ := ev_conv2D h e1 (i + 1)
  rw [hcol, hNC] at e2
  refine ⟨(A2.ev e2 (i + 7)).congr (fun is hv => ?_), fun hsx => A2.smooth e2 (s2 (A1.smooth hx hsx i)) (i + 7)⟩
  match is, hv with
  | [b, r, nc], ⟨hb, hr, hnc, _⟩ =>
    have hfl : flat [BS, p.flatKernel.rows n, p.NC] [b, r, nc] = flat [BS, p.flatKernel.rows n, 1, p.NC] [b, r, 0, nc] := by simp
    rw [reidx, hfl, unflat_flat (s := [BS, p.flatKernel.rows n, 1, p.NC]) (is := [b, r, 0, nc]) ⟨hb, hr, Nat.one_pos, hnc, trivial⟩]
    unfold convBias conv1Bias
    simp only [List.getD_cons_zero, List.getD_cons_succ]
    congr 1
    unfold direct
    refine Finset.sum_congr rfl (fun ch hch => ?_)
    rw [Finset.mem_range] at hch
    simp only [geo_kr, geo_kc]
    refine Finset.sum_congr rfl (fun t ht => ?_)
    rw [Finset.mem_range] at ht
    rw [show Finset.range p.flatKernel.kc = {0} from rfl, Finset.sum_singleton]
    congr 1
    -- the tap lies in the image
    have hfit := hf.fit.2.2.2.2.1
    have hsr := hf.fit.2.2.1
    rw [hpr] at hfit
    simp only [geo_kr, geo_dr, geo_sr] at hfit hsr
    unfold ConvP.rows outDim at hr
    rw [hpr] at hr
    have ht' : t ≤ p.flatKernel.kr - 1 := by have : p.flatKernel.kr = p.kr := rfl; omega
    have h1 : t * p.flatKernel.dr ≤ p.flatKernel.dr * (p.flatKernel.kr - 1) := by rw [Nat.mul_comm]; exact Nat.mul_le_mul_left _ ht'
    have h2 : r * p.flatKernel.sr ≤ n + 2 * 0 - (p.flatKernel.dr * (p.flatKernel.kr - 1) + 1) :=
      (Nat.le_div_iff_mul_le hsr).mp (Nat.lt_succ_iff.mp hr)
    have hlt : r * p.flatKernel.sr + t * p.flatKernel.dr < n := by omega
    unfold pixel tapRow tapCol
    rw [hpr, hpc]
    simp only [geo_sr, geo_dr, geo_sc, geo_dc]
    have ey : ((r : Int) * (p.flatKernel.sr : Int) - ((0 : Nat) : Int) + (t : Int) * (p.flatKernel.dr : Int)) = ((r * p.flatKernel.sr + t * p.flatKernel.dr : Nat) : Int) := by
      push_cast; ring
    have ex : (((0 : Nat) : Int) * (p.flatKernel.sc : Int) - ((0 : Nat) : Int) + ((0 : Nat) : Int) * (p.flatKernel.dc : Int)) = ((0 : Nat) : Int) := by push_cast; ring
    rw [ey, ex, if_pos ⟨by omega, by omega, by omega, by omega⟩, Int.toNat_natCast, Int.toNat_natCast, reidx]
    have hfl2 : flat [BS, n, 1, CH] [b, r * p.flatKernel.sr + t * p.flatKernel.dr, 0, ch] = flat [BS, n, CH] [b, r * p.flatKernel.sr + t * p.flatKernel.dr, ch] := by simp
    rw [hfl2, unflat_flat (s := [BS, n, CH]) (is := [b, _, ch]) ⟨hb, hlt, hch, trivial⟩]
    rfl

end
end
end Verif.Net
