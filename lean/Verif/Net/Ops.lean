import Verif.Net.Linear
import Verif.Net.Spec
/-!
# The operators of layers are linear

Forward is the specified linear map and backward its transpose, operator by operator.  Helper theorems for C105.
-/
namespace Verif.Net
open Verif Res View Data Ops Graph Loss Conv Pool

noncomputable section

/-- Operators that keep the storage and give it another shape. -/
theorem Adjoint.of_keep {op : UOp ℝ} {s s' : List Nat} (hsz : size s' = size s) (hs : s ≠ []) (hm : s.getLast? ≠ some minusOne)
    (hf : ∀ t a, t.Has s a → op.fwd t = ok ⟨s', t.data⟩) (hb : ∀ x o g, op.bwd x o g = reshapeV g x.shape) : Adjoint op s s' (reidx s s') := by
  refine ⟨fun t a ht => ⟨_, hf t a ht, rfl, by rw [hsz]; exact ht.2.1, fun is hv => ?_⟩, fun x o g hx hxs hg hgs => ?_⟩
  · have hp : flat s' is < size s := hsz ▸ flat_lt hv
    have := ht.2.2 _ (unflat_spec hp).1
    rwa [(unflat_spec hp).2] at this
  · have hl : g.data.length = size s := by rw [hg, hgs, hsz]
    refine ⟨⟨s, g.data⟩, by rw [hb, hxs]; exact reshapeV_same hs hm hl, hl, rfl, fun d => ?_⟩
    unfold pair
    rw [sumIdx_eq_range, sumIdx_eq_range, hsz]
    refine Finset.sum_congr rfl (fun p hp => ?_)
    have hp' := Finset.mem_range.mp hp
    have hp'' : p < size s' := by rw [hsz]; exact hp'
    unfold Ten.at reidx
    rw [hgs, (unflat_spec hp'').2, (unflat_spec hp').2]

theorem adj_reshape {s shape : List Nat} {n : Nat} (hs : s ≠ []) (hm : s.getLast? ≠ some minusOne) (h0 : size shape ≠ 0) (hne : shape ≠ [])
    (hm' : shape.getLast? ≠ some minusOne) (hsz : size s = n * size shape) : Adjoint (opReshape shape) s (n :: shape) (reidx s (n :: shape)) :=
  Adjoint.of_keep (by simp [hsz]) hs hm (fun t a ht => Conv.reshapeOp_ok h0 hne hm' (by rw [ht.2.1, hsz])) (fun _ _ _ => rfl)

theorem adj_flatten {b : Nat} {s : List Nat} (hs : s ≠ []) (hm : s.getLast? ≠ some minusOne) (hb : b ≠ 0) (hsz : size s ≠ minusOne) :
    Adjoint opFlatten (b :: s) [b, size s] (reidx (b :: s) [b, size s]) := by
  refine Adjoint.of_keep (by simp) (by simp) ?_ (fun t a ht => ?_) (fun _ _ _ => rfl)
  · obtain ⟨x, xs, rfl⟩ := List.exists_cons_of_ne_nil hs
    simpa using hm
  · show Shapes.flattenFwd t = _
    unfold Shapes.flattenFwd
    have hl : 1 < (b :: s).length := by
      have := List.length_pos_iff.mpr hs
      simp; omega
    have hd : t.data.length / b = size s := by
      rw [ht.2.1, size_cons]; exact Nat.mul_div_cancel_left _ (Nat.pos_of_ne_zero hb)
    rw [ht.1, assert_true hl, bind_ok, show rd (b :: s) 0 = ok b from rfl, bind_ok, require_true hb, bind_ok, hd]
    exact reshapeV_same (by simp) (by simpa using hsz) (by rw [ht.2.1]; simp)

theorem adj_expand {s : List Nat} {k : Nat} (hs : s ≠ []) (hm : minusOne ∉ s) (hk : k ≤ s.length) :
    Adjoint (opExpand k) s (s.insertIdx k 1) (reidx s (s.insertIdx k 1)) :=
  Adjoint.of_keep (size_insertIdx s k hk) hs (fun h => hm (List.mem_of_getLast? h))
    (fun t a ht => expand_dims_inserts_one t s a ht hm k hk k (Or.inl rfl)) (fun _ _ _ => rfl)

theorem adj_squeeze {s : List Nat} {k : Nat} (hm : minusOne ∉ s) (hk : s[k]? = some 1) (hs : s.length ≠ 1) :
    Adjoint (opSqueeze k) s (s.eraseIdx k) (reidx s (s.eraseIdx k)) := by
  have hklt : k < s.length := (List.getElem?_eq_some_iff.mp hk).1
  have hback : (s.eraseIdx k).insertIdx k 1 = s := by
    have := (List.getElem?_eq_some_iff.mp hk).2
    rw [← this]; exact List.insertIdx_eraseIdx_getElem hklt
  have hle : k ≤ (s.eraseIdx k).length := by rw [List.length_eraseIdx_of_lt hklt]; omega
  have hsz : size (s.eraseIdx k) = size s := by
    have h := size_insertIdx (s.eraseIdx k) k hle
    rw [hback] at h; exact h.symm
  have hne : s.eraseIdx k ≠ [] := by
    intro h
    have := congrArg List.length h
    rw [List.length_eraseIdx_of_lt hklt] at this
    simp at this; omega
  have hlast : (s.eraseIdx k).getLast? ≠ some minusOne := fun h => hm (List.mem_of_mem_eraseIdx (List.mem_of_getLast? h))
  refine Adjoint.of_keep hsz (by rintro rfl; simp at hklt) (fun h => hm (List.mem_of_getLast? h)) (fun t a ht => ?_) (fun _ _ _ => rfl)
  show squeezeAxis t k = _
  unfold squeezeAxis
  rw [if_neg (by omega)]
  simp only [Int.toNat_natCast]
  rw [ht.1, assert_true ⟨by omega, hklt⟩, bind_ok, rd_ok hk, bind_ok, assert_true rfl, bind_ok]
  exact reshapeV_same hne hlast (by rw [ht.2.1, hsz])

theorem adj_transpose (K : Kit) (m n : Nat) : Adjoint (opTranspose K) [m, n] [n, m] (fun a is => a [is.getD 1 0, is.getD 0 0]) := by
  refine ⟨fun t a ht => transpose_values K.cacheF t m n a ht, fun x o g hx hxs hg hgs => ?_⟩
  have hgh := hg.has
  rw [hgs] at hgh
  obtain ⟨v, h1, h2⟩ := transpose_values K.cacheB g n m g.at hgh
  refine ⟨v, h1, h2.wf, h2.1, fun d => ?_⟩
  have : pair [m, n] v.at d = pair [m, n] (fun is => g.at [is.getD 1 0, is.getD 0 0]) d := sumIdx_congr (fun is hv => by rw [h2.at_eq hv])
  rw [this]
  simp only [pair, sumIdx, List.getD_cons_zero, List.getD_cons_succ]
  exact Finset.sum_comm

theorem adj_flip (K : Kit) (pre post : List Nat) (n : Nat) (hrank : (pre ++ n :: post).length ≤ 4) (hne : size (pre ++ n :: post) ≠ 0) :
    Adjoint (opFlip K (pre.length : Int)) (pre ++ n :: post) (pre ++ n :: post) (fun a is => a (is.set pre.length (n - 1 - is.getD pre.length 0))) := by
  refine ⟨fun t a ht => flip_reverses_axis t K.cacheF pre post n a ht hrank hne _ (Or.inl rfl), fun x o g hx hxs hg hgs => ?_⟩
  have hgh := hg.has
  rw [hgs] at hgh
  obtain ⟨v, h1, h2⟩ := flip_reverses_axis g K.cacheB pre post n g.at hgh hrank hne _ (Or.inl rfl)
  refine ⟨v, h1, h2.wf, h2.1, fun d => ?_⟩
  have : pair (pre ++ n :: post) v.at d = pair (pre ++ n :: post) (fun is => g.at (is.set pre.length (n - 1 - is.getD pre.length 0))) d :=
    sumIdx_congr (fun is hv => by rw [h2.at_eq hv])
  rw [this]
  unfold pair
  rw [sumIdx_append, sumIdx_append]
  refine sumIdx_congr (fun ip hip => ?_)
  simp only [sumIdx]
  rw [← Finset.sum_range_reflect]
  refine Finset.sum_congr rfl (fun i hi => sumIdx_congr (fun iq _ => ?_))
  have hi' := Finset.mem_range.mp hi
  rw [getD_append_axis hip.length_eq, set_append_axis hip.length_eq, getD_append_axis hip.length_eq, set_append_axis hip.length_eq,
    show n - 1 - (n - 1 - i) = i by omega]

/-- The matrix `img2col` makes: row `(ch, tr, tc)`, column `(b, i, j)`. -/
def colPix (g : Geo) (R C : Nat) (a : List Nat → ℝ) : List Nat → ℝ := fun is =>
  pixel a R C (is.getD 1 0 / outDim C g.kc g.pc g.sc g.dc / outDim R g.kr g.pr g.sr g.dr)
    (tapRow g (is.getD 1 0 / outDim C g.kc g.pc g.sc g.dc % outDim R g.kr g.pr g.sr g.dr) (is.getD 0 0 / g.kc % g.kr))
    (tapCol g (is.getD 1 0 % outDim C g.kc g.pc g.sc g.dc) (is.getD 0 0 % g.kc)) (is.getD 0 0 / g.kc / g.kr)

theorem colPix_enc {g : Geo} {R C : Nat} {a : List Nat → ℝ} {b ch tr tc i j : Nat} (htr : tr < g.kr) (htc : tc < g.kc)
    (hi : i < outDim R g.kr g.pr g.sr g.dr) (hj : j < outDim C g.kc g.pc g.sc g.dc) :
    colPix g R C a [(ch * g.kr + tr) * g.kc + tc, (b * outDim R g.kr g.pr g.sr g.dr + i) * outDim C g.kc g.pc g.sc g.dc + j] =
      pixel a R C b (tapRow g i tr) (tapCol g j tc) ch := by
  unfold colPix
  simp only [List.getD_cons_zero, List.getD_cons_succ]
  rw [(div_mod_eq htc).1, (div_mod_eq htc).2, (div_mod_eq htr).1, (div_mod_eq htr).2, (div_mod_eq hj).1, (div_mod_eq hj).2, (div_mod_eq hi).1, (div_mod_eq hi).2]

/-- The record an `img2col` may hold: that of images of this shape, or one of another length. -/
def RecOk (g : Geo) (BS R C CH : Nat) (rec : List Nat) : Prop := RecFor g BS R C CH rec ∨ rec.length ≠ g.kr * g.kc * CH * colsOf g BS R C

theorem img2col_values {g : Geo} {BS R C CH : Nat} {rec : List Nat} (hfit : g.Fits R C) (hsz : BS * R * C * CH < 2 ^ 32) (hrec : RecOk g BS R C CH rec) {t cache : Ten ℝ}
    {a : List Nat → ℝ} (ht : t.Has [BS, R, C, CH] a) :
    ∃ u rec', img2col g t cache rec = ok (u, rec') ∧ u.Has [g.kr * g.kc * CH, colsOf g BS R C] (colPix g R C a) := by
  obtain ⟨d, rec', h1, _, h3, h4⟩ := img2col_pos g t cache rec BS R C CH a ht hfit (by unfold mark; omega) hrec
  refine ⟨_, rec', h1, rfl, by simpa using h3, fun is hv => ?_⟩
  match is, hv with
  | [row, col], hv =>
    have hp : row * colsOf g BS R C + col < g.kr * g.kc * CH * colsOf g BS R C := lt_mul_of_lt hv.1 hv.2.1
    have h5 := h4 _ hp
    obtain ⟨ch, tr, tc, b, i, j, k1, k2, k3, k4, k5, k6, k7⟩ := exists_matpos hp
    have hcol : (b * outDim R g.kr g.pr g.sr g.dr + i) * outDim C g.kc g.pc g.sc g.dc + j < colsOf g BS R C := idx3_lt k4 k5 k6
    have e1 : row = (ch * g.kr + tr) * g.kc + tc := by
      have := congrArg (· / colsOf g BS R C) k7
      simpa only [(div_mod_eq hv.2.1).1, (div_mod_eq hcol).1] using this
    have e2 : col = (b * outDim R g.kr g.pr g.sr g.dr + i) * outDim C g.kc g.pc g.sc g.dc + j := by
      have := congrArg (· % colsOf g BS R C) k7
      simpa only [(div_mod_eq hv.2.1).2, (div_mod_eq hcol).2] using this
    have hflat : flat [g.kr * g.kc * CH, colsOf g BS R C] [row, col] = row * colsOf g BS R C + col := by simp
    rw [hflat, h5, k7, srcAt_enc k4 k2 k3 k5 k6, e1, e2, colPix_enc k2 k3 k5 k6, ← srcOf_value k4 k1]

theorem adj_img2col (K : Kit) {g : Geo} {BS R C CH : Nat} {rec : List Nat} (hfit : g.Fits R C) (hsz : BS * R * C * CH < 2 ^ 32) (hrec : RecOk g BS R C CH rec) :
    Adjoint (opImg2col K g rec) [BS, R, C, CH] [g.kr * g.kc * CH, colsOf g BS R C] (colPix g R C) := by
  have hf : ∀ t a, t.Has [BS, R, C, CH] a → ∃ u, (opImg2col K g rec).fwd t = ok u ∧ u.Has [g.kr * g.kc * CH, colsOf g BS R C] (colPix g R C a) := by
    intro t a ht
    obtain ⟨u, rec', h1, h2⟩ := img2col_values hfit hsz hrec (cache := K.cacheF) ht
    exact ⟨u, by show (img2col g t K.cacheF rec >>= fun r => pure r.1) = _; rw [h1, bind_ok]; rfl, h2⟩
  refine ⟨hf, fun x o y hx hxs hy hys => ?_⟩
  have hlen : y.data.length = g.kr * g.kc * CH * colsOf g BS R C := by rw [hy, hys]; simp
  -- the backward action depends on the operand through its shape alone
  have key : ∀ t : Ten ℝ, t.WF → t.shape = [BS, R, C, CH] → ∃ u rec', img2col g t K.cacheF rec = ok (u, rec') ∧ RecFor g BS R C CH rec' := by
    intro t ht hts
    have hth := ht.has
    rw [hts] at hth
    obtain ⟨d, rec', h1, h2, _⟩ := img2col_pos g t K.cacheF rec BS R C CH t.at hth hfit (by unfold mark; omega) hrec
    exact ⟨_, rec', h1, h2⟩
  obtain ⟨ux, rx, x1, x2⟩ := key x hx hxs
  have hxh := hx.has
  rw [hxs] at hxh
  obtain ⟨_, r', v, a1, a2, a3, a4, _⟩ := img2col_adjoint g x y K.cacheF K.cacheB rec BS R C CH x.at hxh hfit hsz hrec hlen
  rw [x1] at a1
  cases a1
  have hv : v.WF := by unfold Ten.WF; rw [a3, a4]; exact hx
  refine ⟨v, ?_, hv, by rw [a3, hxs], fun d => ?_⟩
  · show (img2col g x K.cacheF rec >>= fun r => img2colBack x y K.cacheB r.2) = _
    rw [x1, bind_ok]; exact a2
  · obtain ⟨u', r'', v', b1, b2, b3, b4, b5⟩ := img2col_adjoint g (tenOf [BS, R, C, CH] d) y K.cacheF K.cacheB rec BS R C CH d (tenOf_has _ _) hfit hsz hrec hlen
    obtain ⟨u'', r3, c1, c2⟩ := img2col_values hfit hsz hrec (cache := K.cacheF) (tenOf_has [BS, R, C, CH] d)
    rw [b1] at c1
    cases c1
    obtain ⟨_, _, e1, e2⟩ := key (tenOf [BS, R, C, CH] d) (tenOf_has _ _).wf rfl
    rw [b1] at e1
    cases e1
    have hsame : ∀ q, img2colBack (tenOf [BS, R, C, CH] d) y K.cacheB q = img2colBack x y K.cacheB q := by
      intro q
      unfold img2colBack
      rw [show (tenOf [BS, R, C, CH] d).shape = x.shape from hxs.symm]
    rw [hsame, e2.unique x2, a2] at b2
    cases b2
    have hvh := hv.has
    rw [a3, hxs] at hvh
    have hyh := hy.has
    rw [hys] at hyh
    rw [dot_pair c2 hyh, dot_pair (tenOf_has _ _) hvh] at b5
    rw [pair_comm, ← b5, pair_comm]

theorem adj_spread (K : Kit) {BS R C CH kr kc sr sc : Nat} {same : Bool} (hkr : 1 ≤ kr) (hkc : 1 ≤ kc) (hsr : 1 ≤ sr) (hsc : 1 ≤ sc) :
    Adjoint (opSpread K kr kc sr sc same) [BS, R, C, CH] [BS, spreadDim R kr sr same, spreadDim C kc sc same, CH]
      (spreadPix (spreadOff kr same) (spreadOff kc same) sr sc R C) := by
  refine Adjoint.of_dot (B := fun g => spreadBack kr kc sr sc same ⟨[BS, R, C, CH], []⟩ g K.cacheB)
    (fun t a ht => spread_values K.cacheF ht hkr hkc hsr hsc) (fun x o g _ hxs _ _ => ?_) (fun t g ht hts hg hgs => ?_)
  · show spreadBack kr kc sr sc same x g K.cacheB = spreadBack kr kc sr sc same ⟨[BS, R, C, CH], []⟩ g K.cacheB
    unfold spreadBack
    rw [hxs]
  · have hth := ht.has
    rw [hts] at hth
    have hgh := hg.has
    rw [hgs] at hgh
    obtain ⟨u, v, h1, h2, _, h4, h5⟩ := spread_adjoint t g K.cacheF K.cacheB BS R C CH kr kc sr sc same _ _ hth hgh hkr hkc hsr hsc
    obtain ⟨v', k1, k2⟩ := spreadBack_values (t := ⟨[BS, R, C, CH], []⟩) K.cacheB rfl hgh hkr hkc hsr hsc
    have : spreadBack kr kc sr sc same t g K.cacheB = spreadBack kr kc sr sc same ⟨[BS, R, C, CH], []⟩ g K.cacheB := by
      unfold spreadBack
      rw [hts]
    rw [this, k1] at h2
    cases h2
    exact ⟨u, _, h1, k1, k2.1, k2.2.1, h5⟩

theorem adj_avgPool (K : Kit) {n BS R C CH : Nat} (hn : 1 < n) (hR : n ∣ R) (hC : n ∣ C) :
    Adjoint (opAvgPool K n) [BS, R, C, CH] [BS, R / n, C / n, CH] (windowMean n) := by
  refine Adjoint.of_dot (B := fun g => avgPoolBack n ⟨[BS, R, C, CH], []⟩ g K.cacheB)
    (fun t a ht => ?_) (fun x o g _ hxs _ _ => ?_) (fun t g ht hts hg hgs => ?_)
  · obtain ⟨u, v, h1, h2, h3⟩ := avg_pool_mean n BS R C CH t K.cacheF a hn ht
    refine ⟨u, h1, h2.congr (fun is hv => ?_)⟩
    match is, hv with
    | [b, r, c, ch], _ => exact h3 b r c ch
  · show avgPoolBack n x g K.cacheB = avgPoolBack n ⟨[BS, R, C, CH], []⟩ g K.cacheB
    unfold avgPoolBack
    rw [hxs]
  · have hth := ht.has
    rw [hts] at hth
    have hgh := hg.has
    rw [hgs] at hgh
    obtain ⟨u, v, h1, h2, h4, h5⟩ := avg_pool_adjoint_partial n BS R C CH t K.cacheF g K.cacheB _ _ hn hth hgh hR hC
    obtain ⟨v', k1, k2, k3⟩ := avgPoolBack_ok (t := ⟨[BS, R, C, CH], []⟩) (cache := K.cacheB) rfl hgh hR hC
    have : avgPoolBack n t g K.cacheB = avgPoolBack n ⟨[BS, R, C, CH], []⟩ g K.cacheB := by
      unfold avgPoolBack
      rw [hts]
    rw [this, k1] at h2
    cases h2
    exact ⟨u, _, h1, k1, k2, (by rw [k3.1]; simp [Nat.mul_assoc]), h5⟩

theorem adj_upSample (K : Kit) {n BS R C CH : Nat} (hn : 1 < n) : Adjoint (opUpSample K n) [BS, R, C, CH] [BS, R * n, C * n, CH] (repeated n) := by
  refine Adjoint.of_dot (B := fun g => upSampleBack n ⟨[BS, R, C, CH], []⟩ g K.cacheB)
    (fun t a ht => ?_) (fun x o g _ hxs _ _ => ?_) (fun t g ht hts hg hgs => ?_)
  · obtain ⟨u, v, h1, h2, h3⟩ := up_sampling_values n BS R C CH t K.cacheF a hn ht
    refine ⟨u, h1, h2.congr (fun is hv => ?_)⟩
    match is, hv with
    | [b, r, c, ch], _ => exact h3 b r c ch
  · show upSampleBack n x g K.cacheB = upSampleBack n ⟨[BS, R, C, CH], []⟩ g K.cacheB
    unfold upSampleBack
    rw [hxs]
  · have hth := ht.has
    rw [hts] at hth
    have hgh := hg.has
    rw [hgs] at hgh
    obtain ⟨u, d, v, h1, h2, h3, _, h5⟩ := up_sampling_adjoint n BS R C CH t K.cacheF g K.cacheB _ _ hn hth hgh
    have : upSampleBack n t g K.cacheB = upSampleBack n ⟨[BS, R, C, CH], []⟩ g K.cacheB := by
      unfold upSampleBack
      rw [hts]
    rw [this] at h2
    exact ⟨u, d, h1, h2, h3.1, h3.2.1, h5⟩

theorem adj_zeroPad (K : Kit) {p : Pads} {cache : Ten ℝ} {BS R C CH : Nat} (hc : BorderZero p BS R C CH cache) :
    Adjoint (opZeroPad K p cache) [BS, R, C, CH] [BS, p.top + R + p.bottom, p.left + C + p.right, CH] (padded p R C) := by
  refine Adjoint.of_dot (B := fun g => zeroPadBack p ⟨[BS, R, C, CH], []⟩ g K.cacheB)
    (fun t a ht => zeroPad_border ht hc) (fun x o g _ hxs _ _ => ?_) (fun t g ht hts hg hgs => ?_)
  · show zeroPadBack p x g K.cacheB = zeroPadBack p ⟨[BS, R, C, CH], []⟩ g K.cacheB
    unfold zeroPadBack
    rw [hxs]
  · have hth := ht.has
    rw [hts] at hth
    have hgh := hg.has
    rw [hgs] at hgh
    obtain ⟨u, d, h1, h2, _, h5⟩ := zero_padding_adjoint p BS R C CH t cache g K.cacheB _ _ hth hc hgh
    obtain ⟨d', k1, k2⟩ := zero_padding_backward_crops p BS R C CH ⟨[BS, R, C, CH], []⟩ g K.cacheB _ rfl hgh
    have : zeroPadBack p t g K.cacheB = zeroPadBack p ⟨[BS, R, C, CH], []⟩ g K.cacheB := by
      unfold zeroPadBack
      rw [hts]
    rw [this, k1] at h2
    cases h2
    exact ⟨u, _, h1, k1, k2.1, k2.2.1, h5⟩

theorem adj_crop (K : Kit) {p : Pads} {BS R C CH : Nat} (hR : p.top + p.bottom < R) (hC : p.left + p.right < C) :
    Adjoint (opCrop K p) [BS, R, C, CH] [BS, R - p.top - p.bottom, C - p.left - p.right, CH] (cropped p) := by
  have eR : p.top + (R - p.top - p.bottom) + p.bottom = R := by omega
  have eC : p.left + (C - p.left - p.right) + p.right = C := by omega
  refine Adjoint.of_dot (B := fun g => cropBack p ⟨[BS, R, C, CH], []⟩ g K.cacheB)
    (fun t a ht => cropping_values p BS R C CH t K.cacheF a ht hR hC) (fun x o g _ hxs _ _ => ?_) (fun t g ht hts hg hgs => ?_)
  · show cropBack p x g K.cacheB = cropBack p ⟨[BS, R, C, CH], []⟩ g K.cacheB
    unfold cropBack
    rw [hxs]
  · have hth := ht.has
    rw [hts] at hth
    have hgh := hg.has
    rw [hgs] at hgh
    obtain ⟨u, d, h1, h2, _, _, h5⟩ := cropping_adjoint p BS (R - p.top - p.bottom) (C - p.left - p.right) CH t K.cacheF g K.cacheB _ _ (by omega) (by omega)
      (by rw [eR, eC]; exact hth) hgh
    obtain ⟨d', k1, k2⟩ := cropping_backward_pads p BS (R - p.top - p.bottom) (C - p.left - p.right) CH ⟨[BS, R, C, CH], []⟩ g K.cacheB _ (by rw [eR, eC]) hgh
    have : cropBack p t g K.cacheB = cropBack p ⟨[BS, R, C, CH], []⟩ g K.cacheB := by
      unfold cropBack
      rw [hts]
    rw [this, k1] at h2
    cases h2
    rw [eR, eC] at k2
    exact ⟨u, _, h1, k1, k2.1, k2.2.1, h5⟩

end
end Verif.Net
