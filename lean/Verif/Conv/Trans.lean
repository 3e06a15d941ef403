import Verif.Conv.TransModel
import Verif.Conv.Props
import Verif.Pool.Lemmas
/-!
# C103, C104: conv2d_transpose
-/
namespace Verif.Conv
open Verif Res View Data Pool

variable {α : Type}

/-- Specification: the transposed convolution.  Pixel `(r, c)` of the image contributes `w n tr tc ch` times its value to output
`(r * sr + tr, c * sc + tc)`. -/
def tconv [CommSemiring α] (kr kc sr sc R C CH : Nat) (a : List Nat → α) (w : Nat → Nat → Nat → Nat → α) (b y x n : Nat) : α :=
  ∑ ch ∈ Finset.range CH, ∑ tr ∈ Finset.range kr, ∑ tc ∈ Finset.range kc, ∑ r ∈ Finset.range R, ∑ c ∈ Finset.range C,
    if r * sr + tr = y ∧ c * sc + tc = x then w n tr tc ch * a [b, r, c, ch] else 0

/-- Specification: the extent of a transposed convolution. -/
def tconvDim (n k s : Nat) : Nat := (n - 1) * s + k

/-- Specification: the image with its pixels moved apart, zero in between. -/
def spreadPix [Zero α] (oy ox sr sc R C : Nat) (a : List Nat → α) : List Nat → α
  | [b, y, x, ch] =>
    if oy ≤ y ∧ (y - oy) % sr = 0 ∧ (y - oy) / sr < R ∧ ox ≤ x ∧ (x - ox) % sc = 0 ∧ (x - ox) / sc < C then
      a [b, (y - oy) / sr, (x - ox) / sc, ch] else 0
  | _ => 0

theorem off_lt {n k s r : Nat} {same : Bool} (hk : 1 ≤ k) (hs : 1 ≤ s) (hr : r < n) : spreadOff k same + r * s < spreadDim n k s same := by
  have h : r * s + s ≤ n * s := by
    have : (r + 1) * s ≤ n * s := Nat.mul_le_mul_right _ hr
    rwa [Nat.succ_mul] at this
  unfold spreadOff spreadDim
  cases same <;> simp <;> omega

theorem spread_values [Zero α] {kr kc sr sc BS R C CH : Nat} {same : Bool} {t : Ten α} (cache : Ten α) {a : List Nat → α}
    (ht : t.Has [BS, R, C, CH] a) (hkr : 1 ≤ kr) (hkc : 1 ≤ kc) (hsr : 1 ≤ sr) (hsc : 1 ≤ sc) :
    ∃ u, spread kr kc sr sc same t cache = ok u ∧
      u.Has [BS, spreadDim R kr sr same, spreadDim C kc sc same, CH] (spreadPix (spreadOff kr same) (spreadOff kc same) sr sc R C a) := by
  obtain ⟨hsh, hd⟩ := ten4 ht
  generalize hH : spreadDim R kr sr same = H
  generalize hW : spreadDim C kc sc same = W
  have hy : ∀ r, r < R → spreadOff kr same + r * sr < H := fun r hr => hH ▸ off_lt hkr hsr hr
  have hx : ∀ c, c < C → spreadOff kc same + c * sc < W := fun c hc => hW ▸ off_lt hkc hsc hc
  generalize hoy : spreadOff kr same = oy at *
  generalize hox : spreadOff kc same = ox at *
  have hsets : Sets (fun o => loop BS (fun b o => loop R (fun r o => loop C (fun c o => loop CH (fun ch o => do
      let v ← rd t.data (at4 BS R C CH b r c ch)
      wr o (at4 BS H W CH b (oy + r * sr) (ox + c * sc) ch) v) o) o) o) o)
      (BS * H * W * CH) (fun q => ∃ b, b < BS ∧ ∃ r, r < R ∧ ∃ c, c < C ∧ ∃ ch, ch < CH ∧
        q = ((b * H + (oy + r * sr)) * W + (ox + c * sc)) * CH + ch)
      (fun q => a [(dec4 H W CH q).1, ((dec4 H W CH q).2.1 - oy) / sr, ((dec4 H W CH q).2.2.1 - ox) / sc, (dec4 H W CH q).2.2.2]) := by
    refine Sets.loop (fun b hb => Sets.loop (fun r hr => Sets.loop (fun c hc => Sets.loop (fun ch hch => ?_))))
    refine Sets.congr_prog (sets_wr (x := a [b, r, c, ch]) (idx4_lt hb (hy r hr) (hx c hc) hch) ?_) (fun o _ => ?_)
    · rw [dec4_enc (hy r hr) (hx c hc) hch]
      dsimp only
      rw [Nat.add_sub_cancel_left, Nat.add_sub_cancel_left, Nat.mul_div_cancel _ hsr, Nat.mul_div_cancel _ hsc]
    · simp only [at4_eq]
      rw [hd.rd hb hr hc hch, bind_ok]
  obtain ⟨o', h1, h2, h3, h4⟩ := hsets (List.replicate (BS * H * W * CH) 0) (by simp)
  dsimp only at h1
  refine ⟨⟨[BS, H, W, CH], o'⟩, ?_, rfl, is4_iff.mpr ⟨h2, fun b y x ch hb hy' hx' hch => ?_⟩⟩
  · unfold spread
    rw [hsh]
    dsimp only
    rw [require_true ⟨hkr, hkc⟩, bind_ok, Gemm.fillN_ok rfl, bind_ok, resizeV_length, size4, hH, hW, hoy, hox, h1, bind_ok]
    rfl
  · simp only [spreadPix]
    split
    · rename_i h
      obtain ⟨p1, p2, p3, p4, p5, p6⟩ := h
      rw [h3 _ (idx4_lt hb hy' hx' hch) ⟨b, hb, (y - oy) / sr, p3, (x - ox) / sc, p6, ch, hch, by
        rw [Nat.div_mul_cancel (Nat.dvd_of_mod_eq_zero p2), Nat.div_mul_cancel (Nat.dvd_of_mod_eq_zero p5),
          Nat.add_sub_cancel' p1, Nat.add_sub_cancel' p4]⟩]
      dsimp only
      rw [dec4_enc hy' hx' hch]
    · rename_i h
      rw [h4, List.getElem?_replicate, if_pos (idx4_lt hb hy' hx' hch)]
      rintro ⟨b', hb', r, hr, c, hc, ch', hch', e⟩
      obtain ⟨e1, e2⟩ := mul_add_inj hch hch' e
      obtain ⟨e3, e4⟩ := mul_add_inj hx' (hx c hc) e1
      obtain ⟨e5, e6⟩ := mul_add_inj hy' (hy r hr) e3
      refine h ?_
      subst e4; subst e6
      rw [Nat.add_sub_cancel_left, Nat.add_sub_cancel_left, Nat.mul_div_cancel _ hsr, Nat.mul_div_cancel _ hsc]
      exact ⟨by omega, Nat.mul_mod_left _ _, hr, by omega, Nat.mul_mod_left _ _, hc⟩

theorem spreadBack_values [Zero α] {kr kc sr sc BS R C CH : Nat} {same : Bool} {t g : Ten α} (cache : Ten α) {γ : List Nat → α}
    (ht : t.shape = [BS, R, C, CH]) (hg : g.Has [BS, spreadDim R kr sr same, spreadDim C kc sc same, CH] γ)
    (hkr : 1 ≤ kr) (hkc : 1 ≤ kc) (hsr : 1 ≤ sr) (hsc : 1 ≤ sc) :
    ∃ u, spreadBack kr kc sr sc same t g cache = ok u ∧
      u.Has [BS, R, C, CH] (fun is => γ [is.getD 0 0, spreadOff kr same + is.getD 1 0 * sr, spreadOff kc same + is.getD 2 0 * sc, is.getD 3 0]) := by
  obtain ⟨hsh, hd⟩ := ten4 hg
  obtain ⟨o, h1, h2⟩ := fill4 (k := BS) (l := R) (m := C) (n := CH) (out := (resizeV cache [BS, R, C, CH]).data)
    (body := fun b r c ch o => do
      let v ← rd g.data (at4 BS (spreadDim R kr sr same) (spreadDim C kc sc same) CH b (spreadOff kr same + r * sr) (spreadOff kc same + c * sc) ch)
      wr o (at4 BS R C CH b r c ch) v)
    (f := fun b r c ch => γ [b, spreadOff kr same + r * sr, spreadOff kc same + c * sc, ch])
    (fun b r c ch o hb hr hc hch _ => by
      simp only [at4_eq]
      rw [hd.rd hb (off_lt hkr hsr hr) (off_lt hkc hsc hc) hch, bind_ok]) (by rw [resizeV_length, size4])
  refine ⟨⟨[BS, R, C, CH], o⟩, ?_, has4 rfl h2 (by simp)⟩
  unfold spreadBack
  rw [ht, hsh]
  dsimp only
  rw [require_true ⟨hkr, hkc⟩, bind_ok, h1, bind_ok]
  rfl

theorem pixel_spread [CommSemiring α] {oy ox sr sc R C H W : Nat} (a : List Nat → α) (b ch : Nat) (Y X : Int) (hsr : 1 ≤ sr) (hsc : 1 ≤ sc)
    (hH : ∀ r, r < R → oy + r * sr < H) (hW : ∀ c, c < C → ox + c * sc < W) :
    pixel (spreadPix oy ox sr sc R C a) H W b Y X ch =
      ∑ r ∈ Finset.range R, ∑ c ∈ Finset.range C, if ((oy + r * sr : Nat) : Int) = Y ∧ ((ox + c * sc : Nat) : Int) = X then a [b, r, c, ch] else 0 := by
  by_cases h : ∃ r c, r < R ∧ c < C ∧ ((oy + r * sr : Nat) : Int) = Y ∧ ((ox + c * sc : Nat) : Int) = X
  · obtain ⟨r, c, hr, hc, rfl, rfl⟩ := h
    have h1 := hH r hr
    have h2 := hW c hc
    rw [Finset.sum_eq_single r, Finset.sum_eq_single c]
    · rw [if_pos ⟨rfl, rfl⟩]
      unfold pixel
      rw [if_pos ⟨by omega, by omega, by omega, by omega⟩, Int.toNat_natCast, Int.toNat_natCast]
      simp only [spreadPix, Nat.add_sub_cancel_left, Nat.mul_div_cancel _ hsr, Nat.mul_div_cancel _ hsc]
      rw [if_pos ⟨by omega, Nat.mul_mod_left _ _, hr, by omega, Nat.mul_mod_left _ _, hc⟩]
    · intro c' _ hne
      rw [if_neg]
      rintro ⟨_, e⟩
      exact hne (Nat.eq_of_mul_eq_mul_right hsc (by omega))
    · intro h; exact absurd (Finset.mem_range.mpr hc) h
    · intro r' _ hne
      refine Finset.sum_eq_zero (fun c' _ => ?_)
      rw [if_neg]
      rintro ⟨e, _⟩
      exact hne (Nat.eq_of_mul_eq_mul_right hsr (by omega))
    · intro h; exact absurd (Finset.mem_range.mpr hr) h
  · rw [Finset.sum_eq_zero (fun r hr => Finset.sum_eq_zero (fun c hc => ?_))]
    · unfold pixel
      split
      · rename_i hin
        simp only [spreadPix]
        rw [if_neg]
        rintro ⟨p1, p2, p3, p4, p5, p6⟩
        refine h ⟨_, _, p3, p6, ?_, ?_⟩
        · rw [Nat.div_mul_cancel (Nat.dvd_of_mod_eq_zero p2)]; omega
        · rw [Nat.div_mul_cancel (Nat.dvd_of_mod_eq_zero p5)]; omega
      · rfl
    · rw [if_neg]
      rintro ⟨e1, e2⟩
      exact h ⟨r, c, Finset.mem_range.mp hr, Finset.mem_range.mp hc, e1, e2⟩

/-- A convolution of the spread image with the flipped filter is every `sr`-th row and `sc`-th column of the transposed convolution. -/
theorem direct_spread [CommSemiring α] {kr kc pr pc sr sc oy ox R C CH H W er ec : Nat} (a : List Nat → α) (w : Nat → Nat → Nat → Nat → α)
    (b i j n : Nat) (hsr : 1 ≤ sr) (hsc : 1 ≤ sc) (hH : ∀ r, r < R → oy + r * sr < H) (hW : ∀ c, c < C → ox + c * sc < W)
    (her : er + pr + oy = kr - 1) (hec : ec + pc + ox = kc - 1) :
    direct ⟨kr, kc, pr, pc, sr, sc, 1, 1⟩ H W CH (spreadPix oy ox sr sc R C a) (fun n tr tc ch => w n (kr - 1 - tr) (kc - 1 - tc) ch) b i j n =
      tconv kr kc sr sc R C CH a w b (i * sr + er) (j * sc + ec) n := by
  unfold direct tconv
  refine Finset.sum_congr rfl (fun ch _ => ?_)
  dsimp only
  rw [← Finset.sum_range_reflect (fun tr => ∑ tc ∈ Finset.range kc, ∑ r ∈ Finset.range R, ∑ c ∈ Finset.range C, _) kr]
  refine Finset.sum_congr rfl (fun tr htr => ?_)
  rw [← Finset.sum_range_reflect (fun tc => ∑ r ∈ Finset.range R, ∑ c ∈ Finset.range C, _) kc]
  refine Finset.sum_congr rfl (fun tc htc => ?_)
  rw [Finset.mem_range] at htr htc
  rw [pixel_spread a b ch _ _ hsr hsc hH hW, Finset.mul_sum]
  refine Finset.sum_congr rfl (fun r _ => ?_)
  rw [Finset.mul_sum]
  refine Finset.sum_congr rfl (fun c _ => ?_)
  rw [mul_ite, mul_zero]
  refine if_congr ?_ rfl rfl
  unfold tapRow tapCol
  dsimp only
  push_cast
  constructor
  · rintro ⟨h1, h2⟩; constructor
    · zify [show tr ≤ kr - 1 by omega, show 1 ≤ kr by omega] at her ⊢; linarith
    · zify [show tc ≤ kc - 1 by omega, show 1 ≤ kc by omega] at hec ⊢; linarith
  · rintro ⟨h1, h2⟩; constructor
    · zify [show tr ≤ kr - 1 by omega, show 1 ≤ kr by omega] at her h1 ⊢; linarith
    · zify [show tc ≤ kc - 1 by omega, show 1 ≤ kc by omega] at hec h2 ⊢; linarith

/-- For one channel or one tap the documented layout `[NC, kr, kc, CH]` and the layout the code reads, `[NC, CH, kr, kc]`, agree. -/
theorem layout_agrees {d : List α} {NC kr kc CH : Nat} {w : List Nat → α} (hf : IsT d [NC, kr, kc, CH] w) (h1 : CH = 1 ∨ (kr = 1 ∧ kc = 1)) :
    IsT d [NC, CH, kr, kc] (fun is => w [is.getD 0 0, is.getD 2 0, is.getD 3 0, is.getD 1 0]) := by
  refine ⟨by rw [hf.1]; simp; ring_nf; simp, fun is hv => ?_⟩
  match is, hv with
  | [n, ch, tr, tc], ⟨q1, q2, q3, q4, _⟩ =>
    have := hf.2 [n, tr, tc, ch] ⟨q1, q3, q4, q2, trivial⟩
    simp only [List.getD_cons_zero, List.getD_cons_succ]
    rw [← this]
    congr 1
    rcases h1 with rfl | ⟨rfl, rfl⟩
    · obtain rfl : ch = 0 := by omega
      simp
    · obtain rfl : tr = 0 := by omega
      obtain rfl : tc = 0 := by omega
      simp

theorem flipped_filter [Zero α] {filter : Ten α} {NC kr kc CH : Nat} {w : List Nat → α} (hf : filter.Has [NC, kr, kc, CH] w)
    (hne : size [NC, kr, kc, CH] ≠ 0) (c2 c1 : Ten α) :
    ∃ f g, flipInto filter 2 c2 = ok f ∧ flipInto f 1 c1 = ok g ∧
      g.Has [NC, kr, kc, CH] (fun is => w [is.getD 0 0, kr - 1 - is.getD 1 0, kc - 1 - is.getD 2 0, is.getD 3 0]) := by
  obtain ⟨f, h1, h2⟩ := flip_reverses_axis filter c2 [NC, kr] [CH] kc w hf (by simp) hne 2 (Or.inl rfl)
  obtain ⟨g, g1, g2⟩ := flip_reverses_axis f c1 [NC] [kc, CH] kr _ h2 (by simp) hne 1 (Or.inl rfl)
  refine ⟨f, g, h1, g1, g2.congr (fun is hv => ?_)⟩
  match is, hv with
  | [n, tr, tc, ch], _ => rfl

theorem spreadDim_valid_fit {n k s : Nat} (hn : 1 ≤ n) (hs : 1 ≤ s) (hk : 1 ≤ k) : k ≤ spreadDim n k s false := by
  have : 1 ≤ n * s := Nat.mul_pos hn hs
  simp only [spreadDim, Bool.false_eq_true, if_false]; omega

/-- C103, C104: what `conv2d_transpose` with padding `"valid"` and no dilation computes, for any strides, for one input channel or
a kernel of one tap: every `sr`-th row and `sc`-th column of the transposed convolution, whatever the caches hold. -/
theorem conv2d_transpose_subsampled_partial [CommSemiring α] (t filter : Ten α) (k : TCache α) (BS R C CH NC kr kc sr sc : Nat)
    (a w : List Nat → α) (ht : t.Has [BS, R, C, CH] a) (hf : filter.Has [NC, kr, kc, CH] w) (h1 : CH = 1 ∨ (kr = 1 ∧ kc = 1))
    (hkr : 1 ≤ kr) (hkc : 1 ≤ kc) (hsr : 1 ≤ sr) (hsc : 1 ≤ sc) (hR : 1 ≤ R) (hC : 1 ≤ C) (hCH : CH ≠ 0) (hNC : NC ≠ 0)
    (hsz : BS * (R * sr + (kr * 2 - 2)) * (C * sc + (kc * 2 - 2)) * CH < 2 ^ 32) (hK : kr * kc * CH < 2 ^ 64 - 1) (hN : NC < 2 ^ 64 - 1)
    (hrec : k.record = []) :
    ∃ u rec, conv2dTranspose kr kc sr sc 1 1 false t filter k = ok (u, rec) ∧
      u.Has [BS, (R * sr + kr - 2) / sr + 1, (C * sc + kc - 2) / sc + 1, NC]
        (fun is => tconv kr kc sr sc R C CH a (fun n tr tc ch => w [n, tr, tc, ch]) (is.getD 0 0) (is.getD 1 0 * sr) (is.getD 2 0 * sc) (is.getD 3 0)) := by
  obtain ⟨s, s1, s2⟩ := spread_values (same := false) (kr := kr) (kc := kc) k.spread ht hkr hkc hsr hsc
  obtain ⟨f, g, f1, f2, f3⟩ := flipped_filter hf (by
    simp only [size_cons, size_nil]
    exact Nat.mul_ne_zero hNC (Nat.mul_ne_zero (by omega) (Nat.mul_ne_zero (by omega) (by omega)))) k.flip2 k.flip1
  have hfr := spreadDim_valid_fit hR hsr hkr
  have hfc := spreadDim_valid_fit hC hsc hkc
  obtain ⟨u, r, e1, _, e3⟩ := convWith_ok ⟨kr, kc, 0, 0, sr, sc, 1, 1⟩ s g k.col k.tr k.record BS _ _ CH NC kr kc _ _ s2
    ⟨hkr, hkc, hsr, hsc, by simp only; omega, by simp only; omega⟩ (by simpa [spreadDim] using hsz) (by rw [hrec]; exact recFor_nil)
    f3.1 (layout_agrees f3.2 h1) hCH hNC (by unfold minusOne; simp only; omega) (by unfold minusOne; omega) rfl (by simp only; omega)
  refine ⟨u, r, ?_, ?_⟩
  · unfold conv2dTranspose
    rw [s1, bind_ok, f1, bind_ok, f2, bind_ok]
    unfold generalConv2d
    rw [s2.1, f3.1]
    exact e1
  · have hd : ∀ n k s, 1 ≤ k → 1 ≤ n → 1 ≤ s → outDim (spreadDim n k s false) k 0 s 1 = (n * s + k - 2) / s + 1 := by
      intro n k s hk hn hs
      have : 1 ≤ n * s := Nat.mul_pos hn hs
      unfold outDim spreadDim
      simp only [Bool.false_eq_true, if_false]
      congr 2
      omega
    unfold IsConv at e3
    simp only [hd R kr sr hkr hR hsr, hd C kc sc hkc hC hsc] at e3
    refine e3.congr (fun is hv => ?_)
    simp only [List.getD_cons_zero, List.getD_cons_succ]
    rw [direct_spread (pr := 0) (pc := 0) (er := 0) (ec := 0) a (fun n tr tc ch => w [n, tr, tc, ch]) _ _ _ _ hsr hsc
      (fun r hr => off_lt hkr hsr hr) (fun c hc => off_lt hkc hsc hc) (by simp [spreadOff]) (by simp [spreadOff])]
    simp only [Nat.add_zero]

/-- C103 for stride 1, padding `"valid"`, one input channel (or one tap): `conv2d_transpose` is the transposed convolution, with its
extents.  Missing: several input channels with several taps (`conv2d_transpose_channels_violated`) and strides (C104). -/
theorem conv2d_transpose_valid_partial [CommSemiring α] (t filter : Ten α) (k : TCache α) (BS R C CH NC kr kc : Nat)
    (a w : List Nat → α) (ht : t.Has [BS, R, C, CH] a) (hf : filter.Has [NC, kr, kc, CH] w) (h1 : CH = 1 ∨ (kr = 1 ∧ kc = 1))
    (hkr : 1 ≤ kr) (hkc : 1 ≤ kc) (hR : 1 ≤ R) (hC : 1 ≤ C) (hCH : CH ≠ 0) (hNC : NC ≠ 0)
    (hsz : BS * (R + (kr * 2 - 2)) * (C + (kc * 2 - 2)) * CH < 2 ^ 32) (hK : kr * kc * CH < 2 ^ 64 - 1) (hN : NC < 2 ^ 64 - 1)
    (hrec : k.record = []) :
    ∃ u rec, conv2dTranspose kr kc 1 1 1 1 false t filter k = ok (u, rec) ∧
      u.Has [BS, tconvDim R kr 1, tconvDim C kc 1, NC]
        (fun is => tconv kr kc 1 1 R C CH a (fun n tr tc ch => w [n, tr, tc, ch]) (is.getD 0 0) (is.getD 1 0) (is.getD 2 0) (is.getD 3 0)) := by
  obtain ⟨u, r, e1, e2⟩ := conv2d_transpose_subsampled_partial t filter k BS R C CH NC kr kc 1 1 a w ht hf h1 hkr hkc (Nat.le_refl _) (Nat.le_refl _)
    hR hC hCH hNC (by simpa using hsz) hK hN hrec
  have hd : ∀ n k, 1 ≤ n → 1 ≤ k → (n * 1 + k - 2) / 1 + 1 = tconvDim n k 1 := by
    intro n k hn hk; unfold tconvDim; omega
  rw [hd R kr hR hkr, hd C kc hC hkc] at e2
  exact ⟨u, r, e1, by simpa using e2⟩

/-- C103 for padding `"same"`, stride 1, an odd square kernel of `2 m + 1` taps each way, one input channel (or one tap): the middle of the
transposed convolution, with the image's extents.  Missing: kernels that are not square or not odd (C37, C38), several input channels. -/
theorem conv2d_transpose_same_partial [CommSemiring α] (t filter : Ten α) (k : TCache α) (BS R C CH NC m : Nat)
    (a w : List Nat → α) (ht : t.Has [BS, R, C, CH] a) (hf : filter.Has [NC, 2 * m + 1, 2 * m + 1, CH] w) (h1 : CH = 1 ∨ m = 0)
    (hR : 1 ≤ R) (hC : 1 ≤ C) (hCH : CH ≠ 0) (hNC : NC ≠ 0)
    (hsz : BS * R * C * CH < 2 ^ 32) (hK : (2 * m + 1) * (2 * m + 1) * CH < 2 ^ 64 - 1) (hN : NC < 2 ^ 64 - 1)
    (hrec : k.record = []) :
    ∃ u rec, conv2dTranspose (2 * m + 1) (2 * m + 1) 1 1 1 1 true t filter k = ok (u, rec) ∧
      u.Has [BS, R, C, NC] (fun is => tconv (2 * m + 1) (2 * m + 1) 1 1 R C CH a (fun n tr tc ch => w [n, tr, tc, ch])
        (is.getD 0 0) (is.getD 1 0 + m) (is.getD 2 0 + m) (is.getD 3 0)) := by
  obtain ⟨s, s1, s2⟩ := spread_values (same := true) (kr := 2 * m + 1) (kc := 2 * m + 1) (sr := 1) (sc := 1) k.spread ht (by omega) (by omega)
    (by omega) (by omega)
  simp only [spreadDim, spreadOff, if_true, Nat.mul_one] at s2
  obtain ⟨f, g, f1, f2, f3⟩ := flipped_filter hf (by
    simp only [size_cons, size_nil]
    exact Nat.mul_ne_zero hNC (Nat.mul_ne_zero (by omega) (Nat.mul_ne_zero (by omega) (by omega)))) k.flip2 k.flip1
  obtain ⟨u, r, e1, _, e3⟩ := convWith_ok ⟨2 * m + 1, 2 * m + 1, m, m, 1, 1, 1, 1⟩ s g k.col k.tr k.record BS _ _ CH NC _ _ _ _ s2
    ⟨by simp only; omega, by simp only; omega, by simp only; omega, by simp only; omega, by simp only; omega, by simp only; omega⟩ hsz
    (by rw [hrec]; exact recFor_nil) f3.1
    (layout_agrees f3.2 (h1.imp id (fun h => by subst h; exact ⟨rfl, rfl⟩))) hCH hNC (by unfold minusOne; simp only; omega)
    (by unfold minusOne; omega) rfl (by simp only; omega)
  refine ⟨u, r, ?_, ?_⟩
  · unfold conv2dTranspose
    rw [s1, bind_ok, f1, bind_ok, f2, bind_ok]
    unfold generalConv2d
    rw [s2.1, f3.1]
    dsimp only
    rw [if_pos rfl]
    unfold sameGeoGeneral
    rw [sameTotal_ok (by omega) (Nat.le_refl _) (by omega), bind_ok, bind_ok]
    have hp : samePad (2 * m + 1) (1 * (2 * m + 1 - 1) + 1 - 1) = m := by unfold samePad; omega
    rw [hp]
    exact e1
  · have hd : ∀ n, 1 ≤ n → outDim n (2 * m + 1) m 1 1 = n := by
      intro n hn; unfold outDim; omega
    unfold IsConv at e3
    simp only [hd R hR, hd C hC] at e3
    refine e3.congr (fun is hv => ?_)
    simp only [List.getD_cons_zero, List.getD_cons_succ]
    have := direct_spread (kr := 2 * m + 1) (kc := 2 * m + 1) (pr := m) (pc := m) (sr := 1) (sc := 1) (oy := 0) (ox := 0) (er := m) (ec := m)
      (R := R) (C := C) (CH := CH) (H := R) (W := C) a (fun n tr tc ch => w [n, tr, tc, ch]) (is.getD 0 0) (is.getD 1 0) (is.getD 2 0) (is.getD 3 0)
      (Nat.le_refl _) (Nat.le_refl _) (fun r hr => by omega) (fun c hc => by omega) (by omega) (by omega)
    simp only [Nat.mul_one] at this
    exact this

/-- C103 is false of the code for several input channels: the flips act on the documented layout `[NC, kr, kc, CH]`, the convolution
reads `[NC, CH, kr, kc]`.  One pixel with channels 1 and 10 and a filter of two rows `1 2` and `3 4` (two channels each): the
transposed convolution is `21, 43`, the code computes `24, 13`. -/
theorem conv2d_transpose_channels_violated :
    conv2dTranspose 2 1 1 1 1 1 false ⟨[1, 1, 1, 2], [1, (10 : Int)]⟩ ⟨[1, 2, 1, 2], [1, 2, 3, 4]⟩ ⟨⟨[], []⟩, ⟨[], []⟩, ⟨[], []⟩, ⟨[], []⟩, ⟨[], []⟩, []⟩ =
      ok (⟨[1, 2, 1, 1], [4 * 1 + 2 * 10, 3 * 1 + 1 * 10]⟩, [0, 2, 2, 4, 1, 3, 3, 5]) ∧
    tconv 2 1 1 1 1 1 2 (fun is => [1, (10 : Int)].getD (is.getD 3 0) 0) (fun _ tr _ ch => [1, 2, 3, (4 : Int)].getD (tr * 2 + ch) 0) 0 0 0 0 = 21 ∧
    tconv 2 1 1 1 1 1 2 (fun is => [1, (10 : Int)].getD (is.getD 3 0) 0) (fun _ tr _ ch => [1, 2, 3, (4 : Int)].getD (tr * 2 + ch) 0) 0 1 0 0 = 43 := by
  refine ⟨?_, ?_, ?_⟩ <;> decide +kernel

end Verif.Conv
