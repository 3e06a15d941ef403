import Verif.Fp.Props
import Verif.Conv.Props
/-!
# C137: convolutions computed with rounding

The model of `conv2d` and `general_conv2d` (`img2col`, matrix product, transpose, reshape) run with numbers that round.
-/
namespace Verif.Fp
open Verif Res Gemm Data Conv Finset

variable {F : Type} [Arith F]

/-- What a computed value `r` of the convolution at output `(b, i, j, n)` may be relied on for: if it is finite, so are all the weights of the
filter and all the pixels under it, and it is within the bound for that many products; if these are finite and far enough from overflow it is
finite; with whole numbers it is exact as long as they stay small. -/
def AccurateConv (g : Geo) (R C CH : Nat) (a : List Nat → F) (w : Nat → Nat → Nat → Nat → F) (b i j n : Nat) (r : F) : Prop :=
  let pix := fun tr tc ch => pixel a R C b (tapRow g i tr) (tapCol g j tc) ch
  let exact := direct g R C CH (fun is => val (a is)) (fun n tr tc ch => val (w n tr tc ch)) b i j n
  let mag := direct g R C CH (fun is => |val (a is)|) (fun n tr tc ch => |val (w n tr tc ch)|) b i j n
  let bound := dotBound (Arith.u F) (Arith.w F) (g.kr * g.kc * CH) mag
  (fin r → (∀ ch tr tc, ch < CH → tr < g.kr → tc < g.kc → fin (w n tr tc ch) ∧ fin (pix tr tc ch)) ∧ |val r - exact| ≤ bound) ∧
  ((∀ ch tr tc, ch < CH → tr < g.kr → tc < g.kc → fin (w n tr tc ch) ∧ fin (pix tr tc ch)) → mag + bound ≤ Arith.top F → fin r) ∧
  ((∀ ch tr tc, ch < CH → tr < g.kr → tc < g.kc → (fin (w n tr tc ch) ∧ fin (pix tr tc ch)) ∧ (∃ k : ℤ, val (w n tr tc ch) = k) ∧
      ∃ k : ℤ, val (pix tr tc ch) = k) → mag < Arith.whole F → fin r ∧ val r = exact)

theorem pixel_map {α β : Type} [Zero α] [Zero β] (f : α → β) (h0 : f 0 = 0) (a : List Nat → α) (R C b : Nat) (y x : Int) (ch : Nat) :
    f (pixel a R C b y x ch) = pixel (fun is => f (a is)) R C b y x ch := by
  unfold pixel
  split
  · rfl
  · exact h0

/-- The products of a row of the filter matrix and a column of the gathered image are those of the convolution. -/
theorem accurate_taps {g : Geo} {R C CH b i j n : Nat} {a : List Nat → F} {w : Nat → Nat → Nat → Nat → F} {x y : Nat → F} {r : F}
    (hx : ∀ ch tr tc, ch < CH → tr < g.kr → tc < g.kc → x ((ch * g.kr + tr) * g.kc + tc) = w n tr tc ch)
    (hy : ∀ ch tr tc, ch < CH → tr < g.kr → tc < g.kc → y ((ch * g.kr + tr) * g.kc + tc) = pixel a R C b (tapRow g i tr) (tapCol g j tc) ch)
    (h : Accurate x y (g.kr * g.kc * CH) r) : AccurateConv g R C CH a w b i j n r := by
  have e1 : ∑ l ∈ range (g.kr * g.kc * CH), val (x l) * val (y l) =
      direct g R C CH (fun is => val (a is)) (fun n tr tc ch => val (w n tr tc ch)) b i j n := by
    rw [sum_taps]
    unfold direct
    refine sum_congr rfl (fun ch hch => sum_congr rfl (fun tr htr => sum_congr rfl (fun tc htc => ?_)))
    rw [mem_range] at hch htr htc
    rw [hx ch tr tc hch htr htc, hy ch tr tc hch htr htc, pixel_map val Arith.val_zero]
  have e2 : ∑ l ∈ range (g.kr * g.kc * CH), |val (x l)| * |val (y l)| =
      direct g R C CH (fun is => |val (a is)|) (fun n tr tc ch => |val (w n tr tc ch)|) b i j n := by
    rw [sum_taps]
    unfold direct
    refine sum_congr rfl (fun ch hch => sum_congr rfl (fun tr htr => sum_congr rfl (fun tc htc => ?_)))
    rw [mem_range] at hch htr htc
    rw [hx ch tr tc hch htr htc, hy ch tr tc hch htr htc]
    exact congrArg _ (pixel_map (fun v : F => |val v|) (by show |val (0 : F)| = 0; rw [Arith.val_zero, abs_zero]) a R C b _ _ ch)
  have dec : ∀ {P : F → F → Prop}, (∀ l, l < g.kr * g.kc * CH → P (x l) (y l)) ↔
      ∀ ch tr tc, ch < CH → tr < g.kr → tc < g.kc → P (w n tr tc ch) (pixel a R C b (tapRow g i tr) (tapCol g j tc) ch) := by
    intro P
    constructor
    · intro hp ch tr tc h1 h2 h3
      have := hp ((ch * g.kr + tr) * g.kc + tc) (by
        rw [show g.kr * g.kc * CH = CH * g.kr * g.kc by ring]; exact idx3_lt h1 h2 h3)
      rwa [hx ch tr tc h1 h2 h3, hy ch tr tc h1 h2 h3] at this
    · intro hp l hl
      obtain ⟨ch, tr, tc, h1, h2, h3, rfl⟩ := exists_dec3 (l := CH) (m := g.kr) (n := g.kc) (p := l) (by
        rw [show CH * g.kr * g.kc = g.kr * g.kc * CH by ring]; exact hl)
      rw [hx ch tr tc h1 h2 h3, hy ch tr tc h1 h2 h3]
      exact hp ch tr tc h1 h2 h3
  obtain ⟨p1, p2, p3⟩ := h
  rw [e1, e2, dec (P := fun x y => fin x ∧ fin y)] at p1
  rw [e2, dec (P := fun x y => fin x ∧ fin y)] at p2
  rw [e1, e2, dec (P := fun x y => (fin x ∧ fin y) ∧ (∃ k : ℤ, val x = k) ∧ ∃ k : ℤ, val y = k)] at p3
  exact ⟨p1, p2, p3⟩

/-- The specification of the result: shape `[BS, oR, oC, NC]`, each element an accurate convolution. -/
def IsAccurateConv (u : Ten F) (g : Geo) (BS R C CH NC : Nat) (a : List Nat → F) (w : Nat → Nat → Nat → Nat → F) : Prop :=
  ∃ v : List Nat → F, u.Has [BS, outDim R g.kr g.pr g.sr g.dr, outDim C g.kc g.pc g.sc g.dc, NC] v ∧
    ∀ b i j n, b < BS → i < outDim R g.kr g.pr g.sr g.dr → j < outDim C g.kc g.pc g.sc g.dc → n < NC →
      AccurateConv g R C CH a w b i j n (v [b, i, j, n])

/-- Whatever the caches hold, on first use or with a record of another length or of this geometry. -/
theorem convWith_accurate (g : Geo) (t filter cache cacheT : Ten F) (rec : List Nat) (BS R C CH NC k1 k2 : Nat)
    (a w : List Nat → F) (ht : t.Has [BS, R, C, CH] a) (hfit : g.Fits R C) (hsz : BS * R * C * CH < 2 ^ 32)
    (hrec : RecFor g BS R C CH rec ∨ rec.length ≠ g.kr * g.kc * CH * colsOf g BS R C)
    (hfs : filter.shape = [NC, k1, k2, CH]) (hfd : IsT filter.data [NC, CH, g.kr, g.kc] w) (hCH : CH ≠ 0) (hNC : NC ≠ 0)
    (hK : g.kr * g.kc * CH ≠ minusOne) (hN : NC ≠ minusOne)
    (hcol : outDim C g.kc g.pr g.sc g.dc = outDim C g.kc g.pc g.sc g.dc) (hfit' : g.dc * (g.kc - 1) + 1 ≤ C + 2 * g.pr) :
    ∃ u rec', convWith g R C t filter cache cacheT rec = ok (u, rec') ∧ RecFor g BS R C CH rec' ∧
      IsAccurateConv u g BS R C CH NC a (fun n tr tc ch => w [n, ch, tr, tc]) := by
  obtain ⟨d, rec', h1, h2, h3, h4⟩ := img2col_pos g t cache rec BS R C CH a ht hfit (by unfold mark; omega) hrec
  have hkr : g.kr ≠ 0 := by have := hfit.1; omega
  have hkc : g.kc ≠ 0 := by have := hfit.2.1; omega
  have hKne : g.kr * g.kc * CH ≠ 0 := Nat.mul_ne_zero (Nat.mul_ne_zero hkr hkc) hCH
  have hfl : filter.data.length = NC * (g.kr * g.kc * CH) := by rw [hfd.1]; simp; left; ring
  have hf := reshapeOp_ok (t := filter) (shape := [g.kr * g.kc * CH]) (n := NC) (by simpa using hKne) (by simp) (by simpa using hK)
    (by simpa using hfl)
  -- the two matrices
  have hA : Is2 filter.data NC (g.kr * g.kc * CH) (fun n l => w [n, l / g.kc / g.kr, l / g.kc % g.kr, l % g.kc]) := by
    refine ⟨hfl, fun n l hn hl => ?_⟩
    obtain ⟨ch, tr, tc, q1, q2, q3, rfl⟩ := exists_dec3 (l := CH) (m := g.kr) (n := g.kc) (p := l) (by
      rw [show CH * g.kr * g.kc = g.kr * g.kc * CH by ring]; exact hl)
    have := hfd.2 [n, ch, tr, tc] ⟨hn, q1, q2, q3, trivial⟩
    dsimp only
    rw [(div_mod_eq q3).1, (div_mod_eq q3).2, (div_mod_eq q2).1, (div_mod_eq q2).2, ← this]
    congr 1
    simp; ring
  have hB : Is2 d (g.kr * g.kc * CH) (colsOf g BS R C) (fun l c => match srcAt g BS R C CH (l * colsOf g BS R C + c) with
        | none => 0
        | some q => a (unflat [BS, R, C, CH] q)) := ⟨h3, fun l c hl hc => h4 _ (lt_mul_of_lt hl hc)⟩
  obtain ⟨P, p1, p2⟩ := gemmCpu_any (A := filter.data) (B := d) (C := List.replicate (NC * colsOf g BS R C) (0 : F)) (aT := false) (bT := false) (m := NC)
    (n := g.kr * g.kc * CH) (k := colsOf g BS R C) (a := _) (b := _) (by simpa [Gemm.Stores] using hA) (by simpa [Gemm.Stores] using hB) (by simp)
  obtain ⟨T, t1, t2, t3⟩ := transpose_values cacheT ⟨[NC, colsOf g BS R C], P⟩ NC (colsOf g BS R C)
    (fun is => P.getD (is.getD 0 0 * colsOf g BS R C + is.getD 1 0) 0) ⟨rfl, by simpa using p2.1, fun is hv => by
      match is, hv with
      | [n, c], hv =>
        have := p2.2 n c hv.1 hv.2.1
        simp [this]⟩
  have hTl : T.data.length = BS * (outDim R g.kr g.pr g.sr g.dr * outDim C g.kc g.pc g.sc g.dc * NC) := by
    rw [t3.1]; simp [colsOf]; ring
  have ho := reshapeOp_ok (t := T) (shape := [outDim R g.kr g.pr g.sr g.dr, outDim C g.kc g.pc g.sc g.dc, NC]) (n := BS)
    (by
      have := outDim_pos R g.kr g.pr g.sr g.dr
      have := outDim_pos C g.kc g.pc g.sc g.dc
      simp only [size_cons, size_nil]
      exact Nat.mul_ne_zero (by omega) (Nat.mul_ne_zero (by omega) (by omega))) (by simp) (by simpa using hN)
    (by rw [hTl]; simp [Nat.mul_assoc])
  refine ⟨⟨[BS, outDim R g.kr g.pr g.sr g.dr, outDim C g.kc g.pc g.sc g.dc, NC], T.data⟩, rec', ?_, h2,
    fun is => P.getD (is.getD 3 0 * colsOf g BS R C +
      ((is.getD 0 0 * outDim R g.kr g.pr g.sr g.dr + is.getD 1 0) * outDim C g.kc g.pc g.sc g.dc + is.getD 2 0)) 0,
    ⟨rfl, by simp only [hTl, size_cons, size_nil]; ring, fun is hv => ?_⟩, ?_⟩
  · unfold convWith
    rw [hfs]
    dsimp only
    rw [h1, bind_ok, hf, bind_ok]
    dsimp only
    unfold Gemm.gemmView
    simp only [assert_true, bind_ok]
    rw [p1, bind_ok, t1, bind_ok]
    have := hfit.2.2.2.2.1
    rw [require_true ⟨this, hfit'⟩, bind_ok, hcol, ho]; rfl
  · match is, hv with
    | [b, i, j, n], ⟨hb, hi, hj, hn, _⟩ =>
      have hc : (b * outDim R g.kr g.pr g.sr g.dr + i) * outDim C g.kc g.pc g.sc g.dc + j < colsOf g BS R C := idx3_lt hb hi hj
      have e1 := t3.2 [(b * outDim R g.kr g.pr g.sr g.dr + i) * outDim C g.kc g.pc g.sc g.dc + j, n] ⟨hc, hn, trivial⟩
      simp only [List.getD_cons_zero, List.getD_cons_succ] at e1 ⊢
      have e3 : flat [BS, outDim R g.kr g.pr g.sr g.dr, outDim C g.kc g.pc g.sc g.dc, NC] [b, i, j, n] =
          flat [colsOf g BS R C, NC] [(b * outDim R g.kr g.pr g.sr g.dr + i) * outDim C g.kc g.pc g.sc g.dc + j, n] := by
        simp; ring
      rw [e3, e1]
  · intro b i j n hb hi hj hn
    have hc : (b * outDim R g.kr g.pr g.sr g.dr + i) * outDim C g.kc g.pc g.sc g.dc + j < colsOf g BS R C := idx3_lt hb hi hj
    have e2 := p2.2 n _ hn hc
    simp only [List.getD_cons_zero, List.getD_cons_succ]
    rw [List.getD_eq_getElem?_getD, e2, Option.getD_some]
    refine accurate_taps (fun ch tr tc hch htr htc => ?_) (fun ch tr tc hch htr htc => ?_) (any_order_accurate _ _ _ _ (dot_sums _ _ _))
    · rw [(div_mod_eq htc).1, (div_mod_eq htc).2, (div_mod_eq htr).1, (div_mod_eq htr).2]
    · rw [srcAt_enc hb htr htc hi hj]
      exact srcOf_value hb hch

/-- `conv2d` with padding `"valid"`, each filter being stored channel by channel (`[NC, CH, kr, kc]`, C78). -/
theorem conv2d_valid_accurate (t filter cache cacheT : Ten F) (BS R C CH NC kr kc sr sc dr dc : Nat)
    (a w : List Nat → F) (ht : t.Has [BS, R, C, CH] a) (hfit : (Geo.mk kr kc 0 0 sr sc dr dc).Fits R C)
    (hsz : BS * R * C * CH < 2 ^ 32) (hfs : filter.shape = [NC, kr, kc, CH]) (hfd : IsT filter.data [NC, CH, kr, kc] w)
    (hCH : CH ≠ 0) (hNC : NC ≠ 0) (hK : kr * kc * CH < 2 ^ 64 - 1) (hN : NC < 2 ^ 64 - 1) :
    ∃ u rec, conv2d R C sr sc dr dc false t filter cache cacheT [] = ok (u, rec) ∧
      IsAccurateConv u ⟨kr, kc, 0, 0, sr, sc, dr, dc⟩ BS R C CH NC a (fun n tr tc ch => w [n, ch, tr, tc]) := by
  obtain ⟨u, r, h1, _, h3⟩ := convWith_accurate ⟨kr, kc, 0, 0, sr, sc, dr, dc⟩ t filter cache cacheT [] BS R C CH NC kr kc a w ht hfit hsz
    recFor_nil hfs hfd hCH hNC (by unfold minusOne; simp only; omega) (by unfold minusOne; omega) rfl hfit.2.2.2.2.2
  refine ⟨u, r, ?_, h3⟩
  unfold conv2d
  rw [hfs]
  exact h1

/-- `conv2d` with padding `"same"`, the paddings in both directions agreeing (else C37 fails already without rounding). -/
theorem conv2d_same_accurate (t filter cache cacheT : Ten F) (BS R C CH NC kr kc sr sc dr dc : Nat)
    (a w : List Nat → F) (ht : t.Has [BS, R, C, CH] a)
    (hfit : (Geo.mk kr kc (paddingFor kr sr dr) (paddingFor kc sc dc) sr sc dr dc).Fits R C)
    (hdr : 1 ≤ dr) (hdc : 1 ≤ dc) (hsr : sr ≤ dr * (kr - 1) + 1) (hsc : sc ≤ dc * (kc - 1) + 1)
    (her : (dr * (kr - 1) + 1 - sr) % 2 = 0) (hec : (dc * (kc - 1) + 1 - sc) % 2 = 0)
    (hpad : paddingFor kr sr dr = paddingFor kc sc dc)
    (hsz : BS * R * C * CH < 2 ^ 32) (hfs : filter.shape = [NC, kr, kc, CH]) (hfd : IsT filter.data [NC, CH, kr, kc] w)
    (hCH : CH ≠ 0) (hNC : NC ≠ 0) (hK : kr * kc * CH < 2 ^ 64 - 1) (hN : NC < 2 ^ 64 - 1) :
    ∃ u rec, conv2d R C sr sc dr dc true t filter cache cacheT [] = ok (u, rec) ∧
      IsAccurateConv u ⟨kr, kc, paddingFor kr sr dr, paddingFor kc sc dc, sr, sc, dr, dc⟩ BS R C CH NC a (fun n tr tc ch => w [n, ch, tr, tc]) := by
  obtain ⟨u, r, h1, _, h3⟩ := convWith_accurate ⟨kr, kc, paddingFor kr sr dr, paddingFor kc sc dc, sr, sc, dr, dc⟩ t filter cache cacheT [] BS R C CH NC
    kr kc a w ht hfit hsz recFor_nil hfs hfd hCH hNC (by unfold minusOne; simp only; omega) (by unfold minusOne; omega)
    (by simp only [hpad]) (by have := hfit.2.2.2.2.2; simp only [hpad] at this ⊢; exact this)
  refine ⟨u, r, ?_, h3⟩
  unfold conv2d
  rw [hfs]
  dsimp only
  rw [if_pos rfl]
  unfold sameGeo
  rw [sameTotal_ok hfit.1 hdr hsr, bind_ok, assert_true her, bind_ok, sameTotal_ok hfit.2.1 hdc hsc, bind_ok, assert_true hec, bind_ok]
  exact h1

/-- The same for `general_conv2d`, padding `"valid"`. -/
theorem general_conv2d_valid_accurate (t filter cache cacheT : Ten F) (BS R C CH NC kr kc sr sc dr dc : Nat)
    (a w : List Nat → F) (ht : t.Has [BS, R, C, CH] a) (hfit : (Geo.mk kr kc 0 0 sr sc dr dc).Fits R C)
    (hsz : BS * R * C * CH < 2 ^ 32) (hfs : filter.shape = [NC, kr, kc, CH]) (hfd : IsT filter.data [NC, CH, kr, kc] w)
    (hCH : CH ≠ 0) (hNC : NC ≠ 0) (hK : kr * kc * CH < 2 ^ 64 - 1) (hN : NC < 2 ^ 64 - 1) :
    ∃ u rec, generalConv2d sr sc dr dc false t filter cache cacheT [] = ok (u, rec) ∧
      IsAccurateConv u ⟨kr, kc, 0, 0, sr, sc, dr, dc⟩ BS R C CH NC a (fun n tr tc ch => w [n, ch, tr, tc]) := by
  obtain ⟨u, r, h1, h2⟩ := conv2d_valid_accurate t filter cache cacheT BS R C CH NC kr kc sr sc dr dc a w ht hfit hsz hfs hfd hCH hNC hK hN
  refine ⟨u, r, ?_, h2⟩
  unfold conv2d at h1
  unfold generalConv2d
  rw [ht.1]
  rw [hfs] at h1 ⊢
  exact h1

/-- And padding `"same"`, also with odd totals. -/
theorem general_conv2d_same_accurate (t filter cache cacheT : Ten F) (BS R C CH NC kr kc sr sc dr dc : Nat)
    (a w : List Nat → F) (ht : t.Has [BS, R, C, CH] a)
    (hfit : (Geo.mk kr kc (paddingFor kr sr dr) (paddingFor kc sc dc) sr sc dr dc).Fits R C)
    (hdr : 1 ≤ dr) (hdc : 1 ≤ dc) (hsr : sr ≤ dr * (kr - 1) + 1) (hsc : sc ≤ dc * (kc - 1) + 1)
    (hpad : paddingFor kr sr dr = paddingFor kc sc dc)
    (hsz : BS * R * C * CH < 2 ^ 32) (hfs : filter.shape = [NC, kr, kc, CH]) (hfd : IsT filter.data [NC, CH, kr, kc] w)
    (hCH : CH ≠ 0) (hNC : NC ≠ 0) (hK : kr * kc * CH < 2 ^ 64 - 1) (hN : NC < 2 ^ 64 - 1) :
    ∃ u rec, generalConv2d sr sc dr dc true t filter cache cacheT [] = ok (u, rec) ∧
      IsAccurateConv u ⟨kr, kc, paddingFor kr sr dr, paddingFor kc sc dc, sr, sc, dr, dc⟩ BS R C CH NC a (fun n tr tc ch => w [n, ch, tr, tc]) := by
  obtain ⟨u, r, h1, _, h3⟩ := convWith_accurate ⟨kr, kc, paddingFor kr sr dr, paddingFor kc sc dc, sr, sc, dr, dc⟩ t filter cache cacheT [] BS R C CH NC
    kr kc a w ht hfit hsz recFor_nil hfs hfd hCH hNC (by unfold minusOne; simp only; omega) (by unfold minusOne; omega)
    (by simp only [hpad]) (by have := hfit.2.2.2.2.2; simp only [hpad] at this ⊢; exact this)
  refine ⟨u, r, ?_, h3⟩
  unfold generalConv2d
  rw [ht.1, hfs]
  dsimp only
  rw [if_pos rfl]
  unfold sameGeoGeneral
  rw [sameTotal_ok hfit.1 hdr hsr, bind_ok, sameTotal_ok hfit.2.1 hdc hsc, bind_ok]
  exact h1

/-! ### examples -/

/-- Four pixels and the weights under them, in `float`. -/
def img4 : Ten (Num float32) := ⟨[1, 2, 2, 1], [ofInt 1, ofInt 2, ofInt 3, ofInt 4]⟩
def ker4 : Ten (Num float32) := ⟨[1, 2, 2, 1], [ofInt 5, ofInt 6, ofInt 7, ofInt 8]⟩

theorem img4_has : img4.Has [1, 2, 2, 1] (fun is => ofInt (2 * is.getD 1 0 + is.getD 2 0 + 1)) := by
  refine ⟨rfl, rfl, fun is hv => ?_⟩
  match is, hv with
  | [b, y, x, c], ⟨hb, hy, hx, hc, _⟩ =>
    obtain rfl : b = 0 := by omega
    obtain rfl : c = 0 := by omega
    rcases (by omega : y = 0 ∨ y = 1) with rfl | rfl <;> rcases (by omega : x = 0 ∨ x = 1) with rfl | rfl <;> rfl

theorem ker4_has : IsT ker4.data [1, 1, 2, 2] (fun is => ofInt (2 * is.getD 2 0 + is.getD 3 0 + 5)) := by
  refine ⟨rfl, fun is hv => ?_⟩
  match is, hv with
  | [n, c, y, x], ⟨hn, hc, hy, hx, _⟩ =>
    obtain rfl : n = 0 := by omega
    obtain rfl : c = 0 := by omega
    rcases (by omega : y = 0 ∨ y = 1) with rfl | rfl <;> rcases (by omega : x = 0 ∨ x = 1) with rfl | rfl <;> rfl

theorem pixel_in {α : Type} [Zero α] (a : List Nat → α) (R C b y x ch : Nat) (hy : y < R) (hx : x < C) : pixel a R C b (y : Int) (x : Int) ch = a [b, y, x, ch] := by
  unfold pixel
  rw [if_pos (by omega)]
  simp

theorem tap_plain (kr kc i t : Nat) : tapRow ⟨kr, kc, 0, 0, 1, 1, 1, 1⟩ i t = ((i + t : Nat) : Int) ∧ tapCol ⟨kr, kc, 0, 0, 1, 1, 1, 1⟩ i t = ((i + t : Nat) : Int) := by
  unfold tapRow tapCol
  constructor <;> push_cast <;> ring

/-- 1 * 5 + 2 * 6 + 3 * 7 + 4 * 8 = 70, exactly. -/
example : ∃ u rec v, conv2d 2 2 1 1 1 1 false img4 ker4 ⟨[], []⟩ ⟨[], []⟩ [] = ok (u, rec) ∧ u.data = [v] ∧ fin v ∧ val v = 70 := by
  obtain ⟨u, rec, h1, v, h2, h3⟩ := conv2d_valid_accurate img4 ker4 ⟨[], []⟩ ⟨[], []⟩ 1 2 2 1 1 2 2 1 1 1 1 _ _ img4_has (by unfold Geo.Fits; decide) (by decide) rfl ker4_has (by decide) (by decide)
    (by decide) (by decide)
  obtain ⟨_, _, h4⟩ := h3 0 0 0 0 (by decide) (by decide) (by decide) (by decide)
  have hd : ∀ (r : ℕ → ℕ → ℝ) (w : ℕ → ℕ → ℝ), direct ⟨2, 2, 0, 0, 1, 1, 1, 1⟩ 2 2 1 (fun is => r (is.getD 1 0) (is.getD 2 0)) (fun _ tr tc _ => w tr tc) 0 0 0 0 =
      w 0 0 * r 0 0 + w 0 1 * r 0 1 + (w 1 0 * r 1 0 + w 1 1 * r 1 1) := by
    intro r w
    unfold direct
    simp only [tap_plain, sum_range_succ, range_zero, sum_empty, zero_add]
    rw [pixel_in _ _ _ _ _ _ _ (by decide) (by decide), pixel_in _ _ _ _ _ _ _ (by decide) (by decide), pixel_in _ _ _ _ _ _ _ (by decide) (by decide), pixel_in _ _ _ _ _ _ _ (by decide) (by decide)]
    rfl
  obtain ⟨f1, f2⟩ := h4 (fun ch tr tc hch htr htc => by
      simp only [tap_plain]
      rw [pixel_in _ _ _ _ _ _ _ (by simp only at htr; omega) (by simp only at htc; omega)]
      exact ⟨⟨ofInt_fin _, ofInt_fin _⟩, ⟨_, ofInt_val _⟩, ⟨_, ofInt_val _⟩⟩) (by
    have := hd (fun y x => |val (ofInt (2 * y + x + 1))|) (fun y x => |val (ofInt (2 * y + x + 5))|)
    simp only [List.getD_cons_zero, List.getD_cons_succ] at this ⊢
    rw [this, float32_constants.2.2.2]
    simp only [ofInt_val]
    norm_num)
  have h5 := h2.2.2 [0, 0, 0, 0] ⟨by decide, by decide, by decide, by decide, trivial⟩
  have h6 := h2.2.1
  match hu : u.data, h5, h6 with
  | [z], h5, _ =>
    obtain rfl : z = v [0, 0, 0, 0] := by simpa [hu] using h5
    refine ⟨u, rec, _, h1, hu, f1, ?_⟩
    have := hd (fun y x => val (ofInt (2 * y + x + 1))) (fun y x => val (ofInt (2 * y + x + 5)))
    simp only [List.getD_cons_zero, List.getD_cons_succ] at this f2 
    rw [f2, this]
    simp only [ofInt_val]
    norm_num

end Verif.Fp
