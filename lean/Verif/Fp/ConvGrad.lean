import Verif.Fp.ConvBack
/-!
# C138: what a convolution sends back to its image and its filter, computed with rounding
-/
namespace Verif.Fp
open Verif Res View Gemm Data Ops Graph Conv Finset

/-! ### the operators, over any numbers -/

section
variable {α : Type} [Zero α] [Add α] [Mul α]

/-- The operator `reshape( new_shape )` (include/operation.hpp lines 1115-1180), over any numbers; `Net.opReshape` for reals. -/
def reshapeG (shape : List Nat) : UOp α := ⟨Conv.reshapeOp shape, fun x _ g => reshapeV g x.shape⟩

/-- The operator `transpose` (include/operation.hpp lines 1470-1523), over any numbers; `Net.opTranspose` for reals. -/
def transposeG (cacheF cacheB : Ten α) : UOp α := ⟨transposeInto cacheF, fun _ _ g => transposeInto cacheB g⟩

/-- The operator `img2col` (include/operation.hpp lines 1525-1657), over any numbers; `Net.opImg2col` for reals. -/
def img2colG (cacheF cacheB : Ten α) (g : Geo) (rec : List Nat) : UOp α where
  fwd x := do
    let r ← Conv.img2col g x cacheF rec
    pure r.1
  bwd x _ y := do
    let r ← Conv.img2col g x cacheF rec
    Conv.img2colBack x y cacheB r.2

/-- The expression `conv2d` and `general_conv2d` make of an image and a filter (include/operation.hpp lines 1692-1705, 1744-1757), over any numbers and with any
matrix product `mm`; `Net.convE` for reals. -/
def convG (mm : BOp α) (cacheF cacheB : Ten α) (i : Nat) (g : Geo) (rowIn colIn NC CH : Nat) (rec : List Nat) (x f : Ex α) : Ex α :=
  .un (i + 4) (reshapeG [outDim rowIn g.kr g.pr g.sr g.dr, outDim colIn g.kc g.pr g.sc g.dc, NC])
    (.un (i + 3) (transposeG cacheF cacheB)
      (.bin (i + 2) mm (.un i (reshapeG [g.kr * g.kc * CH]) f) (.un (i + 1) (img2colG cacheF cacheB g rec) x)))

end

/-- For reals it is the expression of the layers (C105). -/
theorem convG_real (K : Loss.Kit) (i : Nat) (g : Geo) (rowIn colIn NC CH : Nat) (rec : List Nat) (x f : Ex ℝ) :
    Net.convE K i g rowIn colIn NC CH rec x f = convG (opMatmul K.cacheF K.cacheB K.cacheB') K.cacheF K.cacheB i g rowIn colIn NC CH rec x f := rfl

variable {F : Type} [Arith F]

/-- What a computed gradient `r` of the image at `(b, y, x, ch)` may be relied on for, `γ` being the gradient of the output. -/
def AccurateImage (g : Geo) (R C NC : Nat) (γ : List Nat → F) (w : Nat → Nat → Nat → Nat → F) (b y x ch : Nat) (r : F) : Prop :=
  let exact := imageGrad g R C NC (fun is => val (γ is)) (fun n tr tc ch => val (w n tr tc ch)) b y x ch
  let mag := imageGrad g R C NC (fun is => |val (γ is)|) (fun n tr tc ch => |val (w n tr tc ch)|) b y x ch
  let bound := twoBound (Arith.u F) (Arith.w F) NC (g.kr * g.kc) mag
  let over := fun (P : F → F → Prop) => ∀ tr tc i j n, tr < g.kr → tc < g.kc → i < outDim R g.kr g.pr g.sr g.dr → j < outDim C g.kc g.pc g.sc g.dc → n < NC →
    tapRow g i tr = y → tapCol g j tc = x → P (w n tr tc ch) (γ [b, i, j, n])
  (fin r → over (fun p q => fin p ∧ fin q) ∧ |val r - exact| ≤ bound) ∧
  (over (fun p q => fin p ∧ fin q) → mag + bound ≤ Arith.top F → fin r) ∧
  (over (fun p q => (fin p ∧ fin q) ∧ (∃ k : ℤ, val p = k) ∧ ∃ k : ℤ, val q = k) → mag < Arith.whole F → fin r ∧ val r = exact)

/-- What a computed gradient `r` of the filter may be relied on for. -/
def AccurateFilter (g : Geo) (BS R C : Nat) (γ a : List Nat → F) (n tr tc ch : Nat) (r : F) : Prop :=
  let exact := filterGrad g BS R C (fun is => val (γ is)) (fun is => val (a is)) n tr tc ch
  let mag := filterGrad g BS R C (fun is => |val (γ is)|) (fun is => |val (a is)|) n tr tc ch
  let bound := dotBound (Arith.u F) (Arith.w F) (BS * outDim R g.kr g.pr g.sr g.dr * outDim C g.kc g.pc g.sc g.dc) mag
  let over := fun (P : F → F → Prop) => ∀ b i j, b < BS → i < outDim R g.kr g.pr g.sr g.dr → j < outDim C g.kc g.pc g.sc g.dc →
    P (γ [b, i, j, n]) (pixel a R C b (tapRow g i tr) (tapCol g j tc) ch)
  (fin r → over (fun p q => fin p ∧ fin q) ∧ |val r - exact| ≤ bound) ∧
  (over (fun p q => fin p ∧ fin q) → mag + bound ≤ Arith.top F → fin r) ∧
  (over (fun p q => (fin p ∧ fin q) ∧ (∃ k : ℤ, val p = k) ∧ ∃ k : ℤ, val q = k) → mag < Arith.whole F → fin r ∧ val r = exact)

/-- A row of the gradient of the output and a row of the gathered image. -/
theorem accurate_filter {g : Geo} {BS R C n tr tc ch : Nat} {γ a : List Nat → F} {x y : Nat → F} {r : F}
    (hx : ∀ b i j, b < BS → i < outDim R g.kr g.pr g.sr g.dr → j < outDim C g.kc g.pc g.sc g.dc →
      x ((b * outDim R g.kr g.pr g.sr g.dr + i) * outDim C g.kc g.pc g.sc g.dc + j) = γ [b, i, j, n])
    (hy : ∀ b i j, b < BS → i < outDim R g.kr g.pr g.sr g.dr → j < outDim C g.kc g.pc g.sc g.dc →
      y ((b * outDim R g.kr g.pr g.sr g.dr + i) * outDim C g.kc g.pc g.sc g.dc + j) = pixel a R C b (tapRow g i tr) (tapCol g j tc) ch)
    (h : Accurate x y (colsOf g BS R C) r) : AccurateFilter g BS R C γ a n tr tc ch r := by
  unfold colsOf at h
  have e1 : ∑ l ∈ range (BS * outDim R g.kr g.pr g.sr g.dr * outDim C g.kc g.pc g.sc g.dc), val (x l) * val (y l) =
      filterGrad g BS R C (fun is => val (γ is)) (fun is => val (a is)) n tr tc ch := by
    rw [Conv.sum_range_mul, Conv.sum_range_mul]
    unfold filterGrad
    refine sum_congr rfl (fun b hb => sum_congr rfl (fun i hi => sum_congr rfl (fun j hj => ?_)))
    rw [mem_range] at hb hi hj
    rw [hx b i j hb hi hj, hy b i j hb hi hj, pixel_map val Arith.val_zero]
  have e2 : ∑ l ∈ range (BS * outDim R g.kr g.pr g.sr g.dr * outDim C g.kc g.pc g.sc g.dc), |val (x l)| * |val (y l)| =
      filterGrad g BS R C (fun is => |val (γ is)|) (fun is => |val (a is)|) n tr tc ch := by
    rw [Conv.sum_range_mul, Conv.sum_range_mul]
    unfold filterGrad
    refine sum_congr rfl (fun b hb => sum_congr rfl (fun i hi => sum_congr rfl (fun j hj => ?_)))
    rw [mem_range] at hb hi hj
    rw [hx b i j hb hi hj, hy b i j hb hi hj]
    exact congrArg _ (pixel_map (fun v : F => |val v|) (by show |val (0 : F)| = 0; rw [Arith.val_zero, abs_zero]) a R C b _ _ ch)
  have dec : ∀ {P : F → F → Prop}, (∀ l, l < BS * outDim R g.kr g.pr g.sr g.dr * outDim C g.kc g.pc g.sc g.dc → P (x l) (y l)) ↔
      ∀ b i j, b < BS → i < outDim R g.kr g.pr g.sr g.dr → j < outDim C g.kc g.pc g.sc g.dc →
        P (γ [b, i, j, n]) (pixel a R C b (tapRow g i tr) (tapCol g j tc) ch) := by
    intro P
    constructor
    · intro hp b i j h1 h2 h3
      have := hp _ (idx3_lt h1 h2 h3)
      rwa [hx b i j h1 h2 h3, hy b i j h1 h2 h3] at this
    · intro hp l hl
      obtain ⟨b, i, j, h1, h2, h3, rfl⟩ := exists_dec3 (p := l) hl
      rw [hx b i j h1 h2 h3, hy b i j h1 h2 h3]
      exact hp b i j h1 h2 h3
  obtain ⟨p1, p2, p3⟩ := h
  rw [e1, e2, dec (P := fun x y => fin x ∧ fin y)] at p1
  rw [e2, dec (P := fun x y => fin x ∧ fin y)] at p2
  rw [e1, e2, dec (P := fun x y => (fin x ∧ fin y) ∧ (∃ k : ℤ, val x = k) ∧ ∃ k : ℤ, val y = k)] at p3
  exact ⟨p1, p2, p3⟩

/-- What is sent to a pixel: sums of products, one for every place of the matrix that holds the pixel. -/
theorem accurate_image {g : Geo} {BS R C CH NC b y x ch : Nat} {γ : List Nat → F} {w : Nat → Nat → Nat → Nat → F} {p q : Nat → Nat → F} {δ : Nat → F} {r : F}
    (hb : b < BS) (hy : y < R) (hx : x < C) (hch : ch < CH) (hsr : 1 ≤ g.sr) (hsc : 1 ≤ g.sc)
    (hp : ∀ tr tc i j n, tr < g.kr → tc < g.kc → i < outDim R g.kr g.pr g.sr g.dr → j < outDim C g.kc g.pc g.sc g.dc → n < NC →
      p (((ch * g.kr + tr) * g.kc + tc) * colsOf g BS R C + ((b * outDim R g.kr g.pr g.sr g.dr + i) * outDim C g.kc g.pc g.sc g.dc + j)) n = w n tr tc ch)
    (hq : ∀ tr tc i j n, tr < g.kr → tc < g.kc → i < outDim R g.kr g.pr g.sr g.dr → j < outDim C g.kc g.pc g.sc g.dc → n < NC →
      q (((ch * g.kr + tr) * g.kc + tc) * colsOf g BS R C + ((b * outDim R g.kr g.pr g.sr g.dr + i) * outDim C g.kc g.pc g.sc g.dc + j)) n = γ [b, i, j, n])
    (hG : ∀ l, l < g.kr * g.kc * CH * colsOf g BS R C → Accurate (p l) (q l) NC (δ l))
    (hr : AccurateSum ((placesOf g BS R C CH (((b * R + y) * C + x) * CH + ch)).map δ) r) : AccurateImage g R C NC γ w b y x ch r := by
  have key := accurate_two (places_length hb hy hx hch hsr hsc) (fun l hl => hG l (List.mem_range.mp (List.mem_filter.mp hl).1)) hr
  have tap : ∀ (f f' : Nat → Nat → Nat → Nat → ℝ), (∀ tr tc i j, tr < g.kr → tc < g.kc → i < outDim R g.kr g.pr g.sr g.dr → j < outDim C g.kc g.pc g.sc g.dc →
      f tr tc i j = f' tr tc i j) → tapSum g R C y x f = tapSum g R C y x f' := by
    intro f f' h
    unfold tapSum
    refine sum_congr rfl (fun tr htr => sum_congr rfl (fun tc htc => sum_congr rfl (fun i hi => sum_congr rfl (fun j hj => ?_))))
    rw [mem_range] at htr htc hi hj
    rw [h tr tc i j htr htc hi hj]
  have e1 := places_sum (g := g) hb hy hx hch (fun l => ∑ n ∈ range NC, val (p l n) * val (q l n))
  have e2 := places_sum (g := g) hb hy hx hch (fun l => ∑ n ∈ range NC, |val (p l n)| * |val (q l n)|)
  rw [tap _ (fun tr tc i j => ∑ n ∈ range NC, val (w n tr tc ch) * val (γ [b, i, j, n])) (fun tr tc i j h1 h2 h3 h4 =>
    sum_congr rfl (fun n hn => by rw [hp tr tc i j n h1 h2 h3 h4 (mem_range.mp hn), hq tr tc i j n h1 h2 h3 h4 (mem_range.mp hn)]))] at e1
  rw [tap _ (fun tr tc i j => ∑ n ∈ range NC, |val (w n tr tc ch)| * |val (γ [b, i, j, n])|) (fun tr tc i j h1 h2 h3 h4 =>
    sum_congr rfl (fun n hn => by rw [hp tr tc i j n h1 h2 h3 h4 (mem_range.mp hn), hq tr tc i j n h1 h2 h3 h4 (mem_range.mp hn)]))] at e2
  have dec : ∀ {P : F → F → Prop}, (∀ l ∈ placesOf g BS R C CH (((b * R + y) * C + x) * CH + ch), ∀ n, n < NC → P (p l n) (q l n)) ↔
      ∀ tr tc i j n, tr < g.kr → tc < g.kc → i < outDim R g.kr g.pr g.sr g.dr → j < outDim C g.kc g.pc g.sc g.dc → n < NC →
        tapRow g i tr = y → tapCol g j tc = x → P (w n tr tc ch) (γ [b, i, j, n]) := by
    intro P
    constructor
    · intro h tr tc i j n h1 h2 h3 h4 h5 h6 h7
      have := h _ (places_mem hb hy hx hch h1 h2 h3 h4 h6 h7) n h5
      rwa [hp tr tc i j n h1 h2 h3 h4 h5, hq tr tc i j n h1 h2 h3 h4 h5] at this
    · intro h l hl n hn
      obtain ⟨tr, tc, i, j, h1, h2, h3, h4, h5, h6, rfl⟩ := mem_places hy hx hch hl
      rw [hp tr tc i j n h1 h2 h3 h4 hn, hq tr tc i j n h1 h2 h3 h4 hn]
      exact h tr tc i j n h1 h2 h3 h4 hn h5 h6
  dsimp only at key
  rw [e1, e2] at key
  obtain ⟨p1, p2, p3⟩ := key
  rw [dec (P := fun x y => fin x ∧ fin y)] at p1 p2
  rw [dec (P := fun x y => (fin x ∧ fin y) ∧ (∃ k : ℤ, val x = k) ∧ ∃ k : ℤ, val y = k)] at p3
  exact ⟨p1, p2, p3⟩

/-- The value of a convolution and what it sends back: to the filter first, then to the image. -/
theorem conv_back {L D : Nat → Ten F} {mm : BOp F} (hmm : AccurateProduct mm) (hmb : AccurateBack mm) (cacheF cacheB : Ten F) {g : Geo} {BS R C CH NC : Nat} {rec : List Nat}
    (hc : Net.ConvFits g BS R C CH NC rec) {x f : Ex F} {tx tf γt : Ten F} {a w γ : List Nat → F} (hex : eval L D x = ok tx) (hx : tx.Has [BS, R, C, CH] a)
    (hef : eval L D f = ok tf) (hfs : tf.shape = [NC, g.kr, g.kc, CH]) (hfd : IsT tf.data [NC, CH, g.kr, g.kc] w)
    (hγ : γt.Has [BS, outDim R g.kr g.pr g.sr g.dr, outDim C g.kc g.pc g.sc g.dc, NC] γ) (i : Nat) :
    ∃ (u gx gf : Ten F) (γx γf : List Nat → F), eval L D (convG mm cacheF cacheB i g R C NC CH rec x f) = ok u ∧
      IsAccurateConv u g BS R C CH NC a (fun n tr tc ch => w [n, ch, tr, tc]) ∧
      (∀ sl, arrivals L D (convG mm cacheF cacheB i g R C NC CH rec x f) sl γt =
        arrivals L D f (some (i, false)) gf >>= fun l => arrivals L D x (some (i + 1, false)) gx >>= fun m => ok (l ++ m)) ∧
      gf.shape = [NC, g.kr, g.kc, CH] ∧ IsT gf.data [NC, CH, g.kr, g.kc] γf ∧ gx.Has [BS, R, C, CH] γx ∧
      (∀ n ch tr tc, n < NC → ch < CH → tr < g.kr → tc < g.kc → AccurateFilter g BS R C γ a n tr tc ch (γf [n, ch, tr, tc])) ∧
      ∀ b y x ch, b < BS → y < R → x < C → ch < CH → AccurateImage g R C NC γ (fun n tr tc ch => w [n, ch, tr, tc]) b y x ch (γx [b, y, x, ch]) := by
  have hrec := hc.record
  unfold Net.RecOk at hrec
  have hsz := hc.sz
  obtain ⟨d, rec', h1, h2, h3, h4⟩ := img2col_pos g tx cacheF rec BS R C CH a hx hc.fit (by unfold mark; omega) hrec
  have hkr : g.kr ≠ 0 := by have := hc.fit.1; omega
  have hkc : g.kc ≠ 0 := by have := hc.fit.2.1; omega
  have hKne : g.kr * g.kc * CH ≠ 0 := Nat.mul_ne_zero (Nat.mul_ne_zero hkr hkc) hc.ch0
  have hcols : colsOf g BS R C ≠ 0 := by
    unfold colsOf
    exact Nat.mul_ne_zero (Nat.mul_ne_zero hc.bs0 (outDim_pos _ _ _ _ _).ne') (outDim_pos _ _ _ _ _).ne'
  have hfl : tf.data.length = NC * (g.kr * g.kc * CH) := by rw [hfd.1]; simp; left; ring
  have hf := reshapeOp_ok (t := tf) (shape := [g.kr * g.kc * CH]) (n := NC) (by simpa using hKne) (by simp) (by simpa using hc.taps) (by simpa using hfl)
  -- the two matrices
  have hA : (⟨[NC, g.kr * g.kc * CH], tf.data⟩ : Ten F).Has [NC, g.kr * g.kc * CH] (fun is => w [is.getD 0 0, is.getD 1 0 / g.kc / g.kr, is.getD 1 0 / g.kc % g.kr, is.getD 1 0 % g.kc]) := by
    refine ⟨rfl, by simpa using hfl, fun is hv => ?_⟩
    match is, hv with
    | [n, l], ⟨hn, hl, _⟩ =>
      obtain ⟨ch, tr, tc, q1, q2, q3, rfl⟩ := exists_dec3 (l := CH) (m := g.kr) (n := g.kc) (p := l) (by
        rw [show CH * g.kr * g.kc = g.kr * g.kc * CH by ring]; exact hl)
      have := hfd.2 [n, ch, tr, tc] ⟨hn, q1, q2, q3, trivial⟩
      simp only [List.getD_cons_zero, List.getD_cons_succ]
      rw [(div_mod_eq q3).1, (div_mod_eq q3).2, (div_mod_eq q2).1, (div_mod_eq q2).2, ← this]
      congr 1
      simp; ring
  have hB : (⟨[g.kr * g.kc * CH, colsOf g BS R C], d⟩ : Ten F).Has [g.kr * g.kc * CH, colsOf g BS R C] (fun is => match srcAt g BS R C CH (is.getD 0 0 * colsOf g BS R C + is.getD 1 0) with
        | none => 0
        | some q => a (unflat [BS, R, C, CH] q)) := by
    refine ⟨rfl, by simpa using h3, fun is hv => ?_⟩
    match is, hv with
    | [l, c], ⟨hl, hc', _⟩ =>
      have := h4 (l * colsOf g BS R C + c) (lt_mul_of_lt hl hc')
      simp only [flat_cons, flat_nil, size_cons, size_nil, mul_one, add_zero, List.getD_cons_zero, List.getD_cons_succ]
      rw [this]
      cases srcAt g BS R C CH (l * colsOf g BS R C + c) <;> rfl
  obtain ⟨P, vP, p1, p2, p3⟩ := hmm _ _ NC (g.kr * g.kc * CH) (colsOf g BS R C) _ _ hA hB (Nat.pos_of_ne_zero hc.nc0) (Nat.pos_of_ne_zero hKne) (Nat.pos_of_ne_zero hcols)
  obtain ⟨T, t1, t2⟩ := transpose_values cacheF P NC (colsOf g BS R C) vP p2
  have hTl : T.data.length = BS * (outDim R g.kr g.pr g.sr g.dr * outDim C g.kc g.pc g.sc g.dc * NC) := by
    rw [t2.2.1]; simp [colsOf]; ring
  have ho := reshapeOp_ok (t := T) (shape := [outDim R g.kr g.pr g.sr g.dr, outDim C g.kc g.pc g.sc g.dc, NC]) (n := BS)
    (by
      have := outDim_pos R g.kr g.pr g.sr g.dr
      have := outDim_pos C g.kc g.pc g.sc g.dc
      have := hc.nc0
      simp only [size_cons, size_nil]
      exact Nat.mul_ne_zero (by omega) (Nat.mul_ne_zero (by omega) (by omega))) (by simp) (by simpa using hc.nc1)
    (by rw [hTl]; simp [Nat.mul_assoc])
  have hflat : ∀ b i j n, flat [BS, outDim R g.kr g.pr g.sr g.dr, outDim C g.kc g.pc g.sc g.dc, NC] [b, i, j, n] =
      flat [colsOf g BS R C, NC] [(b * outDim R g.kr g.pr g.sr g.dr + i) * outDim C g.kc g.pc g.sc g.dc + j, n] := by
    intro b i j n
    simp; ring
  have taps : ∀ ch tr tc, ch < CH → tr < g.kr → tc < g.kc → (ch * g.kr + tr) * g.kc + tc < g.kr * g.kc * CH := by
    intro ch tr tc h1 h2 h3
    rw [show g.kr * g.kc * CH = CH * g.kr * g.kc by ring]
    exact idx3_lt h1 h2 h3
  -- back: the gradient as a matrix
  have hG1 : reshapeV γt [colsOf g BS R C, NC] = ok ⟨[colsOf g BS R C, NC], γt.data⟩ :=
    reshapeV_same (by simp) (by simpa using hc.nc1) (by rw [hγ.2.1]; simp [colsOf, Nat.mul_assoc])
  have hG2 : (⟨[colsOf g BS R C, NC], γt.data⟩ : Ten F).Has [colsOf g BS R C, NC] (fun is => γ [is.getD 0 0 / outDim C g.kc g.pc g.sc g.dc / outDim R g.kr g.pr g.sr g.dr,
      is.getD 0 0 / outDim C g.kc g.pc g.sc g.dc % outDim R g.kr g.pr g.sr g.dr, is.getD 0 0 % outDim C g.kc g.pc g.sc g.dc, is.getD 1 0]) := by
    refine ⟨rfl, by show γt.data.length = _; rw [hγ.2.1]; simp [colsOf, Nat.mul_assoc], fun is hv => ?_⟩
    match is, hv with
    | [c, n], ⟨hc', hn, _⟩ =>
      obtain ⟨b, i, j, q1, q2, q3, rfl⟩ := exists_dec3 (p := c) hc'
      have := hγ.2.2 [b, i, j, n] ⟨q1, q2, q3, hn, trivial⟩
      rw [hflat] at this
      simp only [List.getD_cons_zero, List.getD_cons_succ]
      rw [(div_mod_eq q3).1, (div_mod_eq q3).2, (div_mod_eq q2).1, (div_mod_eq q2).2]
      exact this
  obtain ⟨gT, g1, g2⟩ := transpose_values cacheB ⟨[colsOf g BS R C, NC], γt.data⟩ (colsOf g BS R C) NC _ hG2
  obtain ⟨df, dc, δf, δc, m1, m2, m3, m4, m5⟩ := hmb _ _ P gT NC (g.kr * g.kc * CH) (colsOf g BS R C) _ _ _ hA hB g2
  have hdf : reshapeV df tf.shape = ok ⟨[NC, g.kr, g.kc, CH], df.data⟩ := by
    rw [hfs]
    exact reshapeV_same (by simp) (by simpa using hc.ch1) (by rw [m2.2.1]; simp [Nat.mul_assoc])
  obtain ⟨gx, x1, x2⟩ := img2colBack_any g tx dc cacheB rec' BS R C CH hx.1 hsz h2 (fun l => δc [l / colsOf g BS R C, l % colsOf g BS R C]) (by rw [m3.2.1]; simp) (fun l hl => by
    obtain ⟨r, c, hr, hcc, rfl⟩ := exists_div_mod hl
    have := m3.2.2 [r, c] ⟨hr, hcc, trivial⟩
    rw [(div_mod_eq hcc).1, (div_mod_eq hcc).2, ← this]
    simp)
  have ev1 : eval L D (.un i (reshapeG [g.kr * g.kc * CH]) f) = ok ⟨[NC, g.kr * g.kc * CH], tf.data⟩ := by
    rw [eval, hef, bind_ok]
    exact hf
  have ev2 : eval L D (.un (i + 1) (img2colG cacheF cacheB g rec) x) = ok ⟨[g.kr * g.kc * CH, colsOf g BS R C], d⟩ := by
    rw [eval, hex, bind_ok]
    show (Conv.img2col g tx cacheF rec >>= fun r => pure r.1) = _
    rw [h1]; rfl
  have ev3 : eval L D (.bin (i + 2) mm (.un i (reshapeG [g.kr * g.kc * CH]) f) (.un (i + 1) (img2colG cacheF cacheB g rec) x)) = ok P := by
    rw [eval, ev1, bind_ok, ev2, bind_ok]
    exact p1
  have ev4 : eval L D (.un (i + 3) (transposeG cacheF cacheB) (.bin (i + 2) mm (.un i (reshapeG [g.kr * g.kc * CH]) f) (.un (i + 1) (img2colG cacheF cacheB g rec) x))) = ok T := by
    rw [eval, ev3, bind_ok]
    exact t1
  have ev5 : eval L D (convG mm cacheF cacheB i g R C NC CH rec x f) = ok ⟨[BS, outDim R g.kr g.pr g.sr g.dr, outDim C g.kc g.pc g.sc g.dc, NC], T.data⟩ := by
    unfold convG
    rw [eval, ev4, bind_ok, hc.cols]
    exact ho
  refine ⟨_, gx, ⟨[NC, g.kr, g.kc, CH], df.data⟩, _, fun is => δf [is.getD 0 0, (is.getD 1 0 * g.kr + is.getD 2 0) * g.kc + is.getD 3 0], ev5, ?_, ?_, rfl, ?_, x2, ?_, ?_⟩
  · refine ⟨fun is => vP [is.getD 3 0, (is.getD 0 0 * outDim R g.kr g.pr g.sr g.dr + is.getD 1 0) * outDim C g.kc g.pc g.sc g.dc + is.getD 2 0],
      ⟨rfl, by simp only [hTl, size_cons, size_nil]; ring, fun is hv => ?_⟩, ?_⟩
    · match is, hv with
      | [b, i, j, n], ⟨hb, hi, hj, hn, _⟩ =>
        have e1 := t2.2.2 [(b * outDim R g.kr g.pr g.sr g.dr + i) * outDim C g.kc g.pc g.sc g.dc + j, n] ⟨idx3_lt hb hi hj, hn, trivial⟩
        simp only [List.getD_cons_zero, List.getD_cons_succ] at e1 ⊢
        rw [hflat, e1]
    · intro b i j n hb hi hj hn
      have hc' : (b * outDim R g.kr g.pr g.sr g.dr + i) * outDim C g.kc g.pc g.sc g.dc + j < colsOf g BS R C := idx3_lt hb hi hj
      simp only [List.getD_cons_zero, List.getD_cons_succ]
      refine accurate_taps (fun ch tr tc hch htr htc => ?_) (fun ch tr tc hch htr htc => ?_) (p3 n _ hn hc')
      · simp only [List.getD_cons_zero, List.getD_cons_succ]
        rw [(div_mod_eq htc).1, (div_mod_eq htc).2, (div_mod_eq htr).1, (div_mod_eq htr).2]
      · simp only [List.getD_cons_zero, List.getD_cons_succ]
        rw [srcAt_enc hb htr htc hi hj]
        exact srcOf_value hb hch
  · intro sl
    unfold convG
    rw [arrivals, ev4, bind_ok, hc.cols]
    show (reshapeOp _ T >>= _) = _
    rw [ho, bind_ok]
    show (reshapeV γt T.shape >>= _) = _
    rw [t2.1, hG1, bind_ok, arrivals, ev3, bind_ok]
    show (transposeInto cacheF P >>= _) = _
    rw [t1, bind_ok]
    show (transposeInto cacheB ⟨[colsOf g BS R C, NC], γt.data⟩ >>= _) = _
    rw [g1, bind_ok, arrivals, ev1, bind_ok, ev2, bind_ok, p1, bind_ok, m1, bind_ok]
    show (arrivals L D (.un i (reshapeG [g.kr * g.kc * CH]) f) _ df >>= fun a => arrivals L D (.un (i + 1) (img2colG cacheF cacheB g rec) x) _ dc >>= fun b => pure (a ++ b)) = _
    rw [arrivals, hef, bind_ok]
    show ((reshapeOp _ tf >>= fun _ => reshapeV df tf.shape >>= fun d => arrivals L D f (some (i, false)) d) >>= _) = _
    rw [hf, bind_ok, hdf, bind_ok, arrivals, hex, bind_ok]
    show (_ >>= fun a => ((Conv.img2col g tx cacheF rec >>= fun r => pure r.1) >>= fun y => (Conv.img2col g tx cacheF rec >>= fun r => Conv.img2colBack tx dc cacheB r.2) >>= fun d =>
      arrivals L D x (some (i + 1, false)) d) >>= fun b => pure (a ++ b)) = _
    rw [h1, bind_ok]
    simp only [pure_eq, bind_ok, x1]
  · refine ⟨by show df.data.length = _; rw [m2.2.1]; simp; left; ring, fun is hv => ?_⟩
    match is, hv with
    | [n, ch, tr, tc], ⟨hn, hch, htr, htc, _⟩ =>
      have := m2.2.2 [n, (ch * g.kr + tr) * g.kc + tc] ⟨hn, taps ch tr tc hch htr htc, trivial⟩
      simp only [List.getD_cons_zero, List.getD_cons_succ]
      rw [← this]
      congr 1
      simp; ring
  · intro n ch tr tc hn hch htr htc
    simp only [List.getD_cons_zero, List.getD_cons_succ]
    refine accurate_filter (fun b i j hb hi hj => ?_) (fun b i j hb hi hj => ?_) (m4 n _ hn (taps ch tr tc hch htr htc))
    · simp only [List.getD_cons_zero, List.getD_cons_succ]
      rw [(div_mod_eq hj).1, (div_mod_eq hj).2, (div_mod_eq hi).1, (div_mod_eq hi).2]
    · simp only [List.getD_cons_zero, List.getD_cons_succ]
      rw [srcAt_enc hb htr htc hi hj]
      exact srcOf_value hb hch
  · intro b y x ch hb hy hx' hch
    have hflat' : flat [BS, R, C, CH] [b, y, x, ch] = ((b * R + y) * C + x) * CH + ch := by simp; ring
    rw [hflat']
    refine accurate_image (p := fun l n => w [n, l / colsOf g BS R C / g.kc / g.kr, l / colsOf g BS R C / g.kc % g.kr, l / colsOf g BS R C % g.kc])
      (q := fun l n => γ [l % colsOf g BS R C / outDim C g.kc g.pc g.sc g.dc / outDim R g.kr g.pr g.sr g.dr, l % colsOf g BS R C / outDim C g.kc g.pc g.sc g.dc % outDim R g.kr g.pr g.sr g.dr,
        l % colsOf g BS R C % outDim C g.kc g.pc g.sc g.dc, n])
      (δ := fun l => δc [l / colsOf g BS R C, l % colsOf g BS R C])
      hb hy hx' hch hc.fit.2.2.1 hc.fit.2.2.2.1 ?_ ?_ ?_ (any_sum_accurate _ _ (foldl_sums _))
    · intro tr tc i j n htr htc hi hj hn
      have hc' : (b * outDim R g.kr g.pr g.sr g.dr + i) * outDim C g.kc g.pc g.sc g.dc + j < colsOf g BS R C := idx3_lt hb hi hj
      rw [(div_mod_eq hc').1, (div_mod_eq htc).1, (div_mod_eq htc).2, (div_mod_eq htr).1, (div_mod_eq htr).2]
    · intro tr tc i j n htr htc hi hj hn
      have hc' : (b * outDim R g.kr g.pr g.sr g.dr + i) * outDim C g.kc g.pc g.sc g.dc + j < colsOf g BS R C := idx3_lt hb hi hj
      rw [(div_mod_eq hc').2, (div_mod_eq hj).1, (div_mod_eq hj).2, (div_mod_eq hi).1, (div_mod_eq hi).2]
    · intro l hl
      obtain ⟨r, c, hr, hcc, rfl⟩ := exists_div_mod hl
      have := m5 r c hr hcc
      rw [(div_mod_eq hcc).1, (div_mod_eq hcc).2]
      simpa using this

/-! ### an example -/

/-- Variable 0 is the filter and variable 1 the image of the example of C137. -/
def convD : Nat → Ten (Num float32) := fun v => if v = 0 then ker4 else img4
@[inherit_doc convD] def convMM : BOp (Num float32) := ⟨matmul ⟨[], []⟩, fun l r _ g => matmulBack ⟨[], []⟩ ⟨[], []⟩ l r g⟩

theorem convFits4 : Net.ConvFits ⟨2, 2, 0, 0, 1, 1, 1, 1⟩ 1 2 2 1 1 [] := by
  refine ⟨by unfold Geo.Fits; decide, by decide, Or.inr (by decide), by decide, by decide, by decide, by decide, by decide, by decide, rfl⟩

theorem tap4 {α : Type} [AddCommMonoid α] (f : Nat → Nat → Nat → Nat → α) : tapSum ⟨2, 2, 0, 0, 1, 1, 1, 1⟩ 2 2 1 1 f = f 1 1 0 0 := by
  unfold tapSum
  simp only [tap_plain]
  rw [show outDim 2 2 0 1 1 = 1 from rfl]
  simp [sum_range_succ]

/-- With gradient 3 of the output, the filter gets 3 * 4 = 12 at its last tap and the image 3 * 8 = 24 at its last pixel, exactly. -/
example : ∃ gf gx γf γx, arrivals (fun _ => ⟨[], []⟩) convD (convG convMM ⟨[], []⟩ ⟨[], []⟩ 0 ⟨2, 2, 0, 0, 1, 1, 1, 1⟩ 2 2 1 1 [] (.var 1 ⟨0, 0, true⟩) (.var 0 ⟨0, 0, true⟩)) none
      ⟨[1, 1, 1, 1], [ofInt 3]⟩ = ok [⟨0, ⟨0, 0, true⟩, some (0, false), gf⟩, ⟨1, ⟨0, 0, true⟩, some (1, false), gx⟩] ∧
    IsT gf.data [1, 1, 2, 2] γf ∧ gx.Has [1, 2, 2, 1] γx ∧ fin (γf [0, 0, 1, 1]) ∧ val (γf [0, 0, 1, 1]) = 12 ∧ fin (γx [0, 1, 1, 0]) ∧ val (γx [0, 1, 1, 0]) = 24 := by
  obtain ⟨_, gx, gf, γx, γf, _, _, h1, _, h2, h3, h4, h5⟩ := conv_back (L := fun _ => ⟨[], []⟩) (D := convD) (mm := convMM) (matmul_product _ _) (matmul_back _ _ _) ⟨[], []⟩ ⟨[], []⟩ convFits4
    (x := .var 1 ⟨0, 0, true⟩) (f := .var 0 ⟨0, 0, true⟩) (tx := img4) (tf := ker4) (γt := ⟨[1, 1, 1, 1], [ofInt 3]⟩) (γ := fun _ => ofInt 3) rfl img4_has rfl rfl ker4_has
    ⟨rfl, rfl, fun is hv => by
      match is, hv with
      | [b, i, j, n], ⟨hb, hi, hj, hn, _⟩ =>
        obtain rfl : b = 0 := by omega
        obtain rfl : i = 0 := by have : outDim 2 2 0 1 1 = 1 := rfl; simp only at hi; omega
        obtain rfl : j = 0 := by have : outDim 2 2 0 1 1 = 1 := rfl; simp only at hj; omega
        obtain rfl : n = 0 := by omega
        rfl⟩ 0
  obtain ⟨_, _, p1⟩ := h4 0 0 1 1 (by decide) (by decide) (by decide) (by decide)
  obtain ⟨_, _, p2⟩ := h5 0 1 1 0 (by decide) (by decide) (by decide) (by decide)
  have hf : ∀ (c : ℝ) (r : ℕ → ℕ → ℝ), filterGrad ⟨2, 2, 0, 0, 1, 1, 1, 1⟩ 1 2 2 (fun _ => c) (fun is => r (is.getD 1 0) (is.getD 2 0)) 0 1 1 0 = c * r 1 1 := by
    intro c r
    unfold filterGrad
    simp only [tap_plain]
    rw [show outDim 2 2 0 1 1 = 1 from rfl]
    simp only [sum_range_succ, range_zero, sum_empty, zero_add]
    rw [pixel_in _ _ _ _ _ _ _ (by decide) (by decide)]
    rfl
  have hi : ∀ (c : ℝ) (w : ℕ → ℕ → ℝ), imageGrad ⟨2, 2, 0, 0, 1, 1, 1, 1⟩ 2 2 1 (fun _ => c) (fun _ tr tc _ => w tr tc) 0 1 1 0 = w 1 1 * c := by
    intro c w
    unfold imageGrad
    rw [tap4]
    simp
  obtain ⟨a1, a2⟩ := p1 (fun b i j hb hi hj => by
      have e : outDim 2 2 0 1 1 = 1 := rfl
      simp only at hi hj
      simp only [tap_plain]
      rw [pixel_in _ _ _ _ _ _ _ (by omega) (by omega)]
      exact ⟨⟨ofInt_fin _, ofInt_fin _⟩, ⟨_, ofInt_val _⟩, ⟨_, ofInt_val _⟩⟩) (by
    have := hf |val (ofInt 3)| (fun y x => |val (ofInt (2 * y + x + 1))|)
    simp only at this ⊢
    rw [this, float32_constants.2.2.2]
    simp only [ofInt_val]
    norm_num)
  obtain ⟨b1, b2⟩ := p2 (fun tr tc i j n _ _ _ _ _ _ _ => ⟨⟨ofInt_fin _, ofInt_fin _⟩, ⟨_, ofInt_val _⟩, ⟨_, ofInt_val _⟩⟩) (by
    have := hi |val (ofInt 3)| (fun y x => |val (ofInt (2 * y + x + 5))|)
    simp only [List.getD_cons_zero, List.getD_cons_succ] at this ⊢
    rw [this, float32_constants.2.2.2]
    simp only [ofInt_val]
    norm_num)
  refine ⟨gf, gx, γf, γx, h1 none, h2, h3, a1, ?_, b1, ?_⟩
  · have := hf (val (ofInt 3)) (fun y x => val (ofInt (2 * y + x + 1)))
    simp only at this a2
    rw [a2, this]
    simp only [ofInt_val]
    norm_num
  · have := hi (val (ofInt 3)) (fun y x => val (ofInt (2 * y + x + 5)))
    simp only [List.getD_cons_zero, List.getD_cons_succ] at this b2
    rw [b2, this]
    simp only [ofInt_val]
    norm_num

end Verif.Fp
