import Verif.Conv.Model
import Verif.Data.Bridge
import Mathlib.Tactic.IntervalCases
/-!
# C35, C36, C39: img2col, its gradient, and reuse of the operator
-/
namespace Verif.Conv
open Verif Res View Data

variable {α : Type}

/-! ### the record -/

/-- Number of columns of the matrix. -/
def colsOf (g : Geo) (BS R C : Nat) : Nat := BS * outDim R g.kr g.pr g.sr g.dr * outDim C g.kc g.pc g.sc g.dc

/-- The record an image shape should have. -/
def RecFor (g : Geo) (BS R C CH : Nat) (rec : List Nat) : Prop :=
  Is3 rec (g.kr * g.kc * CH) BS (outDim R g.kr g.pr g.sr g.dr * outDim C g.kc g.pc g.sc g.dc)
    (fun c b p => recEntry g R C CH b c (p / outDim C g.kc g.pc g.sc g.dc) (p % outDim C g.kc g.pc g.sc g.dc))

theorem RecFor.length {g : Geo} {BS R C CH : Nat} {rec : List Nat} (h : RecFor g BS R C CH rec) :
    rec.length = g.kr * g.kc * CH * colsOf g BS R C := by
  rw [h.1, colsOf]; ring

theorem stdResize_length (l : List Nat) (n : Nat) : (stdResize l n).length = n := by
  simp only [stdResize, List.length_append, List.length_take, List.length_replicate]; omega

theorem buildRecord_ok (g : Geo) (BS R C CH : Nat) (rec : List Nat) :
    ∃ rec', buildRecord g BS R C CH rec = ok rec' ∧ RecFor g BS R C CH rec' := by
  unfold buildRecord
  dsimp only
  generalize hoR : outDim R g.kr g.pr g.sr g.dr = oR
  generalize hoC : outDim C g.kc g.pc g.sc g.dc = oC
  have hK : CH * g.kr * g.kc = g.kr * g.kc * CH := by ring
  obtain ⟨r1, e1, e2⟩ := fill4 (k := BS) (l := CH * g.kr * g.kc) (m := oR) (n := oC)
    (body := fun bs c h w o => wr o (bs * oR * oC * g.kr * g.kc * CH + (c * oR + h) * oC + w) (recEntry g R C CH bs c h w))
    (f := fun bs c h w => recEntry g R C CH bs c h w) (out := stdResize rec (g.kr * g.kc * CH * (BS * oR * oC)))
    (fun bs c h w o _ _ _ _ _ => by congr 1; ring) (by rw [stdResize_length]; ring)
  rw [e1, bind_ok]
  rw [hK] at e2
  obtain ⟨r2, f1, f2⟩ := fill3swap (l := g.kr * g.kc * CH) (m := BS) (n := oR * oC)
    (body := fun bs r c o => do
      let x ← rd r1 (at3 BS (g.kr * g.kc * CH) (oR * oC) bs r c)
      wr o (at3 (g.kr * g.kc * CH) BS (oR * oC) r bs c) x)
    (g := fun c b p => recEntry g R C CH b c (p / oC) (p % oC)) (out := List.replicate r1.length 0)
    (fun b c p o hc hb hp _ => by
      obtain ⟨i, j, hi, hj, rfl⟩ := exists_div_mod hp
      rw [at3_eq, at3_eq, (div_mod_eq hj).1, (div_mod_eq hj).2]
      rw [show (b * (g.kr * g.kc * CH) + c) * (oR * oC) + (i * oC + j) = ((b * (g.kr * g.kc * CH) + c) * oR + i) * oC + j by ring,
        e2.rd hb hc hi hj, bind_ok])
    (by rw [List.length_replicate, e2.1]; ring)
  rw [f1, bind_ok]
  refine ⟨r2, ?_, by unfold RecFor; rw [hoR, hoC]; exact f2⟩
  exact Tensor.copyN_full (src := r2) (dst := r1) (by rw [e2.1, f2.1]; ring)

theorem RecFor.unique {g : Geo} {BS R C CH : Nat} {r s : List Nat} (h : RecFor g BS R C CH r) (h' : RecFor g BS R C CH s) : r = s := by
  apply List.ext_getElem?
  intro p
  by_cases hp : p < r.length
  · have hp' := hp
    rw [h.1] at hp'
    obtain ⟨c, b, q, hc, hb, hq, rfl⟩ := exists_dec3 hp'
    rw [h.2 c b q hc hb hq, h'.2 c b q hc hb hq]
  · have : s.length = r.length := by rw [h.1, h'.1]
    rw [List.getElem?_eq_none (by omega), List.getElem?_eq_none (by omega)]

/-- The image position a matrix entry reads, if any. -/
def srcOf (g : Geo) (R C CH b ch tr tc i j : Nat) : Option Nat :=
  if 0 ≤ tapRow g i tr ∧ tapRow g i tr < R ∧ 0 ≤ tapCol g j tc ∧ tapCol g j tc < C then
    some (((b * R + (tapRow g i tr).toNat) * C + (tapCol g j tc).toNat) * CH + ch)
  else none

theorem dec_tap {kr kc ch tr tc : Nat} (htr : tr < kr) (htc : tc < kc) :
    ((ch * kr + tr) * kc + tc) % kc = tc ∧ (((ch * kr + tr) * kc + tc) / kc) % kr = tr ∧ ((ch * kr + tr) * kc + tc) / (kc * kr) = ch := by
  refine ⟨(div_mod_eq htc).2, ?_, ?_⟩
  · rw [(div_mod_eq htc).1, (div_mod_eq htr).2]
  · rw [← Nat.div_div_eq_div_mul, (div_mod_eq htc).1, (div_mod_eq htr).1]

theorem srcOf_lt {g : Geo} {BS R C CH b ch tr tc i j q : Nat} (hb : b < BS) (hch : ch < CH) (h : srcOf g R C CH b ch tr tc i j = some q) :
    q < BS * R * C * CH := by
  unfold srcOf at h
  split at h
  · rename_i hin
    injection h with h
    rw [← h]
    exact idx4_lt hb (by omega) (by omega) hch
  · exact absurd h (by simp)

theorem recEntry_eq {g : Geo} {BS R C CH b ch tr tc i j : Nat} (hsz : BS * R * C * CH ≤ mark) (hb : b < BS) (hch : ch < CH)
    (htr : tr < g.kr) (htc : tc < g.kc) :
    recEntry g R C CH b ((ch * g.kr + tr) * g.kc + tc) i j = (srcOf g R C CH b ch tr tc i j).getD mark := by
  unfold recEntry
  obtain ⟨d1, d2, d3⟩ := dec_tap (ch := ch) htr htc
  simp only [d1, d2, d3]
  change (if tapRow g i tr < 0 ∨ tapRow g i tr ≥ R ∨ tapCol g j tc < 0 ∨ tapCol g j tc ≥ C then _ else _) = _
  by_cases hin : 0 ≤ tapRow g i tr ∧ tapRow g i tr < R ∧ 0 ≤ tapCol g j tc ∧ tapCol g j tc < C
  · rw [if_neg (by omega)]
    have hs : srcOf g R C CH b ch tr tc i j = some (((b * R + (tapRow g i tr).toNat) * C + (tapCol g j tc).toNat) * CH + ch) := if_pos hin
    have hlt := srcOf_lt hb hch hs
    rw [hs, Option.getD_some]
    change ((((b * R * C * CH : Nat) : Int) + (tapRow g i tr * C + tapCol g j tc) * CH + ch) % (2 ^ 32)).toNat = _
    have hy : ((tapRow g i tr).toNat : Int) = tapRow g i tr := Int.toNat_of_nonneg hin.1
    have hx : ((tapCol g j tc).toNat : Int) = tapCol g j tc := Int.toNat_of_nonneg hin.2.2.1
    have e : ((b * R * C * CH : Nat) : Int) + (tapRow g i tr * C + tapCol g j tc) * CH + ch =
        ((((b * R + (tapRow g i tr).toNat) * C + (tapCol g j tc).toNat) * CH + ch : Nat) : Int) := by
      push_cast
      rw [hy, hx]; ring
    rw [e]
    simp only [mark] at hsz
    omega
  · rw [if_pos (by omega)]
    rw [show srcOf g R C CH b ch tr tc i j = none from if_neg hin]; rfl

theorem srcOf_ne_mark {g : Geo} {BS R C CH b ch tr tc i j q : Nat} (hsz : BS * R * C * CH ≤ mark) (hb : b < BS) (hch : ch < CH)
    (h : srcOf g R C CH b ch tr tc i j = some q) : q ≠ mark := by
  have := srcOf_lt hb hch h; omega

/-- The position read by matrix position `p` (row `p / cols`, column `p % cols`). -/
def srcAt (g : Geo) (BS R C CH p : Nat) : Option Nat :=
  let cols := colsOf g BS R C
  let row := p / cols
  let col := p % cols
  let oR := outDim R g.kr g.pr g.sr g.dr
  let oC := outDim C g.kc g.pc g.sc g.dc
  srcOf g R C CH (col / oC / oR) (row / g.kc / g.kr) (row / g.kc % g.kr) (row % g.kc) (col / oC % oR) (col % oC)

theorem srcAt_enc {g : Geo} {BS R C CH b ch tr tc i j : Nat} (hb : b < BS) (htr : tr < g.kr) (htc : tc < g.kc)
    (hi : i < outDim R g.kr g.pr g.sr g.dr) (hj : j < outDim C g.kc g.pc g.sc g.dc) :
    srcAt g BS R C CH (((ch * g.kr + tr) * g.kc + tc) * colsOf g BS R C +
      ((b * outDim R g.kr g.pr g.sr g.dr + i) * outDim C g.kc g.pc g.sc g.dc + j)) = srcOf g R C CH b ch tr tc i j := by
  have hcol : (b * outDim R g.kr g.pr g.sr g.dr + i) * outDim C g.kc g.pc g.sc g.dc + j < colsOf g BS R C := idx3_lt hb hi hj
  unfold srcAt
  dsimp only
  rw [(div_mod_eq hcol).1, (div_mod_eq hcol).2, (div_mod_eq htc).1, (div_mod_eq htc).2, (div_mod_eq htr).1, (div_mod_eq htr).2,
    (div_mod_eq hj).1, (div_mod_eq hj).2, (div_mod_eq hi).1, (div_mod_eq hi).2]

/-- Every matrix position is a row `(ch, tr, tc)` and a column `(b, i, j)`. -/
theorem exists_matpos {g : Geo} {BS R C CH p : Nat} (hp : p < g.kr * g.kc * CH * colsOf g BS R C) :
    ∃ ch tr tc b i j, ch < CH ∧ tr < g.kr ∧ tc < g.kc ∧ b < BS ∧ i < outDim R g.kr g.pr g.sr g.dr ∧ j < outDim C g.kc g.pc g.sc g.dc ∧
      p = ((ch * g.kr + tr) * g.kc + tc) * colsOf g BS R C + ((b * outDim R g.kr g.pr g.sr g.dr + i) * outDim C g.kc g.pc g.sc g.dc + j) := by
  obtain ⟨row, col, hr, hc, rfl⟩ := exists_div_mod hp
  obtain ⟨ch, tr, tc, h1, h2, h3, rfl⟩ := exists_dec3 (l := CH) (m := g.kr) (n := g.kc) (p := row) (by
    rw [show CH * g.kr * g.kc = g.kr * g.kc * CH by ring]; exact hr)
  obtain ⟨b, i, j, h4, h5, h6, rfl⟩ := exists_dec3 (p := col) hc
  exact ⟨ch, tr, tc, b, i, j, h1, h2, h3, h4, h5, h6, rfl⟩

theorem RecFor.at {g : Geo} {BS R C CH p : Nat} {rec : List Nat} (h : RecFor g BS R C CH rec) (hsz : BS * R * C * CH ≤ mark)
    (hp : p < g.kr * g.kc * CH * colsOf g BS R C) :
    rec[p]? = some ((srcAt g BS R C CH p).getD mark) ∧ ∀ q, srcAt g BS R C CH p = some q → q < BS * R * C * CH ∧ q ≠ mark := by
  obtain ⟨ch, tr, tc, b, i, j, h1, h2, h3, h4, h5, h6, rfl⟩ := exists_matpos hp
  rw [srcAt_enc h4 h2 h3 h5 h6]
  refine ⟨?_, fun q hq => ⟨srcOf_lt h4 h1 hq, srcOf_ne_mark hsz h4 h1 hq⟩⟩
  rw [← recEntry_eq hsz h4 h1 h2 h3]
  have hrow : (ch * g.kr + tr) * g.kc + tc < g.kr * g.kc * CH := by
    rw [show g.kr * g.kc * CH = CH * g.kr * g.kc by ring]; exact idx3_lt h1 h2 h3
  have := h.2 ((ch * g.kr + tr) * g.kc + tc) b (i * outDim C g.kc g.pc g.sc g.dc + j) hrow h4 (lt_mul_of_lt h5 h6)
  dsimp only at this
  rw [(div_mod_eq h6).1, (div_mod_eq h6).2] at this
  rw [← this]
  congr 1
  unfold colsOf; ring

/-! ### C35 -/

theorem fillFrom_ok [Zero α] {rec : List Nat} {img out : List α} {N : Nat} {src : Nat → Option Nat} {x : Nat → α}
    (ho : out.length = N) (hrec : ∀ p, p < N → rec[p]? = some ((src p).getD mark) ∧ ∀ q, src p = some q → q ≠ mark ∧ img[q]? = some (x q)) :
    ∃ o', fillFrom rec img out = ok o' ∧ o'.length = N ∧ ∀ p, p < N → o'[p]? = some (match src p with | none => 0 | some q => x q) := by
  unfold fillFrom
  rw [ho]
  refine fill1 (fun p o hp _ => ?_) ho
  obtain ⟨h1, h2⟩ := hrec p hp
  rw [rd_ok h1, bind_ok]
  cases e : src p with
  | none => simp [bind_ok]
  | some q =>
    obtain ⟨g1, g2⟩ := h2 q e
    simp only [Option.getD_some]
    rw [if_neg g1, rd_ok g2, bind_ok]

/-- What a run of `img2col` does, at the level of positions. -/
theorem img2col_pos [Zero α] (g : Geo) (t cache : Ten α) (rec : List Nat) (BS R C CH : Nat) (a : List Nat → α)
    (ht : t.Has [BS, R, C, CH] a) (hfit : g.Fits R C) (hsz : BS * R * C * CH ≤ mark)
    (hrec : RecFor g BS R C CH rec ∨ rec.length ≠ g.kr * g.kc * CH * colsOf g BS R C) :
    ∃ d rec', img2col g t cache rec = ok (⟨[g.kr * g.kc * CH, colsOf g BS R C], d⟩, rec') ∧ RecFor g BS R C CH rec' ∧
      d.length = g.kr * g.kc * CH * colsOf g BS R C ∧
      ∀ p, p < g.kr * g.kc * CH * colsOf g BS R C → d[p]? = some (match srcAt g BS R C CH p with
        | none => 0
        | some q => a (unflat [BS, R, C, CH] q)) := by
  obtain ⟨hts, htT⟩ := ht
  have hupd : ∃ rec', updRecord g BS R C CH rec = ok rec' ∧ RecFor g BS R C CH rec' := by
    unfold updRecord
    rcases hrec with h | h
    · refine ⟨rec, ?_, h⟩
      rw [if_neg (by rw [h.length]; simp [colsOf])]
    · obtain ⟨r, h1, h2⟩ := buildRecord_ok g BS R C CH rec
      exact ⟨r, by rw [if_pos (by simpa [colsOf] using h)]; exact h1, h2⟩
  obtain ⟨rec', u1, u2⟩ := hupd
  obtain ⟨d, e1, e2, e3⟩ := fillFrom_ok (rec := rec') (img := t.data) (x := fun q => a (unflat [BS, R, C, CH] q))
    (out := (resizeV cache [g.kr * g.kc * CH, colsOf g BS R C]).data) (N := g.kr * g.kc * CH * colsOf g BS R C)
    (src := fun p => srcAt g BS R C CH p)
    (by rw [resizeV_length]; simp) (fun p hp => by
      obtain ⟨q1, q2⟩ := u2.at hsz hp
      refine ⟨q1, fun q hq => ⟨(q2 q hq).2, htT.pos ?_⟩⟩
      have := (q2 q hq).1
      simpa [Nat.mul_assoc] using this)
  refine ⟨d, rec', ?_, u2, e2, e3⟩
  unfold img2col
  rw [hts]
  dsimp only
  unfold Geo.Fits at hfit
  rw [require_true hfit, bind_ok, u1, bind_ok]
  change (fillFrom rec' t.data (resizeV cache [g.kr * g.kc * CH, colsOf g BS R C]).data >>= _) = _
  rw [e1]; rfl

theorem unflat4 {BS R C CH b y x ch : Nat} (hb : b < BS) (hy : y < R) (hx : x < C) (hch : ch < CH) :
    unflat [BS, R, C, CH] (((b * R + y) * C + x) * CH + ch) = [b, y, x, ch] := by
  rw [show ((b * R + y) * C + x) * CH + ch = flat [BS, R, C, CH] [b, y, x, ch] by simp; ring]
  exact unflat_flat ⟨hb, hy, hx, hch, trivial⟩

theorem srcOf_value [Zero α] {g : Geo} {BS R C CH b ch tr tc i j : Nat} {a : List Nat → α} (hb : b < BS) (hch : ch < CH) :
    (match srcOf g R C CH b ch tr tc i j with | none => 0 | some q => a (unflat [BS, R, C, CH] q)) =
      pixel a R C b (tapRow g i tr) (tapCol g j tc) ch := by
  unfold srcOf pixel
  by_cases hin : 0 ≤ tapRow g i tr ∧ tapRow g i tr < R ∧ 0 ≤ tapCol g j tc ∧ tapCol g j tc < C
  · rw [if_pos hin, if_pos hin]
    dsimp only
    rw [unflat4 hb (by omega) (by omega) hch]
  · rw [if_neg hin, if_neg hin]

/-- C35: on first use (empty record), and whatever the output cache holds, `img2col` gives the matrix with
`kr*kc*CH` rows and `BS*oR*oC` columns whose entry at row `(ch, tr, tc)` and column `(b, i, j)` is the image pixel under that
kernel tap, zero outside the image.  (Images of fewer than `2^32` elements: see `img2col_large_violated`.) -/
theorem img2col_gathers [Zero α] (g : Geo) (t cache : Ten α) (BS R C CH : Nat) (a : List Nat → α) (ht : t.Has [BS, R, C, CH] a)
    (hfit : g.Fits R C) (hsz : BS * R * C * CH < 2 ^ 32) :
    ∃ u rec m, img2col g t cache [] = ok (u, rec) ∧
      u.Has [g.kr * g.kc * CH, BS * outDim R g.kr g.pr g.sr g.dr * outDim C g.kc g.pc g.sc g.dc] m ∧
      ∀ ch tr tc b i j, ch < CH → tr < g.kr → tc < g.kc → b < BS → i < outDim R g.kr g.pr g.sr g.dr → j < outDim C g.kc g.pc g.sc g.dc →
        m [(ch * g.kr + tr) * g.kc + tc, (b * outDim R g.kr g.pr g.sr g.dr + i) * outDim C g.kc g.pc g.sc g.dc + j] =
          pixel a R C b (tapRow g i tr) (tapCol g j tc) ch := by
  have hrec : RecFor g BS R C CH [] ∨ ([] : List Nat).length ≠ g.kr * g.kc * CH * colsOf g BS R C := by
    by_cases h : g.kr * g.kc * CH * colsOf g BS R C = 0
    · left
      refine ⟨by rw [List.length_nil, ← h, colsOf]; ring, fun c b p hc hb hp => ?_⟩
      have : (c * BS + b) * (outDim R g.kr g.pr g.sr g.dr * outDim C g.kc g.pc g.sc g.dc) + p <
          g.kr * g.kc * CH * BS * (outDim R g.kr g.pr g.sr g.dr * outDim C g.kc g.pc g.sc g.dc) := idx3_lt hc hb hp
      rw [show g.kr * g.kc * CH * BS * (outDim R g.kr g.pr g.sr g.dr * outDim C g.kc g.pc g.sc g.dc) =
        g.kr * g.kc * CH * colsOf g BS R C by unfold colsOf; ring, h] at this
      omega
    · right; simpa using Ne.symm h
  obtain ⟨d, rec', h1, _, h3, h4⟩ := img2col_pos g t cache [] BS R C CH a ht hfit (by unfold mark; omega) hrec
  refine ⟨_, rec', fun is => match srcAt g BS R C CH (is.getD 0 0 * colsOf g BS R C + is.getD 1 0) with
        | none => 0
        | some q => a (unflat [BS, R, C, CH] q), h1, ⟨rfl, by simpa [colsOf] using h3, fun is hv => ?_⟩, ?_⟩
  · match is, hv with
    | [r, c], hv =>
      have := h4 (r * colsOf g BS R C + c) (lt_mul_of_lt hv.1 hv.2.1)
      simpa [colsOf] using this
  · intro ch tr tc b i j h1 h2 h3 h4 h5 h6
    have hcol : (b * outDim R g.kr g.pr g.sr g.dr + i) * outDim C g.kc g.pc g.sc g.dc + j < colsOf g BS R C := idx3_lt h4 h5 h6
    simp only [List.getD_cons_zero, List.getD_cons_succ]
    rw [srcAt_enc h4 h2 h3 h5 h6, srcOf_value h4 h1]

/-- Limit of C35: the pixel at offset `2^32 - 1` of any image is taken for padding, because its 32-bit position is the marker
(1 x 1 kernel, no padding, stride 1). -/
theorem img2col_large_violated (R C CH b y x ch : Nat) (hx : x < C) (hy : y < R)
    (h : ((b * R + y) * C + x) * CH + ch = 2 ^ 32 - 1) : recEntry ⟨1, 1, 0, 0, 1, 1, 1, 1⟩ R C CH b ch y x = mark := by
  unfold recEntry
  simp only [Nat.mod_one, Nat.div_one, Nat.cast_zero, Nat.cast_one, mul_one, sub_zero, add_zero]
  rw [if_neg (by omega)]
  have : ((b * R * C * CH : Nat) : Int) + ((y : Int) * C + x) * CH + ch = ((((b * R + y) * C + x) * CH + ch : Nat) : Int) := by
    push_cast; ring
  rw [this, h]
  decide

/-! ### C36 -/

/-- C36: backward is the adjoint of forward: for every image `x` and every gradient `y` of the matrix's size,
`<img2col x, y> = <x, img2col_backward y>` - for a record belonging to the image's shape, in particular on first use. -/
theorem img2col_adjoint [CommSemiring α] (g : Geo) (t grad cache cacheB : Ten α) (rec : List Nat) (BS R C CH : Nat) (a : List Nat → α)
    (ht : t.Has [BS, R, C, CH] a) (hfit : g.Fits R C) (hsz : BS * R * C * CH < 2 ^ 32)
    (hrec : RecFor g BS R C CH rec ∨ rec.length ≠ g.kr * g.kc * CH * colsOf g BS R C)
    (hgrad : grad.data.length = g.kr * g.kc * CH * colsOf g BS R C) :
    ∃ u rec' v, img2col g t cache rec = ok (u, rec') ∧ img2colBack t grad cacheB rec' = ok v ∧
      v.shape = t.shape ∧ v.data.length = t.data.length ∧ dot u.data grad.data = dot t.data v.data := by
  have hsz' : BS * R * C * CH ≤ mark := by unfold mark; omega
  obtain ⟨d, rec', h1, h2, h3, h4⟩ := img2col_pos g t cache rec BS R C CH a ht hfit hsz' hrec
  obtain ⟨hts, htT⟩ := ht
  have hM : size [BS, R, C, CH] = BS * R * C * CH := by simp [Nat.mul_assoc]
  have hg : ∀ p, p < g.kr * g.kc * CH * colsOf g BS R C → grad.data[p]? = some (grad.data.getD p 0) := fun p hp => by
    rw [List.getD_eq_getElem?_getD, List.getElem?_eq_getElem (by omega)]; rfl
  obtain ⟨o', q1, q2, q3⟩ := scatter_loop (N := g.kr * g.kc * CH * colsOf g BS R C) (M := BS * R * C * CH)
    (src := fun p => srcAt g BS R C CH p) (g := fun p => grad.data.getD p 0)
    (fun p hp q hq => ((h2.at hsz' hp).2 q hq).1)
    (body := fun i o => do
      let q ← rd rec' i
      if q ≠ mark then do
        let x ← rd grad.data i
        addAt o q x
      else ok o) (fun p o hp ho => by
      obtain ⟨w1, w2⟩ := h2.at hsz' hp
      rw [rd_ok w1, bind_ok]
      cases e : srcAt g BS R C CH p with
      | none => simp
      | some q =>
        have := (w2 q e).2
        simp only [Option.getD_some]
        rw [if_pos this, rd_ok (hg p hp), bind_ok])
  refine ⟨_, rec', ⟨t.shape, o'⟩, h1, ?_, rfl, by rw [q2, htT.1, hM], ?_⟩
  · unfold img2colBack
    dsimp only
    rw [Gemm.fillN_ok rfl, bind_ok, resizeV_length, hts, hM, hgrad, q1]; rfl
  · rw [dot_eq_sum h3 hgrad h4 hg, dot_eq_sum (a := fun q => a (unflat [BS, R, C, CH] q)) (htT.1.trans hM) q2
      (fun q hq => htT.pos (by rw [hM]; exact hq)) q3]
    exact gather_scatter _ _ (fun p => srcAt g BS R C CH p) (fun p hp q hq => ((h2.at hsz' hp).2 q hq).1) _ _

/-! ### C39 -/

/-- A run of one `img2col` operator on a sequence of images, the record and the output cache being kept between the runs. -/
def runs [Zero α] (g : Geo) : List (Ten α) → Ten α → List Nat → Res (List (Ten α))
  | [], _, _ => ok []
  | t :: ts, cache, rec => do
    let r ← img2col g t cache rec
    let rest ← runs g ts r.1 r.2
    pure (r.1 :: rest)

/-- What fresh operators give on the same images. -/
def freshRuns [Zero α] (g : Geo) : List (Ten α) → Res (List (Ten α))
  | [] => ok []
  | t :: ts => do
    let r ← img2col g t ⟨[], []⟩ []
    let rest ← freshRuns g ts
    pure (r.1 :: rest)

/-- C39 is false of the code: the record is only recomputed when its length changes; a 2 x 3 and a 3 x 2 image with a 2 x 2
kernel have records of the same length. -/
theorem img2col_reuse_violated :
    runs ⟨2, 2, 0, 0, 1, 1, 1, 1⟩ [⟨[1, 2, 3, 1], [1, 2, 3, 4, 5, 6]⟩, ⟨[1, 3, 2, 1], [1, 2, 3, 4, 5, (6 : Int)]⟩] ⟨[], []⟩ [] ≠
    freshRuns ⟨2, 2, 0, 0, 1, 1, 1, 1⟩ [⟨[1, 2, 3, 1], [1, 2, 3, 4, 5, 6]⟩, ⟨[1, 3, 2, 1], [1, 2, 3, 4, 5, (6 : Int)]⟩] := by
  decide +kernel

/-- The image is well formed and fits the geometry. -/
def Good (g : Geo) (t : Ten α) : Prop :=
  ∃ BS R C CH, t.shape = [BS, R, C, CH] ∧ t.data.length = BS * R * C * CH ∧ g.Fits R C ∧ BS * R * C * CH < 2 ^ 32

/-- The length of the record of an image. -/
def recLen (g : Geo) (s : List Nat) : Nat :=
  match s with
  | [BS, R, C, CH] => g.kr * g.kc * CH * colsOf g BS R C
  | _ => 0

theorem Good.has {t : Ten α} [Zero α] {BS R C CH : Nat} (hs : t.shape = [BS, R, C, CH]) (hl : t.data.length = BS * R * C * CH) :
    t.Has [BS, R, C, CH] (fun is => t.data.getD (flat [BS, R, C, CH] is) 0) := by
  refine ⟨hs, by rw [hl]; simp [Nat.mul_assoc], fun is hv => ?_⟩
  have := flat_lt hv
  have h2 : flat [BS, R, C, CH] is < t.data.length := by rw [hl]; simpa [Nat.mul_assoc] using this
  dsimp only
  rw [List.getD_eq_getElem?_getD, List.getElem?_eq_getElem h2]; rfl

/-- The result does not depend on the cache, nor on the record as long as that belongs to the shape or has another length. -/
theorem img2col_fresh [Zero α] {g : Geo} {t cache cache' : Ten α} {rec rec' : List Nat} {BS R C CH : Nat}
    (hs : t.shape = [BS, R, C, CH]) (hl : t.data.length = BS * R * C * CH) (hfit : g.Fits R C) (hsz : BS * R * C * CH < 2 ^ 32)
    (hr : RecFor g BS R C CH rec ∨ rec.length ≠ g.kr * g.kc * CH * colsOf g BS R C)
    (hr' : RecFor g BS R C CH rec' ∨ rec'.length ≠ g.kr * g.kc * CH * colsOf g BS R C) :
    ∃ u r, img2col g t cache rec = ok (u, r) ∧ img2col g t cache' rec' = ok (u, r) ∧ RecFor g BS R C CH r := by
  have hsz' : BS * R * C * CH ≤ mark := by unfold mark; omega
  obtain ⟨d, r, h1, h2, h3, h4⟩ := img2col_pos g t cache rec BS R C CH _ (Good.has hs hl) hfit hsz' hr
  obtain ⟨d', r', g1, g2, g3, g4⟩ := img2col_pos g t cache' rec' BS R C CH _ (Good.has hs hl) hfit hsz' hr'
  have e : d' = d := by
    apply List.ext_getElem?
    intro p
    by_cases hp : p < g.kr * g.kc * CH * colsOf g BS R C
    · rw [h4 p hp, g4 p hp]
    · rw [List.getElem?_eq_none (by omega), List.getElem?_eq_none (by omega)]
  exact ⟨_, r, h1, by rw [g1, e, g2.unique h2], h2⟩

theorem recFor_nil {g : Geo} {BS R C CH : Nat} :
    RecFor g BS R C CH [] ∨ ([] : List Nat).length ≠ g.kr * g.kc * CH * colsOf g BS R C := by
  obtain ⟨r, _, h⟩ := buildRecord_ok g BS R C CH []
  by_cases e : r = []
  · subst e; exact Or.inl h
  · right
    rw [← h.length]
    intro h0
    exact e (List.eq_nil_of_length_eq_zero h0.symm)

theorem runs_ok [Zero α] (g : Geo) (ts : List (Ten α)) (hgood : ∀ t ∈ ts, Good g t) :
    ∀ (cache : Ten α) (rec : List Nat),
    (∀ t ts', ts = t :: ts' → ∀ BS R C CH, t.shape = [BS, R, C, CH] →
      RecFor g BS R C CH rec ∨ rec.length ≠ g.kr * g.kc * CH * colsOf g BS R C) →
    List.IsChain (fun t t' : Ten α => recLen g t.shape = recLen g t'.shape → t.shape = t'.shape) ts →
    runs g ts cache rec = freshRuns g ts ∧ ∃ l, freshRuns g ts = ok l := by
  induction ts with
  | nil => intro _ _ _ _; exact ⟨rfl, [], rfl⟩
  | cons t ts ih =>
    intro cache rec hrec hchain
    obtain ⟨BS, R, C, CH, hs, hl, hfit, hsz⟩ := hgood t (by simp)
    obtain ⟨u, r, h1, h2, h3⟩ := img2col_fresh (cache := cache) (cache' := ⟨[], []⟩) hs hl hfit hsz (hrec t ts rfl BS R C CH hs) recFor_nil
    obtain ⟨i1, l, i2⟩ := ih (fun x hx => hgood x (by simp [hx])) u r (by
      rintro t' ts' rfl BS' R' C' CH' hs'
      by_cases e : recLen g t.shape = recLen g t'.shape
      · have := (List.isChain_cons_cons.mp hchain).1 e
        rw [hs, hs'] at this
        simp only [List.cons.injEq, and_true] at this
        obtain ⟨rfl, rfl, rfl, rfl⟩ := this
        exact Or.inl h3
      · right
        rw [h3.length]
        rw [hs, hs'] at e
        exact e) (by
      cases ts with
      | nil => simp
      | cons t' ts => exact (List.isChain_cons_cons.mp hchain).2)
    refine ⟨?_, u :: l, ?_⟩
    · simp only [runs, freshRuns, h1, h2, bind_ok, i1]
    · simp only [freshRuns, h2, bind_ok, i2]; rfl

/-- C39, for sequences of images in which two consecutive shapes with records of the same length are equal: every run gives what
a fresh operator gives.  Missing: consecutive different shapes with records of the same length, where it is false. -/
theorem img2col_reuse_partial [Zero α] (g : Geo) (ts : List (Ten α)) (hgood : ∀ t ∈ ts, Good g t)
    (hchain : List.IsChain (fun t t' : Ten α => recLen g t.shape = recLen g t'.shape → t.shape = t'.shape) ts) :
    ∃ l, runs g ts ⟨[], []⟩ [] = ok l ∧ freshRuns g ts = ok l := by
  obtain ⟨h1, l, h2⟩ := runs_ok g ts hgood ⟨[], []⟩ [] (fun _ _ _ _ _ _ _ _ => recFor_nil) hchain
  exact ⟨l, by rw [h1, h2], h2⟩

example : ∃ t : Ten Int, t.Has [1, 2, 3, 1] (fun is => is.getD 1 0 * 3 + is.getD 2 0) ∧
    (Geo.mk 2 2 0 0 1 1 1 1).Fits 2 3 ∧ Good (Geo.mk 2 2 0 0 1 1 1 1) t := by
  refine ⟨⟨[1, 2, 3, 1], [0, 1, 2, 3, 4, 5]⟩, ⟨rfl, rfl, ?_⟩, by unfold Geo.Fits; decide, 1, 2, 3, 1, rfl, rfl, by unfold Geo.Fits; decide, by decide⟩
  intro is hv
  match is, hv with
  | [b, y, x, c], ⟨h1, h2, h3, h4, _⟩ =>
    interval_cases b; interval_cases c; interval_cases y <;> interval_cases x <;> rfl

example : img2col ⟨2, 2, 1, 0, 1, 1, 1, 1⟩ ⟨[1, 2, 3, 1], [1, 2, 3, 4, 5, (6 : Int)]⟩ ⟨[], []⟩ [] =
    ok (⟨[4, 6], [0, 0, 1, 2, 4, 5, 0, 0, 2, 3, 5, 6, 1, 2, 4, 5, 0, 0, 2, 3, 5, 6, 0, 0]⟩,
      [mark, mark, 0, 1, 3, 4, mark, mark, 1, 2, 4, 5, 0, 1, 3, 4, mark, mark, 1, 2, 4, 5, mark, mark]) := by decide +kernel

end Verif.Conv
