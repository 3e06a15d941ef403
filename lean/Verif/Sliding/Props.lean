import Verif.Sliding.Model
import Verif.Pool.Pad
/-!
# C80: sliding_2d
-/
namespace Verif.Sliding
open Verif Res View Data Pool

variable {α : Type}

/-- Specification: plane `ch` of `a` moved by `( dr ch, dc ch )`, with zeros moving in. -/
def moved [Zero α] (dr dc : Nat → Int) (R C : Nat) (a : List Nat → α) : List Nat → α
  | [b, r, c, ch] =>
    if (0 ≤ (r : Int) - dr ch ∧ (r : Int) - dr ch < R) ∧ 0 ≤ (c : Int) - dc ch ∧ (c : Int) - dc ch < C then
      a [b, ((r : Int) - dr ch).toNat, ((c : Int) - dc ch).toNat, ch]
    else 0
  | _ => 0

theorem wrap_lt {z : Int} {R : Nat} (hR : R ≤ 2 ^ 63) (h1 : -2 ^ 63 ≤ z) (h2 : z < 2 ^ 64) : wrap z < R ↔ 0 ≤ z ∧ z < R := by
  unfold wrap
  omega

theorem wrap_eq {z : Int} (h1 : 0 ≤ z) (h2 : z < 2 ^ 64) : wrap z = z.toNat := by
  unfold wrap
  omega

theorem sets_ite {f : List α → Res (List α)} {N : Nat} {P : Prop} [Decidable P] {S : Nat → Prop} {v : Nat → α}
    (h : P → Sets f N S v) : Sets (fun o => if P then f o else ok o) N (fun p => P ∧ S p) v := by
  by_cases hP : P
  · refine Sets.congr_prog (Sets.congr (h hP) (fun p _ => by simp [hP])) (fun o _ => by rw [if_pos hP])
  · refine Sets.congr_prog (Sets.congr sets_nop (fun p _ => by simp [hP])) (fun o _ => by rw [if_neg hP])

/-- One pass over a cleared storage. -/
theorem pass_ok [Zero α] {sgn : Int} (hs : sgn = 1 ∨ sgn = -1) {shifts : List Int} {BS R C CH : Nat} {src : List α} {a : List Nat → α} {sr sc : Nat → Int}
    (hsrc : Is4 src BS R C CH (fun b r c ch => a [b, r, c, ch])) (h0 : ∀ ch, ch < CH → shifts[ch * 2]? = some (sr ch) ∧ shifts[ch * 2 + 1]? = some (sc ch))
    (hR : R ≤ 2 ^ 62) (hC : C ≤ 2 ^ 62) (hr : ∀ ch, ch < CH → -2 ^ 62 ≤ sr ch ∧ sr ch ≤ 2 ^ 62) (hc : ∀ ch, ch < CH → -2 ^ 62 ≤ sc ch ∧ sc ch ≤ 2 ^ 62) :
    ∃ d, pass sgn shifts BS R C CH src (List.replicate (size [BS, R, C, CH]) 0) = ok d ∧
      (⟨[BS, R, C, CH], d⟩ : Ten α).Has [BS, R, C, CH] (moved (fun ch => -(sgn * sr ch)) (fun ch => -(sgn * sc ch)) R C a) := by
  have hsets : Sets (fun o => pass sgn shifts BS R C CH src o) (BS * R * C * CH)
      (fun q => ∃ b, b < BS ∧ ∃ ch, ch < CH ∧ ∃ r, r < R ∧ (wrap (r + sgn * sr ch) < R ∧ ∃ c, c < C ∧ (wrap (c + sgn * sc ch) < C ∧
        q = ((b * R + r) * C + c) * CH + ch)))
      (fun q => moved (fun ch => -(sgn * sr ch)) (fun ch => -(sgn * sc ch)) R C a
        [(dec4 R C CH q).1, (dec4 R C CH q).2.1, (dec4 R C CH q).2.2.1, (dec4 R C CH q).2.2.2]) := by
    unfold pass
    refine Sets.loop (fun b hb => Sets.loop (fun ch hch => ?_))
    have e0 : rd shifts (at2 CH 2 false ch 0) = ok (sr ch) := rd_eq_ok.mpr (by simpa [at2] using (h0 ch hch).1)
    have e1 : rd shifts (at2 CH 2 false ch 1) = ok (sc ch) := rd_eq_ok.mpr (by simpa [at2] using (h0 ch hch).2)
    simp only [e0, e1, bind_ok]
    refine Sets.loop (fun r hr' => sets_ite (fun hw => Sets.loop (fun c hc' => sets_ite (fun hv => ?_))))
    obtain ⟨r1, r2⟩ := hr ch hch
    obtain ⟨c1, c2⟩ := hc ch hch
    have br : -2 ^ 62 ≤ sgn * sr ch ∧ sgn * sr ch ≤ 2 ^ 62 := by rcases hs with rfl | rfl <;> omega
    have bc : -2 ^ 62 ≤ sgn * sc ch ∧ sgn * sc ch ≤ 2 ^ 62 := by rcases hs with rfl | rfl <;> omega
    have kr := (wrap_lt (z := (r : Int) + sgn * sr ch) (R := R) (by omega) (by omega) (by omega)).mp hw
    have kc := (wrap_lt (z := (c : Int) + sgn * sc ch) (R := C) (by omega) (by omega) (by omega)).mp hv
    refine Sets.congr_prog (sets_wr (x := a [b, wrap (r + sgn * sr ch), wrap (c + sgn * sc ch), ch]) (idx4_lt hb hr' hc' hch) ?_) (fun o _ => ?_)
    · rw [dec4_enc hr' hc' hch]
      simp only [moved]
      rw [if_pos (by omega), wrap_eq kr.1 (by omega), wrap_eq kc.1 (by omega), sub_neg_eq_add, sub_neg_eq_add]
    · simp only [at4_eq]
      rw [hsrc.rd hb hw hv hch, bind_ok]
  obtain ⟨d, h1, h2, h3, h4⟩ := hsets (List.replicate (size [BS, R, C, CH]) 0) (by rw [List.length_replicate, size4])
  refine ⟨d, h1, rfl, is4_iff.mpr ⟨h2, fun b r c ch hb hr' hc' hch => ?_⟩⟩
  obtain ⟨r1, r2⟩ := hr ch hch
  obtain ⟨c1, c2⟩ := hc ch hch
  have br : -2 ^ 62 ≤ sgn * sr ch ∧ sgn * sr ch ≤ 2 ^ 62 := by rcases hs with rfl | rfl <;> omega
  have bc : -2 ^ 62 ≤ sgn * sc ch ∧ sgn * sc ch ≤ 2 ^ 62 := by rcases hs with rfl | rfl <;> omega
  have kr := wrap_lt (z := (r : Int) + sgn * sr ch) (R := R) (by omega) (by omega) (by omega)
  have kc := wrap_lt (z := (c : Int) + sgn * sc ch) (R := C) (by omega) (by omega) (by omega)
  by_cases hin : wrap (r + sgn * sr ch) < R ∧ wrap (c + sgn * sc ch) < C
  · have h3' := h3 _ (idx4_lt hb hr' hc' hch) ⟨b, hb, ch, hch, r, hr', hin.1, c, hc', hin.2, rfl⟩
    dsimp only at h3' ⊢
    rw [h3', dec4_enc hr' hc' hch]
  · rw [h4 _ (by
      rintro ⟨b', hb', ch', hch', r', hr'', hw, c', hc'', hv, e⟩
      obtain ⟨e1, e2⟩ := mul_add_inj hch hch' e
      obtain ⟨e3, e4⟩ := mul_add_inj hc' hc'' e1
      obtain ⟨e5, e6⟩ := mul_add_inj hr' hr'' e3
      subst e2; subst e4; subst e6
      exact hin ⟨hw, hv⟩)]
    simp only [moved]
    rw [if_neg (by rw [kr, kc] at hin; omega)]
    have := idx4_lt hb hr' hc' hch
    rw [← size4] at this
    simp only [List.getElem?_replicate, if_pos this]

/-- The fill loop over the drawn numbers. -/
theorem draws (draw : Nat → Int) (s : List Int) :
    loop s.length (fun k o => wr o k (draw k)) s = ok ((List.range s.length).map draw) := by
  have h : Sets (fun o => loop s.length (fun k o => wr o k (draw k)) o) s.length (fun p => ∃ i, i < s.length ∧ p = i) draw :=
    Sets.loop (fun i hi => sets_wr hi rfl)
  exact h.eq_ok (fun p hp => ⟨p, hp, rfl⟩) rfl

/-- The storage of the shifts after a training pass over `CH` channels. -/
def drawn (draw : Nat → Int) (CH : Nat) : List Int := (List.range (CH * 2)).map draw

/-- The random shifts are at most `pixels` in size. -/
def Bounded (draw : Nat → Int) (pixels : Nat) : Prop := ∀ k, -(pixels : Int) ≤ draw k ∧ draw k ≤ pixels

theorem slideFwd_ok [Zero α] {draw : Nat → Int} {pixels : Nat} {t cache : Ten α} {shifts : List Int} {BS R C CH : Nat} {a : List Nat → α}
    (ht : t.Has [BS, R, C, CH] a) (hd : Bounded draw pixels) (hp : pixels ≤ 2 ^ 62) (hR : R ≤ 2 ^ 62) (hC : C ≤ 2 ^ 62) :
    ∃ u, slideFwd 1 draw t cache shifts = ok (u, drawn draw CH) ∧
      u.Has [BS, R, C, CH] (moved (fun ch => draw (ch * 2)) (fun ch => draw (ch * 2 + 1)) R C a) := by
  obtain ⟨hsh, hdat⟩ := ten4 ht
  obtain ⟨d, h1, h2⟩ := pass_ok (sgn := -1) (Or.inr rfl) (shifts := drawn draw CH) (sr := fun ch => draw (ch * 2)) (sc := fun ch => draw (ch * 2 + 1)) hdat
    (fun ch hch => by
      unfold drawn
      constructor <;> · rw [List.getElem?_map, List.getElem?_range (by omega)]; rfl)
    hR hC (fun ch _ => by have := hd (ch * 2); omega) (fun ch _ => by have := hd (ch * 2 + 1); omega)
  refine ⟨_, ?_, h2.congr (fun is hv => by simp only [neg_mul, one_mul, neg_neg])⟩
  have hlen : (if shifts.length = size [CH, 2] then shifts else List.replicate (size [CH, 2]) 0).length = CH * 2 := by
    split
    · rename_i h; rw [h]; simp
    · simp
  unfold slideFwd
  rw [if_neg (by simp), hsh]
  dsimp only
  rw [draws, bind_ok, fill0, bind_ok, hlen]
  unfold drawn at h1 ⊢
  rw [h1, bind_ok]; rfl

theorem slideBack_ok [Zero α] {draw : Nat → Int} {pixels : Nat} {g cache : Ten α} {BS R C CH : Nat} {a : List Nat → α}
    (hg : g.Has [BS, R, C, CH] a) (hd : Bounded draw pixels) (hp : pixels ≤ 2 ^ 62) (hR : R ≤ 2 ^ 62) (hC : C ≤ 2 ^ 62) :
    ∃ u, slideBack g cache (drawn draw CH) = ok u ∧
      u.Has [BS, R, C, CH] (moved (fun ch => -draw (ch * 2)) (fun ch => -draw (ch * 2 + 1)) R C a) := by
  obtain ⟨hsh, hdat⟩ := ten4 hg
  obtain ⟨d, h1, h2⟩ := pass_ok (sgn := 1) (Or.inl rfl) (shifts := drawn draw CH) (sr := fun ch => draw (ch * 2)) (sc := fun ch => draw (ch * 2 + 1)) hdat
    (fun ch hch => by
      unfold drawn
      constructor <;> · rw [List.getElem?_map, List.getElem?_range (by omega)]; rfl)
    hR hC (fun ch _ => by have := hd (ch * 2); omega) (fun ch _ => by have := hd (ch * 2 + 1); omega)
  refine ⟨_, ?_, h2.congr (fun is hv => by simp only [one_mul])⟩
  unfold slideBack
  rw [hsh]
  dsimp only
  rw [fill0, bind_ok, h1, bind_ok]; rfl

/-! ### the whole operator -/

/-- Cropping what was padded and then moved by at most the padding is moving. -/
theorem crop_moved [Zero α] {px R C : Nat} {dr dc : Nat → Int} (hr : ∀ ch, -(px : Int) ≤ dr ch ∧ dr ch ≤ px) (hc : ∀ ch, -(px : Int) ≤ dc ch ∧ dc ch ≤ px)
    (a : List Nat → α) {b r c ch : Nat} (hr' : r < R) (hc' : c < C) :
    cropped ⟨px, px, px, px⟩ (moved dr dc (px + R + px) (px + C + px) (padded ⟨px, px, px, px⟩ R C a)) [b, r, c, ch] = moved dr dc R C a [b, r, c, ch] := by
  have r1 := hr ch
  have c1 := hc ch
  simp only [cropped, moved]
  rw [if_pos (by push_cast; omega)]
  simp only [padded]
  by_cases h : (0 ≤ (r : Int) - dr ch ∧ (r : Int) - dr ch < R) ∧ 0 ≤ (c : Int) - dc ch ∧ (c : Int) - dc ch < C
  · rw [if_pos h, if_pos (by unfold Pads.Inside; push_cast; omega)]
    congr 3
    · push_cast; omega
    · congr 1
      push_cast; omega
  · rw [if_neg h, if_neg (by unfold Pads.Inside; push_cast; omega)]

theorem padsOf_one {px : Nat} (h : 1 ≤ px) : padsOf [px] = ok ⟨px, px, px, px⟩ := (pads_of px px px px h h h h).1

/-- C80, forward in training: plane `ch` of every sample is moved by `( draw ( 2 ch ), draw ( 2 ch + 1 ) )`. -/
theorem sliding_training_forward [Zero α] (px : Nat) (draw : Nat → Int) (t cp cs cc : Ten α) (shifts : List Int) (BS R C CH : Nat) (a : List Nat → α)
    (ht : t.Has [BS, R, C, CH] a) (hpx : 1 ≤ px) (hd : Bounded draw px) (hR : 0 < R) (hC : 0 < C) (hR' : px + R + px ≤ 2 ^ 62) (hC' : px + C + px ≤ 2 ^ 62)
    (hcp : BorderZero ⟨px, px, px, px⟩ BS R C CH cp) :
    ∃ tr, slidingFwd 1 px draw t cp cs cc shifts = ok tr ∧ tr.slid.shape = [BS, px + R + px, px + C + px, CH] ∧ tr.shifts = drawn draw CH ∧
      tr.out.Has [BS, R, C, CH] (moved (fun ch => draw (ch * 2)) (fun ch => draw (ch * 2 + 1)) R C a) := by
  obtain ⟨u, u1, u2⟩ := zeroPad_border (p := ⟨px, px, px, px⟩) ht hcp
  obtain ⟨v, v1, v2⟩ := slideFwd_ok (cache := cs) (shifts := shifts) u2 hd (by omega) hR' hC'
  obtain ⟨w, w1, w2⟩ := cropping_values ⟨px, px, px, px⟩ BS _ _ CH v cc _ v2 (by dsimp only; omega) (by dsimp only; omega)
  dsimp only at w2
  rw [show px + R + px - px - px = R by omega, show px + C + px - px - px = C by omega] at w2
  refine ⟨⟨u, v, w, drawn draw CH⟩, ?_, v2.1, rfl, w2.congr (fun is hv => ?_)⟩
  · unfold slidingFwd
    rw [padsOf_one hpx, bind_ok, u1, bind_ok, v1, bind_ok]
    dsimp only
    rw [w1, bind_ok]; rfl
  · match is, hv with
    | [b, r, c, ch], hv => exact crop_moved (fun ch => hd (ch * 2)) (fun ch => hd (ch * 2 + 1)) a hv.2.1 hv.2.2.1

/-- C80, backward with the shifts `draw` in the cache: the gradient is moved back. -/
theorem sliding_backward [Zero α] (px : Nat) (draw : Nat → Int) (t grad cp cs cc : Ten α) (tr : Trace α) (BS R C CH : Nat) (g : List Nat → α)
    (ht : t.shape = [BS, R, C, CH]) (hg : grad.Has [BS, R, C, CH] g) (hpx : 1 ≤ px) (hd : Bounded draw px)
    (hR' : px + R + px ≤ 2 ^ 62) (hC' : px + C + px ≤ 2 ^ 62)
    (h1 : tr.slid.shape = [BS, px + R + px, px + C + px, CH]) (h2 : tr.shifts = drawn draw CH) :
    ∃ d, slidingBack px t tr grad cp cs cc = ok d ∧
      d.Has [BS, R, C, CH] (moved (fun ch => -draw (ch * 2)) (fun ch => -draw (ch * 2 + 1)) R C g) := by
  obtain ⟨u, u1, u2⟩ := cropping_backward_pads ⟨px, px, px, px⟩ BS R C CH tr.slid grad cc g h1 hg
  obtain ⟨v, v1, v2⟩ := slideBack_ok (cache := cs) u2 hd (by omega) hR' hC'
  obtain ⟨w, w1, w2⟩ := zero_padding_backward_crops ⟨px, px, px, px⟩ BS R C CH t v cp _ ht v2
  refine ⟨w, ?_, w2.congr (fun is hv => ?_)⟩
  · unfold slidingBack
    rw [padsOf_one hpx, bind_ok, u1, bind_ok, h2, v1, bind_ok, w1]
  · match is, hv with
    | [b, r, c, ch], hv =>
      exact crop_moved (fun ch => by have := hd (ch * 2); omega) (fun ch => by have := hd (ch * 2 + 1); omega) g hv.2.1 hv.2.2.1

/-- Summation over a moved row. -/
theorem sum_moved1 [AddCommMonoid α] (R : Nat) (d : Int) (F : Nat → Nat → α) :
    ∑ r ∈ Finset.range R, (if 0 ≤ (r : Int) - d ∧ (r : Int) - d < R then F r ((r : Int) - d).toNat else 0) =
    ∑ y ∈ Finset.range R, (if 0 ≤ (y : Int) + d ∧ (y : Int) + d < R then F ((y : Int) + d).toNat y else 0) := by
  have e1 : ∀ r ∈ Finset.range R, (if 0 ≤ (r : Int) - d ∧ (r : Int) - d < R then F r ((r : Int) - d).toNat else 0) =
      ∑ y ∈ Finset.range R, if (r : Int) = y + d then F r y else 0 := by
    intro r _
    split
    · rename_i h
      rw [Finset.sum_eq_single_of_mem ((r : Int) - d).toNat (Finset.mem_range.mpr (by omega)) (fun y _ hy => if_neg (by omega)), if_pos (by omega)]
    · rename_i h
      exact (Finset.sum_eq_zero (fun y hy => if_neg (by have := Finset.mem_range.mp hy; omega))).symm
  have e2 : ∀ y ∈ Finset.range R, (if 0 ≤ (y : Int) + d ∧ (y : Int) + d < R then F ((y : Int) + d).toNat y else 0) =
      ∑ r ∈ Finset.range R, if (r : Int) = y + d then F r y else 0 := by
    intro y _
    split
    · rename_i h
      rw [Finset.sum_eq_single_of_mem ((y : Int) + d).toNat (Finset.mem_range.mpr (by omega)) (fun r _ hr => if_neg (by omega)), if_pos (by omega)]
    · rename_i h
      exact (Finset.sum_eq_zero (fun r hr => if_neg (by have := Finset.mem_range.mp hr; omega))).symm
  rw [Finset.sum_congr rfl e1, Finset.sum_congr rfl e2, Finset.sum_comm]

/-- C80: in training backward is the adjoint of forward.  Missing: the learning phases other than 1 (`sliding_untrained_violated`,
`sliding_stale_violated`). -/
theorem sliding_adjoint_partial [CommSemiring α] (px : Nat) (draw : Nat → Int) (t grad cp cs cc cp' cs' cc' : Ten α) (shifts : List Int)
    (BS R C CH : Nat) (a g : List Nat → α)
    (ht : t.Has [BS, R, C, CH] a) (hg : grad.Has [BS, R, C, CH] g) (hpx : 1 ≤ px) (hd : Bounded draw px) (hR : 0 < R) (hC : 0 < C)
    (hR' : px + R + px ≤ 2 ^ 62) (hC' : px + C + px ≤ 2 ^ 62) (hcp : BorderZero ⟨px, px, px, px⟩ BS R C CH cp) :
    ∃ tr d, slidingFwd 1 px draw t cp cs cc shifts = ok tr ∧ slidingBack px t tr grad cp' cs' cc' = ok d ∧ d.shape = t.shape ∧
      dot tr.out.data grad.data = dot t.data d.data := by
  obtain ⟨tr, h1, h2, h3, h4⟩ := sliding_training_forward px draw t cp cs cc shifts BS R C CH a ht hpx hd hR hC hR' hC' hcp
  obtain ⟨d, d1, d2⟩ := sliding_backward px draw t grad cp' cs' cc' tr BS R C CH g ht.1 hg hpx hd hR' hC' h2 h3
  refine ⟨tr, d, h1, d1, by rw [d2.1, ht.1], ?_⟩
  rw [dot4 (ten4 h4).2 (ten4 hg).2, dot4 (ten4 ht).2 (ten4 d2).2]
  refine Finset.sum_congr rfl (fun b _ => ?_)
  simp only [moved, sub_neg_eq_add]
  have comm3 : ∀ G : Nat → Nat → Nat → α, ∑ r ∈ Finset.range R, ∑ c ∈ Finset.range C, ∑ ch ∈ Finset.range CH, G r c ch =
      ∑ ch ∈ Finset.range CH, ∑ r ∈ Finset.range R, ∑ c ∈ Finset.range C, G r c ch := by
    intro G
    rw [Finset.sum_congr rfl (fun r _ => Finset.sum_comm), Finset.sum_comm]
  rw [comm3, comm3]
  refine Finset.sum_congr rfl (fun ch _ => ?_)
  refine Eq.trans (Finset.sum_congr rfl (fun r _ => ?_)) ((sum_moved1 R (draw (ch * 2)) (fun r y => ∑ c ∈ Finset.range C,
    if 0 ≤ (c : Int) - draw (ch * 2 + 1) ∧ (c : Int) - draw (ch * 2 + 1) < C then
      a [b, y, ((c : Int) - draw (ch * 2 + 1)).toNat, ch] * g [b, r, c, ch] else 0)).trans (Finset.sum_congr rfl (fun y _ => ?_)))
  · by_cases hP : 0 ≤ (r : Int) - draw (ch * 2) ∧ (r : Int) - draw (ch * 2) < R
    · rw [if_pos hP]
      refine Finset.sum_congr rfl (fun c _ => ?_)
      by_cases hQ : 0 ≤ (c : Int) - draw (ch * 2 + 1) ∧ (c : Int) - draw (ch * 2 + 1) < C
      · rw [if_pos ⟨hP, hQ⟩, if_pos hQ]
      · rw [if_neg (fun h => hQ h.2), if_neg hQ, zero_mul]
    · rw [if_neg hP]
      exact Finset.sum_eq_zero (fun c _ => by rw [if_neg (fun h => hP h.1), zero_mul])
  · by_cases hP : 0 ≤ (y : Int) + draw (ch * 2) ∧ (y : Int) + draw (ch * 2) < R
    · rw [if_pos hP]
      refine (sum_moved1 C (draw (ch * 2 + 1)) (fun c x => a [b, y, x, ch] * g [b, ((y : Int) + draw (ch * 2)).toNat, c, ch])).trans ?_
      refine Finset.sum_congr rfl (fun c _ => ?_)
      by_cases hQ : 0 ≤ (c : Int) + draw (ch * 2 + 1) ∧ (c : Int) + draw (ch * 2 + 1) < C
      · rw [if_pos hQ, if_pos ⟨hP, hQ⟩]
      · rw [if_neg hQ, if_neg (fun h => hQ h.2), mul_zero]
    · rw [if_neg hP]
      exact (Finset.sum_eq_zero (fun c _ => by rw [if_neg (fun h => hP h.1), mul_zero])).symm

/-- C80: outside training forward is the identity and leaves the shifts alone. -/
theorem sliding_inference_forward [Zero α] (phase : Int) (px : Nat) (draw : Nat → Int) (t cp cs cc : Ten α) (shifts : List Int) (BS R C CH : Nat)
    (a : List Nat → α) (hph : phase ≠ 1) (ht : t.Has [BS, R, C, CH] a) (hpx : 1 ≤ px) (hR : 0 < R) (hC : 0 < C)
    (hcp : BorderZero ⟨px, px, px, px⟩ BS R C CH cp) :
    ∃ tr, slidingFwd phase px draw t cp cs cc shifts = ok tr ∧ tr.out = t ∧ tr.shifts = shifts ∧ tr.slid.shape = [BS, px + R + px, px + C + px, CH] := by
  obtain ⟨u, u1, u2⟩ := zeroPad_border (p := ⟨px, px, px, px⟩) ht hcp
  have hcr := cropping_undoes_padding ⟨px, px, px, px⟩ BS R C CH t cp cc a ht hR hC hcp
  rw [u1, bind_ok] at hcr
  refine ⟨⟨u, u, t, shifts⟩, ?_, rfl, rfl, u2.1⟩
  unfold slidingFwd slideFwd
  rw [padsOf_one hpx, bind_ok, u1, bind_ok, if_pos hph, bind_ok]
  dsimp only
  rw [hcr, bind_ok]; rfl

/-- C80 is violated: backward of an operator that has never been run in training reads shifts that do not exist. -/
theorem sliding_untrained_violated [Zero α] (phase : Int) (px : Nat) (draw : Nat → Int) (t grad cp cs cc cp' cs' cc' : Ten α) (BS R C CH : Nat)
    (a g : List Nat → α) (hph : phase ≠ 1) (ht : t.Has [BS, R, C, CH] a) (hg : grad.Has [BS, R, C, CH] g) (hpx : 1 ≤ px) (hR : 0 < R) (hC : 0 < C)
    (hB : 0 < BS) (hCH : 0 < CH) (hcp : BorderZero ⟨px, px, px, px⟩ BS R C CH cp) :
    ∃ tr, slidingFwd phase px draw t cp cs cc [] = ok tr ∧ tr.out = t ∧ slidingBack px t tr grad cp' cs' cc' = ub := by
  obtain ⟨tr, h1, h2, h3, h4⟩ := sliding_inference_forward phase px draw t cp cs cc [] BS R C CH a hph ht hpx hR hC hcp
  refine ⟨tr, h1, h2, ?_⟩
  obtain ⟨u, u1, u2⟩ := cropping_backward_pads ⟨px, px, px, px⟩ BS R C CH tr.slid grad cc' g h4 hg
  obtain ⟨n, rfl⟩ : ∃ n, BS = n + 1 := ⟨BS - 1, by omega⟩
  obtain ⟨m, rfl⟩ : ∃ m, CH = m + 1 := ⟨CH - 1, by omega⟩
  have hub : ∀ (n : Nat) (body : Nat → List α → Res (List α)) (s : List α), (∀ i s, body i s = ub) → loop (n + 1) body s = ub := by
    intro n body s hb
    induction n with
    | zero => simp [loop, hb]
    | succ n ih => rw [loop, ih]; rfl
  unfold slidingBack slideBack
  rw [padsOf_one hpx, bind_ok, u1, bind_ok, u2.1]
  dsimp only
  rw [fill0, bind_ok, h3]
  unfold pass
  rw [hub n _ _ (fun i s => hub m _ _ (fun j s => by rw [rd_ub (by simp)]; rfl))]
  rfl

/-- C80 is violated: once the operator has been run in training with a non-zero vertical shift of some channel, backward outside
training, where forward is the identity, is not the identity. -/
theorem sliding_stale_violated [CommRing α] [Nontrivial α] (phase : Int) (px : Nat) (draw draw' : Nat → Int) (t cp cs cc cp' cs' cc' : Ten α) (BS R C CH : Nat)
    (a : List Nat → α) (hph : phase ≠ 1) (ht : t.Has [BS, R, C, CH] a) (hpx : 1 ≤ px) (hd : Bounded draw px) (hR : 0 < R) (hC : 0 < C) (hB : 0 < BS)
    (hR' : px + R + px ≤ 2 ^ 62) (hC' : px + C + px ≤ 2 ^ 62)
    (hcp : BorderZero ⟨px, px, px, px⟩ BS R C CH cp) (ch : Nat) (hch : ch < CH) (hne : draw (ch * 2) ≠ 0) :
    ∃ tr tr' grad d, slidingFwd 1 px draw t cp cs cc [] = ok tr ∧ slidingFwd phase px draw' t cp cs cc tr.shifts = ok tr' ∧ tr'.out = t ∧
      grad.shape = t.shape ∧ slidingBack px t tr' grad cp' cs' cc' = ok d ∧ d ≠ grad := by
  obtain ⟨tr, h1, h2, h3, h4⟩ := sliding_training_forward px draw t cp cs cc [] BS R C CH a ht hpx hd hR hC hR' hC' hcp
  obtain ⟨tr', k1, k2, k3, k4⟩ := sliding_inference_forward phase px draw' t cp cs cc tr.shifts BS R C CH a hph ht hpx hR hC hcp
  have hg : (⟨[BS, R, C, CH], List.replicate (size [BS, R, C, CH]) 1⟩ : Ten α).Has [BS, R, C, CH] (fun _ => 1) :=
    ⟨rfl, by simp only [List.length_replicate], fun is hv => by
      rw [List.getElem?_replicate, if_pos (flat_lt hv)]⟩
  obtain ⟨d, d1, d2⟩ := sliding_backward px draw t _ cp' cs' cc' tr' BS R C CH _ ht.1 hg hpx hd hR' hC' k4 (k3.trans h3)
  refine ⟨tr, tr', _, d, h1, k1, k2, ht.1.symm, d1, fun e => ?_⟩
  rw [e] at d2
  have key : ∀ r, r < R → moved (fun ch => -draw (ch * 2)) (fun ch => -draw (ch * 2 + 1)) R C (fun _ => (1 : α)) [0, r, 0, ch] = 1 := fun r hr => by
    have hv : ValidIdx [BS, R, C, CH] [0, r, 0, ch] := ⟨hB, hr, hC, hch, trivial⟩
    exact (Option.some.inj ((hg.2.2 _ hv).symm.trans (d2.2.2 _ hv))).symm
  by_cases hp : 0 < draw (ch * 2)
  · have := key (R - 1) (by omega)
    simp only [moved] at this
    rw [if_neg (by omega)] at this
    exact zero_ne_one this
  · have := key 0 hR
    simp only [moved] at this
    rw [if_neg (by omega)] at this
    exact zero_ne_one this

/-- One row of two pixels moved by one to the right: the hypotheses are met, and the results are as stated. -/
example : Bounded (fun k => if k = 1 then 1 else 0) 1 ∧
    (slidingFwd 1 1 (fun k => if k = 1 then 1 else 0) ⟨[1, 1, 2, 1], [5, (6 : ℚ)]⟩ ⟨[], []⟩ ⟨[], []⟩ ⟨[], []⟩ [] >>= fun tr => do
      let d ← slidingBack 1 ⟨[1, 1, 2, 1], [5, (6 : ℚ)]⟩ tr ⟨[1, 1, 2, 1], [8, 9]⟩ ⟨[], []⟩ ⟨[], []⟩ ⟨[], []⟩
      pure (tr.out, d)) = ok (⟨[1, 1, 2, 1], [0, 5]⟩, ⟨[1, 1, 2, 1], [9, 0]⟩) := by
  refine ⟨fun k => ?_, by decide +kernel⟩
  dsimp only
  split <;> decide

end Verif.Sliding
