import Verif.Conv.Trans
/-!
# C103: the transposed convolution is the transpose of the convolution; backward of spreading
-/
namespace Verif.Conv
open Verif Res View Data Pool

variable {α : Type}

theorem pixel_sum [CommSemiring α] (a : List Nat → α) (R C b ch y x : Nat) :
    pixel a R C b (y : Int) (x : Int) ch = ∑ r ∈ Finset.range R, ∑ c ∈ Finset.range C, if y = r ∧ x = c then a [b, r, c, ch] else 0 := by
  unfold pixel
  by_cases h : y < R ∧ x < C
  · rw [if_pos ⟨by omega, by omega, by omega, by omega⟩, Finset.sum_eq_single y, Finset.sum_eq_single x]
    · simp
    · intro c _ hne; rw [if_neg (by rintro ⟨_, e⟩; exact hne e.symm)]
    · intro h'; exact absurd (Finset.mem_range.mpr h.2) h'
    · intro r _ hne
      refine Finset.sum_eq_zero (fun c _ => ?_)
      rw [if_neg (by rintro ⟨e, _⟩; exact hne e.symm)]
    · intro h'; exact absurd (Finset.mem_range.mpr h.1) h'
  · rw [if_neg (by omega)]
    refine (Finset.sum_eq_zero (fun r hr => Finset.sum_eq_zero (fun c hc => ?_))).symm
    rw [Finset.mem_range] at hr hc
    exact if_neg (by omega)

/-- Specification-level fact, for all strides: the transposed convolution of `y` with the filter whose channels are exchanged is the
transpose of the convolution. -/
theorem tconv_adjoint [CommSemiring α] (kr kc sr sc R C CH oR oC NC : Nat) (a y : List Nat → α) (w : Nat → Nat → Nat → Nat → α) (b : Nat) :
    ∑ i ∈ Finset.range oR, ∑ j ∈ Finset.range oC, ∑ n ∈ Finset.range NC, direct ⟨kr, kc, 0, 0, sr, sc, 1, 1⟩ R C CH a w b i j n * y [b, i, j, n] =
      ∑ r ∈ Finset.range R, ∑ c ∈ Finset.range C, ∑ ch ∈ Finset.range CH,
        a [b, r, c, ch] * tconv kr kc sr sc oR oC NC y (fun ch tr tc n => w n tr tc ch) b r c ch := by
  have hL : ∀ i j n, direct ⟨kr, kc, 0, 0, sr, sc, 1, 1⟩ R C CH a w b i j n * y [b, i, j, n] =
      ∑ ch ∈ Finset.range CH, ∑ tr ∈ Finset.range kr, ∑ tc ∈ Finset.range kc, ∑ r ∈ Finset.range R, ∑ c ∈ Finset.range C,
        if i * sr + tr = r ∧ j * sc + tc = c then w n tr tc ch * a [b, r, c, ch] * y [b, i, j, n] else 0 := by
    intro i j n
    unfold direct
    simp only [Finset.sum_mul]
    refine Finset.sum_congr rfl (fun ch _ => Finset.sum_congr rfl (fun tr _ => Finset.sum_congr rfl (fun tc _ => ?_)))
    have e1 : tapRow ⟨kr, kc, 0, 0, sr, sc, 1, 1⟩ i tr = ((i * sr + tr : Nat) : Int) := by unfold tapRow; push_cast; ring
    have e2 : tapCol ⟨kr, kc, 0, 0, sr, sc, 1, 1⟩ j tc = ((j * sc + tc : Nat) : Int) := by unfold tapCol; push_cast; ring
    rw [e1, e2, pixel_sum, Finset.mul_sum, Finset.sum_mul]
    refine Finset.sum_congr rfl (fun r _ => ?_)
    rw [Finset.mul_sum, Finset.sum_mul]
    refine Finset.sum_congr rfl (fun c _ => ?_)
    rw [mul_ite, mul_zero, ite_mul, zero_mul]
  have hR : ∀ r c ch, a [b, r, c, ch] * tconv kr kc sr sc oR oC NC y (fun ch tr tc n => w n tr tc ch) b r c ch =
      ∑ n ∈ Finset.range NC, ∑ tr ∈ Finset.range kr, ∑ tc ∈ Finset.range kc, ∑ i ∈ Finset.range oR, ∑ j ∈ Finset.range oC,
        if i * sr + tr = r ∧ j * sc + tc = c then w n tr tc ch * a [b, r, c, ch] * y [b, i, j, n] else 0 := by
    intro r c ch
    unfold tconv
    simp only [Finset.mul_sum]
    refine Finset.sum_congr rfl (fun n _ => Finset.sum_congr rfl (fun tr _ => Finset.sum_congr rfl (fun tc _ =>
      Finset.sum_congr rfl (fun i _ => Finset.sum_congr rfl (fun j _ => ?_)))))
    rw [mul_ite, mul_zero]
    congr 1
    ring
  simp only [hL, hR]
  simp only [← Finset.sum_product']
  refine Finset.sum_nbij' (fun p => (p.2.2.2.2.2.2.1, p.2.2.2.2.2.2.2, p.2.2.2.1, p.2.2.1, p.2.2.2.2.1, p.2.2.2.2.2.1, p.1, p.2.1))
    (fun p => (p.2.2.2.2.2.2.1, p.2.2.2.2.2.2.2, p.2.2.2.1, p.2.2.1, p.2.2.2.2.1, p.2.2.2.2.2.1, p.1, p.2.1)) ?_ ?_ ?_ ?_ ?_
  · intro p hp; simp only [Finset.mem_product] at hp ⊢; tauto
  · intro p hp; simp only [Finset.mem_product] at hp ⊢; tauto
  · intro p _; rfl
  · intro p _; rfl
  · intro p _; rfl

/-- C103: with stride 1 and padding `"valid"`, `conv2d_transpose` is the transpose of `conv2d` - `<conv2d(x), y> = <x, conv2d_transpose(y)>`
for all images `x` and `y` - when the filters of one are those of the other with input and output channels exchanged (`conv2d` reads
a filter as `[NC, CH, kr, kc]`, C78) and `y` has one channel or the kernel one tap.  Missing: several channels in `y`. -/
theorem conv2d_transpose_is_transpose_partial [CommSemiring α] (x y f f' cache cacheT : Ten α) (k : TCache α) (BS R C CH NC kr kc : Nat)
    (a β w : List Nat → α) (hx : x.Has [BS, R, C, CH] a) (hy : y.Has [BS, R - kr + 1, C - kc + 1, NC] β)
    (hf : f.shape = [NC, kr, kc, CH]) (hfd : IsT f.data [NC, CH, kr, kc] w)
    (hf' : f'.Has [CH, kr, kc, NC] (fun is => w [is.getD 3 0, is.getD 0 0, is.getD 1 0, is.getD 2 0]))
    (h1 : NC = 1 ∨ (kr = 1 ∧ kc = 1)) (hkr : 1 ≤ kr) (hkc : 1 ≤ kc) (hR : kr ≤ R) (hC : kc ≤ C) (hCH : CH ≠ 0) (hNC : NC ≠ 0)
    (hsz : BS * R * C * CH < 2 ^ 32) (hsz' : BS * (R + kr - 1) * (C + kc - 1) * NC < 2 ^ 32)
    (hK : kr * kc * CH < 2 ^ 64 - 1) (hK' : kr * kc * NC < 2 ^ 64 - 1) (hN : NC < 2 ^ 64 - 1) (hN' : CH < 2 ^ 64 - 1) (hrec : k.record = []) :
    ∃ u v r r', conv2d R C 1 1 1 1 false x f cache cacheT [] = ok (u, r) ∧ conv2dTranspose kr kc 1 1 1 1 false y f' k = ok (v, r') ∧
      v.shape = x.shape ∧ u.shape = y.shape ∧ dot u.data y.data = dot x.data v.data := by
  obtain ⟨u, r, u1, u2⟩ := conv2d_valid_direct x f cache cacheT BS R C CH NC kr kc 1 1 1 1 a w hx
    ⟨hkr, hkc, Nat.le_refl _, Nat.le_refl _, by simp only; omega, by simp only; omega⟩ hsz hf hfd hCH hNC hK hN
  obtain ⟨v, r', v1, v2⟩ := conv2d_transpose_valid_partial y f' k BS (R - kr + 1) (C - kc + 1) NC CH kr kc β _ hy hf' h1 hkr hkc
    (by omega) (by omega) hNC hCH (by
      rw [show R - kr + 1 + (kr * 2 - 2) = R + kr - 1 by omega, show C - kc + 1 + (kc * 2 - 2) = C + kc - 1 by omega]; exact hsz') hK' hN' hrec
  unfold IsConv at u2
  have o1 : outDim R kr 0 1 1 = R - kr + 1 := by unfold outDim; omega
  have o2 : outDim C kc 0 1 1 = C - kc + 1 := by unfold outDim; omega
  have o3 : tconvDim (R - kr + 1) kr 1 = R := by unfold tconvDim; omega
  have o4 : tconvDim (C - kc + 1) kc 1 = C := by unfold tconvDim; omega
  simp only [o1, o2] at u2
  rw [o3, o4] at v2
  refine ⟨u, v, r, r', u1, v1, by rw [v2.1, hx.1], by rw [u2.1, hy.1], ?_⟩
  rw [dot4 (is4_iff.mp u2.2) (is4_iff.mp hy.2), dot4 (is4_iff.mp hx.2) (is4_iff.mp v2.2)]
  refine Finset.sum_congr rfl (fun b _ => ?_)
  exact tconv_adjoint kr kc 1 1 R C CH (R - kr + 1) (C - kc + 1) NC a β (fun n tr tc ch => w [n, ch, tr, tc]) b

/-- C103, backward of the spreading operator: for all strides and both paddings it is the transpose of forward, whatever the caches
hold. -/
theorem spread_adjoint [CommSemiring α] (t g cache cacheB : Ten α) (BS R C CH kr kc sr sc : Nat) (same : Bool) (a γ : List Nat → α)
    (ht : t.Has [BS, R, C, CH] a) (hg : g.Has [BS, spreadDim R kr sr same, spreadDim C kc sc same, CH] γ)
    (hkr : 1 ≤ kr) (hkc : 1 ≤ kc) (hsr : 1 ≤ sr) (hsc : 1 ≤ sc) :
    ∃ u v, spread kr kc sr sc same t cache = ok u ∧ spreadBack kr kc sr sc same t g cacheB = ok v ∧
      u.shape = g.shape ∧ v.shape = t.shape ∧ dot u.data g.data = dot t.data v.data := by
  obtain ⟨u, u1, u2⟩ := spread_values (same := same) (kr := kr) (kc := kc) cache ht hkr hkc hsr hsc
  obtain ⟨v, v1, v2⟩ := spreadBack_values cacheB ht.1 hg hkr hkc hsr hsc
  refine ⟨u, v, u1, v1, by rw [u2.1, hg.1], by rw [v2.1, ht.1], ?_⟩
  rw [dot4 (is4_iff.mp u2.2) (is4_iff.mp hg.2), dot4 (is4_iff.mp ht.2) (is4_iff.mp v2.2)]
  refine Finset.sum_congr rfl (fun b _ => ?_)
  simp only [List.getD_cons_zero, List.getD_cons_succ]
  have hH : ∀ r, r < R → spreadOff kr same + r * sr < spreadDim R kr sr same := fun r hr => off_lt hkr hsr hr
  have hW : ∀ c, c < C → spreadOff kc same + c * sc < spreadDim C kc sc same := fun c hc => off_lt hkc hsc hc
  generalize spreadDim R kr sr same = H at *
  generalize spreadDim C kc sc same = W at *
  generalize spreadOff kr same = oy at *
  generalize spreadOff kc same = ox at *
  have e : ∀ y, y ∈ Finset.range H → ∀ x, x ∈ Finset.range W → ∀ ch, spreadPix oy ox sr sc R C a [b, y, x, ch] =
      ∑ r ∈ Finset.range R, ∑ c ∈ Finset.range C, if oy + r * sr = y ∧ ox + c * sc = x then a [b, r, c, ch] else 0 := by
    intro y hy x hx ch
    rw [Finset.mem_range] at hy hx
    have := pixel_spread (sr := sr) (sc := sc) a b ch (y : Int) (x : Int) hsr hsc hH hW
    unfold pixel at this
    rw [if_pos ⟨by omega, by omega, by omega, by omega⟩, Int.toNat_natCast, Int.toNat_natCast] at this
    rw [this]
    simp only [Nat.cast_inj]
  rw [Finset.sum_congr rfl (fun y hy => Finset.sum_congr rfl (fun x hx => Finset.sum_congr rfl (fun ch _ => by rw [e y hy x hx ch])))]
  have s : ∀ r, r ∈ Finset.range R → ∀ c, c ∈ Finset.range C → ∀ ch, a [b, r, c, ch] * γ [b, oy + r * sr, ox + c * sc, ch] =
      ∑ y ∈ Finset.range H, ∑ x ∈ Finset.range W, if oy + r * sr = y ∧ ox + c * sc = x then a [b, r, c, ch] * γ [b, y, x, ch] else 0 := by
    intro r hr c hc ch
    rw [Finset.mem_range] at hr hc
    rw [Finset.sum_eq_single (oy + r * sr), Finset.sum_eq_single (ox + c * sc)]
    · simp
    · intro x _ hne; rw [if_neg (by rintro ⟨_, e⟩; exact hne e.symm)]
    · intro h'; exact absurd (Finset.mem_range.mpr (hW c hc)) h'
    · intro y _ hne
      refine Finset.sum_eq_zero (fun x _ => ?_)
      rw [if_neg (by rintro ⟨e, _⟩; exact hne e.symm)]
    · intro h'; exact absurd (Finset.mem_range.mpr (hH r hr)) h'
  rw [Finset.sum_congr (s₁ := Finset.range R) rfl (fun r hr => Finset.sum_congr rfl (fun c hc => Finset.sum_congr rfl (fun ch _ => s r hr c hc ch)))]
  simp only [Finset.sum_mul, ite_mul, zero_mul]
  simp only [← Finset.sum_product']
  refine Finset.sum_nbij' (fun p => (p.2.2.2.1, p.2.2.2.2, p.2.2.1, p.1, p.2.1)) (fun p => (p.2.2.2.1, p.2.2.2.2, p.2.2.1, p.1, p.2.1)) ?_ ?_ ?_ ?_ ?_
  · intro p hp; simp only [Finset.mem_product] at hp ⊢; tauto
  · intro p hp; simp only [Finset.mem_product] at hp ⊢; tauto
  · intro p _; rfl
  · intro p _; rfl
  · intro p _; rfl

/-- Spreading with stride 2 and a kernel of 2 taps, and back. -/
example : spread 1 2 1 2 false ⟨[1, 1, 2, 1], [5, (6 : Int)]⟩ ⟨[6], [9, 9, 9, 9, 9, 9]⟩ = ok ⟨[1, 1, 6, 1], [0, 5, 0, 6, 0, 0]⟩ ∧
    spreadBack 1 2 1 2 false ⟨[1, 1, 2, 1], [5, (6 : Int)]⟩ ⟨[1, 1, 6, 1], [1, 2, 3, 4, 5, 6]⟩ ⟨[], []⟩ = ok ⟨[1, 1, 2, 1], [2, 4]⟩ := by
  constructor <;> decide +kernel

/-- A case of `conv2d_transpose_is_transpose_partial` with two channels in `x`: the filter of `conv2d` is read as `1 2` for channel 0 and
`3 4` for channel 1, so those are the two filters of `conv2d_transpose`. -/
example : conv2d 1 2 1 1 1 1 false ⟨[1, 1, 2, 2], [1, 10, 100, (1000 : Int)]⟩ ⟨[1, 1, 2, 2], [1, 2, 3, 4]⟩ ⟨[], []⟩ ⟨[], []⟩ [] =
      ok (⟨[1, 1, 1, 1], [4231]⟩, [0, 2, 1, 3]) ∧
    conv2dTranspose 1 2 1 1 1 1 false ⟨[1, 1, 1, 1], [(7 : Int)]⟩ ⟨[2, 1, 2, 1], [1, 2, 3, 4]⟩ ⟨⟨[], []⟩, ⟨[], []⟩, ⟨[], []⟩, ⟨[], []⟩, ⟨[], []⟩, []⟩ =
      ok (⟨[1, 1, 2, 2], [7, 21, 14, 28]⟩, [0, 1, 1, 2]) ∧
    dot [4231] [(7 : Int)] = dot [1, 10, 100, (1000 : Int)] [7, 21, 14, 28] := by
  refine ⟨?_, ?_, ?_⟩ <;> decide +kernel

end Verif.Conv
