import Verif.Fp.Conv
import Verif.Fp.ConvSpec
import Verif.Fp.Backprop
import Verif.Net.Conv
/-!
# C138: the gradients of convolutions computed with rounding

What a convolution sends back to its image and to its filter, in the expression `conv2d` and `general_conv2d` make (reshape, `img2col`, matrix
product, transpose, reshape), run with numbers that round.
-/
namespace Verif.Fp
open Verif Res View Gemm Data Ops Graph Conv Finset

variable {F : Type} [Arith F]

/-! ### sums of sums of products -/

/-- The error of a sum of at most `T` sums of `n` products each, the absolute values of all of which add up to `S`: first what the sums of products may be
off, then the additions. -/
def dotsErr (u w : ℝ) (n T : Nat) (S : ℝ) : ℝ := ((1 + u) ^ (n + 1) - 1) * S + T * (n * (1 + u) ^ n * w)

def twoBound (u w : ℝ) (n T : Nat) (S : ℝ) : ℝ := ((1 + u) ^ T - 1) * (S + dotsErr u w n T S) + dotsErr u w n T S

theorem list_sum_le {P : List Nat} {f h : Nat → ℝ} (hle : ∀ p ∈ P, f p ≤ h p) : (P.map f).sum ≤ (P.map h).sum := by
  induction P with
  | nil => simp
  | cons p P ih =>
    simp only [List.map_cons, List.sum_cons]
    exact add_le_add (hle p (by simp)) (ih (fun q hq => hle q (by simp [hq])))

theorem list_abs_le {P : List Nat} {f h e : Nat → ℝ} (hle : ∀ p ∈ P, |f p - h p| ≤ e p) : |(P.map f).sum - (P.map h).sum| ≤ (P.map e).sum := by
  induction P with
  | nil => simp
  | cons p P ih =>
    simp only [List.map_cons, List.sum_cons]
    have h1 := hle p (by simp)
    have h2 := ih (fun q hq => hle q (by simp [hq]))
    rw [abs_le] at *
    constructor <;> linarith

theorem list_bound_sum (P : List Nat) (u w : ℝ) (n : Nat) (S : Nat → ℝ) :
    (P.map (fun p => dotBound u w n (S p))).sum = ((1 + u) ^ (n + 1) - 1) * (P.map S).sum + P.length * (n * (1 + u) ^ n * w) := by
  induction P with
  | nil => simp
  | cons p P ih =>
    simp only [List.map_cons, List.sum_cons, ih, List.length_cons]
    unfold dotBound
    push_cast
    ring

theorem single_le {P : List Nat} {f : Nat → ℝ} (h0 : ∀ p ∈ P, 0 ≤ f p) {q : Nat} (hq : q ∈ P) : f q ≤ (P.map f).sum := by
  induction P with
  | nil => simp at hq
  | cons p P ih =>
    simp only [List.map_cons, List.sum_cons]
    have hs : 0 ≤ (P.map f).sum := List.sum_nonneg (by
      intro x hx
      obtain ⟨r, hr, rfl⟩ := List.mem_map.mp hx
      exact h0 r (by simp [hr]))
    rcases List.mem_cons.mp hq with rfl | hq
    · linarith
    · have := ih (fun r hr => h0 r (by simp [hr])) hq
      have := h0 p (by simp)
      linarith

/-- A computed sum of at most `T` computed sums of `n` products. -/
theorem accurate_two {P : List Nat} {G : Nat → F} {x y : Nat → Nat → F} {n T : Nat} {r : F} (hP : P.length ≤ T)
    (hG : ∀ p ∈ P, Accurate (x p) (y p) n (G p)) (hr : AccurateSum (P.map G) r) :
    let exact := (P.map (fun p => ∑ i ∈ range n, val (x p i) * val (y p i))).sum
    let mag := (P.map (fun p => ∑ i ∈ range n, |val (x p i)| * |val (y p i)|)).sum
    let bound := twoBound (Arith.u F) (Arith.w F) n T mag
    (fin r → (∀ p ∈ P, ∀ i, i < n → fin (x p i) ∧ fin (y p i)) ∧ |val r - exact| ≤ bound) ∧
    ((∀ p ∈ P, ∀ i, i < n → fin (x p i) ∧ fin (y p i)) → mag + bound ≤ Arith.top F → fin r) ∧
    ((∀ p ∈ P, ∀ i, i < n → (fin (x p i) ∧ fin (y p i)) ∧ (∃ k : ℤ, val (x p i) = k) ∧ ∃ k : ℤ, val (y p i) = k) → mag < Arith.whole F →
      fin r ∧ val r = exact) := by
  intro exact mag bound
  have hu := Arith.u_nonneg (F := F)
  have hw := Arith.w_nonneg (F := F)
  set u := Arith.u F
  set w := Arith.w F
  set S : Nat → ℝ := fun p => ∑ i ∈ range n, |val (x p i)| * |val (y p i)| with hS
  have S0 : ∀ p, 0 ≤ S p := fun p => sum_nonneg (fun i _ => mul_nonneg (abs_nonneg _) (abs_nonneg _))
  have hle : ∀ p, |∑ i ∈ range n, val (x p i) * val (y p i)| ≤ S p := fun p => by
    refine (abs_sum_le_sum_abs _ _).trans (sum_le_sum (fun i _ => ?_))
    rw [abs_mul]
  have p1 : (1 : ℝ) ≤ (1 + u) ^ (n + 1) := one_le_pow₀ (by linarith)
  have pT : (1 : ℝ) ≤ (1 + u) ^ T := one_le_pow₀ (by linarith)
  have hmag : 0 ≤ mag := List.sum_nonneg (by
    intro z hz
    obtain ⟨q, _, rfl⟩ := List.mem_map.mp hz
    exact S0 q)
  have hc : 0 ≤ n * (1 + u) ^ n * w := by positivity
  have hE : (P.map (fun p => dotBound u w n (S p))).sum ≤ dotsErr u w n T mag := by
    rw [list_bound_sum]
    unfold dotsErr
    have : (P.length : ℝ) ≤ T := by exact_mod_cast hP
    have := mul_le_mul_of_nonneg_right this hc
    show _ * mag + _ ≤ _
    linarith
  have B0 : ∀ p, 0 ≤ dotBound u w n (S p) := fun p => dotBound_nonneg hu hw (S0 p)
  -- the sums of products, if finite
  have near : ∀ p ∈ P, fin (G p) → |val (G p) - ∑ i ∈ range n, val (x p i) * val (y p i)| ≤ dotBound u w n (S p) := fun p hp hf => ((hG p hp).1 hf).2
  have sums : (∀ p ∈ P, fin (G p)) → ((P.map G).map (fun z => |val z|)).sum ≤ mag + dotsErr u w n T mag := by
    intro hf
    rw [List.map_map]
    have h1 : (P.map ((fun z => |val z|) ∘ G)).sum ≤ (P.map (fun p => S p + dotBound u w n (S p))).sum := by
      refine list_sum_le (fun p hp => ?_)
      have h1 := near p hp (hf p hp)
      have h2 := hle p
      have h3 := abs_sub_abs_le_abs_sub (val (G p)) (∑ i ∈ range n, val (x p i) * val (y p i))
      show |val (G p)| ≤ _
      linarith
    rw [List.sum_map_add] at h1
    exact h1.trans (add_le_add le_rfl hE)
  have hlen : (P.map G).length = P.length := List.length_map _
  have hpow : (1 + u) ^ P.length ≤ (1 + u) ^ T := pow_le_pow_right₀ (by linarith) hP
  have pP : (1 : ℝ) ≤ (1 + u) ^ P.length := one_le_pow₀ (by linarith)
  have babs : 0 ≤ ((P.map G).map (fun z => |val z|)).sum := List.sum_nonneg (by
    intro z hz
    obtain ⟨q, _, rfl⟩ := List.mem_map.mp hz
    exact abs_nonneg _)
  have sumB : (∀ p ∈ P, fin (G p)) → sumBound u (P.map G).length ((P.map G).map (fun z => |val z|)).sum ≤ ((1 + u) ^ T - 1) * (mag + dotsErr u w n T mag) := by
    intro hf
    unfold sumBound
    rw [hlen]
    exact mul_le_mul (by linarith) (sums hf) babs (by linarith)
  obtain ⟨r1, r2, r3⟩ := hr
  refine ⟨fun hf => ?_, fun hf htop => ?_, fun hf hwh => ?_⟩
  · obtain ⟨f1, f2⟩ := r1 hf
    have fG : ∀ p ∈ P, fin (G p) := fun p hp => f1 _ (List.mem_map_of_mem hp)
    refine ⟨fun p hp => ((hG p hp).1 (fG p hp)).1, ?_⟩
    have h1 := sumB fG
    have h2 := list_abs_le (fun p hp => near p hp (fG p hp))
    rw [List.map_map] at f2
    have h3 := f2.trans h1
    have h4 := h2.trans hE
    show |val r - exact| ≤ _
    show _ ≤ ((1 + u) ^ T - 1) * (mag + dotsErr u w n T mag) + dotsErr u w n T mag
    have e : val r - exact = (val r - (P.map (val ∘ G)).sum) + ((P.map (fun p => val (G p))).sum - exact) := by
      simp only [Function.comp_def]; ring
    rw [e]
    exact (abs_add_le _ _).trans (add_le_add h3 h4)
  · have eB : bound = ((1 + u) ^ T - 1) * (mag + dotsErr u w n T mag) + dotsErr u w n T mag := rfl
    have E0 : 0 ≤ dotsErr u w n T mag := by
      unfold dotsErr
      have : (0 : ℝ) ≤ T := Nat.cast_nonneg _
      have := mul_nonneg (sub_nonneg.mpr p1) hmag
      positivity
    have M0 : 0 ≤ ((1 + u) ^ T - 1) * (mag + dotsErr u w n T mag) := mul_nonneg (by linarith) (by linarith)
    have fG : ∀ p ∈ P, fin (G p) := by
      intro p hp
      refine (hG p hp).2.1 (hf p hp) ?_
      have h1 := single_le (f := fun p => S p + dotBound u w n (S p)) (fun p _ => add_nonneg (S0 p) (B0 p)) hp
      rw [List.sum_map_add] at h1
      show S p + dotBound u w n (S p) ≤ _
      have : (P.map fun p => S p).sum = mag := rfl
      linarith
    refine r2 ?_ ?_
    · intro z hz
      obtain ⟨q, hq, rfl⟩ := List.mem_map.mp hz
      exact fG q hq
    · have := sumB fG
      have := sums fG
      linarith
  · have each : ∀ p ∈ P, fin (G p) ∧ val (G p) = ∑ i ∈ range n, val (x p i) * val (y p i) := by
      intro p hp
      refine (hG p hp).2.2 (hf p hp) (lt_of_le_of_lt ?_ hwh)
      exact single_le (f := S) (fun p _ => S0 p) hp
    have ev : ((P.map G).map val).sum = exact := by
      rw [List.map_map]
      exact congrArg List.sum (List.map_congr_left (fun p hp => (each p hp).2))
    have h := r3 (by
      intro z hz
      obtain ⟨q, hq, rfl⟩ := List.mem_map.mp hz
      refine ⟨(each q hq).1, ?_⟩
      rw [(each q hq).2]
      have hx : ∀ i, i < n → ∃ k : ℤ, val (x q i) = k := fun i hi => (hf q hq i hi).2.1
      have hy : ∀ i, i < n → ∃ k : ℤ, val (y q i) = k := fun i hi => (hf q hq i hi).2.2
      choose! kx hkx using hx
      choose! ky hky using hy
      refine ⟨∑ i ∈ range n, kx i * ky i, ?_⟩
      push_cast
      exact sum_congr rfl (fun i hi => by rw [hkx i (mem_range.mp hi), hky i (mem_range.mp hi)])) (by
      refine lt_of_le_of_lt ?_ hwh
      rw [List.map_map]
      refine list_sum_le (fun p hp => ?_)
      show |val (G p)| ≤ S p
      rw [(each p hp).2]
      exact hle p)
    rw [ev] at h
    exact h

/-! ### back through `img2col` -/

/-- Scattering with additions that round: every place holds the sum, from the left, of what is sent there, in the order of sending. -/
theorem scatter_any {α : Type} [Zero α] [Add α] {N M : Nat} {src : Nat → Option Nat} {g : Nat → α} (hsrc : ∀ p, p < N → ∀ q, src p = some q → q < M)
    {body : Nat → List α → Res (List α)} (hb : ∀ p o, p < N → o.length = M → body p o = (match src p with | none => ok o | some q => addAt o q (g p))) :
    ∃ o', loop N body (List.replicate M 0) = ok o' ∧ o'.length = M ∧
      ∀ q, q < M → o'[q]? = some ((((List.range N).filter (fun p => src p = some q)).map g).foldl (· + ·) 0) := by
  have h := loop_inv (n := N) (body := body) (s := List.replicate M (0 : α))
    (fun k o => o.length = M ∧ ∀ q, q < M → o[q]? = some ((((List.range k).filter (fun p => src p = some q)).map g).foldl (· + ·) 0))
    ⟨by simp, fun q hq => by simp [hq]⟩ (fun k o hk ⟨h1, h2⟩ => by
      rw [hb k o hk h1]
      cases e : src k with
      | none =>
        refine ⟨o, rfl, h1, fun q hq => ?_⟩
        rw [h2 q hq, List.range_succ, List.filter_append]
        simp [e]
      | some q0 =>
        have hq0 := hsrc k hk q0 e
        refine ⟨o.set q0 (o[q0] + g k), ?_, by simpa using h1, fun q hq => ?_⟩
        · show addAt o q0 (g k) = _
          unfold addAt
          rw [rd_ok (List.getElem?_eq_getElem (by omega)), bind_ok, wr_ok (by omega)]
        · rw [List.range_succ, List.filter_append]
          by_cases hqq : q = q0
          · subst hqq
            have h3 := h2 q hq
            rw [List.getElem?_eq_getElem (by omega)] at h3
            injection h3 with h3
            rw [List.getElem?_set_self (by omega), h3]
            simp [e]
          · rw [List.getElem?_set_ne (by omega), h2 q hq]
            simp [e, Ne.symm hqq])
  obtain ⟨o', h1, h2, h3⟩ := h
  exact ⟨o', h1, h2, h3⟩

/-- The places of the matrix that hold a pixel. -/
def placesOf (g : Geo) (BS R C CH q : Nat) : List Nat := (List.range (g.kr * g.kc * CH * colsOf g BS R C)).filter (fun p => srcAt g BS R C CH p = some q)

theorem filter_sum {α : Type} [AddCommMonoid α] (N : Nat) (P : Nat → Prop) [DecidablePred P] (f : Nat → α) :
    (((List.range N).filter (fun p => P p)).map f).sum = ∑ p ∈ range N, if P p then f p else 0 := by
  induction N with
  | zero => simp
  | succ N ih =>
    rw [List.range_succ, List.filter_append, List.map_append, List.sum_append, ih, sum_range_succ]
    by_cases h : P N <;> simp [h]

theorem srcOf_eq {g : Geo} {R C CH b ch tr tc i j b' y x ch' : Nat} (hch : ch < CH) (hch' : ch' < CH) (hy : y < R) (hx : x < C) :
    srcOf g R C CH b ch tr tc i j = some (((b' * R + y) * C + x) * CH + ch') ↔ ch = ch' ∧ b = b' ∧ tapRow g i tr = y ∧ tapCol g j tc = x := by
  unfold srcOf
  constructor
  · intro h
    split at h
    · rename_i hin
      injection h with h
      have h1 := congrArg (· % CH) h
      have h2 := congrArg (· / CH) h
      simp only [(div_mod_eq hch).1, (div_mod_eq hch).2, (div_mod_eq hch').1, (div_mod_eq hch').2] at h1 h2
      have c1 : (tapCol g j tc).toNat < C := by omega
      have c2 : (tapRow g i tr).toNat < R := by omega
      have h3 := congrArg (· % C) h2
      have h4 := congrArg (· / C) h2
      simp only [(div_mod_eq c1).1, (div_mod_eq c1).2, (div_mod_eq hx).1, (div_mod_eq hx).2] at h3 h4
      have h5 := congrArg (· % R) h4
      have h6 := congrArg (· / R) h4
      simp only [(div_mod_eq c2).1, (div_mod_eq c2).2, (div_mod_eq hy).1, (div_mod_eq hy).2] at h5 h6
      exact ⟨h1, h6, by omega, by omega⟩
    · exact absurd h (by simp)
  · rintro ⟨rfl, rfl, h1, h2⟩
    rw [h1, h2, if_pos (by omega)]
    simp

/-- What is sent to a pixel, added up. -/
theorem places_sum {α : Type} [AddCommMonoid α] {g : Geo} {BS R C CH b y x ch : Nat} (hb : b < BS) (hy : y < R) (hx : x < C) (hch : ch < CH) (f : Nat → α) :
    ((placesOf g BS R C CH (((b * R + y) * C + x) * CH + ch)).map f).sum =
      tapSum g R C y x (fun tr tc i j => f (((ch * g.kr + tr) * g.kc + tc) * colsOf g BS R C +
        ((b * outDim R g.kr g.pr g.sr g.dr + i) * outDim C g.kc g.pc g.sc g.dc + j))) := by
  unfold placesOf tapSum
  rw [filter_sum, Conv.sum_range_mul, sum_taps, sum_eq_single ch]
  · refine sum_congr rfl (fun tr htr => sum_congr rfl (fun tc htc => ?_))
    rw [mem_range] at htr htc
    conv_lhs => rw [colsOf]
    rw [Conv.sum_range_mul, Conv.sum_range_mul, sum_eq_single b]
    · refine sum_congr rfl (fun i hi => sum_congr rfl (fun j hj => ?_))
      rw [mem_range] at hi hj
      have h := srcOf_eq (g := g) (b := b) (tr := tr) (tc := tc) (i := i) (j := j) (b' := b) hch hch hy hx
      rw [← srcAt_enc hb htr htc hi hj] at h
      simp only [true_and, colsOf] at h
      simp only [h, colsOf]
    · intro b' hb' hne
      refine sum_eq_zero (fun i hi => sum_eq_zero (fun j hj => ?_))
      rw [mem_range] at hi hj hb'
      have h := srcOf_eq (g := g) (b := b') (tr := tr) (tc := tc) (i := i) (j := j) (b' := b) hch hch hy hx
      rw [← srcAt_enc hb' htr htc hi hj] at h
      rw [if_neg]
      intro hc
      exact hne (h.mp hc).2.1
    · intro hn
      exact absurd (mem_range.mpr hb) hn
  · intro ch' hch' hne
    rw [mem_range] at hch'
    refine sum_eq_zero (fun tr htr => sum_eq_zero (fun tc htc => ?_))
    rw [mem_range] at htr htc
    refine sum_eq_zero (fun c hc => ?_)
    rw [mem_range] at hc
    obtain ⟨b', i, j, h1, h2, h3, rfl⟩ := exists_dec3 (p := c) hc
    have h := srcOf_eq (g := g) (b := b') (tr := tr) (tc := tc) (i := i) (j := j) (b' := b) hch' hch hy hx
    rw [← srcAt_enc h1 htr htc h2 h3] at h
    rw [if_neg]
    intro hc'
    exact hne (h.mp hc').1
  · intro hn
    exact absurd (mem_range.mpr hch) hn

/-- A tap lies over a row for at most one row of the output. -/
theorem one_place {g : Geo} {R C y x : Nat} (hsr : 1 ≤ g.sr) (hsc : 1 ≤ g.sc) : tapSum g R C y x (fun _ _ _ _ => 1) ≤ g.kr * g.kc := by
  unfold tapSum
  have : ∀ tr tc, (∑ i ∈ range (outDim R g.kr g.pr g.sr g.dr), ∑ j ∈ range (outDim C g.kc g.pc g.sc g.dc),
      if tapRow g i tr = y ∧ tapCol g j tc = x then 1 else 0) ≤ 1 := by
    intro tr tc
    rw [← sum_product', ← card_filter, card_le_one]
    rintro ⟨i, j⟩ h1 ⟨i', j'⟩ h2
    simp only [mem_filter, mem_product, mem_range] at h1 h2
    obtain ⟨_, a1, a2⟩ := h1
    obtain ⟨_, b1, b2⟩ := h2
    have e1 : (i : ℤ) * g.sr = i' * g.sr := by unfold tapRow at a1 b1; linarith
    have e2 : (j : ℤ) * g.sc = j' * g.sc := by unfold tapCol at a2 b2; linarith
    have f1 := mul_right_cancel₀ (by omega : (g.sr : ℤ) ≠ 0) e1
    have f2 := mul_right_cancel₀ (by omega : (g.sc : ℤ) ≠ 0) e2
    simp only [Prod.mk.injEq]
    omega
  calc _ ≤ ∑ tr ∈ range g.kr, ∑ tc ∈ range g.kc, 1 := sum_le_sum (fun tr _ => sum_le_sum (fun tc _ => this tr tc))
    _ = _ := by simp

theorem places_length {g : Geo} {BS R C CH b y x ch : Nat} (hb : b < BS) (hy : y < R) (hx : x < C) (hch : ch < CH) (hsr : 1 ≤ g.sr) (hsc : 1 ≤ g.sc) :
    (placesOf g BS R C CH (((b * R + y) * C + x) * CH + ch)).length ≤ g.kr * g.kc := by
  have h := places_sum (g := g) hb hy hx hch (fun _ => 1)
  have e : ∀ l : List Nat, (l.map (fun _ => 1)).sum = l.length := by
    intro l
    induction l with
    | nil => rfl
    | cons a l ih => rw [List.map_cons, List.sum_cons, ih, List.length_cons]; omega
  rw [e] at h
  rw [h]
  exact one_place hsr hsc

theorem mem_places {g : Geo} {BS R C CH b y x ch p : Nat} (hy : y < R) (hx : x < C) (hch : ch < CH) (hp : p ∈ placesOf g BS R C CH (((b * R + y) * C + x) * CH + ch)) :
    ∃ tr tc i j, tr < g.kr ∧ tc < g.kc ∧ i < outDim R g.kr g.pr g.sr g.dr ∧ j < outDim C g.kc g.pc g.sc g.dc ∧ tapRow g i tr = y ∧ tapCol g j tc = x ∧
      p = ((ch * g.kr + tr) * g.kc + tc) * colsOf g BS R C + ((b * outDim R g.kr g.pr g.sr g.dr + i) * outDim C g.kc g.pc g.sc g.dc + j) := by
  obtain ⟨h1, h2⟩ := List.mem_filter.mp hp
  obtain ⟨ch', tr, tc, b', i, j, q1, q2, q3, q4, q5, q6, rfl⟩ := exists_matpos (List.mem_range.mp h1)
  rw [srcAt_enc q4 q2 q3 q5 q6] at h2
  obtain ⟨rfl, rfl, e1, e2⟩ := (srcOf_eq q1 hch hy hx).mp (of_decide_eq_true h2)
  exact ⟨tr, tc, i, j, q2, q3, q5, q6, e1, e2, rfl⟩

theorem places_mem {g : Geo} {BS R C CH b y x ch tr tc i j : Nat} (hb : b < BS) (hy : y < R) (hx : x < C) (hch : ch < CH) (htr : tr < g.kr) (htc : tc < g.kc)
    (hi : i < outDim R g.kr g.pr g.sr g.dr) (hj : j < outDim C g.kc g.pc g.sc g.dc) (h1 : tapRow g i tr = y) (h2 : tapCol g j tc = x) :
    ((ch * g.kr + tr) * g.kc + tc) * colsOf g BS R C + ((b * outDim R g.kr g.pr g.sr g.dr + i) * outDim C g.kc g.pc g.sc g.dc + j) ∈
      placesOf g BS R C CH (((b * R + y) * C + x) * CH + ch) := by
  refine List.mem_filter.mpr ⟨List.mem_range.mpr (lt_mul_of_lt ?_ (idx3_lt hb hi hj)), ?_⟩
  · rw [show g.kr * g.kc * CH = CH * g.kr * g.kc by ring]; exact idx3_lt hch htr htc
  · rw [srcAt_enc hb htr htc hi hj]
    exact decide_eq_true ((srcOf_eq hch hch hy hx).mpr ⟨rfl, rfl, h1, h2⟩)

/-- The gradient `img2col` sends back: at every pixel a computed sum of what the matrix's gradient holds in the places of the pixel. -/
theorem img2colBack_any {α : Type} [Zero α] [Add α] (g : Geo) (t grad cacheB : Ten α) (rec : List Nat) (BS R C CH : Nat) (hs : t.shape = [BS, R, C, CH])
    (hsz : BS * R * C * CH < 2 ^ 32) (hrec : RecFor g BS R C CH rec) (δ : Nat → α) (hg1 : grad.data.length = g.kr * g.kc * CH * colsOf g BS R C)
    (hg : ∀ p, p < g.kr * g.kc * CH * colsOf g BS R C → grad.data[p]? = some (δ p)) :
    ∃ v, img2colBack t grad cacheB rec = ok v ∧
      v.Has [BS, R, C, CH] (fun is => ((placesOf g BS R C CH (flat [BS, R, C, CH] is)).map δ).foldl (· + ·) 0) := by
  have hsz' : BS * R * C * CH ≤ mark := by unfold mark; omega
  have hM : size [BS, R, C, CH] = BS * R * C * CH := by simp [Nat.mul_assoc]
  obtain ⟨o', q1, q2, q3⟩ := scatter_any (N := g.kr * g.kc * CH * colsOf g BS R C) (M := BS * R * C * CH)
    (src := fun p => srcAt g BS R C CH p) (g := δ)
    (fun p hp q hq => ((hrec.at hsz' hp).2 q hq).1)
    (body := fun i o => do
      let q ← rd rec i
      if q ≠ mark then do
        let x ← rd grad.data i
        addAt o q x
      else ok o) (fun p o hp ho => by
      obtain ⟨w1, w2⟩ := hrec.at hsz' hp
      rw [rd_ok w1, bind_ok]
      cases e : srcAt g BS R C CH p with
      | none => simp
      | some q =>
        have := (w2 q e).2
        simp only [Option.getD_some]
        rw [if_pos this, rd_ok (hg p hp), bind_ok])
  refine ⟨⟨t.shape, o'⟩, ?_, hs, by rw [q2, hM], fun is hv => ?_⟩
  · unfold img2colBack
    dsimp only
    rw [Gemm.fillN_ok rfl, bind_ok, resizeV_length, hs, hM, hg1, q1]; rfl
  · have := flat_lt hv
    exact q3 _ (by rw [← hM]; exact this)

end Verif.Fp
