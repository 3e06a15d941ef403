import Verif.Conv.Spec
import Mathlib.Algebra.BigOperators.Ring.Finset
import Mathlib.Tactic.Ring
/-!
# The gradients of a convolution (specification)

Independent of the code: what a convolution sends back to its image and to its filter, and that these are the coefficients of the output, which is linear in
the image and in the filter.
-/
namespace Verif.Fp
open Verif Conv Finset

/-- The sum over the taps of the kernel, at the places of the output at which the tap lies over row `y` and column `x` of the image. -/
def tapSum {α : Type} [AddCommMonoid α] (g : Geo) (R C : Nat) (y x : Nat) (f : Nat → Nat → Nat → Nat → α) : α :=
  ∑ tr ∈ range g.kr, ∑ tc ∈ range g.kc, ∑ i ∈ range (outDim R g.kr g.pr g.sr g.dr), ∑ j ∈ range (outDim C g.kc g.pc g.sc g.dc),
    if tapRow g i tr = y ∧ tapCol g j tc = x then f tr tc i j else 0

/-- The gradient of the image at `(b, y, x, ch)`, `γ` being that of the output. -/
def imageGrad {α : Type} [CommSemiring α] (g : Geo) (R C NC : Nat) (γ : List Nat → α) (w : Nat → Nat → Nat → Nat → α) (b y x ch : Nat) : α :=
  tapSum g R C y x (fun tr tc i j => ∑ n ∈ range NC, w n tr tc ch * γ [b, i, j, n])

/-- The gradient of the filter at filter `n`, tap `(tr, tc)`, channel `ch`. -/
def filterGrad {α : Type} [CommSemiring α] (g : Geo) (BS R C : Nat) (γ a : List Nat → α) (n tr tc ch : Nat) : α :=
  ∑ b ∈ range BS, ∑ i ∈ range (outDim R g.kr g.pr g.sr g.dr), ∑ j ∈ range (outDim C g.kc g.pc g.sc g.dc),
    γ [b, i, j, n] * pixel a R C b (tapRow g i tr) (tapCol g j tc) ch

/-- The output weighted with `γ`, all added up: what `imageGrad` and `filterGrad` are the derivatives of. -/
def weighted {α : Type} [CommSemiring α] (g : Geo) (BS R C CH NC : Nat) (γ a : List Nat → α) (w : Nat → Nat → Nat → Nat → α) : α :=
  ∑ b ∈ range BS, ∑ i ∈ range (outDim R g.kr g.pr g.sr g.dr), ∑ j ∈ range (outDim C g.kc g.pc g.sc g.dc), ∑ n ∈ range NC,
    γ [b, i, j, n] * direct g R C CH a w b i j n

theorem inward2 {α : Type} [AddCommMonoid α] (M A B : Nat) (f : Nat → Nat → Nat → α) :
    (∑ m ∈ range M, ∑ a ∈ range A, ∑ b ∈ range B, f m a b) = ∑ a ∈ range A, ∑ b ∈ range B, ∑ m ∈ range M, f m a b := by
  rw [sum_comm]
  exact sum_congr rfl (fun a _ => sum_comm)

theorem inward4 {α : Type} [AddCommMonoid α] (M A B C D : Nat) (f : Nat → Nat → Nat → Nat → Nat → α) :
    (∑ m ∈ range M, ∑ a ∈ range A, ∑ b ∈ range B, ∑ c ∈ range C, ∑ d ∈ range D, f m a b c d) =
      ∑ a ∈ range A, ∑ b ∈ range B, ∑ c ∈ range C, ∑ d ∈ range D, ∑ m ∈ range M, f m a b c d := by
  rw [inward2]
  exact sum_congr rfl (fun a _ => sum_congr rfl (fun b _ => inward2 _ _ _ _))

theorem inward5 {α : Type} [AddCommMonoid α] (M A B C D E : Nat) (f : Nat → Nat → Nat → Nat → Nat → Nat → α) :
    (∑ m ∈ range M, ∑ a ∈ range A, ∑ b ∈ range B, ∑ c ∈ range C, ∑ d ∈ range D, ∑ e ∈ range E, f m a b c d e) =
      ∑ a ∈ range A, ∑ b ∈ range B, ∑ c ∈ range C, ∑ d ∈ range D, ∑ e ∈ range E, ∑ m ∈ range M, f m a b c d e := by
  rw [sum_comm]
  exact sum_congr rfl (fun a _ => inward4 _ _ _ _ _ _)

/-- The weighted output is linear in the filter with coefficients `filterGrad`. -/
theorem weighted_filter {α : Type} [CommSemiring α] (g : Geo) (BS R C CH NC : Nat) (γ a : List Nat → α) (w : Nat → Nat → Nat → Nat → α) :
    weighted g BS R C CH NC γ a w = ∑ n ∈ range NC, ∑ ch ∈ range CH, ∑ tr ∈ range g.kr, ∑ tc ∈ range g.kc, w n tr tc ch * filterGrad g BS R C γ a n tr tc ch := by
  unfold weighted direct filterGrad
  simp only [mul_sum]
  -- the sums over the output inwards, one after the other
  have e : ∀ b i j, (∑ n ∈ range NC, ∑ ch ∈ range CH, ∑ tr ∈ range g.kr, ∑ tc ∈ range g.kc,
      γ [b, i, j, n] * (w n tr tc ch * pixel a R C b (tapRow g i tr) (tapCol g j tc) ch)) =
      ∑ n ∈ range NC, ∑ ch ∈ range CH, ∑ tr ∈ range g.kr, ∑ tc ∈ range g.kc,
      w n tr tc ch * (γ [b, i, j, n] * pixel a R C b (tapRow g i tr) (tapCol g j tc) ch) := fun b i j =>
    sum_congr rfl (fun n _ => sum_congr rfl (fun ch _ => sum_congr rfl (fun tr _ => sum_congr rfl (fun tc _ => by ring))))
  simp only [e]
  rw [sum_congr rfl (fun b _ => sum_congr rfl (fun i _ => inward4 _ _ _ _ _ _)), sum_congr rfl (fun b _ => inward4 _ _ _ _ _ _), inward4]

theorem pixel_sum {α : Type} [CommSemiring α] (a : List Nat → α) (R C b : Nat) (y x : Int) (ch : Nat) :
    pixel a R C b y x ch = ∑ p ∈ range R, ∑ q ∈ range C, if y = p ∧ x = q then a [b, p, q, ch] else 0 := by
  unfold pixel
  by_cases h : 0 ≤ y ∧ y < R ∧ 0 ≤ x ∧ x < C
  · rw [if_pos h, sum_eq_single y.toNat, sum_eq_single x.toNat, if_pos (by omega)]
    · intro q _ hq
      rw [if_neg (by omega)]
    · intro hn
      exact absurd (mem_range.mpr (by omega)) hn
    · intro p _ hp
      exact sum_eq_zero (fun q _ => by rw [if_neg (by omega)])
    · intro hn
      exact absurd (mem_range.mpr (by omega)) hn
  · rw [if_neg h]
    symm
    refine sum_eq_zero (fun p hp => sum_eq_zero (fun q hq => ?_))
    rw [mem_range] at hp hq
    rw [if_neg (by omega)]

/-- The weighted output is linear in the image with coefficients `imageGrad`. -/
theorem weighted_image {α : Type} [CommSemiring α] (g : Geo) (BS R C CH NC : Nat) (γ a : List Nat → α) (w : Nat → Nat → Nat → Nat → α) :
    weighted g BS R C CH NC γ a w = ∑ b ∈ range BS, ∑ y ∈ range R, ∑ x ∈ range C, ∑ ch ∈ range CH, a [b, y, x, ch] * imageGrad g R C NC γ w b y x ch := by
  unfold weighted
  refine sum_congr rfl (fun b _ => ?_)
  unfold imageGrad tapSum direct
  simp only [pixel_sum, mul_sum]
  set oR := outDim R g.kr g.pr g.sr g.dr
  set oC := outDim C g.kc g.pc g.sc g.dc
  have lhs : ∀ i j, (∑ n ∈ range NC, ∑ ch ∈ range CH, ∑ tr ∈ range g.kr, ∑ tc ∈ range g.kc, ∑ y ∈ range R, ∑ x ∈ range C,
      γ [b, i, j, n] * (w n tr tc ch * if tapRow g i tr = y ∧ tapCol g j tc = x then a [b, y, x, ch] else 0)) =
      ∑ y ∈ range R, ∑ x ∈ range C, ∑ ch ∈ range CH, ∑ tr ∈ range g.kr, ∑ tc ∈ range g.kc,
        a [b, y, x, ch] * (if tapRow g i tr = y ∧ tapCol g j tc = x then ∑ n ∈ range NC, w n tr tc ch * γ [b, i, j, n] else 0) := by
    intro i j
    rw [inward5]
    have step : ∀ (f : Nat → Nat → Nat → Nat → Nat → α), (∑ ch ∈ range CH, ∑ tr ∈ range g.kr, ∑ tc ∈ range g.kc, ∑ y ∈ range R, ∑ x ∈ range C, f ch tr tc y x) =
        ∑ y ∈ range R, ∑ x ∈ range C, ∑ ch ∈ range CH, ∑ tr ∈ range g.kr, ∑ tc ∈ range g.kc, f ch tr tc y x := by
      intro f
      rw [sum_congr rfl (fun ch _ => sum_congr rfl (fun tr _ => inward2 _ _ _ _)), sum_congr rfl (fun ch _ => inward2 _ _ _ _), inward2]
    rw [step]
    refine sum_congr rfl (fun y _ => sum_congr rfl (fun x _ => sum_congr rfl (fun ch _ => sum_congr rfl (fun tr _ => sum_congr rfl (fun tc _ => ?_)))))
    split
    · rw [mul_sum]
      exact sum_congr rfl (fun n _ => by ring)
    · simp
  simp only [lhs]
  rw [sum_congr rfl (fun i _ => inward5 _ _ _ _ _ _ _), inward5]

end Verif.Fp
