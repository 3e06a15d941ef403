import Verif.Ops.Model
import Verif.Ops.Sum
import Verif.Data.Reduce
import Verif.Tensor.Broadcast
import Verif.Tensor.Spec
import Mathlib.Tactic.IntervalCases
/-!
# Backward of `plus` (proofs, C49)
-/
namespace Verif.Ops
open Verif Res View Data
open Verif.Tensor (BroadcastsTo dimR bcIdx)

variable {α : Type}

/-- `δ` over the indices of `l` is what the gradient `γ` over the indices of `s` becomes under the adjoint of the re-indexing
`f` from `s` to `l`: pairing `δ` with any perturbation of the operand is pairing `γ` with the perturbation it causes. -/
def AdjointOf [CommSemiring α] (l s : List Nat) (f : List Nat → List Nat) (γ δ : List Nat → α) : Prop :=
  ∀ x : List Nat → α, sumIdx l (fun is => δ is * x is) = sumIdx s (fun is => γ is * x (f is))

theorem AdjointOf.comp [CommSemiring α] {l m s : List Nat} {f g : List Nat → List Nat} {a b c : List Nat → α}
    (h1 : AdjointOf m s f a b) (h2 : AdjointOf l m g b c) : AdjointOf l s (fun is => g (f is)) a c :=
  fun x => (h2 x).trans (h1 (fun is => x (g is)))

theorem AdjointOf.congr [CommSemiring α] {l s : List Nat} {f g : List Nat → List Nat} {a b : List Nat → α}
    (h : AdjointOf l s f a b) (e : ∀ is, ValidIdx s is → f is = g is) : AdjointOf l s g a b :=
  fun x => (h x).trans (sumIdx_congr (fun is hv => by rw [e is hv]))

theorem data_ne_nil {t : Ten α} {s : List Nat} {a : List Nat → α} (h : t.Has s a) : t.data ≠ [] ↔ size s ≠ 0 := by
  rw [← h.2.1]; simp

/-- Dropping the leading dimensions by summing. -/
theorem dropLead_ok [CommSemiring α] {red : List α → α} (hred : Reduces (· + ·) red) (l : List Nat) (hl : l ≠ []) :
    ∀ (pre : List Nat) (fuel : Nat) (t : Ten α) (γ : List Nat → α), t.Has (pre ++ l) γ → size (pre ++ l) ≠ 0 → pre.length ≤ fuel →
      (∀ d ∈ l, d ≠ minusOne) →
      ∃ u, dropLead red l.length fuel t = ok u ∧ ∃ δ, u.Has l δ ∧ AdjointOf l (pre ++ l) (fun is => is.drop pre.length) γ δ := by
  intro pre
  induction pre with
  | nil =>
    intro fuel t γ ht hs hf hm
    refine ⟨t, ?_, γ, ht, fun x => rfl⟩
    have : ¬ l.length < t.shape.length := by rw [ht.1]; simp
    cases fuel <;> simp only [dropLead, if_neg this]
  | cons n pre ih =>
    intro fuel t γ ht hs hf hm
    obtain ⟨fuel, rfl⟩ : ∃ k, fuel = k + 1 := ⟨fuel - 1, by simp at hf; omega⟩
    have hlast : (([] : List Nat) ++ (pre ++ l)).getLast? ≠ some minusOne := by
      rw [List.nil_append, List.getLast?_append_of_ne_nil _ hl]
      intro h
      exact hm _ (List.mem_of_getLast? h) rfl
    obtain ⟨u, h1, h2, _⟩ := sum_axis_partial red hred t [] (pre ++ l) n 0 γ ht ((data_ne_nil ht).mpr hs)
      (Or.inl ⟨rfl, by decide⟩) (by simp [hl]) hlast
    have hs' : size (pre ++ l) ≠ 0 := by
      rw [List.cons_append, size_cons] at hs
      exact fun h => hs (by rw [h, Nat.mul_zero])
    obtain ⟨w, h3, δ, h4, h5⟩ := ih fuel u _ h2 hs' (by simp at hf; omega) hm
    refine ⟨w, ?_, δ, h4, ?_⟩
    · have hlt : l.length < t.shape.length := by rw [ht.1]; simp
      simp only [dropLead, if_pos hlt, h1, bind_ok, h3]
    · intro x
      rw [h5 x]
      simp only [List.nil_append, List.length_nil, List.take_zero, List.drop_zero, List.cons_append, sumIdx, List.length_cons,
        List.drop_succ_cons]
      rw [← sumIdx_sum]
      exact sumIdx_congr (fun is _ => Finset.sum_mul _ _ _)

/-- The index map of `sumOnes` after `k` axes: zero in the dimensions of extent one. -/
def zeroOnes (l : List Nat) (is : List Nat) : List Nat := List.zipWith (fun d i => if d = 1 then 0 else i) l is

/-- Shape reached after treating the first `k` axes. -/
def mixShape (l s : List Nat) (k : Nat) : List Nat := l.take k ++ s.drop k

theorem mixShape_axis {l s : List Nat} (hls : l.length = s.length) {k : Nat} (hk : k < l.length) :
    mixShape l s k = l.take k ++ s[k]'(hls ▸ hk) :: s.drop (k + 1) ∧ mixShape l s (k + 1) = l.take k ++ l[k] :: s.drop (k + 1) := by
  unfold mixShape
  constructor
  · rw [← List.drop_eq_getElem_cons]
  · rw [List.take_succ_eq_append_getElem hk, List.append_assoc, List.singleton_append]

/-- `sumOnes` on a tensor whose shape broadcasts from `l` dimension by dimension. -/
theorem sumOnes_ok [CommSemiring α] {red : List α → α} (hred : Reduces (· + ·) red) {l s : List Nat} (hls : l.length = s.length)
    (hb : ∀ k (h : k < l.length), l[k] = s[k]'(hls ▸ h) ∨ l[k] = 1) (hm : l.length < minusOne) {t : Ten α} {γ : List Nat → α} (ht : t.Has s γ)
    (hs : size s ≠ 0) :
    ∃ u, sumOnes red l t = ok u ∧ ∃ δ, u.Has l δ ∧ AdjointOf l s (zeroOnes l) γ δ := by
  unfold sumOnes
  have key : ∀ n, n ≤ l.length → ∃ u, loop n (fun axis u => do
      let d ← rd l axis
      if d = 1 then reduce red u axis 0 true else ok u) t = ok u ∧
      ∃ δ, u.Has (mixShape l s n) δ ∧ size (mixShape l s n) ≠ 0 ∧
        AdjointOf (mixShape l s n) s (fun is => zeroOnes (l.take n) (is.take n) ++ is.drop n) γ δ := by
    intro n
    induction n with
    | zero =>
      intro _
      refine ⟨t, rfl, γ, by simpa [mixShape] using ht, by simpa [mixShape] using hs, ?_⟩
      intro x; simp [mixShape, zeroOnes]
    | succ n ih =>
      intro hn
      have hn' : n < l.length := by omega
      obtain ⟨u, h1, δ, h2, h3, h4⟩ := ih (by omega)
      obtain ⟨e1, e2⟩ := mixShape_axis hls hn'
      have htl : (l.take n).length = n := by simp; omega
      rw [loop_succ, h1, bind_ok]
      have hrd : rd l n = ok l[n] := rd_ok (List.getElem?_eq_getElem hn')
      simp only [hrd, bind_ok]
      by_cases hone : l[n] = 1
      · rw [if_pos hone]
        rw [e1] at h2 h3 h4
        obtain ⟨w, h5, h6, _⟩ := sum_axis_keepdims red hred u (l.take n) (s.drop (n + 1)) _ n δ h2 ((data_ne_nil h2).mpr h3)
          (Or.inl ⟨htl.symm, by omega⟩)
        rw [e2, hone]
        refine ⟨w, h5, _, h6, ?_, ?_⟩
        · rw [size_append, size_cons] at h3 ⊢
          intro h0
          apply h3
          rcases Nat.mul_eq_zero.mp h0 with h | h
          · rw [h, Nat.zero_mul]
          · rw [Nat.one_mul] at h; rw [h, Nat.mul_zero, Nat.mul_zero]
        · have hstep : AdjointOf (l.take n ++ 1 :: s.drop (n + 1)) (l.take n ++ s[n]'(hls ▸ hn') :: s.drop (n + 1)) (fun is => is.set n 0)
              δ (fun is => ∑ i ∈ Finset.range (s[n]'(hls ▸ hn')), δ (is.set (l.take n).length i)) := by
            intro x
            rw [sumIdx_axis (l.take n) (s.drop (n + 1)) (s[n]'(hls ▸ hn'))]
            refine sumIdx_congr (fun is hv => ?_)
            rw [Finset.sum_mul]
            refine Finset.sum_congr rfl (fun i _ => ?_)
            obtain ⟨ip, i0, iq, rfl, v1, hi0, v2⟩ := validIdx_split hv
            obtain rfl : i0 = 0 := by omega
            have hipl : ip.length = n := by rw [v1.length_eq, htl]
            dsimp only; rw [htl, List.set_set]
            congr 2
            rw [← hipl]; simp
          refine (h4.comp hstep).congr (fun is hv => ?_)
          have hil := hv.length_eq
          have hnl : n < is.length := by omega
          have ztl : (zeroOnes (l.take n) (is.take n)).length = n := by simp [zeroOnes]; omega
          rw [List.drop_eq_getElem_cons hnl, List.take_succ_eq_append_getElem hnl, List.take_succ_eq_append_getElem hn']
          unfold zeroOnes at ztl ⊢
          rw [List.zipWith_append (by simp; omega), List.set_append_right _ _ (by omega), ztl, Nat.sub_self, List.set_cons_zero,
            List.append_assoc, List.zipWith_cons_cons, List.zipWith_nil_left, List.singleton_append, if_pos hone]
      · rw [if_neg hone]
        refine ⟨u, rfl, δ, ?_⟩
        have hsn : l[n] = s[n]'(hls ▸ hn') := (hb n hn').resolve_right hone
        have e3 : mixShape l s (n + 1) = mixShape l s n := by rw [e1, e2, hsn]
        rw [e3]
        refine ⟨h2, h3, h4.congr (fun is hv => ?_)⟩
        have hil := hv.length_eq
        have hnl : n < is.length := by omega
        rw [List.drop_eq_getElem_cons hnl, List.take_succ_eq_append_getElem hnl, List.take_succ_eq_append_getElem hn']
        unfold zeroOnes
        rw [List.zipWith_append (by simp; omega), List.append_assoc, List.zipWith_cons_cons, List.zipWith_nil_left, List.singleton_append,
          if_neg hone]
  obtain ⟨u, h1, δ, h2, _, h4⟩ := key l.length le_rfl
  have e : mixShape l s l.length = l := by
    unfold mixShape
    rw [List.take_length, List.drop_eq_nil_of_le (by omega), List.append_nil]
  rw [e] at h2 h4
  refine ⟨u, h1, δ, h2, ?_⟩
  · refine h4.congr (fun is hv => ?_)
    have hil := hv.length_eq
    rw [List.take_length, List.take_of_length_le (by omega), List.drop_eq_nil_of_le (by omega), List.append_nil]

theorem broadcastsTo_split {l s : List Nat} (h : BroadcastsTo l s) :
    ∃ pre s', s = pre ++ s' ∧ ∃ e : l.length = s'.length, ∀ k (hk : k < l.length), l[k] = s'[k]'(e ▸ hk) ∨ l[k] = 1 := by
  obtain ⟨h1, h2⟩ := h
  refine ⟨s.take (s.length - l.length), s.drop (s.length - l.length), (List.take_append_drop _ _).symm, by simp; omega, fun k hk => ?_⟩
  have := h2 (l.length - 1 - k) (by omega)
  unfold dimR at this
  rw [dif_pos (by omega), dif_pos (by omega)] at this
  simp only [show l.length - 1 - (l.length - 1 - k) = k by omega] at this
  rw [List.getElem_drop]
  simp only [show s.length - 1 - (l.length - 1 - k) = s.length - l.length + k by omega] at this
  exact this

/-- The gradient of one operand: the adjoint of broadcasting. -/
theorem plusGrad_ok [CommSemiring α] {red : List α → α} (hred : Reduces (· + ·) red) {l s : List Nat} (hb : BroadcastsTo l s) (hl : l ≠ [] ∨ s = [])
    (hm : ∀ d ∈ s, d ≠ minusOne) (hrank : s.length < minusOne) {g : Ten α} {γ : List Nat → α} (hg : g.Has s γ) (hs : size s ≠ 0) (fuel : Nat)
    (hf : s.length ≤ fuel) :
    ∃ u, plusGrad red fuel l g = ok u ∧ ∃ δ, u.Has l δ ∧ AdjointOf l s (bcIdx l) γ δ := by
  obtain ⟨pre, s', rfl, e, hk⟩ := broadcastsTo_split hb
  unfold plusGrad
  rcases eq_or_ne s' [] with rfl | hs'
  · obtain rfl : l = [] := List.eq_nil_of_length_eq_zero (by simpa using e)
    rcases hl with hl | hl
    · exact absurd rfl hl
    · obtain rfl : pre = [] := by simpa using hl
      refine ⟨g, ?_, γ, hg, fun x => by simp [sumIdx, bcIdx]⟩
      have : ¬ 0 < g.shape.length := by rw [hg.1]; simp
      cases fuel <;> simp [dropLead, this, sumOnes]
  · obtain ⟨t, h1, δ, h2, h3⟩ := dropLead_ok hred s' hs' pre fuel g γ hg hs (by simp at hf; omega)
      (fun d hd => hm d (by simp [hd]))
    have hs2 : size s' ≠ 0 := by
      rw [size_append] at hs
      exact fun h => hs (by rw [h, Nat.mul_zero])
    obtain ⟨u, h4, ε, h5, h6⟩ := sumOnes_ok hred e hk (by simp at hrank; omega) h2 hs2
    refine ⟨u, ?_, ε, h5, (h3.comp h6).congr (fun is hv => ?_)⟩
    · rw [e, h1, bind_ok, h4]
    · have hil := hv.length_eq
      unfold zeroOnes bcIdx
      congr 2
      rw [hil]; simp; omega

/-! ### C49 -/

/-- C49, for operands of rank at least one and non-empty gradients: both gradients have the operands' shapes, and pairing them with
any perturbations `x`, `y` of the operands gives what the output gradient gives on the perturbation of the broadcast sum.
Missing: rank-0 operands (see `plus_backward_rank0_violated`) and empty gradients (`plus_backward_empty_violated`). -/
theorem plus_backward_partial [CommSemiring α] (red : List α → α) (hred : Reduces (· + ·) red) (l r s : List Nat) (hl : BroadcastsTo l s)
    (hr : BroadcastsTo r s) (hl0 : l ≠ []) (hr0 : r ≠ []) (hm : ∀ d ∈ s, d ≠ minusOne) (hrank : s.length < minusOne)
    (g : Ten α) (γ : List Nat → α) (hg : g.Has s γ) (hs : size s ≠ 0) (fuel : Nat) (hf : s.length ≤ fuel) :
    ∃ dl dr δl δr, plusBack red fuel l r g = ok (dl, dr) ∧ dl.Has l δl ∧ dr.Has r δr ∧
      ∀ x y : List Nat → α, sumIdx l (fun is => δl is * x is) + sumIdx r (fun is => δr is * y is) =
        sumIdx s (fun is => γ is * (x (bcIdx l is) + y (bcIdx r is))) := by
  obtain ⟨u, h1, δ, h2, h3⟩ := plusGrad_ok hred hl (Or.inl hl0) hm hrank hg hs fuel hf
  obtain ⟨v, k1, ε, k2, k3⟩ := plusGrad_ok hred hr (Or.inl hr0) hm hrank hg hs fuel hf
  refine ⟨u, v, δ, ε, ?_, h2, k2, fun x y => ?_⟩
  · unfold plusBack; rw [h1, bind_ok, k1, bind_ok]; rfl
  · rw [h3 x, k3 y, ← sumIdx_add]
    exact sumIdx_congr (fun is _ => (mul_add _ _ _).symm)

/-- `[2,1] + [3]`: the first operand gets the row sums, the second the column sums. -/
example : plusBack List.sum 2 [2, 1] [3] ⟨[2, 3], [1, 2, 3, 4, 5, (6 : Int)]⟩ = ok (⟨[2, 1], [6, 15]⟩, ⟨[3], [5, 7, 9]⟩) ∧
    BroadcastsTo [2, 1] [2, 3] ∧ BroadcastsTo [3] [2, 3] := by
  refine ⟨by decide, ⟨by decide, fun k hk => ?_⟩, ⟨by decide, fun k hk => ?_⟩⟩
  · simp at hk; interval_cases k <;> decide
  · simp at hk; obtain rfl : k = 0 := by omega
    decide

/-- C49 is false of the code when one operand has rank 0 and the other does not: reducing the gradient from rank one to rank zero
reshapes to the empty shape, which is undefined. -/
theorem plus_backward_rank0_violated [CommSemiring α] (red : List α → α) (hred : Reduces (· + ·) red) (s : List Nat) (hs0 : s ≠ [])
    (hm : ∀ d ∈ s, d ≠ minusOne) (g : Ten α) (γ : List Nat → α) (hg : g.Has s γ) (hs : size s ≠ 0) (fuel : Nat) (hf : s.length ≤ fuel) :
    plusGrad red fuel [] g = ub := by
  obtain ⟨pre, n, rfl⟩ := List.eq_nil_or_concat s |>.resolve_left hs0
  rw [List.concat_eq_append] at *
  unfold plusGrad
  have key : ∀ (pre : List Nat) (fuel : Nat) (t : Ten α) (γ : List Nat → α), t.Has (pre ++ [n]) γ → size (pre ++ [n]) ≠ 0 →
      (pre ++ [n]).length ≤ fuel → n ≠ minusOne → dropLead red 0 fuel t = ub := by
    intro pre
    induction pre with
    | nil =>
      intro fuel t γ ht hs hf _
      obtain ⟨fuel, rfl⟩ : ∃ k, fuel = k + 1 := ⟨fuel - 1, by simp at hf; omega⟩
      have hlt : 0 < t.shape.length := by rw [ht.1]; simp
      rw [dropLead, if_pos hlt, sum_axis_violated red 0 t n γ ht ((data_ne_nil ht).mpr hs)]
      rfl
    | cons m pre ih =>
      intro fuel t γ ht hs hf hn
      obtain ⟨fuel, rfl⟩ : ∃ k, fuel = k + 1 := ⟨fuel - 1, by simp at hf; omega⟩
      have hlt : 0 < t.shape.length := by rw [ht.1]; simp
      obtain ⟨u, h1, h2, _⟩ := sum_axis_partial red hred t [] (pre ++ [n]) m 0 γ ht ((data_ne_nil ht).mpr hs)
        (Or.inl ⟨rfl, by decide⟩) (by simp) (by simpa using hn)
      rw [dropLead, if_pos hlt, h1, bind_ok]
      refine ih fuel u _ h2 ?_ (by simp at hf ⊢; omega) hn
      rw [List.cons_append, size_cons] at hs
      exact fun h => hs (by rw [h, Nat.mul_zero])
  rw [List.length_nil, key pre fuel g γ hg hs hf (hm n (by simp))]
  rfl

/-- C49 is false of the code for empty gradients of higher rank than the operand: `sum` returns an empty tensor unchanged, so the loop
over the ranks never ends (no number of rounds is enough). -/
theorem plus_backward_empty_violated [CommSemiring α] (red : List α → α) (l : List Nat) (g : Ten α) (hg : g.data = [])
    (hlt : l.length < g.shape.length) (fuel : Nat) : plusGrad red fuel l g = ub := by
  have : dropLead red l.length fuel g = ub := by
    induction fuel with
    | zero => rw [dropLead, if_pos hlt]
    | succ n ih => rw [dropLead, if_pos hlt, reduce_empty _ _ _ _ _ hg, bind_ok, ih]
  unfold plusGrad
  rw [this]; rfl

example : plusGrad List.sum 9 [] ⟨[2], [1, (2 : Int)]⟩ = ub ∧ plusGrad List.sum 9 [3] ⟨[0, 3], ([] : List Int)⟩ = ub := by decide

end Verif.Ops
