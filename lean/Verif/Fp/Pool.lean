import Verif.Fp.CrossLoss
import Verif.Pool.Max
import Verif.Pool.Sample
/-!
# Property C149: pooling and sampling computed with rounding

`average_pooling_2d` and `up_sampling_2d`, forward and backward, and `max_pooling_2d` over the rounded formats: how far the results are from the means, sums and
largest elements of the numbers that went in.
-/
namespace Verif.Fp
open Verif Res View Data Pool Finset Verif.Finite

/-! ### specification -/

/-- Element `k` of the window of side `s` whose first element is in row `r s` and column `c s`. -/
def inWin {α : Type} (a : List Nat → α) (s b r c ch k : Nat) : α := a [b, r * s + k / s, c * s + k % s, ch]

/-- The error of a mean of `n` numbers whose absolute values add up to `A`. -/
noncomputable def meanBound (u w : ℝ) (n : Nat) (A : ℝ) : ℝ := dotBound u w n (A * ((1 + u) / n + w)) + A * (u / n + w)

/-- The error of the `n`-th part of `g`. -/
noncomputable def partBound (u w : ℝ) (n : Nat) (g : ℝ) : ℝ := u * (g * ((1 + u) / n + w)) + w + g * (u / n + w)

/-! ### loops that add to one cell each -/

section
variable {F : Type}

theorem acts_pick {α : Type} {n N : Nat} {body : Nat → List α → Res (List α)} {sel : Nat → Nat} {Q : Nat → Prop} [DecidablePred Q] {ψ : Nat → α → α}
    (h : ∀ i, i < n → Acts (body i) N (fun p x => if sel p = i ∧ Q p then ψ p x else x)) :
    Acts (fun o => loop n body o) N (fun p x => if sel p < n ∧ Q p then ψ p x else x) := by
  refine (Acts.loop h).congr (fun p x _ => ?_)
  by_cases hq : Q p
  · simp only [hq, and_true]
    rw [rec_congr (g := fun c y => if c = sel p then ψ p y else y) x n (fun i y _ => by simp only [eq_comm]), rec_once]
  · simp only [hq, and_false, if_false]
    exact rec_id x n

/-- Every round of four loops works on its own cell. -/
theorem cells4 {α : Type} {k l m n : Nat} {body : Nat → Nat → Nat → Nat → List α → Res (List α)} {φ : Nat → Nat → Nat → Nat → α → α}
    (h : ∀ b r c ch, b < k → r < l → c < m → ch < n → Acts (body b r c ch) (k * l * m * n) (fun p x => if p = ((b * l + r) * m + c) * n + ch then φ b r c ch x else x))
    {z : α} :
    ∃ o, loop k (fun b o => loop l (fun r o => loop m (fun c o => loop n (fun ch o => body b r c ch o) o) o) o) (List.replicate (k * l * m * n) z) = ok o ∧
      Is4 o k l m n (fun b r c ch => φ b r c ch z) := by
  have key : ∀ b r c ch p, r < l → c < m → ch < n → (p = ((b * l + r) * m + c) * n + ch ↔ p / n / m / l = b ∧ p / n / m % l = r ∧ p / n % m = c ∧ p % n = ch) := by
    intro b r c ch p hr hc hch
    constructor
    · rintro rfl
      rw [(div_mod_eq hch).1, (div_mod_eq hch).2, (div_mod_eq hc).1, (div_mod_eq hc).2, (div_mod_eq hr).1, (div_mod_eq hr).2]
      exact ⟨rfl, rfl, rfl, rfl⟩
    · rintro ⟨rfl, rfl, rfl, rfl⟩
      rw [Nat.div_add_mod', Nat.div_add_mod', Nat.div_add_mod']
  have H : Acts (fun o => loop k (fun b o => loop l (fun r o => loop m (fun c o => loop n (fun ch o => body b r c ch o) o) o) o) o) (k * l * m * n)
      (fun p x => if p / n / m / l < k ∧ p / n / m % l < l ∧ p / n % m < m ∧ p % n < n then φ (p / n / m / l) (p / n / m % l) (p / n % m) (p % n) x else x) := by
    refine acts_pick (sel := fun p => p / n / m / l) (Q := fun p => p / n / m % l < l ∧ p / n % m < m ∧ p % n < n) (fun b hb => ?_)
    refine (acts_pick (sel := fun p => p / n / m % l) (Q := fun p => p / n / m / l = b ∧ p / n % m < m ∧ p % n < n)
      (ψ := fun p => φ (p / n / m / l) (p / n / m % l) (p / n % m) (p % n)) (fun r hr => ?_)).congr (fun p x _ => if_congr (by tauto) rfl rfl)
    refine (acts_pick (sel := fun p => p / n % m) (Q := fun p => p / n / m / l = b ∧ p / n / m % l = r ∧ p % n < n)
      (ψ := fun p => φ (p / n / m / l) (p / n / m % l) (p / n % m) (p % n)) (fun c hc => ?_)).congr (fun p x _ => if_congr (by tauto) rfl rfl)
    refine (acts_pick (sel := fun p => p % n) (Q := fun p => p / n / m / l = b ∧ p / n / m % l = r ∧ p / n % m = c)
      (ψ := fun p => φ (p / n / m / l) (p / n / m % l) (p / n % m) (p % n)) (fun ch hch => ?_)).congr (fun p x _ => if_congr (by tauto) rfl rfl)
    refine (h b r c ch hb hr hc hch).congr (fun p x _ => ?_)
    by_cases hp : p = ((b * l + r) * m + c) * n + ch
    · have hd := (key b r c ch p hr hc hch).mp hp
      rw [if_pos hp, if_pos (by tauto), hd.1, hd.2.1, hd.2.2.1, hd.2.2.2]
    · have hd := (key b r c ch p hr hc hch).not.mp hp
      rw [if_neg hp, if_neg (by tauto)]
  obtain ⟨o, h1, h2, h3⟩ := H (List.replicate (k * l * m * n) z) (by simp)
  refine ⟨o, h1, h2, fun b r c ch hb hr hc hch => ?_⟩
  obtain ⟨d1, d2, d3, d4⟩ := (key b r c ch _ hr hc hch).mp rfl
  rw [h3 _ z (by rw [List.getElem?_replicate, if_pos (idx4_lt hb hr hc hch)])]
  simp only [d1, d2, d3, d4]
  rw [if_pos ⟨hb, hr, hc, hch⟩]

theorem rec_rec [Add F] (v : Nat → Nat → F) (x : F) (m n : Nat) :
    (Nat.rec x (fun i y => Nat.rec y (fun j y => y + v i j) m) n : F) = Nat.rec x (fun k y => y + v (k / m) (k % m)) (n * m) := by
  induction n with
  | zero => simp
  | succ n ih =>
    have inner : ∀ j, j ≤ m → (Nat.rec (Nat.rec x (fun k y => y + v (k / m) (k % m)) (n * m)) (fun j y => y + v n j) j : F) = Nat.rec x (fun k y => y + v (k / m) (k % m)) (n * m + j) := by
      intro j
      induction j with
      | zero => intro _; rfl
      | succ j ihj =>
        intro hj
        show (Nat.rec (Nat.rec x (fun k y => y + v (k / m) (k % m)) (n * m)) (fun j y => y + v n j) j : F) + v n j =
          (Nat.rec x (fun k y => y + v (k / m) (k % m)) (n * m + j) : F) + v ((n * m + j) / m) ((n * m + j) % m)
        rw [ihj (by omega), (div_mod_eq (show j < m by omega)).1, (div_mod_eq (show j < m by omega)).2]
    show (Nat.rec (Nat.rec x (fun i y => Nat.rec y (fun j y => y + v i j) m) n) (fun j y => y + v n j) m : F) = _
    rw [ih, inner m le_rfl, Nat.succ_mul]

/-- Two loops that add to one cell. -/
theorem acts_cell2 [Add F] {N q n m : Nat} {body : Nat → Nat → List F → Res (List F)} {v : Nat → Nat → F} (hq : q < N)
    (h : ∀ i j o, i < n → j < m → o.length = N → body i j o = addAt o q (v i j)) :
    Acts (fun o => loop n (fun i o => loop m (fun j o => body i j o) o) o) N
      (fun p x => if p = q then (Nat.rec x (fun k y => y + v (k / m) (k % m)) (n * m) : F) else x) := by
  refine (Acts.loop (fun i hi => Acts.loop (φ := fun j p x => if p = q then x + v i j else x) (fun j hj => ?_))).congr (fun p x _ => ?_)
  · intro o ho
    obtain ⟨o', e, r⟩ := acts_addAt (F := F) (v := v i j) hq o ho
    exact ⟨o', (h i j o hi hj ho).trans e, r⟩
  · by_cases hp : p = q
    · simp only [hp, if_true]
      exact rec_rec v x m n
    · simp only [hp, if_false]
      rw [rec_congr (g := fun _ y => y) x n (fun i y _ => rec_id y m)]
      exact rec_id x n

theorem rec_foldl [Zero F] [Add F] (g : Nat → F) (n : Nat) : (Nat.rec 0 (fun i y => y + g i) n : F) = ((List.range n).map g).foldl (· + ·) 0 := by
  induction n with
  | zero => rfl
  | succ n ih =>
    rw [List.range_succ, List.map_append, List.foldl_append, ← ih]
    rfl

end

/-! ### C149 -/

section
variable {F : Type} [Arith F]

/-- The sums of `average_pooling_2d`, in any arithmetic that rounds: the products with the factor are added up with the error of C118. -/
theorem avg_pool_accurate [One F] [Div F] [NatCast F] (s BS R C CH : Nat) (t cache : Ten F) (a : List Nat → F) (hs : 1 < s) (ht : t.Has [BS, R, C, CH] a) :
    ∃ (u : Ten F) (v : List Nat → F), avgPool s t cache = ok u ∧ u.Has [BS, R / s, C / s, CH] v ∧
      ∀ b r c ch, Accurate (inWin a s b r c ch) (fun _ => (1 : F) / ((s * s : Nat) : F)) (s * s) (v [b, r, c, ch]) := by
  obtain ⟨hsh, hd⟩ := ten4 ht
  obtain ⟨o', h1, h2⟩ := cells4 (k := BS) (l := R / s) (m := C / s) (n := CH) (z := (0 : F))
    (body := fun b r c ch o => loopFrom (r * s) (r * s + s) (fun y o => loopFrom (c * s) (c * s + s) (fun x o => do
        let v ← rd t.data (at4 BS R C CH b y x ch)
        addAt o (at4 BS (R / s) (C / s) CH b r c ch) (v * (1 / ((s * s : Nat) : F)))) o) o)
    (φ := fun b r c ch x => Nat.rec x (fun k y => y + inWin a s b r c ch k * (1 / ((s * s : Nat) : F))) (s * s))
    (by
      intro b r c ch hb hr hc hch
      simp only [loopFrom_add]
      refine acts_cell2 (v := fun i j => a [b, r * s + i, c * s + j, ch] * (1 / ((s * s : Nat) : F))) (idx4_lt hb hr hc hch) (fun i j o hi hj ho => ?_)
      simp only [at4_eq]
      rw [hd.rd hb (win_lt hr hi) (win_lt hc hj) hch, bind_ok])
  refine ⟨⟨[BS, R / s, C / s, CH], o'⟩, fun is => match is with
    | [b, r, c, ch] => dot (inWin a s b r c ch) (fun _ => (1 : F) / ((s * s : Nat) : F)) (s * s)
    | _ => 0, ?_, has4 rfl h2 (fun b r c ch _ _ _ _ => rec_dot _ _ _), fun b r c ch => any_order_accurate _ _ _ _ (dot_sums _ _ _)⟩
  unfold avgPool
  rw [assert_true hs, bind_ok, hsh]
  dsimp only
  rw [fill0, bind_ok, size4, h1, bind_ok]; rfl

/-- Backward of `up_sampling_2d` adds up the gradients of each window. -/
theorem up_sample_back_accurate (s BS R C CH : Nat) (t grad cache : Ten F) (g : List Nat → F) (ht : t.shape = [BS, R, C, CH]) (hg : grad.Has [BS, R * s, C * s, CH] g) :
    ∃ (d : Ten F) (v : List Nat → F), upSampleBack s t grad cache = ok d ∧ d.Has [BS, R, C, CH] v ∧
      ∀ b r c ch, AccurateSum ((List.range (s * s)).map (inWin g s b r c ch)) (v [b, r, c, ch]) := by
  obtain ⟨-, hgd⟩ := ten4 hg
  obtain ⟨o', h1, h2⟩ := cells4 (k := BS) (l := R) (m := C) (n := CH) (z := (0 : F))
    (body := fun b r c ch o => loopFrom (r * s) (r * s + s) (fun y o => loopFrom (c * s) (c * s + s) (fun x o => do
        let g ← rd grad.data (at4 BS (R * s) (C * s) CH b y x ch)
        addAt o (at4 BS R C CH b r c ch) g) o) o)
    (φ := fun b r c ch x => Nat.rec x (fun k y => y + inWin g s b r c ch k) (s * s))
    (by
      intro b r c ch hb hr hc hch
      simp only [loopFrom_add]
      refine acts_cell2 (v := fun i j => g [b, r * s + i, c * s + j, ch]) (idx4_lt hb hr hc hch) (fun i j o hi hj ho => ?_)
      simp only [at4_eq]
      rw [hgd.rd hb (lt_mul_of_lt hr hi) (lt_mul_of_lt hc hj) hch, bind_ok])
  refine ⟨⟨[BS, R, C, CH], o'⟩, fun is => match is with
    | [b, r, c, ch] => ((List.range (s * s)).map (inWin g s b r c ch)).foldl (· + ·) 0
    | _ => 0, ?_, has4 rfl h2 (fun b r c ch _ _ _ _ => rec_foldl _ _), fun b r c ch => any_sum_accurate _ _ (foldl_sums _)⟩
  unfold upSampleBack
  rw [ht]
  dsimp only
  rw [fill0, bind_ok, size4, h1, bind_ok]; rfl

end

/-! ### the rounded formats -/

section
variable {f : Fmt}

/-- The factor of a window, one divided by the number of its elements, is rounded once. -/
theorem factor_near {n : Nat} (hn : 0 < n) (hp : n < 2 ^ f.p) :
    fin ((1 : Num f) / ((n : Nat) : Num f)) ∧ |val ((1 : Num f) / ((n : Nat) : Num f)) - 1 / n| ≤ Arith.u (Num f) / n + Arith.w (Num f) := by
  obtain ⟨h1, h2⟩ := one_near (f := f)
  have h3 : val (1 : Num f) = 1 := by
    have := abs_eq_zero.mp (le_antisymm h2 (abs_nonneg _))
    linarith
  have hmf : Fixed f n := by
    have := fixed_int (f := f) (k := (n : ℤ)) (by
      rw [abs_of_nonneg (by positivity)]
      exact_mod_cast hp)
    simpa using this
  have hmm : ((n : Nat) : Num f) = .num n (hmf.1 ▸ rnd_grid f n) := toNum_fixed hmf
  have h4 : fin ((n : Nat) : Num f) := by rw [hmm]; trivial
  have h5 : val ((n : Nat) : Num f) = n := by
    rw [hmm]
    show ((n : ℚ) : ℝ) = n
    simp
  have hn0 : (0 : ℝ) < n := by exact_mod_cast hn
  have htop : (1 : ℝ) ≤ Arith.top (Num f) := by
    have := (fixed_one (f := f)).2
    rw [abs_one] at this
    show (1 : ℝ) ≤ ((largest f : ℚ) : ℝ)
    exact_mod_cast this
  have h6 : |val (1 : Num f) / val ((n : Nat) : Num f)| = 1 / n := by rw [h3, h5, abs_of_pos (by positivity)]
  have h7 : (1 : ℝ) / n ≤ 1 := by
    rw [div_le_one hn0]
    exact_mod_cast hn
  have H := div_near h1 h4 (by rw [h5]; exact hn0.ne') (by rw [h6]; exact h7.trans htop)
  rw [h6, h3, h5, mul_one_div] at H
  exact H

theorem factor_abs {n : Nat} (hn : 0 < n) (hp : n < 2 ^ f.p) : |val ((1 : Num f) / ((n : Nat) : Num f))| ≤ (1 + Arith.u (Num f)) / n + Arith.w (Num f) := by
  have h := (factor_near (f := f) hn hp).2
  have hn0 : (0 : ℝ) < n := by exact_mod_cast hn
  have h1 := abs_add_le (val ((1 : Num f) / ((n : Nat) : Num f)) - 1 / n) (1 / n)
  rw [sub_add_cancel, abs_of_pos (show (0 : ℝ) < 1 / n by positivity)] at h1
  rw [add_div]
  linarith

/-- C149: every element that `average_pooling_2d` computes is, if it is finite, within `meanBound` of the mean of its window, whose elements then were finite; and it
is finite if they are and the numbers are far enough from overflow. -/
theorem avg_pool_near (s BS R C CH : Nat) (t cache : Ten (Num f)) (a : List Nat → Num f) (hs : 1 < s) (hp : s * s < 2 ^ f.p) (ht : t.Has [BS, R, C, CH] a) :
    ∃ (o : Ten (Num f)) (v : List Nat → Num f), avgPool s t cache = ok o ∧ o.Has [BS, R / s, C / s, CH] v ∧
      ∀ b r c ch,
        (fin (v [b, r, c, ch]) → (∀ k, k < s * s → fin (inWin a s b r c ch k)) ∧
          |val (v [b, r, c, ch]) - (∑ k ∈ range (s * s), val (inWin a s b r c ch k)) / (s * s : Nat)| ≤
            meanBound (Arith.u (Num f)) (Arith.w (Num f)) (s * s) (∑ k ∈ range (s * s), |val (inWin a s b r c ch k)|)) ∧
        ((∀ k, k < s * s → fin (inWin a s b r c ch k)) →
          (∑ k ∈ range (s * s), |val (inWin a s b r c ch k)|) * ((1 + Arith.u (Num f)) / (s * s : Nat) + Arith.w (Num f)) +
            dotBound (Arith.u (Num f)) (Arith.w (Num f)) (s * s)
              ((∑ k ∈ range (s * s), |val (inWin a s b r c ch k)|) * ((1 + Arith.u (Num f)) / (s * s : Nat) + Arith.w (Num f))) ≤ Arith.top (Num f) →
          fin (v [b, r, c, ch])) := by
  obtain ⟨o, v, h1, h2, h3⟩ := avg_pool_accurate s BS R C CH t cache a hs ht
  have hn : 0 < s * s := Nat.mul_pos (by omega) (by omega)
  obtain ⟨f1, f2⟩ := factor_near (f := f) hn hp
  have f3 := factor_abs (f := f) hn hp
  refine ⟨o, v, h1, h2, fun b r c ch => ?_⟩
  obtain ⟨g1, g2, -⟩ := h3 b r c ch
  generalize (1 : Num f) / ((s * s : Nat) : Num f) = q at *
  generalize inWin a s b r c ch = x at *
  generalize s * s = n at *
  have hA : 0 ≤ ∑ k ∈ range n, |val (x k)| := Finset.sum_nonneg (fun _ _ => abs_nonneg _)
  have hu : 0 ≤ Arith.u (Num f) := Arith.u_nonneg
  rw [← Finset.sum_mul] at g2
  rw [← Finset.sum_mul, ← Finset.sum_mul] at g1
  have hS : (∑ k ∈ range n, |val (x k)|) * |val q| ≤ (∑ k ∈ range n, |val (x k)|) * ((1 + Arith.u (Num f)) / n + Arith.w (Num f)) := mul_le_mul_of_nonneg_left f3 hA
  have hB := dotBound_mono (w := Arith.w (Num f)) hu (n := n) hS
  refine ⟨fun hf => ?_, fun hx htop => ?_⟩
  · obtain ⟨e1, e2⟩ := g1 hf
    refine ⟨fun k hk => (e1 k hk).1, ?_⟩
    have h4 : |(∑ k ∈ range n, val (x k)) * val q - (∑ k ∈ range n, val (x k)) / n| ≤ (∑ k ∈ range n, |val (x k)|) * (Arith.u (Num f) / n + Arith.w (Num f)) := by
      rw [div_eq_mul_one_div, ← mul_sub, abs_mul]
      exact mul_le_mul (Finset.abs_sum_le_sum_abs _ _) f2 (abs_nonneg _) hA
    have h5 := abs_add_le (val (v [b, r, c, ch]) - (∑ k ∈ range n, val (x k)) * val q) ((∑ k ∈ range n, val (x k)) * val q - (∑ k ∈ range n, val (x k)) / n)
    rw [sub_add_sub_cancel] at h5
    unfold meanBound
    linarith
  · refine g2 (fun k hk => ⟨hx k hk, f1⟩) ?_
    linarith

/-- Backward of `average_pooling_2d` over any type: every element is the factor times the gradient of its window. -/
theorem avg_back_elements {α : Type} [Zero α] [One α] [Mul α] [Div α] [NatCast α] (s BS R C CH : Nat) (t grad cache : Ten α) (g : List Nat → α)
    (ht : t.shape = [BS, R, C, CH]) (hg : grad.Has [BS, R / s, C / s, CH] g) (hR : s ∣ R) (hC : s ∣ C) :
    ∃ (d : Ten α) (v : List Nat → α), avgPoolBack s t grad cache = ok d ∧ d.Has [BS, R, C, CH] v ∧
      ∀ b y x ch, v [b, y, x, ch] = 1 / ((s * s : Nat) : α) * g [b, y / s, x / s, ch] := by
  obtain ⟨-, hgd⟩ := ten4 hg
  obtain ⟨o', h1, h2⟩ := fill4 (k := BS) (l := R) (m := C) (n := CH)
    (body := fun b r c ch o => do
      let g ← rd grad.data (at4 BS (R / s) (C / s) CH b (r / s) (c / s) ch)
      wr o (at4 BS R C CH b r c ch) (1 / ((s * s : Nat) : α) * g))
    (f := fun b y x ch => 1 / ((s * s : Nat) : α) * g [b, y / s, x / s, ch])
    (by
      intro b y x ch o hb hy hx hch ho
      simp only [at4_eq]
      rw [hgd.rd hb (Nat.div_lt_div_of_lt_of_dvd hR hy) (Nat.div_lt_div_of_lt_of_dvd hC hx) hch, bind_ok])
    (out := (resizeV cache [BS, R, C, CH]).data) (by rw [resizeV_length, size4])
  refine ⟨⟨[BS, R, C, CH], o'⟩, fun is => match is with
    | [b, y, x, ch] => 1 / ((s * s : Nat) : α) * g [b, y / s, x / s, ch]
    | _ => 0, ?_, has4 rfl h2 (fun _ _ _ _ _ _ _ _ => rfl), fun _ _ _ _ => rfl⟩
  unfold avgPoolBack
  rw [ht]
  dsimp only
  rw [h1, bind_ok]; rfl

/-- C149: backward of `average_pooling_2d` sends to every element its part of the gradient of its window, within `partBound`. For strides that divide the sizes; with
others it reads out of bounds (`avg_pool_backward_violated`), so what is missing is the same for every size. -/
theorem avg_pool_back_near_partial (s BS R C CH : Nat) (t grad cache : Ten (Num f)) (g : List Nat → Num f) (hs : 1 < s) (hp : s * s < 2 ^ f.p)
    (ht : t.shape = [BS, R, C, CH]) (hg : grad.Has [BS, R / s, C / s, CH] g) (hR : s ∣ R) (hC : s ∣ C) :
    ∃ (d : Ten (Num f)) (v : List Nat → Num f), avgPoolBack s t grad cache = ok d ∧ d.Has [BS, R, C, CH] v ∧
      ∀ b y x ch,
        (fin (v [b, y, x, ch]) → fin (g [b, y / s, x / s, ch]) ∧
          |val (v [b, y, x, ch]) - val (g [b, y / s, x / s, ch]) / (s * s : Nat)| ≤
            partBound (Arith.u (Num f)) (Arith.w (Num f)) (s * s) |val (g [b, y / s, x / s, ch])|) ∧
        (fin (g [b, y / s, x / s, ch]) → |val (g [b, y / s, x / s, ch])| * ((1 + Arith.u (Num f)) / (s * s : Nat) + Arith.w (Num f)) ≤ Arith.top (Num f) →
          fin (v [b, y, x, ch])) := by
  obtain ⟨d, v, h1, h2, h3⟩ := avg_back_elements s BS R C CH t grad cache g ht hg hR hC
  have hn : 0 < s * s := Nat.mul_pos (by omega) (by omega)
  obtain ⟨f1, f2⟩ := factor_near (f := f) hn hp
  have f3 := factor_abs (f := f) hn hp
  refine ⟨d, v, h1, h2, fun b y x ch => ?_⟩
  rw [h3]
  generalize (1 : Num f) / ((s * s : Nat) : Num f) = q at *
  generalize g [b, y / s, x / s, ch] = z at *
  generalize s * s = n at *
  have hu : 0 ≤ Arith.u (Num f) := Arith.u_nonneg
  have hqz : |val q * val z| ≤ |val z| * ((1 + Arith.u (Num f)) / n + Arith.w (Num f)) := by
    rw [abs_mul, mul_comm]
    exact mul_le_mul_of_nonneg_left f3 (abs_nonneg _)
  refine ⟨fun hf => ?_, fun hz htop => Arith.mul_fin _ _ f1 hz (hqz.trans htop)⟩
  obtain ⟨-, e1, e2⟩ := Arith.mul_err _ _ hf
  refine ⟨e1, ?_⟩
  have h4 : |val q * val z - val z / n| ≤ |val z| * (Arith.u (Num f) / n + Arith.w (Num f)) := by
    rw [div_eq_mul_one_div, mul_comm (val q), ← mul_sub, abs_mul]
    exact mul_le_mul_of_nonneg_left f2 (abs_nonneg _)
  have h5 := abs_add_le (val (q * z) - val q * val z) (val q * val z - val z / n)
  rw [sub_add_sub_cancel] at h5
  have h6 := mul_le_mul_of_nonneg_left hqz hu
  unfold partBound
  linarith

/-- The scan of a window of finite numbers picks the position it picks with the reals they stand for. -/
theorem maxScan_val {d : List (Num f)} (hd : ∀ x ∈ d, fin x) (BS R C CH s b r c ch : Nat) :
    maxScan d BS R C CH s b r c ch = maxScan (d.map val) BS R C CH s b r c ch := by
  have body : ∀ p q : Nat, ∀ k m : Nat × Nat, (do
      let v ← rd d p
      let w ← rd d q
      if w < v then ok k else ok m) = (do
      let v ← rd (d.map (val : Num f → ℝ)) p
      let w ← rd (d.map (val : Num f → ℝ)) q
      if w < v then ok k else ok m) := by
    intro p q k m
    by_cases hp : p < d.length
    · by_cases hq : q < d.length
      · rw [rd_ok (List.getElem?_eq_getElem hp), rd_ok (List.getElem?_eq_getElem hq), bind_ok, bind_ok,
          rd_ok (v := val d[p]) (by simp [hp]), rd_ok (v := val d[q]) (by simp [hq]), bind_ok, bind_ok]
        exact if_congr (lt_val (hd _ (List.getElem_mem hq)) (hd _ (List.getElem_mem hp))) rfl rfl
      · rw [rd_ok (List.getElem?_eq_getElem hp), bind_ok, rd_ub (by omega), rd_ok (v := val d[p]) (by simp [hp]), bind_ok, rd_ub (b := d.map (val : Num f → ℝ)) (by simp; omega)]
        rfl
    · rw [rd_ub (by omega), rd_ub (b := d.map (val : Num f → ℝ)) (by simp; omega)]
      rfl
  unfold maxScan
  simp only [body]

/-- C149: `max_pooling_2d` of finite numbers does not round: every element is one of its window, and none is larger. -/
theorem max_pool_exact (s BS R C CH : Nat) (t mask cache : Ten (Num f)) (a : List Nat → Num f) (hs : 1 < s) (ht : t.Has [BS, R, C, CH] a) (hfin : ∀ x ∈ t.data, fin x) :
    ∃ (o m : Ten (Num f)) (v : List Nat → Num f), maxPool s t mask cache = ok (o, m) ∧ o.Has [BS, R / s, C / s, CH] v ∧
      ∀ b r c ch, b < BS → r < R / s → c < C / s → ch < CH →
        (∃ y x, InWindow s r c y x ∧ v [b, r, c, ch] = a [b, y, x, ch]) ∧
        ∀ y x, InWindow s r c y x → val (a [b, y, x, ch]) ≤ val (v [b, r, c, ch]) := by
  obtain ⟨o, m, w, pos, h1, h2, h3, -, -, h6, -, -⟩ := Pool.maxPool_sel (mask := mask) (cache := cache) hs
    (Q := fun r c v k => ∀ y x, InWindow s r c y x → val (v y x) ≤ val (v k.1 k.2)) (a := a) (t := t) (by
      intro b r c ch hd hb hr hc hch
      have hd' : Is4 (t.data.map (val : Num f → ℝ)) BS R C CH (fun b y x ch => val (a [b, y, x, ch])) :=
        ⟨by rw [List.length_map]; exact hd.1, fun b y x ch hb hy hx hch => by rw [List.getElem?_map, hd.2 b y x ch hb hy hx hch]; rfl⟩
      obtain ⟨k, k1, k2⟩ := maxScan_ok hd' (show 0 < s by omega) hb hr hc hch
      refine ⟨k, ?_, k2.1, fun y x hyx => (k2.2 y x hyx).1⟩
      rw [maxScan_val hfin, k1]) ht
  refine ⟨o, m, fun is => match is with
    | [b, r, c, ch] => w b r c ch
    | _ => 0, h1, has4 h2 h3 (fun _ _ _ _ _ _ _ _ => rfl), fun b r c ch hb hr hc hch => ?_⟩
  obtain ⟨⟨p1, p2⟩, p3⟩ := h6 b r c ch hb hr hc hch
  refine ⟨⟨_, _, p1, p3⟩, fun y x hyx => ?_⟩
  show _ ≤ val (w b r c ch)
  rw [p3]
  exact p2 y x hyx

end

/-- The mean of 1, 2, 3 and 6 in `float`. -/
example : ∃ o : Ten (Num float32), ∃ v, avgPool 2 ⟨[1, 2, 2, 1], [ofInt 1, ofInt 2, ofInt 3, ofInt 6]⟩ ⟨[], []⟩ = ok o ∧ o.data = [v] ∧ fin v ∧ |val v - 3| ≤ 1 / 100000 := by
  obtain ⟨o, v, h1, h2, h3⟩ := avg_pool_near (f := float32) 2 1 2 2 1 ⟨[1, 2, 2, 1], [ofInt 1, ofInt 2, ofInt 3, ofInt 6]⟩ ⟨[], []⟩
    (fun is => match is with
      | [_, y, x, _] => [ofInt 1, ofInt 2, ofInt 3, ofInt 6].getD (2 * y + x) 0
      | _ => 0) (by omega) (by show 2 * 2 < 2 ^ 24; norm_num)
    (by
      refine has4 rfl (f := fun _ y x _ => [ofInt 1, ofInt 2, ofInt 3, ofInt 6].getD (2 * y + x) 0) ⟨rfl, fun b y x ch hb hy hx hch => ?_⟩ (fun _ _ _ _ _ _ _ _ => rfl)
      obtain rfl : b = 0 := by omega
      obtain rfl : ch = 0 := by omega
      rcases (by omega : y = 0 ∨ y = 1) with rfl | rfl <;> rcases (by omega : x = 0 ∨ x = 1) with rfl | rfl <;> rfl)
  obtain ⟨c1, c2, c3, -⟩ := float32_constants
  obtain ⟨g1, g2⟩ := h3 0 0 0 0
  have hsum : ∀ φ : Num float32 → ℝ, ∑ k ∈ range (2 * 2), φ (inWin (fun is => match is with
      | [_, y, x, _] => [ofInt 1, ofInt 2, ofInt 3, ofInt 6].getD (2 * y + x) 0
      | _ => 0) 2 0 0 0 0 k) = φ (ofInt 1) + φ (ofInt 2) + φ (ofInt 3) + φ (ofInt 6) := by
    intro φ
    rw [show (2 * 2 : Nat) = 4 from rfl]
    simp [Finset.sum_range_succ, inWin]
  have hf := g2 (fun k hk => by
    rcases (by omega : k = 0 ∨ k = 1 ∨ k = 2 ∨ k = 3) with rfl | rfl | rfl | rfl <;> exact ofInt_fin _) (by
    rw [hsum (fun z => |val z|), c1, c2, c3]
    simp only [ofInt_val, dotBound]
    norm_num)
  have hv := (g1 hf).2
  rw [hsum (fun z => |val z|), hsum val, c1, c2] at hv
  simp only [ofInt_val, meanBound, dotBound] at hv
  have h5 := h2.2.2 [0, 0, 0, 0] ⟨by decide, by decide, by decide, by decide, trivial⟩
  have h6 := h2.2.1
  match hu : o.data, h5, h6 with
  | [z], h5, _ =>
    have h5 : some z = some (v [0, 0, 0, 0]) := h5
    refine ⟨o, z, h1, hu, ?_, ?_⟩
    · rw [Option.some.inj h5]; exact hf
    · rw [Option.some.inj h5]
      norm_num at hv
      refine le_trans ?_ (hv.trans ?_)
      · norm_num
      · norm_num

/-- The largest of 3, 9, -2 and 5 in `float`. -/
example : ∃ o m : Ten (Num float32), ∃ v, maxPool 2 ⟨[1, 2, 2, 1], [ofInt 3, ofInt 9, ofInt (-2), ofInt 5]⟩ ⟨[], []⟩ ⟨[], []⟩ = ok (o, m) ∧ o.Has [1, 1, 1, 1] v ∧ 9 ≤ val (v [0, 0, 0, 0]) := by
  obtain ⟨o, m, v, h1, h2, h3⟩ := max_pool_exact (f := float32) 2 1 2 2 1 ⟨[1, 2, 2, 1], [ofInt 3, ofInt 9, ofInt (-2), ofInt 5]⟩ ⟨[], []⟩ ⟨[], []⟩
    (fun is => match is with
      | [_, y, x, _] => [ofInt 3, ofInt 9, ofInt (-2), ofInt 5].getD (2 * y + x) 0
      | _ => 0) (by omega)
    (by
      refine has4 rfl (f := fun _ y x _ => [ofInt 3, ofInt 9, ofInt (-2), ofInt 5].getD (2 * y + x) 0) ⟨rfl, fun b y x ch hb hy hx hch => ?_⟩ (fun _ _ _ _ _ _ _ _ => rfl)
      obtain rfl : b = 0 := by omega
      obtain rfl : ch = 0 := by omega
      rcases (by omega : y = 0 ∨ y = 1) with rfl | rfl <;> rcases (by omega : x = 0 ∨ x = 1) with rfl | rfl <;> rfl)
    (by
      intro x hx
      simp only [List.mem_cons, List.not_mem_nil, or_false] at hx
      rcases hx with rfl | rfl | rfl | rfl <;> exact ofInt_fin _)
  refine ⟨o, m, v, h1, h2, ?_⟩
  have h := (h3 0 0 0 0 (by omega) (by omega) (by omega) (by omega)).2 0 1 ⟨by omega, by omega, by omega, by omega⟩
  have h : val (ofInt 9) ≤ val (v [0, 0, 0, 0]) := h
  rw [ofInt_val] at h
  exact_mod_cast h

/-- A quarter of 12 goes back to each of four elements. -/
example : ∃ d : Ten (Num float32), ∃ v, avgPoolBack 2 ⟨[1, 2, 2, 1], [ofInt 1, ofInt 2, ofInt 3, ofInt 6]⟩ ⟨[1, 1, 1, 1], [ofInt 12]⟩ ⟨[], []⟩ = ok d ∧ d.Has [1, 2, 2, 1] v ∧
    ∀ y x, fin (v [0, y, x, 0]) ∧ |val (v [0, y, x, 0]) - 3| ≤ 1 / 100000 := by
  obtain ⟨d, v, h1, h2, h3⟩ := avg_pool_back_near_partial (f := float32) 2 1 2 2 1 ⟨[1, 2, 2, 1], [ofInt 1, ofInt 2, ofInt 3, ofInt 6]⟩ ⟨[1, 1, 1, 1], [ofInt 12]⟩ ⟨[], []⟩
    (fun _ => ofInt 12) (by omega) (by show 2 * 2 < 2 ^ 24; norm_num) rfl
    (by
      refine has4 rfl (f := fun _ _ _ _ => ofInt 12) ⟨rfl, fun b y x ch hb hy hx hch => ?_⟩ (fun _ _ _ _ _ _ _ _ => rfl)
      obtain rfl : b = 0 := by omega
      obtain rfl : y = 0 := by omega
      obtain rfl : x = 0 := by omega
      obtain rfl : ch = 0 := by omega
      rfl) ⟨1, rfl⟩ ⟨1, rfl⟩
  obtain ⟨c1, c2, c3, -⟩ := float32_constants
  refine ⟨d, v, h1, h2, fun y x => ?_⟩
  obtain ⟨g1, g2⟩ := h3 0 y x 0
  have hf := g2 (ofInt_fin _) (by
    rw [c1, c2, c3, ofInt_val]
    norm_num)
  have hv := (g1 hf).2
  rw [c1, c2, ofInt_val] at hv
  refine ⟨hf, ?_⟩
  unfold partBound at hv
  norm_num at hv
  refine le_trans ?_ (hv.trans ?_) <;> norm_num

/-- The gradients 1, 2, 3 and 4 of the copies of one element, added up. -/
example : ∃ d : Ten (Num float32), ∃ v, upSampleBack 2 ⟨[1, 1, 1, 1], [ofInt 7]⟩ ⟨[1, 2, 2, 1], [ofInt 1, ofInt 2, ofInt 3, ofInt 4]⟩ ⟨[], []⟩ = ok d ∧ d.Has [1, 1, 1, 1] v ∧
    fin (v [0, 0, 0, 0]) ∧ val (v [0, 0, 0, 0]) = 10 := by
  obtain ⟨d, v, h1, h2, h3⟩ := up_sample_back_accurate (F := Num float32) 2 1 1 1 1 ⟨[1, 1, 1, 1], [ofInt 7]⟩ ⟨[1, 2, 2, 1], [ofInt 1, ofInt 2, ofInt 3, ofInt 4]⟩ ⟨[], []⟩
    (fun is => match is with
      | [_, y, x, _] => [ofInt 1, ofInt 2, ofInt 3, ofInt 4].getD (2 * y + x) 0
      | _ => 0) rfl
    (by
      refine has4 rfl (f := fun _ y x _ => [ofInt 1, ofInt 2, ofInt 3, ofInt 4].getD (2 * y + x) 0) ⟨rfl, fun b y x ch hb hy hx hch => ?_⟩ (fun _ _ _ _ _ _ _ _ => rfl)
      obtain rfl : b = 0 := by omega
      obtain rfl : ch = 0 := by omega
      rcases (by omega : y = 0 ∨ y = 1) with rfl | rfl <;> rcases (by omega : x = 0 ∨ x = 1) with rfl | rfl <;> rfl)
  have h4 := (h3 0 0 0 0).2.2
  rw [show (List.range (2 * 2)).map (inWin (fun is => match is with
      | [_, y, x, _] => [ofInt 1, ofInt 2, ofInt 3, ofInt 4].getD (2 * y + x) 0
      | _ => 0) 2 0 0 0 0) = [ofInt 1, ofInt 2, ofInt 3, ofInt 4] from rfl] at h4
  have h5 := h4 (by
    intro x hx
    simp only [List.mem_cons, List.not_mem_nil, or_false] at hx
    rcases hx with rfl | rfl | rfl | rfl <;> exact ⟨ofInt_fin _, _, ofInt_val _⟩) (by
    rw [float32_constants.2.2.2]
    simp [ofInt_val]
    norm_num)
  refine ⟨d, v, h1, h2, h5.1, ?_⟩
  rw [h5.2]
  simp [ofInt_val]
  norm_num

end Verif.Fp
