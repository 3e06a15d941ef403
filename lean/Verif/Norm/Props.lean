import Verif.Norm.Model
import Verif.Ops.Sum
import Verif.Data.Flip
import Verif.Basic.Inplace
import Verif.Pool.Lemmas
import Verif.Dataset.Props
import Mathlib.Tactic.FieldSimp
import Mathlib.Tactic.LinearCombination
import Mathlib.Tactic.Positivity
/-!
# C71, C92: batch normalisation

A batch has the shape `pre ++ [ch]`; `chMean` and `chVar` are the mean and the variance of one channel.
-/
namespace Verif.Norm
open Verif Res Data Tensor

noncomputable section

/-- The mean of channel `c`. -/
def chMean (pre : List Nat) (a : List Nat → ℝ) (c : Nat) : ℝ := sumIdx pre (fun ip => a (ip ++ [c])) / size pre

/-- The variance of channel `c`. -/
def chVar (pre : List Nat) (a : List Nat → ℝ) (c : Nat) : ℝ := sumIdx pre (fun ip => (a (ip ++ [c]) - chMean pre a c) ^ 2) / size pre

/-- A buffer holding `v 0, …, v (n-1)`. -/
def Row (d : List ℝ) (n : Nat) (v : Nat → ℝ) : Prop := d.length = n ∧ ∀ j, j < n → d[j]? = some (v j)

theorem Row.congr {d : List ℝ} {n : Nat} {v w : Nat → ℝ} (h : Row d n v) (e : ∀ j, j < n → v j = w j) : Row d n w := ⟨h.1, fun j hj => by rw [h.2 j hj, e j hj]⟩

theorem chanSum_ok {rows ch : Nat} {f : Nat → Nat → Res ℝ} {v : Nat → Nat → ℝ} (hf : ∀ i j, i < rows → j < ch → f i j = ok (v i j)) {out : List ℝ} {w : Nat → ℝ} (ho : Row out ch w) :
    ∃ o, chanSum rows ch f out = ok o ∧ Row o ch (fun j => w j + ∑ i ∈ Finset.range rows, v i j) := by
  have h1 : ∀ i, i < rows → Adds (fun o => loop ch (fun j o => do
      let x ← f i j
      addAt o j x) o) ch (fun p => v i p) := by
    intro i hi
    refine (Adds.loop (inc := fun j p => if p = j then v i j else 0) (fun j hj => ?_)).congr (fun p hp => ?_)
    · exact (adds_addAt (v := v i j) hj).congr_prog (fun o _ => by rw [hf i j hi hj, bind_ok])
    · rw [Finset.sum_ite_eq]; simp [hp]
  obtain ⟨o, k1, k2, k3⟩ := (Adds.loop h1).run ho.1 ho.2
  exact ⟨o, k1, k2, k3⟩

theorem cleared_row (c : Option (Ten ℝ)) (ch : Nat) : Row (cleared c ch) ch (fun _ => 0) := by
  have h : (resizeV (ctx c emptyT) [ch]).data.length = ch := by rw [resizeV_length]; simp
  refine ⟨by unfold cleared; rw [List.length_map, h], fun j hj => ?_⟩
  unfold cleared
  rw [List.getElem?_map, List.getElem?_eq_getElem (by omega)]; rfl

theorem divAll_ok (x : ℝ) {out : List ℝ} {n : Nat} {w : Nat → ℝ} (ho : Row out n w) : ∃ o, divAll x out = ok o ∧ Row o n (fun j => w j / x) := by
  obtain ⟨o, h1, h2, h3⟩ := update1 (n := n) (out := out) (body := fun i o => do
      let v ← rd o i
      wr o i (v / x)) (a := w) (g := fun j => w j / x) (fun j o _ _ h => by rw [rd_ok h, bind_ok]) ho.1 ho.2
  exact ⟨o, by unfold divAll; rw [ho.1]; exact h1, h2, h3⟩

theorem normalise_ok (eps : ℝ) {rows ch : Nat} {input avg var out : List ℝ} {f : Nat → Nat → ℝ} {μ σ : Nat → ℝ} (hi : Is2 input rows ch f) (ha : Row avg ch μ) (hv : Row var ch σ)
    (ho : out.length = rows * ch) : ∃ d, normalise eps rows ch input avg var out = ok d ∧ Is2 d rows ch (fun i j => (f i j - μ j) / √(σ j + eps)) :=
  fill2 (fun i j o h1 h2 _ => by rw [rd_ok (hi.2 i j h1 h2), bind_ok, rd_ok (ha.2 j h2), bind_ok, rd_ok (hv.2 j h2), bind_ok]) ho

theorem running_ok (m : ℝ) {avg g : List ℝ} {n k : Nat} {μ γ : Nat → ℝ} (ha : Row avg n μ) (hg : Row g k γ) (hk : k ≤ n) :
    ∃ o, running m avg g k = ok o ∧ Row o k (fun j => γ j * m + μ j * (1 - m)) := by
  obtain ⟨o, h1, h2, h3⟩ := update1 (n := k) (out := g) (body := fun i g => do
      let x ← rd g i
      let a ← rd avg i
      wr g i (x * m + a * (1 - m))) (a := γ) (g := fun j => γ j * m + μ j * (1 - m)) (fun j o hj _ h => by rw [rd_ok h, bind_ok, rd_ok (ha.2 j (by omega)), bind_ok]) hg.1 hg.2
  exact ⟨o, h1, h2, h3⟩

/-- The rows and channels of a batch. -/
theorem batch_table {α : Type} {x : Ten α} {pre : List Nat} {ch : Nat} {a : List Nat → α} (hx : x.Has (pre ++ [ch]) a) :
    Is2 x.data (size pre) ch (fun i j => a (unflat pre i ++ [j])) := by
  have h := hx.2.is2
  rw [show size [ch] = ch by simp] at h
  refine ⟨h.1, fun i j hi hj => ?_⟩
  rw [h.2 i j hi hj]
  have := unflat_flat (s := [ch]) (is := [j]) ⟨hj, trivial⟩
  simp only [flat_cons, size_nil, Nat.mul_one] at this
  rw [show flat [] [] = 0 from rfl, Nat.add_zero] at this
  dsimp only
  rw [this]

theorem table_batch {α : Type} {d : List α} {pre : List Nat} {ch : Nat} {g : Nat → Nat → α} {c : List Nat → α} (h : Is2 d (size pre) ch g)
    (e : ∀ ip j, ValidIdx pre ip → j < ch → g (flat pre ip) j = c (ip ++ [j])) : (⟨pre ++ [ch], d⟩ : Ten α).Has (pre ++ [ch]) c := by
  refine ⟨rfl, Is2.isT (b := g) (by simpa using h) (fun ip iq h1 h2 => ?_)⟩
  match iq, h2 with
  | [j], h2 =>
    have : flat [ch] [j] = j := by simp [flat]
    rw [this]; exact e ip j h1 h2.1

/-- What a training run does with its batch; the running averages are left to `running`. -/
theorem train_core (phase : Int) (hp : phase ≠ 0) (eps m : ℝ) (s : NSt) {x : Ten ℝ} {pre : List Nat} {ch : Nat} {a : List Nat → ℝ} (hx : x.Has (pre ++ [ch]) a)
    (hpre : pre ≠ []) (hc : ch ≠ 0) :
    ∃ (avg var : List ℝ) (y : Ten ℝ), Row avg ch (chMean pre a) ∧ Row var ch (chVar pre a) ∧
      y.Has (pre ++ [ch]) (fun is => (a is - chMean pre a (is.getLastD 0)) / √(chVar pre a (is.getLastD 0) + eps)) ∧
      forward phase eps m x s = (do
        let gA' ← running m avg (ctx s.gAvg ⟨[ch], List.replicate ch 0⟩).data (ctx s.gAvg ⟨[ch], List.replicate ch 0⟩).data.length
        let gV' ← running m var (ctx s.gVar ⟨[ch], List.replicate ch 0⟩).data (ctx s.gAvg ⟨[ch], List.replicate ch 0⟩).data.length
        pure (y, { s with gAvg := some ⟨(ctx s.gAvg ⟨[ch], List.replicate ch 0⟩).shape, gA'⟩, gVar := some ⟨(ctx s.gVar ⟨[ch], List.replicate ch 0⟩).shape, gV'⟩,
                          avg := some ⟨[ch], avg⟩, var := some ⟨[ch], var⟩, fwd := some y })) := by
  have ht := batch_table hx
  have hrows : x.data.length / ch = size pre := by rw [ht.1]; exact Nat.mul_div_cancel _ (by omega)
  have hlast : x.shape.getLastD 0 = ch := by rw [hx.1]; simp
  obtain ⟨A, a1, a2⟩ := chanSum_ok (rows := size pre) (ch := ch) (f := fun i j => rd x.data (i * ch + j)) (v := fun i j => a (unflat pre i ++ [j]))
    (fun i j h1 h2 => rd_ok (ht.2 i j h1 h2)) (cleared_row s.avg ch)
  obtain ⟨avg, b1, b2⟩ := divAll_ok (size pre : ℝ) a2
  have hmean : Row avg ch (chMean pre a) := b2.congr (fun j _ => by unfold chMean; rw [zero_add, sumIdx_eq_range])
  obtain ⟨V, c1, c2⟩ := chanSum_ok (rows := size pre) (ch := ch) (f := fun i j => do
      let x ← rd x.data (i * ch + j)
      let a ← rd avg j
      pure ((x - a) ^ 2)) (v := fun i j => (a (unflat pre i ++ [j]) - chMean pre a j) ^ 2)
    (fun i j h1 h2 => by rw [rd_ok (ht.2 i j h1 h2), bind_ok, rd_ok (hmean.2 j h2), bind_ok]; rfl) (cleared_row s.var ch)
  obtain ⟨var, d1, d2⟩ := divAll_ok (size pre : ℝ) c2
  have hvar : Row var ch (chVar pre a) := d2.congr (fun j _ => by unfold chVar; rw [zero_add, sumIdx_eq_range])
  obtain ⟨d, e1, e2⟩ := normalise_ok eps (out := (resizeV (ctx s.fwd emptyT) x.shape).data) ht hmean hvar (by rw [resizeV_length, hx.1, size_append]; simp)
  refine ⟨avg, var, ⟨pre ++ [ch], d⟩, hmean, hvar, table_batch e2 (fun ip j h1 _ => ?_), ?_⟩
  · rw [unflat_flat h1]; simp
  · unfold forward
    rw [assert_true (by rw [hx.1]; cases pre <;> simp_all), bind_ok]
    dsimp only
    rw [hlast, require_true hc, bind_ok, if_neg hp, hrows]
    rw [a1, bind_ok, b1, bind_ok, c1, bind_ok, d1, bind_ok, e1, bind_ok, hx.1]

/-! ## Training -/

/-- The running averages of the channels are `gA` and `gV` (0 before the first batch). -/
def Tracks (s : NSt) (ch : Nat) (gA gV : Nat → ℝ) : Prop :=
  (s.gAvg = none ∧ s.gVar = none ∧ (∀ j, gA j = 0) ∧ ∀ j, gV j = 0) ∨
    ∃ tA tV, s.gAvg = some tA ∧ s.gVar = some tV ∧ Row tA.data ch gA ∧ Row tV.data ch gV

theorem Tracks.ctxs {s : NSt} {ch : Nat} {gA gV : Nat → ℝ} (h : Tracks s ch gA gV) :
    Row (ctx s.gAvg ⟨[ch], List.replicate ch 0⟩).data ch gA ∧ Row (ctx s.gVar ⟨[ch], List.replicate ch 0⟩).data ch gV := by
  rcases h with ⟨h1, h2, h3, h4⟩ | ⟨tA, tV, h1, h2, h3, h4⟩
  · rw [h1, h2]
    simp only [ctx, Option.getD_none]
    exact ⟨⟨by simp, fun j hj => by simp [hj, h3]⟩, ⟨by simp, fun j hj => by simp [hj, h4]⟩⟩
  · rw [h1, h2]
    exact ⟨h3, h4⟩

/-- C71, training (a batch without elements is left out: the code divides 0 by 0): every element has its channel's mean subtracted and is divided by the root of the channel's variance (plus eps), and the
running averages move towards the batch's. -/
theorem training_step_partial (phase : Int) (hp : phase ≠ 0) (eps m : ℝ) (s : NSt) (x : Ten ℝ) (pre : List Nat) (ch : Nat) (a : List Nat → ℝ) (hx : x.Has (pre ++ [ch]) a)
    (hpre : pre ≠ []) (_ : size pre ≠ 0) (hc : ch ≠ 0) (gA gV : Nat → ℝ) (ht : Tracks s ch gA gV) :
    ∃ y s', forward phase eps m x s = ok (y, s') ∧
      y.Has (pre ++ [ch]) (fun is => (a is - chMean pre a (is.getLastD 0)) / √(chVar pre a (is.getLastD 0) + eps)) ∧
      Tracks s' ch (fun j => gA j * m + chMean pre a j * (1 - m)) (fun j => gV j * m + chVar pre a j * (1 - m)) ∧
      (∃ t, s'.var = some t ∧ Row t.data ch (chVar pre a)) ∧ s'.bwd = s.bwd ∧ s'.gAvg ≠ none := by
  obtain ⟨avg, var, y, h1, h2, h3, h4⟩ := train_core phase hp eps m s hx hpre hc
  obtain ⟨c1, c2⟩ := ht.ctxs
  obtain ⟨oA, r1, r2⟩ := running_ok m h1 c1 le_rfl
  obtain ⟨oV, r3, r4⟩ := running_ok m h2 c2 le_rfl
  rw [c1.1, r1, bind_ok, r3, bind_ok] at h4
  exact ⟨y, _, h4, h3, Or.inr ⟨_, _, rfl, rfl, r2, r4⟩, ⟨_, rfl, h2⟩, rfl, by simp⟩

theorem chVar_nonneg (pre : List Nat) (a : List Nat → ℝ) (c : Nat) : 0 ≤ chVar pre a c := by
  unfold chVar
  rw [sumIdx_eq_range]
  exact div_nonneg (Finset.sum_nonneg (fun _ _ => sq_nonneg _)) (Nat.cast_nonneg _)

theorem sumIdx_const (s : List Nat) (c : ℝ) : sumIdx s (fun _ => c) = size s * c := by rw [sumIdx_eq_range]; simp

/-- The mean and the variance of a channel after an affine change of it. -/
theorem chMean_affine {pre : List Nat} (hs : size pre ≠ 0) {a b : List Nat → ℝ} {c : Nat} {μ k : ℝ} (h : ∀ ip, ValidIdx pre ip → b (ip ++ [c]) = k * (a (ip ++ [c]) - μ)) :
    chMean pre b c = k * (chMean pre a c - μ) := by
  have hs' : (size pre : ℝ) ≠ 0 := Nat.cast_ne_zero.mpr hs
  unfold chMean
  rw [sumIdx_congr h, sumIdx_mul_left]
  have : sumIdx pre (fun ip => a (ip ++ [c]) - μ) = sumIdx pre (fun ip => a (ip ++ [c])) - size pre * μ := by
    simp only [sub_eq_add_neg]
    rw [sumIdx_add, sumIdx_const]; ring
  rw [this]
  field_simp

theorem chVar_affine {pre : List Nat} (hs : size pre ≠ 0) {a b : List Nat → ℝ} {c : Nat} {μ k : ℝ} (h : ∀ ip, ValidIdx pre ip → b (ip ++ [c]) = k * (a (ip ++ [c]) - μ)) :
    chVar pre b c = k ^ 2 * chVar pre a c := by
  unfold chVar
  rw [chMean_affine hs h, ← mul_div_assoc, ← sumIdx_mul_left]
  congr 1
  refine sumIdx_congr (fun ip hv => ?_)
  rw [h ip hv]; ring

/-- C71, training: each channel of the result has mean 0 and variance `var / (var + eps)`. -/
theorem training_moments (phase : Int) (hp : phase ≠ 0) (eps m : ℝ) (heps : 0 < eps) (s : NSt) (x : Ten ℝ) (pre : List Nat) (ch : Nat) (a : List Nat → ℝ) (hx : x.Has (pre ++ [ch]) a)
    (hpre : pre ≠ []) (hs : size pre ≠ 0) (y : Ten ℝ) (s' : NSt) (h : forward phase eps m x s = ok (y, s')) (c : Nat) (hcc : c < ch) :
    chMean pre y.at c = 0 ∧ chVar pre y.at c = chVar pre a c / (chVar pre a c + eps) := by
  obtain ⟨avg, var, y', _, _, h3, h4⟩ := train_core phase hp eps m s hx hpre (by omega)
  have hy : y' = y := by
    rw [h4, bind_eq_ok] at h
    obtain ⟨_, _, h⟩ := h
    rw [bind_eq_ok] at h
    obtain ⟨_, _, h⟩ := h
    rw [pure_eq] at h
    injection h with h
    injection h
  subst hy
  have hv : ∀ ip, ValidIdx pre ip → y'.at (ip ++ [c]) = 1 / √(chVar pre a c + eps) * (a (ip ++ [c]) - chMean pre a c) := by
    intro ip hip
    rw [h3.at_eq ((validIdx_append hip.length_eq).mpr ⟨hip, by exact ⟨hcc, trivial⟩⟩)]
    simp only [List.getLastD_concat]
    ring
  have hpos : 0 < chVar pre a c + eps := by linarith [chVar_nonneg pre a c]
  refine ⟨by rw [chMean_affine hs hv]; ring, ?_⟩
  rw [chVar_affine hs hv, div_pow, one_pow, Real.sq_sqrt hpos.le]
  ring

/-- Training on batch after batch. -/
def trainAll (phase : Int) (eps m : ℝ) (xs : List (Ten ℝ)) (s : NSt) : Res NSt := xs.foldlM (fun s x => do
  let (_, s) ← forward phase eps m x s
  pure s) s

/-- C71, the running averages after any number of batches (of any sizes): exponentially weighted means of the batches' means and variances,
starting from 0. -/
theorem running_averages_partial (phase : Int) (hp : phase ≠ 0) (eps m : ℝ) (ch : Nat) (hc : ch ≠ 0) (bs : List (List Nat × (List Nat → ℝ))) :
    ∀ (xs : List (Ten ℝ)) (s : NSt) (gA gV : Nat → ℝ), List.Forall₂ (fun x (b : List Nat × (List Nat → ℝ)) => x.Has (b.1 ++ [ch]) b.2 ∧ b.1 ≠ [] ∧ size b.1 ≠ 0) xs bs → Tracks s ch gA gV →
      ∃ s', trainAll phase eps m xs s = ok s' ∧ Tracks s' ch (fun j => bs.foldl (fun g b => g * m + chMean b.1 b.2 j * (1 - m)) (gA j))
        (fun j => bs.foldl (fun g b => g * m + chVar b.1 b.2 j * (1 - m)) (gV j)) ∧ s'.bwd = s.bwd ∧ (s.gAvg ≠ none ∨ xs ≠ [] → s'.gAvg ≠ none) := by
  induction bs with
  | nil =>
    intro xs s gA gV h ht
    cases h
    exact ⟨s, rfl, ht, rfl, fun h => h.resolve_right (by simp)⟩
  | cons b bs ih =>
    intro xs s gA gV h ht
    cases h with
    | cons h1 h2 =>
      rename_i x xs
      obtain ⟨y, s1, k1, _, k3, _, k5, k6⟩ := training_step_partial phase hp eps m s x b.1 ch b.2 h1.1 h1.2.1 h1.2.2 hc gA gV ht
      obtain ⟨s2, e1, e2, e3, e4⟩ := ih xs s1 _ _ h2 k3
      refine ⟨s2, ?_, e2, by rw [e3, k5], fun _ => e4 (Or.inl k6)⟩
      unfold trainAll at e1 ⊢
      rw [List.foldlM_cons, k1, bind_ok]
      exact e1

/-! ## Prediction -/

theorem ctx_some (t i : Ten ℝ) : ctx (some t) i = t := rfl

/-- C71, prediction after training: the running averages take the place of the batch's mean and variance, and are kept. -/
theorem prediction_partial (eps m : ℝ) (s : NSt) (x : Ten ℝ) (pre : List Nat) (ch : Nat) (a : List Nat → ℝ) (hx : x.Has (pre ++ [ch]) a)
    (hpre : pre ≠ []) (hc : ch ≠ 0) (gA gV : Nat → ℝ) (ht : Tracks s ch gA gV) (hn : s.gAvg ≠ none) :
    ∃ y s', forward 0 eps m x s = ok (y, s') ∧ y.Has (pre ++ [ch]) (fun is => (a is - gA (is.getLastD 0)) / √(gV (is.getLastD 0) + eps)) ∧
      Tracks s' ch gA gV ∧ s'.gAvg = s.gAvg := by
  rcases ht with ⟨h1, _⟩ | ⟨tA, tV, h1, h2, h3, h4⟩
  · exact absurd h1 hn
  have hb := batch_table hx
  have hrows : x.data.length / ch = size pre := by rw [hb.1]; exact Nat.mul_div_cancel _ (by omega)
  have hlast : x.shape.getLastD 0 = ch := by rw [hx.1]; simp
  obtain ⟨d, e1, e2⟩ := normalise_ok eps (out := (resizeV (ctx s.fwd (zerosLike x)) x.shape).data) hb h3 h4 (by rw [resizeV_length, hx.1, size_append]; simp)
  refine ⟨⟨pre ++ [ch], d⟩, { s with gAvg := some tA, fwd := some ⟨pre ++ [ch], d⟩ }, ?_, table_batch e2 (fun ip j v1 _ => ?_), Or.inr ⟨tA, tV, rfl, h2, h3, h4⟩, h1.symm⟩
  · unfold forward
    rw [assert_true (by rw [hx.1]; cases pre <;> simp_all), bind_ok]
    dsimp only
    rw [hlast, require_true hc, bind_ok, if_pos rfl, hrows, h1, h2, ctx_some, if_neg (fun he => hc (by rw [← h3.1, he]; rfl))]
    simp only [extract, bind_ok]
    rw [e1, bind_ok, hx.1]
    rfl
  · rw [unflat_flat v1]; simp

/-- Going backward before any training run stops, as does predicting with averages but no variances. -/
theorem nothing_extracted (eps m : ℝ) (s : NSt) (x g a : Ten ℝ) (hr : 1 < x.shape.length) (hc : x.shape.getLastD 0 ≠ 0) :
    (s.var = none → backward eps x g s = abort) ∧ (s.gAvg = some a → a.data ≠ [] → s.gVar = none → forward 0 eps m x s = abort) := by
  refine ⟨fun h => by unfold backward; rw [h]; rfl, fun h1 h2 h3 => ?_⟩
  unfold forward
  rw [assert_true hr, bind_ok]
  dsimp only
  rw [require_true hc, bind_ok, if_pos rfl, h1]
  show (if a.data = [] then _ else _) = _
  rw [if_neg h2, h3]
  rfl

/-- Prediction before any training is the identity... -/
theorem prediction_untrained (eps m : ℝ) (s : NSt) (x : Ten ℝ) (hr : 1 < x.shape.length) (hc : x.shape.getLastD 0 ≠ 0) (hs : ctx s.gAvg emptyT = emptyT) :
    forward 0 eps m x s = ok (x, { s with gAvg := some emptyT }) := by
  unfold forward
  rw [assert_true hr, bind_ok]
  dsimp only
  rw [require_true hc, bind_ok, if_pos rfl, hs, if_pos (show emptyT.data = [] from rfl)]

/-- The cache of the running average is an empty tensor. -/
def Poisoned (s : NSt) : Prop := ∃ sh, s.gAvg = some ⟨sh, []⟩

theorem poisoned_train (phase : Int) (hp : phase ≠ 0) (eps m : ℝ) (s : NSt) (x : Ten ℝ) (pre : List Nat) (ch : Nat) (a : List Nat → ℝ) (hx : x.Has (pre ++ [ch]) a)
    (hpre : pre ≠ []) (hc : ch ≠ 0) (hs : Poisoned s) : ∃ y s', forward phase eps m x s = ok (y, s') ∧ Poisoned s' := by
  obtain ⟨avg, var, y, h1, h2, h3, h4⟩ := train_core phase hp eps m s hx hpre hc
  obtain ⟨sh, hs⟩ := hs
  rw [hs] at h4
  simp only [ctx, Option.getD_some, List.length_nil, running, loop_zero, bind_ok, pure_eq] at h4
  exact ⟨y, _, h4, sh, rfl⟩

/-- C71 is false of the code after a prediction that came before the first training run (as in a GAN, the case the code comments on): however
many batches are trained on afterwards, predictions are the identity for ever. -/
theorem prediction_first_violated (phase : Int) (hp : phase ≠ 0) (eps m : ℝ) (x0 : Ten ℝ) (hr : 1 < x0.shape.length) (hc0 : x0.shape.getLastD 0 ≠ 0)
    (ch : Nat) (hc : ch ≠ 0) (bs : List (List Nat × (List Nat → ℝ))) (xs : List (Ten ℝ))
    (hxs : List.Forall₂ (fun x (b : List Nat × (List Nat → ℝ)) => x.Has (b.1 ++ [ch]) b.2 ∧ b.1 ≠ []) xs bs) (z : Ten ℝ) (hz : 1 < z.shape.length) (hzc : z.shape.getLastD 0 ≠ 0) :
    ∃ s1 s2, forward 0 eps m x0 NSt.new = ok (x0, s1) ∧ trainAll phase eps m xs s1 = ok s2 ∧ ∃ s3, forward 0 eps m z s2 = ok (z, s3) := by
  have h1 := prediction_untrained eps m NSt.new x0 hr hc0 rfl
  have key : ∀ (bs : List (List Nat × (List Nat → ℝ))) (xs : List (Ten ℝ)) (s : NSt), Poisoned s →
      List.Forall₂ (fun x (b : List Nat × (List Nat → ℝ)) => x.Has (b.1 ++ [ch]) b.2 ∧ b.1 ≠ []) xs bs → ∃ s2, trainAll phase eps m xs s = ok s2 ∧ Poisoned s2 := by
    intro bs
    induction bs with
    | nil => intro xs s hs h; cases h; exact ⟨s, rfl, hs⟩
    | cons b bs ih =>
      intro xs s hs h
      cases h with
      | cons k1 k2 =>
        obtain ⟨y, s1, e1, e2⟩ := poisoned_train phase hp eps m s _ b.1 ch b.2 k1.1 k1.2 hc hs
        obtain ⟨s2, e3, e4⟩ := ih _ s1 e2 k2
        refine ⟨s2, ?_, e4⟩
        unfold trainAll at e3 ⊢
        rw [List.foldlM_cons, e1, bind_ok]
        exact e3
  obtain ⟨s2, h2, sh, h3⟩ := key bs xs { NSt.new with gAvg := some emptyT } ⟨[], rfl⟩ hxs
  refine ⟨_, s2, h1, h2, ?_⟩
  refine ⟨{ s2 with gAvg := some ⟨sh, []⟩ }, ?_⟩
  unfold forward
  rw [assert_true hz, bind_ok]
  dsimp only
  rw [require_true hzc, bind_ok, if_pos rfl, h3, ctx_some, if_pos rfl]

/-! ## Backward -/

/-- What the backward action computes, when its cache fits: the gradient over the root of the *training* variance. -/
theorem backward_partial (eps : ℝ) (s : NSt) (x g : Ten ℝ) (pre : List Nat) (ch : Nat) (a b : List Nat → ℝ) (hx : x.Has (pre ++ [ch]) a) (hg : g.Has (pre ++ [ch]) b)
    (hc : ch ≠ 0) (t : Ten ℝ) (v : Nat → ℝ) (hs : s.var = some t) (ht : Row t.data ch v)
    (hb : s.bwd = none ∨ ∃ u, s.bwd = some u ∧ u.shape = pre ++ [ch] ∧ u.WF) :
    ∃ r s', backward eps x g s = ok (r, s') ∧ r.Has (pre ++ [ch]) (fun is => b is / √(v (is.getLastD 0) + eps)) ∧ s'.bwd = some r := by
  have hbx := batch_table hx
  have hbg := batch_table hg
  have hrows : x.data.length / ch = size pre := by rw [hbx.1]; exact Nat.mul_div_cancel _ (by omega)
  have hlast : x.shape.getLastD 0 = ch := by rw [hx.1]; simp
  have hsz : size (pre ++ [ch]) = size pre * ch := by rw [size_append]; simp
  have hctx : (ctx s.bwd (zerosLike x)).shape = pre ++ [ch] ∧ (ctx s.bwd (zerosLike x)).data.length = size pre * ch := by
    rcases hb with h | ⟨u, h, h1, h2⟩
    · rw [h]; refine ⟨hx.1, ?_⟩
      simp only [ctx, Option.getD_none, zerosLike, List.length_replicate, hx.1, hsz]
    · rw [h]; exact ⟨h1, by rw [ctx_some, ← hsz, ← h1]; exact h2⟩
  obtain ⟨d, e1, e2⟩ := fill2 (m := size pre) (n := ch) (out := (ctx s.bwd (zerosLike x)).data) (body := fun i j o => do
    let g ← rd g.data (i * ch + j)
    let v ← rd t.data j
    wr o (i * ch + j) (g / √(v + eps))) (g := fun i j => b (unflat pre i ++ [j]) / √(v j + eps))
    (fun i j o h1 h2 _ => by rw [rd_ok (hbg.2 i j h1 h2), bind_ok, rd_ok (ht.2 j h2), bind_ok]) hctx.2
  refine ⟨⟨pre ++ [ch], d⟩, { s with bwd := some ⟨pre ++ [ch], d⟩ }, ?_, table_batch e2 (fun ip j v1 _ => by rw [unflat_flat v1]; simp), rfl⟩
  · unfold backward
    rw [hs]
    simp only [extract, bind_ok]
    rw [require_true (by rw [hx.1]; simp), bind_ok]
    rw [hlast, require_true hc, bind_ok, hrows, e1, bind_ok, hctx.1]
    rfl

/-- The function the training run computes. -/
def normalised (pre : List Nat) (eps : ℝ) (a : List Nat → ℝ) (is : List Nat) : ℝ := (a is - chMean pre a (is.getLastD 0)) / √(chVar pre a (is.getLastD 0) + eps)

/-- The result of a training run always sums to 0. -/
theorem normalised_sum (pre : List Nat) (hs : size pre ≠ 0) (ch : Nat) (eps : ℝ) (a : List Nat → ℝ) : sumIdx (pre ++ [ch]) (normalised pre eps a) = 0 := by
  rw [sumIdx_append]
  have : ∀ ip, sumIdx [ch] (fun iq => normalised pre eps a (ip ++ iq)) = ∑ c ∈ Finset.range ch, normalised pre eps a (ip ++ [c]) := fun _ => rfl
  simp only [this]
  rw [sumIdx_sum]
  refine Finset.sum_eq_zero (fun c _ => ?_)
  have h : chMean pre (normalised pre eps a) c = 1 / √(chVar pre a c + eps) * (chMean pre a c - chMean pre a c) := chMean_affine hs (fun ip _ => by
    unfold normalised
    rw [List.getLastD_concat]; ring)
  rw [sub_self, mul_zero] at h
  unfold chMean at h
  have hs' : (size pre : ℝ) ≠ 0 := Nat.cast_ne_zero.mpr hs
  exact (div_eq_zero_iff.mp h).resolve_right hs'

/-- C92 is false of the code, for every batch and every element: with the incoming gradient 1 everywhere the derivative of the sum of a training run's
result with respect to an element is 0, but the backward action returns a positive number (it treats mean and variance as constants). -/
theorem backward_violated (phase : Int) (hp : phase ≠ 0) (eps m : ℝ) (heps : 0 < eps) (s : NSt) (x g : Ten ℝ) (pre : List Nat) (ch : Nat) (a : List Nat → ℝ) (hx : x.Has (pre ++ [ch]) a)
    (hg : g.Has (pre ++ [ch]) (fun _ => 1)) (hpre : pre ≠ []) (hs : size pre ≠ 0) (hc : ch ≠ 0) (gA gV : Nat → ℝ) (ht : Tracks s ch gA gV) (hb : s.bwd = none)
    (q : List Nat) (hq : ValidIdx (pre ++ [ch]) q) :
    ∃ y s1 r s2 v, forward phase eps m x s = ok (y, s1) ∧ y.Has (pre ++ [ch]) (normalised pre eps a) ∧ backward eps x g s1 = ok (r, s2) ∧ r.at q = v ∧ 0 < v ∧
      HasDerivAt (fun t => sumIdx (pre ++ [ch]) (fun is => 1 * normalised pre eps (fun js => a js + t * (if js = q then 1 else 0)) is)) 0 0 := by
  obtain ⟨y, s1, h1, h2, _, ⟨t, h4, h5⟩, h6, _⟩ := training_step_partial phase hp eps m s x pre ch a hx hpre hs hc gA gV ht
  obtain ⟨r, s2, k1, k2, _⟩ := backward_partial eps s1 x g pre ch a _ hx hg hc t _ h4 h5 (Or.inl (by rw [h6, hb]))
  refine ⟨y, s1, r, s2, _, h1, h2, k1, rfl, ?_, ?_⟩
  · rw [k2.at_eq hq]
    have : 0 < chVar pre a (q.getLastD 0) + eps := by linarith [chVar_nonneg pre a (q.getLastD 0)]
    positivity
  · have : (fun t : ℝ => sumIdx (pre ++ [ch]) (fun is => 1 * normalised pre eps (fun js => a js + t * (if js = q then 1 else 0)) is)) = fun _ => 0 := by
      funext t
      simp only [one_mul]
      exact normalised_sum pre hs ch eps _
    rw [this]
    exact hasDerivAt_const _ _

/-- If a loop succeeds, every iteration did, from a state with the invariant. -/
theorem loop_ok_step_inv {σ : Type} {n : Nat} {body : Nat → σ → Res σ} {s s' : σ} (P : σ → Prop) (h0 : P s) (hs : ∀ i a b, body i a = ok b → P a → P b)
    (h : loop n body s = ok s') {i : Nat} (hi : i < n) : ∃ s1 s2, P s1 ∧ body i s1 = ok s2 := by
  induction n generalizing s' with
  | zero => omega
  | succ n ih =>
    rw [loop_succ, bind_eq_ok] at h
    obtain ⟨t, h1, h2⟩ := h
    by_cases hin : i = n
    · subst hin; exact ⟨t, s', loop_ok_inv P h0 hs h1, h2⟩
    · exact ih h1 (by omega)

/-- The backward cache keeps the size of the first batch: a later, larger batch is written out of bounds... -/
theorem backward_larger_violated (eps : ℝ) (s : NSt) (x g : Ten ℝ) (pre : List Nat) (ch : Nat) (a : List Nat → ℝ) (hx : x.Has (pre ++ [ch]) a)
    (hc : ch ≠ 0) (t u : Ten ℝ) (hs : s.var = some t) (hb : s.bwd = some u) (hu : u.data.length < size (pre ++ [ch])) :
    backward eps x g s = ub := by
  have hbx := batch_table hx
  have hrows : x.data.length / ch = size pre := by rw [hbx.1]; exact Nat.mul_div_cancel _ (by omega)
  have hlast : x.shape.getLastD 0 = ch := by rw [hx.1]; simp
  have hsz : size (pre ++ [ch]) = size pre * ch := by rw [size_append]; simp
  have hctx : ctx s.bwd (zerosLike x) = u := by rw [hb]; rfl
  unfold backward
  rw [hs]
  simp only [extract, bind_ok]
  rw [require_true (by rw [hx.1]; simp), bind_ok]
  rw [hlast, require_true hc, bind_ok, hrows, hctx]
  have hrow0 : size pre ≠ 0 := fun h => by rw [hsz, h] at hu; omega
  refine Dataset.ub_of ?_ (fun o ho => ?_)
  · intro h
    cases e : loop (size pre) (fun i o => loop ch (fun j o => do
        let g ← rd g.data (i * ch + j)
        let v ← rd t.data j
        wr o (i * ch + j) (g / √(v + eps))) o) u.data with
    | ok d => rw [e, bind_ok] at h; cases h
    | ub => rw [e] at h; cases h
    | abort =>
      refine Dataset.loop_not_abort (fun i o => Dataset.loop_not_abort (fun j o => ?_) o) _ e
      intro k
      cases e1 : rd g.data (i * ch + j) with
      | abort => exact Dataset.rd_not_abort _ _ e1
      | ub => rw [e1] at k; cases k
      | ok w =>
        rw [e1, bind_ok] at k
        cases e2 : rd t.data j with
        | abort => exact Dataset.rd_not_abort _ _ e2
        | ub => rw [e2] at k; cases k
        | ok w => rw [e2, bind_ok] at k; exact Dataset.wr_not_abort _ _ _ k
  · rw [bind_eq_ok] at ho
    obtain ⟨d, h1, _⟩ := ho
    have hw : ∀ i j (o o' : List ℝ), (do
        let g ← rd g.data (i * ch + j)
        let v ← rd t.data j
        wr o (i * ch + j) (g / √(v + eps))) = ok o' → i * ch + j < o.length ∧ o'.length = o.length := by
      intro i j o o' h
      simp only [bind_eq_ok] at h
      obtain ⟨_, _, _, _, h⟩ := h
      obtain ⟨k1, k2⟩ := wr_eq_ok.mp h
      exact ⟨k1, by rw [k2, List.length_set]⟩
    obtain ⟨o1, o2, p1, p2⟩ := loop_ok_step_inv (fun o => o.length = u.data.length) rfl
      (fun i o o' h p => by
        refine loop_ok_inv (fun q => q.length = u.data.length) p (fun j q q' h' p' => ?_) h
        rw [(hw i j q q' h').2, p']) h1 (i := size pre - 1) (by omega)
    obtain ⟨o3, o4, p3, p4⟩ := loop_ok_step_inv (fun o => o.length = u.data.length) p1
      (fun j q q' h' p' => by rw [(hw _ j q q' h').2, p']) p2 (i := ch - 1) (by omega)
    have := (hw _ _ _ _ p4).1
    have e3 : (size pre - 1) * ch + ch = size pre * ch := by
      rw [← Nat.succ_mul]; congr 1; omega
    omega

/-- ...and a later, smaller batch gets a gradient of the first batch's shape. -/
theorem backward_smaller_violated (eps : ℝ) (s s' : NSt) (x g r u : Ten ℝ) (hb : s.bwd = some u) (hu : u.shape ≠ x.shape) (h : backward eps x g s = ok (r, s')) :
    r.shape ≠ x.shape := by
  unfold backward at h
  simp only [bind_eq_ok, pure_eq] at h
  obtain ⟨_, _, _, _, _, _, d, _, h⟩ := h
  injection h with h
  injection h with h
  rw [← h, hb]
  exact hu

/-! ## Witnesses -/

/-- Two rows of one channel: 1 and 3. -/
def batch : Ten ℝ := ⟨[2, 1], [1, 3]⟩

theorem batch_has : batch.Has ([2] ++ [1]) (fun is => if is = [0, 0] then 1 else 3) := by
  refine ⟨rfl, ⟨rfl, ?_⟩⟩
  intro is hv
  match is, hv with
  | [0, 0], _ => rfl
  | [1, 0], _ => simp [batch, flat]
  | [_ + 2, _], h => exact absurd h.1 (by omega)
  | [0, _ + 1], h => exact absurd h.2.1 (by omega)
  | [1, _ + 1], h => exact absurd h.2.1 (by omega)

/-- The mean of the channel is 2, its variance 1. -/
example : chMean [2] (fun is => if is = [0, 0] then 1 else 3) 0 = 2 ∧ chVar [2] (fun is => if is = [0, 0] then 1 else 3) 0 = 1 := by
  have h : chMean [2] (fun is => if is = [0, 0] then 1 else 3) 0 = 2 := by
    simp [chMean, sumIdx, Finset.sum_range_succ]; norm_num
  refine ⟨h, ?_⟩
  unfold chVar
  rw [h]
  simp [sumIdx, Finset.sum_range_succ]; norm_num

/-- `training_step_partial` and `training_moments` apply to it, from a new normaliser. -/
example : ∃ y s', forward 1 (1 / 100) (9 / 10) batch NSt.new = ok (y, s') ∧ chMean [2] y.at 0 = 0 := by
  obtain ⟨y, s', h, _⟩ := training_step_partial 1 (by decide) (1 / 100) (9 / 10) NSt.new batch [2] 1 _ batch_has (by simp) (by decide) (by decide) (fun _ => 0) (fun _ => 0)
    (Or.inl ⟨rfl, rfl, fun _ => rfl, fun _ => rfl⟩)
  exact ⟨y, s', h, (training_moments 1 (by decide) (1 / 100) (9 / 10) (by norm_num) NSt.new batch [2] 1 _ batch_has (by simp) (by decide) y s' h 0 (by decide)).1⟩

/-- `running_averages_partial` and `prediction_partial` apply: after two equal batches the running mean is `2 * (1 - m^2)`. -/
example (m : ℝ) : ∃ s y s', trainAll 1 (1 / 100) m [batch, batch] NSt.new = ok s ∧ forward 0 (1 / 100) m batch s = ok (y, s') := by
  obtain ⟨s, h1, h2, _, hn⟩ := running_averages_partial 1 (by decide) (1 / 100) m 1 (by decide) [([2], _), ([2], _)] [batch, batch] NSt.new (fun _ => 0) (fun _ => 0)
    (.cons ⟨batch_has, by simp, by decide⟩ (.cons ⟨batch_has, by simp, by decide⟩ .nil)) (Or.inl ⟨rfl, rfl, fun _ => rfl, fun _ => rfl⟩)
  obtain ⟨y, s', h3, _⟩ := prediction_partial (1 / 100) m s batch [2] 1 _ batch_has (by simp) (by decide) _ _ h2 (hn (Or.inr (by simp)))
  exact ⟨s, y, s', h1, h3⟩

/-- `backward_violated` applies to it. -/
example : ∃ y s1 r s2, forward 1 (1 / 100) (9 / 10) batch NSt.new = ok (y, s1) ∧ backward (1 / 100) batch ⟨[2, 1], [1, 1]⟩ s1 = ok (r, s2) ∧ 0 < r.at [0, 0] := by
  obtain ⟨y, s1, r, s2, v, h1, _, h2, h3, h4, _⟩ := backward_violated 1 (by decide) (1 / 100) (9 / 10) (by norm_num) NSt.new batch ⟨[2, 1], [1, 1]⟩ [2] 1 _ batch_has
    ⟨rfl, ⟨rfl, fun is hv => by
      match is, hv with
      | [0, 0], _ => rfl
      | [1, 0], _ => simp [flat]
      | [_ + 2, _], h => exact absurd h.1 (by omega)
      | [0, _ + 1], h => exact absurd h.2.1 (by omega)
      | [1, _ + 1], h => exact absurd h.2.1 (by omega)⟩⟩ (by simp) (by decide) (by decide) (fun _ => 0) (fun _ => 0)
    (Or.inl ⟨rfl, rfl, fun _ => rfl, fun _ => rfl⟩) rfl [0, 0] ⟨by decide, by decide, trivial⟩
  exact ⟨y, s1, r, s2, h1, h2, by rw [h3]; exact h4⟩

/-- `prediction_first_violated`, `backward_larger_violated` and `backward_smaller_violated` apply. -/
example : ∃ s1 s2, forward 0 (1 / 100) (9 / 10) batch NSt.new = ok (batch, s1) ∧ trainAll 1 (1 / 100) (9 / 10) [batch, batch] s1 = ok s2 ∧
    ∃ s3, forward 0 (1 / 100) (9 / 10) batch s2 = ok (batch, s3) :=
  prediction_first_violated 1 (by decide) (1 / 100) (9 / 10) batch (by decide) (by decide) 1 (by decide) [([2], _), ([2], _)] [batch, batch]
    (.cons ⟨batch_has, by simp⟩ (.cons ⟨batch_has, by simp⟩ .nil)) batch (by decide) (by decide)

example : backward (1 / 100) batch ⟨[2, 1], [1, 1]⟩ { NSt.new with var := some ⟨[1], [1]⟩, bwd := some ⟨[1, 1], [0]⟩ } = ub :=
  backward_larger_violated (1 / 100) _ batch ⟨[2, 1], [1, 1]⟩ [2] 1 _ batch_has (by decide) ⟨[1], [1]⟩ ⟨[1, 1], [0]⟩ rfl rfl (by decide)

example : ∃ r s', backward (1 / 100) batch ⟨[2, 1], [1, 1]⟩ { NSt.new with var := some ⟨[1], [1]⟩, bwd := some ⟨[3, 1], [0, 0, 0]⟩ } = ok (r, s') ∧ r.shape ≠ batch.shape := by
  have h : ∃ r s', backward (1 / 100) batch ⟨[2, 1], [1, 1]⟩ { NSt.new with var := some ⟨[1], [1]⟩, bwd := some ⟨[3, 1], [0, 0, 0]⟩ } = ok (r, s') := ⟨_, _, rfl⟩
  obtain ⟨r, s', h⟩ := h
  exact ⟨r, s', h, backward_smaller_violated _ _ _ _ _ _ _ rfl (by simp [batch]) h⟩

end
end Verif.Norm
