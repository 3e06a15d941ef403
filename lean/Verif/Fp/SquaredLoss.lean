import Verif.Fp.Step
/-!
# The squared loss computed with rounding (C142)

`squared_loss` and `mean_squared_error` (`include/loss.hpp` lines 17-33) on top of the networks of C141, for the rounded formats: what they send to the predictions,
and the value of `squared_loss`.
-/
namespace Verif.Fp
open Verif Res Verif.Finite Nan Graph Ops Finset

variable {f : Fmt}

/-! ### the operators -/

/-- `negative` (include/operation.hpp lines 673-687, include/tensor.hpp lines 460-465). -/
def negOp : UOp (Num f) := ⟨fun x => ok ⟨x.shape, x.data.map Nan.neg⟩, fun _ _ g => ok ⟨g.shape, g.data.map Nan.neg⟩⟩

/-- `square` (include/operation.hpp lines 1037-1056, include/tensor.hpp lines 434-445); `two` is `value_type{2}`. -/
def squareOp (two : Num f) : UOp (Num f) where
  fwd x := ok ⟨x.shape, x.data.map (fun v => v * v)⟩
  bwd x _ g := do
    Res.assert (x.shape = g.shape)
    let t ← each2F x.data.length (fun v g => v * g) x g
    pure ⟨t.shape, t.data.map (fun v => v * two)⟩

/-- `sum_reduce` (include/operation.hpp lines 922-940). -/
def sumOp : UOp (Num f) := ⟨sumReduce, fun x _ g => sumReduceBack x g⟩

/-- `mean_reduce` (include/operation.hpp lines 960-981). -/
def meanOp : UOp (Num f) := ⟨meanReduce, fun x _ g => meanReduceBack x g⟩

/-- `squared_loss( label, prediction )` with `sum_reduce`, `mean_squared_error` with `mean_reduce` (include/loss.hpp lines 17-33); the labels are place holder `b`. -/
def squaredOf {α : Type} (sm sq ng : UOp α) (pl : BOp α) (j b : Nat) (e : Ex α) : Ex α := .un (j + 3) sm (.un (j + 2) sq (.bin (j + 1) pl (.leaf b) (.un j ng e)))

/-- With the operators over the reals they are the expressions of `Verif.Loss`. -/
theorem squaredOf_real (K : Loss.Kit) (j b : Nat) (e : Ex ℝ) :
    Loss.squaredLoss K j (.leaf b) e = squaredOf opSum (opElem .square K.cacheF K.cacheB) (opElem .negative K.cacheF K.cacheB) (opPlus K.red K.fuel) j b e ∧
    Loss.mse K j (.leaf b) e = squaredOf Loss.opMean (opElem .square K.cacheF K.cacheB) (opElem .negative K.cacheF K.cacheB) (opPlus K.red K.fuel) j b e := ⟨rfl, rfl⟩

/-! ### the specification -/

/-- The error of `label - prediction`. -/
def diffErr (u T Y EY : ℝ) : ℝ := addErr u (T - Y) EY

/-- The error of the gradient of the square: two products, with what arrives within `κ` of `C`. -/
def squareErr (u w T Y EY C κ : ℝ) : ℝ := mulErr u w ((T - Y) * C) (mulErr u w (T - Y) (diffErr u T Y EY) C κ) 2 0

/-- The error of what the loss sends to a prediction. -/
def sentErr (u w T Y EY C κ : ℝ) : ℝ := squareErr u w T Y EY C κ + roundings u 2 (|(T - Y) * C * 2| + squareErr u w T Y EY C κ)

/-- No step overflows. -/
def SquareFits (u w top T Y EY C κ : ℝ) : Prop :=
  |T - Y| + EY ≤ top ∧ (|T - Y| + diffErr u T Y EY) * (|C| + κ) ≤ top ∧ (|(T - Y) * C| + mulErr u w (T - Y) (diffErr u T Y EY) C κ) * 2 ≤ top ∧
  (1 + u) ^ 2 * (|(T - Y) * C * 2| + squareErr u w T Y EY C κ) ≤ top

/-- An operator that makes one number of a matrix and sends every element a number within `κ` of `C`. -/
def Spreads (sm : UOp (Num f)) (g0 : Ten (Num f)) (m n : Nat) (C κ : ℝ) : Prop :=
  ∀ (x : Ten (Num f)) (a : List Nat → Num f), x.Has [m, n] a → ∃ y g c, sm.fwd x = ok y ∧ sm.bwd x y g0 = ok g ∧ g.Has [m, n] (fun _ => c) ∧ fin c ∧ |val c - C| ≤ κ

/-! ### proofs -/

theorem map_has {α β : Type} (h : α → β) {x : Ten α} {sh : List Nat} {a : List Nat → α} (hx : x.Has sh a) : (⟨x.shape, x.data.map h⟩ : Ten β).Has sh (fun is => h (a is)) :=
  ⟨hx.1, by rw [List.length_map, hx.2.1], fun is hv => by rw [List.getElem?_map, hx.2.2 is hv]; rfl⟩

theorem onesTimes_any {α : Type} [One α] [Mul α] (input g : Ten α) {x : α} (hg : g.data = [x]) :
    ∃ u, onesTimes input g = ok u ∧ u.Has input.shape (fun _ => 1 * x) := by
  obtain ⟨o, h1, h2, h3⟩ := update1 (n := size input.shape) (out := List.replicate (size input.shape) (1 : α))
    (body := fun i o => do
      let y ← rd o i
      wr o i (y * x)) (a := fun _ => (1 : α)) (g := fun _ => 1 * x)
    (fun j o hj _ ha => by rw [rd_ok ha, bind_ok]) (by simp) (fun p hp => by simp [hp])
  refine ⟨⟨input.shape, o⟩, ?_, rfl, isT_of_pos h2 h3 (fun is hv => rfl)⟩
  unfold onesTimes
  rw [rd_ok (by rw [hg]; rfl), bind_ok, h1]
  rfl

theorem one_one : fin ((1 : Num f) * 1) ∧ val ((1 : Num f) * 1) = 1 := by
  obtain ⟨h1, h2⟩ := one_near (f := f)
  have h3 : val (1 : Num f) = 1 := by
    have := le_antisymm h2 (abs_nonneg _)
    have := abs_eq_zero.mp this
    linarith
  have h4 : (1 : ℝ) < Arith.whole (Num f) := by
    show (1 : ℝ) < ((2 ^ f.p : ℚ) : ℝ)
    have := f.hp
    have : (1 : ℚ) < 2 ^ f.p := one_lt_pow₀ (by norm_num) (by omega)
    exact_mod_cast this
  have := Arith.mul_exact (1 : Num f) 1 h1 h1 ⟨1, by rw [h3]; simp⟩ (by rw [h3]; simpa using h4)
  rw [h3] at this
  exact ⟨this.1, by rw [this.2]; simp⟩

/-- `ones<T>( {1, } )` (include/optimizer.hpp lines 47, 338). -/
def onesF (f : Fmt) : Ten (Num f) := ⟨[1], [1]⟩

theorem sumAll_sums {F : Type} [Zero F] [Add F] {x : Ten F} {sh : List Nat} {a : List Nat → F} (hx : x.Has sh a) (hs : 0 < size sh) :
    ∃ y, Data.sumAll x = ok y ∧ Sums (0 :: (List.range (size sh)).map (fun p => a (unflat sh p))) y := by
  unfold Data.sumAll
  rw [assert_true (by rw [hx.2.1]; omega), bind_ok, hx.2.1]
  obtain ⟨y, h1, h2⟩ := loop_inv (n := size sh) (s := (0 : F)) (body := fun i acc => do let v ← rd x.data i; pure (acc + v))
    (I := fun k acc => Sums (0 :: (List.range k).map (fun p => a (unflat sh p))) acc) (.one 0) (by
      intro i acc hi hI
      refine ⟨acc + a (unflat sh i), by rw [rd_ok (hx.2.pos hi), bind_ok]; rfl, ?_⟩
      rw [List.range_succ, List.map_append, ← List.cons_append]
      exact .add hI (.one _))
  exact ⟨y, h1, h2⟩

/-- C142: `sum_reduce` sends every element a one. -/
theorem sum_spreads (m n : Nat) (hm : 0 < m) (hn : 0 < n) : Spreads (f := f) sumOp (onesF f) m n 1 0 := by
  intro x a hx
  have hs : 0 < size [m, n] := by simp; exact ⟨hm, hn⟩
  obtain ⟨y, h1, _⟩ := sumAll_sums hx hs
  obtain ⟨g, h2, h3⟩ := onesTimes_any x (onesF f) (x := 1) rfl
  rw [hx.1] at h3
  refine ⟨⟨[1], [y]⟩, g, 1 * 1, ?_, ?_, h3, one_one.1, by rw [one_one.2]; simp⟩
  · show sumReduce x = _
    unfold sumReduce
    rw [h1]
    rfl
  · show sumReduceBack x (onesF f) = _
    unfold sumReduceBack
    rw [assert_true (show (onesF f).data.length = 1 from rfl), bind_ok, h2]

/-- C142: `mean_reduce` sends every element one divided by the number of rows, rounded once. The derivative of the mean is one divided by the number of elements, so
this is right for matrices of one column only; what is missing is `Spreads meanOp (onesF f) m n (1 / (m * n)) κ` with a `κ` of the size of a rounding. -/
theorem mean_spreads_partial (m n : Nat) (hm : 0 < m) (hn : 0 < n) (hp : m < 2 ^ f.p) : Spreads (f := f) meanOp (onesF f) m n (1 / m) (Arith.u (Num f) * (1 / m) + Arith.w (Num f)) := by
  intro x a hx
  have hs : 0 < size [m, n] := by simp; exact ⟨hm, hn⟩
  obtain ⟨y, h1, _⟩ := sumAll_sums hx hs
  obtain ⟨g, h2, h3⟩ := onesTimes_any x (onesF f) (x := 1) rfl
  rw [hx.1] at h3
  have hd := divAll_ok g.data ((m : Nat) : Num f)
  have hg : (⟨g.shape, g.data.map (· / ((m : Nat) : Num f))⟩ : Ten (Num f)).Has [m, n] (fun _ => 1 * 1 / ((m : Nat) : Num f)) := map_has _ h3
  have hone : (1 : Num f) * 1 = .num 1 (fixed_one.1 ▸ rnd_grid f 1) := by
    obtain ⟨q, hq, e⟩ := Num.fin_iff.mp (one_one (f := f)).1
    have hv := (one_one (f := f)).2
    rw [e] at hv
    have : (q : ℝ) = 1 := hv
    have : q = 1 := by exact_mod_cast this
    subst this
    exact e
  have hmf : Fixed f m := by
    have := fixed_int (f := f) (k := (m : ℤ)) (by
      rw [abs_of_nonneg (by positivity)]
      exact_mod_cast hp)
    simpa using this
  have hmm : ((m : Nat) : Num f) = .num m (hmf.1 ▸ rnd_grid f m) := toNum_fixed hmf
  have hm0 : (0 : ℚ) < m := by exact_mod_cast hm
  have hle : |rnd f (1 / (m : ℚ))| ≤ largest f := by
    refine rnd_le_largest f ?_
    have h1 : |1 / (m : ℚ)| ≤ 1 := by
      rw [abs_of_pos (by positivity), div_le_one hm0]
      exact_mod_cast hm
    have h2 := (fixed_one (f := f)).2
    rw [abs_one] at h2
    exact h1.trans h2
  have hq : (1 : Num f) * 1 / ((m : Nat) : Num f) = .num (rnd f (1 / (m : ℚ))) (rnd_grid f _) := by
    rw [hone, hmm]
    show (if (m : ℚ) = 0 then _ else toNum f (1 / (m : ℚ))) = _
    rw [if_neg hm0.ne', toNum_of hle]
  refine ⟨⟨[1], [y / ((x.data.length : Nat) : Num f)]⟩, _, _, ?_, ?_, hg, by rw [hq]; trivial, ?_⟩
  · show meanReduce x = _
    unfold meanReduce Data.meanAll
    rw [assert_true (by rw [hx.2.1]; omega), bind_ok, h1]
    rfl
  · show meanReduceBack x (onesF f) = _
    unfold meanReduceBack
    rw [assert_true (show (onesF f).data.length = 1 from rfl), bind_ok, h2, bind_ok, hx.1]
    show (loop g.data.length _ g.data >>= _) = _
    rw [hd, bind_ok]
    rfl
  · rw [hq]
    have := rnd_err f (1 / (m : ℚ))
    rw [abs_of_pos (show (0 : ℚ) < 1 / m by positivity)] at this
    show |((rnd f (1 / (m : ℚ)) : ℚ) : ℝ) - 1 / m| ≤ (((1 / 2) ^ f.p : ℚ) : ℝ) * (1 / m) + (((2 : ℚ) ^ f.emin / 2 : ℚ) : ℝ)
    have h := (Rat.cast_le (K := ℝ)).mpr this
    push_cast at h ⊢
    exact h

/-- C142, violated: with two columns or more, a description of what `mean_reduce` sends that has the derivative of the mean in the middle must allow an error of
about the number that is sent. -/
theorem mean_spreads_violated (m n : Nat) (hm : 0 < m) (hn : 2 ≤ n) (hp : m < 2 ^ f.p) {κ : ℝ} (h : Spreads (f := f) meanOp (onesF f) m n (1 / (m * n)) κ) :
    1 / m * (1 - 1 / n) - (Arith.u (Num f) * (1 / m) + Arith.w (Num f)) ≤ κ := by
  have hx : (⟨[m, n], List.replicate (size [m, n]) 0⟩ : Ten (Num f)).Has [m, n] (fun _ => 0) :=
    ⟨rfl, by simp, fun is hv => by rw [List.getElem?_replicate, if_pos (flat_lt hv)]⟩
  obtain ⟨y, g, c, a1, a2, a3, _, a5⟩ := h _ _ hx
  obtain ⟨y', g', c', b1, b2, b3, _, b5⟩ := mean_spreads_partial (f := f) m n hm (by omega) hp _ _ hx
  rw [a1] at b1
  obtain rfl := Res.ok.inj b1
  rw [a2] at b2
  obtain rfl := Res.ok.inj b2
  have hv : ValidIdx [m, n] [0, 0] := ⟨hm, (by omega : 0 < n), trivial⟩
  have hc : c = c' := by
    have := (a3.2.2 _ hv).symm.trans (b3.2.2 _ hv)
    exact Option.some.inj this
  subst hc
  have h1 := abs_le.mp a5
  have h2 := abs_le.mp b5
  have h3 : (1 : ℝ) / (m * n) = 1 / m * (1 / n) := by rw [one_div_mul_one_div]
  rw [h3] at h1
  linarith [h1.2, h2.1]

/-- Labels and predictions subtracted. -/
theorem diff_eval {L D : Nat → Ten (Num f)} {pl : BOp (Num f)} (hpl : ∀ l r, pl.fwd l r = plusT l r) {m n b j : Nat} (hm : 0 < m) (hn : 0 < n) (hn1 : n ≠ Data.minusOne)
    {lab : List Nat → Num f} (hb : (L b).Has [m, n] lab) {e : Ex (Num f)} {t : Ten (Num f)} {a : List Nat → Num f} (he : eval L D e = ok t) (ht : t.Has [m, n] a) :
    eval L D (.leaf b) = ok (L b) ∧ eval L D (.un j negOp e) = ok ⟨t.shape, t.data.map Nan.neg⟩ ∧
    ∃ d, eval L D (.bin (j + 1) pl (.leaf b) (.un j negOp e)) = ok d ∧ pl.fwd (L b) ⟨t.shape, t.data.map Nan.neg⟩ = ok d ∧ d.Has [m, n] (fun is => lab is + Nan.neg (a is)) := by
  have h1 : eval L D (.leaf b) = ok (L b) := by
    unfold eval
    rw [assert_true (by
      intro h
      have := hb.2.1
      rw [h] at this
      simp at this
      omega)]
    rfl
  have h2 : eval L D (.un j negOp e) = ok ⟨t.shape, t.data.map Nan.neg⟩ := by
    show (eval L D e >>= fun x => negOp.fwd x) = _
    rw [he]
    rfl
  obtain ⟨c, d, q1, q2, q3⟩ := plusT_ok hb (map_has Nan.neg ht) (Loss.compatible_self [m, n]) (by simp [hn1]) (by simp [hn1])
  have hc : c = [m, n] := by
    have : Tensor.broadcastShape [m, n] [m, n] = ok [m, n] := by unfold Tensor.broadcastShape; simp
    rw [this] at q1
    exact (Res.ok.inj q1).symm
  subst hc
  refine ⟨h1, h2, d, ?_, by rw [hpl]; exact q2, q3.congr (fun is hv => by rw [Loss.bc_self hv])⟩
  show (eval L D (.leaf b) >>= fun x => eval L D (.un j negOp e) >>= fun y => pl.fwd x y) = _
  rw [h1, bind_ok, h2, bind_ok, hpl]
  exact q2

/-- C142: what the squared loss sends to predictions within `EY` of `Y`, for labels `T`: within the bound of `2 (Y - T) C`. -/
theorem squared_head {L D : Nat → Ten (Num f)} {pl : BOp (Num f)} (hpl : ∀ l r, pl.fwd l r = plusT l r) {red : List (Num f) → Num f} {fuel : Nat} (hred : Data.Reduces (· + ·) red)
    (hpb : ∀ l r z g, pl.bwd l r z g = plusBack red fuel l.shape r.shape g) {two : Num f} (htwo : fin two ∧ val two = 2) {sm : UOp (Num f)} {g0 : Ten (Num f)} {C κ : ℝ} {m n b : Nat} (j : Nat)
    (hm : 0 < m) (hm1 : m ≠ Data.minusOne) (hn : 0 < n) (hn1 : n ≠ Data.minusOne) (hsm : Spreads sm g0 m n C κ) {T Y EY : Nat → Nat → ℝ} (hT : Means (L b) m n T)
    (hfit : ∀ r c, r < m → c < n → SquareFits (Arith.u (Num f)) (Arith.w (Num f)) (Arith.top (Num f)) (T r c) (Y r c) (EY r c) C κ) :
    Head L D (squaredOf sm (squareOp two) negOp pl j b) g0 m n Y EY (fun r c => 2 * (Y r c - T r c) * C)
      (fun r c => sentErr (Arith.u (Num f)) (Arith.w (Num f)) (T r c) (Y r c) (EY r c) C κ) := by
  obtain ⟨lab, hb, hlab⟩ := hT
  intro e t he ⟨a, ht, ha⟩
  obtain ⟨h1, h2, d, h3, h3', h4⟩ := diff_eval (j := j) hpl hm hn hn1 hb he ht
  have hdiff : ∀ r c, r < m → c < n → fin (lab [r, c] + Nan.neg (a [r, c])) ∧
      |val (lab [r, c] + Nan.neg (a [r, c])) - (T r c - Y r c)| ≤ diffErr (Arith.u (Num f)) (T r c) (Y r c) (EY r c) := by
    intro r c hr hc
    obtain ⟨l1, l2⟩ := hlab r c hr hc
    have p := add_near (F := Num f) (x := T r c) (e := 0) ⟨l1, by rw [l2]; simp⟩ (neg_near (ha r c hr hc)) (by rw [← sub_eq_add_neg, zero_add]; exact (hfit r c hr hc).1)
    rw [← sub_eq_add_neg, zero_add] at p
    exact p
  have hsq := map_has (fun v : Num f => v * v) h4
  obtain ⟨y, g, c, s1, s2, s3, s4, s5⟩ := hsm _ _ hsq
  obtain ⟨q, q1, q2⟩ := each2F_ok (f := fun v g : Num f => v * g) h4 s3 h4.2.1
  have q3 := map_has (fun v : Num f => v * two) q2
  obtain ⟨w, β, w1, w2, w3⟩ := plus_left hred fuel q3 hm hm1 hn hn1
  have w4 := map_has Nan.neg w2
  refine ⟨y, ⟨w.shape, w.data.map Nan.neg⟩, ?_, ⟨_, w4, fun r c' hr hc => ?_⟩, fun sl => ⟨some (j, false), ?_⟩⟩
  · show ((eval L D (.bin (j + 1) pl (.leaf b) (.un j negOp e)) >>= fun x => (squareOp two).fwd x) >>= fun x => sm.fwd x) = _
    rw [h3]
    exact s1
  · obtain ⟨f1, f2, f3, f4⟩ := hfit r c' hr hc
    have p1 := mul_near (F := Num f) (hdiff r c' hr hc) ⟨s4, s5⟩ f2
    have p2 := mul_near (F := Num f) p1 (x := (T r c' - Y r c') * C) (y := 2) (f := 0) (b := two) ⟨htwo.1, by rw [htwo.2]; simp⟩ (by
      rw [add_zero, abs_of_pos (by norm_num : (0 : ℝ) < 2)]; exact f3)
    have p3 := sum_near (F := Num f) (n := 1) (a := fun _ => (lab [r, c'] + Nan.neg (a [r, c'])) * c * two) (x := fun _ => (T r c' - Y r c') * C * 2)
      (e := fun _ => squareErr (Arith.u (Num f)) (Arith.w (Num f)) (T r c') (Y r c') (EY r c') C κ) (w3 r c' hr hc) (fun _ _ => p2) (by simpa using f4)
    have p4 := neg_near p3
    simp only [Finset.sum_range_one] at p4
    rw [show -((T r c' - Y r c') * C * 2) = 2 * (Y r c' - T r c') * C by ring] at p4
    exact p4
  · have hsq' : (squareOp two).bwd d ⟨d.shape, d.data.map (fun v => v * v)⟩ g = ok ⟨q.shape, q.data.map (fun v => v * two)⟩ := by
      show (Res.assert (d.shape = g.shape) >>= fun _ => each2F d.data.length (fun v g => v * g) d g >>= fun t => pure (⟨t.shape, t.data.map (fun v => v * two)⟩ : Ten (Num f))) = _
      rw [assert_true (by rw [h4.1, s3.1]), bind_ok, q1]
      rfl
    have hpb' : pl.bwd (L b) ⟨t.shape, t.data.map Nan.neg⟩ d ⟨q.shape, q.data.map (fun v => v * two)⟩ = ok (w, w) := by
      rw [hpb]
      unfold plusBack
      show (plusGrad red fuel (L b).shape _ >>= fun dl => plusGrad red fuel t.shape _ >>= fun dr => pure (dl, dr)) = _
      rw [hb.1, ht.1, w1]
      rfl
    unfold squaredOf
    simp only [arrivals]
    have h5 : eval L D (.un (j + 2) (squareOp two) (.bin (j + 1) pl (.leaf b) (.un j negOp e))) = ok ⟨d.shape, d.data.map (fun v => v * v)⟩ := by
      show (eval L D (.bin (j + 1) pl (.leaf b) (.un j negOp e)) >>= fun x => (squareOp two).fwd x) = _
      rw [h3]
      rfl
    rw [h5, bind_ok, s1, bind_ok, s2, bind_ok, h3, bind_ok]
    show ((squareOp two).bwd d ⟨d.shape, d.data.map (fun v => v * v)⟩ g >>= _) = _
    rw [hsq', bind_ok, h1, bind_ok, h2, bind_ok, h3', bind_ok, hpb', bind_ok, bind_ok, he]
    show (arrivals L D e (some (j, false)) ⟨w.shape, w.data.map Nan.neg⟩ >>= fun b => pure ([] ++ b)) = _
    cases arrivals L D e (some (j, false)) ⟨w.shape, w.data.map Nan.neg⟩ <;> rfl

/-- C142: the value of `squared_loss` is within the bound of the sum of the squares of the differences. -/
theorem squared_value {L D : Nat → Ten (Num f)} {pl : BOp (Num f)} (hpl : ∀ l r, pl.fwd l r = plusT l r) {two : Num f} {m n b : Nat} (j : Nat)
    (hm : 0 < m) (hn : 0 < n) (hn1 : n ≠ Data.minusOne) {T Y EY : Nat → Nat → ℝ} (hT : Means (L b) m n T) {e : Ex (Num f)} {t : Ten (Num f)} (he : eval L D e = ok t) (ht : Close t m n Y EY)
    (hfit : ∀ r c, r < m → c < n → |T r c - Y r c| + EY r c ≤ Arith.top (Num f) ∧
      (|T r c - Y r c| + diffErr (Arith.u (Num f)) (T r c) (Y r c) (EY r c)) * (|T r c - Y r c| + diffErr (Arith.u (Num f)) (T r c) (Y r c) (EY r c)) ≤ Arith.top (Num f))
    (hsum : (1 + Arith.u (Num f)) ^ (m * n) * (∑ r ∈ range m, ∑ c ∈ range n, ((T r c - Y r c) ^ 2 + mulErr (Arith.u (Num f)) (Arith.w (Num f)) (T r c - Y r c)
      (diffErr (Arith.u (Num f)) (T r c) (Y r c) (EY r c)) (T r c - Y r c) (diffErr (Arith.u (Num f)) (T r c) (Y r c) (EY r c)))) ≤ Arith.top (Num f)) :
    ∃ v : Num f, eval L D (squaredOf sumOp (squareOp two) negOp pl j b e) = ok ⟨[1], [v]⟩ ∧ fin v ∧
      |val v - ∑ r ∈ range m, ∑ c ∈ range n, (T r c - Y r c) ^ 2| ≤
        ∑ r ∈ range m, ∑ c ∈ range n, mulErr (Arith.u (Num f)) (Arith.w (Num f)) (T r c - Y r c) (diffErr (Arith.u (Num f)) (T r c) (Y r c) (EY r c)) (T r c - Y r c)
          (diffErr (Arith.u (Num f)) (T r c) (Y r c) (EY r c)) +
        roundings (Arith.u (Num f)) (m * n) (∑ r ∈ range m, ∑ c ∈ range n, ((T r c - Y r c) ^ 2 + mulErr (Arith.u (Num f)) (Arith.w (Num f)) (T r c - Y r c)
          (diffErr (Arith.u (Num f)) (T r c) (Y r c) (EY r c)) (T r c - Y r c) (diffErr (Arith.u (Num f)) (T r c) (Y r c) (EY r c)))) := by
  obtain ⟨lab, hb, hlab⟩ := hT
  obtain ⟨a, ht, ha⟩ := ht
  obtain ⟨h1, h2, d, h3, h3', h4⟩ := diff_eval (j := j) hpl hm hn hn1 hb he ht
  have hdiff : ∀ r c, r < m → c < n → fin (lab [r, c] + Nan.neg (a [r, c])) ∧
      |val (lab [r, c] + Nan.neg (a [r, c])) - (T r c - Y r c)| ≤ diffErr (Arith.u (Num f)) (T r c) (Y r c) (EY r c) := by
    intro r c hr hc
    obtain ⟨l1, l2⟩ := hlab r c hr hc
    have p := add_near (F := Num f) (x := T r c) (e := 0) ⟨l1, by rw [l2]; simp⟩ (neg_near (ha r c hr hc)) (by rw [← sub_eq_add_neg, zero_add]; exact (hfit r c hr hc).1)
    rw [← sub_eq_add_neg, zero_add] at p
    exact p
  have hsq := map_has (fun v : Num f => v * v) h4
  have hsz : size [m, n] = m * n := by simp
  obtain ⟨v, v1, v2⟩ := sumAll_sums hsq (by rw [hsz]; exact Nat.mul_pos hm hn)
  have hto := sumTo_of (sums_accurate v2)
  rw [List.length_map, List.length_range, hsz] at hto
  have hun : ∀ r c, c < n → unflat [m, n] (r * n + c) = [r, c] := by
    intro r c hc
    simp only [unflat, size_cons, size_nil, mul_one, Nat.div_one]
    rw [Nat.add_div_of_dvd_right (Dvd.intro_left r rfl), Nat.mul_div_cancel _ hn, Nat.div_eq_of_lt hc, Nat.add_zero, Nat.add_mod, Nat.mul_mod_left, Nat.zero_add, Nat.mod_mod, Nat.mod_eq_of_lt hc]
  have hsplit : ∀ p, p < m * n → ∃ r c, r < m ∧ c < n ∧ p = r * n + c := by
    intro p hp
    exact ⟨p / n, p % n, Nat.div_lt_of_lt_mul (by rw [mul_comm]; exact hp), Nat.mod_lt _ hn, by rw [mul_comm]; exact (Nat.div_add_mod p n).symm⟩
  have hmod : ∀ r c, c < n → (r * n + c) / n = r ∧ (r * n + c) % n = c := by
    intro r c hc
    constructor
    · rw [Nat.add_div_of_dvd_right (Dvd.intro_left r rfl), Nat.mul_div_cancel _ hn, Nat.div_eq_of_lt hc, Nat.add_zero]
    · rw [Nat.add_mod, Nat.mul_mod_left, Nat.zero_add, Nat.mod_mod, Nat.mod_eq_of_lt hc]
  have hdouble : ∀ h : Nat → Nat → ℝ, ∑ p ∈ range (m * n), h (p / n) (p % n) = ∑ r ∈ range m, ∑ c ∈ range n, h r c := by
    intro h
    rw [Data.sum_range_mul]
    refine sum_congr rfl (fun r _ => sum_congr rfl (fun c hc => ?_))
    obtain ⟨k1, k2⟩ := hmod r c (mem_range.mp hc)
    rw [k1, k2]
  have hnear := sum_near (F := Num f) (x := fun p => (T (p / n) (p % n) - Y (p / n) (p % n)) * (T (p / n) (p % n) - Y (p / n) (p % n)))
    (e := fun p => mulErr (Arith.u (Num f)) (Arith.w (Num f)) (T (p / n) (p % n) - Y (p / n) (p % n))
      (diffErr (Arith.u (Num f)) (T (p / n) (p % n)) (Y (p / n) (p % n)) (EY (p / n) (p % n))) (T (p / n) (p % n) - Y (p / n) (p % n))
      (diffErr (Arith.u (Num f)) (T (p / n) (p % n)) (Y (p / n) (p % n)) (EY (p / n) (p % n)))) hto (fun p hp => by
        obtain ⟨r, c, hr, hc, rfl⟩ := hsplit p hp
        obtain ⟨k1, k2⟩ := hmod r c hc
        rw [hun r c hc, k1, k2]
        exact mul_near (F := Num f) (hdiff r c hr hc) (hdiff r c hr hc) (hfit r c hr hc).2) (by
      rw [hdouble (fun r c => |(T r c - Y r c) * (T r c - Y r c)| + mulErr (Arith.u (Num f)) (Arith.w (Num f)) (T r c - Y r c)
        (diffErr (Arith.u (Num f)) (T r c) (Y r c) (EY r c)) (T r c - Y r c) (diffErr (Arith.u (Num f)) (T r c) (Y r c) (EY r c)))]
      simpa only [← pow_two, abs_sq] using hsum)
  refine ⟨v, ?_, hnear.1, ?_⟩
  · show ((eval L D (.bin (j + 1) pl (.leaf b) (.un j negOp e)) >>= fun x => (squareOp two).fwd x) >>= fun x => sumReduce x) = _
    rw [h3]
    show sumReduce ⟨d.shape, d.data.map (fun v => v * v)⟩ = _
    unfold sumReduce
    rw [v1]
    rfl
  · have h := hnear.2
    rw [hdouble (fun r c => (T r c - Y r c) * (T r c - Y r c)), hdouble (fun r c => mulErr (Arith.u (Num f)) (Arith.w (Num f)) (T r c - Y r c)
      (diffErr (Arith.u (Num f)) (T r c) (Y r c) (EY r c)) (T r c - Y r c) (diffErr (Arith.u (Num f)) (T r c) (Y r c) (EY r c))),
      hdouble (fun r c => |(T r c - Y r c) * (T r c - Y r c)| + mulErr (Arith.u (Num f)) (Arith.w (Num f)) (T r c - Y r c)
        (diffErr (Arith.u (Num f)) (T r c) (Y r c) (EY r c)) (T r c - Y r c) (diffErr (Arith.u (Num f)) (T r c) (Y r c) (EY r c)))] at h
    simpa only [← pow_two, abs_sq] using h

/-- C142: with `δ` what the loss sends back, without errors, the gradients of C136 are the derivatives of the loss for the weights and biases of every layer
(the layer may stand behind others; `x` is what it receives). -/
theorem squared_derivative (C : ℝ) (z : GLay) (zs : List GLay) (m k : Nat) (x T : Nat → Nat → ℝ) (U : Nat → Nat → ℝ) (V : Nat → ℝ) (hs : ∀ r, r < m → Smooth (z :: zs) k (x r)) :
    HasDerivAt (fun t => C * ∑ r ∈ range m, ∑ j ∈ range (outs (plain (z :: zs)) k), (T r j - netR (plain (z.moved U V t :: zs)) k (x r) j) ^ 2)
      (∑ p ∈ range k, ∑ j ∈ range z.n, z.gradW zs m k x (fun r j => 2 * (netR (plain (z :: zs)) k (x r) j - T r j) * C) p j * U p j +
        ∑ j ∈ range z.n, z.gradB zs m k x (fun r j => 2 * (netR (plain (z :: zs)) k (x r) j - T r j) * C) j * V j) 0 := by
  have e0 : z.moved U V 0 = z := by simp [GLay.moved]
  have h1 : ∀ r, r < m → ∀ j, j < outs (plain (z :: zs)) k → ∃ d, HasDerivAt (fun t => netR (plain (z.moved U V t :: zs)) k (x r) j) d 0 := by
    intro r hr j hj
    have h := gradW_derivative z zs m k x (fun r' j' => if r' = r ∧ j' = j then 1 else 0) U V hs
    refine ⟨_, h.congr_of_eventuallyEq (Filter.Eventually.of_forall (fun t => ?_))⟩
    dsimp only
    rw [sum_eq_single_of_mem r (mem_range.mpr hr) (fun r' _ hne => sum_eq_zero (fun j' _ => by simp [hne])),
      sum_eq_single_of_mem j (mem_range.mpr hj) (fun j' _ hne => by simp [hne])]
    simp
  choose! d hd using h1
  have h2 := gradW_derivative z zs m k x (fun r j => 2 * (netR (plain (z :: zs)) k (x r) j - T r j) * C) U V hs
  have h3 : HasDerivAt (fun t => ∑ r ∈ range m, ∑ j ∈ range (outs (plain (z :: zs)) k), 2 * (netR (plain (z :: zs)) k (x r) j - T r j) * C * netR (plain (z.moved U V t :: zs)) k (x r) j)
      (∑ r ∈ range m, ∑ j ∈ range (outs (plain (z :: zs)) k), 2 * (netR (plain (z :: zs)) k (x r) j - T r j) * C * d r j) 0 :=
    HasDerivAt.fun_sum (fun r hr => HasDerivAt.fun_sum (fun j hj => (hd r (mem_range.mp hr) j (mem_range.mp hj)).const_mul _))
  rw [h2.unique h3]
  have h4 : HasDerivAt (fun t => C * ∑ r ∈ range m, ∑ j ∈ range (outs (plain (z :: zs)) k), (T r j - netR (plain (z.moved U V t :: zs)) k (x r) j) ^ 2)
      (C * ∑ r ∈ range m, ∑ j ∈ range (outs (plain (z :: zs)) k), (2 : ℕ) * (T r j - netR (plain (z.moved U V 0 :: zs)) k (x r) j) ^ (2 - 1) * (0 - d r j)) 0 :=
    (HasDerivAt.fun_sum (fun r hr => HasDerivAt.fun_sum (fun j hj => ((hasDerivAt_const (0 : ℝ) (T r j)).sub (hd r (mem_range.mp hr) j (mem_range.mp hj))).fun_pow 2))).const_mul C
  refine h4.congr_deriv ?_
  rw [e0, mul_sum]
  refine sum_congr rfl (fun r _ => ?_)
  rw [mul_sum]
  refine sum_congr rfl (fun j _ => ?_)
  push_cast
  ring

/-- A head may be described with larger errors. -/
theorem head_mono {L D : Nat → Ten (Num f)} {H : Ex (Num f) → Ex (Num f)} {g0 : Ten (Num f)} {m n : Nat} {Y EY δ ε δ' ε' : Nat → Nat → ℝ} (h : Head L D H g0 m n Y EY δ ε)
    (hδ : ∀ r c, r < m → c < n → δ r c = δ' r c ∧ ε r c ≤ ε' r c) : Head L D H g0 m n Y EY δ' ε' := by
  intro e t he hc
  obtain ⟨y, g, h1, ⟨a, h2, h3⟩, h4⟩ := h e t he hc
  exact ⟨y, g, h1, ⟨a, h2, fun r c hr hc => ⟨(h3 r c hr hc).1, by rw [← (hδ r c hr hc).1]; exact (h3 r c hr hc).2.trans (hδ r c hr hc).2⟩⟩, h4⟩

/-! ### an example: the layer of C136 with the label 1 -/

/-- The place holders: the inputs 3 and 4, and the label 1. -/
def exLL : Nat → Ten (Num float32) := fun b => if b = 0 then exL 0 else ⟨[1, 1], [ofInt 1]⟩
@[inherit_doc exLL] def exOL : OStF (Num float32) := { exO with st := { exSt with leaf := exLL } }
@[inherit_doc exLL] noncomputable def exEY : ℝ := errs (Arith.u (Num float32)) (Arith.w (Num float32)) (plain [exZB]) 2 (fun p => if p = 0 then 3 else 4) (fun _ => 0) 0
@[inherit_doc exLL] noncomputable def exSent : ℝ := sentErr (Arith.u (Num float32)) (Arith.w (Num float32)) 1 3 exEY 1 0

theorem exNet : netR (plain [exZB]) 2 (fun p => if p = 0 then 3 else 4) 0 = 3 := by
  simp [netR, plain, RLay.app, exZB, exZ, Finset.sum_range_succ]
  norm_num

theorem exEY_small : 0 ≤ exEY ∧ exEY ≤ 1 / 100000 := by
  have hu := float32_constants.1
  have hw := float32_constants.2.1
  unfold exEY
  simp [errs, plain, RLay.err, RLay.pre, RLay.mag, dotBound, hu, hw, exZB, exZ, Finset.sum_range_succ]
  norm_num

theorem exFits : SquareFits (Arith.u (Num float32)) (Arith.w (Num float32)) (Arith.top (Num float32)) 1 3 exEY 1 0 := by
  have hu := float32_constants.1
  have hw := float32_constants.2.1
  have ht := float32_constants.2.2.1
  unfold exEY
  simp [SquareFits, squareErr, diffErr, mulErr, addErr, errs, plain, RLay.err, RLay.pre, RLay.mag, dotBound, hu, hw, ht, exZB, exZ, Finset.sum_range_succ]
  norm_num

theorem exSent_small : exSent ≤ 1 / 1000 := by
  have hu := float32_constants.1
  have hw := float32_constants.2.1
  unfold exSent exEY
  simp [sentErr, squareErr, diffErr, roundings, mulErr, addErr, errs, plain, RLay.err, RLay.pre, RLay.mag, dotBound, hu, hw, exZB, exZ, Finset.sum_range_succ]
  norm_num

/-- The loss sends the prediction 2 (3 - 1) = 4. -/
theorem exHead : Head exLL exD (squaredOf sumOp (squareOp (ofInt 2)) negOp exPL 3 1) (onesF float32) 1 1 (fun _ => netR (plain [exZB]) 2 (fun p => if p = 0 then 3 else 4))
    (fun _ => errs (Arith.u (Num float32)) (Arith.w (Num float32)) (plain [exZB]) 2 (fun p => if p = 0 then 3 else 4) (fun _ => 0)) (fun _ _ => 4) (fun _ _ => 1 / 1000) := by
  refine head_mono (squared_head (pl := exPL) (fun _ _ => rfl) exReduces (fun _ _ _ _ => rfl) ⟨ofInt_fin _, by simp [ofInt_val]⟩ 3 (by norm_num) (by decide) (by norm_num) (by decide)
    (sum_spreads 1 1 (by norm_num) (by norm_num)) (T := fun _ _ => 1) ⟨_, exOnes, fun r j _ _ => ⟨ofInt_fin _, by simp [ofInt_val]⟩⟩ ?_) ?_
  · intro r c _ hc
    have hc : c = 0 := by omega
    subst hc
    rw [exNet]
    exact exFits
  · intro r c _ hc
    have hc : c = 0 := by omega
    subst hc
    rw [exNet]
    exact ⟨by norm_num, exSent_small⟩

theorem exReadyL : TrainReady (1 : Num float32) exMM exPL exRed 0 1 2 0 0 [exYB] [exZB] (squaredOf sumOp (squareOp (ofInt 2)) negOp exPL 3 1) (onesF float32) (fun _ p => if p = 0 then 3 else 4) (fun _ _ => 0)
    (fun _ _ => 4) (fun _ _ => 1 / 1000) exOL := by
  have hu := float32_constants.1
  have hw := float32_constants.2.1
  have ht := float32_constants.2.2.1
  refine ⟨matmul_product _ _, matmul_back _ _ _, fun _ _ => rfl, exReduces, fun _ _ _ _ => rfl, ⟨by norm_num, by decide⟩, by norm_num, rfl, exStandsB, exReady.input, exReady.calm, exHead, by decide, ?_, ?_, by decide,
    exReady.plain_vars, exReady.gradients, by decide, exReady.registered⟩
  · intro v hv
    have hv : v = 0 ∨ v = 1 := by simpa [layVars, exYB] using hv
    rcases hv with rfl | rfl <;> decide
  · rw [ht, hu, hw]
    refine ⟨fun r j hr hj => ⟨?_, ?_⟩, fun r p hr hp => ?_, fun p j hp hj => ?_, fun j hj => ?_, trivial⟩
    · show _ < _ ∧ _ ≤ _
      rw [ht]
      simp [exZB, exZ, GLay.sum, RLay.pre, RLay.mag, dotBound, gradIn, errIn, Finset.sum_range_succ]
      norm_num
    · simp [prodSize, GLay.delta, GLay.lerr, GLay.derr, roundings, hu, hw, exZB, exZ, GLay.sum, RLay.pre, RLay.mag, dotBound, gradIn, errIn, Finset.sum_range_succ]
      norm_num
    · rcases (by omega : p = 0 ∨ p = 1) with rfl | rfl
      · simp [prodSize, GLay.delta, GLay.lerr, GLay.derr, roundings, hu, hw, exZB, exZ, GLay.sum, RLay.pre, RLay.mag, dotBound, gradIn, errIn, Finset.sum_range_succ]
        norm_num
      · simp [prodSize, GLay.delta, GLay.lerr, GLay.derr, roundings, hu, hw, exZB, exZ, GLay.sum, RLay.pre, RLay.mag, dotBound, gradIn, errIn, Finset.sum_range_succ]
        norm_num
    · rcases (by omega : p = 0 ∨ p = 1) with rfl | rfl
      · simp [prodSize, GLay.delta, GLay.lerr, GLay.derr, roundings, hu, hw, exZB, exZ, GLay.sum, RLay.pre, RLay.mag, dotBound, gradIn, errIn, Finset.sum_range_succ]
        norm_num
      · simp [prodSize, GLay.delta, GLay.lerr, GLay.derr, roundings, hu, hw, exZB, exZ, GLay.sum, RLay.pre, RLay.mag, dotBound, gradIn, errIn, Finset.sum_range_succ]
        norm_num
    · simp [prodSize, GLay.delta, GLay.lerr, GLay.derr, roundings, hu, hw, exZB, exZ, GLay.sum, RLay.pre, RLay.mag, dotBound, gradIn, errIn, Finset.sum_range_succ]
      norm_num

theorem exGradsL : exZB.gradW [] 1 2 (fun _ p => if p = 0 then 3 else 4) (fun _ _ => 4) 0 0 = 12 ∧ exZB.gradW [] 1 2 (fun _ p => if p = 0 then 3 else 4) (fun _ _ => 4) 1 0 = 16 ∧
    exZB.gradB [] 1 2 (fun _ p => if p = 0 then 3 else 4) (fun _ _ => 4) 0 = 4 := by
  refine ⟨?_, ?_, ?_⟩ <;>
  simp [GLay.gradW, GLay.gradB, GLay.delta, gradIn, exZB, GLay.sum, exZ, Finset.sum_range_succ] <;> norm_num

/-- A step of `gradient_descent` with rate 1 on `squared_loss`: the first weight 2 becomes 2 - 12 = -10 and the bias 1 - 4 = -3, within a hundredth. -/
example : ∃ y s' a b, trainF 1 (squaredOf sumOp (squareOp (ofInt 2)) negOp exPL 3 1 (mlpOf exMM exPL [exYB] 0 (.leaf 0))) (onesF float32) (gdRuleF exNan (ofInt 1)) exOL = ok (y, s') ∧
    (s'.st.data 0).Has [2, 1] a ∧ |val (a [0, 0]) - -10| ≤ 1 / 100 ∧ (s'.st.data 1).Has [1, 1] b ∧ |val (b [0, 0]) - -3| ≤ 1 / 100 := by
  have hu := float32_constants.1
  have hw := float32_constants.2.1
  have ht := float32_constants.2.2.1
  obtain ⟨g1, g2, g3⟩ := exGradsL
  obtain ⟨y, s', h1, _, h3, _⟩ := gd_step exReadyL (isNan := exNan) (fun x hx => by
      obtain ⟨q, hq, rfl⟩ := Num.fin_iff.mp hx
      rfl) (lr := ofInt 1) (η := 1) (ρ := 0) ⟨ofInt_fin _, by simp [ofInt_val]⟩ (by
      refine ⟨fun p j hp hj => ?_, fun p j hp hj => ?_, trivial⟩
      · have hj : j = 0 := by have : j < 1 := hj; omega
        subst hj
        unfold GdFits
        rcases (by omega : p = 0 ∨ p = 1) with rfl | rfl
        · dsimp only
          rw [g1, ht]
          simp [mulErr, addErr, GLay.errW, GLay.gradW, GLay.delta, GLay.lerr, GLay.derr, prodErr, roundings, gradIn, errIn, hu, hw, exZB, GLay.sum, RLay.pre, RLay.mag, dotBound, exZ, Finset.sum_range_succ]
          norm_num
        · dsimp only
          rw [g2, ht]
          simp [mulErr, addErr, GLay.errW, GLay.gradW, GLay.delta, GLay.lerr, GLay.derr, prodErr, roundings, gradIn, errIn, hu, hw, exZB, GLay.sum, RLay.pre, RLay.mag, dotBound, exZ, Finset.sum_range_succ]
          norm_num
      · have hj : j = 0 := by have : j < 1 := hj; omega
        subst hj
        unfold GdFits
        dsimp only
        rw [g3, ht]
        simp [mulErr, addErr, GLay.errB, GLay.gradB, GLay.delta, GLay.lerr, GLay.derr, prodErr, roundings, gradIn, errIn, hu, hw, exZB, GLay.sum, RLay.pre, RLay.mag, dotBound, exZ, Finset.sum_range_succ]
        norm_num)
  obtain ⟨⟨⟨a, a1, a2⟩, _⟩, ⟨⟨b, b1, b2⟩, _⟩, _⟩ := h3
  refine ⟨y, s', a, b, h1, a1, ?_, b1, ?_⟩
  · have := (a2 0 0 (by norm_num) (by show 0 < 1; norm_num)).2
    dsimp only at this
    rw [g1] at this
    simp [gdErr, mulErr, addErr, GLay.errW, GLay.gradW, GLay.delta, GLay.lerr, GLay.derr, prodErr, roundings, gradIn, errIn, hu, hw, exZB, GLay.sum, RLay.pre, RLay.mag, dotBound, exZ, Finset.sum_range_succ] at this
    norm_num at this
    rw [sub_neg_eq_add]
    exact this.trans (by norm_num)
  · have := (b2 0 0 (by norm_num) (by show 0 < 1; norm_num)).2
    dsimp only at this
    rw [g3] at this
    simp [gdErr, mulErr, addErr, GLay.errB, GLay.gradB, GLay.delta, GLay.lerr, GLay.derr, prodErr, roundings, gradIn, errIn, hu, hw, exZB, GLay.sum, RLay.pre, RLay.mag, dotBound, exZ, Finset.sum_range_succ] at this
    norm_num at this
    rw [sub_neg_eq_add]
    exact this.trans (by norm_num)

/-- `mean_reduce` of a 2 by 3 matrix of `float`s sends about 1/2, which is not 1/6. -/
example : Spreads (f := float32) meanOp (onesF float32) 2 3 (1 / 2) (1 / 1000) ∧ ¬ Spreads (f := float32) meanOp (onesF float32) 2 3 (1 / (2 * 3)) (1 / 4) := by
  have hu := float32_constants.1
  have hw := float32_constants.2.1
  constructor
  · intro x a hx
    obtain ⟨y, g, c, h1, h2, h3, h4, h5⟩ := mean_spreads_partial (f := float32) 2 3 (by norm_num) (by norm_num) (by decide) x a hx
    refine ⟨y, g, c, h1, h2, h3, h4, ?_⟩
    rw [hu, hw] at h5
    norm_num at h5 ⊢
    exact h5.trans (by norm_num)
  · intro h
    have := mean_spreads_violated (f := float32) 2 3 (by norm_num) (by norm_num) (by decide) (by exact_mod_cast h)
    rw [hu, hw] at this
    norm_num at this

/-- The label 1 and the prediction 3: the value of the loss is 4, within a thousandth. -/
example : ∃ v : Num float32, eval (fun b => ⟨[1, 1], [ofInt (if b = 0 then 3 else 1)]⟩) exD (squaredOf sumOp (squareOp (ofInt 2)) negOp exPL 3 1 (.leaf 0)) = ok ⟨[1], [v]⟩ ∧ |val v - 4| ≤ 1 / 1000 := by
  have hu := float32_constants.1
  have hw := float32_constants.2.1
  have ht := float32_constants.2.2.1
  have one (q : Num float32) : (⟨[1, 1], [q]⟩ : Ten (Num float32)).Has [1, 1] (fun _ => q) := by
    refine ⟨rfl, rfl, ?_⟩
    intro is hv
    match is, hv with
    | [0, 0], _ => rfl
    | [n + 1, _], hv => exact absurd hv.1 (by omega)
    | [_, n + 1], hv => exact absurd hv.2.1 (by show ¬ n + 1 < 1; omega)
  obtain ⟨v, h1, _, h3⟩ := squared_value (L := fun b => ⟨[1, 1], [ofInt (if b = 0 then 3 else 1)]⟩) (D := exD) (pl := exPL) (two := ofInt 2) (b := 1) (fun _ _ => rfl) 3 (m := 1) (n := 1) (by norm_num) (by norm_num) (by decide)
    (T := fun _ _ => 1) (Y := fun _ _ => 3) (EY := fun _ _ => 0) ⟨_, one _, fun r c _ _ => ⟨ofInt_fin _, by simp [ofInt_val]⟩⟩ (e := .leaf 0) rfl ⟨_, one _, fun r c _ _ => ⟨ofInt_fin _, by simp [ofInt_val]⟩⟩
    (fun r c _ _ => by
      rw [hu, ht]
      simp [diffErr, addErr]
      norm_num) (by
      rw [hu, hw, ht]
      simp [diffErr, addErr, mulErr]
      norm_num)
  refine ⟨v, h1, ?_⟩
  rw [hu, hw] at h3
  simp [diffErr, addErr, mulErr, roundings] at h3
  norm_num at h3
  exact h3.trans (by norm_num)

end Verif.Fp
