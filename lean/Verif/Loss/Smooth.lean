import Verif.Loss.Model
/-!
# The operators of losses: values, and that they are `Good`

Helper theorems for C98 and C99.
-/
namespace Verif.Loss
open Verif Res View Data Ops Graph
open Verif.Tensor (BroadcastsTo Compatible bcIdx broadcastShape)

theorem valueLike_ok {α : Type} [MulOneClass α] (v : α) (t : Ten α) : valueLike v t = ok ⟨t.shape, List.replicate (size t.shape) v⟩ := by
  have := onesTimes_ok t (⟨[1], [v]⟩ : Ten α) v rfl
  unfold onesTimes at this
  rw [show rd [v] 0 = ok v from rfl, bind_ok] at this
  exact this

theorem replicate_has {α : Type} (s : List Nat) (v : α) : (⟨s, List.replicate (size s) v⟩ : Ten α).Has s (fun _ => v) := by
  refine ⟨rfl, by simp, fun is hv => ?_⟩
  rw [List.getElem?_replicate, if_pos (flat_lt hv)]

theorem pair_zero_left (s : List Nat) (a : List Nat → ℝ) : pair s (fun _ => 0) a = 0 := by
  unfold pair
  rw [sumIdx_congr (g := fun is => (0 : ℝ) * a is) (fun is _ => rfl), sumIdx_mul_left, zero_mul]

/-- A binary operator with a value on the left is good where it is good beside the constant tensor. -/
theorem valueLeft_good (v : ℝ) (op : BOp ℝ) (x : Ten ℝ) (h : op.Good ⟨x.shape, List.replicate (size x.shape) v⟩ x) : (valueLeft v op).Good x := by
  intro c d hc hm
  have hL : ∀ t, valueLike v (c t) = ok ⟨x.shape, List.replicate (size x.shape) v⟩ := fun t => by rw [valueLike_ok, (hm.1 t).2]
  obtain ⟨z, s', d', h1, h2, h3⟩ := h (fun _ => ⟨x.shape, List.replicate (size x.shape) v⟩) (fun _ => 0) c d rfl
    ⟨fun _ => ⟨(replicate_has x.shape v).wf, rfl⟩, fun _ _ => hasDerivAt_const _ _⟩ hc hm
  refine ⟨z, s', d', fun t => ?_, h2, fun g hg hgs => ?_⟩
  · show (do let l ← valueLike v (c t); op.fwd l (c t)) = _
    rw [hL, bind_ok, h1]
  · obtain ⟨u, w, k1, _, _, k4, k5, k6⟩ := h3 g hg hgs
    refine ⟨w, ?_, k4, k5, ?_⟩
    · show (do let l ← valueLike v x; let d ← op.bwd l x (z 0) g; pure d.2) = _
      rw [valueLike_ok, bind_ok, k1, bind_ok]; rfl
    · rw [← k6, pair_zero, zero_add]

theorem opOnes_good (x : Ten ℝ) : opOnes.Good x := by
  intro c d hc hm
  refine ⟨fun _ => ⟨x.shape, List.replicate (size x.shape) 1⟩, x.shape, fun _ => 0, fun t => ?_,
    ⟨fun _ => ⟨(replicate_has x.shape 1).wf, rfl⟩, fun _ _ => hasDerivAt_const _ _⟩, fun g hg hgs => ?_⟩
  · show ok _ = _
    rw [(hm.1 t).2]
  · refine ⟨⟨g.shape, List.replicate (size g.shape) 0⟩, rfl, (replicate_has g.shape 0).wf, hgs, ?_⟩
    rw [pair_zero]
    rw [pair_congr (b := fun _ => 0) (y := d) (fun is hv => by rw [(replicate_has g.shape (0 : ℝ)).at_eq (by rw [hgs]; exact hv)]), pair_zero_left]

theorem hasDerivAt_max {f g : ℝ → ℝ} {a b : ℝ} (hf : HasDerivAt f a 0) (hg : HasDerivAt g b 0) (hne : f 0 ≠ g 0) :
    HasDerivAt (fun t => max (f t) (g t)) (if g 0 < f 0 then a else b) 0 := by
  have key : ∀ {f g : ℝ → ℝ} {a b : ℝ}, HasDerivAt f a 0 → HasDerivAt g b 0 → g 0 < f 0 → ∀ᶠ t in nhds 0, g t < f t :=
    fun hf hg h => hg.continuousAt.eventually_lt hf.continuousAt h
  by_cases h : g 0 < f 0
  · rw [if_pos h]
    refine hf.congr_of_eventuallyEq ?_
    filter_upwards [key hf hg h] with t ht
    exact max_eq_left ht.le
  · rw [if_neg h]
    refine hg.congr_of_eventuallyEq ?_
    filter_upwards [key hg hf (lt_of_le_of_ne (not_lt.mp h) hne)] with t ht
    exact max_eq_right ht.le

theorem opMax_good (K : Kit) (x y : Ten ℝ) (hxy : x.shape = y.shape) (hne : ∀ is, ValidIdx x.shape is → x.at is ≠ y.at is) : (opMax K).Good x y := by
  intro c d b e hc hcm hb hbm
  rw [← hxy] at hbm
  choose u m hu using fun t => (Pool.extFwd_ok (c t) (b t) K.cacheF K.cacheB x.shape (c t).at (b t).at (hcm.has t) (hbm.has t)).1
  refine ⟨u, x.shape, fun is => if y.at is < x.at is then d is else e is, fun t => ?_, moves_of_has (fun t => (hu t).2.1) ?_, ?_⟩
  · show (do let um ← Pool.maximumFwd (c t) (b t) K.cacheF K.cacheB; pure um.1) = _
    rw [(hu t).1, bind_ok]; rfl
  · intro is hv
    have := hasDerivAt_max (hcm.2 is hv) (hbm.2 is hv) (by rw [hc, hb]; exact hne is hv)
    rw [hc, hb] at this
    exact this
  · intro g hg hgs
    have hgh := hg.has
    rw [hgs] at hgh
    have hx := hcm.has 0
    have hy := hbm.has 0
    rw [hc] at hx
    rw [hb] at hy
    obtain ⟨u', m', dl, dr, h1, _, h3, h4, h5⟩ := Pool.maximum_routes x y K.cacheF K.cacheB g K.cacheB K.cacheB' x.shape x.at y.at g.at hx hy hgh
    refine ⟨dl, dr, ?_, h4.wf, h4.1, h5.wf, by rw [h5.1, hxy], ?_⟩
    · show (do let um ← Pool.maximumFwd x y K.cacheF K.cacheB; Pool.maximumBack x y g um.2 K.cacheB K.cacheB') = _
      rw [h1, bind_ok, h3]
    · rw [← hxy]
      unfold pair
      rw [← sumIdx_add]
      refine sumIdx_congr (fun is hv => ?_)
      rw [h4.at_eq hv, h5.at_eq hv]
      by_cases hlt : y.at is < x.at is
      · simp only [if_pos hlt]; ring
      · simp only [if_neg hlt]; ring

/-- The hypotheses `plus` needs of the shapes of its operands: they are compatible, the sum has shape `s`, every extent is a number and the
rank is at least one. -/
structure Fits (K : Kit) (l r s : List Nat) : Prop where
  reduces : Reduces (· + ·) K.red
  compat : Compatible l r
  sum : broadcastShape l r = ok s
  l0 : l ≠ []
  r0 : r ≠ []
  ml : l.getLast? ≠ some minusOne
  mr : r.getLast? ≠ some minusOne
  ms : ∀ d ∈ s, d ≠ minusOne
  rank : s.length < minusOne
  fuel : s.length ≤ K.fuel
  pos : size s ≠ 0

theorem compatible_self (s : List Nat) : Compatible s s := fun _ => Or.inl rfl

theorem bc_self {s is : List Nat} (h : ValidIdx s is) : bcIdx s is = is := by
  have := bcIdx_suffix (pre := []) (t := s) (is := is) h
  simpa using this

/-- What is needed of one shape for operands of the same shape. -/
structure Fits1 (K : Kit) (s : List Nat) : Prop where
  reduces : Reduces (· + ·) K.red
  ne : s ≠ []
  ms : ∀ d ∈ s, d ≠ minusOne
  rank : s.length < minusOne
  fuel : s.length ≤ K.fuel
  pos : size s ≠ 0

theorem Fits1.fits {K : Kit} {s : List Nat} (h : Fits1 K s) : Fits K s s s := by
  have hl : s.getLast? ≠ some minusOne := by
    intro h'
    exact h.ms _ (List.mem_of_getLast? h') rfl
  exact ⟨h.reduces, compatible_self s, by unfold broadcastShape; simp, h.ne, h.ne, hl, hl, h.ms, h.rank, h.fuel, h.pos⟩

theorem Fits.good {K : Kit} {x y : Ten ℝ} {s : List Nat} (h : Fits K x.shape y.shape s) : (opPlus K.red K.fuel).Good x y :=
  opPlus_good K.red h.reduces K.fuel x y s h.sum h.compat h.l0 h.r0 h.ms h.ml h.mr h.rank h.pos h.fuel

theorem Fits.sum_ok {K : Kit} {x y : Ten ℝ} {l r s : List Nat} {a b : List Nat → ℝ} (h : Fits K l r s) (hx : x.Has l a) (hy : y.Has r b) :
    ∃ u, (opPlus K.red K.fuel).fwd x y = ok u ∧ u.Has s (fun is => a (bcIdx l is) + b (bcIdx r is)) := by
  obtain ⟨c, u, h1, h2, h3⟩ := plusT_ok hx hy h.compat h.ml h.mr
  rw [h.sum] at h1
  cases h1
  exact ⟨u, h2, h3⟩

variable {L D : Nat → Ten ℝ} {K : Kit}

/-- The value of `e` is a tensor of shape `s` with elements `a`. -/
def Ev (L D : Nat → Ten ℝ) (e : Ex ℝ) (s : List Nat) (a : List Nat → ℝ) : Prop := ∃ x, eval L D e = ok x ∧ x.Has s a

theorem Ev.congr {e : Ex ℝ} {s : List Nat} {a b : List Nat → ℝ} (h : Ev L D e s a) (hab : ∀ is, ValidIdx s is → a is = b is) : Ev L D e s b :=
  let ⟨x, h1, h2⟩ := h
  ⟨x, h1, h2.congr hab⟩

theorem Ev.el {e : Ex ℝ} {s : List Nat} {a : List Nat → ℝ} (h : Ev L D e s a) (i : Nat) (op : EOp) : Ev L D (el K i op e) s (fun is => op.fwd (a is)) := by
  obtain ⟨x, h1, h2⟩ := h
  obtain ⟨y, k1, k2⟩ := mapT_ok op.fwd K.cacheF x h2
  refine ⟨y, ?_, k2⟩
  unfold Loss.el eval
  rw [h1, bind_ok]; exact k1

theorem smooth_el {e : Ex ℝ} {s : List Nat} {a : List Nat → ℝ} (h : Ev L D e s a) (hs : Smooth L D e) (i : Nat) (op : EOp)
    (hd : ∀ is, ValidIdx s is → op.Dom (a is)) : Smooth L D (el K i op e) := by
  obtain ⟨x, h1, h2⟩ := h
  refine ⟨hs, fun x' hx' => ?_⟩
  rw [h1] at hx'
  cases hx'
  exact opElem_good op _ _ x (fun is hv => by rw [h2.1] at hv; rw [h2.at_eq hv]; exact hd is hv)

theorem Ev.plus {l r : Ex ℝ} {sl sr s : List Nat} {a b : List Nat → ℝ} (hl : Ev L D l sl a) (hr : Ev L D r sr b) (hf : Fits K sl sr s) (i : Nat) :
    Ev L D (plusE K i l r) s (fun is => a (bcIdx sl is) + b (bcIdx sr is)) := by
  obtain ⟨x, h1, h2⟩ := hl
  obtain ⟨y, k1, k2⟩ := hr
  obtain ⟨u, m1, m2⟩ := hf.sum_ok h2 k2
  refine ⟨u, ?_, m2⟩
  unfold plusE eval
  rw [h1, bind_ok, k1, bind_ok, m1]

theorem smooth_plus {l r : Ex ℝ} {sl sr s : List Nat} {a b : List Nat → ℝ} (hl : Ev L D l sl a) (hr : Ev L D r sr b) (hf : Fits K sl sr s)
    (hsl : Smooth L D l) (hsr : Smooth L D r) (i : Nat) : Smooth L D (plusE K i l r) := by
  obtain ⟨x, h1, h2⟩ := hl
  obtain ⟨y, k1, k2⟩ := hr
  refine ⟨hsl, hsr, fun x' y' hx' hy' => ?_⟩
  rw [h1] at hx'
  rw [k1] at hy'
  cases hx'
  cases hy'
  exact Fits.good (s := s) (by rw [h2.1, k2.1]; exact hf)

theorem Ev.minus {l r : Ex ℝ} {sl sr s : List Nat} {a b : List Nat → ℝ} (hl : Ev L D l sl a) (hr : Ev L D r sr b) (hf : Fits K sl sr s) (i : Nat) :
    Ev L D (minusE K i l r) s (fun is => a (bcIdx sl is) - b (bcIdx sr is)) :=
  (hl.plus (hr.el i .negative) hf (i + 1)).congr (fun is _ => by simp only [EOp.fwd]; ring)

theorem smooth_minus {l r : Ex ℝ} {sl sr s : List Nat} {a b : List Nat → ℝ} (hl : Ev L D l sl a) (hr : Ev L D r sr b) (hf : Fits K sl sr s)
    (hsl : Smooth L D l) (hsr : Smooth L D r) (i : Nat) : Smooth L D (minusE K i l r) :=
  smooth_plus hl (hr.el i .negative) hf hsl (smooth_el hr hsr i .negative (fun _ _ => trivial)) (i + 1)

/-- Element-wise product of operands of the same shape. -/
theorem Ev.had {l r : Ex ℝ} {s : List Nat} {a b : List Nat → ℝ} (hl : Ev L D l s a) (hr : Ev L D r s b) (hs : size s ≠ 0) (i : Nat) :
    Ev L D (hadE K i l r) s (fun is => a is * b is) := by
  obtain ⟨x, h1, h2⟩ := hl
  obtain ⟨y, k1, k2⟩ := hr
  obtain ⟨u, m1, m2⟩ := ewp_same h2 k2 hs
  refine ⟨u, ?_, m2⟩
  unfold hadE eval
  rw [h1, bind_ok, k1, bind_ok]
  exact m1

theorem smooth_had {l r : Ex ℝ} {s : List Nat} {a b : List Nat → ℝ} (hl : Ev L D l s a) (hr : Ev L D r s b) (hf : Fits1 K s)
    (hsl : Smooth L D l) (hsr : Smooth L D r) (i : Nat) : Smooth L D (hadE K i l r) := by
  obtain ⟨x, h1, h2⟩ := hl
  obtain ⟨y, k1, k2⟩ := hr
  refine ⟨hsl, hsr, fun x' y' hx' hy' => ?_⟩
  rw [h1] at hx'
  rw [k1] at hy'
  cases hx'
  cases hy'
  exact opEwp_good K.red hf.reduces K.fuel x y [] s h2.1 k2.1 hf.ne hf.pos hf.ms hf.rank hf.fuel

/-- A value plus an expression. -/
theorem Ev.valuePlus {e : Ex ℝ} {s : List Nat} {a : List Nat → ℝ} (h : Ev L D e s a) (hf : Fits1 K s) (v : ℝ) (i : Nat) :
    Ev L D (.un i (valueLeft v (opPlus K.red K.fuel)) e) s (fun is => v + a is) := by
  obtain ⟨x, h1, h2⟩ := h
  obtain ⟨u, m1, m2⟩ := hf.fits.sum_ok (replicate_has s v) h2
  refine ⟨u, ?_, m2.congr (fun is hv => by rw [bc_self hv])⟩
  unfold eval
  rw [h1, bind_ok]
  show (do let l ← valueLike v x; (opPlus K.red K.fuel).fwd l x) = _
  rw [valueLike_ok, bind_ok, h2.1, m1]

theorem smooth_valuePlus {e : Ex ℝ} {s : List Nat} {a : List Nat → ℝ} (h : Ev L D e s a) (hs : Smooth L D e) (hf : Fits1 K s) (v : ℝ) (i : Nat) :
    Smooth L D (.un i (valueLeft v (opPlus K.red K.fuel)) e) := by
  obtain ⟨x, h1, h2⟩ := h
  refine ⟨hs, fun x' hx' => ?_⟩
  rw [h1] at hx'
  cases hx'
  exact valueLeft_good v _ x (Fits.good (s := s) (by rw [h2.1]; exact hf.fits))

/-- The maximum of a value and an expression. -/
theorem Ev.valueMax {e : Ex ℝ} {s : List Nat} {a : List Nat → ℝ} (h : Ev L D e s a) (v : ℝ) (i : Nat) :
    Ev L D (.un i (valueLeft v (opMax K)) e) s (fun is => max v (a is)) := by
  obtain ⟨x, h1, h2⟩ := h
  obtain ⟨u, m, m1, m2, _⟩ := (Pool.extFwd_ok _ x K.cacheF K.cacheB s _ a (replicate_has s v) h2).1
  refine ⟨u, ?_, m2⟩
  unfold eval
  rw [h1, bind_ok]
  show (do let l ← valueLike v x; let um ← Pool.maximumFwd l x K.cacheF K.cacheB; pure um.1) = _
  rw [valueLike_ok, bind_ok, h2.1, m1, bind_ok]; rfl

theorem smooth_valueMax {e : Ex ℝ} {s : List Nat} {a : List Nat → ℝ} (h : Ev L D e s a) (hs : Smooth L D e) (v : ℝ) (hne : ∀ is, ValidIdx s is → a is ≠ v) (i : Nat) :
    Smooth L D (.un i (valueLeft v (opMax K)) e) := by
  obtain ⟨x, h1, h2⟩ := h
  refine ⟨hs, fun x' hx' => ?_⟩
  rw [h1] at hx'
  cases hx'
  refine valueLeft_good v _ x (opMax_good K _ x rfl (fun is hv => ?_))
  rw [(replicate_has x.shape v).at_eq hv]
  simp only at hv
  rw [h2.1] at hv
  rw [h2.at_eq hv]
  exact (hne is hv).symm

theorem Ev.ones {e : Ex ℝ} {s : List Nat} {a : List Nat → ℝ} (h : Ev L D e s a) (i : Nat) : Ev L D (.un i opOnes e) s (fun _ => 1) := by
  obtain ⟨x, h1, h2⟩ := h
  refine ⟨⟨s, List.replicate (size s) 1⟩, ?_, replicate_has s 1⟩
  unfold eval
  rw [h1, bind_ok]
  show ok _ = _
  rw [h2.1]

theorem smooth_ones {e : Ex ℝ} (hs : Smooth L D e) (i : Nat) : Smooth L D (.un i opOnes e) := ⟨hs, fun x _ => opOnes_good x⟩

theorem Ev.sum {e : Ex ℝ} {s : List Nat} {a : List Nat → ℝ} (h : Ev L D e s a) (hs : size s ≠ 0) (i : Nat) :
    eval L D (.un i opSum e) = ok ⟨[1], [sumIdx s a]⟩ := by
  obtain ⟨x, h1, h2⟩ := h
  unfold eval
  rw [h1, bind_ok]
  exact (sum_reduce_adjoint x (⟨[1], [0]⟩ : Ten ℝ) s a 0 h2 hs rfl).1

theorem smooth_sum {e : Ex ℝ} {s : List Nat} {a : List Nat → ℝ} (h : Ev L D e s a) (hs : size s ≠ 0) (hsm : Smooth L D e) (i : Nat) : Smooth L D (.un i opSum e) := by
  obtain ⟨x, h1, h2⟩ := h
  refine ⟨hsm, fun x' hx' => ?_⟩
  rw [h1] at hx'
  cases hx'
  exact opSum_good x (by rw [h2.1]; exact hs)

theorem meanReduce_ok {x : Ten ℝ} {s : List Nat} {a : List Nat → ℝ} (h : x.Has s a) (hs : size s ≠ 0) :
    meanReduce x = ok ⟨[1], [sumIdx s a / (size s : ℝ)]⟩ := by
  unfold meanReduce
  rw [mean_all _ ((data_ne_nil h).mpr hs), bind_ok]
  have : x.data.sum = sumIdx s a := by
    rw [sumIdx_eq_range, list_sum_pos (v := fun p => a (unflat s p)) (fun p hp => h.2.pos (by rwa [h.2.1] at hp)), h.2.1]
  rw [this, h.2.1]; rfl

theorem Ev.mean {e : Ex ℝ} {s : List Nat} {a : List Nat → ℝ} (h : Ev L D e s a) (hs : size s ≠ 0) (i : Nat) :
    eval L D (.un i opMean e) = ok ⟨[1], [sumIdx s a / (size s : ℝ)]⟩ := by
  obtain ⟨x, h1, h2⟩ := h
  unfold eval
  rw [h1, bind_ok]
  exact meanReduce_ok h2 hs

end Verif.Loss
