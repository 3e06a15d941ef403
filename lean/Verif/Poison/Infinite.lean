import Verif.Poison.Props
/-!
# C131 and C89 for floating point numbers: overflow in the memories, and a batch of no samples
-/
namespace Verif.Poison
open Verif Res Nan Fp

variable {f : Fmt}

/-- A finite number. -/
def Finite (a : Num f) : Prop := ∃ x h, a = .num x h

/-- A number of the format (the type also has multiples of the smallest number that no operation gives). -/
def Exact (a : Num f) : Prop := ∃ x h, a = .num x h ∧ toNum f x = .num x h

theorem sub_zero' {a : Num f} (h : Exact a) : a - 0 = a := by
  obtain ⟨x, h, rfl, e⟩ := h
  show toNum f (x + -0) = _
  rw [neg_zero, add_zero]
  exact e

/-- A finite number over something infinite is nothing. -/
theorem div_inf {p : Num f} (hp : Finite p) (s : Bool) : p / (.inf s) = 0 := by
  obtain ⟨x, h, rfl⟩ := hp
  rfl

/-- Squares are finite or `+∞`. -/
theorem sq_cases {g : Num f} (hg : Finite g) : Finite (g * g) ∨ g * g = .inf false := by
  obtain ⟨x, h, rfl⟩ := hg
  change Finite (toNum f (x * x)) ∨ toNum f (x * x) = .inf false
  unfold toNum
  split
  · exact Or.inl ⟨_, _, rfl⟩
  · refine Or.inr ?_
    congr 1
    exact decide_eq_false (not_lt.mpr (mul_self_nonneg x))

theorem inf_add {a : Num f} (h : Finite a ∨ a = .inf false) : (.inf false : Num f) + a = .inf false := by
  rcases h with ⟨x, h, rfl⟩ | rfl
  · rfl
  · rfl

theorem add_inf {a : Num f} (h : Finite a) : a + (.inf false : Num f) = .inf false := by
  obtain ⟨x, h, rfl⟩ := h
  rfl

/-- An element whose squared gradients have been summed up to infinity does not move: adagrad. -/
theorem adagrad_frozen (sqrt : Num f → Num f) (hs : sqrt (.inf false) = .inf false) (eps lr w g ν : Num f) (heps : Finite eps) (hw : Exact w) (hg : Finite g) (hlg : Finite (lr * g)) :
    ((Opt.adagrad lr).elem sqrt eps w g (.inf false) ν).1 = w ∧ ((Opt.adagrad lr).elem sqrt eps w g (.inf false) ν).2.1 = .inf false := by
  have e : (.inf false : Num f) + g * g = .inf false := inf_add (sq_cases hg)
  simp only [Opt.elem, e, hs, add_inf heps, div_inf hlg, sub_zero' hw, and_self]

/-- Rounds of adagrad that do not set the weights, from a memory that is infinite at `is`. -/
theorem adagrad_stays (sqrt : Num f → Num f) (hs : sqrt (.inf false) = .inf false) (eps : Num f) (heps : Finite eps) (sh is : List Nat) (w0 : Num f) (hw0 : Exact w0) :
    ∀ (l : List (Num f × Ten (Num f))) (v : Var (Num f)) (w μ ν : List Nat → Num f),
      (∀ r ∈ l, ∃ g, r.2.Has sh g ∧ Finite (g is) ∧ Finite (r.1 * g is)) → v.data.Has sh w → w is = w0 → Mem 1 v.ctx sh μ ν → μ is = .inf false →
      ∃ v', l.foldlM (fun v r => adagradStep sqrt eps r.1 { v with grad := r.2 }) v = ok v' ∧ ∃ w', v'.data.Has sh w' ∧ w' is = w0 := by
  intro l
  induction l with
  | nil => intro v w μ ν _ hd hw _ _; exact ⟨v, rfl, w, hd, hw⟩
  | cons r l ih =>
    intro v w μ ν hl hd hw hm hμ
    obtain ⟨g, hg, hf, hlg⟩ := hl r List.mem_cons_self
    obtain ⟨v1, a1, a2, _, a4⟩ := step_elem sqrt eps (.adagrad r.1) (v := { v with grad := r.2 }) hd hg hm (fun lr e => by cases e)
    obtain ⟨b1, b2⟩ := adagrad_frozen sqrt hs eps r.1 (w is) (g is) (ν is) heps (hw ▸ hw0) hf hlg
    rw [← hμ] at b1 b2
    obtain ⟨v', c1, c2⟩ := ih v1 _ _ _ (fun r' hr' => hl r' (List.mem_cons_of_mem _ hr')) a2 (b1.trans hw) a4 (b2.trans hμ)
    refine ⟨v', ?_, c2⟩
    rw [List.foldlM_cons]
    have a1' : adagradStep sqrt eps r.1 { v with grad := r.2 } = ok v1 := a1
    rw [a1', bind_ok]
    exact c1

/-- C131 is false of adagrad: one finite gradient whose square is too large for the format, and the element never moves again - not in that
step, nor in any later one, whatever the finite gradients and learning rates. -/
theorem overflow_freezes_violated (sqrt : Num f → Num f) (hs : sqrt (.inf false) = .inf false) (eps : Num f) (heps : Finite eps) (lr : Num f) {v : Var (Num f)} {sh is : List Nat}
    {w g μ ν : List Nat → Num f} (hd : v.data.Has sh w) (hg : v.grad.Has sh g) (hm : Mem 1 v.ctx sh μ ν) (hw : Exact (w is)) (hμ : Finite (μ is)) (hf : Finite (g is)) (hlg : Finite (lr * g is))
    (hov : ¬ Finite (g is * g is)) (l : List (Num f × Ten (Num f))) (hl : ∀ r ∈ l, ∃ g, r.2.Has sh g ∧ Finite (g is) ∧ Finite (r.1 * g is)) :
    ∃ v1 v', adagradStep sqrt eps lr v = ok v1 ∧ l.foldlM (fun v r => adagradStep sqrt eps r.1 { v with grad := r.2 }) v1 = ok v' ∧
      ∃ w', v'.data.Has sh w' ∧ w' is = w is := by
  obtain ⟨v1, a1, a2, _, a4⟩ := step_elem sqrt eps (.adagrad lr) hd hg hm (fun lr e => by cases e)
  have e : g is * g is = .inf false := (sq_cases hf).resolve_left hov
  have e2 : μ is + g is * g is = .inf false := by rw [e]; exact add_inf hμ
  obtain ⟨v', b1, b2⟩ := adagrad_stays sqrt hs eps heps sh is (w is) hw l v1 _ _ _ hl a2
    (by simp only [Opt.elem, e2, hs, add_inf heps, div_inf hlg, sub_zero' hw]) a4 e2
  exact ⟨v1, v', a1, b1, b2⟩

/-- The same memory in rmsprop (`rho > 0`) and adam (`b2 > 0`): infinity stays, and the element does not move. -/
theorem overflow_freezes_averages_violated (sqrt : Num f → Num f) (hs : sqrt (.inf false) = .inf false) (eps : Num f) (heps : Finite eps) (w g μ : Num f) (hw : Exact w)
    (rho : ℚ) (hr : Grid f rho) (hrho : 0 < rho) (hsm : Finite (g * g * (1 - .num rho hr)) ∨ g * g * (1 - .num rho hr) = .inf false) :
    (∀ lr ν iter, iter ≠ 0 → Finite (lr * g) → ((Opt.rmsprop lr (.num rho hr) iter).elem sqrt eps w g (.inf false) ν).1 = w ∧
      ((Opt.rmsprop lr (.num rho hr) iter).elem sqrt eps w g (.inf false) ν).2.1 = .inf false) ∧
    (∀ lr lrt b1 iter, 1 < iter → Finite (lrt * (μ * b1 + g * (1 - b1))) → ((Opt.adam lr lrt b1 (.num rho hr) iter).elem sqrt eps w g μ (.inf false)).1 = w ∧
      ((Opt.adam lr lrt b1 (.num rho hr) iter).elem sqrt eps w g μ (.inf false)).2.2 = .inf false) := by
  have e : (.inf false : Num f) * .num rho hr = .inf false := by
    show (if rho = 0 then (.nan : Num f) else .inf (xor false (decide (rho < 0)))) = _
    rw [if_neg hrho.ne', decide_eq_false (not_lt.mpr hrho.le)]
    rfl
  constructor
  · intro lr ν iter hi hl
    simp only [Opt.elem, if_neg hi, e, inf_add hsm, hs, add_inf heps, div_inf hl, sub_zero' hw, and_self]
  · intro lr lrt b1 iter hi hl
    simp only [Opt.elem, if_pos hi, e, inf_add hsm, hs, add_inf heps, div_inf hl, sub_zero' hw, and_self]

/-- C89 is false of gradient_descent: a batch of no samples is not refused.  The learning rate is divided by zero, and the first step leaves
no finite number in any variable. -/
theorem empty_batch_violated (lr : Num f) (hlr : Finite lr) {v : Var (Num f)} {sh : List Nat} {w g : List Nat → Num f} (hd : v.data.Has sh w) (hg : v.grad.Has sh g)
    (hw : ∀ is, Finite (w is)) (hgf : ∀ is, Finite (g is)) :
    ∃ v', gdStep false (gdRate 0 lr) v = ok v' ∧ ∃ w', v'.data.Has sh w' ∧ ∀ is, ¬ Finite (w' is) := by
  obtain ⟨v', a1, a2, _⟩ := step_elem (fun x => x) 0 (.gradientDescent false (gdRate 0 lr)) (μ := fun _ => 0) (ν := fun _ => 0) hd hg
    (by by_cases hc : v.ctx = []
        · exact Or.inl ⟨hc, fun _ => ⟨rfl, rfl⟩⟩
        · exact Or.inr ⟨hc, fun h => by simp [Opt.mems] at h, fun h => by simp [Opt.mems] at h⟩) (fun lr e => by cases e)
  refine ⟨v', a1, _, a2, fun is => ?_⟩
  obtain ⟨a, ha, e1⟩ := hw is
  obtain ⟨b, hb, e2⟩ := hgf is
  obtain ⟨x, hx, rfl⟩ := hlr
  have hz : ((0 : Nat) : Num f) = .num 0 ⟨0, by simp⟩ := by
    show toNum f ((0 : Nat) : ℚ) = _
    unfold toNum
    simp only [Nat.cast_zero, rnd_zero, abs_zero]
    rw [if_pos (by
      have := whole_le_largest f (x := 0) (by simp) ⟨0, by simp⟩
      simpa using this)]
  have hr : gdRate 0 (.num x hx : Num f) = if x = 0 then .nan else .inf (x < 0) := by
    unfold gdRate
    rw [hz]
    show (if (0 : ℚ) = 0 then (if x = 0 then (.nan : Num f) else .inf (x < 0)) else _) = _
    rw [if_pos rfl]
  simp only [Opt.elem, e1, e2, hr]
  rintro ⟨q, hq, h⟩
  by_cases h0 : x = 0
  · rw [if_pos h0] at h
    cases h
  · rw [if_neg h0] at h
    change (.num a ha : Num f) - (if b = 0 then .nan else .inf (xor (decide (x < 0)) (decide (b < 0)))) = _ at h
    by_cases hb0 : b = 0
    · rw [if_pos hb0] at h
      cases h
    · rw [if_neg hb0] at h
      cases h

/-! ## The hypotheses can be met -/

/-- `float` as a number, with whole numbers below `2^24` as they are. -/
theorem float_exact (k : ℤ) (h : |(k : ℚ)| < 2 ^ 24) : Exact (toNum float32 k) ∧ Finite (toNum float32 k) := by
  have h1 : rnd float32 (k : ℚ) = k := rnd_int float32 h
  have h2 : |rnd float32 (k : ℚ)| ≤ largest float32 := by rw [h1]; exact whole_le_largest float32 h ⟨k, rfl⟩
  have h3 : toNum float32 (k : ℚ) = .num (rnd float32 k) (rnd_grid float32 k) := by unfold toNum; rw [if_pos h2]
  refine ⟨⟨_, _, h3, ?_⟩, _, _, h3⟩
  exact (congrArg (toNum float32) h1).trans h3

theorem single_has {F : Type} (x : F) : (⟨[1], [x]⟩ : Ten F).Has [1] (fun _ => x) :=
  ⟨rfl, rfl, fun is his => by
    cases is with
    | nil => simp [ValidIdx] at his
    | cons i is => cases is <;> simp_all [ValidIdx, flat]⟩

/-- sgd with momentum 0, a gradient that is NaN, then weight and gradient 0: the weight is NaN. -/
example : ∃ v1 v', (Opt.sgd 0 1 false).step (fun x => x) 0 (⟨⟨[1], [0]⟩, ⟨[1], [.nan]⟩, []⟩ : Var (Num float32)) = ok v1 ∧
    rounds (fun x => x) 0 [⟨.sgd 0 1 false, ⟨[1], [0]⟩, ⟨[1], [0]⟩⟩] v1 = ok v' ∧ ∃ w', v'.data.Has [1] w' ∧ isNan (w' [0]) = true :=
  nan_forever_violated (fun x => x) (fun _ h => h) 0 (.sgd 0 1 false) (le_refl 1) (single_has _) (single_has _) (Or.inl ⟨rfl, fun _ => ⟨rfl, rfl⟩⟩) rfl _
    (fun r hr => by
      rw [List.mem_singleton] at hr
      subst hr
      exact ⟨rfl, trivial, ⟨_, single_has _⟩, _, single_has _⟩) (by simp)

/-- A gradient of `2^100` is finite in `float`, its square is not: adagrad never moves the weight 1 again. -/
example (sqrt : Num float32 → Num float32) (hs : sqrt (.inf false) = .inf false) (n : Nat) :
    ∃ v1 v', adagradStep sqrt 0 (toNum float32 ((1 : ℤ) : ℚ)) (⟨⟨[1], [toNum float32 ((1 : ℤ) : ℚ)]⟩, ⟨[1], [.num (2 ^ 100) ⟨2 ^ 249, by norm_num [float32]⟩]⟩, []⟩) = ok v1 ∧
      (List.replicate n (0, (⟨[1], [0]⟩ : Ten (Num float32)))).foldlM (fun v r => adagradStep sqrt 0 r.1 { v with grad := r.2 }) v1 = ok v' ∧
      ∃ w', v'.data.Has [1] w' ∧ w' [0] = toNum float32 ((1 : ℤ) : ℚ) := by
  have h1 := float_exact 1 (by norm_num)
  have e1 : toNum float32 ((1 : ℤ) : ℚ) = .num 1 ⟨2 ^ 149, by norm_num [float32]⟩ := by
    obtain ⟨x, hx, a, b⟩ := h1.1
    unfold toNum at a ⊢
    split at a
    · rename_i h
      rw [if_pos h]
      congr 1
      rw [rnd_int float32 (k := 1) (by norm_num [float32])]
      norm_num
    · cases a
  have hz : Finite (0 : Num float32) := ⟨0, _, rfl⟩
  refine overflow_freezes_violated (w := fun _ => toNum float32 ((1 : ℤ) : ℚ)) (g := fun _ => .num (2 ^ 100) ⟨2 ^ 249, by norm_num [float32]⟩) (μ := fun _ => 0) (ν := fun _ => 0)
    sqrt hs 0 hz _ (single_has _) (single_has _) (Or.inl ⟨rfl, fun _ => ⟨rfl, rfl⟩⟩) (is := [0]) h1.1 hz ?_ ?_ ?_ _ ?_
  · exact ⟨_, _, rfl⟩
  · rw [e1]
    show Finite (toNum float32 (1 * 2 ^ 100))
    unfold toNum
    rw [if_pos (rnd_le_largest float32 (by norm_num [largest, float32]))]
    exact ⟨_, _, rfl⟩
  · rintro ⟨x, hx, h⟩
    change toNum float32 (2 ^ 100 * 2 ^ 100) = _ at h
    unfold toNum at h
    split at h
    · rename_i hle
      have := rnd_err float32 (2 ^ 100 * 2 ^ 100)
      rw [abs_le] at this hle
      have h2 := this.1
      have h3 := hle.2
      norm_num [largest, float32] at h2 h3
      linarith
    · cases h
  · intro r hr
    obtain ⟨_, rfl⟩ := List.mem_replicate.mp hr
    refine ⟨_, single_has _, hz, ?_⟩
    show Finite (toNum float32 (0 * 0))
    unfold toNum
    rw [if_pos (rnd_le_largest float32 (by norm_num [largest, float32]))]
    exact ⟨_, _, rfl⟩

/-- gradient_descent with a batch of no samples. -/
example : ∃ v', gdStep false (gdRate 0 0) (⟨⟨[1], [0]⟩, ⟨[1], [0]⟩, []⟩ : Var (Num float32)) = ok v' ∧ ∃ w', v'.data.Has [1] w' ∧ ∀ is, ¬ Finite (w' is) :=
  empty_batch_violated 0 ⟨0, _, rfl⟩ (single_has _) (single_has _) (fun _ => ⟨0, _, rfl⟩) (fun _ => ⟨0, _, rfl⟩)

end Verif.Poison
