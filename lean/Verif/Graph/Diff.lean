import Verif.Graph.Backward
import Verif.Ops.Sum
import Mathlib.Analysis.Calculus.Deriv.Mul
import Mathlib.Analysis.Calculus.Deriv.Add
/-!
# Derivatives of expressions (specification and proof for C53)

Derivatives are taken along curves of tensors: `Moves c s d` says that `c` is a curve of tensors of shape `s` passing with velocity `d`
through `c 0`.  An operator is `Good` at a point if it carries curves to curves and its backward action is the transpose of its
derivative there.
-/
namespace Verif.Graph
open Verif Res View Data

/-- A curve of tensors of shape `s` with velocity `d` at 0. -/
def Moves (c : ℝ → Ten ℝ) (s : List Nat) (d : List Nat → ℝ) : Prop :=
  (∀ t, (c t).WF ∧ (c t).shape = s) ∧ ∀ is, ValidIdx s is → HasDerivAt (fun t => (c t).at is) (d is) 0

/-- The inner product of two tensors of shape `s`. -/
def pair (s : List Nat) (a b : List Nat → ℝ) : ℝ := sumIdx s (fun is => a is * b is)

/-- The backward action of a unary operator is the transpose of the derivative of its forward action at `x`. -/
def UOp.Good (op : UOp ℝ) (x : Ten ℝ) : Prop :=
  ∀ c d, c 0 = x → Moves c x.shape d → ∃ y s' d', (∀ t, op.fwd (c t) = ok (y t)) ∧ Moves y s' d' ∧
    ∀ g : Ten ℝ, g.WF → g.shape = s' → ∃ u, op.bwd x (y 0) g = ok u ∧ u.WF ∧ u.shape = x.shape ∧ pair x.shape u.at d = pair s' g.at d'

/-- The same for a binary operator. -/
def BOp.Good (op : BOp ℝ) (x y : Ten ℝ) : Prop :=
  ∀ c d b e, c 0 = x → Moves c x.shape d → b 0 = y → Moves b y.shape e → ∃ z s' d', (∀ t, op.fwd (c t) (b t) = ok (z t)) ∧ Moves z s' d' ∧
    ∀ g : Ten ℝ, g.WF → g.shape = s' → ∃ u w, op.bwd x y (z 0) g = ok (u, w) ∧ u.WF ∧ u.shape = x.shape ∧ w.WF ∧ w.shape = y.shape ∧
      pair x.shape u.at d + pair y.shape w.at e = pair s' g.at d'

/-- All operators of the expression are good where they are evaluated. -/
def Smooth (leaf data : Nat → Ten ℝ) : Ex ℝ → Prop
  | .leaf k => (leaf k).WF ∧ (leaf k).data ≠ []
  | .var v _ => (data v).WF
  | .un _ op e => Smooth leaf data e ∧ ∀ x, eval leaf data e = ok x → op.Good x
  | .bin _ op l r => Smooth leaf data l ∧ Smooth leaf data r ∧ ∀ x y, eval leaf data l = ok x → eval leaf data r = ok y → op.Good x y

theorem pair_zero (s : List Nat) (a : List Nat → ℝ) : pair s a (fun _ => 0) = 0 := by
  unfold pair
  rw [sumIdx_congr (g := fun _ => (0 : ℝ) * 0) (fun is _ => by simp), sumIdx_mul_left, zero_mul]

/-- Reverse-mode differentiation computes directional derivatives. -/
theorem reverse {leaf : Nat → Ten ℝ} {θ : ℝ → Nat → Ten ℝ} {δ : Nat → List Nat → ℝ} (e : Ex ℝ) (hs : Smooth leaf (θ 0) e)
    (hm : ∀ v ∈ vars e, Moves (fun t => θ t v) (θ 0 v).shape (δ v)) :
    ∃ y s' d', (∀ t, eval leaf (θ t) e = ok (y t)) ∧ Moves y s' d' ∧ ∀ g : Ten ℝ, g.WF → g.shape = s' → ∀ sl, ∃ l, arrivals leaf (θ 0) e sl g = ok l ∧
      (∀ a ∈ l, a.inc.WF ∧ a.inc.shape = (θ 0 a.v).shape) ∧
      (l.map (fun a => pair (θ 0 a.v).shape a.inc.at (δ a.v))).sum = pair s' g.at d' := by
  induction e with
  | leaf k =>
    refine ⟨fun _ => leaf k, (leaf k).shape, fun _ => 0, fun t => ?_, ⟨fun _ => ⟨hs.1, rfl⟩, fun is _ => hasDerivAt_const _ _⟩, fun g _ _ sl => ⟨[], rfl, ?_, ?_⟩⟩
    · unfold eval; rw [assert_true hs.2, bind_ok]; rfl
    · intro a ha; simp at ha
    · rw [pair_zero]; rfl
  | var v c =>
    refine ⟨fun t => θ t v, (θ 0 v).shape, δ v, fun _ => rfl, hm v (by simp [vars]), fun g hg hgs sl => ⟨[⟨v, c, sl, g⟩], rfl, ?_, ?_⟩⟩
    · intro a ha
      rw [List.mem_singleton] at ha
      subst ha
      exact ⟨hg, hgs⟩
    · simp
  | un i op c ih =>
    obtain ⟨hs1, hs2⟩ := hs
    obtain ⟨x, sx, dx, h1, h2, h3⟩ := ih hs1 hm
    have hsx : (x 0).shape = sx := (h2.1 0).2
    subst hsx
    obtain ⟨y, sy, dy, k1, k2, k3⟩ := hs2 (x 0) (h1 0) x dx rfl h2
    refine ⟨y, sy, dy, fun t => by unfold eval; rw [h1 t, bind_ok, k1 t], k2, fun g hg hgs sl => ?_⟩
    obtain ⟨u, u1, u2, u3, u4⟩ := k3 g hg hgs
    obtain ⟨l, l1, l2, l3⟩ := h3 u u2 u3 (some (i, false))
    refine ⟨l, ?_, l2, by rw [l3, u4]⟩
    unfold arrivals
    rw [h1 0, bind_ok, k1 0, bind_ok, u1, bind_ok, l1]
  | bin i op lhs rhs ihl ihr =>
    obtain ⟨hsl, hsr, hs2⟩ := hs
    obtain ⟨x, sx, dx, h1, h2, h3⟩ := ihl hsl (fun v hv => hm v (by simp only [vars, List.mem_append]; exact Or.inl hv))
    obtain ⟨y, sy, dy, k1, k2, k3⟩ := ihr hsr (fun v hv => hm v (by simp only [vars, List.mem_append]; exact Or.inr hv))
    have hsx : (x 0).shape = sx := (h2.1 0).2
    have hsy : (y 0).shape = sy := (k2.1 0).2
    subst hsx
    subst hsy
    obtain ⟨z, sz, dz, m1, m2, m3⟩ := hs2 (x 0) (y 0) (h1 0) (k1 0) x dx y dy rfl h2 rfl k2
    refine ⟨z, sz, dz, fun t => by unfold eval; rw [h1 t, bind_ok, k1 t, bind_ok, m1 t], m2, fun g hg hgs sl => ?_⟩
    obtain ⟨u, w, u1, u2, u3, u4, u5, u6⟩ := m3 g hg hgs
    obtain ⟨la, a1, a2, a3⟩ := h3 u u2 u3 (some (i, false))
    obtain ⟨lb, b1, b2, b3⟩ := k3 w u4 u5 (some (i, true))
    refine ⟨la ++ lb, ?_, ?_, ?_⟩
    · unfold arrivals
      rw [h1 0, bind_ok, k1 0, bind_ok, m1 0, bind_ok, u1, bind_ok]
      dsimp only
      rw [a1, bind_ok, b1, bind_ok]
      rfl
    · intro a ha
      rcases List.mem_append.mp ha with h | h
      · exact a2 a h
      · exact b2 a h
    · rw [List.map_append, List.sum_append, a3, b3, u6]

/-- Adding `h` to one element. -/
def bump (t : Ten ℝ) (is : List Nat) (h : ℝ) : Ten ℝ := ⟨t.shape, t.data.set (flat t.shape is) (t.at is + h)⟩

/-- The unit vector at an index. -/
def unitAt (is js : List Nat) : ℝ := if js = is then 1 else 0

theorem flat_inj {s is js : List Nat} (h1 : ValidIdx s is) (h2 : ValidIdx s js) (h : flat s is = flat s js) : is = js := by
  rw [← unflat_flat h1, h, unflat_flat h2]

theorem bump_zero {t : Ten ℝ} (ht : t.WF) {is : List Nat} (hv : ValidIdx t.shape is) : bump t is 0 = t := by
  have := ht.has.2.2 is hv
  unfold bump
  cases t with | mk s d =>
  simp only [add_zero] at this ⊢
  congr 1
  apply List.ext_getElem?
  intro p
  rw [List.getElem?_set]
  by_cases hp : flat s is = p
  · subst hp
    rw [if_pos rfl, if_pos (by rw [ht]; exact flat_lt hv), this]
  · rw [if_neg hp]

theorem moves_bump {t : Ten ℝ} (ht : t.WF) {is : List Nat} (hv : ValidIdx t.shape is) : Moves (bump t is) t.shape (unitAt is) := by
  refine ⟨fun h => ⟨by unfold Ten.WF bump; simp only [List.length_set]; exact ht, rfl⟩, fun js hj => ?_⟩
  have e : (fun h => (bump t is h).at js) = fun h => if js = is then t.at is + h else t.at js := by
    funext h
    unfold Ten.at bump
    simp only [List.getD_eq_getElem?_getD, List.getElem?_set]
    have hl : flat t.shape is < t.data.length := by rw [ht]; exact flat_lt hv
    by_cases hji : js = is
    · subst hji
      rw [if_pos rfl, if_pos hl, if_pos rfl]; rfl
    · rw [if_neg (fun h => hji (flat_inj hj hv h.symm)), if_neg hji]
  rw [e]
  unfold unitAt
  by_cases hji : js = is
  · simp only [if_pos hji]
    exact (hasDerivAt_id' (0 : ℝ)).const_add _
  · simp only [if_neg hji]
    exact hasDerivAt_const _ _

theorem pair_unit {s is : List Nat} (hv : ValidIdx s is) (a : List Nat → ℝ) : pair s a (unitAt is) = a is := by
  unfold pair
  induction s generalizing is a with
  | nil =>
    cases is with
    | nil => simp [sumIdx, unitAt]
    | cons i is => simp [ValidIdx] at hv
  | cons n s ih =>
    cases is with
    | nil => simp [ValidIdx] at hv
    | cons i is =>
      simp only [sumIdx]
      rw [Finset.sum_eq_single i]
      · rw [← ih hv.2 (fun js => a (i :: js))]
        refine sumIdx_congr (fun js _ => ?_)
        unfold unitAt
        simp
      · intro j _ hj
        rw [sumIdx_congr (g := fun _ => (0 : ℝ) * 0) (fun js _ => by unfold unitAt; rw [if_neg (by simp [hj])]; simp), sumIdx_mul_left, zero_mul]
      · intro h
        exact absurd (Finset.mem_range.mpr hv.1) h

theorem hasDerivAt_sumIdx {s : List Nat} {f : ℝ → List Nat → ℝ} {d : List Nat → ℝ} (h : ∀ is, ValidIdx s is → HasDerivAt (fun t => f t is) (d is) 0) :
    HasDerivAt (fun t => sumIdx s (f t)) (sumIdx s d) 0 := by
  induction s generalizing f d with
  | nil => exact h [] trivial
  | cons n s ih =>
    simp only [sumIdx]
    exact HasDerivAt.fun_sum (fun i hi => ih (f := fun t is => f t (i :: is)) (fun is hv => h (i :: is) ⟨Finset.mem_range.mp hi, hv⟩))

theorem hasDerivAt_pair {c : ℝ → Ten ℝ} {s : List Nat} {d : List Nat → ℝ} (h : Moves c s d) (g : List Nat → ℝ) :
    HasDerivAt (fun t => pair s g (c t).at) (pair s g d) 0 :=
  hasDerivAt_sumIdx (fun is hv => (h.2 is hv).const_mul (g is))

end Verif.Graph
