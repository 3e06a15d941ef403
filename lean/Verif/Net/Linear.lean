import Verif.Loss.Dense
import Verif.Net.Model
import Verif.Conv.TransAdj
import Verif.Pool.Sample
import Verif.Pool.Pad
/-!
# Linear operators in expressions

An operator whose forward and backward actions are transposes of each other is linear, and `Good` everywhere.  Helper theorems for C105.
-/
namespace Verif.Net
open Verif Res View Data Ops Graph Loss

noncomputable section

/-- The tensor of shape `s` with elements `a`. -/
def tenOf (s : List Nat) (a : List Nat → ℝ) : Ten ℝ := ⟨s, (List.range (size s)).map (fun p => a (unflat s p))⟩

theorem tenOf_has (s : List Nat) (a : List Nat → ℝ) : (tenOf s a).Has s a := by
  refine ⟨rfl, by simp [tenOf], fun is hv => ?_⟩
  simp only [tenOf, List.getElem?_map, List.getElem?_range (flat_lt hv), Option.map_some, unflat_flat hv]

/-- `op` carries tensors of shape `s` to tensors of shape `s'`, the elements by `M`, and its backward action is the transpose of `M`. -/
structure Adjoint (op : UOp ℝ) (s s' : List Nat) (M : (List Nat → ℝ) → List Nat → ℝ) : Prop where
  fwd : ∀ t a, t.Has s a → ∃ u, op.fwd t = ok u ∧ u.Has s' (M a)
  bwd : ∀ x o g, x.WF → x.shape = s → g.WF → g.shape = s' → ∃ v, op.bwd x o g = ok v ∧ v.WF ∧ v.shape = s ∧ ∀ d, pair s v.at d = pair s' g.at (M d)

theorem sumIdx_single {s : List Nat} {is : List Nat} (hv : ValidIdx s is) (f : List Nat → ℝ) : sumIdx s (fun js => unitAt is js * f js) = f is := by
  rw [sumIdx_eq_range, Finset.sum_eq_single (flat s is)]
  · rw [unflat_flat hv, unitAt, if_pos rfl, one_mul]
  · intro p hp hne
    rw [Finset.mem_range] at hp
    rw [unitAt, if_neg, zero_mul]
    intro e
    exact hne (by rw [← e, (unflat_spec hp).2])
  · intro h; exact absurd (Finset.mem_range.mpr (flat_lt hv)) h

/-- Transposes are linear: each element of the result is a fixed combination of the elements of the operand. -/
theorem Adjoint.combination {op : UOp ℝ} {s s' : List Nat} {M : (List Nat → ℝ) → List Nat → ℝ} (h : Adjoint op s s' M) {is : List Nat} (hv : ValidIdx s' is) :
    ∃ k : List Nat → ℝ, ∀ a, M a is = pair s k a := by
  obtain ⟨v, _, _, _, h4⟩ := h.bwd (tenOf s (fun _ => 0)) (tenOf s (fun _ => 0)) (tenOf s' (unitAt is)) (tenOf_has s _).wf rfl (tenOf_has s' _).wf rfl
  refine ⟨v.at, fun a => ?_⟩
  rw [h4 a, ← sumIdx_single hv (M a)]
  exact sumIdx_congr (fun js hj => by rw [(tenOf_has s' (unitAt is)).at_eq hj])

theorem Adjoint.der {op : UOp ℝ} {s s' : List Nat} {M : (List Nat → ℝ) → List Nat → ℝ} (h : Adjoint op s s' M) {a : ℝ → List Nat → ℝ} {d : List Nat → ℝ}
    (hd : ∀ is, ValidIdx s is → HasDerivAt (fun t => a t is) (d is) 0) {is : List Nat} (hv : ValidIdx s' is) : HasDerivAt (fun t => M (a t) is) (M d is) 0 := by
  obtain ⟨k, hk⟩ := h.combination hv
  rw [hk d, show (fun t => M (a t) is) = fun t => pair s k (a t) from funext (fun t => hk (a t))]
  exact hasDerivAt_sumIdx (fun js hj => (hd js hj).const_mul (k js))

theorem Adjoint.good {op : UOp ℝ} {x : Ten ℝ} {s s' : List Nat} {M : (List Nat → ℝ) → List Nat → ℝ} (h : Adjoint op s s' M) (hx : x.shape = s) : op.Good x := by
  subst hx
  intro c d hc hm
  choose u hu using fun t => h.fwd (c t) (c t).at (hm.has t)
  refine ⟨u, s', M d, fun t => (hu t).1, moves_of_has (fun t => (hu t).2) (fun is hv => h.der (fun js hj => hm.2 js hj) hv), fun g hg hgs => ?_⟩
  obtain ⟨v, h1, h2, h3, h4⟩ := h.bwd x (u 0) g (by rw [← hc]; exact (hm.1 0).1) rfl hg hgs
  exact ⟨v, h1, h2, h3, h4 d⟩

section
variable {L D : Nat → Ten ℝ} {op : UOp ℝ} {s s' : List Nat} {M : (List Nat → ℝ) → List Nat → ℝ} {e : Ex ℝ} {a : List Nat → ℝ}

theorem Adjoint.ev (h : Adjoint op s s' M) (he : Ev L D e s a) (i : Nat) : Ev L D (.un i op e) s' (M a) := by
  obtain ⟨x, h1, h2⟩ := he
  obtain ⟨u, k1, k2⟩ := h.fwd x a h2
  refine ⟨u, ?_, k2⟩
  rw [eval, h1, bind_ok]
  exact k1

theorem Adjoint.smooth (h : Adjoint op s s' M) (he : Ev L D e s a) (hs : Smooth L D e) (i : Nat) : Smooth L D (.un i op e) := by
  obtain ⟨x, h1, h2⟩ := he
  refine ⟨hs, fun x' hx' => ?_⟩
  rw [h1] at hx'
  cases hx'
  exact h.good h2.1

end

theorem dot_pair {A B : Ten ℝ} {s : List Nat} {a b : List Nat → ℝ} (hA : A.Has s a) (hB : B.Has s b) : dot A.data B.data = pair s a b := by
  unfold pair
  rw [sumIdx_eq_range]
  exact dot_eq_sum hA.2.1 hB.2.1 (fun p hp => by have := hA.2.2 _ (unflat_spec hp).1; rwa [(unflat_spec hp).2] at this)
    (fun p hp => by have := hB.2.2 _ (unflat_spec hp).1; rwa [(unflat_spec hp).2] at this)

theorem pair_comm (s : List Nat) (a b : List Nat → ℝ) : pair s a b = pair s b a := sumIdx_congr (fun _ _ => mul_comm _ _)

/-- From the transposes as they are stated for the operators one by one: an equation between inner products of the storages, for every operand, of a
backward action that only looks at the operand's shape. -/
theorem Adjoint.of_dot {op : UOp ℝ} {s s' : List Nat} {M : (List Nat → ℝ) → List Nat → ℝ} {B : Ten ℝ → Res (Ten ℝ)}
    (hf : ∀ t a, t.Has s a → ∃ u, op.fwd t = ok u ∧ u.Has s' (M a)) (hB : ∀ x o g, x.WF → x.shape = s → g.WF → g.shape = s' → op.bwd x o g = B g)
    (hd : ∀ t g, t.WF → t.shape = s → g.WF → g.shape = s' → ∃ u v, op.fwd t = ok u ∧ B g = ok v ∧ v.shape = s ∧ v.data.length = size s ∧ dot u.data g.data = dot t.data v.data) :
    Adjoint op s s' M := by
  refine ⟨hf, fun x o g hx hxs hg hgs => ?_⟩
  obtain ⟨_, v, _, k2, k3, k4, _⟩ := hd (tenOf s (fun _ => 0)) g (tenOf_has s _).wf rfl hg hgs
  have hv : v.WF := by unfold Ten.WF; rw [k3, k4]
  refine ⟨v, by rw [hB x o g hx hxs hg hgs, k2], hv, k3, fun d => ?_⟩
  obtain ⟨u, v', m1, m2, _, _, m5⟩ := hd (tenOf s d) g (tenOf_has s _).wf rfl hg hgs
  rw [k2] at m2
  cases m2
  obtain ⟨u', n1, n2⟩ := hf (tenOf s d) d (tenOf_has s d)
  rw [m1] at n1
  cases n1
  have hvh := hv.has
  rw [k3] at hvh
  have hgh := hg.has
  rw [hgs] at hgh
  rw [dot_pair n2 hgh, dot_pair (tenOf_has s d) hvh] at m5
  rw [pair_comm, ← m5, pair_comm]

end
end Verif.Net
