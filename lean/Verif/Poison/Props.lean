import Verif.Poison.Model
import Verif.Nan.Props
import Verif.Basic.Inplace
/-!
# C131: optimizers and gradients that are not numbers
-/
namespace Verif.Poison
open Verif Res Nan

variable {F : Type} [Floats F]

/-! ## What a step does with one element -/

/-- The memories the contexts hold for `k` tensors of memory; none yet is all zeros. -/
def Mem (k : Nat) (c : List (Ten F)) (sh : List Nat) (μ ν : List Nat → F) : Prop :=
  (c = [] ∧ ∀ is, μ is = 0 ∧ ν is = 0) ∨
    (c ≠ [] ∧ (1 ≤ k → ∃ m, c[0]? = some m ∧ m.Has sh μ) ∧ (2 ≤ k → ∃ n, c[1]? = some n ∧ n.Has sh ν))

/-- The number of tensors of memory. -/
def Opt.mems : Opt F → Nat
  | .sgd .. => 1
  | .adagrad .. => 1
  | .rmsprop .. => 1
  | .adadelta .. => 2
  | .adam .. => 2
  | .gradientDescent .. => 0

/-- New element and memories, of an element `w` with gradient `g` and memories `μ`, `ν`. -/
def Opt.elem (sqrt : F → F) (eps : F) : Opt F → F → F → F → F → F × F × F
  | .sgd mom lr nesterov, w, g, μ, ν =>
    let m := μ * mom - lr * g
    (if nesterov = true then w + m else w + (mom * m - lr * g), m, ν)
  | .adagrad lr, w, g, μ, ν => (w - lr * g / (eps + sqrt (μ + g * g)), μ + g * g, ν)
  | .rmsprop lr rho iter, w, g, μ, ν =>
    let m := if iter = 0 then g * g else μ * rho + g * g * (1 - rho)
    (w - lr * g / (eps + sqrt m), m, ν)
  | .adadelta lr rho, w, g, μ, ν =>
    let m := μ * rho + g * g * (1 - rho)
    let g' := g * (lr * sqrt ((m + eps) / (m + eps)))
    (w - g', m * rho + (1 - rho) * g' * g', ν)
  | .adam lr lrt b1 b2 iter, w, g, μ, ν =>
    let m := μ * b1 + g * (1 - b1)
    let n := ν * b2 + g * g * (1 - b2)
    (if 1 < iter then w - lrt * m / (eps + sqrt n) else w - lr * g, m, n)
  | .gradientDescent _ lr, w, g, μ, ν => (w - lr * g, μ, ν)

theorem each2_ok {n : Nat} {f : F → F → F} {o a : Ten F} {sh : List Nat} {x y : List Nat → F} (ho : o.Has sh x) (ha : a.Has sh y) (hn : n = size sh) :
    ∃ u, each2 n f o a = ok u ∧ u.Has sh (fun is => f (x is) (y is)) := by
  subst hn
  obtain ⟨d, h1, h2, h3⟩ := update1 (n := size sh) (out := o.data)
    (body := fun i d => do
      let x ← rd d i
      let y ← rd a.data i
      wr d i (f x y)) (a := fun p => x (unflat sh p)) (g := fun p => f (x (unflat sh p)) (y (unflat sh p)))
    (fun j o hj _ h => by rw [rd_ok h, bind_ok, rd_ok (ha.2.pos hj), bind_ok]) ho.2.1 (fun p hp => ho.2.pos hp)
  refine ⟨⟨sh, d⟩, ?_, rfl, isT_of_pos h2 h3 (fun is hv => by rw [unflat_flat hv])⟩
  unfold each2
  rw [h1, ho.1]
  rfl

theorem each3_ok {n : Nat} {f : F → F → F → F} {o a b : Ten F} {sh : List Nat} {x y z : List Nat → F} (ho : o.Has sh x) (ha : a.Has sh y) (hb : b.Has sh z) (hn : n = size sh) :
    ∃ u, each3 n f o a b = ok u ∧ u.Has sh (fun is => f (x is) (y is) (z is)) := by
  subst hn
  obtain ⟨d, h1, h2, h3⟩ := update1 (n := size sh) (out := o.data)
    (body := fun i d => do
      let x ← rd d i
      let y ← rd a.data i
      let z ← rd b.data i
      wr d i (f x y z)) (a := fun p => x (unflat sh p)) (g := fun p => f (x (unflat sh p)) (y (unflat sh p)) (z (unflat sh p)))
    (fun j o hj _ h => by rw [rd_ok h, bind_ok, rd_ok (ha.2.pos hj), bind_ok, rd_ok (hb.2.pos hj), bind_ok]) ho.2.1 (fun p hp => ho.2.pos hp)
  refine ⟨⟨sh, d⟩, ?_, rfl, isT_of_pos h2 h3 (fun is hv => by rw [unflat_flat hv])⟩
  unfold each3
  rw [h1, ho.1]
  rfl

theorem zerosLike_has {t : Ten F} {sh : List Nat} {x : List Nat → F} (h : t.Has sh x) : (zerosLike t).Has sh (fun _ => 0) := by
  refine ⟨h.1, ?_⟩
  unfold zerosLike
  rw [h.1]
  exact isT_of_pos (by simp) (v := fun _ => 0) (fun p hp => by simp [hp]) (fun _ _ => rfl)

theorem resetT_has {t : Ten F} {sh : List Nat} {x : List Nat → F} (h : t.Has sh x) : (resetT t).Has sh (fun _ => 0) := by
  refine ⟨h.1, ?_⟩
  unfold resetT
  exact isT_of_pos (by simp [h.2.1]) (v := fun _ => 0) (fun p hp => by simp [h.2.1, hp]) (fun _ _ => rfl)

theorem map_has {t : Ten F} {sh : List Nat} {x : List Nat → F} (f : F → F) (h : t.Has sh x) : (⟨t.shape, t.data.map f⟩ : Ten F).Has sh (fun is => f (x is)) := by
  refine ⟨h.1, isT_of_pos (v := fun p => f (x (unflat sh p))) (by simp [h.2.1]) (fun p hp => ?_) (fun is hv => by rw [unflat_flat hv])⟩
  rw [List.getElem?_map, h.2.pos hp]
  rfl

theorem has_len {t : Ten F} {sh : List Nat} {x : List Nat → F} (h : t.Has sh x) : t.data.length = size sh := h.2.1

theorem memory_one {v : Var F} {sh : List Nat} {w μ ν : List Nat → F} (hd : v.data.Has sh w) (hm : Mem 1 v.ctx sh μ ν) :
    ∃ m rest, memory 1 v = m :: rest ∧ m.Has sh μ := by
  unfold memory
  rcases hm with ⟨h, hz⟩ | ⟨h, h1, _⟩
  · rw [h]
    exact ⟨_, [], rfl, (zerosLike_has hd).congr (fun is _ => (hz is).1.symm)⟩
  · obtain ⟨m, h2, h3⟩ := h1 (le_refl 1)
    cases hc : v.ctx with
    | nil => exact absurd hc h
    | cons a rest =>
      rw [hc] at h2
      cases h2
      exact ⟨m, rest, rfl, h3⟩

theorem memory_two {v : Var F} {sh : List Nat} {w μ ν : List Nat → F} (hd : v.data.Has sh w) (hm : Mem 2 v.ctx sh μ ν) :
    ∃ m n rest, memory 2 v = m :: n :: rest ∧ m.Has sh μ ∧ n.Has sh ν := by
  unfold memory
  rcases hm with ⟨h, hz⟩ | ⟨h, h1, h1'⟩
  · rw [h]
    exact ⟨_, _, [], rfl, (zerosLike_has hd).congr (fun is _ => (hz is).1.symm), (zerosLike_has hd).congr (fun is _ => (hz is).2.symm)⟩
  · obtain ⟨m, h2, h3⟩ := h1 (by omega)
    obtain ⟨n, h2', h3'⟩ := h1' (le_refl 2)
    cases hc : v.ctx with
    | nil => exact absurd hc h
    | cons a rest =>
      rw [hc] at h2 h2'
      cases h2
      cases rest with
      | nil => simp at h2'
      | cons b rest =>
        simp only [List.getElem?_cons_succ, List.getElem?_cons_zero, Option.some.injEq] at h2'
        subst h2'
        exact ⟨m, b, rest, rfl, h3, h3'⟩

theorem wr_zero {α : Type} (a x : α) (l : List α) : wr (a :: l) 0 x = ok (x :: l) := by rw [wr_ok (by simp)]; rfl
theorem wr_one {α : Type} (a b x : α) (l : List α) : wr (a :: b :: l) 1 x = ok (a :: x :: l) := by rw [wr_ok (by simp)]; rfl

/-- Every step succeeds - gradient_descent unless it checks and finds a NaN -, works on each element by itself, and leaves a gradient of
zeros. -/
theorem step_elem (sqrt : F → F) (eps : F) (o : Opt F) {v : Var F} {sh : List Nat} {w g μ ν : List Nat → F} (hd : v.data.Has sh w) (hg : v.grad.Has sh g)
    (hm : Mem o.mems v.ctx sh μ ν) (hc : ∀ lr, o = .gradientDescent true lr → hasNan v.grad = false) :
    ∃ v', o.step sqrt eps v = ok v' ∧ v'.data.Has sh (fun is => (o.elem sqrt eps (w is) (g is) (μ is) (ν is)).1) ∧ v'.grad.Has sh (fun _ => 0) ∧
      Mem o.mems v'.ctx sh (fun is => (o.elem sqrt eps (w is) (g is) (μ is) (ν is)).2.1) (fun is => (o.elem sqrt eps (w is) (g is) (μ is) (ν is)).2.2) := by
  cases o with
  | sgd mom lr nesterov =>
    obtain ⟨m, rest, e, hμ⟩ := memory_one hd hm
    obtain ⟨m', a1, a2⟩ := each2_ok (f := fun m g => m * mom - lr * g) hμ hg (has_len hμ)
    simp only [Opt.step, sgdStep, e, show rd (m :: rest) 0 = ok m from rfl, bind_ok, a1, wr_zero]
    cases nesterov with
    | false =>
      obtain ⟨d, b1, b2⟩ := each3_ok (f := fun d m g => d + (mom * m - lr * g)) hd a2 hg (has_len a2)
      simp only [if_true, b1, bind_ok]
      exact ⟨_, rfl, b2, resetT_has hg, Or.inr ⟨by simp, fun _ => ⟨m', rfl, a2⟩, fun h => by simp [Opt.mems] at h⟩⟩
    | true =>
      obtain ⟨d, b1, b2⟩ := each2_ok (f := fun x y => x + y) hd a2 (has_len hd)
      simp only [Bool.true_eq_false, if_false, Res.assert_true (show v.data.shape = m'.shape by rw [hd.1, a2.1]), bind_ok, b1]
      exact ⟨_, rfl, b2, resetT_has hg, Or.inr ⟨by simp, fun _ => ⟨m', rfl, a2⟩, fun h => by simp [Opt.mems] at h⟩⟩
  | adagrad lr =>
    obtain ⟨m, rest, e, hμ⟩ := memory_one hd hm
    obtain ⟨m', a1, a2⟩ := each2_ok (f := fun m g => m + g * g) hμ hg (has_len hμ)
    obtain ⟨d, b1, b2⟩ := each3_ok (f := fun d g m => d - lr * g / (eps + sqrt m)) hd hg a2 (has_len hd)
    simp only [Opt.step, adagradStep, e, show rd (m :: rest) 0 = ok m from rfl, bind_ok, a1, wr_zero, b1]
    exact ⟨_, rfl, b2, resetT_has hg, Or.inr ⟨by simp, fun _ => ⟨m', rfl, a2⟩, fun h => by simp [Opt.mems] at h⟩⟩
  | rmsprop lr rho iter =>
    obtain ⟨m, rest, e, hμ⟩ := memory_one hd hm
    have : ∃ m', (if iter = 0 then each2 m.data.length (fun _ g => g * g) m v.grad else each2 m.data.length (fun m g => m * rho + g * g * (1 - rho)) m v.grad) = ok m' ∧
        m'.Has sh (fun is => if iter = 0 then g is * g is else μ is * rho + g is * g is * (1 - rho)) := by
      split
      · exact each2_ok hμ hg (has_len hμ)
      · exact each2_ok hμ hg (has_len hμ)
    obtain ⟨m', a1, a2⟩ := this
    obtain ⟨d, b1, b2⟩ := each3_ok (f := fun d g m => d - lr * g / (eps + sqrt m)) hd hg a2 (has_len hd)
    simp only [Opt.step, rmspropStep, e, show rd (m :: rest) 0 = ok m from rfl, bind_ok, a1, wr_zero, b1]
    exact ⟨_, rfl, b2, resetT_has hg, Or.inr ⟨by simp, fun _ => ⟨m', rfl, a2⟩, fun h => by simp [Opt.mems] at h⟩⟩
  | adadelta lr rho =>
    obtain ⟨m, n, rest, e, hμ, hν⟩ := memory_two hd hm
    obtain ⟨m', a1, a2⟩ := each2_ok (f := fun m g => m * rho + g * g * (1 - rho)) hμ hg (has_len hμ)
    obtain ⟨g', c1, c2⟩ := each3_ok (f := fun g d m => g * (lr * sqrt ((d + eps) / (m + eps)))) hg a2 a2 (has_len hg)
    obtain ⟨d, b1, b2⟩ := each2_ok (f := fun x y => x - y) hd c2 (has_len hd)
    obtain ⟨m'', e1, e2⟩ := each2_ok (f := fun d g => d * rho + (1 - rho) * g * g) a2 c2 (has_len a2)
    simp only [Opt.step, adadeltaStep, e, show rd (m :: n :: rest) 0 = ok m from rfl, bind_ok, a1, c1,
      Res.assert_true (show v.data.shape = g'.shape by rw [hd.1, c2.1]), b1, e1, wr_zero]
    exact ⟨_, rfl, b2, resetT_has c2, Or.inr ⟨by simp, fun _ => ⟨m'', rfl, e2⟩, fun _ => ⟨n, rfl, hν⟩⟩⟩
  | adam lr lrt b1 b2 iter =>
    obtain ⟨m, n, rest, e, hμ, hν⟩ := memory_two hd hm
    obtain ⟨m', a1, a2⟩ := each2_ok (f := fun m g => m * b1 + g * (1 - b1)) hμ hg (has_len hμ)
    obtain ⟨n', c1, c2⟩ := each2_ok (f := fun w g => w * b2 + g * g * (1 - b2)) hν hg (has_len hν)
    have : ∃ d, (if 1 < iter then each3 v.data.data.length (fun d m w => d - lrt * m / (eps + sqrt w)) v.data m' n'
        else each2 v.data.data.length (fun d g => d - lr * g) v.data v.grad) = ok d ∧
        d.Has sh (fun is => if 1 < iter then w is - lrt * (μ is * b1 + g is * (1 - b1)) / (eps + sqrt (ν is * b2 + g is * g is * (1 - b2))) else w is - lr * g is) := by
      split
      · exact each3_ok hd a2 c2 (has_len hd)
      · exact each2_ok hd hg (has_len hd)
    obtain ⟨d, d1, d2⟩ := this
    simp only [Opt.step, adamStep, e, show rd (m :: n :: rest) 0 = ok m from rfl, show rd (m :: n :: rest) 1 = ok n from rfl, bind_ok, a1, c1, wr_zero, wr_one, d1]
    exact ⟨_, rfl, d2, resetT_has hg, Or.inr ⟨by simp, fun _ => ⟨m', rfl, a2⟩, fun _ => ⟨n', rfl, c2⟩⟩⟩
  | gradientDescent checks lr =>
    have hl := map_has (fun x => lr * x) hg
    obtain ⟨d, b1, b2⟩ := each2_ok (f := fun x y => x - y) hd hl (has_len hd)
    have hk : Res.assert (checks = true → hasNan v.grad = false) = ok () := Res.assert_true (fun h => by subst h; exact hc lr rfl)
    refine ⟨⟨d, resetT v.grad, v.ctx⟩, ?_, b2, resetT_has hg, hm⟩
    simp only [Opt.step, gdStep, hk, bind_ok, Res.assert_true (show v.data.shape = v.grad.shape by rw [hd.1, hg.1]), b1]
    rfl

/-! ## NaN -/

/-- gradient_descent stops, in builds with checks, exactly if the gradient has a NaN. -/
theorem gd_checks (lr : F) {v : Var F} {sh : List Nat} {w g : List Nat → F} (hd : v.data.Has sh w) (hg : v.grad.Has sh g) :
    gdStep true lr v = abort ↔ ∃ x ∈ v.grad.data, isNan x = true := by
  rw [← (has_nan_iff v.grad).1]
  constructor
  · intro h
    by_contra hn
    obtain ⟨v', k, _⟩ := step_elem (fun x => x) 0 (.gradientDescent true lr) (μ := fun _ => 0) (ν := fun _ => 0) hd hg
      (by by_cases hc : v.ctx = []
          · exact Or.inl ⟨hc, fun _ => ⟨rfl, rfl⟩⟩
          · exact Or.inr ⟨hc, fun h => by simp [Opt.mems] at h, fun h => by simp [Opt.mems] at h⟩) (fun _ _ => by simpa using hn)
    simp only [Opt.step] at k
    rw [h] at k
    cases k
  · intro h
    unfold gdStep
    rw [Res.assert_false (by rw [h]; simp)]
    rfl

/-- C131: a NaN in the gradient (or in the data) is not hidden: the element of the variable is NaN after the step.  Nor does it spread: what
becomes of an element depends on the element, its gradient and its memories alone. -/
theorem nan_visible (sqrt : F → F) (eps : F) (o : Opt F) (w g μ ν : F) (h : isNan g = true ∨ isNan w = true) : isNan (o.elem sqrt eps w g μ ν).1 = true := by
  have mulr : ∀ a, isNan g = true → isNan (a * g) = true := fun a h => Floats.mul_nan _ _ (Or.inr h)
  have mull : ∀ a, isNan g = true → isNan (g * a) = true := fun a h => Floats.mul_nan _ _ (Or.inl h)
  cases o with
  | sgd mom lr nesterov =>
    simp only [Opt.elem]
    split
    · exact Floats.add_nan _ _ (h.symm.imp id (fun h => Floats.sub_nan _ _ (Or.inr (mulr _ h))))
    · exact Floats.add_nan _ _ (h.symm.imp id (fun h => Floats.sub_nan _ _ (Or.inr (mulr _ h))))
  | adagrad lr => exact Floats.sub_nan _ _ (h.symm.imp id (fun h => Floats.div_nan _ _ (Or.inl (mulr _ h))))
  | rmsprop lr rho iter => exact Floats.sub_nan _ _ (h.symm.imp id (fun h => Floats.div_nan _ _ (Or.inl (mulr _ h))))
  | adadelta lr rho => exact Floats.sub_nan _ _ (h.symm.imp id (fun h => mull _ h))
  | adam lr lrt b1 b2 iter =>
    simp only [Opt.elem]
    split
    · exact Floats.sub_nan _ _ (h.symm.imp id (fun h => Floats.div_nan _ _ (Or.inl (Floats.mul_nan _ _ (Or.inr (Floats.add_nan _ _ (Or.inr (mull _ h))))))))
    · exact Floats.sub_nan _ _ (h.symm.imp id (fun h => mulr _ h))
  | gradientDescent checks lr => exact Floats.sub_nan _ _ (h.symm.imp id (fun h => mulr _ h))

/-- The optimizers that use their memory in the step: all but gradient_descent, the first step of rmsprop and the first two of adam. -/
def Opt.Recalls : Opt F → Prop
  | .sgd .. => True
  | .adagrad .. => True
  | .rmsprop _ _ iter => iter ≠ 0
  | .adadelta .. => True
  | .adam _ _ _ _ iter => 1 < iter
  | .gradientDescent .. => False

/-- A NaN in the gradient goes into the memory. -/
theorem nan_remembered (sqrt : F → F) (eps : F) (o : Opt F) (ho : 1 ≤ o.mems) (w g μ ν : F) (h : isNan g = true) : isNan (o.elem sqrt eps w g μ ν).2.1 = true := by
  have mulr : ∀ a, isNan (a * g) = true := fun a => Floats.mul_nan _ _ (Or.inr h)
  have mull : ∀ a, isNan (g * a) = true := fun a => Floats.mul_nan _ _ (Or.inl h)
  cases o with
  | sgd mom lr nesterov => exact Floats.sub_nan _ _ (Or.inr (mulr _))
  | adagrad lr => exact Floats.add_nan _ _ (Or.inr (mulr _))
  | rmsprop lr rho iter =>
    simp only [Opt.elem]
    split
    · exact mulr _
    · exact Floats.add_nan _ _ (Or.inr (Floats.mul_nan _ _ (Or.inl (mulr _))))
  | adadelta lr rho => exact Floats.add_nan _ _ (Or.inr (Floats.mul_nan _ _ (Or.inr (mull _))))
  | adam lr lrt b1 b2 iter => exact Floats.add_nan _ _ (Or.inr (mull _))
  | gradientDescent checks lr => simp [Opt.mems] at ho

/-- A NaN in the memory stays there, and makes the element NaN if the memory is used - also with momentum 0. -/
theorem nan_recalled (sqrt : F → F) (hsqrt : Strict sqrt) (eps : F) (o : Opt F) (ho : o.Recalls) (w g μ ν : F) (h : isNan μ = true) :
    isNan (o.elem sqrt eps w g μ ν).1 = true ∧ isNan (o.elem sqrt eps w g μ ν).2.1 = true := by
  have mull : ∀ a, isNan (μ * a) = true := fun a => Floats.mul_nan _ _ (Or.inl h)
  cases o with
  | sgd mom lr nesterov =>
    have hm : isNan (μ * mom - lr * g) = true := Floats.sub_nan _ _ (Or.inl (mull _))
    refine ⟨?_, hm⟩
    simp only [Opt.elem]
    split
    · exact Floats.add_nan _ _ (Or.inr hm)
    · exact Floats.add_nan _ _ (Or.inr (Floats.sub_nan _ _ (Or.inl (Floats.mul_nan _ _ (Or.inr hm)))))
  | adagrad lr =>
    have hm : isNan (μ + g * g) = true := Floats.add_nan _ _ (Or.inl h)
    exact ⟨Floats.sub_nan _ _ (Or.inr (Floats.div_nan _ _ (Or.inr (Floats.add_nan _ _ (Or.inr (hsqrt _ hm)))))), hm⟩
  | rmsprop lr rho iter =>
    have hi : iter ≠ 0 := ho
    have hm : isNan (μ * rho + g * g * (1 - rho)) = true := Floats.add_nan _ _ (Or.inl (mull _))
    simp only [Opt.elem, if_neg hi]
    exact ⟨Floats.sub_nan _ _ (Or.inr (Floats.div_nan _ _ (Or.inr (Floats.add_nan _ _ (Or.inr (hsqrt _ hm)))))), hm⟩
  | adadelta lr rho =>
    have hm : isNan (μ * rho + g * g * (1 - rho)) = true := Floats.add_nan _ _ (Or.inl (mull _))
    refine ⟨Floats.sub_nan _ _ (Or.inr (Floats.mul_nan _ _ (Or.inr (Floats.mul_nan _ _ (Or.inr (hsqrt _ (Floats.div_nan _ _ (Or.inl (Floats.add_nan _ _ (Or.inl hm))))))))))
      , Floats.add_nan _ _ (Or.inl (Floats.mul_nan _ _ (Or.inl hm)))⟩
  | adam lr lrt b1 b2 iter =>
    have hi : 1 < iter := ho
    have hm : isNan (μ * b1 + g * (1 - b1)) = true := Floats.add_nan _ _ (Or.inl (mull _))
    simp only [Opt.elem, if_pos hi]
    exact ⟨Floats.sub_nan _ _ (Or.inr (Floats.div_nan _ _ (Or.inl (Floats.mul_nan _ _ (Or.inr hm))))), hm⟩
  | gradientDescent checks lr => exact absurd ho id

/-! ## Training goes on with other weights -/

/-- One more step after the weights have been set to `d` (as by `load_weights`, include/model.hpp) and a backward pass has left the
gradient `g`. -/
structure Round (F : Type) where
  opt : Opt F
  d : Ten F
  g : Ten F

/-- Steps, each with the weights and gradients of its own. -/
def rounds (sqrt : F → F) (eps : F) (l : List (Round F)) (v : Var F) : Res (Var F) := l.foldlM (fun v r => r.opt.step sqrt eps { v with data := r.d, grad := r.g }) v

theorem rounds_nan (sqrt : F → F) (hsqrt : Strict sqrt) (eps : F) (k : Nat) (sh is : List Nat) : ∀ (l : List (Round F)) (v : Var F) (μ ν : List Nat → F),
    (∀ r ∈ l, r.opt.mems = k ∧ r.opt.Recalls ∧ (∃ w, r.d.Has sh w) ∧ ∃ g, r.g.Has sh g) → Mem k v.ctx sh μ ν → isNan (μ is) = true →
    ∃ v', rounds sqrt eps l v = ok v' ∧ (l ≠ [] → ∃ w, v'.data.Has sh w ∧ isNan (w is) = true) ∧ ∃ μ' ν', Mem k v'.ctx sh μ' ν' ∧ isNan (μ' is) = true := by
  intro l
  induction l with
  | nil => intro v μ ν _ hm hn; exact ⟨v, rfl, fun h => absurd rfl h, μ, ν, hm, hn⟩
  | cons r l ih =>
    intro v μ ν hl hm hn
    obtain ⟨hk, hrec, ⟨w, hw⟩, g, hg⟩ := hl r List.mem_cons_self
    obtain ⟨v1, a1, a2, _, a4⟩ := step_elem sqrt eps r.opt (v := { v with data := r.d, grad := r.g }) hw hg (by rw [hk]; exact hm)
      (fun lr e => by rw [e] at hrec; exact absurd hrec id)
    rw [hk] at a4
    obtain ⟨b1, b2⟩ := nan_recalled sqrt hsqrt eps r.opt hrec (w is) (g is) (μ is) (ν is) hn
    obtain ⟨v', c1, c2, c3⟩ := ih v1 _ _ (fun r' hr' => hl r' (List.mem_cons_of_mem _ hr')) a4 b2
    refine ⟨v', ?_, fun _ => ?_, c3⟩
    · show (r.opt.step sqrt eps _ >>= fun v => rounds sqrt eps l v) = _
      rw [a1]
      exact c1
    · by_cases hn' : l = []
      · subst hn'
        cases c1
        exact ⟨_, a2, b1⟩
      · exact c2 hn'

/-- C131 is false of every optimizer but gradient_descent: after one NaN in the gradient of an element, setting the weights to good numbers
again does not help.  Whatever weights and gradients follow, every later step makes the element NaN again - with sgd also without momentum. -/
theorem nan_forever_violated (sqrt : F → F) (hsqrt : Strict sqrt) (eps : F) (o : Opt F) (ho : 1 ≤ o.mems) {v : Var F} {sh is : List Nat}
    {w g μ ν : List Nat → F} (hd : v.data.Has sh w) (hg : v.grad.Has sh g) (hm : Mem o.mems v.ctx sh μ ν) (hn : isNan (g is) = true)
    (l : List (Round F)) (hl : ∀ r ∈ l, r.opt.mems = o.mems ∧ r.opt.Recalls ∧ (∃ w, r.d.Has sh w) ∧ ∃ g, r.g.Has sh g) (hne : l ≠ []) :
    ∃ v1 v', o.step sqrt eps v = ok v1 ∧ rounds sqrt eps l v1 = ok v' ∧ ∃ w', v'.data.Has sh w' ∧ isNan (w' is) = true := by
  obtain ⟨v1, a1, _, _, a4⟩ := step_elem sqrt eps o hd hg hm (fun lr e => by rw [e] at ho; simp [Opt.mems] at ho)
  obtain ⟨v', b1, b2, _⟩ := rounds_nan sqrt hsqrt eps o.mems sh is l v1 _ _ hl a4 (nan_remembered sqrt eps o ho _ _ _ _ hn)
  exact ⟨v1, v', a1, b1, b2 hne⟩

/-- C131, gradient_descent: what a step makes of weights and gradients does not depend on anything before. -/
theorem gd_recovers (checks : Bool) (lr : F) (v v' : Var F) (d g : Ten F) :
    (do let r ← gdStep checks lr { v with data := d, grad := g }; pure (r.data, r.grad)) =
      (do let r ← gdStep checks lr { v' with data := d, grad := g }; pure (r.data, r.grad)) := by
  unfold gdStep
  dsimp only
  by_cases hk : checks = true → hasNan g = false
  · rw [Res.assert_true hk, bind_ok, bind_ok]
    by_cases hs : d.shape = g.shape
    · rw [Res.assert_true hs, bind_ok, bind_ok]
      cases each2 d.data.length (fun x y => x - y) d ⟨g.shape, g.data.map (fun x => lr * x)⟩ <;> rfl
    · rw [Res.assert_false hs]
      rfl
  · rw [Res.assert_false hk]
    rfl

/-- A step works on each element by itself: two variables that agree in an element, its gradient and its memories agree in the element after
a step, whatever - NaN or not - the others are. -/
theorem step_local (sqrt : F → F) (eps : F) (o : Opt F) {v v' u u' : Var F} {sh is : List Nat} (his : ValidIdx sh is) {w g μ ν w2 g2 μ2 ν2 : List Nat → F}
    (hd : v.data.Has sh w) (hg : v.grad.Has sh g) (hm : Mem o.mems v.ctx sh μ ν) (hd2 : u.data.Has sh w2) (hg2 : u.grad.Has sh g2) (hm2 : Mem o.mems u.ctx sh μ2 ν2)
    (h1 : w is = w2 is) (h2 : g is = g2 is) (h3 : μ is = μ2 is) (h4 : ν is = ν2 is) (hv : o.step sqrt eps v = ok v') (hu : o.step sqrt eps u = ok u') :
    v'.data.data[flat sh is]? = u'.data.data[flat sh is]? := by
  have ck : ∀ {x x' : Var F}, o.step sqrt eps x = ok x' → ∀ lr, o = .gradientDescent true lr → hasNan x.grad = false := by
    intro x x' hx lr e
    subst e
    by_contra hn
    have hn : hasNan x.grad = true := by simpa using hn
    change gdStep true lr x = ok x' at hx
    unfold gdStep at hx
    rw [Res.assert_false (by rw [hn]; simp)] at hx
    cases hx
  obtain ⟨a, a1, a2, _⟩ := step_elem sqrt eps o hd hg hm (ck hv)
  obtain ⟨b, b1, b2, _⟩ := step_elem sqrt eps o hd2 hg2 hm2 (ck hu)
  rw [hv] at a1
  rw [hu] at b1
  cases a1
  cases b1
  rw [a2.2.2 is his, b2.2.2 is his]
  dsimp only
  rw [h1, h2, h3, h4]

end Verif.Poison
