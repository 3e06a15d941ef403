import Verif.Fp.BackActs
import Verif.Optim.Lemmas
/-!
# Optimizers with any arithmetic (model)

`gradient_descent` and `sgd` (`include/optimizer.hpp`) as in `Verif.Optim`, but for elements of any type, with the operations in the order in which the code does
them; for real numbers they are those of `Verif.Optim`.

Simplified: a product and a difference are rounded each by itself (no `fma`); the learning rate is the one in force, `learning_rate_` after the division by the size
of the batch and the decay.
-/
namespace Verif.Fp
open Verif Res Graph

section model
variable {F : Type} [Zero F] [Add F] [Sub F] [Mul F]

/-- As `Verif.Optim.OSt`: the state, the contexts of the variables (include/variable.hpp line 31) and the variables of the session (include/session.hpp lines 28,
51-56). -/
structure OStF (F : Type) where
  st : St F
  ctx : Nat → List (Ten F)
  reg : List (Nat × Bool)

/-- `for_each` with one tensor that is read (include/utils/for_each.hpp lines 44-60). -/
def each2F (n : Nat) (f : F → F → F) (o a : Ten F) : Res (Ten F) := do
  let d ← loop n (fun i d => do
    let x ← rd d i
    let y ← rd a.data i
    wr d i (f x y)) o.data
  pure ⟨o.shape, d⟩

/-- The same with two. -/
def each3F (n : Nat) (f : F → F → F → F) (o a b : Ten F) : Res (Ten F) := do
  let d ← loop n (fun i d => do
    let x ← rd d i
    let y ← rd a.data i
    let z ← rd b.data i
    wr d i (f x y z)) o.data
  pure ⟨o.shape, d⟩

/-- `zeros_like` (include/tensor.tcc lines 982-986). -/
def zerosLikeF (t : Ten F) : Ten F := ⟨t.shape, List.replicate (size t.shape) 0⟩

/-- `gradient.reset()` (include/tensor.hpp lines 275-279). -/
def resetF (t : Ten F) : Ten F := ⟨t.shape, t.data.map (fun _ => 0)⟩

/-- What an optimizer does with a variable: data, gradient and contexts before to data, gradient and contexts after. -/
abbrev RuleF (F : Type) := Ten F → Ten F → List (Ten F) → Res (Ten F × Ten F × List (Ten F))

/-- The body of the loop over the variables (include/optimizer.hpp lines 50-66, 341-360). -/
def updateVarF (rule : RuleF F) (s : OStF F) (p : Nat × Bool) : Res (OStF F) :=
  if p.2 = true then do
    let (d, g, c) ← rule (s.st.data p.1) (s.st.grad p.1) (s.ctx p.1)
    pure { s with st := { s.st with data := upd s.st.data p.1 d, grad := upd s.st.grad p.1 (resetF g) }, ctx := upd s.ctx p.1 c }
  else ok s

/-- The loop over the variables. -/
def updateAllF (rule : RuleF F) (s : OStF F) : Res (OStF F) := s.reg.foldlM (updateVarF rule) s

/-- include/optimizer.hpp lines 347-349: the gradient must have no NaN; `learning_rate_ * gradient` multiplies each element by the rate (include/tensor.tcc lines
642-648). -/
def gdRuleF (isNan : F → Bool) (lr : F) : RuleF F := fun d g c => do
  Res.assert (∀ x ∈ g.data, isNan x = false)
  let lg : Ten F := ⟨g.shape, g.data.map (fun x => x * lr)⟩
  Res.assert (d.shape = lg.shape)
  let d ← each2F d.data.length (fun x y => x - y) d lg
  pure (d, g, c)

/-- include/optimizer.hpp lines 54-62. -/
def sgdRuleF (mom lr : F) (nesterov : Bool) : RuleF F := fun d g c => do
  let c := if c.isEmpty = true then [zerosLikeF d] else c
  let m ← rd c 0
  let m ← each2F m.data.length (fun m g => m * mom - lr * g) m g
  let c ← wr c 0 m
  if nesterov = false then do
    let d ← each3F m.data.length (fun v m g => v + (mom * m - lr * g)) d m g
    pure (d, g, c)
  else do
    Res.assert (d.shape = m.shape)
    let d ← each2F d.data.length (fun x y => x + y) d m
    pure (d, g, c)

/-- A training step: run the loss, send `g0` back (the optimizers start with `ones<T>( {1, } )`, include/optimizer.hpp lines 47, 338), change the variables. -/
def trainF [One F] [Neg F] [LE F] [DecidableLE F] (eps : F) (loss : Ex F) (g0 : Ten F) (rule : RuleF F) (s : OStF F) : Res (Ten F × OStF F) := do
  let (y, st) ← run loss s.st
  let st ← backward eps loss none g0 st
  let s ← updateAllF rule { s with st := st }
  pure (y, s)

end model

/-! ### for real numbers it is the model of `Verif.Optim` -/

theorem gdRuleF_real (lr mom : ℝ) : gdRuleF (fun _ => false) lr = Optim.gdRule lr mom := by
  funext d g c
  unfold gdRuleF Optim.gdRule
  rw [assert_true (by simp), bind_ok]
  simp only [mul_comm _ lr]
  rfl

theorem sgdRuleF_real (mom lr : ℝ) (nesterov : Bool) : sgdRuleF mom lr nesterov = Optim.sgdRule mom lr nesterov := by
  funext d g c
  unfold sgdRuleF Optim.sgdRule
  simp only [mul_comm _ mom, List.isEmpty_iff]
  rfl

/-- The state of `Verif.Optim`. -/
def OStF.real (s : OStF ℝ) : Optim.OSt := ⟨s.st, s.ctx, s.reg⟩

theorem updateAllF_real (rule : Optim.Rule) (s : OStF ℝ) : Optim.updateAll rule s.real = updateAllF rule s >>= fun s => pure s.real := by
  unfold Optim.updateAll updateAllF
  show s.reg.foldlM (Optim.updateVar rule) s.real = _
  generalize s.reg = l
  induction l generalizing s with
  | nil => rfl
  | cons p l ih =>
    rw [List.foldlM_cons, List.foldlM_cons]
    have h : Optim.updateVar rule s.real p = updateVarF rule s p >>= fun s => pure s.real := by
      unfold Optim.updateVar updateVarF
      by_cases hp : p.2 = true
      · rw [if_pos hp, if_pos hp]
        show (rule (s.st.data p.1) (s.st.grad p.1) (s.ctx p.1) >>= _) = (rule (s.st.data p.1) (s.st.grad p.1) (s.ctx p.1) >>= _) >>= _
        cases rule (s.st.data p.1) (s.st.grad p.1) (s.ctx p.1) <;> rfl
      · rw [if_neg hp, if_neg hp]; rfl
    rw [h]
    cases updateVarF rule s p with
    | ok s' => exact ih s'
    | abort => rfl
    | ub => rfl

/-! ### what the loops do -/

section loops
variable {F : Type}

theorem each2F_ok {n : Nat} {f : F → F → F} {o a : Ten F} {sh : List Nat} {x y : List Nat → F} (ho : o.Has sh x) (ha : a.Has sh y) (hn : n = size sh) :
    ∃ u, each2F n f o a = ok u ∧ u.Has sh (fun is => f (x is) (y is)) := by
  subst hn
  obtain ⟨d, h1, h2, h3⟩ := update1 (n := size sh) (out := o.data)
    (body := fun i d => do
      let x ← rd d i
      let y ← rd a.data i
      wr d i (f x y)) (a := fun p => x (unflat sh p)) (g := fun p => f (x (unflat sh p)) (y (unflat sh p)))
    (fun j o hj _ h => by rw [rd_ok h, bind_ok, rd_ok (ha.2.pos hj), bind_ok]) ho.2.1 (fun p hp => ho.2.pos hp)
  refine ⟨⟨sh, d⟩, ?_, rfl, isT_of_pos h2 h3 (fun is hv => by rw [unflat_flat hv])⟩
  unfold each2F
  rw [h1, ho.1]
  rfl

theorem each3F_ok {n : Nat} {f : F → F → F → F} {o a b : Ten F} {sh : List Nat} {x y z : List Nat → F} (ho : o.Has sh x) (ha : a.Has sh y) (hb : b.Has sh z) (hn : n = size sh) :
    ∃ u, each3F n f o a b = ok u ∧ u.Has sh (fun is => f (x is) (y is) (z is)) := by
  subst hn
  obtain ⟨d, h1, h2, h3⟩ := update1 (n := size sh) (out := o.data)
    (body := fun i d => do
      let x ← rd d i
      let y ← rd a.data i
      let z ← rd b.data i
      wr d i (f x y z)) (a := fun p => x (unflat sh p)) (g := fun p => f (x (unflat sh p)) (y (unflat sh p)) (z (unflat sh p)))
    (fun j o hj _ h => by rw [rd_ok h, bind_ok, rd_ok (ha.2.pos hj), bind_ok, rd_ok (hb.2.pos hj), bind_ok]) ho.2.1 (fun p hp => ho.2.pos hp)
  refine ⟨⟨sh, d⟩, ?_, rfl, isT_of_pos h2 h3 (fun is hv => by rw [unflat_flat hv])⟩
  unfold each3F
  rw [h1, ho.1]
  rfl

variable [Zero F]

theorem zerosLikeF_has {t : Ten F} {sh : List Nat} {x : List Nat → F} (h : t.Has sh x) : (zerosLikeF t).Has sh (fun _ => 0) := by
  refine ⟨h.1, ?_⟩
  unfold zerosLikeF
  rw [h.1]
  exact isT_of_pos (by simp) (v := fun _ => 0) (fun p hp => by simp [hp]) (fun _ _ => rfl)

theorem resetF_has {t : Ten F} {sh : List Nat} {x : List Nat → F} (h : t.Has sh x) : (resetF t).Has sh (fun _ => 0) := by
  refine ⟨h.1, ?_⟩
  unfold resetF
  exact isT_of_pos (by simp [h.2.1]) (v := fun _ => 0) (fun p hp => by simp [h.2.1, hp]) (fun _ _ => rfl)

/-- The loop over the variables: each trainable variable is changed by the rule, the others are not. -/
theorem updateAllF_ok (rule : RuleF F) : ∀ (l : List (Nat × Bool)) (s : OStF F) (R : Nat → Ten F × Ten F × List (Ten F)), (l.map (·.1)).Nodup →
    (∀ v, (v, true) ∈ l → rule (s.st.data v) (s.st.grad v) (s.ctx v) = ok (R v)) →
    ∃ s', l.foldlM (updateVarF rule) s = ok s' ∧ s'.reg = s.reg ∧ s'.st = { s.st with data := s'.st.data, grad := s'.st.grad } ∧
      (∀ v, (v, true) ∈ l → s'.st.data v = (R v).1 ∧ s'.st.grad v = resetF (R v).2.1 ∧ s'.ctx v = (R v).2.2) ∧
      ∀ v, (v, true) ∉ l → s'.st.data v = s.st.data v ∧ s'.st.grad v = s.st.grad v ∧ s'.ctx v = s.ctx v := by
  intro l
  induction l with
  | nil => intro s R _ _; exact ⟨s, rfl, rfl, rfl, fun v h => by simp at h, fun v _ => ⟨rfl, rfl, rfl⟩⟩
  | cons p l ih =>
    intro s R hn hr
    obtain ⟨v, b⟩ := p
    rw [List.map_cons, List.nodup_cons] at hn
    have hv : ∀ c, (v, c) ∉ l := fun c h => hn.1 (List.mem_map.mpr ⟨_, h, rfl⟩)
    rw [List.foldlM_cons]
    cases b with
    | false =>
      obtain ⟨s', h1, h2, h3, h4, h5⟩ := ih s R hn.2 (fun u hu => hr u (List.mem_cons_of_mem _ hu))
      refine ⟨s', h1, h2, h3, fun u hu => ?_, fun u hu => h5 u (fun h => hu (List.mem_cons_of_mem _ h))⟩
      rcases List.mem_cons.mp hu with h | h
      · cases h
      · exact h4 u h
    | true =>
      have h0 := hr v List.mem_cons_self
      obtain ⟨s', h1, h2, h3, h4, h5⟩ := ih { s with st := { s.st with data := upd s.st.data v (R v).1, grad := upd s.st.grad v (resetF (R v).2.1) }, ctx := upd s.ctx v (R v).2.2 } R hn.2 (by
        intro u hu
        have hne : u ≠ v := by rintro rfl; exact hv _ hu
        dsimp only
        rw [upd_ne _ _ hne, upd_ne _ _ hne, upd_ne _ _ hne]
        exact hr u (List.mem_cons_of_mem _ hu))
      refine ⟨s', ?_, h2, h3, fun u hu => ?_, fun u hu => ?_⟩
      · unfold updateVarF
        rw [if_pos rfl, h0, bind_ok]
        exact h1
      · by_cases huv : u = v
        · subst huv
          obtain ⟨a1, a2, a3⟩ := h5 u (hv _)
          simp only [upd_same] at a1 a2 a3
          exact ⟨a1, a2, a3⟩
        · rcases List.mem_cons.mp hu with h | h
          · cases h; exact absurd rfl huv
          · exact h4 u h
      · have huv : u ≠ v := by rintro rfl; exact hu List.mem_cons_self
        obtain ⟨a1, a2, a3⟩ := h5 u (fun h => hu (List.mem_cons_of_mem _ h))
        simp only [upd_ne _ _ huv] at a1 a2 a3
        exact ⟨a1, a2, a3⟩

end loops

end Verif.Fp
