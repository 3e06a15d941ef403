import Verif.Optim.Spec
import Verif.Graph.Backward
/-!
# The loops of the optimizers
-/
namespace Verif.Optim
open Verif Res Graph

theorem rd_cons_zero {α : Type} (a : α) (l : List α) : rd (a :: l) 0 = ok a := rfl
theorem rd_cons_one {α : Type} (a b : α) (l : List α) : rd (a :: b :: l) 1 = ok b := rfl
theorem wr_cons_zero {α : Type} (a x : α) (l : List α) : wr (a :: l) 0 x = ok (x :: l) := by rw [wr_ok (by simp)]; rfl
theorem wr_cons_one {α : Type} (a b x : α) (l : List α) : wr (a :: b :: l) 1 x = ok (a :: x :: l) := by rw [wr_ok (by simp)]; rfl

theorem each2_ok {n : Nat} {f : ℝ → ℝ → ℝ} {o a : Ten ℝ} {sh : List Nat} {x y : List Nat → ℝ} (ho : o.Has sh x) (ha : a.Has sh y) (hn : n = size sh) :
    ∃ u, each2 n f o a = ok u ∧ u.Has sh (fun is => f (x is) (y is)) := by
  subst hn
  obtain ⟨d, h1, h2, h3⟩ := update1 (n := size sh) (out := o.data)
    (body := fun i d => do
      let x ← rd d i
      let y ← rd a.data i
      wr d i (f x y)) (a := fun p => x (unflat sh p)) (g := fun p => f (x (unflat sh p)) (y (unflat sh p)))
    (fun j o hj _ h => by rw [rd_ok h, bind_ok, rd_ok (ha.2.pos hj), bind_ok]) ho.2.1 (fun p hp => ho.2.pos hp)
  refine ⟨⟨sh, d⟩, ?_, rfl, isT_of_pos h2 h3 (fun is hv => by rw [unflat_flat hv])⟩
  unfold each2
  rw [h1, ho.1]
  rfl

theorem each3_ok {n : Nat} {f : ℝ → ℝ → ℝ → ℝ} {o a b : Ten ℝ} {sh : List Nat} {x y z : List Nat → ℝ} (ho : o.Has sh x) (ha : a.Has sh y) (hb : b.Has sh z) (hn : n = size sh) :
    ∃ u, each3 n f o a b = ok u ∧ u.Has sh (fun is => f (x is) (y is) (z is)) := by
  subst hn
  obtain ⟨d, h1, h2, h3⟩ := update1 (n := size sh) (out := o.data)
    (body := fun i d => do
      let x ← rd d i
      let y ← rd a.data i
      let z ← rd b.data i
      wr d i (f x y z)) (a := fun p => x (unflat sh p)) (g := fun p => f (x (unflat sh p)) (y (unflat sh p)) (z (unflat sh p)))
    (fun j o hj _ h => by rw [rd_ok h, bind_ok, rd_ok (ha.2.pos hj), bind_ok, rd_ok (hb.2.pos hj), bind_ok]) ho.2.1 (fun p hp => ho.2.pos hp)
  refine ⟨⟨sh, d⟩, ?_, rfl, isT_of_pos h2 h3 (fun is hv => by rw [unflat_flat hv])⟩
  unfold each3
  rw [h1, ho.1]
  rfl

theorem zerosLike_has {t : Ten ℝ} {sh : List Nat} {x : List Nat → ℝ} (h : t.Has sh x) : (zerosLike t).Has sh (fun _ => 0) := by
  refine ⟨h.1, ?_⟩
  unfold zerosLike
  rw [h.1]
  exact isT_of_pos (by simp) (v := fun _ => 0) (fun p hp => by simp [hp]) (fun _ _ => rfl)

theorem resetT_has {t : Ten ℝ} {sh : List Nat} {x : List Nat → ℝ} (h : t.Has sh x) : (resetT t).Has sh (fun _ => 0) := by
  refine ⟨h.1, ?_⟩
  unfold resetT
  exact isT_of_pos (by simp [h.2.1]) (v := fun _ => 0) (fun p hp => by simp [h.2.1, hp]) (fun _ _ => rfl)

/-- The loop over the variables: each trainable variable is changed by the rule, the others are not. -/
theorem updateAll_ok (rule : Rule) : ∀ (l : List (Nat × Bool)) (s : OSt) (R : Nat → Ten ℝ × Ten ℝ × List (Ten ℝ)), (l.map (·.1)).Nodup →
    (∀ v, (v, true) ∈ l → rule (s.st.data v) (s.st.grad v) (s.ctx v) = ok (R v)) →
    ∃ s', l.foldlM (updateVar rule) s = ok s' ∧ s'.reg = s.reg ∧ s'.st = { s.st with data := s'.st.data, grad := s'.st.grad } ∧
      (∀ v, (v, true) ∈ l → s'.st.data v = (R v).1 ∧ s'.st.grad v = resetT (R v).2.1 ∧ s'.ctx v = (R v).2.2) ∧
      ∀ v, (v, true) ∉ l → s'.st.data v = s.st.data v ∧ s'.st.grad v = s.st.grad v ∧ s'.ctx v = s.ctx v := by
  intro l
  induction l with
  | nil => intro s R _ _; exact ⟨s, rfl, rfl, rfl, fun v h => by simp at h, fun v _ => ⟨rfl, rfl, rfl⟩⟩
  | cons p l ih =>
    intro s R hn hr
    obtain ⟨v, b⟩ := p
    rw [List.map_cons, List.nodup_cons] at hn
    have hv : ∀ c, (v, c) ∉ l := fun c h => hn.1 (List.mem_map.mpr ⟨_, h, rfl⟩)
    rw [List.foldlM_cons]
    cases b with
    | false =>
      obtain ⟨s', h1, h2, h3, h4, h5⟩ := ih s R hn.2 (fun u hu => hr u (List.mem_cons_of_mem _ hu))
      refine ⟨s', h1, h2, h3, fun u hu => ?_, fun u hu => h5 u (fun h => hu (List.mem_cons_of_mem _ h))⟩
      rcases List.mem_cons.mp hu with h | h
      · cases h
      · exact h4 u h
    | true =>
      have h0 := hr v List.mem_cons_self
      obtain ⟨s', h1, h2, h3, h4, h5⟩ := ih { s with st := { s.st with data := upd s.st.data v (R v).1, grad := upd s.st.grad v (resetT (R v).2.1) }, ctx := upd s.ctx v (R v).2.2 } R hn.2 (by
        intro u hu
        have hne : u ≠ v := by rintro rfl; exact hv _ hu
        dsimp only
        rw [upd_ne _ _ hne, upd_ne _ _ hne, upd_ne _ _ hne]
        exact hr u (List.mem_cons_of_mem _ hu))
      refine ⟨s', ?_, h2, h3, fun u hu => ?_, fun u hu => ?_⟩
      · unfold updateVar
        rw [if_pos rfl, h0, bind_ok]
        exact h1
      · by_cases huv : u = v
        · subst huv
          obtain ⟨a1, a2, a3⟩ := h5 u (hv _)
          simp only [upd_same] at a1 a2 a3
          exact ⟨a1, a2, a3⟩
        · rcases List.mem_cons.mp hu with h | h
          · cases h; exact absurd rfl huv
          · exact h4 u h
      · have huv : u ≠ v := by rintro rfl; exact hu List.mem_cons_self
        obtain ⟨a1, a2, a3⟩ := h5 u (fun h => hu (List.mem_cons_of_mem _ h))
        simp only [upd_ne _ _ huv] at a1 a2 a3
        exact ⟨a1, a2, a3⟩

/-- A step, given what the rule does with each variable. -/
theorem updateAll_updates {rule : Rule} {s : OSt} {sh : Nat → List Nat} {w g w' : Nat → List Nat → ℝ} {C : Nat → List (Ten ℝ) → Prop} (hr : Ready s sh w g)
    (h : ∀ v, (v, true) ∈ s.reg → ∃ d g c, rule (s.st.data v) (s.st.grad v) (s.ctx v) = ok (d, g, c) ∧ d.Has (sh v) (w' v) ∧ (∃ γ, g.Has (sh v) γ) ∧ C v c) :
    ∃ s', updateAll rule s = ok s' ∧ Updates s s' sh w' C := by
  classical
  have : ∀ v, ∃ R : Ten ℝ × Ten ℝ × List (Ten ℝ), (v, true) ∈ s.reg → rule (s.st.data v) (s.st.grad v) (s.ctx v) = ok R ∧ R.1.Has (sh v) (w' v) ∧ (∃ γ, R.2.1.Has (sh v) γ) ∧ C v R.2.2 := by
    intro v
    by_cases hv : (v, true) ∈ s.reg
    · obtain ⟨d, g, c, h1, h2, h3, h4⟩ := h v hv
      exact ⟨(d, g, c), fun _ => ⟨h1, h2, h3, h4⟩⟩
    · exact ⟨(noTensor, noTensor, []), fun h => absurd h hv⟩
  choose R hR using this
  obtain ⟨s', h1, h2, h3, h4, h5⟩ := updateAll_ok rule s.reg s R hr.nodup (fun v hv => (hR v hv).1)
  refine ⟨s', h1, fun v hv => ?_, h5, h2, h3⟩
  obtain ⟨a1, a2, a3⟩ := h4 v hv
  obtain ⟨_, b2, ⟨γ, b3⟩, b4⟩ := hR v hv
  rw [a1, a2, a3]
  exact ⟨b2, resetT_has b3, b4⟩

/-- The first memory. -/
theorem ctx1_open {c : List (Ten ℝ)} {sh : List Nat} {μ x : List Nat → ℝ} {d : Ten ℝ} (hc : Ctx1 c sh μ) (hd : d.Has sh x) :
    ∃ m rest, (if c = [] then [zerosLike d] else c) = m :: rest ∧ m.Has sh μ := by
  rcases hc with ⟨rfl, h⟩ | ⟨m, rest, rfl, h⟩
  · exact ⟨zerosLike d, [], rfl, (zerosLike_has hd).congr (fun is _ => (h is).symm)⟩
  · exact ⟨m, rest, rfl, h⟩

theorem ctx2_open {c : List (Ten ℝ)} {sh : List Nat} {μ ν x : List Nat → ℝ} {d : Ten ℝ} (hc : Ctx2 c sh μ ν) (hd : d.Has sh x) :
    ∃ m n rest, (if c = [] then [zerosLike d, zerosLike d] else c) = m :: n :: rest ∧ m.Has sh μ ∧ n.Has sh ν := by
  rcases hc with ⟨rfl, h⟩ | ⟨m, n, rest, rfl, h⟩
  · exact ⟨zerosLike d, zerosLike d, [], rfl, (zerosLike_has hd).congr (fun is _ => (h is).1.symm), (zerosLike_has hd).congr (fun is _ => (h is).2.symm)⟩
  · exact ⟨m, n, rest, rfl, h⟩

section rules
variable {d g : Ten ℝ} {c : List (Ten ℝ)} {sh : List Nat} {w γ μ ν : List Nat → ℝ}

/-- What the code of sgd computes. -/
theorem sgdRule_ok (mom lr : ℝ) (nesterov : Bool) (hd : d.Has sh w) (hg : g.Has sh γ) (hc : Ctx1 c sh μ) :
    ∃ d' c', sgdRule mom lr nesterov d g c = ok (d', g, c') ∧
      d'.Has sh (fun is => if nesterov = true then w is + (mom * μ is - lr * γ is) else w is + (mom * (mom * μ is - lr * γ is) - lr * γ is)) ∧
      ∃ m rest, c' = m :: rest ∧ m.Has sh (fun is => mom * μ is - lr * γ is) := by
  obtain ⟨m, rest, h1, h2⟩ := ctx1_open hc hd
  obtain ⟨m', h3, h4⟩ := each2_ok (f := fun m g => mom * m - lr * g) h2 hg h2.2.1
  unfold sgdRule
  simp only [h1, rd_cons_zero, bind_ok, h3, wr_cons_zero]
  cases nesterov with
  | false =>
    obtain ⟨d', h5, h6⟩ := each3_ok (f := fun v m g => v + (mom * m - lr * g)) hd h4 hg h4.2.1
    refine ⟨d', m' :: rest, ?_, by simpa using h6, m', rest, rfl, h4⟩
    simp only [if_true, h5, bind_ok]; rfl
  | true =>
    obtain ⟨d', h5, h6⟩ := each2_ok (f := fun x y => x + y) hd h4 hd.2.1
    refine ⟨d', m' :: rest, ?_, by simpa using h6, m', rest, rfl, h4⟩
    rw [if_neg (by simp), assert_true (by rw [hd.1, h4.1]), bind_ok, h5, bind_ok]; rfl

theorem adagradRule_ok (eps lr : ℝ) (hd : d.Has sh w) (hg : g.Has sh γ) (hc : Ctx1 c sh μ) :
    ∃ d' c', adagradRule eps lr d g c = ok (d', g, c') ∧ d'.Has sh (fun is => adagradDoc eps lr (w is) (μ is) (γ is)) ∧
      ∃ m rest, c' = m :: rest ∧ m.Has sh (fun is => μ is + γ is ^ 2) := by
  obtain ⟨m, rest, h1, h2⟩ := ctx1_open hc hd
  obtain ⟨m', h3, h4⟩ := each2_ok (f := fun m g => m + g * g) h2 hg h2.2.1
  obtain ⟨d', h5, h6⟩ := each3_ok (f := fun d g m => d - lr * g / (eps + √m)) hd hg h4 hd.2.1
  unfold adagradRule
  refine ⟨d', m' :: rest, by simp only [h1, rd_cons_zero, bind_ok, h3, wr_cons_zero, h5, pure_eq], h6.congr (fun is _ => ?_), m', rest, rfl, h4.congr (fun is _ => by ring)⟩
  unfold adagradDoc
  ring_nf

/-- What the code of rmsprop computes. -/
theorem rmspropRule_ok (eps lr rho : ℝ) (iter : Nat) (hd : d.Has sh w) (hg : g.Has sh γ) (hc : Ctx1 c sh μ) :
    ∃ d' c', rmspropRule eps lr rho iter d g c = ok (d', g, c') ∧
      d'.Has sh (fun is => w is - lr * γ is / (eps + √(if iter = 0 then γ is ^ 2 else rho * μ is + (1 - rho) * γ is ^ 2))) ∧
      ∃ m rest, c' = m :: rest ∧ m.Has sh (fun is => if iter = 0 then γ is ^ 2 else rho * μ is + (1 - rho) * γ is ^ 2) := by
  obtain ⟨m, rest, h1, h2⟩ := ctx1_open hc hd
  have hm : ∃ m', (if iter = 0 then each2 m.data.length (fun _ g => g * g) m g else each2 m.data.length (fun m g => rho * m + g * g * (1 - rho)) m g) = ok m' ∧
      m'.Has sh (fun is => if iter = 0 then γ is ^ 2 else rho * μ is + (1 - rho) * γ is ^ 2) := by
    by_cases hi : iter = 0
    · obtain ⟨m', h3, h4⟩ := each2_ok (f := fun _ g => g * g) h2 hg h2.2.1
      exact ⟨m', by rw [if_pos hi, h3], h4.congr (fun is _ => by rw [if_pos hi]; ring)⟩
    · obtain ⟨m', h3, h4⟩ := each2_ok (f := fun m g => rho * m + g * g * (1 - rho)) h2 hg h2.2.1
      exact ⟨m', by rw [if_neg hi, h3], h4.congr (fun is _ => by rw [if_neg hi]; ring)⟩
  obtain ⟨m', h3, h4⟩ := hm
  obtain ⟨d', h5, h6⟩ := each3_ok (f := fun d g m => d - lr * g / (eps + √m)) hd hg h4 hd.2.1
  unfold rmspropRule
  refine ⟨d', m' :: rest, ?_, h6, m', rest, rfl, h4⟩
  by_cases hi : iter = 0
  · rw [if_pos hi] at h3
    simp only [h1, rd_cons_zero, bind_ok, if_pos hi, h3, wr_cons_zero, h5, pure_eq]
  · rw [if_neg hi] at h3
    simp only [h1, rd_cons_zero, bind_ok, if_neg hi, h3, wr_cons_zero, h5, pure_eq]

/-- What the code of adadelta computes. -/
theorem adadeltaRule_ok (eps lr rho : ℝ) (heps : 0 < eps) (hrho : 0 ≤ rho ∧ rho ≤ 1) (hμ : ∀ is, ValidIdx sh is → 0 ≤ μ is) (hd : d.Has sh w) (hg : g.Has sh γ) (hc : Ctx2 c sh μ ν) :
    ∃ d' g' c', adadeltaRule eps lr rho d g c = ok (d', g', c') ∧ d'.Has sh (fun is => w is - lr * γ is) ∧ g'.Has sh (fun is => lr * γ is) ∧
      ∃ m n rest, c' = m :: n :: rest ∧ m.Has sh (fun is => rho * (rho * μ is + (1 - rho) * γ is ^ 2) + (1 - rho) * (lr * γ is) ^ 2) ∧ n.Has sh ν := by
  obtain ⟨m, n, rest, h1, h2, hn⟩ := ctx2_open hc hd
  obtain ⟨m', h3, h4⟩ := each2_ok (f := fun m g => rho * m + g * g * (1 - rho)) h2 hg h2.2.1
  obtain ⟨g', h5, h6⟩ := each3_ok (f := fun g d m => g * (lr * √((d + eps) / (m + eps)))) hg h4 h4 hg.2.1
  have h6' : g'.Has sh (fun is => lr * γ is) := by
    refine h6.congr (fun is hv => ?_)
    have hpos : 0 < rho * μ is + γ is * γ is * (1 - rho) + eps := by
      have a := mul_nonneg hrho.1 (hμ is hv)
      have b := mul_nonneg (mul_self_nonneg (γ is)) (sub_nonneg.mpr hrho.2)
      linarith
    rw [div_self hpos.ne', Real.sqrt_one]
    ring
  obtain ⟨d', h7, h8⟩ := each2_ok (f := fun x y => x - y) hd h6' hd.2.1
  obtain ⟨m'', h9, h10⟩ := each2_ok (f := fun d g => rho * d + (1 - rho) * g * g) h4 h6' h4.2.1
  unfold adadeltaRule
  refine ⟨d', g', m'' :: n :: rest, ?_, h8, h6', m'', n, rest, rfl, h10.congr (fun is _ => by ring), hn⟩
  simp only [h1, rd_cons_zero, bind_ok, h3, wr_cons_zero, h5, assert_true (show d.shape = g'.shape by rw [hd.1, h6'.1]), h7, h9, pure_eq]

/-- What the code of adam computes. -/
theorem adamRule_ok (eps lr b1 b2 : ℝ) (iter : Nat) (hd : d.Has sh w) (hg : g.Has sh γ) (hc : Ctx2 c sh μ ν) :
    ∃ d' c', adamRule eps lr b1 b2 iter d g c = ok (d', g, c') ∧
      d'.Has sh (fun is => if 1 < iter then adamDoc eps lr b1 b2 (iter + 1) (w is) (μ is) (ν is) (γ is) else w is - lr * γ is) ∧
      ∃ m n rest, c' = m :: n :: rest ∧ m.Has sh (fun is => b1 * μ is + (1 - b1) * γ is) ∧ n.Has sh (fun is => b2 * ν is + (1 - b2) * γ is ^ 2) := by
  obtain ⟨m, n, rest, h1, h2, hn⟩ := ctx2_open hc hd
  obtain ⟨m', h3, h4⟩ := each2_ok (f := fun m g => b1 * m + g * (1 - b1)) h2 hg h2.2.1
  obtain ⟨n', h5, h6⟩ := each2_ok (f := fun v g => b2 * v + g * g * (1 - b2)) hn hg hn.2.1
  have hm : m'.Has sh (fun is => b1 * μ is + (1 - b1) * γ is) := h4.congr (fun is _ => by ring)
  have hn' : n'.Has sh (fun is => b2 * ν is + (1 - b2) * γ is ^ 2) := h6.congr (fun is _ => by ring)
  unfold adamRule
  simp only [h1, rd_cons_zero, rd_cons_one, bind_ok, h3, wr_cons_zero, h5, wr_cons_one]
  by_cases hi : 1 < iter
  · obtain ⟨d', h7, h8⟩ := each3_ok (f := fun d m v => d - lr * √(1 - b2 ^ (iter + 1)) / (1 - b1 ^ (iter + 1)) * m / (eps + √v)) hd hm hn' hd.2.1
    exact ⟨d', m' :: n' :: rest, by rw [if_pos hi, h7, bind_ok]; rfl, h8.congr (fun is _ => by rw [if_pos hi]; rfl), m', n', rest, rfl, hm, hn'⟩
  · obtain ⟨d', h7, h8⟩ := each2_ok (f := fun d g => d - lr * g) hd hg hd.2.1
    exact ⟨d', m' :: n' :: rest, by rw [if_neg hi, h7, bind_ok]; rfl, h8.congr (fun is _ => by rw [if_neg hi]), m', n', rest, rfl, hm, hn'⟩

theorem gdRule_ok (lr mom : ℝ) (hd : d.Has sh w) (hg : g.Has sh γ) : ∃ d', gdRule lr mom d g c = ok (d', g, c) ∧ d'.Has sh (fun is => w is - lr * γ is) := by
  have hl : (⟨g.shape, g.data.map (fun x => lr * x)⟩ : Ten ℝ).Has sh (fun is => lr * γ is) := by
    refine ⟨hg.1, isT_of_pos (v := fun p => lr * γ (unflat sh p)) (by simp [hg.2.1]) (fun p hp => ?_) (fun is hv => by rw [unflat_flat hv])⟩
    simp [hg.2.pos hp]
  obtain ⟨d', h1, h2⟩ := each2_ok (f := fun x y => x - y) hd hl hd.2.1
  refine ⟨d', ?_, h2⟩
  unfold gdRule
  simp only [assert_true (show d.shape = g.shape by rw [hd.1, hg.1]), bind_ok, h1, pure_eq]

end rules
end Verif.Optim
