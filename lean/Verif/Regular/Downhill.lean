import Verif.Optim.Downhill
import Verif.Regular.Examples
/-!
# The hypotheses of C130 can be met

The square of one weight.
-/
namespace Verif.Regular
open Verif Res View Data Ops Graph Loss Optim Fit Net Pool Descent

noncomputable section

/-- One weight `w`, and the optimizer's memories of it. -/
def osM (w : ℝ) (m : List ℝ) : OSt := { osW w with ctx := fun _ => m.map (fun x => ⟨[1], [x]⟩) }

theorem programQ (w : ℝ) (m : List ℝ) : Program 1 (lossQ ⟨0, 0, true⟩) (osM w m) (fun _ => ⟨0, 0, true⟩) := by
  have H := fitQ (c := ⟨0, 0, true⟩) rfl w
  exact ⟨H.consistent, H.unshared, H.training, H.smooth, H.cfgs, fun _ _ => ⟨one_pos, one_pos⟩, H.nodup, H.all, fun v hv => ⟨(H.fit v hv).1, (H.fit v hv).2.1, (H.fit v hv).2.2.1⟩, H.scalar⟩

/-- The derivative of the square. -/
theorem slopeQ (w : ℝ) (m : List ℝ) {G : Nat → List Nat → ℝ} (h : IsGradient (lossQ ⟨0, 0, true⟩) (osM w m) G) : G 0 [0] = 2 * w := by
  obtain ⟨Y, h1, h2⟩ := h 0 (by simp [lossQ, vars]) [0] (by simp [osM, osW, ValidIdx])
  have e : ∀ t, (Y t).at [0] = (w + t) * (w + t) := by
    intro t
    have h3 := h1 t
    rw [valueQ _ _ _ (w + t) (by
      simp only [upd_same]
      simp [bump, osM, osW, flat, Ten.at])] at h3
    rw [← ok.inj h3]
    simp [Ten.at, flat]
  simp only [e] at h2
  have h4 : HasDerivAt (fun t : ℝ => (w + t) * (w + t)) (1 * (w + 0) + (w + 0) * 1) 0 :=
    ((hasDerivAt_id (0 : ℝ)).const_add w).mul ((hasDerivAt_id (0 : ℝ)).const_add w)
  rw [h2.unique h4]
  ring

theorem slopedQ (m : List ℝ) {G : Nat → List Nat → ℝ} (h : IsGradient (lossQ ⟨0, 0, true⟩) (osM 3 m) G) : Sloped (lossQ ⟨0, 0, true⟩) (osM 3 m) G :=
  ⟨0, by simp [lossQ, vars], [0], by simp [osM, osW, ValidIdx], by rw [slopeQ 3 m h]; norm_num⟩

theorem ctx1Q (w m : ℝ) (v : Nat) : Ctx1 ((osM w [m]).ctx v) ((osM w [m]).st.data v).shape (fun _ => m) :=
  Or.inr ⟨⟨[1], [m]⟩, [], rfl, rfl, rfl, fun is his => by
    cases is with
    | nil => simp [osM, osW] at his
    | cons i is => cases is <;> simp_all [osM, osW, ValidIdx, flat]⟩

theorem ctx2Q (w m n : ℝ) (v : Nat) : Ctx2 ((osM w [m, n]).ctx v) ((osM w [m, n]).st.data v).shape (fun _ => m) (fun _ => n) :=
  Or.inr ⟨⟨[1], [m]⟩, ⟨[1], [n]⟩, [], rfl, ⟨rfl, rfl, fun is his => by
    cases is with
    | nil => simp [osM, osW] at his
    | cons i is => cases is <;> simp_all [osM, osW, ValidIdx, flat]⟩, rfl, rfl, fun is his => by
    cases is with
    | nil => simp [osM, osW] at his
    | cons i is => cases is <;> simp_all [osM, osW, ValidIdx, flat]⟩

/-- Weight 3: adagrad with the memory 5 lowers the square if the learning rate is small. -/
example : ∃ y, ∃ η > 0, ∀ o : Sched, 0 < o.rate → o.rate < η → Lowers (adagradStep 1) (lossQ ⟨0, 0, true⟩) (osM 3 [5]) y o := by
  obtain ⟨y, G, _, h2, h3⟩ := adagrad_descends (μ := fun _ _ => 5) one_pos (programQ 3 [5]) (fun v _ => ctx1Q 3 5 v)
  exact ⟨y, h3 (slopedQ [5] h2)⟩

/-- The same for rmsprop, after its first step. -/
example : ∃ y, ∃ η > 0, ∀ o : Rmsprop, o.rho = 0.9 → (o.sch.iter = 0 ↔ False) → 0 < o.sch.rate → o.sch.rate < η →
    Lowers (Rmsprop.step 1) (lossQ ⟨0, 0, true⟩) (osM 3 [5]) y o := by
  obtain ⟨y, G, _, h2, h3⟩ := rmsprop_descends (μ := fun _ _ => 5) one_pos (programQ 3 [5]) (fun v _ => ctx1Q 3 5 v) 0.9 False
  exact ⟨y, h3 (slopedQ [5] h2)⟩

/-- gradient_descent. -/
example : ∃ y, ∃ η > 0, ∀ o : Gd, 0 < o.lr → o.lr < η → Lowers (Gd.step 1) (lossQ ⟨0, 0, true⟩) (osM 3 []) y o := by
  obtain ⟨y, G, _, h2, h3⟩ := gradient_descent_descends (programQ 3 [])
  exact ⟨y, h3 (slopedQ [] h2)⟩

/-- adadelta. -/
example : ∃ y, ∃ η > 0, ∀ o : Adadelta, 0 ≤ o.rho → o.rho ≤ 1 → 0 < o.lr → o.lr < η → Lowers (Adadelta.step 1) (lossQ ⟨0, 0, true⟩) (osM 3 [5, 7]) y o := by
  obtain ⟨y, G, _, h2, h3⟩ := adadelta_descends (μ := fun _ _ => 5) (ν := fun _ _ => 7) one_pos (programQ 3 [5, 7]) (fun v _ => ctx2Q 3 5 7 v) (fun _ _ => by norm_num)
  exact ⟨y, h3 (slopedQ _ h2)⟩

/-- The first step of sgd with momentum. -/
example (nesterov : Bool) : ∃ y, ∃ η > 0, ∀ o : Sgd, o.mom = 0.9 → o.nesterov = nesterov → 0 < o.sch.rate → o.sch.rate < η →
    Lowers (Sgd.step 1) (lossQ ⟨0, 0, true⟩) (osM 3 []) y o := by
  obtain ⟨y, G, _, h2, h3⟩ := sgd_first_descends_partial (programQ 3 []) (fun v _ => Or.inl ⟨rfl, fun _ => rfl⟩) 0.9 (by norm_num) nesterov
  exact ⟨y, h3 (slopedQ _ h2)⟩

/-- The second step of adam. -/
example : ∃ y, ∃ η > 0, ∀ o : Adam, o.iter ≤ 1 → 0 < o.lr → o.lr < η → Lowers (Adam.step 1) (lossQ ⟨0, 0, true⟩) (osM 3 [5, 7]) y o := by
  obtain ⟨y, G, _, h2, h3⟩ := adam_first_descends_partial (μ := fun _ _ => 5) (ν := fun _ _ => 7) (programQ 3 [5, 7]) (fun v _ => ctx2Q 3 5 7 v)
  exact ⟨y, h3 (slopedQ _ h2)⟩

/-- A later step of adam with the memory -5 makes the square of 3 larger, however small the learning rate. -/
example (iter : Nat) (hi : 1 < iter) : ∃ y, ∃ η > 0, ∀ o : Adam, o.iter = iter → o.b1 = 0.9 → o.b2 = 0.999 → 0 < o.lr → o.lr < η →
    Raises (Adam.step 1) (lossQ ⟨0, 0, true⟩) (osM 3 [-5, 7]) y o := by
  obtain ⟨y, G, _, h2, h3⟩ := adam_uphill_violated (μ := fun _ _ => -5) (ν := fun _ _ => 7) one_pos (programQ 3 [-5, 7]) (fun v _ => ctx2Q 3 (-5) 7 v) 0.9 0.999 iter hi
    (by norm_num) (by norm_num)
  have e := slopeQ 3 _ h2
  refine ⟨y, h3 (fun v hv is his => ?_) ⟨0, by simp [lossQ, vars], [0], by simp [osM, osW, ValidIdx], by rw [e]; norm_num⟩⟩
  simp only [lossQ, vars, List.mem_cons, List.not_mem_nil, or_false] at hv
  subst hv
  have : is = [0] := by
    cases is with
    | nil => simp [osM, osW] at his
    | cons i is => cases is <;> simp_all [osM, osW, ValidIdx]
  rw [this, e]
  norm_num

/-- sgd with momentum 1/2, Nesterov's modification and the memory 2: the step overshoots from 3 to 4. -/
example : ∃ y, ∃ η > 0, ∀ o : Sgd, o.mom = 1 / 2 → o.nesterov = true → 0 < o.sch.rate → o.sch.rate < η →
    Raises (Sgd.step 1) (lossQ ⟨0, 0, true⟩) (osM 3 [2]) y o := by
  have e : ∀ v, (coasted (if true = true then 1 / 2 else 1 / 2 * (1 / 2)) (fun _ _ => 2) (osM 3 [2])).st.data v = ⟨[1], [4]⟩ := by
    intro v
    have h4 : (⟨[1], [4]⟩ : Ten ℝ).Has [1] (fun _ => 4) := ⟨rfl, rfl, fun is his => by
      cases is with
      | nil => simp [ValidIdx] at his
      | cons i is => cases is <;> simp_all [ValidIdx, flat]⟩
    show Optim.tenOf [1] (fun is => (⟨[1], [3]⟩ : Ten ℝ).at is + (if true = true then 1 / 2 else 1 / 2 * (1 / 2)) * 2) = _
    refine (Optim.tenOf_has _ _).ext (h4.congr (fun is his => ?_))
    cases is with
    | nil => simp [osM, osW] at his
    | cons i is => cases is <;> simp_all [osM, osW, ValidIdx, flat, Ten.at]; norm_num
  have hs : coasted (if true = true then 1 / 2 else 1 / 2 * (1 / 2)) (fun _ _ => 2) (osM 3 [2]) = osM 4 [2] := by
    have : (coasted (if true = true then 1 / 2 else 1 / 2 * (1 / 2)) (fun _ _ => 2) (osM 3 [2])).st.data = fun _ => ⟨[1], [4]⟩ := funext e
    unfold coasted at this ⊢
    dsimp only at this ⊢
    rw [this]
    rfl
  refine ⟨_, sgd_overshoots_violated (μ := fun _ _ => 2) (programQ 3 [2]) (fun v _ => ctx1Q 3 2 v) (1 / 2) true (by rw [hs]; exact programQ 4 [2]) (valueQ _ _ _ 3 rfl)
    (by rw [hs]; exact valueQ _ _ _ 4 rfl) ?_⟩
  simp [Ten.at, flat]
  norm_num

end
end Verif.Regular
