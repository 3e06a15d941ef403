import Verif.Runs.Props
import Verif.Alias.Props
/-!
# Property C113: `train_on_batch` on shared storages

`train_on_batch` binds the place holders to the tensors of its caller (include/model.hpp lines 251-252), it does not copy them.
-/
namespace Verif.Runs
open Verif Res View Tensor Data Graph Optim Fit Train Descent
open Verif.Alias (denote_some denote_congr readT readT_ok plus_same)

noncomputable section

variable {κ O : Type} {U I X : List Nat}

/-- The storages of the user but those of the batch. -/
def others (X : List Nat) (inT outT : Tn) : List Nat := X.filter (fun q => decide (q ≠ inT.loc ∧ q ≠ outT.loc))

theorem mem_others {X : List Nat} {inT outT : Tn} {q : Nat} : q ∈ others X inT outT ↔ q ∈ X ∧ q ≠ inT.loc ∧ q ≠ outT.loc := by
  simp [others]

/-- Place holders bound to two tensors of the user. -/
theorem Rel.bindTo {s : HO} {os : OSt} (h : Rel U I [] X s os) {inp gt : Nat} (hne : inp ≠ gt) {inT outT : Tn} (hX : inT.loc ∈ X) (hX' : outT.loc ∈ X) (hd : inT.loc ≠ outT.loc)
    (leaf : Nat → Ten ℝ) (b : Bool) :
    Rel U I [inp, gt] (others X inT outT) { s with t := { s.t with leafT := upd (upd s.t.leafT inp inT) gt outT, training := b } }
      { os with st := { os.st with leaf := leaf, training := b } } := by
  set s' : HO := { s with t := { s.t with leafT := upd (upd s.t.leafT inp inT) gt outT, training := b } } with hs'
  have li : s'.loc (.tag (.leaf inp)) = inT.loc := by
    show (upd (upd s.t.leafT inp inT) gt outT inp).loc = _
    rw [upd_ne _ _ hne, upd_same]
  have lg : s'.loc (.tag (.leaf gt)) = outT.loc := by
    show (upd (upd s.t.leafT inp inT) gt outT gt).loc = _
    rw [upd_same]
  have ho : ∀ l, (∀ k, l ≠ .tag (.leaf k)) → s'.loc l = s.loc l := fun l hl => by
    cases l with
    | tag τ => cases τ with
      | leaf k => exact absurd rfl (hl k)
      | _ => rfl
    | ctx v j => rfl
  have hcase : ∀ l, Part U I [inp, gt] s' l → l = .tag (.leaf inp) ∨ l = .tag (.leaf gt) ∨ (Part U I [] s l ∧ ∀ k, l ≠ .tag (.leaf k)) := fun l hl => by
    cases l with
    | tag τ => cases τ with
      | leaf k =>
        have : k ∈ [inp, gt] := hl
        simp only [List.mem_cons, List.not_mem_nil, or_false] at this
        rcases this with rfl | rfl
        · exact Or.inl rfl
        · exact Or.inr (Or.inl rfl)
      | var v => exact Or.inr (Or.inr ⟨hl, by simp⟩)
      | grad v => exact Or.inr (Or.inr ⟨hl, by simp⟩)
      | opc i => exact Or.inr (Or.inr ⟨hl, by simp⟩)
      | bopc i b => exact Or.inr (Or.inr ⟨hl, by simp⟩)
    | ctx v j => exact Or.inr (Or.inr ⟨hl, by simp⟩)
  have hold : ∀ l, Part U I [] s l → (∀ k, l ≠ .tag (.leaf k)) → s'.loc l ≠ inT.loc ∧ s'.loc l ≠ outT.loc := fun l hl hn => by
    rw [ho l hn]
    exact ⟨fun he => h.apart.away l hl (he ▸ hX), fun he => h.apart.away l hl (he ▸ hX')⟩
  refine ⟨⟨fun l hl => ?_, fun l l' h1 h2 h3 => ?_, fun l hl => ?_, fun q hq => h.apart.ext q (mem_others.mp hq).1⟩, h.var, h.grad, h.ctx, h.sync, rfl, h.reg⟩
  · rcases hcase l hl with rfl | rfl | ⟨h1, h2⟩
    · rw [li]; exact h.apart.ext _ hX
    · rw [lg]; exact h.apart.ext _ hX'
    · rw [ho l h2]; exact h.apart.lt l h1
  · rcases hcase l h1 with rfl | rfl | ⟨a1, a2⟩ <;> rcases hcase l' h2 with rfl | rfl | ⟨b1, b2⟩
    · rfl
    · rw [li, lg] at h3; exact absurd h3 hd
    · rw [li] at h3; exact absurd h3.symm (hold l' b1 b2).1
    · rw [li, lg] at h3; exact absurd h3.symm hd
    · rfl
    · rw [lg] at h3; exact absurd h3.symm (hold l' b1 b2).2
    · rw [li] at h3; exact absurd h3 (hold l a1 a2).1
    · rw [lg] at h3; exact absurd h3 (hold l a1 a2).2
    · rw [ho l a2, ho l' b2] at h3; exact h.apart.inj l l' a1 b1 h3
  · rw [mem_others]
    rintro ⟨q1, q2, q3⟩
    rcases hcase l hl with rfl | rfl | ⟨h1, h2⟩
    · exact q2 li
    · exact q3 lg
    · rw [ho l h2] at q1; exact h.apart.away l h1 q1

/-- The batch is the user's again. -/
theorem Rel.unbind {s : HO} {os : OSt} {inp gt : Nat} {inT outT : Tn} (h : Rel U I [inp, gt] (others X inT outT) s os) (hi : s.t.leafT inp = inT) (hg : s.t.leafT gt = outT) :
    Rel U I [] X s os := by
  have hin : Part U I [inp, gt] s (.tag (.leaf inp)) := by show inp ∈ [inp, gt]; simp
  have hgt : Part U I [inp, gt] s (.tag (.leaf gt)) := by show gt ∈ [inp, gt]; simp
  have li : s.loc (.tag (.leaf inp)) = inT.loc := by show (s.t.leafT inp).loc = _; rw [hi]
  have lg : s.loc (.tag (.leaf gt)) = outT.loc := by show (s.t.leafT gt).loc = _; rw [hg]
  have hp : ∀ l, Part U I [] s l → Part U I [inp, gt] s l ∧ ∀ k, l ≠ .tag (.leaf k) := fun l hl => by
    cases l with
    | tag τ => cases τ with
      | leaf k => exact absurd hl (by show k ∉ []; simp)
      | var v => exact ⟨hl, by simp⟩
      | grad v => exact ⟨hl, by simp⟩
      | opc i => exact ⟨hl, by simp⟩
      | bopc i b => exact ⟨hl, by simp⟩
    | ctx v j => exact ⟨hl, by simp⟩
  refine ⟨⟨fun l hl => h.apart.lt l (hp l hl).1, fun l l' h1 h2 h3 => h.apart.inj l l' (hp l h1).1 (hp l' h2).1 h3, fun l hl hq => ?_, fun q hq => ?_⟩,
    h.var, h.grad, h.ctx, h.sync, h.training, h.reg⟩
  · obtain ⟨h1, h2⟩ := hp l hl
    refine h.apart.away l h1 (mem_others.mpr ⟨hq, ?_, ?_⟩)
    · rw [← li]; exact h.apart.ne h1 hin (h2 _)
    · rw [← lg]; exact h.apart.ne h1 hgt (h2 _)
  · by_cases q1 : q = inT.loc
    · rw [q1, ← li]; exact h.apart.lt _ hin
    · by_cases q2 : q = outT.loc
      · rw [q2, ← lg]; exact h.apart.lt _ hgt
      · exact h.apart.ext q (mem_others.mpr ⟨hq, q1, q2⟩)

variable {M : Prog κ O} {inT outT : Tn} {x y : Ten ℝ} {q : κ} {o : O} {s : HO} {os : OSt}

/-- C113 for `train_on_batch`: one call does what it does by value.  It leaves the tensors of its caller alone, but for the labels, which a `plus` of the loss may
overwrite. -/
theorem train_on_batch_shared (h : Rel U I [] X s os) (hne : M.inp ≠ M.gt) (hX : inT.loc ∈ X) (hX' : outT.loc ∈ X) (hd : inT.loc ≠ outT.loc)
    (hx : denote s.t.heap inT = some x) (hy : denote s.t.heap outT = some y) (hr : Ready M U I (M.byValue.bind x y (M.byValue.phase true (q, o, os))))
    (hend : ∀ v, endOf M.fk (M.loss q) ≠ .var v) {e : ℝ} {s' : κ × O × OSt} (ht : trainOnBatch M.byValue x y (q, o, os) = ok (e, s')) :
    ∃ s2, htrainOnBatch M inT outT (q, o, s) = ok (e, (s'.1, s'.2.1, s2)) ∧ Rel U I [] X s2 s'.2.2 ∧ (∀ j ∈ X, j ≠ outT.loc → s2.t.heap[j]? = s.t.heap[j]?) ∧
      (M.gt ∉ killed M.fk (M.loss q) → s2.t.heap[outT.loc]? = s.t.heap[outT.loc]?) ∧
      ∃ t t1, M.hrunLoss (M.hbind inT outT (hphase true (q, o, s))) = ok (t, (q, o, t1)) ∧ s2.t.heap[outT.loc]? = t1.t.heap[outT.loc]? := by
  unfold trainOnBatch at ht
  obtain ⟨⟨v, s1⟩, h1, ht⟩ := bind_eq_ok.mp ht
  obtain ⟨s2, h2, ht⟩ := bind_eq_ok.mp ht
  obtain ⟨e', h3, ht⟩ := bind_eq_ok.mp ht

  simp only [pure_eq, ok.injEq, Prod.mk.injEq] at ht
  obtain ⟨rfl, rfl⟩ := ht
  have R := h.bindTo (inp := M.inp) (gt := M.gt) hne hX hX' hd (upd (upd os.st.leaf M.inp x) M.gt y) true
  have li : upd (upd s.t.leafT M.inp inT) M.gt outT M.inp = inT := by rw [upd_ne _ _ hne, upd_same]
  have lg : upd (upd s.t.leafT M.inp inT) M.gt outT M.gt = outT := by rw [upd_same]
  obtain ⟨t, t1, k1, k2, k3, k4, k5, k6, k7, k8⟩ := loss_sim (M := M) (q := q) (o := o) R hr
    (by
      show denote s.t.heap (upd (upd s.t.leafT M.inp inT) M.gt outT M.inp) = some (upd (upd os.st.leaf M.inp x) M.gt y M.inp)
      rw [li, upd_ne _ _ hne, upd_same]; exact hx)
    (by
      show denote s.t.heap (upd (upd s.t.leafT M.inp inT) M.gt outT M.gt) = some (upd (upd os.st.leaf M.inp x) M.gt y M.gt)
      rw [lg, upd_same]; exact hy) h1
  obtain ⟨t2, l1, l2, l3, l4, l5⟩ := k8 s2 h2
  have e1 : M.hrunLoss (M.hbind inT outT (hphase true (q, o, s))) = ok (t, (q, o, t1)) := k1
  have b5 : ∀ k ∈ [M.inp, M.gt], k ∉ killed M.fk (M.loss q) → t2.t.heap[(upd (upd s.t.leafT M.inp inT) M.gt outT k).loc]? = s.t.heap[(upd (upd s.t.leafT M.inp inT) M.gt outT k).loc]? :=
    fun k hk hk' => (l5 k hk).trans (k7 k hk hk')
  refine ⟨t2, ?_, l2.unbind (by rw [l3.leafT]; exact li) (by rw [l3.leafT]; exact lg), fun j hj hj' => ?_, fun hk => ?_, t, t1, e1, ?_⟩
  · unfold htrainOnBatch
    rw [e1, bind_ok]
    dsimp only
    rw [l1, bind_ok]
    dsimp only
    rw [readT_ok (l4 hend), bind_ok, h3, bind_ok]
    rfl
  · by_cases hj2 : j = inT.loc
    · have := b5 M.inp (by simp) hr.keeps
      rw [li] at this
      rw [hj2]; exact this
    · exact l3.ext j (mem_others.mpr ⟨hj, hj2, hj'⟩)
  · have := b5 M.gt (by simp) hk
    rwa [lg] at this
  · have := l5 M.gt (by simp)
    simp only [lg] at this
    exact this

end
end Verif.Runs
