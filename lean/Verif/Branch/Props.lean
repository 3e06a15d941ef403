import Verif.Branch.Values
/-!
# Property C112: networks that branch, trained

Full statement: training any program stores the derivatives of the loss in every variable.  Missing here: programs in which a value other than the input is used twice, and
programs with `Concatenate`.  They are wrong, see `Verif.Branch.Violated`.
-/
namespace Verif.Branch
open Verif Res View Data Ops Graph Loss Net

noncomputable section

variable {K : Kit} {L D : Nat → Ten ℝ} {s : List Nat} {inp : Nat} {a : List Nat → ℝ}

/-- The values used, other than the input. -/
def used (ns : List Node) : List Nat := (ns.flatMap Node.operands).filter (· ≠ 0)

theorem used_snoc (ns : List Node) (n : Node) : used (ns ++ [n]) = used ns ++ n.operands.filter (· ≠ 0) := by
  simp [used, List.flatMap_append, List.filter_append]

theorem Once.init {ns : List Node} {n : Node} (h : Once (ns ++ [n])) : Once ns := by
  unfold Once at h ⊢
  change (used (ns ++ [n])).Nodup at h
  rw [used_snoc, List.nodup_append] at h
  exact h.1

theorem entry_zero (ns : List Node) : (entry K s inp ns 0).2 = .leaf inp := by
  induction ns using List.reverseRecOn with
  | nil => rfl
  | append_singleton ns n ih => rw [entry_old _ _ (by omega)]; exact ih

/-- Identities in programs that use every value once: no operator occurs twice in a value, and values not used share none. -/
theorem once_ids (ns : List Node) : Named ns → Once ns → (∀ x, x ≤ ns.length → (ids (entry K s inp ns x).2).Nodup) ∧
    ∀ x y, x ≤ ns.length → y ≤ ns.length → x ≠ y → x ∉ used ns → y ∉ used ns → ∀ j ∈ ids (entry K s inp ns x).2, j ∉ ids (entry K s inp ns y).2 := by
  induction ns using List.reverseRecOn with
  | nil =>
    intro _ _
    refine ⟨fun x hx => ?_, fun x y hx hy hne => ?_⟩
    · have hx : x = 0 := by simpa using hx
      subst hx
      simp [entry, exprs, ids]
    · simp only [List.length_nil, Nat.le_zero] at hx hy
      omega
  | append_singleton ns n ih =>
    intro hnm ho
    obtain ⟨o1, o2⟩ := ih hnm.init ho.init
    have hl := hnm.last
    have hu : (used ns ++ n.operands.filter (· ≠ 0)).Nodup := by rw [← used_snoc]; exact ho
    rw [List.nodup_append] at hu
    obtain ⟨-, u2, u3⟩ := hu
    -- the operands of the new statement share no operators
    have zero : ∀ j, j ∉ ids (entry K s inp ns 0).2 := by intro j; rw [entry_zero]; simp [ids]
    have opnd : ∀ x ∈ n.operands, x ≠ 0 → x ∉ used ns := fun x hx h0 hm => u3 x hm x (List.mem_filter.mpr ⟨hx, by simpa using h0⟩) rfl
    have disj : ∀ x y, x ∈ n.operands → y ≤ ns.length → (x ≠ y ∨ x = 0) → y ∉ used ns → ∀ j ∈ ids (entry K s inp ns x).2, j ∉ ids (entry K s inp ns y).2 := by
      intro x y hx hy hne hyu j hj
      by_cases h0 : x = 0
      · subst h0; exact absurd hj (zero j)
      · rcases hne with hne | hne
        · exact o2 x y (hl x hx) hy hne (opnd x hx h0) hyu j hj
        · exact absurd hne h0
    have both : (n.operands.flatMap (fun x => ids (entry K s inp ns x).2)).Nodup := by
      have pairN : ∀ x y, n.operands = [x, y] → (n.operands.flatMap (fun x => ids (entry K s inp ns x).2)).Nodup := by
        intro x y e
        have hx : x ∈ n.operands := by rw [e]; simp
        have hy : y ∈ n.operands := by rw [e]; simp
        have h1 := o1 x (hl x hx)
        have h2 := o1 y (hl y hy)
        have hd : ∀ j ∈ ids (entry K s inp ns x).2, j ∉ ids (entry K s inp ns y).2 := by
          intro j hj
          by_cases hy0 : y = 0
          · subst hy0; exact zero j
          · refine disj x y hx (hl y hy) ?_ (opnd y hy hy0) j hj
            by_cases hxy : x = y
            · subst hxy
              rw [e] at u2
              simp [hy0] at u2
            · exact Or.inl hxy
        rw [e]
        simp only [List.flatMap_cons, List.flatMap_nil, List.append_nil]
        rw [List.nodup_append]
        exact ⟨h1, h2, fun i hi j hj e => hd i hi (e ▸ hj)⟩
      cases n with
      | layer k x =>
        simp only [Node.operands, List.flatMap_cons, List.flatMap_nil, List.append_nil]
        exact o1 x (hl x (by simp [Node.operands]))
      | add x y => exact pairN x y rfl
      | sub x y => exact pairN x y rfl
      | mul x y => exact pairN x y rfl
      | concat axe x y => exact pairN x y rfl
    obtain ⟨new, h1, h2, h3⟩ := node_ids (K := K) n (9 * (ns.length + 1)) (entry K s inp ns)
    have low : ∀ {x}, x ≤ ns.length → ∀ j ∈ ids (entry K s inp ns x).2, j < 9 * (ns.length + 1) := by
      intro x hx j hj
      have := entry_ids ns hnm.init x hx j hj
      omega
    have split : ∀ {x}, x ≤ (ns ++ [n]).length → x = ns.length + 1 ∨ x ≤ ns.length := by
      intro x hx
      simp only [List.length_append, List.length_cons, List.length_nil] at hx
      omega
    have fresh : ∀ y, y ≤ ns.length → y ∉ used (ns ++ [n]) → ∀ j ∈ ids (entry K s inp ns y).2, j ∉ ids (entry K s inp (ns ++ [n]) (ns.length + 1)).2 := by
      intro y hy hyu j hj hm
      rw [entry_new, h1.mem_iff, List.mem_append] at hm
      rcases hm with hm | hm
      · have := h3 j hm; have := low hy j hj; omega
      · obtain ⟨x, hx, hm⟩ := List.mem_flatMap.mp hm
        rw [used_snoc, List.mem_append, not_or] at hyu
        refine disj x y hx hy ?_ hyu.1 j hm hj
        by_cases hxy : x = y
        · subst hxy
          right
          by_contra h0
          exact hyu.2 (List.mem_filter.mpr ⟨hx, by simpa using h0⟩)
        · exact Or.inl hxy
    refine ⟨fun x hx => ?_, fun x y hx hy hne hxu hyu j hj => ?_⟩
    · rcases split hx with rfl | hx
      · rw [entry_new, h1.nodup_iff, List.nodup_append]
        refine ⟨h2, both, fun i hi j hj e => ?_⟩
        obtain ⟨x, hx, hm⟩ := List.mem_flatMap.mp hj
        have := h3 i hi
        have := low (hl x hx) j hm
        omega
      · rw [entry_old _ _ hx]; exact o1 x hx
    · rcases split hx with rfl | hx' <;> rcases split hy with rfl | hy'
      · exact absurd rfl hne
      · rw [entry_old _ _ hy']
        exact fun hm => fresh y hy' hyu j hm hj
      · rw [entry_old _ _ hx'] at hj
        exact fresh x hx' hxu j hj
      · rw [entry_old _ _ hx'] at hj
        rw [entry_old _ _ hy']
        rw [used_snoc, List.mem_append, not_or] at hxu hyu
        exact o2 x y hx' hy' hne hxu.1 hyu.1 j hj

/-- The variables of a statement. -/
theorem node_vars (n : Node) (i : Nat) (E : Nat → List Nat × Ex ℝ) : ∀ v ∈ vars (n.expr K i E).2, (∃ x ∈ n.operands, v ∈ vars (E x).2) ∨ ∃ c, (v, c) ∈ n.params := by
  intro v hv
  cases n with
  | layer k x =>
    rcases build_vars k i _ _ v hv with h | h
    · exact Or.inl ⟨x, by simp [Node.operands], h⟩
    · exact Or.inr h
  | add x y =>
    simp only [Node.expr, plusE, vars, List.mem_append] at hv
    rcases hv with h | h
    · exact Or.inl ⟨x, by simp [Node.operands], h⟩
    · exact Or.inl ⟨y, by simp [Node.operands], h⟩
  | sub x y =>
    simp only [Node.expr, minusE, plusE, el, vars, List.mem_append] at hv
    rcases hv with h | h
    · exact Or.inl ⟨x, by simp [Node.operands], h⟩
    · exact Or.inl ⟨y, by simp [Node.operands], h⟩
  | mul x y =>
    simp only [Node.expr, hadE, vars, List.mem_append] at hv
    rcases hv with h | h
    · exact Or.inl ⟨x, by simp [Node.operands], h⟩
    · exact Or.inl ⟨y, by simp [Node.operands], h⟩
  | concat axe x y =>
    simp only [Node.expr, vars, List.mem_append] at hv
    rcases hv with h | h
    · exact Or.inl ⟨x, by simp [Node.operands], h⟩
    · exact Or.inl ⟨y, by simp [Node.operands], h⟩

/-- What they are made with. -/
theorem node_cfgs (n : Node) (i : Nat) (E : Nat → List Nat × Ex ℝ) (sl : Slot) : ∀ q ∈ occs (n.expr K i E).2 sl, ∀ v c, q.2 = .var v c →
    (∃ x ∈ n.operands, ∃ sl', ∃ q' ∈ occs (E x).2 sl', q'.2 = .var v c) ∨ (v, c) ∈ n.params := by
  intro q hq v c hv
  cases n with
  | layer k x =>
    rcases build_cfgs k i _ _ sl q hq v c hv with h | h
    · exact Or.inl ⟨x, by simp [Node.operands], h⟩
    · exact Or.inr h
  | add x y =>
    simp only [Node.expr, plusE, occs, List.mem_cons, List.mem_append] at hq
    rcases hq with rfl | hq | hq
    · simp at hv
    · exact Or.inl ⟨x, by simp [Node.operands], _, q, hq, hv⟩
    · exact Or.inl ⟨y, by simp [Node.operands], _, q, hq, hv⟩
  | sub x y =>
    simp only [Node.expr, minusE, plusE, el, occs, List.mem_cons, List.mem_append] at hq
    rcases hq with rfl | hq | rfl | hq
    · simp at hv
    · exact Or.inl ⟨x, by simp [Node.operands], _, q, hq, hv⟩
    · simp at hv
    · exact Or.inl ⟨y, by simp [Node.operands], _, q, hq, hv⟩
  | mul x y =>
    simp only [Node.expr, hadE, occs, List.mem_cons, List.mem_append] at hq
    rcases hq with rfl | hq | hq
    · simp at hv
    · exact Or.inl ⟨x, by simp [Node.operands], _, q, hq, hv⟩
    · exact Or.inl ⟨y, by simp [Node.operands], _, q, hq, hv⟩
  | concat axe x y =>
    simp only [Node.expr, occs, List.mem_cons, List.mem_append] at hq
    rcases hq with rfl | hq | hq
    · simp at hv
    · exact Or.inl ⟨x, by simp [Node.operands], _, q, hq, hv⟩
    · exact Or.inl ⟨y, by simp [Node.operands], _, q, hq, hv⟩

theorem entry_vars (ns : List Node) : Named ns → ∀ x, x ≤ ns.length → ∀ v ∈ vars (entry K s inp ns x).2, ∃ n ∈ ns, ∃ c, (v, c) ∈ n.params := by
  induction ns using List.reverseRecOn with
  | nil =>
    intro _ x hx v hv
    have hx : x = 0 := by simpa using hx
    subst hx
    simp [entry, exprs, vars] at hv
  | append_singleton ns n ih =>
    intro hnm x hx v hv
    have old : ∀ {x}, x ≤ ns.length → v ∈ vars (entry K s inp ns x).2 → ∃ m ∈ ns ++ [n], ∃ c, (v, c) ∈ m.params := by
      intro x hx hv
      obtain ⟨m, h1, h2⟩ := ih hnm.init x hx v hv
      exact ⟨m, by simp [h1], h2⟩
    rcases Nat.lt_or_ge ns.length x with h | h
    · have hx : x = ns.length + 1 := by simp only [List.length_append, List.length_cons, List.length_nil] at hx; omega
      subst hx
      rw [entry_new] at hv
      rcases node_vars n _ _ v hv with ⟨y, hy, h⟩ | h
      · exact old (hnm.last y hy) h
      · exact ⟨n, by simp, h⟩
    · rw [entry_old _ _ h] at hv
      exact old h hv

theorem entry_cfgs (ns : List Node) : Named ns → ∀ x, x ≤ ns.length → ∀ sl, ∀ q ∈ occs (entry K s inp ns x).2 sl, ∀ v c, q.2 = .var v c → ∃ n ∈ ns, (v, c) ∈ n.params := by
  induction ns using List.reverseRecOn with
  | nil =>
    intro _ x hx sl q hq v c hv
    have hx : x = 0 := by simpa using hx
    subst hx
    simp only [entry, exprs, List.foldl_nil, List.getD_cons_zero, occs, List.mem_singleton] at hq
    subst hq
    simp at hv
  | append_singleton ns n ih =>
    intro hnm x hx sl q hq v c hv
    have old : ∀ {x}, x ≤ ns.length → ∀ {sl q}, q ∈ occs (entry K s inp ns x).2 sl → q.2 = .var v c → ∃ m ∈ ns ++ [n], (v, c) ∈ m.params := by
      intro x hx sl q hq hv
      obtain ⟨m, h1, h2⟩ := ih hnm.init x hx sl q hq v c hv
      exact ⟨m, by simp [h1], h2⟩
    rcases Nat.lt_or_ge ns.length x with h | h
    · have hx : x = ns.length + 1 := by simp only [List.length_append, List.length_cons, List.length_nil] at hx; omega
      subst hx
      rw [entry_new] at hq
      rcases node_cfgs n _ _ sl q hq v c hv with ⟨y, hy, sl', q', h1, h2⟩ | h
      · exact old (hnm.last y hy) h1 h2
      · exact ⟨n, by simp, h⟩
    · rw [entry_old _ _ h] at hq
      exact old h hq hv

/-- A program, the number `x` of its output, and the state it is trained in: the inputs are place holder `inp`, the labels place holder `gt`. -/
structure Ready (K : Kit) (ns : List Node) (s : List Nat) (inp gt x : Nat) (st : St ℝ) (cfg : Nat → Cfg ℝ) : Prop where
  ok : AllOk K st.data s (st.leaf inp).at ns
  once : Once ns
  output : x ≤ ns.length
  input : (st.leaf inp).WF ∧ (st.leaf inp).shape = s ∧ (st.leaf inp).data ≠ []
  labels : (st.leaf gt).WF ∧ (st.leaf gt).shape = (valOf st.data s (st.leaf inp).at ns x).1
  out : Fits1 K (valOf st.data s (st.leaf inp).at ns x).1
  training : st.training = true
  grads : ∀ n ∈ ns, ∀ vc ∈ n.params, (st.data vc.1).WF ∧ (st.grad vc.1).WF ∧ (st.grad vc.1).shape = (st.data vc.1).shape
  cfgs : ∀ n ∈ ns, ∀ vc ∈ n.params, vc.2 = cfg vc.1 ∧ vc.2.trainable = true
  smooth : AllDom st.data s (st.leaf inp).at ns

section
variable {ns : List Node} {gt x : Nat} {st : St ℝ} {cfg : Nat → Cfg ℝ}

/-- Shape of the output. -/
def outS (st : St ℝ) (s : List Nat) (inp : Nat) (ns : List Node) (x : Nat) : List Nat := (valOf st.data s (st.leaf inp).at ns x).1

/-- Elements of the output. -/
def outV (st : St ℝ) (s : List Nat) (inp : Nat) (ns : List Node) (x : Nat) : List Nat → ℝ := (valOf st.data s (st.leaf inp).at ns x).2

theorem Ready.ops (h : Ready K ns s inp gt x st cfg) :
    Ev st.leaf st.data (.leaf gt) (outS st s inp ns x) (st.leaf gt).at ∧ Smooth st.leaf st.data (.leaf gt) ∧
    Ev st.leaf st.data (exprOf K s inp ns x) (outS st s inp ns x) (outV st s inp ns x) ∧ Smooth st.leaf st.data (exprOf K s inp ns x) := by
  have hne : (st.leaf gt).data ≠ [] := fun hd => by
    have := h.labels.1
    unfold Ten.WF at this
    rw [hd, h.labels.2] at this
    exact h.out.pos this.symm
  have e1 : Ev st.leaf st.data (.leaf inp) s (st.leaf inp).at := by have := ev_leaf (D := st.data) h.input.1 h.input.2.2; rwa [h.input.2.1] at this
  have e2 : Ev st.leaf st.data (.leaf gt) (outS st s inp ns x) (st.leaf gt).at := by have := ev_leaf (D := st.data) h.labels.1 hne; rwa [h.labels.2] at this
  obtain ⟨-, h2, h3⟩ := entries ns h.ok e1 x h.output
  exact ⟨e2, ⟨h.labels.1, hne⟩, h2, h3 h.smooth ⟨h.input.1, h.input.2.2⟩⟩

theorem Ready.trains (h : Ready K ns s inp gt x st cfg) (e : Ex ℝ) (hids : (ids e).Nodup) (hvars : ∀ v ∈ vars e, v ∈ vars (exprOf K s inp ns x))
    (hoccs : ∀ p ∈ occs e none, ∀ v c, p.2 = .var v c → ∃ sl, ∃ q ∈ occs (exprOf K s inp ns x) sl, q.2 = .var v c) : Trains e st cfg := by
  have hd := distinct_consistent hids
  refine ⟨hd.1, hd.2, h.training, fun v hv => ?_, fun p hp v c hc => ?_⟩
  · obtain ⟨n, hn, c, h'⟩ := entry_vars ns h.ok.named x h.output v (hvars v hv)
    exact h.grads n hn _ h'
  · obtain ⟨sl, q, hq, hqv⟩ := hoccs p hp v c hc
    obtain ⟨n, hn, h'⟩ := entry_cfgs ns h.ok.named x h.output sl q hq v c hqv
    have := h.cfgs n hn _ h'
    exact ⟨this.1, by rw [← this.1]; exact this.2⟩

theorem Ready.ids (h : Ready K ns s inp gt x st cfg) :
    (Graph.ids (exprOf K s inp ns x)).Nodup ∧ ∀ j, 9 * (ns.length + 1) ≤ j → j ∉ Graph.ids (exprOf K s inp ns x) := by
  refine ⟨(once_ids ns h.ok.named h.once).1 x h.output, fun j hj hm => ?_⟩
  have := entry_ids ns h.ok.named x h.output j hm
  have := h.output
  omega

/-- C112, losses: `squared_loss` of a program's output is the sum of the squared differences of the labels and the specified output. -/
theorem branch_squared_value (h : Ready K ns s inp gt x st cfg) :
    eval st.leaf st.data (squaredLoss K (9 * (ns.length + 1)) (.leaf gt) (exprOf K s inp ns x)) =
      ok ⟨[1], [sumIdx (outS st s inp ns x) (fun is => ((st.leaf gt).at is - outV st s inp ns x is) ^ 2)]⟩ := by
  obtain ⟨e1, _, e3, _⟩ := h.ops
  have hf : Fits1 K (outS st s inp ns x) := h.out
  rw [squared_loss_value e1 e3 hf.fits (9 * (ns.length + 1)), sumIdx_congr (g := fun is => ((st.leaf gt).at is - outV st s inp ns x is) ^ 2)
    (fun is hv => by rw [bc_self hv])]

/-- C112, training: for a program that uses every value but the input at most once, `squared_loss` and backward store in every variable the derivative of the loss (plus
the regularisation). -/
theorem branch_squared_gradient_partial (eps : ℝ) (h : Ready K ns s inp gt x st cfg) :
    Stores eps (squaredLoss K (9 * (ns.length + 1)) (.leaf gt) (exprOf K s inp ns x)) st cfg 1 := by
  obtain ⟨e1, e2, e3, e4⟩ := h.ops
  obtain ⟨hi, hn⟩ := h.ids
  have hf : Fits1 K (outS st s inp ns x) := h.out
  refine squared_loss_gradient_partial (h.trains _ ?_ ?_ ?_) e1 e3 hf.fits e2 e4
  · simp only [squaredLoss, el, minusE, plusE, Graph.ids, List.nil_append, List.nodup_cons, List.mem_cons, not_or]
    exact ⟨⟨by omega, by omega, by omega, hn _ (by omega)⟩, ⟨by omega, by omega, hn _ (by omega)⟩, ⟨by omega, hn _ (by omega)⟩, hn _ (by omega), hi⟩
  · intro v hv
    simpa [squaredLoss, el, minusE, plusE, vars] using hv
  · intro p hp v c hc
    simp only [squaredLoss, el, minusE, plusE, occs, List.mem_cons, List.mem_append, List.not_mem_nil, or_false] at hp
    rcases hp with rfl | rfl | rfl | rfl | rfl | hp
    · simp at hc
    · simp at hc
    · simp at hc
    · simp at hc
    · simp at hc
    · exact ⟨_, p, hp, hc⟩

/-- C112 with `cross_entropy`, for positive outputs. -/
theorem branch_cross_entropy_gradient_partial (eps : ℝ) (h : Ready K ns s inp gt x st cfg) (hp : ∀ is, ValidIdx (outS st s inp ns x) is → 0 < outV st s inp ns x is) :
    Stores eps (crossEntropy K (9 * (ns.length + 1)) (.leaf gt) (exprOf K s inp ns x)) st cfg 1 := by
  obtain ⟨e1, e2, e3, e4⟩ := h.ops
  obtain ⟨hi, hn⟩ := h.ids
  have hf : Fits1 K (outS st s inp ns x) := h.out
  refine cross_entropy_gradient_partial (h.trains _ ?_ ?_ ?_) e1 e3 hf e2 e4 hp
  · simp only [crossEntropy, hadE, el, Graph.ids, List.nil_append, List.nodup_cons, List.mem_cons, not_or]
    exact ⟨⟨by omega, by omega, by omega, hn _ (by omega)⟩, ⟨by omega, by omega, hn _ (by omega)⟩, ⟨by omega, hn _ (by omega)⟩, hn _ (by omega), hi⟩
  · intro v hv
    simpa [crossEntropy, hadE, el, vars] using hv
  · intro p hp v c hc
    simp only [crossEntropy, hadE, el, occs, List.mem_cons, List.mem_append, List.not_mem_nil, or_false] at hp
    rcases hp with rfl | rfl | rfl | rfl | rfl | hp
    · simp at hc
    · simp at hc
    · simp at hc
    · simp at hc
    · simp at hc
    · exact ⟨_, p, hp, hc⟩

/-- C112 with `mean_squared_error`, up to the factor of `network_mse_gradient_partial`. -/
theorem branch_mse_gradient_partial (eps : ℝ) (h : Ready K ns s inp gt x st cfg) {c : Nat} (hc : meanBatch (outS st s inp ns x) = ok c) (hc0 : c ≠ 0) :
    Stores eps (mse K (9 * (ns.length + 1)) (.leaf gt) (exprOf K s inp ns x)) st cfg ((size (outS st s inp ns x) : ℝ) / (c : ℝ)) := by
  obtain ⟨e1, e2, e3, e4⟩ := h.ops
  obtain ⟨hi, hn⟩ := h.ids
  have hf : Fits1 K (outS st s inp ns x) := h.out
  refine mse_gradient (h.trains _ ?_ ?_ ?_) e1 e3 hf.fits e2 e4 hc hc0
  · simp only [mse, el, minusE, plusE, Graph.ids, List.nil_append, List.nodup_cons, List.mem_cons, not_or]
    exact ⟨⟨by omega, by omega, by omega, hn _ (by omega)⟩, ⟨by omega, by omega, hn _ (by omega)⟩, ⟨by omega, hn _ (by omega)⟩, hn _ (by omega), hi⟩
  · intro v hv
    simpa [mse, el, minusE, plusE, vars] using hv
  · intro p hp v c hc
    simp only [mse, el, minusE, plusE, occs, List.mem_cons, List.mem_append, List.not_mem_nil, or_false] at hp
    rcases hp with rfl | rfl | rfl | rfl | rfl | hp
    · simp at hc
    · simp at hc
    · simp at hc
    · simp at hc
    · simp at hc
    · exact ⟨_, p, hp, hc⟩

end
end
end Verif.Branch
