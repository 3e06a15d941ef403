import Verif.Regular.Sgd
import Verif.Descent.Net
/-!
# C122: fitting with regularisers is descent on loss plus penalty

For networks in which no variable belongs to two layers.
-/
namespace Verif.Regular
open Verif Res View Data Ops Graph Loss Optim Fit Net Pool Descent

noncomputable section

/-! ### every variable lives in one object -/

/-- A variable that occurs once in an expression lives in one object. -/
theorem copies_one {e : Ex ℝ} (hn : (vars e).Nodup) {v : Nat} (hv : v ∈ vars e) : copies e v = 1 := by
  classical
  have h1 : copies e v ≤ 1 := by
    unfold copies
    refine (List.toFinset_card_le _).trans ?_
    have h2 : ((varOccs e none).filter (fun p => p.2 = v)).length = (vars e).count v := by
      rw [← varOccs_vars e none, List.count_eq_countP, List.countP_map, List.countP_eq_length_filter]
      congr 1
    rw [h2]
    exact List.nodup_iff_count_le_one.mp hn v
  have h3 : copies e v ≠ 0 := by
    unfold copies
    rw [← varOccs_vars e none] at hv
    obtain ⟨p, hp, rfl⟩ := List.mem_map.mp hv
    exact Finset.card_ne_zero_of_mem (a := p) (by simp [hp])
  omega

theorem build_vars_perm {K : Kit} (k : Kind) (i : Nat) (s : List Nat) (e : Ex ℝ) : (vars (build K i s e k)).Perm (vars e ++ (params k).map (·.1)) := by
  rw [List.perm_iff_count]
  intro v
  cases k <;> simp only [build, el, dense, conv1DLayer, conv2DLayer, convTransposeLayer, convE, plusE, vars, params, List.count_append, List.map_cons, List.map_nil,
    List.count_cons, List.count_nil] <;> omega

theorem stack_vars_perm {K : Kit} (ks : List Kind) : ∀ (i : Nat) (s : List Nat) (e : Ex ℝ), (vars (stack K ks i s e)).Perm (vars e ++ weightsOf ks) := by
  induction ks with
  | nil => intro i s e; simp [stack, weightsOf]
  | cons k ks ih =>
    intro i s e
    rw [stack]
    refine (ih _ _ _).trans ?_
    simp only [weightsOf, List.flatMap_cons]
    rw [← List.append_assoc]
    exact (build_vars_perm k i s e).append_right _

/-- The loss mentions labels and outputs once. -/
def Once (E : Kit → Nat → Ex ℝ → Ex ℝ → Ex ℝ) : Prop := ∀ K i l r, (vars (E K i l r)).Perm (vars l ++ vars r)

theorem squared_once : Once squaredLoss := fun K i l r => by simp [squaredLoss, el, minusE, plusE, Graph.vars]
theorem cross_entropy_once : Once crossEntropy := fun K i l r => by simp [crossEntropy, hadE, el, Graph.vars]
theorem mse_once : Once mse := fun K i l r => by simp [mse, el, minusE, plusE, Graph.vars]

theorem network_copies {E : Kit → Nat → Ex ℝ → Ex ℝ → Ex ℝ} (hE : Once E) {K : Kit} {ks : List Kind} {s : List Nat} {inp gt : Nat} {w : Nat → Ten ℝ} {q : Kit × List Kind}
    (hn : (weightsOf ks).Nodup) (h : Holds K ks s w q) {v : Nat} (hv : v ∈ weightsOf ks) : copies (netLoss E s inp gt q) v = 1 := by
  have h1 : (vars (netLoss E s inp gt q)).Perm (weightsOf ks) := by
    unfold netLoss
    refine (hE _ _ _ _).trans ?_
    rw [← h.2.2.1.weights]
    simpa [Graph.vars] using stack_vars_perm (K := q.1) q.2 0 s (.leaf inp)
  exact copies_one (h1.nodup_iff.mpr hn) (h1.mem_iff.mpr hv)

/-! ### the objective -/

/-- The partial derivative of `k F` plus the penalty. -/
theorem partial_objective {eps : ℝ} (heps : 0 < eps) {V : List Nat} {cfg : Nat → Cfg ℝ} {D : Nat → Ten ℝ} (hwf : ∀ v ∈ V, (D v).WF) (hc : ∀ v ∈ V, Coef eps (cfg v))
    (hoff : ∀ v ∈ V, ∀ is, ValidIdx (D v).shape is → Off (cfg v) ((D v).at is)) {k : ℝ} {F : (Nat → Ten ℝ) → ℝ} {v : Nat} (hv : v ∈ V) {is : List Nat}
    (his : ValidIdx (D v).shape is) {d : ℝ} (hd : HasDerivAt (fun h => F (upd D v (bump (D v) is h))) d 0) :
    partialAt (fun D => k * F D + penalty V cfg D) D v is = k * d + regTerm eps (cfg v) ((D v).at is) := by
  classical
  have h0 : upd D v (bump (D v) is 0) = D := by
    funext u
    by_cases h : u = v
    · subst h; rw [upd_same, bump_zero (hwf u hv) his]
    · rw [upd_ne _ _ h]
  have h1 := penalty_deriv heps (V := V) (cfg := cfg) (θ := fun h => upd D v (bump (D v) is h)) (sh := fun u => (D u).shape)
    (δ := fun u => if u = v then unitAt is else fun _ => 0) (fun u hu => by
      by_cases h : u = v
      · subst h
        simp only [upd_same, if_true]
        exact moves_bump (hwf u hu) his
      · simp only [upd_ne _ _ h, if_neg h]
        exact ⟨fun _ => ⟨hwf u hu, rfl⟩, fun _ _ => hasDerivAt_const _ _⟩) hc (fun u hu js hj => by rw [h0]; exact hoff u hu js hj)
  rw [Finset.sum_eq_single_of_mem v (List.mem_toFinset.mpr hv) (fun u _ hu => by rw [if_neg hu, pair_zero])] at h1
  rw [if_pos rfl, pair_unit his, h0] at h1
  unfold partialAt
  exact ((hd.const_mul k).add h1).deriv

section
variable {O : Type} {eps k : ℝ} {step : Ex ℝ → O → OSt → Res (O × OSt)} {law : Law} {J : Nat → O → Prop} {M : List (Ten ℝ) → List Nat → (List Nat → ℝ × ℝ) → Prop}
  {K : Kit} {ks : List Kind} {cfg : Nat → Cfg ℝ} {inp gt : Nat} {nk : Kit → Kit} {inputs outputs : Ten ℝ} {bs n n' : Nat} {a b : List Nat} {XI YO : List Nat → ℝ} {epochs : Nat}
  {p : Point} {s : (Kit × List Kind) × O × OSt}

/-- The objective of batch `l`: `k` times its loss, plus the penalty. -/
def objective (k : ℝ) (fl : (List Nat → ℝ) → (List Nat → ℝ) → ℝ) (ks : List Kind) (cfg : Nat → Cfg ℝ) (inputs outputs : Ten ℝ) (bs : Nat) (a : List Nat) (l : Nat) (D : Nat → Ten ℝ) : ℝ :=
  k * batchLoss fl ks inputs outputs bs a l D + penalty (weightsOf ks) cfg D

/-- C122, with the factor `k` of the loss (1, but for `mean_squared_error`), for networks in which no variable belongs to two layers, coefficients that are zero or
at least `eps`, and no element with an L1 penalty being zero on the way: with regularisers, `fit` takes one step of descent on loss plus penalty of each batch, with
any of the optimizers.  What is recorded and reported is the loss without the penalty. -/
theorem network_fit_regularised_partial {E : Kit → Nat → Ex ℝ → Ex ℝ → Ex ℝ} {fl : (List Nat → ℝ) → (List Nat → ℝ) → ℝ} {dom : (List Nat → ℝ) → Prop} (heps : 0 < eps)
    (hm : Descent.Moves eps step law J M) (hE : NetLoss eps E fl dom k (netShape ks (bs :: a))) (hO : Once E) (hT : Network K ks (bs :: a) cfg p.w) (hnd : (weightsOf ks).Nodup)
    (hco : ∀ v ∈ weightsOf ks, Coef eps (cfg v))
    (hk : ∀ K, (nk K).red = K.red ∧ (nk K).fuel = K.fuel) (hi : inputs.Has (n :: a) XI) (ho : outputs.Has (n' :: b) YO) (hn : n ≤ n') (hlab : netShape ks (bs :: a) = bs :: b)
    (hne : inp ≠ gt) {P : Nat → Point} (hP : P = path (weightsOf ks) law 1 (fun t => objective k fl ks cfg inputs outputs bs a (t % (n / bs))) p)
    (hd : ∀ t, t < epochs * (n / bs) → NetDom (P t).w ks (bs :: a) (batch inputs bs (t % (n / bs))).at ∧ dom (netVal (P t).w ks (bs :: a) (batch inputs bs (t % (n / bs))).at))
    (hoff : ∀ t, t < epochs * (n / bs) → ∀ v ∈ weightsOf ks, ∀ is, ValidIdx ((P t).w v).shape is → Off (cfg v) (((P t).w v).at is))
    (hs : Along (Holds K ks (bs :: a) p.w) (weightsOf ks) J M 0 p ((compiledWith (netLoss E (bs :: a) inp gt) (netAdv nk (bs :: a) inp) inp gt step).phase true s)) :
    ∃ f, fit (compiledWith (netLoss E (bs :: a) inp gt) (netAdv nk (bs :: a) inp) inp gt step) inputs outputs bs epochs 0 s = ok f ∧
      (∀ v ∈ weightsOf ks, f.s.2.2.st.data v = (P (epochs * (n / bs))).w v) ∧
      f.log = (List.range epochs).flatMap (fun ep => epochLog (batch inputs bs) (batch outputs bs) (fun l => batchLoss fl ks inputs outputs bs a l (P (ep * (n / bs) + l)).w)
        (fun _ => true) (n / bs)) ∧
      f.trainErr = (List.range epochs).map (fun ep => (∑ l ∈ Finset.range (n / bs), batchLoss fl ks inputs outputs bs a l (P (ep * (n / bs) + l)).w) / ((n / bs : Nat) : ℝ)) := by
  have hbs : 0 < bs := by
    rcases Nat.eq_zero_or_pos bs with h | h
    · exact absurd (by rw [h]; simp) hT.pos
    · exact h
  have hmod : ∀ ep l, l < n / bs → (ep * (n / bs) + l) % (n / bs) = l := fun ep l hl => by rw [Nat.mul_comm, Nat.mul_add_mod, Nat.mod_eq_of_lt hl]
  have hfits : ∀ t v, ((P t).w v).shape = (p.w v).shape ∧ ((p.w v).WF → ((P t).w v).WF) := fun t v => by rw [hP]; exact path_fits _ _ _ _ _ t v
  have h0 : P 0 = p := by rw [hP]; rfl
  rw [← h0] at hs
  obtain ⟨f, h1, h2, h3, h4⟩ := fit_follows (P := P) (k := k) (F := fun t => batchLoss fl ks inputs outputs bs a (t % (n / bs)))
    (γ := fun t v is => 1 * partialAt (objective k fl ks cfg inputs outputs bs a (t % (n / bs))) (P t).w v is) hm hbs hi ho hn hne (fun t ht => by
    have hpos : 0 < n / bs := by
      rcases Nat.eq_zero_or_pos (n / bs) with h | h
      · rw [h] at ht; omega
      · exact h
    have hlt : t % (n / bs) < n / bs := Nat.mod_lt _ hpos
    have hx := batch_isBatch hi hlt n a XI hi
    have hy := batch_isBatch ho (lt_of_lt_of_le hlt (Nat.div_le_div_right hn)) n' b YO ho
    rw [h0]
    obtain ⟨g1, g2, g3, g4⟩ := network_stores (inp := inp) (gt := gt) hE hT hk ⟨hx.wf, hx.1⟩ ⟨hy.wf, by rw [hlab]; exact hy.1⟩ (fun v _ => hfits t v) (hd t ht).1 (hd t ht).2
    refine ⟨g1, g2, fun q hq st e1 e2 e3 e4 e5 => ⟨cfg, g3 q hq st e1 e2 e3 e4 e5, fun v hv is his d hdd => ?_⟩, g4⟩
    have hc := network_copies (inp := inp) (gt := gt) hO hnd hq hv
    unfold copies at hc
    rw [hc, one_smul, one_mul]
    unfold objective
    exact (partial_objective heps (fun u hu => (hfits t u).2 (NetOk.wf ks _ hT.ok u hu)) hco (hoff t ht) hv his hdd).symm)
    (fun t _ => by rw [hP]; rfl) hs
  refine ⟨f, h1, h2.weights, ?_, ?_⟩
  · rw [h3]
    refine List.flatMap_congr (fun ep _ => epochLog_congr (fun l hl => ?_))
    rw [hmod ep l hl]
  · rw [h4]
    refine List.map_congr_left (fun ep _ => ?_)
    congr 1
    refine Finset.sum_congr rfl (fun l hl => ?_)
    rw [hmod ep l (Finset.mem_range.mp hl)]

/-- C122 for `squared_loss`, L2 penalties, and networks whose activations have a derivative everywhere: without conditions on the path. -/
theorem squared_fit_l2 (heps : 0 < eps) (hm : Descent.Moves eps step law J M) (hT : Network K ks (bs :: a) cfg p.w) (hnd : (weightsOf ks).Nodup)
    (hco : ∀ v ∈ weightsOf ks, (cfg v).l1 = 0 ∧ ((cfg v).l2 = 0 ∨ eps ≤ (cfg v).l2)) (hop : ∀ op, Kind.act op ∈ ks → ∀ x, op.Dom x)
    (hk : ∀ K, (nk K).red = K.red ∧ (nk K).fuel = K.fuel) (hi : inputs.Has (n :: a) XI) (ho : outputs.Has (n' :: b) YO) (hn : n ≤ n') (hlab : netShape ks (bs :: a) = bs :: b)
    (hne : inp ≠ gt)
    (hs : Along (Holds K ks (bs :: a) p.w) (weightsOf ks) J M 0 p ((compiledWith (netLoss squaredLoss (bs :: a) inp gt) (netAdv nk (bs :: a) inp) inp gt step).phase true s)) :
    ∃ f, fit (compiledWith (netLoss squaredLoss (bs :: a) inp gt) (netAdv nk (bs :: a) inp) inp gt step) inputs outputs bs epochs 0 s = ok f ∧
      ∀ v ∈ weightsOf ks, f.s.2.2.st.data v = (path (weightsOf ks) law 1 (fun t D => batchLoss (squaredOf (bs :: b)) ks inputs outputs bs a (t % (n / bs)) D +
        ∑ v ∈ (weightsOf ks).toFinset, (cfg v).l2 * sumIdx (D v).shape (fun is => (D v).at is ^ 2)) p (epochs * (n / bs))).w v := by
  have hE := squared_netLoss eps (netShape ks (bs :: a))
  rw [hlab] at hE
  rw [← hlab] at hE ⊢
  obtain ⟨f, h1, h2, _, _⟩ := network_fit_regularised_partial (epochs := epochs) heps hm hE squared_once hT hnd (fun v hv => ⟨Or.inl (hco v hv).1, (hco v hv).2⟩) hk hi ho hn hlab hne
    rfl (fun t _ => ⟨everywhere_dom hT.noMax hop _ _ _, trivial⟩) (fun t _ v hv is _ h => absurd (hco v hv).1 h) hs
  refine ⟨f, h1, fun v hv => ?_⟩
  have e : (fun t => objective 1 (squaredOf (netShape ks (bs :: a))) ks cfg inputs outputs bs a (t % (n / bs))) = (fun t D => batchLoss (squaredOf (netShape ks (bs :: a))) ks inputs outputs bs a (t % (n / bs)) D +
        ∑ v ∈ (weightsOf ks).toFinset, (cfg v).l2 * sumIdx (D v).shape (fun is => (D v).at is ^ 2)) := by
    funext t D
    unfold objective penalty
    rw [one_mul]
    congr 1
    refine Finset.sum_congr rfl (fun v hv => ?_)
    rw [← sumIdx_mul_left]
    refine sumIdx_congr (fun is _ => ?_)
    unfold pen
    rw [(hco v (List.mem_toFinset.mp hv)).1]
    ring
  rw [e] at h2
  exact h2 v hv

/-- Descent on `k` times a loss plus the penalty is descent on the loss plus the penalty with all coefficients divided by `k`, at `k` times the learning rates: what
`mean_squared_error` makes of the coefficients (`k` is there the number of elements of the output per batch element, C99). -/
theorem path_weakened (V : List Nat) (η : Nat → ℝ) (hk : k ≠ 0) (cfg : Nat → Cfg ℝ) (F : Nat → (Nat → Ten ℝ) → ℝ) (p : Point) (t : Nat) :
    path V (plainLaw η) 1 (fun t D => k * F t D + penalty V cfg D) p t =
      path V (plainLaw (fun t => k * η t)) 1 (fun t D => F t D + penalty V (fun v => { cfg v with l1 := (cfg v).l1 / k, l2 := (cfg v).l2 / k }) D) p t := by
  rw [← path_scaled]
  have hF : ∀ (t : Nat) (D : Nat → Ten ℝ), k * F t D + penalty V cfg D =
      k * (F t D + penalty V (fun v => { cfg v with l1 := (cfg v).l1 / k, l2 := (cfg v).l2 / k }) D) := by
    intro t D
    unfold penalty
    rw [mul_add, Finset.mul_sum]
    congr 1
    refine Finset.sum_congr rfl (fun v _ => ?_)
    rw [← sumIdx_mul_left]
    refine sumIdx_congr (fun is _ => ?_)
    unfold pen
    field_simp
  induction t with
  | zero => rfl
  | succ t ih =>
    rw [path, path, ih]
    have : ∀ (D : Nat → Ten ℝ) (v : Nat) (is : List Nat), 1 * partialAt (fun D => k * F t D + penalty V cfg D) D v is =
        k * partialAt (fun D => F t D + penalty V (fun v => { cfg v with l1 := (cfg v).l1 / k, l2 := (cfg v).l2 / k }) D) D v is := by
      intro D v is
      unfold partialAt
      simp only [hF]
      rw [one_mul, deriv_const_mul_field]
    unfold next
    simp only [this]

end
end
end Verif.Regular
