import Verif.Branch.Spec
import Mathlib.Data.List.GetD
/-!
# Property C112: networks that branch, values
-/
namespace Verif.Branch
open Verif Res View Data Ops Graph Loss Net

noncomputable section

variable {K : Kit} {L D : Nat → Ten ℝ} {s : List Nat} {inp : Nat} {a : List Nat → ℝ}

/-! ### programs, statement by statement -/

theorem exprs_snoc (ns : List Node) (n : Node) :
    exprs K s inp (ns ++ [n]) = exprs K s inp ns ++ [n.expr K (9 * (exprs K s inp ns).length) (fun x => (exprs K s inp ns).getD x (s, .leaf inp))] := by
  simp [exprs, List.foldl_append]

theorem exprs_length (ns : List Node) : (exprs K s inp ns).length = ns.length + 1 := by
  induction ns using List.reverseRecOn with
  | nil => rfl
  | append_singleton ns n ih => rw [exprs_snoc, List.length_append, ih]; simp

theorem vals_snoc (ns : List Node) (n : Node) : vals D s a (ns ++ [n]) = vals D s a ns ++ [n.val D (valOf D s a ns)] := by
  simp only [vals, List.foldl_append, List.foldl_cons, List.foldl_nil]
  rfl

theorem vals_length (ns : List Node) : (vals D s a ns).length = ns.length + 1 := by
  induction ns using List.reverseRecOn with
  | nil => rfl
  | append_singleton ns n ih => rw [vals_snoc, List.length_append, ih]; simp

/-- Shape and expression of value number `x`. -/
def entry (K : Kit) (s : List Nat) (inp : Nat) (ns : List Node) (x : Nat) : List Nat × Ex ℝ := (exprs K s inp ns).getD x (s, .leaf inp)

theorem entry_old (ns : List Node) (n : Node) {x : Nat} (hx : x ≤ ns.length) : entry K s inp (ns ++ [n]) x = entry K s inp ns x := by
  unfold entry
  rw [exprs_snoc, List.getD_append _ _ _ _ (by rw [exprs_length]; omega)]

theorem entry_new (ns : List Node) (n : Node) : entry K s inp (ns ++ [n]) (ns.length + 1) = n.expr K (9 * (ns.length + 1)) (entry K s inp ns) := by
  unfold entry
  rw [exprs_snoc, List.getD_append_right _ _ _ _ (by rw [exprs_length]), exprs_length, Nat.sub_self]
  rfl

theorem valOf_old (ns : List Node) (n : Node) {x : Nat} (hx : x ≤ ns.length) : valOf D s a (ns ++ [n]) x = valOf D s a ns x := by
  unfold valOf
  rw [vals_snoc, List.getD_append _ _ _ _ (by rw [vals_length]; omega)]

theorem valOf_new (ns : List Node) (n : Node) : valOf D s a (ns ++ [n]) (ns.length + 1) = n.val D (valOf D s a ns) := by
  unfold valOf
  rw [vals_snoc, List.getD_append_right _ _ _ _ (by rw [vals_length]), vals_length, Nat.sub_self]
  rfl

theorem AllOk.init {ns : List Node} {n : Node} (h : AllOk K D s a (ns ++ [n])) : AllOk K D s a ns :=
  fun pre m hp => h pre m (hp.trans (List.prefix_append _ _))

theorem AllOk.last {ns : List Node} {n : Node} (h : AllOk K D s a (ns ++ [n])) : n.Ok K D (ns.length + 1) (valOf D s a ns) := h ns n (List.prefix_refl _)

theorem AllDom.init {ns : List Node} {n : Node} (h : AllDom D s a (ns ++ [n])) : AllDom D s a ns :=
  fun pre m hp => h pre m (hp.trans (List.prefix_append _ _))

theorem AllDom.last {ns : List Node} {n : Node} (h : AllDom D s a (ns ++ [n])) : n.Dom (valOf D s a ns) := h ns n (List.prefix_refl _)

/-! ### values -/

/-- One statement. -/
theorem node_ok {len i : Nat} {E : Nat → List Nat × Ex ℝ} {V : Nat → List Nat × (List Nat → ℝ)} (n : Node) (hn : n.Ok K D len V)
    (hE : ∀ x, x < len → (E x).1 = (V x).1 ∧ Ev L D (E x).2 (V x).1 (V x).2) :
    (n.expr K i E).1 = (n.val D V).1 ∧ Ev L D (n.expr K i E).2 (n.val D V).1 (n.val D V).2 ∧
      ((∀ x, x < len → Smooth L D (E x).2) → n.Dom V → Smooth L D (n.expr K i E).2) := by
  obtain ⟨hop, hn⟩ := hn
  cases n with
  | layer k x =>
    obtain ⟨h1, h2⟩ := hE x (hop x (by simp [Node.operands]))
    obtain ⟨b1, b2⟩ := build_ok k hn h2 i
    refine ⟨by simp only [Node.expr, Node.val, h1], by simp only [Node.expr, Node.val, h1]; exact b1, fun hs hd => ?_⟩
    simp only [Node.expr, h1]
    exact b2 (hs x (hop x (by simp [Node.operands]))) hd
  | add x y =>
    have hx := hop x (by simp [Node.operands])
    have hy := hop y (by simp [Node.operands])
    obtain ⟨h1, h2⟩ := hE x hx
    obtain ⟨k1, k2⟩ := hE y hy
    obtain ⟨q1, q2⟩ := hn
    rw [q1] at k2
    exact ⟨h1, (h2.plus k2 q2.fits i).congr (fun is hv => by rw [bc_self hv]; rfl), fun hs _ => smooth_plus h2 k2 q2.fits (hs x hx) (hs y hy) i⟩
  | sub x y =>
    have hx := hop x (by simp [Node.operands])
    have hy := hop y (by simp [Node.operands])
    obtain ⟨h1, h2⟩ := hE x hx
    obtain ⟨k1, k2⟩ := hE y hy
    obtain ⟨q1, q2⟩ := hn
    rw [q1] at k2
    exact ⟨h1, (h2.minus k2 q2.fits i).congr (fun is hv => by rw [bc_self hv]; rfl), fun hs _ => smooth_minus h2 k2 q2.fits (hs x hx) (hs y hy) i⟩
  | mul x y =>
    have hx := hop x (by simp [Node.operands])
    have hy := hop y (by simp [Node.operands])
    obtain ⟨h1, h2⟩ := hE x hx
    obtain ⟨k1, k2⟩ := hE y hy
    obtain ⟨q1, q2⟩ := hn
    rw [q1] at k2
    exact ⟨h1, h2.had k2 q2.pos i, fun hs _ => smooth_had h2 k2 q2 (hs x hx) (hs y hy) i⟩
  | concat axe x y =>
    obtain ⟨h1, u, u1, u2⟩ := hE x (hop x (by simp [Node.operands]))
    obtain ⟨k1, v, v1, v2⟩ := hE y (hop y (by simp [Node.operands]))
    obtain ⟨pre, n, m, post, p1, p2, p3, p4⟩ := hn
    rw [p1] at u2
    rw [p2] at v2
    obtain ⟨t, t1, t2⟩ := concatenate_partial u v pre post n m axe _ _ u2 v2 p3 p4
    have hax : (if axe = minusOne then (V x).1.length - 1 else axe) = pre.length := by
      rcases p4 with ⟨q1, q2⟩ | ⟨q1, q2⟩
      · rw [if_neg q2, q1]
      · rw [if_pos q1, p1, q2]; simp
    refine ⟨by simp only [Node.expr, catShape, Node.val, h1, k1], ⟨t, ?_, ?_⟩, fun _ hd => absurd hd id⟩
    · simp only [Node.expr]
      rw [eval, u1, bind_ok, v1, bind_ok]
      exact t1
    · simp only [Node.val, hax]
      have e1 : (V x).1.getD pre.length 0 = n := by rw [p1]; simp
      have e2 : (V y).1.getD pre.length 0 = m := by rw [p2]; simp
      have e3 : (V x).1.set pre.length (n + m) = pre ++ (n + m) :: post := by rw [p1]; simp
      rw [e1, e2, e3]
      exact t2.congr (fun is _ => rfl)

/-- All values a program names. -/
theorem entries (ns : List Node) : AllOk K D s a ns → Ev L D (.leaf inp) s a → ∀ x, x ≤ ns.length →
    (entry K s inp ns x).1 = (valOf D s a ns x).1 ∧ Ev L D (entry K s inp ns x).2 (valOf D s a ns x).1 (valOf D s a ns x).2 ∧
      (AllDom D s a ns → Smooth L D (.leaf inp) → Smooth L D (entry K s inp ns x).2) := by
  induction ns using List.reverseRecOn with
  | nil =>
    intro _ he x hx
    have hx : x = 0 := by simpa using hx
    subst hx
    exact ⟨rfl, he, fun _ h => h⟩
  | append_singleton ns n ih =>
    intro hok he x hx
    have old := ih hok.init he
    rcases Nat.lt_or_ge ns.length x with h | h
    · have hx : x = ns.length + 1 := by simp only [List.length_append, List.length_cons, List.length_nil] at hx; omega
      subst hx
      rw [entry_new, valOf_new]
      obtain ⟨h1, h2, h3⟩ := node_ok (i := 9 * (ns.length + 1)) n hok.last (fun x hx => ⟨(old x (by omega)).1, (old x (by omega)).2.1⟩)
      exact ⟨h1, h2, fun hd hs => h3 (fun x hx => (old x (by omega)).2.2 hd.init hs) hd.last⟩
    · rw [entry_old _ _ h, valOf_old _ _ h]
      obtain ⟨h1, h2, h3⟩ := old x h
      exact ⟨h1, h2, fun hd hs => h3 hd.init hs⟩

/-- C112, values: every value a program names is what the specification says, however often values are used. -/
theorem branch_value (ns : List Node) (hok : AllOk K D s a ns) (he : Ev L D (.leaf inp) s a) {x : Nat} (hx : x ≤ ns.length) :
    Ev L D (exprOf K s inp ns x) (valOf D s a ns x).1 (valOf D s a ns x).2 := (entries ns hok he x hx).2.1

/-! ### identities -/

/-- An identity that occurs once belongs to one occurrence. -/
theorem occ_once {j : Nat} : ∀ {e : Ex ℝ}, (ids e).count j ≤ 1 → ∀ {sl : Slot} {p q : Slot × Ex ℝ}, p ∈ occs e sl → q ∈ occs e sl → p.2.id? = some j → q.2.id? = some j → p = q := by
  intro e
  induction e with
  | leaf k => intro _ sl p q hp _ hi _; simp only [occs, List.mem_singleton] at hp; subst hp; simp [Ex.id?] at hi
  | var v c => intro _ sl p q hp _ hi _; simp only [occs, List.mem_singleton] at hp; subst hp; simp [Ex.id?] at hi
  | un i op c ih =>
    intro hn sl p q hp hq hi hj
    have hmem : ∀ {p : Slot × Ex ℝ}, p ∈ occs c (some (i, false)) → p.2.id? = some j → 1 ≤ (ids c).count j :=
      fun hp hi => List.one_le_count_iff.mpr (id_mem hp hi)
    simp only [ids, List.count_cons] at hn
    have hin : i = j → ∀ {p : Slot × Ex ℝ}, p ∈ occs c (some (i, false)) → p.2.id? = some j → False := by
      intro e p hp hi
      have := hmem hp hi
      simp only [e, beq_self_eq_true, if_true] at hn
      omega
    rcases List.mem_cons.mp hp with rfl | hp <;> rcases List.mem_cons.mp hq with rfl | hq
    · rfl
    · simp only [Ex.id?, Option.some.injEq] at hi; exact absurd (hin hi hq hj) id
    · simp only [Ex.id?, Option.some.injEq] at hj; exact absurd (hin hj hp hi) id
    · exact ih (by omega) hp hq hi hj
  | bin i op l r ihl ihr =>
    intro hn sl p q hp hq hi hj
    simp only [ids, List.count_cons, List.count_append] at hn
    have hl : ∀ {p : Slot × Ex ℝ}, p ∈ occs l (some (i, false)) → p.2.id? = some j → 1 ≤ (ids l).count j :=
      fun hp hi => List.one_le_count_iff.mpr (id_mem hp hi)
    have hr : ∀ {p : Slot × Ex ℝ}, p ∈ occs r (some (i, true)) → p.2.id? = some j → 1 ≤ (ids r).count j :=
      fun hp hi => List.one_le_count_iff.mpr (id_mem hp hi)
    have hin : i = j → ∀ {p : Slot × Ex ℝ}, p ∈ occs l (some (i, false)) ++ occs r (some (i, true)) → p.2.id? = some j → False := by
      intro e p hp hi
      simp only [e, beq_self_eq_true, if_true] at hn
      rcases List.mem_append.mp hp with hp | hp
      · have := hl hp hi; omega
      · have := hr hp hi; omega
    rcases List.mem_cons.mp hp with rfl | hp <;> rcases List.mem_cons.mp hq with rfl | hq
    · rfl
    · simp only [Ex.id?, Option.some.injEq] at hi; exact absurd (hin hi hq hj) id
    · simp only [Ex.id?, Option.some.injEq] at hj; exact absurd (hin hj hp hi) id
    · rcases List.mem_append.mp hp with hp | hp <;> rcases List.mem_append.mp hq with hq | hq
      · exact ihl (by omega) hp hq hi hj
      · have := hl hp hi; have := hr hq hj; omega
      · have := hr hp hi; have := hl hq hj; omega
      · exact ihr (by omega) hp hq hi hj

/-- Every occurrence of an operator in a layer over `e` is one of the layer's own, or one in `e`. -/
theorem build_occs (k : Kind) (i : Nat) (s : List Nat) (e : Ex ℝ) (sl : Slot) : ∀ q ∈ occs (build K i s e k) sl, ∀ j, q.2.id? = some j →
    (i ≤ j ∧ j < i + 9) ∨ ∃ sl', q ∈ occs e sl' := by
  intro q hq j hj
  have unary : ∀ (op : UOp ℝ), q ∈ occs (.un i op e) sl → (i ≤ j ∧ j < i + 9) ∨ ∃ sl', q ∈ occs e sl' := by
    intro op hq
    simp only [occs, List.mem_cons] at hq
    rcases hq with rfl | hq
    · simp only [Ex.id?, Option.some.injEq] at hj; omega
    · exact Or.inr ⟨_, hq⟩
  cases k with
  | dense w b units cw cb =>
    simp only [build, dense, plusE, occs, List.mem_cons, List.mem_append, List.not_mem_nil, or_false] at hq
    rcases hq with rfl | (rfl | hq | rfl) | rfl
    all_goals first
      | exact Or.inr ⟨_, hq⟩
      | (simp [Ex.id?] at hj; done)
      | (simp only [Ex.id?, Option.some.injEq] at hj; omega)
  | conv2D p =>
    simp only [build, conv2DLayer, convE, plusE, occs, List.mem_cons, List.mem_append, List.not_mem_nil, or_false] at hq
    rcases hq with rfl | (rfl | rfl | rfl | (rfl | rfl) | rfl | hq) | rfl
    all_goals first
      | exact Or.inr ⟨_, hq⟩
      | (simp [Ex.id?] at hj; done)
      | (simp only [Ex.id?, Option.some.injEq] at hj; omega)
  | conv1D p =>
    simp only [build, conv1DLayer, conv2DLayer, convE, plusE, occs, List.mem_cons, List.mem_append, List.not_mem_nil, or_false] at hq
    rcases hq with rfl | rfl | (rfl | rfl | rfl | (rfl | rfl) | rfl | rfl | hq) | rfl
    all_goals first
      | exact Or.inr ⟨_, hq⟩
      | (simp [Ex.id?] at hj; done)
      | (simp only [Ex.id?, Option.some.injEq] at hj; omega)
  | convTranspose p =>
    simp only [build, convTransposeLayer, convE, plusE, occs, List.mem_cons, List.mem_append, List.not_mem_nil, or_false] at hq
    rcases hq with rfl | (rfl | rfl | rfl | (rfl | rfl | rfl | rfl) | rfl | rfl | hq) | rfl
    all_goals first
      | exact Or.inr ⟨_, hq⟩
      | (simp [Ex.id?] at hj; done)
      | (simp only [Ex.id?, Option.some.injEq] at hj; omega)
  | act op => exact unary _ hq
  | flatten => exact unary _ hq
  | reshape shape => exact unary _ hq
  | avgPool n => exact unary _ hq
  | maxPool n mask gcache => exact unary _ hq
  | upSample n => exact unary _ hq
  | zeroPad p cache => exact unary _ hq
  | crop p => exact unary _ hq

/-- The identities of a statement are the operands' and new ones from `i` on, which occur once. -/
theorem node_ids (n : Node) (i : Nat) (E : Nat → List Nat × Ex ℝ) :
    ∃ new : List Nat, (ids (n.expr K i E).2).Perm (new ++ n.operands.flatMap (fun x => ids (E x).2)) ∧ new.Nodup ∧ ∀ j ∈ new, i ≤ j ∧ j < i + 9 := by
  cases n with
  | layer k x =>
    obtain ⟨new, h1, h2, h3⟩ := build_ids (K := K) k i (E x).1 (E x).2
    exact ⟨new, by simp only [Node.expr, Node.operands, List.flatMap_cons, List.flatMap_nil, List.append_nil]; rw [h1], h2, h3⟩
  | add x y => exact ⟨[i], by simp [Node.expr, Node.operands, plusE, ids], by simp, by simp⟩
  | sub x y =>
    refine ⟨[i + 1, i], ?_, by simp, by simp⟩
    simp only [Node.expr, Node.operands, minusE, plusE, el, ids, List.flatMap_cons, List.flatMap_nil, List.append_nil, List.cons_append, List.nil_append]
    exact List.Perm.cons _ List.perm_middle
  | mul x y => exact ⟨[i], by simp [Node.expr, Node.operands, hadE, ids], by simp, by simp⟩
  | concat axe x y => exact ⟨[i], by simp [Node.expr, Node.operands, ids], by simp, by simp⟩

/-- Every occurrence of an operator in a statement is one of the statement's own, or one in an operand. -/
theorem node_occs (n : Node) (i : Nat) (E : Nat → List Nat × Ex ℝ) (sl : Slot) : ∀ q ∈ occs (n.expr K i E).2 sl, ∀ j, q.2.id? = some j →
    (i ≤ j ∧ j < i + 9) ∨ ∃ x ∈ n.operands, ∃ sl', q ∈ occs (E x).2 sl' := by
  intro q hq j hj
  cases n with
  | layer k x =>
    rcases build_occs k i _ _ sl q hq j hj with h | ⟨sl', h⟩
    · exact Or.inl h
    · exact Or.inr ⟨x, by simp [Node.operands], sl', h⟩
  | add x y =>
    simp only [Node.expr, plusE, occs, List.mem_cons, List.mem_append] at hq
    rcases hq with rfl | hq | hq
    · simp only [Ex.id?, Option.some.injEq] at hj; omega
    · exact Or.inr ⟨x, by simp [Node.operands], _, hq⟩
    · exact Or.inr ⟨y, by simp [Node.operands], _, hq⟩
  | sub x y =>
    simp only [Node.expr, minusE, plusE, el, occs, List.mem_cons, List.mem_append] at hq
    rcases hq with rfl | hq | rfl | hq
    · simp only [Ex.id?, Option.some.injEq] at hj; omega
    · exact Or.inr ⟨x, by simp [Node.operands], _, hq⟩
    · simp only [Ex.id?, Option.some.injEq] at hj; omega
    · exact Or.inr ⟨y, by simp [Node.operands], _, hq⟩
  | mul x y =>
    simp only [Node.expr, hadE, occs, List.mem_cons, List.mem_append] at hq
    rcases hq with rfl | hq | hq
    · simp only [Ex.id?, Option.some.injEq] at hj; omega
    · exact Or.inr ⟨x, by simp [Node.operands], _, hq⟩
    · exact Or.inr ⟨y, by simp [Node.operands], _, hq⟩
  | concat axe x y =>
    simp only [Node.expr, occs, List.mem_cons, List.mem_append] at hq
    rcases hq with rfl | hq | hq
    · simp only [Ex.id?, Option.some.injEq] at hj; omega
    · exact Or.inr ⟨x, by simp [Node.operands], _, hq⟩
    · exact Or.inr ⟨y, by simp [Node.operands], _, hq⟩

/-- Every operand of every statement was named before it. -/
def Named (ns : List Node) : Prop := ∀ pre n, pre ++ [n] <+: ns → ∀ x ∈ n.operands, x ≤ pre.length

theorem Named.init {ns : List Node} {n : Node} (h : Named (ns ++ [n])) : Named ns := fun pre m hp => h pre m (hp.trans (List.prefix_append _ _))
theorem Named.last {ns : List Node} {n : Node} (h : Named (ns ++ [n])) : ∀ x ∈ n.operands, x ≤ ns.length := h ns n (List.prefix_refl _)
theorem AllOk.named {ns : List Node} (h : AllOk K D s a ns) : Named ns := fun pre n hp x hx => Nat.lt_succ_iff.mp ((h pre n hp).1 x hx)

/-- The identities in value number `x` are below `9 x + 9`. -/
theorem entry_ids (ns : List Node) : Named ns → ∀ x, x ≤ ns.length → ∀ j ∈ ids (entry K s inp ns x).2, j < 9 * x + 9 := by
  induction ns using List.reverseRecOn with
  | nil =>
    intro _ x hx j hj
    have hx : x = 0 := by simpa using hx
    subst hx
    simp [entry, exprs, ids] at hj
  | append_singleton ns n ih =>
    intro hok x hx j hj
    rcases Nat.lt_or_ge ns.length x with h | h
    · have hx : x = ns.length + 1 := by simp only [List.length_append, List.length_cons, List.length_nil] at hx; omega
      subst hx
      rw [entry_new] at hj
      obtain ⟨new, h1, h2, h3⟩ := node_ids (K := K) n (9 * (ns.length + 1)) (entry K s inp ns)
      rw [h1.mem_iff, List.mem_append] at hj
      rcases hj with hj | hj
      · have := h3 j hj; omega
      · obtain ⟨y, hy, hj⟩ := List.mem_flatMap.mp hj
        have hy := hok.last y hy
        have := ih hok.init y hy j hj
        omega
    · rw [entry_old _ _ h] at hj
      exact ih hok.init x h j hj

/-- Operators with the same identity anywhere in a program are the same. -/
theorem entries_agree (ns : List Node) : Named ns → ∀ x y, x ≤ ns.length → y ≤ ns.length → ∀ sl sl', ∀ p ∈ occs (entry K s inp ns x).2 sl, ∀ q ∈ occs (entry K s inp ns y).2 sl',
    ∀ j, p.2.id? = some j → q.2.id? = some j → p.2 = q.2 := by
  induction ns using List.reverseRecOn with
  | nil =>
    intro _ x y hx hy sl sl' p hp q hq j hj _
    have hx : x = 0 := by simpa using hx
    subst hx
    simp only [entry, exprs, List.foldl_nil, List.getD_cons_zero, occs, List.mem_singleton] at hp
    subst hp
    simp [Ex.id?] at hj
  | append_singleton ns n ih =>
    intro hok
    have old := ih hok.init
    -- an occurrence in the new value is new and alone, or an old one
    have new : ∀ {sl p j}, p ∈ occs (entry K s inp (ns ++ [n]) (ns.length + 1)).2 sl → p.2.id? = some j →
        9 * (ns.length + 1) ≤ j ∨ ∃ x ≤ ns.length, ∃ sl', p ∈ occs (entry K s inp ns x).2 sl' := by
      intro sl p j hp hj
      rw [entry_new] at hp
      rcases node_occs n _ _ sl p hp j hj with h | ⟨x, hx, sl', h⟩
      · exact Or.inl h.1
      · exact Or.inr ⟨x, hok.last x hx, sl', h⟩
    have low : ∀ {x}, x ≤ ns.length → ∀ {sl p j}, p ∈ occs (entry K s inp ns x).2 sl → p.2.id? = some j → j < 9 * (ns.length + 1) := by
      intro x hx sl p j hp hj
      have := entry_ids ns hok.init x hx j (id_mem hp hj)
      omega
    have alone : ∀ {j}, 9 * (ns.length + 1) ≤ j → (ids (entry K s inp (ns ++ [n]) (ns.length + 1)).2).count j ≤ 1 := by
      intro j hj
      rw [entry_new]
      obtain ⟨new, h1, h2, h3⟩ := node_ids (K := K) n (9 * (ns.length + 1)) (entry K s inp ns)
      rw [h1.count_eq, List.count_append]
      have : (n.operands.flatMap (fun x => ids (entry K s inp ns x).2)).count j = 0 := by
        refine List.count_eq_zero.mpr (fun hm => ?_)
        obtain ⟨x, hx, hm⟩ := List.mem_flatMap.mp hm
        have := hok.last x hx
        have := entry_ids ns hok.init x this j hm
        omega
      have := List.nodup_iff_count_le_one.mp h2 j
      omega
    have sameSlot : ∀ {t : Ex ℝ} {sl sl' : Slot} {p : Slot × Ex ℝ}, p ∈ occs t sl → ∃ p' ∈ occs t sl', p'.2 = p.2 := by
      intro t sl sl' p hp
      cases t with
      | leaf k => simp only [occs, List.mem_singleton] at hp; subst hp; exact ⟨_, List.mem_cons_self, rfl⟩
      | var v c => simp only [occs, List.mem_singleton] at hp; subst hp; exact ⟨_, List.mem_cons_self, rfl⟩
      | un i op c =>
        rcases List.mem_cons.mp hp with rfl | hp
        · exact ⟨_, List.mem_cons_self, rfl⟩
        · exact ⟨p, List.mem_cons_of_mem _ hp, rfl⟩
      | bin i op l r =>
        rcases List.mem_cons.mp hp with rfl | hp
        · exact ⟨_, List.mem_cons_self, rfl⟩
        · exact ⟨p, List.mem_cons_of_mem _ hp, rfl⟩
    have split : ∀ {x}, x ≤ (ns ++ [n]).length → x = ns.length + 1 ∨ x ≤ ns.length := by
      intro x hx
      simp only [List.length_append, List.length_cons, List.length_nil] at hx
      omega
    intro x y hx hy sl sl' p hp q hq j hj hk
    -- where each comes from
    have src : ∀ {x sl p}, x ≤ (ns ++ [n]).length → p ∈ occs (entry K s inp (ns ++ [n]) x).2 sl → p.2.id? = some j →
        (9 * (ns.length + 1) ≤ j ∧ x = ns.length + 1) ∨ ∃ x ≤ ns.length, ∃ sl', p ∈ occs (entry K s inp ns x).2 sl' := by
      intro x sl p hx hp hj
      rcases split hx with rfl | h
      · rcases new hp hj with h | h
        · exact Or.inl ⟨h, rfl⟩
        · exact Or.inr h
      · rw [entry_old _ _ h] at hp
        exact Or.inr ⟨x, h, sl, hp⟩
    rcases src hx hp hj with ⟨h1, rfl⟩ | ⟨x', h1, s1, h2⟩ <;> rcases src hy hq hk with ⟨k1, rfl⟩ | ⟨y', k1, s2, k2⟩
    · obtain ⟨q', hq', e⟩ := sameSlot (sl' := sl) hq
      rw [← e]
      rw [← e] at hk
      exact congrArg Prod.snd (occ_once (alone h1) hp hq' hj hk)
    · have := low k1 k2 hk; omega
    · have := low h1 h2 hj; omega
    · exact old x' y' h1 k1 s1 s2 p h2 q k2 j hj hk

/-- C112: identities in a program are unique. -/
theorem branch_consistent (ns : List Node) (h : Named ns) {x : Nat} (hx : x ≤ ns.length) : Consistent (exprOf K s inp ns x) :=
  fun p hp q hq j hj hk => entries_agree ns h x x hx hx none none p hp q hq j hj hk

/-- C112, values: running any value of a program in a session gives the specified tensor, whatever earlier runs left behind. -/
theorem branch_run (ns : List Node) (st : St ℝ) (hok : AllOk K st.data s a ns) (he : Ev st.leaf st.data (.leaf inp) s a) {x : Nat} (hx : x ≤ ns.length) :
    ∃ t st', run (exprOf K s inp ns x) st = ok (t, st') ∧ t.Has (valOf st.data s a ns x).1 (valOf st.data s a ns x).2 := by
  obtain ⟨t, h1, h2⟩ := branch_value ns hok he hx
  obtain ⟨st', h3⟩ := (run_fresh_partial _ (branch_consistent ns hok.named hx) st).1 t h1
  exact ⟨t, st', h3, h2⟩

end
end Verif.Branch
