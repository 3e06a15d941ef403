import Verif.Branch.Props
import Verif.Branch.Stale
import Verif.Act.Props
/-!
# Property C112: where networks that branch go wrong

A value other than the input that is used twice, as every skip connection does, lives in two objects; one of them is never given operands, and backward through it does not
finish.  `Concatenate` cannot be differentiated at all.
-/
namespace Verif.Branch
open Verif Res View Data Ops Graph Loss Net Act

noncomputable section

variable {K : Kit} {D : Nat → Ten ℝ}

/-! ### expressions that cannot be differentiated in an object without operands -/

/-- Backward does not finish in an object that holds no operands. -/
def Stuck (D : Nat → Ten ℝ) (t : Ex ℝ) : Prop :=
  ∀ (eps : ℝ) (sl : Slot) (g : Ten ℝ) (s s' : St ℝ), s.data = D → (s.obj sl).inL = noTensor → (s.obj sl).inR = noTensor → backward eps t sl g s ≠ ok s'

/-- Backward does not finish when it is given a gradient without extents. -/
def StuckG (D : Nat → Ten ℝ) (t : Ex ℝ) : Prop := ∀ (eps : ℝ) (sl : Slot) (g : Ten ℝ) (s s' : St ℝ), s.data = D → g.shape = [] → backward eps t sl g s ≠ ok s'

theorem backward_data (eps : ℝ) {t : Ex ℝ} {sl : Slot} {g : Ten ℝ} {s s' : St ℝ} (h : backward eps t sl g s = ok s') : s'.data = s.data := by
  induction t generalizing sl g s s' with
  | leaf k => cases h; rfl
  | var v c =>
    simp only [backward, varBackward] at h
    split at h
    · cases h; rfl
    · rw [bind_eq_ok] at h
      obtain ⟨_, _, h⟩ := h
      split at h
      · rw [bind_eq_ok] at h
        obtain ⟨_, _, h⟩ := h
        cases h; rfl
      · cases h; rfl
  | un i op c ih =>
    simp only [backward, bind_eq_ok] at h
    obtain ⟨d, _, h⟩ := h
    exact ih h
  | bin i op l r ihl ihr =>
    simp only [backward, bind_eq_ok] at h
    obtain ⟨d, _, s2, h2, h⟩ := h
    exact (ihr h).trans (ihl h2)

/-- A variable that is trained and has extents. -/
theorem stuckG_var {b : Nat} {c : Cfg ℝ} (hc : c.trainable = true) (hb : (D b).shape ≠ []) : StuckG D (.var b c) := by
  intro eps sl g s s' hd hg h
  simp only [backward, varBackward, hc] at h
  rw [if_neg (by simp), bind_eq_ok] at h
  obtain ⟨g', h1, _⟩ := h
  unfold addGrad at h1
  rw [hg, hd] at h1
  rw [bind_eq_ok] at h1
  obtain ⟨_, h2, _⟩ := h1
  by_cases hs : (s.grad b).shape = (D b).shape
  · rw [if_neg (by simpa using hs), assert_false (by rw [hs]; exact hb)] at h2
    cases h2
  · rw [if_pos hs, assert_false (by exact hb)] at h2
    cases h2

/-- The gradient `plus` gives an operand is without extents where the operand or the gradient is. -/
theorem plusGrad_nil {red : List ℝ → ℝ} {fuel : Nat} {shape : List Nat} {g d : Ten ℝ} (h : plusGrad red fuel shape g = ok d) (hs : shape = [] ∨ g.shape = []) : d.shape = [] := by
  unfold plusGrad at h
  rw [bind_eq_ok] at h
  obtain ⟨u, h1, h2⟩ := h
  have hu : u.shape = [] := by
    rcases hs with hs | hs
    · have := dropLead_rank _ _ _ _ _ h1
      rw [hs] at this
      exact List.eq_nil_of_length_eq_zero (by simpa using this)
    · cases fuel with
      | zero => rw [dropLead, if_neg (by rw [hs]; simp)] at h1; cases h1; exact hs
      | succ n => rw [dropLead, if_neg (by rw [hs]; simp)] at h1; cases h1; exact hs
  unfold sumOnes at h2
  have key : ∀ (n : Nat) (u d : Ten ℝ), u.shape = [] → loop n (fun axis u => do
      let d ← rd shape axis
      if d = 1 then reduce red u axis 0 true else ok u) u = ok d → d.shape = [] := by
    intro n
    induction n with
    | zero => intro u d hu h; cases h; exact hu
    | succ n ih =>
      intro u d hu h
      rw [loop_succ] at h
      rw [bind_eq_ok] at h
      obtain ⟨w, h1, h2⟩ := h
      have hw := ih u w hu h1
      rw [bind_eq_ok] at h2
      obtain ⟨x, _, h2⟩ := h2
      split at h2
      · unfold reduce at h2
        split at h2
        · cases h2; exact hw
        · dsimp only at h2
          rw [bind_eq_ok] at h2
          obtain ⟨_, h3, _⟩ := h2
          rw [assert_false (by rw [hw]; simp)] at h3
          cases h3
      · cases h2; exact hw
  exact key _ u d hu h2

theorem plus_backward {eps : ℝ} {i : Nat} {l r : Ex ℝ} {sl : Slot} {g : Ten ℝ} {s s' : St ℝ} (h : backward eps (plusE K i l r) sl g s = ok s')
    (hs : g.shape = [] ∨ (s.obj sl).inL = noTensor ∧ (s.obj sl).inR = noTensor) :
    ∃ dl dr s2, dl.shape = [] ∧ dr.shape = [] ∧ backward eps l (some (i, false)) dl s = ok s2 ∧ backward eps r (some (i, true)) dr s2 = ok s' := by
  simp only [plusE, backward, bind_eq_ok] at h
  obtain ⟨d, h1, s2, h2, h3⟩ := h
  change plusBack K.red K.fuel _ _ g = ok d at h1
  unfold plusBack at h1
  simp only [bind_eq_ok, pure_eq] at h1
  obtain ⟨dl, h4, dr, h5, h1⟩ := h1
  cases h1
  refine ⟨dl, dr, s2, plusGrad_nil h4 ?_, plusGrad_nil h5 ?_, h2, h3⟩
  · rcases hs with hs | hs
    · exact Or.inr hs
    · left; rw [hs.1]; rfl
  · rcases hs with hs | hs
    · exact Or.inr hs
    · left; rw [hs.2]; rfl

theorem stuck_plus {i : Nat} {l r : Ex ℝ} (h : StuckG D l ∨ StuckG D r) : Stuck D (plusE K i l r) ∧ StuckG D (plusE K i l r) := by
  have key : ∀ (eps : ℝ) (sl : Slot) (g : Ten ℝ) (s s' : St ℝ), s.data = D → (g.shape = [] ∨ (s.obj sl).inL = noTensor ∧ (s.obj sl).inR = noTensor) →
      backward eps (plusE K i l r) sl g s ≠ ok s' := by
    intro eps sl g s s' hd hs hb
    obtain ⟨dl, dr, s2, h1, h2, h3, h4⟩ := plus_backward hb hs
    rcases h with h | h
    · exact h eps _ dl s s2 hd h1 h3
    · exact h eps _ dr s2 s' ((backward_data eps h3).trans hd) h2 h4
  exact ⟨fun eps sl g s s' hd h1 h2 => key eps sl g s s' hd (Or.inr ⟨h1, h2⟩), fun eps sl g s s' hd hg => key eps sl g s s' hd (Or.inl hg)⟩

/-- A unary operator whose backward action fails without an operand, or gives a gradient without extents to an expression that cannot take it. -/
theorem stuck_un {i : Nat} {op : UOp ℝ} {c : Ex ℝ} (h : (∀ out g d, op.bwd noTensor out g ≠ ok d) ∨ (∀ out g d, op.bwd noTensor out g = ok d → d.shape = []) ∧ StuckG D c) :
    Stuck D (.un i op c) := by
  intro eps sl g s s' hd h1 _ hb
  simp only [backward, bind_eq_ok, h1] at hb
  obtain ⟨d, h2, h3⟩ := hb
  rcases h with h | ⟨h, hc⟩
  · exact h _ _ _ h2
  · exact hc eps _ d s s' hd (h _ _ _ h2) h3

theorem stuck_el {i : Nat} {op : EOp} {c : Ex ℝ} (h : StuckG D c) : Stuck D (el K i op c) :=
  stuck_un (Or.inr ⟨fun out g d hd => by
    change zipT _ _ _ _ _ = ok d at hd
    unfold zipT at hd
    rw [bind_eq_ok] at hd
    obtain ⟨_, _, hd⟩ := hd
    cases hd
    rfl, h⟩)

theorem stuck_had {i : Nat} {l r : Ex ℝ} : Stuck D (hadE K i l r) := by
  intro eps sl g s s' _ h1 h2 hb
  simp only [hadE, backward, bind_eq_ok, h1, h2] at hb
  obtain ⟨d, h3, _⟩ := hb
  change ewpBack K.red K.fuel noTensor noTensor g = ok d at h3
  unfold ewpBack ewpGrad elementwiseProduct at h3
  rw [if_neg (by simp [noTensor])] at h3
  simp only [bind_eq_ok] at h3
  obtain ⟨_, ⟨_, h4, _⟩, _⟩ := h3
  unfold ewpGo at h4
  rw [require_false (by simp [noTensor])] at h4
  cases h4

/-! ### statements -/

/-- A layer with a bias that is trained. -/
def Biased (D : Nat → Ten ℝ) : Kind → Prop
  | .dense _ b _ _ cb => cb.trainable = true ∧ (D b).shape ≠ []
  | .conv2D p => p.cb.trainable = true ∧ (D p.b).shape ≠ []
  | .convTranspose p => p.cb.trainable = true ∧ (D p.b).shape ≠ []
  | _ => False

theorem biased_stuck {k : Kind} (hk : Biased D k) (i : Nat) (s : List Nat) (e : Ex ℝ) : Stuck D (build K i s e k) ∧ StuckG D (build K i s e k) := by
  cases k with
  | dense w b units cw cb => exact stuck_plus (Or.inr (stuckG_var hk.1 hk.2))
  | conv2D p => exact stuck_plus (Or.inr (stuckG_var hk.1 hk.2))
  | convTranspose p => exact stuck_plus (Or.inr (stuckG_var hk.1 hk.2))
  | _ => exact absurd hk id

/-- Statement number `m` of a program (value number `m`). -/
def At (ns : List Node) (m : Nat) (n : Node) : Prop := 1 ≤ m ∧ ns[m - 1]? = some n

/-- Value number `m` is a layer with a bias that is trained. -/
def BiasedAt (D : Nat → Ten ℝ) (ns : List Node) (m : Nat) : Prop := ∃ k x, At ns m (.layer k x) ∧ Biased D k

/-- The statements whose value cannot be used twice: layers with a bias, `Conv1D`, `Flatten`, `Reshape`, pooling, sampling and padding; products; activations of layers
with a bias; sums and differences of them. -/
def Single (D : Nat → Ten ℝ) (ns : List Node) : Node → Prop
  | .layer (.act _) x => BiasedAt D ns x
  | .layer (.crop _) _ => False
  | .layer (.conv1D _) _ => True
  | .layer .flatten _ => True
  | .layer (.reshape _) _ => True
  | .layer (.avgPool _) _ => True
  | .layer (.maxPool _ _ _) _ => True
  | .layer (.upSample _) _ => True
  | .layer (.zeroPad _ _) _ => True
  | .layer k _ => Biased D k
  | .add x y => BiasedAt D ns x ∨ BiasedAt D ns y
  | .sub x _ => BiasedAt D ns x
  | .mul _ _ => True
  | .concat _ _ _ => False

variable {s : List Nat} {inp : Nat} {ns : List Node}

theorem expr_congr {n : Node} {i : Nat} {E E' : Nat → List Nat × Ex ℝ} (h : ∀ x ∈ n.operands, E x = E' x) : n.expr K i E = n.expr K i E' := by
  cases n <;> simp only [Node.operands, List.mem_cons, List.not_mem_nil, or_false, forall_eq, forall_eq_or_imp] at h <;> simp [Node.expr, h]

/-- The expression of a value from those of its operands. -/
theorem entry_at (hnm : Named ns) {m : Nat} {n : Node} (h : At ns m n) : entry K s inp ns m = n.expr K (9 * m) (entry K s inp ns) ∧ (∀ x ∈ n.operands, x < m) ∧ m ≤ ns.length := by
  induction ns using List.reverseRecOn with
  | nil => obtain ⟨_, h⟩ := h; simp at h
  | append_singleton ns n' ih =>
    obtain ⟨h1, h2⟩ := h
    by_cases hm : m ≤ ns.length
    · rw [List.getElem?_append_left (by omega)] at h2
      obtain ⟨k1, k2, k3⟩ := ih hnm.init ⟨h1, h2⟩
      refine ⟨?_, k2, by simp only [List.length_append, List.length_cons, List.length_nil]; omega⟩
      rw [entry_old _ _ hm, k1]
      exact expr_congr (fun x hx => (entry_old _ _ (by have := k2 x hx; omega)).symm)
    · rw [List.getElem?_append_right (by omega)] at h2
      have hm' : m = ns.length + 1 := by
        have := (List.getElem?_eq_some_iff.mp h2).1
        simp only [List.length_cons, List.length_nil] at this
        omega
      subst hm'
      simp only [Nat.add_sub_cancel, Nat.sub_self, List.getElem?_cons_zero, Option.some.injEq] at h2
      subst h2
      refine ⟨?_, fun x hx => by have := hnm.last x hx; omega, by simp⟩
      rw [entry_new]
      exact expr_congr (fun x hx => (entry_old _ _ (hnm.last x hx)).symm)

theorem biasedAt_stuck (hnm : Named ns) {m : Nat} (h : BiasedAt D ns m) : Stuck D (entry K s inp ns m).2 ∧ StuckG D (entry K s inp ns m).2 := by
  obtain ⟨k, x, h1, h2⟩ := h
  rw [(entry_at hnm h1).1]
  exact biased_stuck h2 _ _ _

theorem single_stuck (hnm : Named ns) {m : Nat} {n : Node} (h : At ns m n) (hs : Single D ns n) : Stuck D (entry K s inp ns m).2 := by
  rw [(entry_at hnm h).1]
  have resh : ∀ (f : Ten ℝ → Res (Ten ℝ)) (i : Nat) (c : Ex ℝ), Stuck D (.un i ⟨f, fun x _ g => reshapeV g x.shape⟩ c) := by
    intro f i c
    refine stuck_un (Or.inl (fun out g d hd => ?_))
    change reshapeV g [] = ok d at hd
    unfold reshapeV at hd
    rw [require_false (by simp)] at hd
    cases hd
  cases n with
  | layer k x =>
    cases k with
    | act op => exact stuck_el (biasedAt_stuck hnm hs).2
    | dense w b units cw cb => exact (biased_stuck (D := D) (by simpa only [Single] using hs) _ [] _).1
    | conv2D p => exact (biased_stuck (D := D) (by simpa only [Single] using hs) _ _ _).1
    | conv1D p => exact resh _ _ _
    | convTranspose p => exact (biased_stuck (D := D) (by simpa only [Single] using hs) _ _ _).1
    | flatten => exact resh _ _ _
    | reshape shape => exact resh _ _ _
    | avgPool n => exact stuck_un (Or.inl (fun out g d hd => by cases hd))
    | maxPool n mask gcache =>
      refine stuck_un (Or.inl (fun out g d hd => ?_))
      change (Pool.maxPool n noTensor mask K.cacheF >>= _) = ok d at hd
      rw [bind_eq_ok] at hd
      obtain ⟨_, _, hd⟩ := hd
      cases hd
    | upSample n => exact stuck_un (Or.inl (fun out g d hd => by cases hd))
    | zeroPad p cache => exact stuck_un (Or.inl (fun out g d hd => by cases hd))
    | crop p => exact absurd hs id
  | add x y =>
    refine (stuck_plus ?_).1
    rcases hs with h | h
    · exact Or.inl (biasedAt_stuck hnm h).2
    · exact Or.inr (biasedAt_stuck hnm h).2
  | sub x y => exact (stuck_plus (Or.inl (biasedAt_stuck hnm hs).2)).1
  | mul x y => exact stuck_had
  | concat axe x y => exact absurd hs id

/-! ### uses -/

/-- The operand of a layer lives in an object of one of its operators. -/
theorem build_operand (k : Kind) (i : Nat) (s : List Nat) (e : Ex ℝ) (sl : Slot) : ∃ j b, i ≤ j ∧ j < i + 9 ∧ (some (j, b), e) ∈ occs (build K i s e k) sl := by
  have self : ∀ sl, (sl, e) ∈ occs e sl := mem_occs_self e
  cases k with
  | dense w b units cw cb => exact ⟨i, false, by omega, by omega, by simp [build, dense, plusE, occs, self]⟩
  | conv2D p => exact ⟨i + 1, false, by omega, by omega, by simp [build, conv2DLayer, convE, plusE, occs, self]⟩
  | conv1D p => exact ⟨i, false, by omega, by omega, by simp [build, conv1DLayer, conv2DLayer, convE, plusE, occs, self]⟩
  | convTranspose p => exact ⟨i, false, by omega, by omega, by simp [build, convTransposeLayer, convE, plusE, occs, self]⟩
  | _ => exact ⟨i, false, by omega, by omega, by simp [build, el, occs, self]⟩

theorem node_operand (n : Node) (i : Nat) (E : Nat → List Nat × Ex ℝ) {x : Nat} (hx : x ∈ n.operands) (sl : Slot) :
    ∃ j b, i ≤ j ∧ j < i + 9 ∧ (some (j, b), (E x).2) ∈ occs (n.expr K i E).2 sl := by
  have self : ∀ (e : Ex ℝ) sl, (sl, e) ∈ occs e sl := mem_occs_self
  cases n with
  | layer k y =>
    simp only [Node.operands, List.mem_singleton] at hx
    subst hx
    exact build_operand k i _ _ sl
  | add y z =>
    simp only [Node.operands, List.mem_cons, List.not_mem_nil, or_false] at hx
    rcases hx with rfl | rfl
    · exact ⟨i, false, by omega, by omega, by simp [Node.expr, plusE, occs, self]⟩
    · exact ⟨i, true, by omega, by omega, by simp [Node.expr, plusE, occs, self]⟩
  | sub y z =>
    simp only [Node.operands, List.mem_cons, List.not_mem_nil, or_false] at hx
    rcases hx with rfl | rfl
    · exact ⟨i + 1, false, by omega, by omega, by simp [Node.expr, minusE, plusE, occs, self]⟩
    · exact ⟨i, false, by omega, by omega, by simp [Node.expr, minusE, plusE, el, occs, self]⟩
  | mul y z =>
    simp only [Node.operands, List.mem_cons, List.not_mem_nil, or_false] at hx
    rcases hx with rfl | rfl
    · exact ⟨i, false, by omega, by omega, by simp [Node.expr, hadE, occs, self]⟩
    · exact ⟨i, true, by omega, by omega, by simp [Node.expr, hadE, occs, self]⟩
  | concat axe y z =>
    simp only [Node.operands, List.mem_cons, List.not_mem_nil, or_false] at hx
    rcases hx with rfl | rfl
    · exact ⟨i, false, by omega, by omega, by simp [Node.expr, occs, self]⟩
    · exact ⟨i, true, by omega, by omega, by simp [Node.expr, occs, self]⟩

/-- A statement with the same operand twice has it in two objects. -/
theorem node_twice (n : Node) (i : Nat) (E : Nat → List Nat × Ex ℝ) {x : Nat} (hx : n.operands = [x, x]) (sl : Slot) :
    ∃ σ τ, σ ≠ τ ∧ (σ, (E x).2) ∈ occs (n.expr K i E).2 sl ∧ (τ, (E x).2) ∈ occs (n.expr K i E).2 sl := by
  have self : ∀ (e : Ex ℝ) sl, (sl, e) ∈ occs e sl := mem_occs_self
  cases n with
  | layer k y => simp [Node.operands] at hx
  | add y z =>
    simp only [Node.operands, List.cons.injEq, and_true] at hx
    obtain ⟨rfl, rfl⟩ := hx
    exact ⟨some (i, false), some (i, true), by simp, by simp [Node.expr, plusE, occs, self], by simp [Node.expr, plusE, occs, self]⟩
  | sub y z =>
    simp only [Node.operands, List.cons.injEq, and_true] at hx
    obtain ⟨rfl, rfl⟩ := hx
    exact ⟨some (i + 1, false), some (i, false), by simp, by simp [Node.expr, minusE, plusE, occs, self], by simp [Node.expr, minusE, plusE, el, occs, self]⟩
  | mul y z =>
    simp only [Node.operands, List.cons.injEq, and_true] at hx
    obtain ⟨rfl, rfl⟩ := hx
    exact ⟨some (i, false), some (i, true), by simp, by simp [Node.expr, hadE, occs, self], by simp [Node.expr, hadE, occs, self]⟩
  | concat axe y z =>
    simp only [Node.operands, List.cons.injEq, and_true] at hx
    obtain ⟨rfl, rfl⟩ := hx
    exact ⟨some (i, false), some (i, true), by simp, by simp [Node.expr, occs, self], by simp [Node.expr, occs, self]⟩

/-- Value `m` is needed for value `x`. -/
inductive Reaches (ns : List Node) : Nat → Nat → Prop
  | refl (x) : Reaches ns x x
  | step {y m x n} : At ns m n → y ∈ n.operands → Reaches ns m x → Reaches ns y x

theorem Reaches.occ (hnm : Named ns) {m x : Nat} (h : Reaches ns m x) (sl : Slot) : ∃ sl', (sl', (entry K s inp ns m).2) ∈ occs (entry K s inp ns x).2 sl := by
  induction h with
  | refl => exact ⟨sl, mem_occs_self _ _⟩
  | step hat hy _ ih =>
    obtain ⟨sl', h1⟩ := ih
    rw [(entry_at hnm hat).1] at h1
    obtain ⟨j, b, _, _, h2⟩ := node_operand (K := K) _ _ (entry K s inp ns) hy sl'
    exact ⟨_, occs_sub h1 _ h2⟩

/-- Value `y` is used twice on the way to value `x`: by two statements, or twice by one. -/
def Twice (ns : List Node) (y x : Nat) : Prop :=
  (∃ m m' n n', m ≠ m' ∧ At ns m n ∧ At ns m' n' ∧ y ∈ n.operands ∧ y ∈ n'.operands ∧ Reaches ns m x ∧ Reaches ns m' x) ∨
    ∃ m n, At ns m n ∧ n.operands = [y, y] ∧ Reaches ns m x

/-- A value used twice lives in two objects. -/
theorem Twice.occs (hnm : Named ns) {y x : Nat} (h : Twice ns y x) (sl : Slot) :
    ∃ σ τ, σ ≠ τ ∧ (σ, (entry K s inp ns y).2) ∈ occs (entry K s inp ns x).2 sl ∧ (τ, (entry K s inp ns y).2) ∈ occs (entry K s inp ns x).2 sl := by
  rcases h with ⟨m, m', n, n', hne, h1, h2, h3, h4, h5, h6⟩ | ⟨m, n, h1, h2, h3⟩
  · obtain ⟨sl1, o1⟩ := h5.occ (K := K) (s := s) (inp := inp) hnm sl
    obtain ⟨sl2, o2⟩ := h6.occ (K := K) (s := s) (inp := inp) hnm sl
    rw [(entry_at hnm h1).1] at o1
    rw [(entry_at hnm h2).1] at o2
    obtain ⟨j, b, j1, j2, p1⟩ := node_operand (K := K) n (9 * m) (entry K s inp ns) h3 sl1
    obtain ⟨j', b', j1', j2', p2⟩ := node_operand (K := K) n' (9 * m') (entry K s inp ns) h4 sl2
    refine ⟨_, _, ?_, occs_sub o1 _ p1, occs_sub o2 _ p2⟩
    intro he
    simp only [Option.some.injEq, Prod.mk.injEq] at he
    omega
  · obtain ⟨sl1, o1⟩ := h3.occ (K := K) (s := s) (inp := inp) hnm sl
    rw [(entry_at hnm h1).1] at o1
    obtain ⟨σ, τ, p0, p1, p2⟩ := node_twice (K := K) n (9 * m) (entry K s inp ns) h2 sl1
    exact ⟨σ, τ, p0, occs_sub o1 _ p1, occs_sub o1 _ p2⟩

theorem node_id (n : Node) (i : Nat) (E : Nat → List Nat × Ex ℝ) : ∃ j, (n.expr K i E).2.id? = some j := by
  cases n with
  | layer k x => cases k <;> exact ⟨_, rfl⟩
  | _ => exact ⟨_, rfl⟩

/-! ### the property is false -/

/-- Every operator is new: its objects hold no operands. -/
def New (st : St ℝ) : Prop := ∀ sl, (st.obj sl).inL = noTensor ∧ (st.obj sl).inR = noTensor

/-- C112 is false of skip connections: when a value of the listed kinds is used twice on the way to the output, the first backward after the first run does not finish, whatever
loss `e` is trained and whatever gradient it is given. -/
theorem branch_shared_violated (eps : ℝ) {e : Ex ℝ} (hc : Consistent e) {x y : Nat} {n : Node} {sl : Slot} (hx : (sl, exprOf K s inp ns x) ∈ occs e none) {st st1 : St ℝ} {a : List Nat → ℝ}
    (hok : AllOk K st.data s a ns) (he : Ev st.leaf st.data (.leaf inp) s a) (hy : At ns y n) (hs : Single st.data ns n) (h2 : Twice ns y x)
    (hz : size (valOf st.data s a ns y).1 ≠ 0) (hnew : New st) {z : Ten ℝ} (hr : run e st = ok (z, st1)) (g : Ten ℝ) (st2 : St ℝ) :
    backward eps e none g st1 ≠ ok st2 := by
  intro hb
  have hnm := hok.named
  obtain ⟨σ, τ, p0, p1, p2⟩ := h2.occs (K := K) (s := s) (inp := inp) hnm sl
  obtain ⟨heq, _, hyl⟩ := entry_at (K := K) (s := s) (inp := inp) hnm hy
  obtain ⟨j, hj⟩ := node_id (K := K) n (9 * y) (entry K s inp ns)
  rw [← heq] at hj
  obtain ⟨sl', g', s3, s4, b1, b2, b3, b4⟩ := shared_backward eps hc hr (occs_sub hx _ p1) (occs_sub hx _ p2) hj hj p0 (fun w hw => by
    obtain ⟨w', h1, h2⟩ := branch_value ns hok he hyl
    change eval st.leaf st.data (exprOf K s inp ns y) = ok w at hw
    rw [h1] at hw
    cases hw
    exact (data_ne_nil h2).mpr hz) (hnew σ) (hnew τ) hb
  exact single_stuck hnm hy hs eps sl' g' s3 s4 b4 b2 b3 b1

/-- Joining tensors cannot be undone: whatever the operands, with or without elements, and whatever the gradient. -/
theorem concat_stuck {axe : Nat} {l r out g : Ten ℝ} (hl : l.data.length ≤ size l.shape ∧ size l.shape ≠ 0) (hr : r.data.length ≤ size r.shape ∧ size r.shape ≠ 0) (d : Ten ℝ × Ten ℝ) :
    (Concat.opConcat axe).bwd l r out g ≠ ok d := by
  intro h
  change Concat.concatBackB false axe l r g = ok d at h
  unfold Concat.concatBackB at h
  simp only [bind_eq_ok, List.length_replicate] at h
  obtain ⟨_, h1, tail, h2, _, _, _, _, _, h5, _⟩ := h
  have h1' : size l.shape + size r.shape = g.data.length := by
    by_contra hn
    rw [assert_false hn] at h1
    cases h1
  unfold Concat.tempTail at h2
  simp only [bind_eq_ok, pure_eq] at h2
  obtain ⟨_, _, _, h4, h2⟩ := h2
  cases h2
  have hg : g.shape = [] := by
    by_contra hn
    rw [require_false (by simp [hn])] at h4
    cases h4
  rw [hg] at h5
  simp only [List.drop_nil, size_nil, Nat.div_one] at h5
  rw [Nat.div_eq_of_lt (by omega), Nat.div_eq_of_lt (by omega), assert_false (by simp)] at h5
  cases h5

/-- C112 is false of `Concatenate`: a loss whose output needs one cannot be differentiated. -/
theorem branch_concat_violated (eps : ℝ) {e : Ex ℝ} (hc : Consistent e) {x m axe u v : Nat} {sl : Slot} (hx : (sl, exprOf K s inp ns x) ∈ occs e none) {st st1 : St ℝ} {a : List Nat → ℝ}
    (hok : AllOk K st.data s a ns) (he : Ev st.leaf st.data (.leaf inp) s a) (hm : At ns m (.concat axe u v)) (hr : Reaches ns m x)
    (hu : size (valOf st.data s a ns u).1 ≠ 0) (hv : size (valOf st.data s a ns v).1 ≠ 0) (hz : size (valOf st.data s a ns m).1 ≠ 0)
    (hnew : New st) {z : Ten ℝ} (hrun : run e st = ok (z, st1)) (g : Ten ℝ) (st2 : St ℝ) : backward eps e none g st1 ≠ ok st2 := by
  intro hb
  have hnm := hok.named
  obtain ⟨sl', o1⟩ := hr.occ (K := K) (s := s) (inp := inp) hnm sl
  obtain ⟨heq, hop, hml⟩ := entry_at (K := K) (s := s) (inp := inp) hnm hm
  have hocc := occs_sub hx _ o1
  have hnum := hop u (by simp [Node.operands])
  have hnvm := hop v (by simp [Node.operands])
  have hin := run_inputs hc hrun hocc (i := 9 * m) (by rw [heq]; rfl) (fun w hw => by
    obtain ⟨w', h1, h2⟩ := branch_value ns hok he hml
    change eval st.leaf st.data (exprOf K s inp ns m) = ok w at hw
    rw [h1] at hw
    cases hw
    exact (data_ne_nil h2).mpr hz) (hnew sl')
  obtain ⟨g', s3, s4, b1, b2, b3⟩ := backward_visits eps e none g st1 st2 hb _ hocc
  dsimp only at b1 hin
  rw [heq] at b1 hin
  simp only [Node.expr, backward, bind_eq_ok] at b1
  obtain ⟨d, b4, _⟩ := b1
  rw [b2] at b4
  rcases hin with hin | ⟨i1, i2⟩
  · have i1 := hin false _ rfl
    have i2 := hin true _ rfl
    simp only [side] at i1 i2
    obtain ⟨w, e1, e2⟩ := branch_value ns hok he (x := u) (by omega)
    obtain ⟨w', e3, e4⟩ := branch_value ns hok he (x := v) (by omega)
    change eval st.leaf st.data (exprOf K s inp ns u) = _ at i1
    change eval st.leaf st.data (exprOf K s inp ns v) = _ at i2
    rw [e1] at i1
    rw [e3] at i2
    rw [← ok.inj i1, ← ok.inj i2] at b4
    refine concat_stuck ⟨?_, ?_⟩ ⟨?_, ?_⟩ d b4
    · exact le_of_eq e2.wf
    · rw [e2.1]; exact hu
    · exact le_of_eq e4.wf
    · rw [e4.1]; exact hv
  · rw [i1, i2] at b4
    exact concat_stuck ⟨by simp [noTensor], by simp [noTensor]⟩ ⟨by simp [noTensor], by simp [noTensor]⟩ d b4

/-! ### losses -/

/-- `squared_loss` over a program keeps identities unique. -/
theorem squared_consistent {t : Ex ℝ} (ht : Consistent t) {i : Nat} (hi : ∀ j ∈ ids t, j < i) (gt : Nat) : Consistent (squaredLoss K i (.leaf gt) t) := by
  intro p hp q hq j hj hk
  have hids : ids (squaredLoss K i (.leaf gt) t) = [i + 3, i + 2, i + 1, i] ++ ids t := by simp [squaredLoss, el, minusE, plusE, ids]
  by_cases hjt : i ≤ j
  · have : (ids (squaredLoss K i (.leaf gt) t)).count j ≤ 1 := by
      rw [hids, List.count_append, List.count_eq_zero (l := ids t).mpr (fun h => by have := hi j h; omega)]
      have : ([i + 3, i + 2, i + 1, i] : List Nat).Nodup := by simp
      have := List.nodup_iff_count_le_one.mp this j
      omega
    exact congrArg Prod.snd (occ_once this hp hq hj hk)
  · have src : ∀ {p : Slot × Ex ℝ}, p ∈ occs (squaredLoss K i (.leaf gt) t) none → p.2.id? = some j → ∃ p' ∈ occs t none, p'.2 = p.2 := by
      intro p hp hj
      simp only [squaredLoss, el, minusE, plusE, occs, List.mem_cons, List.mem_append, List.not_mem_nil, or_false] at hp
      rcases hp with rfl | rfl | rfl | rfl | rfl | hp
      all_goals first
        | exact occs_slot hp
        | (simp [Ex.id?] at hj; done)
        | (simp only [Ex.id?, Option.some.injEq] at hj; omega)
    obtain ⟨p', h1, h2⟩ := src hp hj
    obtain ⟨q', h3, h4⟩ := src hq hk
    rw [← h2, ← h4]
    exact ht p' h1 q' h3 j (by rw [h2]; exact hj) (by rw [h4]; exact hk)

theorem squared_occ (K : Kit) (i gt : Nat) (t : Ex ℝ) : (some (i, false), t) ∈ occs (squaredLoss K i (.leaf gt) t) none := by
  simp [squaredLoss, el, minusE, plusE, occs, mem_occs_self]

/-- C112 is false of `squared_loss` over programs with a value used twice: the forward pass gives the specified loss, and backward does not finish. -/
theorem branch_squared_violated (eps : ℝ) {x y gt : Nat} {n : Node} {st : St ℝ} {a : List Nat → ℝ} (hok : AllOk K st.data s a ns) (he : Ev st.leaf st.data (.leaf inp) s a)
    (hx : x ≤ ns.length) (hy : At ns y n) (hs : Single st.data ns n) (h2 : Twice ns y x) (hz : size (valOf st.data s a ns y).1 ≠ 0) (hnew : New st)
    {b : List Nat → ℝ} (hgt : Ev st.leaf st.data (.leaf gt) (valOf st.data s a ns x).1 b) (hf : Fits1 K (valOf st.data s a ns x).1) :
    ∃ st1, run (squaredLoss K (9 * (ns.length + 1)) (.leaf gt) (exprOf K s inp ns x)) st =
        ok (⟨[1], [sumIdx (valOf st.data s a ns x).1 (fun is => (b is - (valOf st.data s a ns x).2 is) ^ 2)]⟩, st1) ∧
      ∀ g st2, backward eps (squaredLoss K (9 * (ns.length + 1)) (.leaf gt) (exprOf K s inp ns x)) none g st1 ≠ ok st2 := by
  have hcon := squared_consistent (K := K) (branch_consistent (K := K) (s := s) (inp := inp) ns hok.named hx) (i := 9 * (ns.length + 1)) (fun j hj => by
    have := entry_ids ns hok.named x hx j hj; omega) gt
  have hv := branch_value ns hok he hx
  have hval : eval st.leaf st.data (squaredLoss K (9 * (ns.length + 1)) (.leaf gt) (exprOf K s inp ns x)) =
      ok ⟨[1], [sumIdx (valOf st.data s a ns x).1 (fun is => (b is - (valOf st.data s a ns x).2 is) ^ 2)]⟩ := by
    rw [squared_loss_value hgt hv hf.fits (9 * (ns.length + 1)), sumIdx_congr (g := fun is => (b is - (valOf st.data s a ns x).2 is) ^ 2) (fun is hv => by rw [bc_self hv])]
  obtain ⟨st1, h1⟩ := (run_fresh_partial _ hcon st).1 _ hval
  exact ⟨st1, h1, fun g st2 => branch_shared_violated eps hcon (squared_occ K _ gt _) hok he hy hs h2 hz hnew h1 g st2⟩

end
end Verif.Branch
