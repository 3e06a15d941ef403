import Verif.Train.Spec
/-!
# The forward half of a training pass on shared storages

Helper theorems for C106: a forward pass on shared storages leaves the results, the variables and the gradients a forward pass by value leaves, and the
fields of the operators hold whatever backward will look at.
-/
namespace Verif.Train
open Verif Res Tensor Graph
open Verif.Data (denote)
open Verif.Alias (denote_some denote_congr readT readT_ok hquery plusT_inv HSt)

variable {α : Type}

/-! ### what is kept -/

structure Keep (s s' : TSt α) : Prop where
  leafT : s'.leafT = s.leafT
  varT : s'.varT = s.varT
  opc : s'.opc = s.opc
  bopc : s'.bopc = s.bopc
  gloc : ∀ v, (s'.gradT v).loc = (s.gradT v).loc
  grow : s.heap.length ≤ s'.heap.length
  training : s'.training = s.training

theorem Keep.loc {s s' : TSt α} (h : Keep s s') (τ : Tag) : s'.loc τ = s.loc τ := by
  cases τ <;> simp [TSt.loc, h.leafT, h.varT, h.opc, h.bopc, h.gloc]

theorem Keep.refl (s : TSt α) : Keep s s := ⟨rfl, rfl, rfl, rfl, fun _ => rfl, le_refl _, rfl⟩

theorem Keep.trans {s s' s'' : TSt α} (h : Keep s s') (h' : Keep s' s'') : Keep s s'' :=
  ⟨h'.leafT.trans h.leafT, h'.varT.trans h.varT, h'.opc.trans h.opc, h'.bopc.trans h.bopc, fun v => (h'.gloc v).trans (h.gloc v), h.grow.trans h'.grow,
    h'.training.trans h.training⟩

theorem Lay.keep {e : Ex α} {N : Nat} {s s' : TSt α} (hl : Lay e N s) (h : Keep s s') : Lay e N s' :=
  ⟨fun τ hτ => by rw [h.loc]; exact hl.lt τ hτ, fun τ τ' h1 h2 h3 => hl.inj τ τ' h1 h2 (by rw [h.loc, h.loc] at h3; exact h3)⟩

theorem Lay.mono {e : Ex α} {N N' : Nat} {s : TSt α} (hl : Lay e N s) (h : N ≤ N') : Lay e N' s := ⟨fun τ hτ => lt_of_lt_of_le (hl.lt τ hτ) h, hl.inj⟩

theorem Lay.ne {e : Ex α} {N : Nat} {s : TSt α} (hl : Lay e N s) {τ τ' : Tag} (h1 : InE e τ) (h2 : InE e τ') (h : τ ≠ τ') : s.loc τ ≠ s.loc τ' :=
  fun he => h (hl.inj τ τ' h1 h2 he)

theorem Sim.frame {e : Ex α} {s s' : TSt α} {st st' : St α} (h : Sim e s st) (hv : s'.varT = s.varT) (hg : s'.gradT = s.gradT) (hs : s'.sync = s.sync)
    (ht : s'.training = s.training) (hst : st'.data = st.data ∧ st'.grad = st.grad ∧ st'.sync = st.sync ∧ st'.training = st.training)
    (hh : ∀ v ∈ vars e, s'.heap[s.loc (.var v)]? = s.heap[s.loc (.var v)]? ∧ s'.heap[s.loc (.grad v)]? = s.heap[s.loc (.grad v)]?) : Sim e s' st' := by
  obtain ⟨h1, h2, h3, h4⟩ := hst
  refine ⟨fun v hv' => ?_, fun v hv' => ?_, by rw [hs, h3, h.sync], by rw [ht, h4, h.training]⟩
  · rw [hv, h1, denote_congr (hh v hv').1]; exact h.var v hv'
  · rw [hg, h2, denote_congr (hh v hv').2]; exact h.grad v hv'

/-! ### what backward will look at -/

/-- The fields hold what backward looks at: of operators whose result shares the operand's storage only the shapes, of results that may have been
overwritten (`kill`) nothing. -/
def Good (fk : Nat → FKind) (h : Heap α) (ob : Slot → HFields) (vb : Slot → Fields α) : Ex α → Slot → Bool → Prop
  | .leaf _, _, _ => True
  | .var _ _, _, _ => True
  | .un i _ c, sl, kill =>
    (∃ x, denote h (ob sl).inL = some x ∧ x.shape = (vb sl).inL.shape ∧ (fk i ≠ .share → x = (vb sl).inL)) ∧
    (∃ y, denote h (ob sl).out = some y ∧ (fk i ≠ .share → kill = false → y = (vb sl).out)) ∧
    Good fk h ob vb c (some (i, false)) (kill && decide (fk i = .share))
  | .bin i _ l r, sl, kill =>
    (∃ x, denote h (ob sl).inL = some x ∧ x.shape = (vb sl).inL.shape ∧ (fk i ≠ .plus → x = (vb sl).inL)) ∧
    (∃ y, denote h (ob sl).inR = some y ∧ y.shape = (vb sl).inR.shape ∧ (fk i ≠ .plus → y = (vb sl).inR)) ∧
    (∃ z, denote h (ob sl).out = some z ∧ (fk i ≠ .plus → kill = false → z = (vb sl).out)) ∧
    Good fk h ob vb l (some (i, false)) (decide (fk i = .plus)) ∧ Good fk h ob vb r (some (i, true)) false

/-- The storages whose contents `Good` speaks of. -/
def Reads (fk : Nat → FKind) (ob : Slot → HFields) : Ex α → Slot → Bool → Nat → Prop
  | .leaf _, _, _, _ => False
  | .var _ _, _, _, _ => False
  | .un i _ c, sl, kill, q =>
    (fk i ≠ .share ∧ q = (ob sl).inL.loc) ∨ (fk i ≠ .share ∧ kill = false ∧ q = (ob sl).out.loc) ∨
    Reads fk ob c (some (i, false)) (kill && decide (fk i = .share)) q
  | .bin i _ l r, sl, kill, q =>
    (fk i ≠ .plus ∧ q = (ob sl).inL.loc) ∨ (fk i ≠ .plus ∧ q = (ob sl).inR.loc) ∨ (fk i ≠ .plus ∧ kill = false ∧ q = (ob sl).out.loc) ∨
    Reads fk ob l (some (i, false)) (decide (fk i = .plus)) q ∨ Reads fk ob r (some (i, true)) false q

/-- The objects of an expression in object `sl`. -/
def InSlots (t : Ex α) (sl σ : Slot) : Prop := σ = sl ∨ ∃ i ∈ ids t, ∃ b, σ = some (i, b)

theorem denote_grow {h h' : Heap α} {t : Tn} {x : Ten α} (hl : h.length ≤ h'.length) (hd : denote h t = some x) : ∃ x', denote h' t = some x' ∧ x'.shape = x.shape := by
  obtain ⟨h1, h2⟩ := denote_some hd
  have hlt : t.loc < h'.length := lt_of_lt_of_le (List.getElem?_eq_some_iff.mp h1).1 hl
  exact ⟨⟨t.shape, h'[t.loc]⟩, by simp [denote, hlt], h2.symm⟩

theorem denote_lt {h : Heap α} {t : Tn} {x : Ten α} (hd : denote h t = some x) : t.loc < h.length := (List.getElem?_eq_some_iff.mp (denote_some hd).1).1

theorem slots_un {i : Nat} {op : UOp α} {c : Ex α} {sl σ : Slot} (h : InSlots c (some (i, false)) σ) : InSlots (.un i op c) sl σ := by
  rcases h with rfl | ⟨j, hj, b, rfl⟩
  · exact Or.inr ⟨i, by simp [ids], false, rfl⟩
  · exact Or.inr ⟨j, by simp [ids, hj], b, rfl⟩

theorem slots_l {i : Nat} {op : BOp α} {l r : Ex α} {sl σ : Slot} (h : InSlots l (some (i, false)) σ) : InSlots (.bin i op l r) sl σ := by
  rcases h with rfl | ⟨j, hj, b, rfl⟩
  · exact Or.inr ⟨i, by simp [ids], false, rfl⟩
  · exact Or.inr ⟨j, by simp [ids, hj], b, rfl⟩

theorem slots_r {i : Nat} {op : BOp α} {l r : Ex α} {sl σ : Slot} (h : InSlots r (some (i, true)) σ) : InSlots (.bin i op l r) sl σ := by
  rcases h with rfl | ⟨j, hj, b, rfl⟩
  · exact Or.inr ⟨i, by simp [ids], true, rfl⟩
  · exact Or.inr ⟨j, by simp [ids, hj], b, rfl⟩

theorem reads_congr {fk : Nat → FKind} {ob ob' : Slot → HFields} (t : Ex α) : ∀ {sl : Slot} {kill : Bool} {q : Nat}, (∀ σ, InSlots t sl σ → ob' σ = ob σ) →
    Reads fk ob' t sl kill q → Reads fk ob t sl kill q := by
  induction t with
  | leaf k => intro _ _ _ _ h; exact h
  | var v c => intro _ _ _ _ h; exact h
  | un i op c ih =>
    intro sl kill q ho h
    rw [Reads, ho sl (Or.inl rfl)] at h
    rw [Reads]
    exact h.imp_right (fun h => h.imp_right (ih (fun σ hσ => ho σ (slots_un hσ))))
  | bin i op l r ihl ihr =>
    intro sl kill q ho h
    rw [Reads, ho sl (Or.inl rfl)] at h
    rw [Reads]
    exact h.imp_right (fun h => h.imp_right (fun h => h.imp_right (fun h => h.imp (ihl (fun σ hσ => ho σ (slots_l hσ))) (ihr (fun σ hσ => ho σ (slots_r hσ))))))

theorem good_congr {fk : Nat → FKind} {h h' : Heap α} {ob ob' : Slot → HFields} {vb vb' : Slot → Fields α} (hl : h.length ≤ h'.length) (t : Ex α) :
    ∀ {sl : Slot} {kill : Bool}, (∀ q, Reads fk ob t sl kill q → h'[q]? = h[q]?) → (∀ σ, InSlots t sl σ → ob' σ = ob σ) → (∀ σ, InSlots t sl σ → vb' σ = vb σ) →
      Good fk h ob vb t sl kill → Good fk h' ob' vb' t sl kill := by
  induction t with
  | leaf k => intros; trivial
  | var v c => intros; trivial
  | un i op c ih =>
    intro sl kill hr ho hv h
    rw [Good] at h ⊢
    obtain ⟨⟨x, h1, h2, h3⟩, ⟨y, h4, h5⟩, h6⟩ := h
    rw [ho sl (Or.inl rfl), hv sl (Or.inl rfl)]
    refine ⟨?_, ?_, ih (fun q hq => hr q (by rw [Reads]; exact Or.inr (Or.inr hq))) (fun σ hσ => ho σ (slots_un hσ)) (fun σ hσ => hv σ (slots_un hσ)) h6⟩
    · by_cases hs : fk i = .share
      · obtain ⟨x', e1, e2⟩ := denote_grow hl h1
        exact ⟨x', e1, e2.trans h2, fun h => absurd hs h⟩
      · exact ⟨x, by rw [denote_congr (hr _ (by rw [Reads]; exact Or.inl ⟨hs, rfl⟩))]; exact h1, h2, h3⟩
    · by_cases hs : fk i ≠ .share ∧ kill = false
      · exact ⟨y, by rw [denote_congr (hr _ (by rw [Reads]; exact Or.inr (Or.inl ⟨hs.1, hs.2, rfl⟩)))]; exact h4, h5⟩
      · obtain ⟨y', e1, _⟩ := denote_grow hl h4
        exact ⟨y', e1, fun a b => absurd ⟨a, b⟩ hs⟩
  | bin i op l r ihl ihr =>
    intro sl kill hr ho hv h
    rw [Good] at h ⊢
    obtain ⟨⟨x, h1, h2, h3⟩, ⟨y, h4, h5, h6⟩, ⟨z, h7, h8⟩, h9, h10⟩ := h
    rw [ho sl (Or.inl rfl), hv sl (Or.inl rfl)]
    refine ⟨?_, ?_, ?_, ihl (fun q hq => hr q (by rw [Reads]; exact Or.inr (Or.inr (Or.inr (Or.inl hq))))) (fun σ hσ => ho σ (slots_l hσ)) (fun σ hσ => hv σ (slots_l hσ)) h9,
      ihr (fun q hq => hr q (by rw [Reads]; exact Or.inr (Or.inr (Or.inr (Or.inr hq))))) (fun σ hσ => ho σ (slots_r hσ)) (fun σ hσ => hv σ (slots_r hσ)) h10⟩
    · by_cases hs : fk i = .plus
      · obtain ⟨x', e1, e2⟩ := denote_grow hl h1
        exact ⟨x', e1, e2.trans h2, fun h => absurd hs h⟩
      · exact ⟨x, by rw [denote_congr (hr _ (by rw [Reads]; exact Or.inl ⟨hs, rfl⟩))]; exact h1, h2, h3⟩
    · by_cases hs : fk i = .plus
      · obtain ⟨x', e1, e2⟩ := denote_grow hl h4
        exact ⟨x', e1, e2.trans h5, fun h => absurd hs h⟩
      · exact ⟨y, by rw [denote_congr (hr _ (by rw [Reads]; exact Or.inr (Or.inl ⟨hs, rfl⟩)))]; exact h4, h5, h6⟩
    · by_cases hs : fk i ≠ .plus ∧ kill = false
      · exact ⟨z, by rw [denote_congr (hr _ (by rw [Reads]; exact Or.inr (Or.inr (Or.inl ⟨hs.1, hs.2, rfl⟩))))]; exact h7, h8⟩
      · obtain ⟨y', e1, _⟩ := denote_grow hl h7
        exact ⟨y', e1, fun a b => absurd ⟨a, b⟩ hs⟩

theorem good_kill {fk : Nat → FKind} {h : Heap α} {ob : Slot → HFields} {vb : Slot → Fields α} (t : Ex α) :
    ∀ {sl : Slot}, Good fk h ob vb t sl false → ∀ kill, Good fk h ob vb t sl kill := by
  induction t with
  | leaf k => intros; trivial
  | var v c => intros; trivial
  | un i op c ih =>
    intro sl h kill
    rw [Good] at h ⊢
    obtain ⟨h1, ⟨y, h4, h5⟩, h6⟩ := h
    exact ⟨h1, ⟨y, h4, fun a _ => h5 a rfl⟩, ih h6 _⟩
  | bin i op l r ihl ihr =>
    intro sl h kill
    rw [Good] at h ⊢
    obtain ⟨h1, h2, ⟨z, h7, h8⟩, h9⟩ := h
    exact ⟨h1, h2, ⟨z, h7, fun a _ => h8 a rfl⟩, h9⟩

theorem reads_kill {fk : Nat → FKind} {ob : Slot → HFields} (t : Ex α) : ∀ {sl : Slot} {kill : Bool} {q : Nat}, Reads fk ob t sl kill q → Reads fk ob t sl false q := by
  induction t with
  | leaf k => intro _ _ _ h; exact h
  | var v c => intro _ _ _ h; exact h
  | un i op c ih =>
    intro sl kill q h
    rw [Reads] at h ⊢
    rcases h with h | ⟨a, _, b⟩ | h
    · exact Or.inl h
    · exact Or.inr (Or.inl ⟨a, rfl, b⟩)
    · exact Or.inr (Or.inr (ih h))
  | bin i op l r ihl ihr =>
    intro sl kill q h
    rw [Reads] at h ⊢
    rcases h with h | h | ⟨a, _, b⟩ | h
    · exact Or.inl h
    · exact Or.inr (Or.inl h)
    · exact Or.inr (Or.inr (Or.inl ⟨a, rfl, b⟩))
    · exact Or.inr (Or.inr (Or.inr h))

/-! ### which storages -/

/-- Storages a forward pass may write to. -/
def FwTag (fk : Nat → FKind) (t : Ex α) : Tag → Prop
  | .leaf k => k ∈ killed fk t
  | .grad v => v ∈ vars t
  | .opc i => i ∈ ids t
  | _ => False

/-- Storages backward may look at. -/
def RdTag (t : Ex α) : Tag → Prop
  | .leaf k => k ∈ leaves t
  | .var v => v ∈ vars t
  | .opc i => i ∈ ids t
  | _ => False

/-- Storages the result may be in. -/
def ResTag (fk : Nat → FKind) (t : Ex α) : Tag → Prop
  | .leaf k => endOf fk t = .leaf k
  | .var v => endOf fk t = .var v
  | .opc i => i ∈ ids t
  | _ => False

theorem endOf_leaf {fk : Nat → FKind} {k : Nat} (t : Ex α) : endOf fk t = .leaf k → k ∈ leaves t := by
  induction t with
  | leaf j => intro h; simp only [endOf, End.leaf.injEq] at h; simp [leaves, h]
  | var v c => intro h; simp [endOf] at h
  | un i op c ih =>
    intro h
    rw [endOf] at h
    split at h
    · exact ih h
    · cases h
  | bin i op l r ihl ihr =>
    intro h
    rw [endOf] at h
    split at h
    · simp [leaves, ihl h]
    · cases h

theorem endOf_var {fk : Nat → FKind} {v : Nat} (t : Ex α) : endOf fk t = .var v → v ∈ vars t := by
  induction t with
  | leaf j => intro h; simp [endOf] at h
  | var v c => intro h; simp only [endOf, End.var.injEq] at h; simp [vars, h]
  | un i op c ih =>
    intro h
    rw [endOf] at h
    split at h
    · exact ih h
    · cases h
  | bin i op l r ihl ihr =>
    intro h
    rw [endOf] at h
    split at h
    · simp [vars, ihl h]
    · cases h

theorem dead_not_var {fk : Nat → FKind} {v : Nat} (t : Ex α) : Dead fk t → endOf fk t ≠ .var v := by
  induction t with
  | leaf j => intro _ h; simp [endOf] at h
  | var v c => intro h; exact h.elim
  | un i op c ih =>
    intro h he
    rw [endOf] at he
    rw [Dead] at h
    split at he
    · rename_i hs
      rw [if_pos hs] at h
      exact ih h he
    · cases he
  | bin i op l r ihl ihr =>
    intro h he
    rw [endOf] at he
    rw [Dead] at h
    split at he
    · rename_i hs
      rw [if_pos hs] at h
      exact ihl h he
    · cases he

theorem killed_leaves {fk : Nat → FKind} {k : Nat} (t : Ex α) : k ∈ killed fk t → k ∈ leaves t := by
  induction t with
  | leaf j => intro h; simp [killed] at h
  | var v c => intro h; simp [killed] at h
  | un i op c ih => intro h; exact ih h
  | bin i op l r ihl ihr =>
    intro h
    simp only [killed, List.mem_append] at h
    simp only [leaves, List.mem_append]
    rcases h with (h | h) | h
    · exact Or.inl (ihl h)
    · exact Or.inr (ihr h)
    · split at h
      · left
        cases he : endOf fk l with
        | op => rw [he] at h; simp at h
        | var v => rw [he] at h; simp at h
        | leaf j =>
          rw [he] at h
          simp only [List.mem_singleton] at h
          rw [h]
          exact endOf_leaf l he
      · simp at h

theorem resTag_rd {fk : Nat → FKind} {t : Ex α} {τ : Tag} (h : ResTag fk t τ) : RdTag t τ := by
  cases τ with
  | leaf k => exact endOf_leaf t h
  | var v => exact endOf_var t h
  | opc i => exact h
  | grad v => exact h.elim
  | bopc i b => exact h.elim

theorem rdTag_in {t : Ex α} {τ : Tag} (h : RdTag t τ) : InE t τ := by
  cases τ with
  | leaf k => exact h
  | var v => exact h
  | opc i => exact h
  | grad v => exact h.elim
  | bopc i b => exact h.elim

theorem fwTag_in {fk : Nat → FKind} {t : Ex α} {τ : Tag} (h : FwTag fk t τ) : InE t τ := by
  cases τ with
  | leaf k => exact killed_leaves t h
  | var v => exact h.elim
  | opc i => exact h
  | grad v => exact h
  | bopc i b => exact h.elim

/-! ### the by-value pass, taken apart -/

section
variable [Zero α]

theorem forward_un_inv {i : Nat} {op : UOp α} {c : Ex α} {sl : Slot} {st st' : St α} {y : Ten α} (hc : st.cache i = none) (h : forward (.un i op c) sl st = ok (y, st')) :
    ∃ x st1, forward c (some (i, false)) { st with obj := upd st.obj sl { st.obj sl with out := noTensor } } = ok (x, st1) ∧ op.fwd x = ok y ∧
      st'.leaf = st1.leaf ∧ st'.data = st1.data ∧ st'.grad = st1.grad ∧ st'.sync = st1.sync ∧ st'.training = st1.training ∧
      st'.cache = upd st1.cache i (some y) ∧ (st'.obj sl).inL = x ∧ (st'.obj sl).out = y ∧ ∀ σ, σ ≠ sl → st'.obj σ = st1.obj σ := by
  rw [forward] at h
  simp only [query, hc, Option.getD_none] at h
  rw [if_pos (show (noTensor : Ten α).data = [] from rfl)] at h
  obtain ⟨⟨x, st1⟩, h1, h2⟩ := bind_eq_ok.mp h
  dsimp only at h2
  obtain ⟨y', h3, h4⟩ := bind_eq_ok.mp h2
  simp only [pure_eq, ok.injEq, Prod.mk.injEq] at h4
  obtain ⟨rfl, rfl⟩ := h4
  refine ⟨x, st1, h1, h3, rfl, rfl, rfl, rfl, rfl, rfl, ?_, ?_, fun σ hσ => ?_⟩
  · simp [upd]
  · simp [upd]
  · simp [upd, hσ]

theorem forward_bin_inv {i : Nat} {op : BOp α} {l r : Ex α} {sl : Slot} {st st' : St α} {z : Ten α} (hc : st.cache i = none) (h : forward (.bin i op l r) sl st = ok (z, st')) :
    ∃ x st1 y st2, forward l (some (i, false)) { st with obj := upd st.obj sl { st.obj sl with out := noTensor } } = ok (x, st1) ∧
      forward r (some (i, true)) { st1 with obj := upd st1.obj sl { st1.obj sl with inL := x } } = ok (y, st2) ∧ op.fwd x y = ok z ∧
      st'.leaf = st2.leaf ∧ st'.data = st2.data ∧ st'.grad = st2.grad ∧ st'.sync = st2.sync ∧ st'.training = st2.training ∧
      st'.cache = upd st2.cache i (some z) ∧ (st'.obj sl).inL = (st2.obj sl).inL ∧ (st'.obj sl).inR = y ∧ (st'.obj sl).out = z ∧ ∀ σ, σ ≠ sl → st'.obj σ = st2.obj σ := by
  rw [forward] at h
  simp only [query, hc, Option.getD_none] at h
  rw [if_pos (show (noTensor : Ten α).data = [] from rfl)] at h
  obtain ⟨⟨x, st1⟩, h1, h2⟩ := bind_eq_ok.mp h
  dsimp only at h2
  obtain ⟨⟨y, st2⟩, h3, h4⟩ := bind_eq_ok.mp h2
  dsimp only at h4
  obtain ⟨z', h5, h6⟩ := bind_eq_ok.mp h4
  simp only [pure_eq, ok.injEq, Prod.mk.injEq] at h6
  obtain ⟨rfl, rfl⟩ := h6
  refine ⟨x, st1, y, st2, h1, h3, h5, rfl, rfl, rfl, rfl, rfl, rfl, ?_, ?_, ?_, fun σ hσ => ?_⟩
  · simp [upd]
  · simp [upd]
  · simp [upd]
  · simp [upd, hσ]

end

/-! ### leaving results -/

theorem leaveAt_ok {h : Heap α} {l : Nat} (hl : l < h.length) (y : Ten α) : ∃ h', leaveAt h l y = ok (⟨y.shape, l⟩, h') ∧ denote h' ⟨y.shape, l⟩ = some y ∧ h'.length = h.length ∧
    ∀ q, q ≠ l → h'[q]? = h[q]? := by
  refine ⟨h.set l y.data, ?_, by simp [denote, hl], by simp, fun q hq => List.getElem?_set_ne (Ne.symm hq)⟩
  unfold leaveAt
  rw [wr_ok hl, bind_ok]
  rfl

theorem leaveNew_ok (h : Heap α) (y : Ten α) : denote (leaveNew h y).2 (leaveNew h y).1 = some y ∧ (leaveNew h y).2.length = h.length + 1 ∧ (leaveNew h y).1.loc = h.length ∧
    ∀ q, q < h.length → (leaveNew h y).2[q]? = h[q]? := by
  refine ⟨by simp [leaveNew, denote], by simp [leaveNew], rfl, fun q hq => ?_⟩
  simp only [leaveNew]
  exact List.getElem?_append_left hq

theorem put_ok {fk : Nat → FKind} {i : Nat} {x : Tn} {xv y : Ten α} {s : TSt α} (hx : denote s.heap x = some xv) (ho : s.opc i < s.heap.length) (hs : fk i = .share → y.data = xv.data) :
    ∃ t h', put fk i x y s = ok (t, h') ∧ denote h' t = some y ∧ s.heap.length ≤ h'.length ∧ (∀ q, q < s.heap.length → (fk i = .own → q ≠ s.opc i) → h'[q]? = s.heap[q]?) ∧
      (fk i = .share → t.loc = x.loc) ∧ (fk i ≠ .share → (fk i = .own ∧ t.loc = s.opc i) ∨ s.heap.length ≤ t.loc) := by
  unfold put
  have new : ∃ t h', ok (leaveNew s.heap y) = ok (t, h') ∧ denote h' t = some y ∧ s.heap.length ≤ h'.length ∧ (∀ q, q < s.heap.length → h'[q]? = s.heap[q]?) ∧ s.heap.length ≤ t.loc := by
    obtain ⟨h1, h2, h3, h4⟩ := leaveNew_ok s.heap y
    exact ⟨(leaveNew s.heap y).1, (leaveNew s.heap y).2, rfl, h1, by rw [h2]; omega, h4, h3.ge⟩
  cases hk : fk i with
  | own =>
    obtain ⟨h', h1, h2, h3, h4⟩ := leaveAt_ok ho y
    exact ⟨_, h', h1, h2, by omega, fun q _ hq => h4 q (hq rfl), nofun, fun _ => Or.inl ⟨rfl, rfl⟩⟩
  | share =>
    obtain ⟨h1, h2⟩ := denote_some hx
    obtain ⟨h', k1, k2, k3, k4⟩ := leaveAt_ok (denote_lt hx) y
    refine ⟨_, h', k1, k2, by omega, fun q _ _ => ?_, fun _ => rfl, fun h => absurd rfl h⟩
    by_cases hq : q = x.loc
    · rw [hq, h1, ← hs hk]; exact (denote_some k2).1
    · exact k4 q hq
  | fresh => obtain ⟨t, h', h1, h2, h3, h4, h5⟩ := new; exact ⟨t, h', h1, h2, h3, fun q hq _ => h4 q hq, nofun, fun _ => Or.inr h5⟩
  | plus => obtain ⟨t, h', h1, h2, h3, h4, h5⟩ := new; exact ⟨t, h', h1, h2, h3, fun q hq _ => h4 q hq, nofun, fun _ => Or.inr h5⟩

theorem put2_ok {fk : Nat → FKind} {i : Nat} {y : Ten α} {s : TSt α} (ho : s.opc i < s.heap.length) :
    ∃ t h', put2 fk i y s = ok (t, h') ∧ denote h' t = some y ∧ s.heap.length ≤ h'.length ∧ (∀ q, q < s.heap.length → q ≠ s.opc i → h'[q]? = s.heap[q]?) ∧
      (t.loc = s.opc i ∨ s.heap.length ≤ t.loc) := by
  unfold put2
  have new : ∃ t h', ok (leaveNew s.heap y) = ok (t, h') ∧ denote h' t = some y ∧ s.heap.length ≤ h'.length ∧ (∀ q, q < s.heap.length → h'[q]? = s.heap[q]?) ∧ s.heap.length ≤ t.loc := by
    obtain ⟨h1, h2, h3, h4⟩ := leaveNew_ok s.heap y
    exact ⟨(leaveNew s.heap y).1, (leaveNew s.heap y).2, rfl, h1, by rw [h2]; omega, h4, h3.ge⟩
  cases hk : fk i with
  | own =>
    obtain ⟨h', h1, h2, h3, h4⟩ := leaveAt_ok ho y
    exact ⟨_, h', h1, h2, by omega, fun q _ hq => h4 q hq, Or.inl rfl⟩
  | share => obtain ⟨t, h', h1, h2, h3, h4, h5⟩ := new; exact ⟨t, h', h1, h2, h3, fun q hq _ => h4 q hq, Or.inr h5⟩
  | fresh => obtain ⟨t, h', h1, h2, h3, h4, h5⟩ := new; exact ⟨t, h', h1, h2, h3, fun q hq _ => h4 q hq, Or.inr h5⟩
  | plus => obtain ⟨t, h', h1, h2, h3, h4, h5⟩ := new; exact ⟨t, h', h1, h2, h3, fun q hq _ => h4 q hq, Or.inr h5⟩

theorem plus_heap [Zero α] [Add α] {h : Heap α} {x y : Tn} {xv yv z : Ten α} (hx : denote h x = some xv) (hy : denote h y = some yv) (wx : xv.WF) (mx : xv.shape.getLast? ≠ some minusOne)
    (wy : yv.WF) (my : yv.shape.getLast? ≠ some minusOne) (hz : plusT xv yv = ok z) :
    ∃ t h', addLike (· + ·) h x y = ok (t, h') ∧ denote h' t = some z ∧ h.length ≤ h'.length ∧ (∀ q, q < h.length → q ≠ x.loc → h'[q]? = h[q]?) ∧ (t.loc = x.loc ∨ h.length ≤ t.loc) ∧
      h'[x.loc]?.map List.length = h[x.loc]?.map List.length := by
  have hcomp := plusT_inv hz
  obtain ⟨hxb, hxs⟩ := denote_some hx
  obtain ⟨hyb, hys⟩ := denote_some hy
  have hX : Holds h x xv.at := ⟨xv.data, hxb, by rw [← hxs]; exact wx.has.2⟩
  have hY : Holds h y yv.at := ⟨yv.data, hyb, by rw [← hys]; exact wy.has.2⟩
  obtain ⟨c, t', h', k1, k2, k3, ⟨buf, k4, k5⟩, k6, k7, k8⟩ := addLike_ok (f := (· + ·)) hX hY (by rw [← hxs, ← hys]; exact hcomp) (by rw [← hxs]; exact mx) (by rw [← hys]; exact my)
  obtain ⟨c', u, m1, m2, m3⟩ := plusT_ok wx.has wy.has hcomp mx my
  rw [hz] at m2
  cases m2
  rw [hxs, hys, k1] at m1
  cases m1
  have hval : denote h' t' = some z := by
    simp only [denote, k4, Option.map_some, Option.some.injEq]
    refine Ten.Has.ext (s := c) (a := fun is => xv.at (bcIdx x.shape is) + yv.at (bcIdx y.shape is)) ⟨k3, by rw [k3] at k5; exact k5⟩ ?_
    rw [← hxs, ← hys]; exact m3
  refine ⟨t', h', k2, hval, k6, ?_, ?_, ?_⟩
  · intro q hq hqx
    by_cases hpad : padShape x.shape c = c
    · exact (k8 hpad).2 q hq hqx
    · exact (k7 hpad).2 q hq
  · by_cases hpad : padShape x.shape c = c
    · exact Or.inl (k8 hpad).1
    · exact Or.inr (k7 hpad).1
  · by_cases hpad : padShape x.shape c = c
    · have hsz : size c = size x.shape := by
        rw [← hpad]
        exact size_replicate_one _ _
      rw [← (k8 hpad).1, k4, (k8 hpad).1, hxb]
      simp only [Option.map_some, Option.some.injEq]
      rw [k5.1, k3, hsz, ← hxs]
      exact wx.symm
    · rw [(k7 hpad).2 _ (denote_lt hx)]

theorem hquery_none {s : TSt α} {i : Nat} (h : s.cache i = none) : hquery s.toHSt i = ok none := by
  unfold hquery; rw [h]

/-! ### the forward pass -/

/-- What a forward pass of `t` in object `sl` gives. -/
structure FOut (fk : Nat → FKind) (e t : Ex α) (sl : Slot) (s : TSt α) (st : St α) (x : Tn) (y : Ten α) (s' : TSt α) (st' : St α) : Prop where
  keep : Keep s s'
  gradT : s'.gradT = s.gradT
  val : denote s'.heap x = some y
  sim : Sim e s' st'
  heap : ∀ q, q < s.heap.length → (∀ τ, FwTag fk t τ → q ≠ s.loc τ) → s'.heap[q]? = s.heap[q]?
  obj : ∀ σ, ¬ InSlots t sl σ → s'.obj σ = s.obj σ
  vobj : ∀ σ, ¬ InSlots t sl σ → st'.obj σ = st.obj σ
  cache : ∀ i, i ∉ ids t → s'.cache i = s.cache i
  vcache : ∀ i, i ∉ ids t → st'.cache i = st.cache i
  vleaf : st'.leaf = st.leaf
  vdata : st'.data = st.data
  ev : eval st.leaf st.data t = ok y
  res : (∃ τ, ResTag fk t τ ∧ x.loc = s.loc τ) ∨ s.heap.length ≤ x.loc
  good : Good fk s'.heap s'.obj st'.obj t sl false
  reads : ∀ q, Reads fk s'.obj t sl false q → (∃ τ, RdTag t τ ∧ q = s.loc τ) ∨ (s.heap.length ≤ q ∧ q < s'.heap.length)
  apart : Dead fk t → ∀ q, Reads fk s'.obj t sl true q → q ≠ x.loc
  len : ∀ q, q < s.heap.length → (∀ i ∈ ids t, q ≠ s.opc i) → s'.heap[q]?.map List.length = s.heap[q]?.map List.length

theorem inSlots_id_un {i : Nat} {op : UOp α} {c : Ex α} {σ : Slot} (h : InSlots c (some (i, false)) σ) : ∃ j ∈ ids (Ex.un i op c), ∃ b, σ = some (j, b) := by
  rcases h with rfl | ⟨j, hj, b, rfl⟩
  · exact ⟨i, by simp [ids], false, rfl⟩
  · exact ⟨j, by simp [ids, hj], b, rfl⟩

theorem inSlots_id_l {i : Nat} {op : BOp α} {l r : Ex α} {σ : Slot} (h : InSlots l (some (i, false)) σ) : ∃ j ∈ ids (Ex.bin i op l r), ∃ b, σ = some (j, b) := by
  rcases h with rfl | ⟨j, hj, b, rfl⟩
  · exact ⟨i, by simp [ids], false, rfl⟩
  · exact ⟨j, by simp [ids, hj], b, rfl⟩

theorem inSlots_id_r {i : Nat} {op : BOp α} {l r : Ex α} {σ : Slot} (h : InSlots r (some (i, true)) σ) : ∃ j ∈ ids (Ex.bin i op l r), ∃ b, σ = some (j, b) := by
  rcases h with rfl | ⟨j, hj, b, rfl⟩
  · exact ⟨i, by simp [ids], true, rfl⟩
  · exact ⟨j, by simp [ids, hj], b, rfl⟩

variable [Zero α] [Add α]

/-- The claim proved by induction. -/
def FwdOk (fk : Nat → FKind) (e : Ex α) (N : Nat) (t : Ex α) : Prop :=
  ∀ (sl : Slot) (s : TSt α) (st : St α) (y : Ten α) (st' : St α), (ids t).Nodup → (∀ τ, InE t τ → InE e τ) → Safe fk t → Sound fk st.leaf st.data t →
    Lay e N s → N ≤ s.heap.length → (∀ i ∈ ids t, s.cache i = none) → (∀ i ∈ ids t, st.cache i = none) →
    (∀ k ∈ leaves t, denote s.heap (s.leafT k) = some (st.leaf k)) → Sim e s st → (∀ j b, sl = some (j, b) → j ∉ ids t) →
    forward t sl st = ok (y, st') → ∃ x s', hforward fk t sl s = ok (x, s') ∧ FOut fk e t sl s st x y s' st'

theorem fwd_leaf {fk : Nat → FKind} {e : Ex α} {N : Nat} (k : Nat) : FwdOk fk e N (.leaf k) := by
  intro sl s st y st' hnd hin hsf hps hl hN hc hvc hlf hsim hsl h
  rw [forward] at h
  obtain ⟨u, h1, h2⟩ := bind_eq_ok.mp h
  simp only [pure_eq, ok.injEq, Prod.mk.injEq] at h2
  obtain ⟨rfl, rfl⟩ := h2
  have hd := hlf k (by simp [leaves])
  refine ⟨s.leafT k, s, ?_, Keep.refl s, rfl, hd, hsim, fun q _ _ => rfl, fun _ _ => rfl, fun _ _ => rfl, fun _ _ => rfl, fun _ _ => rfl, rfl, rfl, ?_,
    Or.inl ⟨.leaf k, rfl, rfl⟩, trivial, fun q hq => hq.elim, fun _ q hq => hq.elim, fun _ _ _ => rfl⟩
  · rw [hforward, rd_ok (denote_some hd).1, bind_ok, h1, bind_ok]
    rfl
  · rw [eval, h1, bind_ok]
    rfl

theorem fwd_var {fk : Nat → FKind} {e : Ex α} {N : Nat} (v : Nat) (c : Cfg α) : FwdOk fk e N (.var v c) := by
  intro sl s st y st' hnd hin hsf hps hl hN hc hvc hlf hsim hsl h
  have hve : v ∈ vars e := hin (.var v) (by simp [InE, vars])
  have hd := hsim.var v hve
  have hg := hsim.grad v hve
  rw [forward, ok.injEq] at h
  unfold varForward at h
  by_cases ht : st.training = true
  · rw [if_pos ht] at h
    cases h
    have hlt := denote_lt hg
    have hne : ∀ w ∈ vars e, s.loc (.var w) ≠ (s.gradT v).loc := fun w hw => hl.ne (τ := .var w) (τ' := .grad v) hw hve (by simp)
    refine ⟨s.varT v, { s with heap := s.heap.set (s.gradT v).loc ((st.grad v).data.map (fun _ => 0)), sync := upd s.sync sl false }, ?_,
      ⟨rfl, rfl, rfl, rfl, fun _ => rfl, by simp, rfl⟩, rfl, ?_, ⟨fun w hw => ?_, fun w hw => ?_, ?_, hsim.training⟩, fun q hq hq' => ?_, fun _ _ => rfl, fun _ _ => rfl,
      fun _ _ => rfl, fun _ _ => rfl, rfl, rfl, rfl, Or.inl ⟨.var v, rfl, rfl⟩, trivial, fun q hq => hq.elim, fun _ q hq => hq.elim, fun q hq _ => ?_⟩
    · rw [hforward]
      unfold hvarForward
      rw [if_pos (hsim.training.trans ht), rd_ok (denote_some hg).1, bind_ok, wr_ok hlt, bind_ok]
      rfl
    · dsimp only
      rw [denote_congr (h := s.heap) (List.getElem?_set_ne (hne v hve).symm)]
      exact hd
    · dsimp only
      rw [denote_congr (h := s.heap) (List.getElem?_set_ne (hne w hw).symm)]
      exact hsim.var w hw
    · dsimp only
      by_cases hwv : w = v
      · subst hwv
        rw [upd_same]
        simp [denote, hlt, (denote_some hg).2]
      · have hgg : (s.gradT v).loc ≠ (s.gradT w).loc := hl.ne (τ := .grad v) (τ' := .grad w) hve hw (by simpa using Ne.symm hwv)
        rw [upd_ne _ _ hwv, denote_congr (h := s.heap) (List.getElem?_set_ne hgg)]
        exact hsim.grad w hw
    · dsimp only
      rw [hsim.sync]
    · exact List.getElem?_set_ne (fun he => hq' (.grad v) (by simp [FwTag, vars]) he.symm)
    · dsimp only
      by_cases hqg : q = (s.gradT v).loc
      · subst hqg
        rw [List.getElem?_set_self hlt, (denote_some hg).1]
        simp
      · rw [List.getElem?_set_ne (Ne.symm hqg)]
  · rw [if_neg ht] at h
    cases h
    refine ⟨s.varT v, s, ?_, Keep.refl s, rfl, hd, hsim, fun _ _ _ => rfl, fun _ _ => rfl, fun _ _ => rfl, fun _ _ => rfl, fun _ _ => rfl, rfl, rfl, rfl,
      Or.inl ⟨.var v, rfl, rfl⟩, trivial, fun q hq => hq.elim, fun _ q hq => hq.elim, fun _ _ _ => rfl⟩
    rw [hforward]
    unfold hvarForward
    rw [if_neg (by rw [hsim.training]; exact ht)]

theorem fwd_un {fk : Nat → FKind} {e : Ex α} {N : Nat} {i : Nat} {op : UOp α} {c : Ex α} (ih : FwdOk fk e N c) : FwdOk fk e N (.un i op c) := by
  intro sl s st y st' hnd hin hsf hps hl hN hc hvc hlf hsim hsl h
  obtain ⟨x0, st1, hf, hop, v1, v2, v3, v4, v5, v6, v7, v8, v9⟩ := forward_un_inv (hvc i (by simp [ids])) h
  have hic : i ∉ ids c := (List.nodup_cons.mp hnd).1
  have hinc : ∀ τ, InE c τ → InE e τ := by
    intro τ hτ
    refine hin τ ?_
    cases τ with
    | leaf k => exact hτ
    | var v => exact hτ
    | grad v => exact hτ
    | opc j => exact List.mem_cons_of_mem _ hτ
    | bopc j b => exact List.mem_cons_of_mem _ hτ
  have hie : InE e (.opc i) := hin (.opc i) (by simp [InE, ids])
  obtain ⟨x, s1, h1, o⟩ := ih (some (i, false)) s { st with obj := upd st.obj sl { st.obj sl with out := noTensor } } x0 st1 (List.nodup_cons.mp hnd).2 hinc hsf.1 hps.1 hl hN
    (fun j hj => hc j (by simp [ids, hj])) (fun j hj => hvc j (by simp [ids, hj])) hlf ⟨hsim.var, hsim.grad, hsim.sync, hsim.training⟩
    (fun j b hj => by simp only [Option.some.injEq, Prod.mk.injEq] at hj; rw [← hj.1]; exact hic) hf
  have hol : s1.opc i < s1.heap.length := by
    have := hl.lt _ hie
    have := o.keep.grow
    rw [o.keep.opc]
    simp only [TSt.loc] at *
    omega
  obtain ⟨t, h', p1, p2, p3, p4, p5, p6⟩ := put_ok (fk := fk) (i := i) o.val hol (fun hs => hps.2 hs _ _ o.ev hop)
  rw [o.keep.opc] at p4 p6
  -- the storages of the operand
  have hxr : (∃ τ, RdTag c τ ∧ x.loc = s.loc τ) ∨ (s.heap.length ≤ x.loc ∧ x.loc < s1.heap.length) := by
    rcases o.res with ⟨τ, a, b⟩ | a
    · exact Or.inl ⟨τ, resTag_rd a, b⟩
    · exact Or.inr ⟨a, denote_lt o.val⟩
  have hreg : ∀ q, (∃ τ, RdTag c τ ∧ q = s.loc τ) ∨ (s.heap.length ≤ q ∧ q < s1.heap.length) → q < s1.heap.length ∧ q ≠ s.opc i := by
    rintro q (⟨τ, a, rfl⟩ | ⟨a, b⟩)
    · have := hl.lt _ (hinc _ (rdTag_in a))
      have := o.keep.grow
      refine ⟨by omega, hl.ne (τ' := .opc i) (hinc _ (rdTag_in a)) hie ?_⟩
      rintro rfl
      exact hic a
    · refine ⟨b, ?_⟩
      have := hl.lt _ hie
      simp only [TSt.loc] at this
      omega
  have hch : ∀ q, (∃ τ, RdTag c τ ∧ q = s.loc τ) ∨ (s.heap.length ≤ q ∧ q < s1.heap.length) → h'[q]? = s1.heap[q]? :=
    fun q hq => p4 q (hreg q hq).1 (fun _ => (hreg q hq).2)
  have hslot : ∀ σ, InSlots c (some (i, false)) σ → σ ≠ sl := by
    intro σ hσ he
    obtain ⟨j, hj, b, rfl⟩ := inSlots_id_un (op := op) hσ
    exact hsl j b he.symm hj
  have hnsl : ¬ InSlots c (some (i, false)) sl := fun h => hslot sl h rfl
  have hxv : denote h' x = some x0 := by rw [denote_congr (hch _ hxr)]; exact o.val
  let s' : TSt α := { s1 with heap := h', cache := upd s1.cache i (some t), obj := upd s1.obj sl { s1.obj sl with inL := x, out := t } }
  have hob : ∀ σ, InSlots c (some (i, false)) σ → s'.obj σ = s1.obj σ := fun σ hσ => upd_ne _ _ (hslot σ hσ)
  have hk : Keep s s' := o.keep.trans ⟨rfl, rfl, rfl, rfl, fun _ => rfl, p3, rfl⟩
  have hos : s'.obj sl = { s1.obj sl with inL := x, out := t } := upd_same _ _ _
  have hgc : Good fk h' s'.obj st'.obj c (some (i, false)) false :=
    good_congr p3 c (fun q hq => hch q (o.reads q hq)) hob (fun σ hσ => v9 σ (hslot σ hσ)) o.good
  have hres : (∃ τ, ResTag fk (.un i op c) τ ∧ t.loc = s.loc τ) ∨ s.heap.length ≤ t.loc := by
    by_cases hs : fk i = .share
    · rw [p5 hs]
      rcases o.res with ⟨τ, a, b⟩ | a
      · refine Or.inl ⟨τ, ?_, b⟩
        cases τ with
        | leaf k => simp only [ResTag, endOf, if_pos hs]; exact a
        | var v => simp only [ResTag, endOf, if_pos hs]; exact a
        | opc j => exact List.mem_cons_of_mem _ a
        | grad v => exact a.elim
        | bopc j b => exact a.elim
      · exact Or.inr a
    · rcases p6 hs with ⟨_, a⟩ | a
      · exact Or.inl ⟨.opc i, by simp [ResTag, ids], a⟩
      · exact Or.inr (o.keep.grow.trans a)
  have rdup : ∀ τ, RdTag c τ → RdTag (.un i op c) τ := by
    intro τ hτ
    cases τ with
    | leaf k => exact hτ
    | var v => exact hτ
    | opc j => exact List.mem_cons_of_mem _ hτ
    | grad v => exact hτ.elim
    | bopc j b => exact hτ.elim
  have hup : ∀ q, (∃ τ, RdTag c τ ∧ q = s.loc τ) ∨ (s.heap.length ≤ q ∧ q < s1.heap.length) → (∃ τ, RdTag (.un i op c) τ ∧ q = s.loc τ) ∨ (s.heap.length ≤ q ∧ q < h'.length) := by
    rintro q (⟨τ, a, b⟩ | ⟨a, b⟩)
    · exact Or.inl ⟨τ, rdup τ a, b⟩
    · exact Or.inr ⟨a, by omega⟩
  refine ⟨t, s', ?_, hk, o.gradT, p2, ?_, fun q hq hq' => ?_, fun σ hσ => ?_, fun σ hσ => ?_, fun j hj => ?_, fun j hj => ?_, by rw [v1, o.vleaf], by rw [v2, o.vdata], ?_, hres, ?_,
    fun q hq => ?_, fun hd q hq => ?_, fun q hq hq' => ?_⟩
  · rw [hforward, hquery_none (hc i (by simp [ids])), bind_ok]
    dsimp only
    rw [h1, bind_ok]
    dsimp only
    rw [readT_ok o.val, bind_ok, hop, bind_ok, p1, bind_ok]
    rfl
  · refine o.sim.frame rfl rfl rfl rfl ⟨v2, v3, v4, v5⟩ (fun v hv => ?_)
    have key : ∀ τ, InE e τ → τ ≠ .opc i → h'[s1.loc τ]? = s1.heap[s1.loc τ]? := by
      intro τ hτ hne
      rw [o.keep.loc]
      have := hl.lt _ hτ
      have := o.keep.grow
      exact p4 _ (by omega) (fun _ => hl.ne (τ' := .opc i) hτ hie hne)
    exact ⟨key (.var v) hv (by simp), key (.grad v) hv (by simp)⟩
  · have hg := o.keep.grow
    have hne : q ≠ s.opc i := hq' (.opc i) (by simp [FwTag, ids])
    show h'[q]? = _
    rw [p4 q (by omega) (fun _ => hne)]
    refine o.heap q hq (fun τ hτ => hq' τ ?_)
    cases τ with
    | leaf k => exact hτ
    | grad v => exact hτ
    | opc j => exact List.mem_cons_of_mem _ hτ
    | var v => exact hτ.elim
    | bopc j b => exact hτ.elim
  · have : σ ≠ sl := fun h => hσ (Or.inl h)
    exact (upd_ne _ _ this).trans (o.obj σ (fun h => hσ (slots_un h)))
  · have : σ ≠ sl := fun h => hσ (Or.inl h)
    rw [v9 σ this, o.vobj σ (fun h => hσ (slots_un h))]
    exact upd_ne _ _ this
  · simp only [ids, List.mem_cons, not_or] at hj
    exact (upd_ne _ _ hj.1).trans (o.cache j hj.2)
  · simp only [ids, List.mem_cons, not_or] at hj
    rw [v6, upd_ne _ _ hj.1]
    exact o.vcache j hj.2
  · rw [eval]
    have := o.ev
    dsimp only at this
    rw [this, bind_ok, hop]
  · rw [Good]
    show (∃ x, denote h' (s'.obj sl).inL = some x ∧ _) ∧ (∃ y, denote h' (s'.obj sl).out = some y ∧ _) ∧ Good fk h' s'.obj st'.obj c _ _
    rw [hos]
    exact ⟨⟨x0, hxv, by rw [v7], fun _ => v7.symm⟩, ⟨y, p2, fun _ _ => v8.symm⟩, hgc⟩
  · rw [Reads, hos] at hq
    rcases hq with ⟨_, rfl⟩ | ⟨_, _, rfl⟩ | hq
    · exact hup _ hxr
    · rcases hres with ⟨τ, a, b⟩ | a
      · exact Or.inl ⟨τ, resTag_rd a, b⟩
      · exact Or.inr ⟨a, denote_lt p2⟩
    · exact hup _ (o.reads q (reads_congr c hob hq))
  · rw [Reads, hos] at hq
    rw [Dead] at hd
    by_cases hs : fk i = .share
    · rw [if_pos hs] at hd
      simp only [hs, ne_eq, not_true_eq_false, false_and, false_or, decide_true, Bool.and_true] at hq
      rw [p5 hs]
      exact o.apart hd q (reads_congr c hob hq)
    · simp only [hs, ne_eq, not_false_eq_true, true_and, Bool.true_eq_false, false_and, false_or, decide_false, Bool.and_false] at hq
      have hq2 : q < s1.heap.length ∧ q ≠ s.opc i := by
        rcases hq with rfl | hq
        · exact hreg _ hxr
        · exact hreg q (o.reads q (reads_congr c hob hq))
      rcases p6 hs with ⟨_, a⟩ | a
      · rw [a]; exact hq2.2
      · omega
  · show h'[q]?.map List.length = _
    rw [p4 q (lt_of_lt_of_le hq o.keep.grow) (fun _ => hq' i (by simp [ids]))]
    exact o.len q hq (fun j hj => hq' j (by simp [ids, hj]))

theorem fwd_bin {fk : Nat → FKind} {e : Ex α} {N : Nat} {i : Nat} {op : BOp α} {l r : Ex α} (ihl : FwdOk fk e N l) (ihr : FwdOk fk e N r) : FwdOk fk e N (.bin i op l r) := by
  intro sl s st z st' hnd hin hsf hps hl hN hc hvc hlf hsim hsl h
  obtain ⟨x0, st1, y0, st2, hf1, hf2, hop, v1, v2, v3, v4, v5, v6, v7, v8, v8', v9⟩ := forward_bin_inv (hvc i (by simp [ids])) h
  obtain ⟨hsfl, hsfr, hkl, hkr, hsp⟩ := hsf
  obtain ⟨hpl, hpr, hpp⟩ := hps
  rw [ids, List.nodup_cons, List.nodup_append] at hnd
  obtain ⟨hi, hndl, hndr, hdis⟩ := hnd
  rw [List.mem_append, not_or] at hi
  obtain ⟨hil, hir⟩ := hi
  have hdis' : ∀ j, j ∈ ids l → j ∉ ids r := fun j h1 h2 => hdis j h1 j h2 rfl
  have hinl : ∀ τ, InE l τ → InE e τ := by
    intro τ hτ
    refine hin τ ?_
    cases τ with
    | leaf k => exact List.mem_append_left _ hτ
    | var v => exact List.mem_append_left _ hτ
    | grad v => exact List.mem_append_left _ hτ
    | opc j => exact List.mem_cons_of_mem _ (List.mem_append_left _ hτ)
    | bopc j b => exact List.mem_cons_of_mem _ (List.mem_append_left _ hτ)
  have hinr : ∀ τ, InE r τ → InE e τ := by
    intro τ hτ
    refine hin τ ?_
    cases τ with
    | leaf k => exact List.mem_append_right _ hτ
    | var v => exact List.mem_append_right _ hτ
    | grad v => exact List.mem_append_right _ hτ
    | opc j => exact List.mem_cons_of_mem _ (List.mem_append_right _ hτ)
    | bopc j b => exact List.mem_cons_of_mem _ (List.mem_append_right _ hτ)
  have hie : InE e (.opc i) := hin (.opc i) (by simp [InE, ids])
  obtain ⟨x, s1, h1, o⟩ := ihl (some (i, false)) s { st with obj := upd st.obj sl { st.obj sl with out := noTensor } } x0 st1 hndl hinl hsfl hpl hl hN
    (fun j hj => hc j (by simp [ids, hj])) (fun j hj => hvc j (by simp [ids, hj])) (fun k hk => hlf k (by simp [leaves, hk])) ⟨hsim.var, hsim.grad, hsim.sync, hsim.training⟩
    (fun j b hj => by simp only [Option.some.injEq, Prod.mk.injEq] at hj; rw [← hj.1]; exact hil) hf1
  have hvl : st1.leaf = st.leaf := o.vleaf
  have hvd : st1.data = st.data := o.vdata
  -- the right operand's place holders are untouched by the left operand
  have hleafr : ∀ k ∈ leaves r, denote s1.heap (s1.leafT k) = some (st1.leaf k) := by
    intro k hk
    rw [o.keep.leafT, hvl, denote_congr (h := s.heap), hlf k (by simp [leaves, hk])]
    have hke : InE e (.leaf k) := hinr (.leaf k) hk
    refine o.heap _ ?_ (fun τ hτ => hl.ne (τ := .leaf k) hke (hinl τ (fwTag_in hτ)) ?_)
    · have := hl.lt _ hke
      simp only [TSt.loc] at this
      omega
    · rintro rfl
      exact hkl k hτ hk
  obtain ⟨y, s2, h2, o2⟩ := ihr (some (i, true)) s1 { st1 with obj := upd st1.obj sl { st1.obj sl with inL := x0 } } y0 st2 hndr hinr hsfr (by dsimp only; rw [hvl, hvd]; exact hpr) (hl.keep o.keep)
    (hN.trans o.keep.grow) (fun j hj => by rw [o.cache j (fun h => hdis' j h hj)]; exact hc j (by simp [ids, hj]))
    (fun j hj => (o.vcache j (fun h => hdis' j h hj)).trans (hvc j (by simp [ids, hj]))) hleafr ⟨o.sim.var, o.sim.grad, o.sim.sync, o.sim.training⟩
    (fun j b hj => by simp only [Option.some.injEq, Prod.mk.injEq] at hj; rw [← hj.1]; exact hir) hf2
  have hk2 : Keep s s2 := o.keep.trans o2.keep
  have g1 := o.keep.grow
  have g2 := o2.keep.grow
  -- the storages of the operands
  have hxr : (∃ τ, RdTag l τ ∧ x.loc = s.loc τ) ∨ (s.heap.length ≤ x.loc ∧ x.loc < s1.heap.length) := by
    rcases o.res with ⟨τ, a, b⟩ | a
    · exact Or.inl ⟨τ, resTag_rd a, b⟩
    · exact Or.inr ⟨a, denote_lt o.val⟩
  have hyr : (∃ τ, RdTag r τ ∧ y.loc = s.loc τ) ∨ (s1.heap.length ≤ y.loc ∧ y.loc < s2.heap.length) := by
    rcases o2.res with ⟨τ, a, b⟩ | a
    · exact Or.inl ⟨τ, resTag_rd a, by rw [b, o.keep.loc]⟩
    · exact Or.inr ⟨a, denote_lt o2.val⟩
  have hrr : ∀ q, Reads fk s2.obj r (some (i, true)) false q → (∃ τ, RdTag r τ ∧ q = s.loc τ) ∨ (s1.heap.length ≤ q ∧ q < s2.heap.length) := by
    intro q hq
    rcases o2.reads q hq with ⟨τ, a, b⟩ | a
    · exact Or.inl ⟨τ, a, by rw [b, o.keep.loc]⟩
    · exact Or.inr a
  -- the right operand leaves the left operand's storages alone
  have hch : ∀ q, (∃ τ, RdTag l τ ∧ q = s.loc τ) ∨ (s.heap.length ≤ q ∧ q < s1.heap.length) → s2.heap[q]? = s1.heap[q]? := by
    rintro q (⟨τ, a, rfl⟩ | ⟨a, b⟩)
    · have := hl.lt _ (hinl _ (rdTag_in a))
      refine o2.heap _ (by omega) (fun τ' hτ' => ?_)
      rw [o.keep.loc]
      refine hl.ne (hinl _ (rdTag_in a)) (hinr _ (fwTag_in hτ')) ?_
      rintro rfl
      cases τ with
      | leaf k => exact hkr k hτ' a
      | var v => exact hτ'
      | opc j => exact hdis' j a hτ'
      | grad v => exact a
      | bopc j b => exact a
    · refine o2.heap q b (fun τ' hτ' => ?_)
      have := hl.lt _ (hinr _ (fwTag_in hτ'))
      rw [o.keep.loc]
      omega
  have hxv2 : denote s2.heap x = some x0 := by rw [denote_congr (hch _ hxr)]; exact o.val
  have hslotl : ∀ σ, InSlots l (some (i, false)) σ → σ ≠ sl := by
    intro σ hσ he
    obtain ⟨j, hj, b, rfl⟩ := inSlots_id_l (op := op) (r := r) hσ
    exact hsl j b he.symm hj
  have hslotr : ∀ σ, InSlots r (some (i, true)) σ → σ ≠ sl := by
    intro σ hσ he
    obtain ⟨j, hj, b, rfl⟩ := inSlots_id_r (op := op) (l := l) hσ
    exact hsl j b he.symm hj
  have hslotlr : ∀ σ, InSlots l (some (i, false)) σ → ¬ InSlots r (some (i, true)) σ := by
    rintro σ (rfl | ⟨j, hj, b, rfl⟩) (h | ⟨j', hj', b', h⟩)
    · simp at h
    · simp only [Option.some.injEq, Prod.mk.injEq] at h; rw [← h.1] at hj'; exact hir hj'
    · simp only [Option.some.injEq, Prod.mk.injEq] at h; rw [h.1] at hj; exact hil hj
    · simp only [Option.some.injEq, Prod.mk.injEq] at h; rw [← h.1] at hj'; exact hdis' j hj hj'
  have hobl : ∀ σ, InSlots l (some (i, false)) σ → s2.obj σ = s1.obj σ := fun σ hσ => o2.obj σ (hslotlr σ hσ)
  -- the operation
  have hol : s2.opc i < s2.heap.length := by
    have := hl.lt _ hie
    rw [hk2.opc]
    simp only [TSt.loc] at *
    omega
  have hev1 : eval st.leaf st.data l = ok x0 := o.ev
  have hev2 : eval st.leaf st.data r = ok y0 := by
    have := o2.ev
    dsimp only at this
    rw [hvl, hvd] at this
    exact this
  obtain ⟨t, h', w, p1, p2, p3, p4, p5, hw, hwl, hwres, hwlen⟩ : ∃ t h' w, apply2 fk i op x y s2 = ok (t, h') ∧ denote h' t = some z ∧ s2.heap.length ≤ h'.length ∧ (∀ q, q < s2.heap.length → q ≠ w → h'[q]? = s2.heap[q]?) ∧
        (t.loc = w ∨ s2.heap.length ≤ t.loc) ∧
        ((∃ τ, FwTag fk (.bin i op l r) τ ∧ ResTag fk (.bin i op l r) τ ∧ ¬ RdTag r τ ∧ w = s.loc τ) ∨ (s.heap.length ≤ w ∧ w < s1.heap.length)) ∧
        (∀ q, Reads fk s1.obj l (some (i, false)) (decide (fk i = .plus)) q → q ≠ w) ∧ (fk i ≠ .plus → x.loc ≠ w ∧ y.loc ≠ w) ∧
        (w = s2.opc i ∨ h'[w]?.map List.length = s2.heap[w]?.map List.length) := by
    unfold apply2
    by_cases hp : fk i = .plus
    · obtain ⟨⟨hplus, _⟩, hdead, hend⟩ := hsp hp
      rw [if_pos hp]
      obtain ⟨⟨wx, mx⟩, wy, my⟩ := hpp hp x0 y0 hev1 hev2
      rw [hplus] at hop
      obtain ⟨t, h', k1, k2, k3, k4, k5, k6⟩ := plus_heap hxv2 o2.val wx mx wy my hop
      refine ⟨t, h', x.loc, k1, k2, k3, k4, k5, ?_, ?_, fun h => absurd hp h, Or.inr k6⟩
      · rcases o.res with ⟨τ, a, b⟩ | a
        · refine Or.inl ⟨τ, ?_, ?_, ?_, b⟩
          · cases τ with
            | leaf k =>
              have a' : endOf fk l = .leaf k := a
              simp only [FwTag, killed, List.mem_append, if_pos hp, a']
              exact Or.inr (by simp)
            | var v => exact (dead_not_var l hdead a).elim
            | opc j => exact List.mem_cons_of_mem _ (List.mem_append_left _ a)
            | grad v => exact a.elim
            | bopc j b => exact a.elim
          · cases τ with
            | leaf k => simp only [ResTag, endOf, if_pos hp]; exact a
            | var v => simp only [ResTag, endOf, if_pos hp]; exact a
            | opc j => exact List.mem_cons_of_mem _ (List.mem_append_left _ a)
            | grad v => exact a.elim
            | bopc j b => exact a.elim
          · cases τ with
            | leaf k => exact hend k a
            | var v => exact (dead_not_var l hdead a).elim
            | opc j => exact hdis' j a
            | grad v => exact a.elim
            | bopc j b => exact a.elim
        · exact Or.inr ⟨a, denote_lt o.val⟩
      · intro q hq
        rw [hp] at hq
        exact o.apart hdead q hq
    · rw [if_neg hp]
      obtain ⟨t, h', k1, k2, k3, k4, k5⟩ := put2_ok (fk := fk) (i := i) (y := z) hol
      have nel : ∀ q, (∃ τ, RdTag l τ ∧ q = s.loc τ) ∨ (s.heap.length ≤ q ∧ q < s1.heap.length) → q ≠ s2.opc i := by
        rw [hk2.opc]
        rintro q (⟨τ, a, rfl⟩ | ⟨a, b⟩)
        · exact hl.ne (τ' := .opc i) (hinl _ (rdTag_in a)) hie (by rintro rfl; exact hil a)
        · have := hl.lt _ hie
          simp only [TSt.loc] at this
          omega
      have ner : ∀ q, (∃ τ, RdTag r τ ∧ q = s.loc τ) ∨ (s1.heap.length ≤ q ∧ q < s2.heap.length) → q ≠ s2.opc i := by
        rw [hk2.opc]
        rintro q (⟨τ, a, rfl⟩ | ⟨a, b⟩)
        · exact hl.ne (τ' := .opc i) (hinr _ (rdTag_in a)) hie (by rintro rfl; exact hir a)
        · have := hl.lt _ hie
          simp only [TSt.loc] at this
          omega
      refine ⟨t, h', s2.opc i, ?_, k2, k3, k4, k5, ?_, ?_, fun _ => ⟨nel _ hxr, ner _ hyr⟩, Or.inl rfl⟩
      · rw [readT_ok hxv2, bind_ok, readT_ok o2.val, bind_ok, hop, bind_ok, k1]
      · refine Or.inl ⟨.opc i, by simp [FwTag, ids], by simp [ResTag, ids], hir, ?_⟩
        rw [hk2.opc]
        rfl
      · intro q hq
        exact nel q (o.reads q (reads_kill l hq))
  -- afterwards
  have nwr : ∀ q, (∃ τ, RdTag r τ ∧ q = s.loc τ) ∨ (s1.heap.length ≤ q ∧ q < s2.heap.length) → q < s2.heap.length ∧ q ≠ w := by
    rintro q (⟨τ, a, rfl⟩ | ⟨a, b⟩)
    · have h3 := hl.lt _ (hinr _ (rdTag_in a))
      refine ⟨by omega, ?_⟩
      rcases hw with ⟨τ', c1, c2, c3, rfl⟩ | ⟨c1, c2⟩
      · exact hl.ne (hinr _ (rdTag_in a)) (hin _ (fwTag_in c1)) (by rintro rfl; exact c3 a)
      · omega
    · refine ⟨b, ?_⟩
      rcases hw with ⟨τ', c1, c2, c3, rfl⟩ | ⟨c1, c2⟩
      · have := hl.lt _ (hin _ (fwTag_in c1))
        omega
      · omega
  have rdlt : ∀ q, (∃ τ, RdTag l τ ∧ q = s.loc τ) ∨ (s.heap.length ≤ q ∧ q < s1.heap.length) → q < s2.heap.length := by
    rintro q (⟨τ, a, rfl⟩ | ⟨a, b⟩)
    · have h3 := hl.lt _ (hinl _ (rdTag_in a))
      omega
    · omega
  let s' : TSt α := { s2 with heap := h', cache := upd s2.cache i (some t), obj := upd s2.obj sl ⟨x, y, t⟩ }
  have hos : s'.obj sl = ⟨x, y, t⟩ := upd_same _ _ _
  have hobl' : ∀ σ, InSlots l (some (i, false)) σ → s'.obj σ = s1.obj σ := fun σ hσ => (upd_ne _ _ (hslotl σ hσ)).trans (hobl σ hσ)
  have hobr' : ∀ σ, InSlots r (some (i, true)) σ → s'.obj σ = s2.obj σ := fun σ hσ => upd_ne _ _ (hslotr σ hσ)
  have hvbl : ∀ σ, InSlots l (some (i, false)) σ → st'.obj σ = st1.obj σ := by
    intro σ hσ
    rw [v9 σ (hslotl σ hσ), o2.vobj σ (hslotlr σ hσ)]
    exact upd_ne _ _ (hslotl σ hσ)
  have hvx : (st'.obj sl).inL = x0 := by
    rw [v7, o2.vobj sl (fun h => hslotr sl h rfl)]
    simp [upd]
  have hk : Keep s s' := hk2.trans ⟨rfl, rfl, rfl, rfl, fun _ => rfl, p3, rfl⟩
  have hgl : Good fk h' s'.obj st'.obj l (some (i, false)) (decide (fk i = .plus)) := by
    refine good_congr (h := s1.heap) (g2.trans p3) l (fun q hq => ?_) hobl' hvbl (good_kill l o.good _)
    have hr := o.reads q (reads_kill l hq)
    rw [p4 q (rdlt q hr) (hwl q hq), hch q hr]
  have hgr : Good fk h' s'.obj st'.obj r (some (i, true)) false := by
    refine good_congr (h := s2.heap) p3 r (fun q hq => ?_) hobr' (fun σ hσ => v9 σ (hslotr σ hσ)) o2.good
    have hr := nwr q (hrr q hq)
    exact p4 q hr.1 hr.2
  have hres : (∃ τ, ResTag fk (.bin i op l r) τ ∧ t.loc = s.loc τ) ∨ s.heap.length ≤ t.loc := by
    rcases p5 with hw' | hw'
    · rcases hw with ⟨τ, c1, c2, c3, c4⟩ | ⟨c1, c2⟩
      · exact Or.inl ⟨τ, c2, by rw [hw', c4]⟩
      · exact Or.inr (by omega)
    · exact Or.inr (by omega)
  have hupl : ∀ q, (∃ τ, RdTag l τ ∧ q = s.loc τ) ∨ (s.heap.length ≤ q ∧ q < s1.heap.length) → (∃ τ, RdTag (.bin i op l r) τ ∧ q = s.loc τ) ∨ (s.heap.length ≤ q ∧ q < h'.length) := by
    rintro q (⟨τ, a, b⟩ | ⟨a, b⟩)
    · refine Or.inl ⟨τ, ?_, b⟩
      cases τ with
      | leaf k => exact List.mem_append_left _ a
      | var v => exact List.mem_append_left _ a
      | opc j => exact List.mem_cons_of_mem _ (List.mem_append_left _ a)
      | grad v => exact a.elim
      | bopc j b => exact a.elim
    · exact Or.inr ⟨a, by omega⟩
  have hupr : ∀ q, (∃ τ, RdTag r τ ∧ q = s.loc τ) ∨ (s1.heap.length ≤ q ∧ q < s2.heap.length) → (∃ τ, RdTag (.bin i op l r) τ ∧ q = s.loc τ) ∨ (s.heap.length ≤ q ∧ q < h'.length) := by
    rintro q (⟨τ, a, b⟩ | ⟨a, b⟩)
    · refine Or.inl ⟨τ, ?_, b⟩
      cases τ with
      | leaf k => exact List.mem_append_right _ a
      | var v => exact List.mem_append_right _ a
      | opc j => exact List.mem_cons_of_mem _ (List.mem_append_right _ a)
      | grad v => exact a.elim
      | bopc j b => exact a.elim
    · exact Or.inr ⟨by omega, by omega⟩
  refine ⟨t, s', ?_, hk, by show s2.gradT = _; rw [o2.gradT, o.gradT], p2, ?_, fun q hq hq' => ?_, fun σ hσ => ?_, fun σ hσ => ?_, fun j hj => ?_, fun j hj => ?_, ?_, ?_, ?_, hres, ?_,
    fun q hq => ?_, fun hd q hq => ?_, fun q hq hq' => ?_⟩
  · rw [hforward, hquery_none (hc i (by simp [ids])), bind_ok]
    dsimp only
    rw [h1, bind_ok]
    dsimp only
    rw [h2, bind_ok]
    dsimp only
    rw [p1, bind_ok]
    rfl
  · refine o2.sim.frame rfl rfl rfl rfl ⟨v2, v3, v4, v5⟩ (fun v hv => ?_)
    have key : ∀ τ, InE e τ → (∀ τ', FwTag fk (.bin i op l r) τ' → ResTag fk (.bin i op l r) τ' → τ ≠ τ') → h'[s2.loc τ]? = s2.heap[s2.loc τ]? := by
      intro τ hτ hne
      rw [hk2.loc]
      have := hl.lt _ hτ
      refine p4 _ (by omega) ?_
      rcases hw with ⟨τ', c1, c2, c3, rfl⟩ | ⟨c1, c2⟩
      · exact hl.ne hτ (hin _ (fwTag_in c1)) (hne τ' c1 c2)
      · omega
    exact ⟨key (.var v) hv (by rintro τ' a b rfl; exact a), key (.grad v) hv (by rintro τ' a b rfl; exact b)⟩
  · show h'[q]? = _
    have hqw : q ≠ w := by
      rcases hw with ⟨τ', c1, c2, c3, rfl⟩ | ⟨c1, c2⟩
      · exact hq' τ' c1
      · omega
    rw [p4 q (by omega) hqw, o2.heap q (by omega) (fun τ hτ => ?_), o.heap q hq (fun τ hτ => hq' τ ?_)]
    · cases τ with
      | leaf k => simp only [FwTag, killed, List.mem_append]; exact Or.inl (Or.inl hτ)
      | grad v => exact List.mem_append_left _ hτ
      | opc j => exact List.mem_cons_of_mem _ (List.mem_append_left _ hτ)
      | var v => exact hτ.elim
      | bopc j b => exact hτ.elim
    · rw [o.keep.loc]
      refine hq' τ ?_
      cases τ with
      | leaf k => simp only [FwTag, killed, List.mem_append]; exact Or.inl (Or.inr hτ)
      | grad v => exact List.mem_append_right _ hτ
      | opc j => exact List.mem_cons_of_mem _ (List.mem_append_right _ hτ)
      | var v => exact hτ.elim
      | bopc j b => exact hτ.elim
  · have : σ ≠ sl := fun h => hσ (Or.inl h)
    exact (upd_ne _ _ this).trans ((o2.obj σ (fun h => hσ (slots_r h))).trans (o.obj σ (fun h => hσ (slots_l h))))
  · have hne : σ ≠ sl := fun h => hσ (Or.inl h)
    rw [v9 σ hne, o2.vobj σ (fun h => hσ (slots_r h))]
    dsimp only
    rw [upd_ne _ _ hne, o.vobj σ (fun h => hσ (slots_l h))]
    exact upd_ne _ _ hne
  · simp only [ids, List.mem_cons, List.mem_append, not_or] at hj
    exact (upd_ne _ _ hj.1).trans ((o2.cache j hj.2.2).trans (o.cache j hj.2.1))
  · simp only [ids, List.mem_cons, List.mem_append, not_or] at hj
    rw [v6, upd_ne _ _ hj.1, o2.vcache j hj.2.2]
    exact o.vcache j hj.2.1
  · rw [v1, o2.vleaf]; exact hvl
  · rw [v2, o2.vdata]; exact hvd
  · rw [eval, hev1, bind_ok, hev2, bind_ok, hop]
  · rw [Good]
    show (∃ x, denote h' (s'.obj sl).inL = some x ∧ _) ∧ (∃ y, denote h' (s'.obj sl).inR = some y ∧ _) ∧ (∃ y, denote h' (s'.obj sl).out = some y ∧ _) ∧
      Good fk h' s'.obj st'.obj l _ _ ∧ Good fk h' s'.obj st'.obj r _ _
    rw [hos]
    dsimp only
    refine ⟨?_, ?_, ⟨z, p2, fun _ _ => v8'.symm⟩, hgl, hgr⟩
    · by_cases hp : fk i = .plus
      · obtain ⟨x', e1, e2⟩ := denote_grow p3 hxv2
        exact ⟨x', e1, by rw [e2, hvx], fun h => absurd hp h⟩
      · exact ⟨x0, by rw [denote_congr (p4 _ (rdlt _ hxr) (hwres hp).1)]; exact hxv2, by rw [hvx], fun _ => hvx.symm⟩
    · by_cases hp : fk i = .plus
      · obtain ⟨x', e1, e2⟩ := denote_grow p3 o2.val
        exact ⟨x', e1, by rw [e2, v8], fun h => absurd hp h⟩
      · exact ⟨y0, by rw [denote_congr (p4 _ (nwr _ hyr).1 (hwres hp).2)]; exact o2.val, by rw [v8], fun _ => v8.symm⟩
  · rw [Reads, hos] at hq
    rcases hq with ⟨_, rfl⟩ | ⟨_, rfl⟩ | ⟨_, _, rfl⟩ | hq | hq
    · exact hupl _ hxr
    · exact hupr _ hyr
    · rcases hres with ⟨τ, a, b⟩ | a
      · exact Or.inl ⟨τ, resTag_rd a, b⟩
      · exact Or.inr ⟨a, denote_lt p2⟩
    · exact hupl _ (o.reads q (reads_kill l (reads_congr l hobl' hq)))
    · exact hupr _ (hrr q (reads_congr r hobr' hq))
  · rw [Reads, hos] at hq
    have hnew : q < s2.heap.length ∧ q ≠ w → q ≠ t.loc := by
      rintro ⟨a, b⟩
      rcases p5 with hw' | hw'
      · rw [hw']; exact b
      · omega
    rcases hq with ⟨hp, rfl⟩ | ⟨hp, rfl⟩ | ⟨_, hf, _⟩ | hq | hq
    · exact hnew ⟨rdlt _ hxr, (hwres hp).1⟩
    · exact hnew ⟨(nwr _ hyr).1, (hwres hp).2⟩
    · cases hf
    · have hq2 := reads_congr l hobl' hq
      exact hnew ⟨rdlt q (o.reads q (reads_kill l hq2)), hwl q hq2⟩
    · exact hnew (nwr q (hrr q (reads_congr r hobr' hq)))
  · show h'[q]?.map List.length = _
    have e1 : h'[q]?.map List.length = s2.heap[q]?.map List.length := by
      by_cases hqw : q = w
      · rcases hwlen with h3 | h3
        · exact absurd (hqw.trans (h3.trans (by rw [hk2.opc]))) (hq' i (by simp [ids]))
        · rw [hqw]; exact h3
      · rw [p4 q (by omega) hqw]
    rw [e1, o2.len q (by omega) (fun j hj => by rw [o.keep.opc]; exact hq' j (by simp [ids, hj]))]
    exact o.len q hq (fun j hj => hq' j (by simp [ids, hj]))

/-- The forward pass on shared storages follows the forward pass by value. -/
theorem fwd_ok {fk : Nat → FKind} {e : Ex α} {N : Nat} (t : Ex α) : FwdOk fk e N t := by
  induction t with
  | leaf k => exact fwd_leaf k
  | var v c => exact fwd_var v c
  | un i op c ih => exact fwd_un ih
  | bin i op l r ihl ihr => exact fwd_bin ihl ihr

end Verif.Train
