import Verif.Alias.Run
import Verif.Graph.Shared
/-!
# Properties C53, C55, C56, C83 on shared storages
-/
namespace Verif.Alias
open Verif Res Tensor Graph
open Verif.Data (denote)

variable {α : Type}

/-! ## Where nothing goes wrong -/

/-- C55 and C56 for expressions in which the left operand of every `plus` is an operator used nowhere else: whatever the operators' caches
and the session's cache held before, `run` returns the value of the expression, and place holders and variables keep their values.
Missing from the full claims: `forward_changes_variable_violated`, `shared_left_operand_violated`. -/
theorem run_shared_storage_partial [Zero α] [Add α] (kind : Nat → Kind) (e : Ex α) (L D : Nat → Ten α) (s : HSt α) (hl : Layout (ids e) L D s) (hc : Consistent e) (hp : Plain L D e)
    (ht : Tidy kind e) (y : Ten α) (hev : eval L D e = ok y) :
    ∃ x s', hrun kind e s = ok (x, s') ∧ denote s'.heap x = some y ∧ (∀ k, denote s'.heap (s.leafT k) = some (L k)) ∧
      (∀ v, denote s'.heap (s.varT v) = some (D v)) ∧ s'.leafT = s.leafT ∧ s'.varT = s.varT := by
  have hl' : Layout (ids e) L D { s with cache := fun _ => none } := ⟨hl.leaf, hl.var, hl.lt, hl.inj, hl.ne⟩
  obtain ⟨x, s', dead, h1, g⟩ := hforward_spec hl' hc hp ht e none _ _ (mem_occs_self e none) (hinv_start s) (fun _ _ h => h) y hev
  refine ⟨x, s', h1, g.val, fun k => ?_, fun v => ?_, g.inv.leafT, g.inv.varT⟩
  · rw [denote_congr (h := s.heap) (g.inv.prot _ (Or.inl ⟨k, rfl⟩))]; exact hl.leaf k
  · rw [denote_congr (h := s.heap) (g.inv.prot _ (Or.inr ⟨v, rfl⟩))]; exact hl.var v

/-! ### Variables, whatever the sharing -/

/-- A non-empty tensor with as many elements as its shape says. -/
def Sound (y : Ten α) : Prop := y.data ≠ [] ∧ y.WF ∧ y.shape.getLast? ≠ some Tensor.minusOne

/-- The operators of the expression turn such tensors into such tensors. -/
def OpsSound (e : Ex α) : Prop :=
  (∀ p ∈ occs e none, ∀ i op c, p.2 = .un i op c → ∀ x y, Sound x → op.fwd x = ok y → Sound y) ∧
  ∀ p ∈ occs e none, ∀ i op l r, p.2 = .bin i op l r → ∀ x y z, Sound x → Sound y → op.fwd x y = ok z → Sound z

/-- No variable and no place holder is the left operand of a `plus`. -/
def NoBasePlus [Zero α] [Add α] (kind : Nat → Kind) (e : Ex α) : Prop :=
  ∀ p ∈ occs e none, ∀ i op l r, p.2 = .bin i op l r → kind i = .plus → op.fwd = plusT ∧ l.id? ≠ none

structure KInv (I : List Nat) (s0 s : HSt α) : Prop where
  leafT : s.leafT = s0.leafT
  varT : s.varT = s0.varT
  opc : s.opc = s0.opc
  grow : s0.heap.length ≤ s.heap.length
  prot : ∀ l, Prot s0 l → s.heap[l]? = s0.heap[l]?
  good : ∀ i t, s.cache i = some t → ∃ y, denote s.heap t = some y ∧ Sound y
  own : ∀ i t, s.cache i = some t → s0.heap.length ≤ t.loc ∨ ∃ k ∈ I, (s.cache k).isSome ∧ t.loc = s0.opc k

theorem KInv.put {I : List Nat} {L D : Nat → Ten α} {s0 s : HSt α} (hl : Layout I L D s0) (hi : KInv I s0 s) {i : Nat} {t : Tn} {h' : Heap α} {y : Ten α}
    (hd : denote h' t = some y) (hy : Sound y) (hlen : s.heap.length ≤ h'.length) (hold : ∀ l, l < s.heap.length → l ≠ t.loc → h'[l]? = s.heap[l]?)
    (hown : s0.heap.length ≤ t.loc ∨ ∃ k ∈ I, ((s.cache k).isSome ∨ k = i) ∧ t.loc = s0.opc k)
    (hsame : ∀ k u, s.cache k = some u → u.loc = t.loc → size u.shape = size t.shape) :
    KInv I s0 { s with heap := h', cache := upd s.cache i (some t) } := by
  have hnp : ¬ Prot s0 t.loc := by
    intro hp
    rcases hown with h | ⟨k, hk, _, h⟩
    · exact absurd (hl.prot_lt hp) (by omega)
    · rw [h] at hp; exact hl.ne k hk hp
  have up : ∀ k, (s.cache k).isSome ∨ k = i → (upd s.cache i (some t) k).isSome := by
    intro k hk
    by_cases hki : k = i
    · subst hki; rw [upd_same]; rfl
    · rw [upd_ne _ _ hki]; rcases hk with h | h
      · exact h
      · exact absurd h hki
  refine ⟨hi.leafT, hi.varT, hi.opc, hi.grow.trans hlen, fun l hp => ?_, fun k u hu => ?_, fun k u hu => ?_⟩
  · rw [← hi.prot l hp]
    exact hold l (lt_of_lt_of_le (hl.prot_lt hp) hi.grow) (fun he => hnp (he ▸ hp))
  · dsimp only at hu ⊢
    by_cases hki : k = i
    · subst hki
      rw [upd_same] at hu
      cases hu
      exact ⟨y, hd, hy⟩
    · rw [upd_ne _ _ hki] at hu
      obtain ⟨z, h1, h2⟩ := hi.good k u hu
      obtain ⟨hb, hs⟩ := denote_some h1
      by_cases hlc : u.loc = t.loc
      · obtain ⟨hb', hs'⟩ := denote_some hd
        refine ⟨⟨u.shape, y.data⟩, by simp [denote, hlc, hb'], hy.1, ?_, by rw [← hs]; exact h2.2.2⟩
        have := hy.2.1
        unfold Ten.WF at this ⊢
        rw [this, hs', hsame k u hu hlc]
      · exact ⟨z, by rw [denote_congr (hold _ (List.getElem?_eq_some_iff.mp hb).1 hlc)]; exact h1, h2⟩
  · dsimp only at hu ⊢
    by_cases hki : k = i
    · subst hki
      rw [upd_same] at hu
      cases hu
      rcases hown with h | ⟨k', h0, h1, h2⟩
      · exact Or.inl h
      · exact Or.inr ⟨k', h0, up k' h1, h2⟩
    · rw [upd_ne _ _ hki] at hu
      rcases hi.own k u hu with h | ⟨k', h0, h1, h2⟩
      · exact Or.inl h
      · exact Or.inr ⟨k', h0, up k' (Or.inl h1), h2⟩

theorem KInv.store {I : List Nat} {L D : Nat → Ten α} {s0 s s' : HSt α} {kind : Nat → Kind} (hl : Layout I L D s0) (hi : KInv I s0 s) {i : Nat} (hie : i ∈ I) {y : Ten α} (hy : Sound y) (hn : s.cache i = none) {x : Tn}
    (h : Alias.store kind i y s = ok (x, s')) : KInv I s0 s' ∧ s'.cache = upd s.cache i (some x) := by
  have hfresh : (ok (⟨y.shape, s.heap.length⟩, { s with heap := s.heap ++ [y.data], cache := upd s.cache i (some ⟨y.shape, s.heap.length⟩) }) : Res (Tn × HSt α)) = ok (x, s') →
      KInv I s0 s' ∧ s'.cache = upd s.cache i (some x) := by
    intro h
    cases h
    refine ⟨hi.put hl (i := i) (y := y) (by simp [denote]) hy (by simp) (fun l h1 _ => List.getElem?_append_left h1) (Or.inl hi.grow) (fun k u hu he => ?_), rfl⟩
    obtain ⟨z, h1, _⟩ := hi.good k u hu
    have := (List.getElem?_eq_some_iff.mp (denote_some h1).1).1
    simp only at he
    omega
  unfold Alias.store at h
  cases hk : kind i with
  | own =>
    have hlt : s.opc i < s.heap.length := by rw [hi.opc]; exact lt_of_lt_of_le (hl.lt i hie) hi.grow
    rw [hk] at h
    dsimp only at h
    rw [wr_ok hlt, bind_ok] at h
    cases h
    refine ⟨hi.put hl (i := i) (y := y) (by simp [denote, hlt]) hy (by simp) (fun l h1 h2 => List.getElem?_set_ne (Ne.symm h2)) (Or.inr ⟨i, hie, Or.inr rfl, by rw [hi.opc]⟩) (fun k u hu he => ?_), rfl⟩
    simp only [hi.opc] at he
    exfalso
    rcases hi.own k u hu with h | ⟨k', h0, h1, h2⟩
    · have := hl.lt i hie
      omega
    · have := hl.inj k' h0 i hie (by rw [← h2, he])
      subst this
      rw [hn] at h1
      simp at h1
  | fresh => rw [hk] at h; exact hfresh h
  | plus => rw [hk] at h; exact hfresh h

/-- What is known of the tensor a forward pass returns. -/
def Back (s0 s : HSt α) (n : Ex α) (x : Tn) : Prop :=
  match n.id? with
  | none => Prot s0 x.loc
  | some a => s.cache a = some x

theorem base_sound {I : List Nat} {L D : Nat → Ten α} {s0 s : HSt α} (hl : Layout I L D s0) (hi : KInv I s0 s) {l : Nat} {sh : List Nat} (hp : Prot s0 l)
    (hs : ∀ y, denote s0.heap ⟨sh, l⟩ = some y → Sound y) : ∃ y, denote s.heap ⟨sh, l⟩ = some y ∧ Sound y := by
  have h := hl.prot_lt hp
  have : denote s0.heap ⟨sh, l⟩ = some ⟨sh, s0.heap[l]⟩ := by simp [denote, h]
  exact ⟨_, (denote_congr (hi.prot l hp)).trans this, hs _ this⟩

theorem keeps [Zero α] [Add α] {s0 : HSt α} {e : Ex α} {L D : Nat → Ten α} {kind : Nat → Kind} (hl : Layout (ids e) L D s0) (hc : Consistent e) (ho : OpsSound e) (hb : NoBasePlus kind e)
    (hL : ∀ k, Sound (L k)) (hD : ∀ v, Sound (D v)) (n : Ex α) : ∀ (sl : Slot) (s s' : HSt α) (x : Tn), (sl, n) ∈ occs e none → KInv (ids e) s0 s → hforward kind n s = ok (x, s') →
    KInv (ids e) s0 s' ∧ (∃ y, denote s'.heap x = some y ∧ Sound y) ∧ Back s0 s' n x ∧ (∀ i u, s.cache i = some u → s'.cache i = some u) ∧
      ∀ i, (s'.cache i).isSome → (s.cache i).isSome ∨ i ∈ ids n := by
  have hit : ∀ (n : Ex α) (i : Nat) (s : HSt α) (t : Tn), n.id? = some i → KInv (ids e) s0 s → hquery s i = ok (some t) →
      KInv (ids e) s0 s ∧ (∃ y, denote s.heap t = some y ∧ Sound y) ∧ Back s0 s n t ∧ (∀ i u, s.cache i = some u → s.cache i = some u) ∧
        ∀ i, (s.cache i).isSome → (s.cache i).isSome ∨ i ∈ ids n := by
    intro n i s t hid hi hq
    have hca : s.cache i = some t := by
      unfold hquery at hq
      cases h : s.cache i with
      | none => rw [h] at hq; simp at hq
      | some u =>
        rw [h] at hq
        simp only [bind_eq_ok, pure_eq, ok.injEq] at hq
        obtain ⟨b, _, hq⟩ := hq
        split at hq
        · simp at hq
        · exact hq
    exact ⟨hi, hi.good i t hca, by unfold Back; rw [hid]; exact hca, fun _ _ h => h, fun _ h => Or.inl h⟩
  have miss : ∀ (i : Nat) (s : HSt α), KInv (ids e) s0 s → hquery s i = ok none → s.cache i = none := by
    intro i s hi hq
    unfold hquery at hq
    cases h : s.cache i with
    | none => rfl
    | some u =>
      obtain ⟨y, h1, h2⟩ := hi.good i u h
      rw [h] at hq
      dsimp only at hq
      rw [rd_ok (denote_some h1).1, bind_ok, if_neg h2.1] at hq
      cases hq
  induction n with
  | leaf k =>
    intro sl s s' x _ hi h
    simp only [hforward, bind_eq_ok, pure_eq] at h
    obtain ⟨b, h1, _, _, h2⟩ := h
    cases h2
    refine ⟨hi, ?_, ?_, fun _ _ h => h, fun _ h => Or.inl h⟩
    · rw [hi.leafT]
      exact base_sound hl hi (l := (s0.leafT k).loc) (sh := (s0.leafT k).shape) (Or.inl ⟨k, rfl⟩) (fun y hy => by
        have : some (L k) = some y := (hl.leaf k).symm.trans hy
        cases this; exact hL k)
    · rw [hi.leafT]; exact Or.inl ⟨k, rfl⟩
  | var v c =>
    intro sl s s' x _ hi h
    cases h
    refine ⟨hi, ?_, ?_, fun _ _ h => h, fun _ h => Or.inl h⟩
    · rw [hi.varT]
      exact base_sound hl hi (l := (s0.varT v).loc) (sh := (s0.varT v).shape) (Or.inr ⟨v, rfl⟩) (fun y hy => by
        have : some (D v) = some y := (hl.var v).symm.trans hy
        cases this; exact hD v)
    · rw [hi.varT]; exact Or.inr ⟨v, rfl⟩
  | un i op c ih =>
    intro sl s s' x hocc hi h
    rw [hforward, bind_eq_ok] at h
    obtain ⟨q, hq, h⟩ := h
    cases q with
    | some t => cases h; exact hit _ i s x rfl hi hq
    | none =>
      have hca := miss i s hi hq
      simp only [bind_eq_ok] at h
      obtain ⟨⟨x1, s1⟩, h1, xv, h2, y, h3, h4⟩ := h
      obtain ⟨i1, ⟨y1, e1, e2⟩, b1, k1, n1⟩ := ih _ _ _ _ (occs_child_un hocc) hi h1
      rw [readT_ok e1] at h2
      cases h2
      have hic : i ∉ ids c := not_mem_child (b := false) hc hocc rfl rfl
      have hn1 : s1.cache i = none := by
        by_contra h
        rcases n1 i (Option.isSome_iff_ne_none.mpr h) with h | h
        · rw [hca] at h; simp at h
        · exact hic h
      obtain ⟨i2, hca2⟩ := i1.store hl (id_mem_ids hocc rfl) (ho.1 _ hocc i op c rfl _ _ e2 h3) hn1 h4
      have hxc : s'.cache i = some x := by rw [hca2, upd_same]
      refine ⟨i2, i2.good i x hxc, hxc, fun k u hu => ?_, fun k hk => ?_⟩
      · have hki : k ≠ i := by rintro rfl; rw [hca] at hu; cases hu
        rw [hca2, upd_ne _ _ hki]; exact k1 k u hu
      · by_cases hki : k = i
        · subst hki; exact Or.inr (by simp [ids])
        · rw [hca2, upd_ne _ _ hki] at hk
          exact (n1 k hk).imp_right (fun h => by simp [ids, h])
  | bin i op l r ihl ihr =>
    intro sl s s' x hocc hi h
    rw [hforward, bind_eq_ok] at h
    obtain ⟨q, hq, h⟩ := h
    cases q with
    | some t => cases h; exact hit _ i s x rfl hi hq
    | none =>
      have hca := miss i s hi hq
      simp only [bind_eq_ok] at h
      obtain ⟨⟨xl, s1⟩, h1, ⟨xr, s2⟩, h2, h⟩ := h
      obtain ⟨hol, hor⟩ := occs_child_bin hocc
      obtain ⟨i1, ⟨y1, e1, e2⟩, b1, k1, n1⟩ := ihl _ _ _ _ hol hi h1
      obtain ⟨i2, ⟨y2, f1, f2⟩, b2, k2, n2⟩ := ihr _ _ _ _ hor i1 h2
      have hil : i ∉ ids l := not_mem_child (b := false) hc hocc rfl rfl
      have hir : i ∉ ids r := not_mem_child (b := true) hc hocc rfl rfl
      have hn2 : s2.cache i = none := by
        by_contra h
        rcases n2 i (Option.isSome_iff_ne_none.mpr h) with h | h
        · rcases n1 i h with h | h
          · rw [hca] at h; simp at h
          · exact hil h
        · exact hir h
      have fin : KInv (ids e) s0 s' → s'.cache = upd s2.cache i (some x) → KInv (ids e) s0 s' ∧ (∃ y, denote s'.heap x = some y ∧ Sound y) ∧ Back s0 s' (.bin i op l r) x ∧
          (∀ i u, s.cache i = some u → s'.cache i = some u) ∧ ∀ k, (s'.cache k).isSome → (s.cache k).isSome ∨ k ∈ ids (.bin i op l r) := by
        intro i3 hca3
        have hxc : s'.cache i = some x := by rw [hca3, upd_same]
        refine ⟨i3, i3.good i x hxc, hxc, fun k u hu => ?_, fun k hk => ?_⟩
        · have hki : k ≠ i := by rintro rfl; rw [hca] at hu; cases hu
          rw [hca3, upd_ne _ _ hki]; exact k2 k u (k1 k u hu)
        · by_cases hki : k = i
          · subst hki; exact Or.inr (by simp [ids])
          · rw [hca3, upd_ne _ _ hki] at hk
            rcases n2 k hk with h | h
            · exact (n1 k h).imp_right (fun h => by simp [ids, h])
            · exact Or.inr (by simp [ids, h])
      -- the left operand's tensor in the state the operator works on
      have hxl : ∃ y, denote s2.heap xl = some y ∧ Sound y := by
        cases hid : l.id? with
        | none =>
          have hp : Prot s0 xl.loc := by unfold Back at b1; rw [hid] at b1; exact b1
          exact ⟨y1, by rw [denote_congr (h := s1.heap), e1]; rw [i2.prot _ hp, i1.prot _ hp], e2⟩
        | some a =>
          have hcl : s1.cache a = some xl := by unfold Back at b1; rw [hid] at b1; exact b1
          exact i2.good a xl (k2 a xl hcl)
      obtain ⟨yl, g1, g2⟩ := hxl
      by_cases hk : kind i = .plus
      · rw [if_pos hk, bind_eq_ok] at h
        obtain ⟨⟨t, h'⟩, h3, h4⟩ := h
        cases h4
        obtain ⟨hop, hlid⟩ := hb _ hocc i op l r rfl hk
        obtain ⟨a, hla⟩ := Option.ne_none_iff_exists'.mp hlid
        have hcl : s2.cache a = some xl := by
          have : s1.cache a = some xl := by unfold Back at b1; rw [hla] at b1; exact b1
          exact k2 a xl this
        obtain ⟨hxb, hxs⟩ := denote_some g1
        obtain ⟨hyb, hys⟩ := denote_some f1
        have hcomp : Compatible xl.shape xr.shape := by
          by_contra hcc
          unfold addLike at h3
          rw [broadcastShape_abort hcc] at h3
          cases h3
        have hX : Holds s2.heap xl yl.at := ⟨yl.data, hxb, by rw [← hxs]; exact g2.2.1.has.2⟩
        have hY : Holds s2.heap xr y2.at := ⟨y2.data, hyb, by rw [← hys]; exact f2.2.1.has.2⟩
        obtain ⟨c, t', h'', q1, q2, q3, ⟨buf, q4, q5⟩, q6, q7, q8⟩ := addLike_ok (f := (· + ·)) hX hY hcomp (by rw [← hxs]; exact g2.2.2) (by rw [← hys]; exact f2.2.2)
        rw [h3] at q2
        cases q2
        obtain ⟨c', u, m1, m2, m3⟩ := plusT_ok g2.2.1.has f2.2.1.has (by rw [hxs, hys]; exact hcomp) g2.2.2 f2.2.2
        rw [hxs, hys, q1] at m1
        cases m1
        have hval : denote h' t = some u := by
          simp only [denote, q4, Option.map_some, Option.some.injEq]
          refine Ten.Has.ext (s := c) (a := fun is => yl.at (bcIdx xl.shape is) + y2.at (bcIdx xr.shape is)) ⟨q3, by rw [q3] at q5; exact q5⟩ ?_
          rw [← hxs, ← hys]; exact m3
        have hus : Sound u := ho.2 _ hocc i op l r rfl yl y2 u g2 f2 (by rw [hop]; exact m2)
        refine fin (i2.put hl hval hus q6 ?_ ?_ ?_) rfl
        · intro w hw hwt
          by_cases hpad : padShape xl.shape c = c
          · exact (q8 hpad).2 w hw (by rw [← (q8 hpad).1]; exact hwt)
          · exact (q7 hpad).2 w hw
        · by_cases hpad : padShape xl.shape c = c
          · rw [(q8 hpad).1]
            exact (i2.own a xl hcl).imp_right (fun ⟨k, p0, p1, p2⟩ => ⟨k, p0, Or.inl p1, p2⟩)
          · exact Or.inl (i2.grow.trans (q7 hpad).1)
        · intro k w hw hloc
          obtain ⟨z, p1, p2⟩ := i2.good k w hw
          obtain ⟨hwb, hws⟩ := denote_some p1
          by_cases hpad : padShape xl.shape c = c
          · rw [hloc, (q8 hpad).1, hxb] at hwb
            have e3 : yl.data = z.data := by simpa using hwb
            have e4 := p2.2.1
            have e5 := g2.2.1
            unfold Ten.WF at e4 e5
            rw [← hws, ← e4, ← e3, e5, hxs, q3]
            conv_rhs => rw [← hpad]
            rw [padShape, size_replicate_one]
          · exfalso
            have p3 := (q7 hpad).1
            have p4 := (List.getElem?_eq_some_iff.mp hwb).1
            rw [hloc] at p4
            exact absurd p4 (not_lt.mpr p3)
      · rw [if_neg hk] at h
        simp only [bind_eq_ok] at h
        obtain ⟨xv, h3, yv, h4, z, h5, h6⟩ := h
        rw [readT_ok g1] at h3
        cases h3
        rw [readT_ok f1] at h4
        cases h4
        obtain ⟨i3, hca3⟩ := i2.store hl (id_mem_ids hocc rfl) (ho.2 _ hocc i op l r rfl _ _ _ g2 f2 h5) hn2 h6
        exact fin i3 hca3

/-- C56 for expressions in which no `plus` has a variable or a place holder as its left operand, however operators are shared: whenever a
forward pass returns, every variable and every bound tensor is what it was.  Missing from the full claim: exactly those `plus`, see
`forward_changes_variable_violated`. -/
theorem forward_keeps_variables_partial [Zero α] [Add α] (kind : Nat → Kind) (e : Ex α) (L D : Nat → Ten α) (s : HSt α) (hl : Layout (ids e) L D s) (hc : Consistent e) (ho : OpsSound e)
    (hb : NoBasePlus kind e) (hL : ∀ k, Sound (L k)) (hD : ∀ v, Sound (D v)) (x : Tn) (s' : HSt α) (h : hrun kind e s = ok (x, s')) :
    (∀ k, denote s'.heap (s'.leafT k) = some (L k)) ∧ ∀ v, denote s'.heap (s'.varT v) = some (D v) := by
  have hl' : Layout (ids e) L D { s with cache := fun _ => none } := ⟨hl.leaf, hl.var, hl.lt, hl.inj, hl.ne⟩
  have k0 : KInv (ids e) { s with cache := fun _ => none } { s with cache := fun _ => none } :=
    ⟨rfl, rfl, rfl, le_rfl, fun _ _ => rfl, fun _ _ h => by simp at h, fun _ _ h => by simp at h⟩
  obtain ⟨k1, _⟩ := keeps hl' hc ho hb hL hD e none _ s' x (mem_occs_self e none) k0 h
  refine ⟨fun k => ?_, fun v => ?_⟩
  · rw [k1.leafT, denote_congr (h := s.heap) (k1.prot _ (Or.inl ⟨k, rfl⟩))]; exact hl.leaf k
  · rw [k1.varT, denote_congr (h := s.heap) (k1.prot _ (Or.inr ⟨v, rfl⟩))]; exact hl.var v

/-! ## What goes wrong -/

/-- The sum of two tensors of one shape. -/
theorem plus_same [Zero α] [Add α] {h : Heap α} {x y : Tn} {xv yv : Ten α} (hx : denote h x = some xv) (hy : denote h y = some yv) (hs : xv.shape = yv.shape)
    (sx : Sound xv) (sy : Sound yv) : ∃ h' z, addLike (· + ·) h x y = ok (x, h') ∧ denote h' x = some z ∧
      z.Has xv.shape (fun is => xv.at is + yv.at is) ∧ h.length ≤ h'.length ∧ ∀ k, k < h.length → k ≠ x.loc → h'[k]? = h[k]? := by
  obtain ⟨hxb, hxs⟩ := denote_some hx
  obtain ⟨hyb, hys⟩ := denote_some hy
  have hX : Holds h x xv.at := ⟨xv.data, hxb, by rw [← hxs]; exact sx.2.1.has.2⟩
  have hY : Holds h y yv.at := ⟨yv.data, hyb, by rw [← hys]; exact sy.2.1.has.2⟩
  have hsh : x.shape = y.shape := by rw [← hxs, ← hys, hs]
  obtain ⟨c, t', h', q1, q2, q3, ⟨buf, q4, q5⟩, q6, _, q8⟩ := addLike_ok (f := (· + ·)) hX hY (fun k => Or.inl (by rw [hsh])) (by rw [← hxs]; exact sx.2.2) (by rw [← hys]; exact sy.2.2)
  have hcx : c = x.shape := by
    unfold broadcastShape at q1
    rw [if_pos hsh] at q1
    cases q1; rfl
  obtain ⟨p1, p2⟩ := q8 (by rw [hcx]; simp [padShape])
  have ht : t' = x := by
    cases t'; cases x
    simp only at p1 q3 hcx
    rw [q3, hcx, p1]
  subst ht
  refine ⟨h', ⟨xv.shape, buf⟩, q2, by simp [denote, q4, hxs], ⟨rfl, by rw [q5.1, hxs], fun is hv => ?_⟩, q6, p2⟩
  rw [hxs] at hv ⊢
  rw [q5.2 is hv, ← hsh]
  dsimp only
  have : bcIdx t'.shape is = is := Ops.bcIdx_suffix (pre := []) (t := t'.shape) (is := is) hv
  rw [this]

/-- C56 is false of the code: evaluating `v + c` with a tensor `c` of the variable's shape adds `c` to the variable. -/
theorem forward_changes_variable_violated [Zero α] [Add α] (kind : Nat → Kind) (i v k : Nat) (op : BOp α) (c : Cfg α) (hk : kind i = .plus) (I : List Nat) (L D : Nat → Ten α) (s : HSt α)
    (hl : Layout I L D s) (hs : (D v).shape = (L k).shape) (hv : Sound (D v)) (hc : Sound (L k)) :
    ∃ x s' z, hrun kind (.bin i op (.var v c) (.leaf k)) s = ok (x, s') ∧ s'.varT = s.varT ∧ denote s'.heap (s.varT v) = some z ∧
      z.Has (D v).shape (fun is => (D v).at is + (L k).at is) := by
  obtain ⟨h', z, h1, h2, h3, _⟩ := plus_same (hl.var v) (hl.leaf k) hs hv hc
  refine ⟨s.varT v, { s with heap := h', cache := upd (fun _ => none) i (some (s.varT v)) }, z, ?_, rfl, h2, h3⟩
  unfold hrun
  rw [hforward, hquery_miss rfl, bind_ok]
  simp only [hforward, bind_ok, rd_ok (denote_some (hl.leaf k)).1, assert_true hc.1, pure_eq, hk, if_true, h1]

/-- The same for a tensor bound to a place holder. -/
theorem forward_changes_input_violated [Zero α] [Add α] (kind : Nat → Kind) (i p k : Nat) (op : BOp α) (hk : kind i = .plus) (I : List Nat) (L D : Nat → Ten α) (s : HSt α)
    (hl : Layout I L D s) (hs : (L p).shape = (L k).shape) (hv : Sound (L p)) (hc : Sound (L k)) :
    ∃ x s' z, hrun kind (.bin i op (.leaf p) (.leaf k)) s = ok (x, s') ∧ s'.leafT = s.leafT ∧ denote s'.heap (s.leafT p) = some z ∧
      z.Has (L p).shape (fun is => (L p).at is + (L k).at is) := by
  obtain ⟨h', z, h1, h2, h3, _⟩ := plus_same (hl.leaf p) (hl.leaf k) hs hv hc
  refine ⟨s.leafT p, { s with heap := h', cache := upd (fun _ => none) i (some (s.leafT p)) }, z, ?_, rfl, h2, h3⟩
  unfold hrun
  rw [hforward, hquery_miss rfl, bind_ok]
  simp only [hforward, bind_ok, rd_ok (denote_some (hl.leaf k)).1, rd_ok (denote_some (hl.leaf p)).1, assert_true hc.1, assert_true hv.1, pure_eq, hk, if_true, h1]

/-- A variable `(1, 2)` and the constant `(10, 20)`: after `run(v + c)` the variable is `(11, 22)`. -/
example : (do
    let (_, s') ← hrun (fun _ => .plus) (.bin 0 ⟨plusT, fun _ _ _ _ => ub⟩ (.var 0 ⟨0, 0, true⟩) (.leaf 0))
      (⟨[[10, 20], [1, 2], []], fun _ => ⟨[2], 0⟩, fun _ => ⟨[2], 1⟩, fun _ => 2, fun _ => none⟩ : HSt Int)
    readT s'.heap (s'.varT 0)) = ok ⟨[2], [11, 22]⟩ := by decide

theorem store_base {I : List Nat} {L D : Nat → Ten α} {s : HSt α} (hl : Layout I L D s) (kind : Nat → Kind) (i : Nat) (hi : i ∈ I) (y : Ten α) :
    ∃ x s', Alias.store kind i y s = ok (x, s') ∧ x.shape = y.shape ∧ denote s'.heap x = some y ∧ s'.cache = upd s.cache i (some x) ∧ Layout I L D s' ∧
      s'.leafT = s.leafT ∧ ¬ Prot s x.loc ∧ s'.varT = s.varT ∧ s'.opc = s.opc ∧ (kind i = .own → x.loc = s.opc i) := by
  have hfresh : kind i ≠ .own → ∃ x s', (ok (⟨y.shape, s.heap.length⟩, { s with heap := s.heap ++ [y.data], cache := upd s.cache i (some ⟨y.shape, s.heap.length⟩) }) : Res (Tn × HSt α)) = ok (x, s') ∧
      x.shape = y.shape ∧ denote s'.heap x = some y ∧ s'.cache = upd s.cache i (some x) ∧ Layout I L D s' ∧ s'.leafT = s.leafT ∧ ¬ Prot s x.loc ∧ s'.varT = s.varT ∧ s'.opc = s.opc ∧ (kind i = .own → x.loc = s.opc i) := by
    intro hk
    refine ⟨_, _, rfl, rfl, by simp [denote], rfl, ⟨fun k => ?_, fun v => ?_, fun j hj => ?_, hl.inj, hl.ne⟩, rfl, fun h => absurd (hl.prot_lt h) (by simp), rfl, rfl, fun h => absurd h hk⟩
    · rw [denote_congr (h := s.heap) (List.getElem?_append_left (hl.prot_lt (Or.inl ⟨k, rfl⟩)))]; exact hl.leaf k
    · rw [denote_congr (h := s.heap) (List.getElem?_append_left (hl.prot_lt (Or.inr ⟨v, rfl⟩)))]; exact hl.var v
    · have := hl.lt j hj
      simp only [List.length_append, List.length_singleton]
      omega
  unfold Alias.store
  cases hk : kind i with
  | own =>
    refine ⟨⟨y.shape, s.opc i⟩, { s with heap := s.heap.set (s.opc i) y.data, cache := upd s.cache i (some ⟨y.shape, s.opc i⟩) },
      by dsimp only; rw [wr_ok (hl.lt i hi), bind_ok]; rfl, rfl, by simp [denote, hl.lt i hi], rfl, ⟨fun k => ?_, fun v => ?_, fun j hj => ?_, hl.inj, hl.ne⟩, rfl, hl.ne i hi, rfl, rfl, fun _ => rfl⟩
    · rw [denote_congr (h := s.heap) (List.getElem?_set_ne (fun h => hl.ne i hi (Or.inl ⟨k, h.symm⟩)))]; exact hl.leaf k
    · rw [denote_congr (h := s.heap) (List.getElem?_set_ne (fun h => hl.ne i hi (Or.inr ⟨v, h.symm⟩)))]; exact hl.var v
    · simp only [List.length_set]; exact hl.lt j hj
  | fresh => rw [hk] at hfresh; exact hfresh (by simp)
  | plus => rw [hk] at hfresh; exact hfresh (by simp)

/-- Adding a tensor to the result of an operator overwrites the operator's result: after evaluating `f(x) + c` with `c` of the shape of
`f(x)`, what the session remembers as the value of `f(x)` - and what the operator holds as its output - is `f(x) + c`. -/
theorem plus_overwrites_operand [Zero α] [Add α] (kind : Nat → Kind) (i j p k : Nat) (op : UOp α) (op' : BOp α) (I : List Nat) (hi : i ∈ I) (hij : i ≠ j) (hk : kind j = .plus) (L D : Nat → Ten α) (s : HSt α)
    (hl : Layout I L D s) (hc : ∀ n, s.cache n = none) (y : Ten α) (hy : op.fwd (L p) = ok y) (sp : Sound (L p)) (sy : Sound y) (sk : Sound (L k)) (hs : y.shape = (L k).shape) :
    ∃ x s' z, hforward kind (.bin j op' (.un i op (.leaf p)) (.leaf k)) s = ok (x, s') ∧ s'.cache i = some x ∧ s'.cache j = some x ∧ denote s'.heap x = some z ∧
      z.Has y.shape (fun is => y.at is + (L k).at is) ∧ Layout I L D s' ∧ s'.leafT = s.leafT ∧ (∀ n, n ≠ i → n ≠ j → s'.cache n = none) := by
  obtain ⟨x, s1, h1, hxs, h2, h3, h4, h5, h6, h7, h8, _⟩ := store_base hl kind i hi y
  obtain ⟨h', z, g1, g2, g3, g4, g5⟩ := plus_same h2 (h4.leaf k) hs sy sk
  have hnp : ∀ l, Prot s l → h'[l]? = s1.heap[l]? := by
    intro l hp
    refine g5 l ?_ (fun h => h6 (h ▸ hp))
    refine h4.prot_lt ?_
    unfold Prot at hp ⊢
    rw [h5, h7]; exact hp
  refine ⟨x, { s1 with heap := h', cache := upd s1.cache j (some x) }, z, ?_, ?_, upd_same _ _ _, g2, g3, ⟨fun q => ?_, fun v => ?_, fun q hq => ?_, h4.inj, h4.ne⟩, h5, fun n h1 h2 => ?_⟩
  · rw [hforward, hquery_miss (hc j), bind_ok]
    simp only [hforward, hquery_miss (hc i), bind_ok, rd_ok (denote_some (hl.leaf p)).1, assert_true sp.1, pure_eq, readT_ok (hl.leaf p), hy, h1,
      rd_ok (denote_some (h4.leaf k)).1, assert_true sk.1, hk, if_true, g1]
  · dsimp only
    rw [upd_ne _ _ hij, h3, upd_same]
  · dsimp only
    rw [denote_congr (h := s1.heap) (hnp _ (Or.inl ⟨q, by rw [h5]⟩))]; exact h4.leaf q
  · dsimp only
    rw [denote_congr (h := s1.heap) (hnp _ (Or.inr ⟨v, by rw [h7]⟩))]; exact h4.var v
  · dsimp only
    exact lt_of_lt_of_le (h4.lt q hq) g4
  · dsimp only
    rw [upd_ne _ _ h2, h3, upd_ne _ _ h1, hc n]

/-- C55 is false of the code for shared operands: with `y = f(x)`, evaluating `g(y + c, y)` gives `g(y + c, y + c)`. -/
theorem shared_left_operand_violated [Zero α] [Add α] (kind : Nat → Kind) (i j m p k : Nat) (op : UOp α) (op' g : BOp α) (I : List Nat) (hi : i ∈ I) (hij : i ≠ j)
    (hk : kind j = .plus) (hm' : m ∈ I) (hm : kind m ≠ .plus) (L D : Nat → Ten α) (s : HSt α) (hl : Layout I L D s) (y w r : Ten α) (hy : op.fwd (L p) = ok y) (sp : Sound (L p)) (sy : Sound y)
    (sk : Sound (L k)) (hs : y.shape = (L k).shape) (hw : w.Has y.shape (fun is => y.at is + (L k).at is)) (hr : g.fwd w w = ok r) :
    ∃ x s', hrun kind (.bin m g (.bin j op' (.un i op (.leaf p)) (.leaf k)) (.un i op (.leaf p))) s = ok (x, s') ∧ denote s'.heap x = some r := by
  have hl' : Layout I L D { s with cache := fun _ => none } := ⟨hl.leaf, hl.var, hl.lt, hl.inj, hl.ne⟩
  obtain ⟨x, s1, z, h1, h2, h3, h4, h5, h6, h7, h8⟩ := plus_overwrites_operand kind i j p k op op' I hi hij hk L D _ hl' (fun _ => rfl) y hy sp sy sk hs
  have hzw : z = w := h5.ext hw
  subst hzw
  obtain ⟨x', s2, g1, _, g3, _⟩ := store_base h6 kind m hm' r
  have hq : hquery s1 i = ok (some x) := by
    unfold hquery
    rw [h2]
    dsimp only
    rw [rd_ok (denote_some h4).1, bind_ok, if_neg]
    · rfl
    · intro he
      have a1 := h5.2.1
      have a2 := sy.2.1
      unfold Ten.WF at a2
      rw [he, ← a2] at a1
      exact sy.1 (List.eq_nil_of_length_eq_zero a1.symm)
  refine ⟨x', s2, ?_, g3⟩
  unfold hrun
  rw [hforward, hquery_miss rfl, bind_ok]
  dsimp only
  rw [h1, bind_ok]
  dsimp only
  rw [hforward, hq, bind_ok]
  simp only [pure_eq, bind_ok, if_neg hm, readT_ok h4, hr, g1]

/-- `y = x` (an operator leaving its operand's value in its cache), `(y + c) - y` for `x = 1`, `c = 10`: 0 instead of 10. -/
example : (do
    let y : Ex Int := .un 1 ⟨ok, fun _ _ _ => ub⟩ (.leaf 0)
    let (x, s') ← hrun (fun i => if i = 2 then .plus else .own)
      (.bin 3 ⟨fun a b => ok ⟨a.shape, List.zipWith (· - ·) a.data b.data⟩, fun _ _ _ _ => ub⟩ (.bin 2 ⟨plusT, fun _ _ _ _ => ub⟩ y (.leaf 1)) y)
      (⟨[[1], [10], [], [], []], fun k => ⟨[1], k⟩, fun _ => ⟨[1], 0⟩, fun i => i + 1, fun _ => none⟩ : HSt Int)
    readT s'.heap x) = ok ⟨[1], [0]⟩ := by decide

/-- C53 on shared storages is false of the code even where no operator is shared: in `sigmoid(x) + c` the backward action of the sigmoid
is given `sigmoid(x) + c` as its result, and does not return the derivative (where `c` is neither 0 nor `1 - 2 sigmoid(x)` and the incoming
gradient is not 0). -/
theorem sigmoid_plus_gradient_violated (kind : Nat → Kind) (i j p k : Nat) (op' : BOp ℝ) (cF cB : Ten ℝ) (I : List Nat) (hi : i ∈ I) (hij : i ≠ j) (hk : kind j = .plus) (L D : Nat → Ten ℝ) (s : HSt ℝ)
    (hl : Layout I L D s) (sp : Sound (L p)) (sk : Sound (L k)) (hs : (L p).shape = (L k).shape) (g : Ten ℝ) (hg : g.WF) (hgs : g.shape = (L p).shape)
    (is : List Nat) (hv : ValidIdx (L p).shape is) (hg0 : g.at is ≠ 0) (hc0 : (L k).at is ≠ 0)
    (hc1 : (L k).at is ≠ 1 - 2 * (1 / (1 + Real.exp (-(L p).at is)))) :
    ∃ x s' t o u, hrun kind (.bin j op' (.un i (opSigmoid cF cB) (.leaf p)) (.leaf k)) s = ok (x, s') ∧ s'.cache i = some t ∧ denote s'.heap t = some o ∧
      (opSigmoid cF cB).bwd (L p) o g = ok u ∧ u.at is ≠ g.at is * deriv (fun x : ℝ => 1 / (1 + Real.exp (-x))) ((L p).at is) := by
  have hl' : Layout I L D { s with cache := fun _ => none } := ⟨hl.leaf, hl.var, hl.lt, hl.inj, hl.ne⟩
  obtain ⟨y, hy1, hy2⟩ := Ops.mapT_ok (fun x : ℝ => 1 / (1 + Real.exp (-x))) cF (L p) sp.2.1.has
  have hsy : Sound y := by
    refine ⟨fun he => ?_, hy2.wf, by rw [hy2.1]; exact sp.2.2⟩
    have a1 := hy2.2.1
    have a2 := sp.2.1
    unfold Ten.WF at a2
    rw [he, ← a2] at a1
    exact sp.1 (List.eq_nil_of_length_eq_zero a1.symm)
  obtain ⟨x, s1, z, h1, h2, _, h4, h5, _⟩ := plus_overwrites_operand kind i j p k (opSigmoid cF cB) op' I hi hij hk L D _ hl' (fun _ => rfl) y hy1 sp hsy sk (by rw [hy2.1, hs])
  rw [hy2.1] at h5
  have hgh := hg.has
  rw [hgs] at hgh
  obtain ⟨u, u1, u2⟩ := Ops.zipT_ok (fun o _ g => g * o * (1 - o)) cB z z g h5 h5 hgh
  refine ⟨x, s1, x, z, u, h1, h2, h4, u1, ?_⟩
  obtain ⟨d, d1, d2⟩ := Ops.elementwise_backward_partial .sigmoid ((L p).at is) trivial
  have hder : deriv (fun x : ℝ => 1 / (1 + Real.exp (-x))) ((L p).at is) = d := d1.deriv
  have hbw : d = (1 / (1 + Real.exp (-(L p).at is))) * (1 - 1 / (1 + Real.exp (-(L p).at is))) := by
    have := d2 1
    simp only [Ops.EOp.bwd, Ops.EOp.fwd] at this
    linarith
  rw [u2.at_eq hv, hder, hbw, hy2.at_eq hv]
  generalize 1 / (1 + Real.exp (-(L p).at is)) = o at *
  generalize (L k).at is = c at *
  intro he
  have : g.at is * (c * (1 - 2 * o - c)) = 0 := by linear_combination he
  rcases mul_eq_zero.mp this with h | h
  · exact hg0 h
  · rcases mul_eq_zero.mp h with h | h
    · exact hc0 h
    · exact hc1 (by linarith)

/-- C83 is false of the code: the tensor a run returned is overwritten by the next run of the expression.  `t2` is what the place holder is
bound to for the second run. -/
theorem run_result_overwritten_violated [Zero α] [Add α] (kind : Nat → Kind) (i p : Nat) (op : UOp α) (hk : kind i = .own) (I : List Nat) (hi : i ∈ I) (L D : Nat → Ten α) (s : HSt α) (hl : Layout I L D s)
    (y : Ten α) (hy : op.fwd (L p) = ok y) (sp : Sound (L p)) (L2 : Nat → Ten α) (leafT2 : Nat → Tn) (y2 : Ten α) (hy2 : op.fwd (L2 p) = ok y2) (sp2 : Sound (L2 p)) :
    ∃ x s1, hrun kind (.un i op (.leaf p)) s = ok (x, s1) ∧ denote s1.heap x = some y ∧
      ∀ _ : Layout I L2 D { s1 with leafT := leafT2 }, ∃ x2 s2, hrun kind (.un i op (.leaf p)) { s1 with leafT := leafT2 } = ok (x2, s2) ∧ denote s2.heap x2 = some y2 ∧
        denote s2.heap x = some ⟨y.shape, y2.data⟩ := by
  have hl' : Layout I L D { s with cache := fun _ => none } := ⟨hl.leaf, hl.var, hl.lt, hl.inj, hl.ne⟩
  obtain ⟨x, s1, h1, hxs, h2, h3, h4, h5, _, h7, h8, h9⟩ := store_base hl' kind i hi y
  refine ⟨x, s1, ?_, h2, fun hl2 => ?_⟩
  · unfold hrun
    rw [hforward, hquery_miss rfl, bind_ok]
    simp only [hforward, bind_ok, rd_ok (denote_some (hl.leaf p)).1, assert_true sp.1, pure_eq, readT_ok (hl.leaf p), hy, h1]
  · have hl2' : Layout I L2 D { s1 with leafT := leafT2, cache := fun _ => none } := ⟨hl2.leaf, hl2.var, hl2.lt, hl2.inj, hl2.ne⟩
    obtain ⟨x2, s2, g1, gxs, g2, _, _, _, _, _, g8, g9⟩ := store_base hl2' kind i hi y2
    refine ⟨x2, s2, ?_, g2, ?_⟩
    · unfold hrun
      rw [hforward, hquery_miss rfl, bind_ok]
      have e1 := hl2.leaf p
      dsimp only at e1
      simp only [hforward, bind_ok, rd_ok (denote_some e1).1, assert_true sp2.1, pure_eq, readT_ok e1, hy2, g1]
    · have hloc : x.loc = x2.loc := by
        rw [h9 hk, g9 hk]
        exact (congrFun h8 i).symm
      obtain ⟨b1, _⟩ := denote_some g2
      simp [denote, hloc, b1, hxs]

/-! ### Expressions meeting the hypotheses -/

theorem plusT_sound [Zero α] [Add α] {x y z : Ten α} (hx : Sound x) (hy : Sound y) (h : plusT x y = ok z) : Sound z := by
  have hc := plusT_inv h
  obtain ⟨c, u, h1, h2, h3⟩ := plusT_ok hx.2.1.has hy.2.1.has hc hx.2.2 hy.2.2
  rw [h] at h2
  cases h2
  obtain ⟨c', k1, k2, k3⟩ := broadcastShape_ok hc
  rw [h1] at k1
  cases k1
  have pos : ∀ {t : Ten α}, Sound t → ∀ k, dimR t.shape k ≠ 0 := by
    intro t ht k
    have hs : size t.shape ≠ 0 := by
      intro h0
      have := ht.2.1
      unfold Ten.WF at this
      rw [h0] at this
      exact ht.1 (List.eq_nil_of_length_eq_zero this)
    have hm : ∀ {l : List Nat}, size l ≠ 0 → ∀ d ∈ l, d ≠ 0 := by
      intro l
      induction l with
      | nil => simp
      | cons a l ih =>
        intro hs d hd
        rw [size] at hs
        have h1 := Nat.mul_ne_zero_iff.mp hs
        rcases List.mem_cons.mp hd with rfl | hd
        · exact h1.1
        · exact ih h1.2 d hd
    unfold dimR
    split
    · exact hm hs _ (List.getElem_mem _)
    · decide
  have hcpos : ∀ l : List Nat, (∀ d ∈ l, d ≠ 0) → size l ≠ 0 := by
    intro l
    induction l with
    | nil => simp [size]
    | cons a l ih =>
      intro hd
      rw [size]
      exact Nat.mul_ne_zero (hd a (by simp)) (ih (fun d hd' => hd d (by simp [hd'])))
  refine ⟨fun h0 => ?_, h3.wf, ?_⟩
  · have a1 := h3.2.1
    rw [h0] at a1
    refine hcpos c (fun d hd => ?_) (by simpa using a1.symm)
    obtain ⟨k, hk, rfl⟩ := List.getElem_of_mem hd
    have := k3 (c.length - 1 - k)
    have hk' : c.length - 1 - k < c.length := by omega
    unfold dimR at this
    rw [dif_pos hk'] at this
    simp only [show c.length - 1 - (c.length - 1 - k) = k by omega] at this
    rw [this]
    unfold rule
    split
    · exact pos hy _
    · exact pos hx _
  · rw [h3.1]
    have last : ∀ {l : List Nat}, l.getLast? = some Tensor.minusOne ↔ dimR l 0 = Tensor.minusOne := by
      intro l
      unfold dimR
      cases l with
      | nil => simp [Tensor.minusOne]
      | cons a l => simp [List.getLast?_eq_getElem?]
    intro hcl
    have := k3 0
    rw [last.mp hcl] at this
    unfold rule at this
    split at this
    · exact hy.2.2 (last.mpr this.symm)
    · exact hx.2.2 (last.mpr this.symm)

/-- Negation, element by element. -/
def negOp : UOp Int := ⟨fun x => ok ⟨x.shape, x.data.map (- ·)⟩, fun _ _ _ => ub⟩

/-- Three storages: a place holder `(10, 20)`, a variable `(1, 2)` and the cache of operator 1. -/
def stTwo : HSt Int := ⟨[[10, 20], [1, 2], [7]], fun _ => ⟨[2], 0⟩, fun _ => ⟨[2], 1⟩, fun _ => 2, fun _ => none⟩

theorem stTwo_layout : Layout [1] (fun _ => ⟨[2], [10, 20]⟩) (fun _ => ⟨[2], [1, 2]⟩) stTwo :=
  ⟨fun _ => rfl, fun _ => rfl, by simp [stTwo], by simp, by simp [stTwo, Prot]⟩

def kindTwo : Nat → Kind := fun i => if i = 2 then .plus else .own

/-- `-v + p`. -/
def exTwo : Ex Int := .bin 2 ⟨plusT, fun _ _ _ _ => ub⟩ (.un 1 negOp (.var 0 ⟨0, 0, true⟩)) (.leaf 0)

theorem exTwo_consistent : Consistent exTwo := by
  intro p hp q hq k hk1 hk2
  simp only [exTwo, occs, List.mem_cons, List.mem_append, List.not_mem_nil, or_false] at hp hq
  rcases hp with rfl | (rfl | rfl) | rfl <;> rcases hq with rfl | (rfl | rfl) | rfl <;>
    simp only [Ex.id?, Option.some.injEq, reduceCtorEq] at hk1 hk2 ⊢ <;> omega

/-- `run_shared_storage_partial` and `forward_keeps_variables_partial` on `-v + p`; the operators' caches are the storages 2 and 3. -/
example : let s : HSt Int := ⟨[[10, 20], [1, 2], [7], []], fun _ => ⟨[2], 0⟩, fun _ => ⟨[2], 1⟩, fun i => i + 1, fun _ => none⟩
    Layout (ids exTwo) (fun _ => ⟨[2], [10, 20]⟩) (fun _ => ⟨[2], [1, 2]⟩) s ∧ Plain (fun _ => ⟨[2], [10, 20]⟩) (fun _ => ⟨[2], [1, 2]⟩) exTwo ∧ Tidy kindTwo exTwo ∧
    eval (fun _ => ⟨[2], [10, 20]⟩) (fun _ => ⟨[2], [1, 2]⟩) exTwo = ok ⟨[2], [9, 18]⟩ ∧ OpsSound exTwo ∧ NoBasePlus kindTwo exTwo ∧
    Sound (⟨[2], [10, 20]⟩ : Ten Int) ∧ Sound (⟨[2], [1, 2]⟩ : Ten Int) ∧ ∃ x s', hrun kindTwo exTwo s = ok (x, s') ∧ denote s'.heap x = some ⟨[2], [9, 18]⟩ := by
  intro s
  have hs : ∀ a b : Int, Sound (⟨[2], [a, b]⟩ : Ten Int) := fun a b => ⟨by simp, rfl, by simp [Tensor.minusOne]⟩
  have hL : Layout (ids exTwo) (fun _ => ⟨[2], [10, 20]⟩) (fun _ => ⟨[2], [1, 2]⟩) s := by
    refine ⟨fun _ => rfl, fun _ => rfl, ?_, ?_, ?_⟩ <;> simp [s, exTwo, ids, Prot]
  have hP : Plain (fun _ => ⟨[2], [10, 20]⟩) (fun _ => ⟨[2], [1, 2]⟩) exTwo := by
    intro p hp y hy
    simp only [exTwo, occs, List.mem_cons, List.mem_append, List.not_mem_nil, or_false] at hp
    rcases hp with rfl | (rfl | rfl) | rfl
    · have : y = ⟨[2], [9, 18]⟩ := by
        have h : eval (fun _ => ⟨[2], [10, 20]⟩) (fun _ => ⟨[2], [1, 2]⟩) exTwo = ok ⟨[2], [9, 18]⟩ := by decide
        unfold exTwo at h
        rw [h] at hy
        cases hy; rfl
      subst this; exact hs _ _
    · cases hy; exact hs _ _
    · cases hy; exact hs _ _
    · cases hy; exact hs _ _
  have hT : Tidy kindTwo exTwo := by
    intro p hp i op l r hpe hk
    simp only [exTwo, occs, List.mem_cons, List.mem_append, List.not_mem_nil, or_false] at hp
    rcases hp with rfl | (rfl | rfl) | rfl
    · cases hpe
      refine ⟨rfl, 1, rfl, fun q hq hq1 => ?_⟩
      simp only [exTwo, occs, List.mem_cons, List.mem_append, List.not_mem_nil, or_false] at hq
      rcases hq with rfl | (rfl | rfl) | rfl <;> simp_all [Ex.id?]
    · cases hpe
    · cases hpe
    · cases hpe
  have hE : eval (fun _ => ⟨[2], [10, 20]⟩) (fun _ => ⟨[2], [1, 2]⟩) exTwo = ok ⟨[2], [9, 18]⟩ := by decide
  refine ⟨hL, hP, hT, hE, ⟨fun p hp i op c hpe x y hx hy => ?_, fun p hp i op l r hpe x y z hx hy hz => ?_⟩, fun p hp i op l r hpe hk => ?_, hs _ _, hs _ _, ?_⟩
  · simp only [exTwo, occs, List.mem_cons, List.mem_append, List.not_mem_nil, or_false] at hp
    rcases hp with rfl | (rfl | rfl) | rfl <;> cases hpe
    cases hy
    exact ⟨by simpa using hx.1, by simpa [Ten.WF] using hx.2.1, hx.2.2⟩
  · simp only [exTwo, occs, List.mem_cons, List.mem_append, List.not_mem_nil, or_false] at hp
    rcases hp with rfl | (rfl | rfl) | rfl <;> cases hpe
    exact plusT_sound hx hy hz
  · obtain ⟨h1, a, h2, _⟩ := hT p hp i op l r hpe hk
    exact ⟨h1, by rw [h2]; simp⟩
  · obtain ⟨x, s', h1, h2, _⟩ := run_shared_storage_partial kindTwo exTwo _ _ s hL exTwo_consistent hP hT _ hE
    exact ⟨x, s', h1, h2⟩

/-- `forward_changes_variable_violated`, `plus_overwrites_operand` and `run_result_overwritten_violated` on the same storages. -/
example : (∃ x s' z, hrun kindTwo (.bin 2 ⟨plusT, fun _ _ _ _ => ub⟩ (.var 0 ⟨0, 0, true⟩) (.leaf 0)) stTwo = ok (x, s') ∧ denote s'.heap (stTwo.varT 0) = some z ∧ z.at [1] = 22) ∧
    (∃ x s' z, hforward kindTwo (.bin 2 ⟨plusT, fun _ _ _ _ => ub⟩ (.un 1 negOp (.leaf 0)) (.leaf 0)) stTwo = ok (x, s') ∧ s'.cache 1 = some x ∧ denote s'.heap x = some z ∧ z.at [1] = 0) ∧
    ∃ x s1, hrun kindTwo (.un 1 negOp (.leaf 0)) stTwo = ok (x, s1) ∧ denote s1.heap x = some ⟨[2], [-10, -20]⟩ ∧
      ∃ x2 s2, hrun kindTwo (.un 1 negOp (.leaf 0)) { s1 with leafT := fun _ => ⟨[2], 1⟩ } = ok (x2, s2) ∧ denote s2.heap x = some ⟨[2], [-1, -2]⟩ := by
  have hs : ∀ a b : Int, Sound (⟨[2], [a, b]⟩ : Ten Int) := fun a b => ⟨by simp, rfl, by simp [Tensor.minusOne]⟩
  refine ⟨?_, ?_, ?_⟩
  · obtain ⟨x, s', z, h1, _, h2, h3⟩ := forward_changes_variable_violated kindTwo 2 0 0 ⟨plusT, fun _ _ _ _ => ub⟩ ⟨0, 0, true⟩ rfl [1] _ _ stTwo stTwo_layout rfl (hs _ _) (hs _ _)
    exact ⟨x, s', z, h1, h2, by rw [h3.at_eq (by simp [ValidIdx])]; decide⟩
  · obtain ⟨x, s', z, h1, h2, _, h3, h4, _⟩ := plus_overwrites_operand kindTwo 1 2 0 0 negOp ⟨plusT, fun _ _ _ _ => ub⟩ [1] (by simp) (by simp) rfl _ _ stTwo stTwo_layout (fun _ => rfl) ⟨[2], [-10, -20]⟩
      rfl (hs _ _) (hs _ _) (hs _ _) rfl
    exact ⟨x, s', z, h1, h2, h3, by rw [h4.at_eq (by simp [ValidIdx])]; decide⟩
  · obtain ⟨x, s1, h1, h2, h3⟩ := run_result_overwritten_violated kindTwo 1 0 negOp rfl [1] (by simp) _ _ stTwo stTwo_layout ⟨[2], [-10, -20]⟩ rfl (hs _ _)
      (fun _ => ⟨[2], [1, 2]⟩) (fun _ => ⟨[2], 1⟩) ⟨[2], [-1, -2]⟩ rfl (hs _ _)
    cases h1
    obtain ⟨x2, s2, h4, _, h5⟩ := h3 ⟨fun _ => rfl, fun _ => rfl, by simp [stTwo], by simp, by simp [stTwo, Prot]⟩
    exact ⟨_, _, rfl, h2, x2, s2, h4, h5⟩

end Verif.Alias
