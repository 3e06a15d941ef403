import Verif.Alias.Model
import Verif.Graph.Operators
import Verif.Graph.Once
/-!
# When the shared storages do no harm

Helper theorems for C55 and C56: if the left operand of every `plus` is an operator used nowhere else, then a forward pass on shared
storages computes what the pass by value computes, and writes to no variable and no place holder.
-/
namespace Verif.Alias
open Verif Res Tensor Graph
open Verif.Data (denote)

variable {α : Type}

/-- A storage of a variable or a place holder. -/
def Prot (s : HSt α) (l : Nat) : Prop := (∃ k, (s.leafT k).loc = l) ∨ ∃ v, (s.varT v).loc = l

/-- The caches of the operators `I` are storages of their own, and the place holders and variables have the values `L` and `D`. -/
structure Layout (I : List Nat) (L D : Nat → Ten α) (s : HSt α) : Prop where
  leaf : ∀ k, denote s.heap (s.leafT k) = some (L k)
  var : ∀ v, denote s.heap (s.varT v) = some (D v)
  lt : ∀ i ∈ I, s.opc i < s.heap.length
  inj : ∀ i ∈ I, ∀ j ∈ I, s.opc i = s.opc j → i = j
  ne : ∀ i ∈ I, ¬ Prot s (s.opc i)

/-- The left operand of every `plus` is an operator that occurs nowhere but as the left operand of that `plus`. -/
def Tidy [Zero α] [Add α] (kind : Nat → Kind) (e : Ex α) : Prop :=
  ∀ p ∈ occs e none, ∀ i op l r, p.2 = .bin i op l r → kind i = .plus → op.fwd = plusT ∧ ∃ a, l.id? = some a ∧
    ∀ q ∈ occs e none, q.2.id? = some a → q.1 = some (i, false)

/-- The values met on the way are non-empty tensors with as many elements as their shapes say (and no extent is 2^64-1). -/
def Plain (L D : Nat → Ten α) (e : Ex α) : Prop :=
  ∀ p ∈ occs e none, ∀ y, eval L D p.2 = ok y → y.data ≠ [] ∧ y.WF ∧ y.shape.getLast? ≠ some Tensor.minusOne

/-- `a` occurs only as the left operand of `j`. -/
def LeftOf (e : Ex α) (j a : Nat) : Prop := ∀ q ∈ occs e none, q.2.id? = some a → q.1 = some (j, false)

structure HInv (s0 : HSt α) (e : Ex α) (L D : Nat → Ten α) (dead : Nat → Prop) (s : HSt α) : Prop where
  leafT : s.leafT = s0.leafT
  varT : s.varT = s0.varT
  opc : s.opc = s0.opc
  grow : s0.heap.length ≤ s.heap.length
  prot : ∀ l, Prot s0 l → s.heap[l]? = s0.heap[l]?
  value : ∀ p ∈ occs e none, ∀ i t, p.2.id? = some i → s.cache i = some t → ¬ dead i → ∃ y, denote s.heap t = some y ∧ eval L D p.2 = ok y
  mem : ∀ i t, s.cache i = some t → ¬ dead i → t.loc < s.heap.length
  sep : ∀ i j t u, s.cache i = some t → s.cache j = some u → ¬ dead i → ¬ dead j → i ≠ j → t.loc ≠ u.loc
  own : ∀ i t, s.cache i = some t → s0.heap.length ≤ t.loc ∨ ∃ k ∈ ids e, (s.cache k).isSome ∧ t.loc = s0.opc k
  deadOk : ∀ a, dead a → ∃ j, (s.cache j).isSome ∧ LeftOf e j a

theorem denote_some {h : Heap α} {t : Tn} {y : Ten α} (hd : denote h t = some y) : h[t.loc]? = some y.data ∧ y.shape = t.shape := by
  simp only [denote, Option.map_eq_some_iff] at hd
  obtain ⟨b, hb, rfl⟩ := hd
  exact ⟨hb, rfl⟩

theorem denote_congr {h h' : Heap α} {t : Tn} (he : h'[t.loc]? = h[t.loc]?) : denote h' t = denote h t := by
  simp only [denote, he]

theorem readT_ok {h : Heap α} {t : Tn} {y : Ten α} (hd : denote h t = some y) : readT h t = ok y := by
  obtain ⟨hb, hs⟩ := denote_some hd
  unfold readT
  rw [rd_ok hb, bind_ok, ← hs]
  rfl

theorem Layout.prot_lt {I : List Nat} {L D : Nat → Ten α} {s : HSt α} (hl : Layout I L D s) {l : Nat} (hp : Prot s l) : l < s.heap.length := by
  rcases hp with ⟨k, rfl⟩ | ⟨v, rfl⟩
  · exact (List.getElem?_eq_some_iff.mp (denote_some (hl.leaf k)).1).1
  · exact (List.getElem?_eq_some_iff.mp (denote_some (hl.var v)).1).1

theorem id_mem_ids {e n : Ex α} {sl sl0 : Slot} {i : Nat} (ho : (sl, n) ∈ occs e sl0) (hid : n.id? = some i) : i ∈ ids e := by
  induction e generalizing sl0 with
  | leaf k => simp only [occs, List.mem_singleton, Prod.mk.injEq] at ho; obtain ⟨_, rfl⟩ := ho; simp [Ex.id?] at hid
  | var v c => simp only [occs, List.mem_singleton, Prod.mk.injEq] at ho; obtain ⟨_, rfl⟩ := ho; simp [Ex.id?] at hid
  | un j op c ih =>
    simp only [occs, List.mem_cons, Prod.mk.injEq] at ho
    rcases ho with ⟨_, rfl⟩ | ho
    · simp only [Ex.id?, Option.some.injEq] at hid; simp [ids, hid]
    · simp [ids, ih ho]
  | bin j op l r ihl ihr =>
    simp only [occs, List.mem_cons, List.mem_append, Prod.mk.injEq] at ho
    rcases ho with ⟨_, rfl⟩ | ho | ho
    · simp only [Ex.id?, Option.some.injEq] at hid; simp [ids, hid]
    · simp [ids, ihl ho]
    · simp [ids, ihr ho]

/-- Leaving a result in a storage that holds no result still needed. -/
theorem HInv.put {s0 : HSt α} {e : Ex α} {L D : Nat → Ten α} (hl : Layout (ids e) L D s0) (hc : Consistent e) {dead dead' : Nat → Prop} {s : HSt α} (hi : HInv s0 e L D dead s)
    {n : Ex α} {sl : Slot} {i : Nat} (ho : (sl, n) ∈ occs e none) (hid : n.id? = some i) {y : Ten α} (hev : eval L D n = ok y)
    {t : Tn} {h' : Heap α} (hn : s.cache i = none) (hd : denote h' t = some y) (hlen : s.heap.length ≤ h'.length)
    (hold : ∀ l, l < s.heap.length → l ≠ t.loc → h'[l]? = s.heap[l]?) (hown : s0.heap.length ≤ t.loc ∨ ∃ k ∈ ids e, ((s.cache k).isSome ∨ k = i) ∧ t.loc = s0.opc k)
    (hne : ∀ k u, s.cache k = some u → ¬ dead' k → u.loc ≠ t.loc) (hdd : ∀ a, dead a → dead' a) (hdd' : ∀ a, dead' a → dead a ∨ LeftOf e i a) :
    HInv s0 e L D dead' { s with heap := h', cache := upd s.cache i (some t) } := by
  have hnp : ¬ Prot s0 t.loc := by
    intro hp
    rcases hown with h | ⟨k, hk, _, h⟩
    · exact absurd (hl.prot_lt hp) (by omega)
    · rw [h] at hp; exact hl.ne k hk hp
  refine ⟨hi.leafT, hi.varT, hi.opc, hi.grow.trans hlen, fun l hp => ?_, fun p hp k u hk hu hdk => ?_, fun k u hu hdk => ?_, fun k m u w hu hw hdk hdm hkm => ?_, fun k u hu => ?_, fun a ha => ?_⟩
  · rw [← hi.prot l hp]
    exact hold l (lt_of_lt_of_le (hl.prot_lt hp) hi.grow) (fun he => hnp (he ▸ hp))
  · dsimp only at hu ⊢
    by_cases hki : k = i
    · subst hki
      rw [upd_same] at hu
      cases hu
      exact ⟨y, hd, by rw [hc p hp _ ho k hk hid]; exact hev⟩
    · rw [upd_ne _ _ hki] at hu
      have hnd : ¬ dead k := fun h => hdk (hdd k h)
      obtain ⟨z, h1, h2⟩ := hi.value p hp k u hk hu hnd
      exact ⟨z, by rw [denote_congr (hold u.loc (hi.mem k u hu hnd) (hne k u hu hdk))]; exact h1, h2⟩
  · dsimp only at hu ⊢
    by_cases hki : k = i
    · subst hki
      rw [upd_same] at hu
      cases hu
      exact (List.getElem?_eq_some_iff.mp (denote_some hd).1).1
    · rw [upd_ne _ _ hki] at hu
      exact lt_of_lt_of_le (hi.mem k u hu (fun h => hdk (hdd k h))) hlen
  · dsimp only at hu hw
    by_cases hki : k = i
    · subst hki
      rw [upd_same] at hu
      cases hu
      rw [upd_ne _ _ (Ne.symm hkm)] at hw
      exact (hne m w hw hdm).symm
    · rw [upd_ne _ _ hki] at hu
      by_cases hmi : m = i
      · subst hmi
        rw [upd_same] at hw
        cases hw
        exact hne k u hu hdk
      · rw [upd_ne _ _ hmi] at hw
        exact hi.sep k m u w hu hw (fun h => hdk (hdd k h)) (fun h => hdm (hdd m h)) hkm
  · dsimp only at hu ⊢
    have up : ∀ k, (s.cache k).isSome ∨ k = i → (upd s.cache i (some t) k).isSome := by
      intro k hk
      by_cases hki : k = i
      · subst hki; rw [upd_same]; rfl
      · rw [upd_ne _ _ hki]; rcases hk with h | h
        · exact h
        · exact absurd h hki
    by_cases hki : k = i
    · subst hki
      rw [upd_same] at hu
      cases hu
      rcases hown with h | ⟨k', h0, h1, h2⟩
      · exact Or.inl h
      · exact Or.inr ⟨k', h0, up k' h1, h2⟩
    · rw [upd_ne _ _ hki] at hu
      rcases hi.own k u hu with h | ⟨k', h0, h1, h2⟩
      · exact Or.inl h
      · exact Or.inr ⟨k', h0, up k' (Or.inl h1), h2⟩
  · dsimp only
    rcases hdd' a ha with h | h
    · obtain ⟨j, h1, h2⟩ := hi.deadOk a h
      refine ⟨j, ?_, h2⟩
      by_cases hji : j = i
      · subst hji; rw [upd_same]; rfl
      · rw [upd_ne _ _ hji]; exact h1
    · exact ⟨i, by rw [upd_same]; rfl, h⟩

/-- What a forward pass at an object gives. -/
structure Gives (s0 : HSt α) (e : Ex α) (L D : Nat → Ten α) (t : Ex α) (y : Ten α) (dead : Nat → Prop) (s : HSt α) (x : Tn) (s' : HSt α) (dead' : Nat → Prop) : Prop where
  inv : HInv s0 e L D dead' s'
  val : denote s'.heap x = some y
  node : ∀ i, t.id? = some i → s'.cache i = some x ∧ ¬ dead' i
  base : t.id? = none → Prot s0 x.loc
  mono : ∀ a, dead a → dead' a
  dies : ∀ a, dead' a → dead a ∨ ∃ j ∈ ids t, LeftOf e j a
  keep : ∀ i u, s.cache i = some u → s'.cache i = some u
  new : ∀ i, (s'.cache i).isSome → (s.cache i).isSome ∨ i ∈ ids t

theorem Gives.store [Zero α] [Add α] {s0 : HSt α} {e : Ex α} {L D : Nat → Ten α} {kind : Nat → Kind} (hl : Layout (ids e) L D s0) (hc : Consistent e)
    {n : Ex α} {sl : Slot} {i : Nat} (ho : (sl, n) ∈ occs e none) (hid : n.id? = some i) {y : Ten α} (hev : eval L D n = ok y)
    {dead dead1 : Nat → Prop} {s s1 : HSt α} (hi : HInv s0 e L D dead1 s1) (hn : s1.cache i = none) (hdi : ¬ dead1 i) (hin : i ∈ ids n)
    (mono : ∀ a, dead a → dead1 a) (dies : ∀ a, dead1 a → dead a ∨ ∃ j ∈ ids n, LeftOf e j a) (keep : ∀ i u, s.cache i = some u → s1.cache i = some u)
    (new : ∀ i, (s1.cache i).isSome → (s.cache i).isSome ∨ i ∈ ids n) :
    ∃ x s', Alias.store kind i y s1 = ok (x, s') ∧ Gives s0 e L D n y dead s x s' dead1 := by
  have fin : ∀ (t : Tn) (h' : Heap α), denote h' t = some y → HInv s0 e L D dead1 { s1 with heap := h', cache := upd s1.cache i (some t) } →
      Gives s0 e L D n y dead s t { s1 with heap := h', cache := upd s1.cache i (some t) } dead1 := by
    intro t h' hd hinv
    refine ⟨hinv, hd, fun k hk => ?_, fun h => by rw [hid] at h; simp at h, mono, dies, fun k u hu => ?_, fun k hk => ?_⟩
    · rw [hid] at hk
      cases hk
      exact ⟨upd_same _ _ _, hdi⟩
    · dsimp only
      have : k ≠ i := by
        rintro rfl
        rw [keep k u hu] at hn
        cases hn
      rw [upd_ne _ _ this]
      exact keep k u hu
    · dsimp only at hk
      by_cases hki : k = i
      · subst hki; exact Or.inr hin
      · rw [upd_ne _ _ hki] at hk
        exact new k hk
  have hie := id_mem_ids ho hid
  unfold Alias.store
  have hfresh : ∃ x s', (ok (⟨y.shape, s1.heap.length⟩, { s1 with heap := s1.heap ++ [y.data], cache := upd s1.cache i (some ⟨y.shape, s1.heap.length⟩) }) : Res (Tn × HSt α)) = ok (x, s') ∧
      Gives s0 e L D n y dead s x s' dead1 := by
    have hd : denote (s1.heap ++ [y.data]) ⟨y.shape, s1.heap.length⟩ = some y := by simp [denote]
    refine ⟨_, _, rfl, fin _ _ hd ?_⟩
    refine hi.put hl hc ho hid hev hn hd (by simp) (fun l h1 _ => List.getElem?_append_left h1) (Or.inl hi.grow) (fun k u hu hk he => ?_) (fun _ h => h) (fun _ h => Or.inl h)
    have := hi.mem k u hu hk
    simp only at he
    omega
  cases kind i with
  | own =>
    have hlt : s1.opc i < s1.heap.length := by rw [hi.opc]; exact lt_of_lt_of_le (hl.lt i hie) hi.grow
    have hd : denote (s1.heap.set (s1.opc i) y.data) ⟨y.shape, s1.opc i⟩ = some y := by simp [denote, hlt]
    refine ⟨_, _, by dsimp only; rw [wr_ok hlt, bind_ok]; rfl, fin _ _ hd ?_⟩
    refine hi.put hl hc ho hid hev hn hd (by simp) (fun l h1 h2 => List.getElem?_set_ne (Ne.symm h2)) (Or.inr ⟨i, hie, Or.inr rfl, by rw [hi.opc]⟩) (fun k u hu hk he => ?_) (fun _ h => h) (fun _ h => Or.inl h)
    simp only [hi.opc] at he
    rcases hi.own k u hu with h | ⟨k', h0, h1, h2⟩
    · have := hl.lt i hie
      omega
    · have := hl.inj k' h0 i hie (by rw [← h2, he])
      subst this
      rw [hn] at h1
      simp at h1
  | fresh => exact hfresh
  | plus => exact hfresh

/-- A result stays what it is while another operand is evaluated. -/
theorem Gives.persist {s0 : HSt α} {e : Ex α} {L D : Nat → Ten α} (hc : Consistent e) {n c c' : Ex α} {sl : Slot} {i : Nat} {b b' : Bool} (ho : (sl, n) ∈ occs e none) (hid : n.id? = some i)
    (hb : n.child? b = some c) (hb' : n.child? b' = some c') {y y' : Ten α} (hev : eval L D c = ok y) {dead dead1 dead2 : Nat → Prop} {s s1 s2 : HSt α} {x x' : Tn}
    (g1 : Gives s0 e L D c y dead s x s1 dead1) (g2 : Gives s0 e L D c' y' dead1 s1 x' s2 dead2) :
    denote s2.heap x = some y ∧ ∀ a, c.id? = some a → s2.cache a = some x ∧ ¬ dead2 a := by
  have hoc := child_mem ho hid hb
  have key : ∀ a, c.id? = some a → s2.cache a = some x ∧ ¬ dead2 a := by
    intro a ha
    obtain ⟨h1, h2⟩ := g1.node a ha
    refine ⟨g2.keep a x h1, fun hd => ?_⟩
    rcases g2.dies a hd with h | ⟨j, hj, hjl⟩
    · exact h2 h
    · have := hjl _ hoc ha
      simp only [Option.some.injEq, Prod.mk.injEq] at this
      obtain ⟨rfl, _⟩ := this
      exact not_mem_child hc ho hid hb' hj
  refine ⟨?_, key⟩
  cases hcid : c.id? with
  | none =>
    have hp := g1.base hcid
    rw [denote_congr (h' := s2.heap) (h := s1.heap), g1.val]
    rw [g2.inv.prot _ hp, g1.inv.prot _ hp]
  | some a =>
    obtain ⟨h1, h2⟩ := key a hcid
    obtain ⟨z, h3, h4⟩ := g2.inv.value _ hoc a x hcid h1 h2
    rw [hev] at h4
    cases h4
    exact h3

theorem child_alive {s0 : HSt α} {e : Ex α} {L D : Nat → Ten α} {n c : Ex α} {sl : Slot} {i : Nat} {b : Bool} (ho : (sl, n) ∈ occs e none) (hid : n.id? = some i)
    (hb : n.child? b = some c) {dead : Nat → Prop} {s : HSt α} (hi : HInv s0 e L D dead s) (hn : s.cache i = none) : ∀ a, c.id? = some a → ¬ dead a := by
  intro a ha hd
  obtain ⟨j, h1, h2⟩ := hi.deadOk a hd
  have := h2 _ (child_mem ho hid hb) ha
  simp only [Option.some.injEq, Prod.mk.injEq] at this
  obtain ⟨rfl, _⟩ := this
  rw [hn] at h1
  simp at h1

theorem not_left_inside {e n : Ex α} {sl : Slot} {i j : Nat} (hc : Consistent e) (ho : (sl, n) ∈ occs e none) (hid : n.id? = some i) (hj : LeftOf e j i) (hm : j ∈ ids n) : False := by
  have hsl := hj _ ho hid
  simp only at hsl
  rcases occs_parent ho with h | ⟨k, b, sl', u, h2, h1, h3, h4⟩
  · rw [hsl] at h; simp at h
  · rw [hsl] at h2
    simp only [Option.some.injEq, Prod.mk.injEq] at h2
    obtain ⟨rfl, rfl⟩ := h2
    exact not_mem_child hc h1 h3 h4 hm

theorem plusT_inv [Zero α] [Add α] {l r u : Ten α} (h : plusT l r = ok u) : Compatible l.shape r.shape := by
  by_contra hc
  have := broadcastShape_abort hc
  unfold plusT addLike at h
  dsimp only at h
  rw [this] at h
  cases h

theorem hquery_hit {s0 : HSt α} {e : Ex α} {L D : Nat → Ten α} (hp : Plain L D e) {n : Ex α} {sl : Slot} {i : Nat} (ho : (sl, n) ∈ occs e none) (hid : n.id? = some i)
    {dead : Nat → Prop} {s : HSt α} (hi : HInv s0 e L D dead s) (hd : ¬ dead i) {t : Tn} (ht : s.cache i = some t) {y : Ten α} (hev : eval L D n = ok y) :
    hquery s i = ok (some t) ∧ denote s.heap t = some y := by
  obtain ⟨z, h1, h2⟩ := hi.value _ ho i t hid ht hd
  simp only at h2
  rw [hev] at h2
  cases h2
  refine ⟨?_, h1⟩
  unfold hquery
  rw [ht]
  dsimp only
  rw [rd_ok (denote_some h1).1, bind_ok, if_neg (hp _ ho y hev).1]
  rfl

theorem hquery_miss {s : HSt α} {i : Nat} (h : s.cache i = none) : hquery s i = ok none := by
  unfold hquery; rw [h]

theorem hforward_spec [Zero α] [Add α] {s0 : HSt α} {e : Ex α} {L D : Nat → Ten α} {kind : Nat → Kind} (hl : Layout (ids e) L D s0) (hc : Consistent e) (hp : Plain L D e)
    (ht : Tidy kind e) (n : Ex α) : ∀ (sl : Slot) (s : HSt α) (dead : Nat → Prop), (sl, n) ∈ occs e none → HInv s0 e L D dead s → (∀ i, n.id? = some i → ¬ dead i) →
    ∀ y, eval L D n = ok y → ∃ x s' dead', hforward kind n s = ok (x, s') ∧ Gives s0 e L D n y dead s x s' dead' := by
  induction n with
  | leaf k =>
    intro sl s dead ho hi _ y hev
    simp only [eval, bind_eq_ok, pure_eq] at hev
    obtain ⟨_, h1, h2⟩ := hev
    cases h2
    have hval : denote s.heap (s0.leafT k) = some (L k) := by
      rw [denote_congr (hi.prot _ (Or.inl ⟨k, rfl⟩))]
      exact hl.leaf k
    have hne : (L k).data ≠ [] := (hp _ ho _ (by simp only [eval, h1, bind_ok]; rfl)).1
    refine ⟨s0.leafT k, s, dead, ?_, hi, hval, fun i h => by simp [Ex.id?] at h, fun _ => Or.inl ⟨k, rfl⟩, fun _ h => h, fun _ h => Or.inl h, fun _ _ h => h, fun _ h => Or.inl h⟩
    rw [hforward, hi.leafT, rd_ok (denote_some hval).1, bind_ok, assert_true hne, bind_ok]
    rfl
  | var v c =>
    intro sl s dead ho hi _ y hev
    simp only [eval, ok.injEq] at hev
    subst hev
    have hval : denote s.heap (s0.varT v) = some (D v) := by
      rw [denote_congr (hi.prot _ (Or.inr ⟨v, rfl⟩))]
      exact hl.var v
    refine ⟨s0.varT v, s, dead, ?_, hi, hval, fun i h => by simp [Ex.id?] at h, fun _ => Or.inr ⟨v, rfl⟩, fun _ h => h, fun _ h => Or.inl h, fun _ _ h => h, fun _ h => Or.inl h⟩
    rw [hforward, hi.varT]
  | un i op c ih =>
    intro sl s dead ho hi hnd y hev
    cases hca : s.cache i with
    | some t =>
      obtain ⟨h1, h2⟩ := hquery_hit hp ho rfl hi (hnd i rfl) hca hev
      refine ⟨t, s, dead, by rw [hforward, h1, bind_ok]; rfl, hi, h2, fun k hk => ?_, fun h => by simp [Ex.id?] at h, fun _ h => h, fun _ h => Or.inl h, fun _ _ h => h, fun _ h => Or.inl h⟩
      simp only [Ex.id?, Option.some.injEq] at hk
      subst hk
      exact ⟨hca, hnd i rfl⟩
    | none =>
      have hev' := hev
      simp only [eval, bind_eq_ok] at hev'
      obtain ⟨xv, hx, hy⟩ := hev'
      have hoc := occs_child_un ho
      obtain ⟨x, s1, dead1, h1, g⟩ := ih _ s dead hoc hi (child_alive (b := false) ho rfl rfl hi hca) xv hx
      have hic : i ∉ ids c := not_mem_child (b := false) hc ho rfl rfl
      have hn1 : s1.cache i = none := by
        by_contra h
        rcases g.new i (Option.isSome_iff_ne_none.mpr h) with h | h
        · rw [hca] at h; simp at h
        · exact hic h
      have hd1 : ¬ dead1 i := by
        intro h
        rcases g.dies i h with h | ⟨j, hj, hjl⟩
        · exact hnd i rfl h
        · exact not_left_inside hc ho rfl hjl (by simp [ids, hj])
      obtain ⟨x', s', h2, g'⟩ := Gives.store (kind := kind) (dead := dead) (s := s) hl hc ho rfl hev g.inv hn1 hd1 (by simp [ids]) g.mono
        (fun a ha => (g.dies a ha).imp_right (fun ⟨j, hj, hjl⟩ => ⟨j, by simp [ids, hj], hjl⟩)) g.keep (fun k hk => (g.new k hk).imp_right (fun h => by simp [ids, h]))
      refine ⟨x', s', dead1, ?_, g'⟩
      rw [hforward, hquery_miss hca, bind_ok]
      dsimp only
      rw [h1, bind_ok]
      dsimp only
      rw [readT_ok g.val, bind_ok, hy, bind_ok, h2]
  | bin i op l r ihl ihr =>
    intro sl s dead ho hi hnd z hev
    cases hca : s.cache i with
    | some t =>
      obtain ⟨h1, h2⟩ := hquery_hit hp ho rfl hi (hnd i rfl) hca hev
      refine ⟨t, s, dead, by rw [hforward, h1, bind_ok]; rfl, hi, h2, fun k hk => ?_, fun h => by simp [Ex.id?] at h, fun _ h => h, fun _ h => Or.inl h, fun _ _ h => h, fun _ h => Or.inl h⟩
      simp only [Ex.id?, Option.some.injEq] at hk
      subst hk
      exact ⟨hca, hnd i rfl⟩
    | none =>
      have hev' := hev
      simp only [eval, bind_eq_ok] at hev'
      obtain ⟨xv, hx, yv, hy, hz⟩ := hev'
      obtain ⟨hol, hor⟩ := occs_child_bin ho
      obtain ⟨x, s1, dead1, h1, g1⟩ := ihl _ s dead hol hi (child_alive (b := false) ho rfl rfl hi hca) xv hx
      have hil : i ∉ ids l := not_mem_child (b := false) hc ho rfl rfl
      have hir : i ∉ ids r := not_mem_child (b := true) hc ho rfl rfl
      have hn1 : s1.cache i = none := by
        by_contra h
        rcases g1.new i (Option.isSome_iff_ne_none.mpr h) with h | h
        · rw [hca] at h; simp at h
        · exact hil h
      obtain ⟨y, s2, dead2, h2, g2⟩ := ihr _ s1 dead1 hor g1.inv (child_alive (b := true) ho rfl rfl g1.inv hn1) yv hy
      have hn2 : s2.cache i = none := by
        by_contra h
        rcases g2.new i (Option.isSome_iff_ne_none.mpr h) with h | h
        · rw [hn1] at h; simp at h
        · exact hir h
      have mono : ∀ a, dead a → dead2 a := fun a ha => g2.mono a (g1.mono a ha)
      have dies : ∀ a, dead2 a → dead a ∨ ∃ j ∈ ids (.bin i op l r), LeftOf e j a := by
        intro a ha
        rcases g2.dies a ha with h | ⟨j, hj, hjl⟩
        · exact (g1.dies a h).imp_right (fun ⟨j, hj, hjl⟩ => ⟨j, by simp [ids, hj], hjl⟩)
        · exact Or.inr ⟨j, by simp [ids, hj], hjl⟩
      have keep : ∀ k u, s.cache k = some u → s2.cache k = some u := fun k u hu => g2.keep k u (g1.keep k u hu)
      have new : ∀ k, (s2.cache k).isSome → (s.cache k).isSome ∨ k ∈ ids (.bin i op l r) := by
        intro k hk
        rcases g2.new k hk with h | h
        · exact (g1.new k h).imp_right (fun h => by simp [ids, h])
        · exact Or.inr (by simp [ids, h])
      have hd2 : ¬ dead2 i := by
        intro h
        rcases dies i h with h | ⟨j, hj, hjl⟩
        · exact hnd i rfl h
        · exact not_left_inside hc ho rfl hjl hj
      obtain ⟨hxval, hxnode⟩ := g1.persist hc (b := false) (b' := true) ho rfl rfl rfl hx g2
      by_cases hk : kind i = .plus
      · obtain ⟨hop, a, hla, hlo⟩ := ht _ ho i op l r rfl hk
        rw [hop] at hz
        have hcomp := plusT_inv hz
        have px := hp _ hol xv hx
        have py := hp _ hor yv hy
        obtain ⟨hxb, hxs⟩ := denote_some hxval
        obtain ⟨hyb, hys⟩ := denote_some g2.val
        have hX : Holds s2.heap x xv.at := ⟨xv.data, hxb, by rw [← hxs]; exact px.2.1.has.2⟩
        have hY : Holds s2.heap y yv.at := ⟨yv.data, hyb, by rw [← hys]; exact py.2.1.has.2⟩
        obtain ⟨c, t', h', k1, k2, k3, ⟨buf, k4, k5⟩, k6, k7, k8⟩ := addLike_ok (f := (· + ·)) hX hY (by rw [← hxs, ← hys]; exact hcomp) (by rw [← hxs]; exact px.2.2) (by rw [← hys]; exact py.2.2)
        obtain ⟨c', u, m1, m2, m3⟩ := plusT_ok px.2.1.has py.2.1.has hcomp px.2.2 py.2.2
        rw [hz] at m2
        cases m2
        rw [hxs, hys, k1] at m1
        cases m1
        have hval : denote h' t' = some z := by
          simp only [denote, k4, Option.map_some, Option.some.injEq]
          refine Ten.Has.ext (s := c) (a := fun is => xv.at (bcIdx x.shape is) + yv.at (bcIdx y.shape is)) ⟨k3, by rw [k3] at k5; exact k5⟩ ?_
          rw [← hxs, ← hys]; exact m3
        obtain ⟨hxc, hxd⟩ := hxnode a hla
        refine ⟨t', { s2 with heap := h', cache := upd s2.cache i (some t') }, fun b => dead2 b ∨ b = a, ?_, ?_⟩
        · rw [hforward, hquery_miss hca, bind_ok]
          dsimp only
          rw [h1, bind_ok]
          dsimp only
          rw [h2, bind_ok]
          dsimp only
          rw [if_pos hk, k2, bind_ok]
          rfl
        · have hai : a ≠ i := by
            rintro rfl
            exact hil (by cases l <;> simp [Ex.id?] at hla <;> simp [ids, hla])
          have hloc : (s2.heap.length ≤ t'.loc ∧ ∀ k, k < s2.heap.length → h'[k]? = s2.heap[k]?) ∨ (t'.loc = x.loc ∧ ∀ k, k < s2.heap.length → k ≠ x.loc → h'[k]? = s2.heap[k]?) := by
            by_cases hpad : padShape x.shape c = c
            · exact Or.inr (k8 hpad)
            · exact Or.inl (k7 hpad)
          refine ⟨g2.inv.put hl hc ho rfl hev hn2 hval k6 ?_ ?_ ?_ (fun b h => Or.inl h) ?_, hval, fun k hk' => ?_, fun h => by simp [Ex.id?] at h, fun b h => Or.inl (mono b h), fun b hb => ?_, fun k u hu => ?_, fun k hk' => ?_⟩
          · intro q hq hqt
            rcases hloc with h | h
            · exact h.2 q hq
            · exact h.2 q hq (by rw [← h.1]; exact hqt)
          · rcases hloc with h | h
            · exact Or.inl (g2.inv.grow.trans h.1)
            · rw [h.1]
              exact (g2.inv.own a x hxc).imp_right (fun ⟨k, q0, q1, q2⟩ => ⟨k, q0, Or.inl q1, q2⟩)
          · intro k u hu hdk
            push Not at hdk
            rcases hloc with h | h
            · have := g2.inv.mem k u hu hdk.1
              omega
            · rw [h.1]
              exact g2.inv.sep k a u x hu hxc hdk.1 hxd hdk.2
          · rintro b (h | rfl)
            · exact Or.inl h
            · exact Or.inr hlo
          · simp only [Ex.id?, Option.some.injEq] at hk'
            subst hk'
            exact ⟨upd_same _ _ _, fun h => h.elim hd2 (Ne.symm hai)⟩
          · rcases hb with h | rfl
            · exact dies b h
            · exact Or.inr ⟨i, by simp [ids], hlo⟩
          · dsimp only
            rw [upd_ne _ _ (by rintro rfl; rw [hca] at hu; cases hu)]
            exact keep k u hu
          · dsimp only at hk'
            by_cases hki : k = i
            · subst hki; exact Or.inr (by simp [ids])
            · rw [upd_ne _ _ hki] at hk'
              exact new k hk'
      · obtain ⟨x', s', h3, g'⟩ := Gives.store (kind := kind) (dead := dead) (s := s) hl hc ho rfl hev g2.inv hn2 hd2 (by simp [ids]) mono dies keep new
        refine ⟨x', s', dead2, ?_, g'⟩
        rw [hforward, hquery_miss hca, bind_ok]
        dsimp only
        rw [h1, bind_ok]
        dsimp only
        rw [h2, bind_ok]
        dsimp only
        rw [if_neg hk, readT_ok hxval, bind_ok, readT_ok g2.val, bind_ok, hz, bind_ok, h3]

theorem hinv_start {L D : Nat → Ten α} {e : Ex α} (s : HSt α) : HInv { s with cache := fun _ => none } e L D (fun _ => False) { s with cache := fun _ => none } :=
  ⟨rfl, rfl, rfl, le_rfl, fun _ _ => rfl, fun _ _ _ _ _ h => by simp at h, fun _ _ h => by simp at h, fun _ _ _ _ h => by simp at h, fun _ _ h => by simp at h, fun _ h => h.elim⟩

end Verif.Alias
