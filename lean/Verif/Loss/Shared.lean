import Verif.Loss.Examples
import Verif.Alias.Props
/-!
# Properties C98, C100: losses on shared storages

`plus` leaves the sum in the storage of its left operand (`Verif.Alias`).  In `mean_squared_error( label, prediction )` that is the tensor bound to the
place holder of the labels; in `binary_cross_entropy_loss` it is the tensor of ones, which is used twice.
-/
namespace Verif.Loss
open Verif Res View Data Ops Graph Optim Alias
open Verif.Tensor (Tn Heap bcIdx Holds addLike)

/-! ## Steps -/

variable {α : Type} [Zero α] [Add α]

/-- Nothing but the storages `W` and new ones are written. -/
structure Fr (W : Nat → Prop) (s s' : HSt α) : Prop where
  leafT : s'.leafT = s.leafT
  varT : s'.varT = s.varT
  opc : s'.opc = s.opc
  grow : s.heap.length ≤ s'.heap.length
  old : ∀ l, l < s.heap.length → ¬ W l → s'.heap[l]? = s.heap[l]?

theorem Fr.refl (s : HSt α) : Fr (fun _ => False) s s := ⟨rfl, rfl, rfl, le_refl _, fun _ _ _ => rfl⟩

theorem Fr.trans {W W' : Nat → Prop} {s s' s'' : HSt α} (h : Fr W s s') (h' : Fr W' s' s'') : Fr (fun l => W l ∨ W' l) s s'' :=
  ⟨h'.leafT.trans h.leafT, h'.varT.trans h.varT, h'.opc.trans h.opc, h.grow.trans h'.grow, fun l hl hw => by
    rw [h'.old l (lt_of_lt_of_le hl h.grow) (fun h => hw (Or.inr h)), h.old l hl (fun h => hw (Or.inl h))]⟩

theorem Fr.keep {W : Nat → Prop} {s s' : HSt α} (h : Fr W s s') {x : Tn} {y : Ten α} (hx : denote s.heap x = some y) (hw : ¬ W x.loc) : denote s'.heap x = some y := by
  rw [denote_congr (h.old x.loc (List.getElem?_eq_some_iff.mp (denote_some hx).1).1 hw)]
  exact hx

theorem lt_of_denote {h : Heap α} {x : Tn} {y : Ten α} (hx : denote h x = some y) : x.loc < h.length := (List.getElem?_eq_some_iff.mp (denote_some hx).1).1

theorem store_fresh {kind : Nat → Kind} {i : Nat} (hk : kind i = .fresh) (y : Ten α) (s : HSt α) :
    ∃ x s', Alias.store kind i y s = ok (x, s') ∧ x.loc = s.heap.length ∧ Fr (fun _ => False) s s' ∧ denote s'.heap x = some y ∧ s'.cache = upd s.cache i (some x) := by
  unfold Alias.store
  rw [hk]
  exact ⟨_, _, rfl, rfl, ⟨rfl, rfl, rfl, by simp, fun l hl _ => List.getElem?_append_left hl⟩, by simp [denote], rfl⟩

theorem store_own {kind : Nat → Kind} {i : Nat} (hk : kind i = .own) (y : Ten α) (s : HSt α) (hlt : s.opc i < s.heap.length) :
    ∃ x s', Alias.store kind i y s = ok (x, s') ∧ x.loc = s.opc i ∧ Fr (fun l => l = s.opc i) s s' ∧ denote s'.heap x = some y ∧ s'.cache = upd s.cache i (some x) := by
  unfold Alias.store
  rw [hk]
  dsimp only
  rw [wr_ok hlt, bind_ok]
  exact ⟨_, _, rfl, rfl, ⟨rfl, rfl, rfl, by simp, fun l hl hw => List.getElem?_set_ne (Ne.symm hw)⟩, by simp [denote, hlt], rfl⟩

theorem fwd_leaf {kind : Nat → Kind} {k : Nat} {s : HSt α} {y : Ten α} (h : denote s.heap (s.leafT k) = some y) (hy : y.data ≠ []) :
    hforward kind (.leaf k) s = ok (s.leafT k, s) := by
  rw [hforward, rd_ok (denote_some h).1, bind_ok, assert_true hy, bind_ok]; rfl

theorem fwd_hit {kind : Nat → Kind} {i : Nat} {op : UOp α} {c : Ex α} {s : HSt α} {t : Tn} {y : Ten α} (h : s.cache i = some t) (hd : denote s.heap t = some y) (hy : y.data ≠ []) :
    hforward kind (.un i op c) s = ok (t, s) := by
  rw [hforward]
  unfold hquery
  rw [h]
  dsimp only
  rw [rd_ok (denote_some hd).1, bind_ok, if_neg hy]
  rfl

theorem fwd_un {kind : Nat → Kind} {i : Nat} {op : UOp α} {c : Ex α} {s s1 : HSt α} {x : Tn} {xv y : Ten α} (hn : s.cache i = none) (h : hforward kind c s = ok (x, s1))
    (hx : denote s1.heap x = some xv) (hy : op.fwd xv = ok y) : hforward kind (.un i op c) s = Alias.store kind i y s1 := by
  rw [hforward, hquery_miss hn, bind_ok]
  dsimp only
  rw [h, bind_ok]
  dsimp only
  rw [readT_ok hx, bind_ok, hy, bind_ok]

theorem fwd_bin {kind : Nat → Kind} {i : Nat} {op : BOp α} {l r : Ex α} {s s1 s2 : HSt α} {x y : Tn} {xv yv z : Ten α} (hk : kind i ≠ .plus) (hn : s.cache i = none)
    (h1 : hforward kind l s = ok (x, s1)) (h2 : hforward kind r s1 = ok (y, s2)) (hx : denote s2.heap x = some xv) (hy : denote s2.heap y = some yv)
    (hz : op.fwd xv yv = ok z) : hforward kind (.bin i op l r) s = Alias.store kind i z s2 := by
  rw [hforward, hquery_miss hn, bind_ok]
  dsimp only
  rw [h1, bind_ok]
  dsimp only
  rw [h2, bind_ok]
  dsimp only
  rw [if_neg hk, readT_ok hx, bind_ok, readT_ok hy, bind_ok, hz, bind_ok]

theorem fwd_plus {kind : Nat → Kind} {i : Nat} {op : BOp α} {l r : Ex α} {s s1 s2 : HSt α} {x y : Tn} {xv yv : Ten α} (hk : kind i = .plus) (hn : s.cache i = none)
    (h1 : hforward kind l s = ok (x, s1)) (h2 : hforward kind r s1 = ok (y, s2)) (hx : denote s2.heap x = some xv) (hy : denote s2.heap y = some yv)
    (hs : xv.shape = yv.shape) (sx : Sound xv) (sy : Sound yv) :
    ∃ s3 z, hforward kind (.bin i op l r) s = ok (x, s3) ∧ denote s3.heap x = some z ∧ z.Has xv.shape (fun is => xv.at is + yv.at is) ∧ Fr (fun l => l = x.loc) s2 s3 ∧
      s3.cache = upd s2.cache i (some x) := by
  obtain ⟨h', z, g1, g2, g3, g4, g5⟩ := plus_same hx hy hs sx sy
  refine ⟨{ s2 with heap := h', cache := upd s2.cache i (some x) }, z, ?_, g2, g3, ⟨rfl, rfl, rfl, g4, fun l hl hw => g5 l hl hw⟩, rfl⟩
  rw [hforward, hquery_miss hn, bind_ok]
  dsimp only
  rw [h1, bind_ok]
  dsimp only
  rw [h2, bind_ok]
  dsimp only
  rw [if_pos hk, g1, bind_ok]
  rfl

theorem sound_of {sh : List Nat} (hne : size sh ≠ 0) (hm : sh.getLast? ≠ some Tensor.minusOne) {y : Ten α} {a : List Nat → α} (h : y.Has sh a) : Sound y :=
  ⟨(data_ne_nil h).mpr hne, h.wf, by rw [h.1]; exact hm⟩

/-! ## C100: the labels -/

/-- C100 is false of `mean_squared_error`.  `r` is any prediction whose evaluation does no harm (`run_shared_storage_partial`), of the shape of the labels.
The loss returned is the mean of the squared differences, and afterwards the tensor bound to the place holder of the labels holds the differences.
(`negative`, `square` and `mean_reduce` leave their results in new tensors.) -/
theorem mse_overwrites_labels_violated (K : Kit) (kind : Nat → Kind) (i k : Nat) (r : Ex ℝ) (L D : Nat → Ten ℝ) (s : HSt ℝ) (hl : Layout (ids r) L D s)
    (hc : Consistent r) (hp : Plain L D r) (ht : Tidy kind r) (hk0 : kind i = .fresh) (hk1 : kind (i + 1) = .plus) (hk2 : kind (i + 2) = .fresh) (hk3 : kind (i + 3) = .fresh)
    (hid : ∀ j, i ≤ j → j ≤ i + 3 → j ∉ ids r) {sh : List Nat} {b : List Nat → ℝ} (hev : Ev L D r sh b) (hsh : (L k).shape = sh) (hwf : (L k).WF) (hz : size sh ≠ 0)
    (hm : sh.getLast? ≠ some Tensor.minusOne) :
    ∃ x s' y z, hrun kind (mse K i (.leaf k) r) s = ok (x, s') ∧ denote s'.heap x = some y ∧
      y = ⟨[1], [sumIdx sh (fun is => ((L k).at is - b is) ^ 2) / (size sh : ℝ)]⟩ ∧
      s'.leafT = s.leafT ∧ denote s'.heap (s.leafT k) = some z ∧ z.Has sh (fun is => (L k).at is - b is) ∧
      (∀ j, (s.leafT j).loc ≠ (s.leafT k).loc → denote s'.heap (s.leafT j) = some (L j)) ∧
      (∀ v, (s.varT v).loc ≠ (s.leafT k).loc → denote s'.heap (s.varT v) = some (D v)) ∧ s'.varT = s.varT ∧ s'.opc = s.opc ∧ s.heap.length ≤ s'.heap.length := by
  obtain ⟨yv, hy, hys⟩ := hev
  have hlk : (L k).Has sh (L k).at := by have := hwf.has; rwa [hsh] at this
  have slk := sound_of hz hm hlk
  have hl' : Layout (ids r) L D { s with cache := fun _ => none } := ⟨hl.leaf, hl.var, hl.lt, hl.inj, hl.ne⟩
  obtain ⟨x, s1, dead, h1, g⟩ := hforward_spec hl' hc hp ht r none _ _ (mem_occs_self r none) (hinv_start s) (fun _ _ h => h) yv hy
  have hcache : ∀ j, i ≤ j → j ≤ i + 3 → s1.cache j = none := by
    intro j ha hb
    by_contra h
    rcases g.new j (Option.isSome_iff_ne_none.mpr h) with h | h
    · simp at h
    · exact hid j ha hb h
  -- the negative of the prediction
  obtain ⟨n, n1, n2⟩ := mapT_ok EOp.negative.fwd K.cacheF yv hys
  obtain ⟨x2, s2, a1, a2, a3, a4, a5⟩ := store_fresh hk0 n s1
  have e1 : hforward kind (el K i .negative r) { s with cache := fun _ => none } = ok (x2, s2) := by
    rw [el, fwd_un rfl h1 g.val n1, a1]
  -- the sum, in the labels' storage
  have hlab1 : denote s1.heap (s.leafT k) = some (L k) := by
    rw [denote_congr (h := s.heap) (g.inv.prot _ (Or.inl ⟨k, rfl⟩))]; exact hl.leaf k
  have hlab2 := a3.keep hlab1 (fun h => h)
  obtain ⟨s3, z, b1, b2, b3, b4, b5⟩ := fwd_plus (op := opPlus K.red K.fuel) hk1 (s := { s with cache := fun _ => none }) rfl (fwd_leaf (hl.leaf k) slk.1) e1
    hlab2 a4 (by rw [hsh, n2.1]) slk (sound_of hz hm n2)
  rw [hsh] at b3
  -- square and mean
  obtain ⟨q, q1, q2⟩ := mapT_ok EOp.square.fwd K.cacheF z b3
  obtain ⟨x4, s4, c1, c2, c3, c4, c5⟩ := store_fresh hk2 q s3
  have hq := meanReduce_ok q2 hz
  obtain ⟨x5, s5, d1, d2, d3, d4, d5⟩ := store_fresh hk3 _ s4
  have fr : Fr (fun l => l = (s.leafT k).loc) s1 s5 := by
    have := ((a3.trans b4).trans c3).trans d3
    exact ⟨this.leafT, this.varT, this.opc, this.grow, fun l hl hw => this.old l hl (by simpa using hw)⟩
  refine ⟨x5, s5, _, z, ?_, d4, ?_, by rw [fr.leafT, g.inv.leafT], d3.keep (c3.keep b2 (fun h => h)) (fun h => h), ?_, fun j hj => ?_, fun v hv => ?_, by rw [fr.varT, g.inv.varT], by rw [fr.opc, g.inv.opc],
    g.inv.grow.trans fr.grow⟩
  · unfold hrun mse
    have e3 : hforward kind (minusE K i (.leaf k) r) { s with cache := fun _ => none } = ok (s.leafT k, s3) := b1
    have e4 : hforward kind (el K (i + 2) .square (minusE K i (.leaf k) r)) { s with cache := fun _ => none } = ok (x4, s4) := by
      rw [el, fwd_un rfl e3 b2 q1, c1]
    rw [fwd_un rfl e4 c4 hq, d1]
  · rw [sumIdx_congr (g := fun is => ((L k).at is - b is) ^ 2) (fun is hv => by rw [n2.at_eq hv]; simp only [EOp.fwd]; ring)]
  · exact b3.congr (fun is hv => by rw [n2.at_eq hv]; simp only [EOp.fwd]; ring)
  · refine fr.keep ?_ hj
    rw [denote_congr (h := s.heap) (g.inv.prot _ (Or.inl ⟨j, rfl⟩))]; exact hl.leaf j
  · refine fr.keep ?_ hv
    rw [denote_congr (h := s.heap) (g.inv.prot _ (Or.inr ⟨v, rfl⟩))]; exact hl.var v

/-- A consequence: of two runs of the same loss in a row, with nothing done in between, the second does not return the loss.  With a variable `v` for the
prediction, it returns the mean of the squares of `label - 2 prediction`. -/
theorem mse_twice_violated (K : Kit) (kind : Nat → Kind) (i k v : Nat) (c : Cfg ℝ) (L D : Nat → Ten ℝ) (s : HSt ℝ) (hl : Layout [] L D s)
    (hk0 : kind i = .fresh) (hk1 : kind (i + 1) = .plus) (hk2 : kind (i + 2) = .fresh) (hk3 : kind (i + 3) = .fresh)
    (hv : (D v).WF) (hsh : (L k).shape = (D v).shape) (hwf : (L k).WF) (hz : size (D v).shape ≠ 0) (hm : (D v).shape.getLast? ≠ some Tensor.minusOne)
    (hne : (s.varT v).loc ≠ (s.leafT k).loc) :
    ∃ x s1 x' s2, hrun kind (mse K i (.leaf k) (.var v c)) s = ok (x, s1) ∧ hrun kind (mse K i (.leaf k) (.var v c)) s1 = ok (x', s2) ∧
      denote s1.heap x = some ⟨[1], [sumIdx (D v).shape (fun is => ((L k).at is - (D v).at is) ^ 2) / (size (D v).shape : ℝ)]⟩ ∧
      denote s2.heap x' = some ⟨[1], [sumIdx (D v).shape (fun is => ((L k).at is - 2 * (D v).at is) ^ 2) / (size (D v).shape : ℝ)]⟩ := by
  have base : ∀ L' D', D' v = D v → Consistent (.var v c : Ex ℝ) ∧ Plain L' D' (.var v c) ∧ Tidy kind (.var v c : Ex ℝ) := by
    intro L' D' hD
    refine ⟨?_, ?_, ?_⟩
    · intro p hp q hq j hj
      simp only [occs, List.mem_singleton] at hp
      subst hp
      simp [Ex.id?] at hj
    · intro p hp y hy
      simp only [occs, List.mem_singleton] at hp
      subst hp
      simp only [eval, ok.injEq] at hy
      subst hy
      rw [hD]
      exact ⟨(data_ne_nil hv.has).mpr hz, hv, hm⟩
    · intro p hp j op l r h
      simp only [occs, List.mem_singleton] at hp
      subst hp
      simp at h
  obtain ⟨b1, b2, b3⟩ := base L D rfl
  obtain ⟨x, s1, y, z, h1, h2, h3, h4, h5, h6, h7, h8, h9, h10, h11⟩ := mse_overwrites_labels_violated K kind i k (.var v c) L D s hl b1 b2 b3 hk0 hk1 hk2 hk3
    (fun j _ _ => by simp [ids]) (ev_var hv) hsh hwf hz hm
  -- what is bound now
  let L' : Nat → Ten ℝ := fun j => if (s.leafT j).loc = (s.leafT k).loc then ⟨(L j).shape, z.data⟩ else L j
  let D' : Nat → Ten ℝ := fun w => if (s.varT w).loc = (s.leafT k).loc then ⟨(D w).shape, z.data⟩ else D w
  have hl1 : Layout [] L' D' s1 := by
    refine ⟨fun j => ?_, fun w => ?_, fun _ h => by simp at h, fun _ h => by simp at h, fun _ h => by simp at h⟩
    · rw [h4]
      by_cases hj : (s.leafT j).loc = (s.leafT k).loc
      · simp only [L', if_pos hj, denote, hj, (denote_some h5).1, Option.map_some, (denote_some (hl.leaf j)).2]
      · simp only [L', if_neg hj]; exact h7 j hj
    · rw [h9]
      by_cases hj : (s.varT w).loc = (s.leafT k).loc
      · simp only [D', if_pos hj, denote, hj, (denote_some h5).1, Option.map_some, (denote_some (hl.var w)).2]
      · simp only [D', if_neg hj]; exact h8 w hj
  have hDv : D' v = D v := by simp only [D', if_neg hne]
  have hLk : (L' k) = z := by
    simp only [L', if_true]
    cases z
    simp only [Ten.mk.injEq, and_true]
    rw [hsh]; exact h6.1.symm
  obtain ⟨c1, c2, c3⟩ := base L' D' hDv
  obtain ⟨x', s2, y', z', k1, k2, k3, _⟩ := mse_overwrites_labels_violated K kind i k (.var v c) L' D' s1 hl1 c1 c2 c3 hk0 hk1 hk2 hk3
    (fun j _ _ => by simp [ids]) (sh := (D v).shape) (b := (D v).at) ⟨D v, by rw [eval, hDv], hv.has⟩ (by rw [hLk]; exact h6.1) (by rw [hLk]; exact h6.wf) hz hm
  refine ⟨x, s1, x', s2, h1, k1, by rw [h2, h3], ?_⟩
  rw [k2, k3, hLk, sumIdx_congr (g := fun is => ((L k).at is - 2 * (D v).at is) ^ 2) (fun is hi => by rw [h6.at_eq hi]; ring)]

/-! ## C98: binary cross entropy -/

theorem el_ok (K : Kit) (op : EOp) {x : Ten ℝ} {sh : List Nat} {a : List Nat → ℝ} (h : x.Has sh a) :
    ∃ y, (opElem op K.cacheF K.cacheB).fwd x = ok y ∧ y.Has sh (fun is => op.fwd (a is)) := mapT_ok op.fwd K.cacheF x h

theorem had_ok (K : Kit) {x y : Ten ℝ} {sh : List Nat} {a b : List Nat → ℝ} (hx : x.Has sh a) (hy : y.Has sh b) (hz : size sh ≠ 0) :
    ∃ z, (opEwp K.red K.fuel).fwd x y = ok z ∧ z.Has sh (fun is => a is * b is) := ewp_same hx hy hz

/-- Where the operators of `binary_cross_entropy_loss` leave their results: `log` in a cache of its own, `plus` as always, the others in new tensors. -/
structure BceKinds (kind : Nat → Kind) (i : Nat) : Prop where
  k0 : kind i = .fresh
  k1 : kind (i + 1) = .own
  k2 : kind (i + 2) = .fresh
  k3 : kind (i + 3) = .fresh
  k4 : kind (i + 4) = .plus
  k5 : kind (i + 5) = .fresh
  k6 : kind (i + 6) = .plus
  k7 : kind (i + 7) = .own
  k8 : kind (i + 8) = .fresh
  k9 : kind (i + 9) = .plus
  k10 : kind (i + 10) = .fresh
  k11 : kind (i + 11) = .fresh

/-- C98 is false of `binary_cross_entropy_loss`: `ones - t` is left in the storage of `ones`, and then `ones - p` is `1 - t - p`, in the same storage.  What is
computed for labels `t` (a place holder) and predictions `p` (a variable) is the mean of `-(t log p + (1 - t - p) log (1 - t - p))`. -/
theorem bce_shared_violated (K : Kit) (kind : Nat → Kind) (i k v : Nat) (c : Cfg ℝ) (hk : BceKinds kind i) (L D : Nat → Ten ℝ) (s : HSt ℝ) (hl : Layout [i + 1, i + 7] L D s)
    {sh : List Nat} {t p : List Nat → ℝ} (ht : (L k).Has sh t) (hp : (D v).Has sh p) (hz : size sh ≠ 0) (hm : sh.getLast? ≠ some Tensor.minusOne) :
    ∃ x s', hrun kind (bce K i (.leaf k) (.var v c)) s = ok (x, s') ∧
      denote s'.heap x = some ⟨[1], [sumIdx sh (fun is => -(t is * Real.log (p is) + (1 - t is - p is) * Real.log (1 - t is - p is))) / (size sh : ℝ)]⟩ := by
  have snd : ∀ {y : Ten ℝ} {a : List Nat → ℝ}, y.Has sh a → Sound y := fun h => sound_of hz hm h
  have hA : s.opc (i + 1) < s.heap.length := hl.lt _ (by simp)
  have hB : s.opc (i + 7) < s.heap.length := hl.lt _ (by simp)
  have nA : ∀ l, Prot s l → l ≠ s.opc (i + 1) := fun l h e => hl.ne (i + 1) (by simp) (e ▸ h)
  have nB : ∀ l, Prot s l → l ≠ s.opc (i + 7) := fun l h e => hl.ne (i + 7) (by simp) (e ▸ h)
  have pL : Prot s (s.leafT k).loc := Or.inl ⟨k, rfl⟩
  have pD : Prot s (s.varT v).loc := Or.inr ⟨v, rfl⟩
  have bL : (s.leafT k).loc < s.heap.length := hl.prot_lt pL
  have bD : (s.varT v).loc < s.heap.length := hl.prot_lt pD
  set s0 : HSt ℝ := { s with cache := fun _ => none } with hs0
  have dL0 : denote s0.heap (s.leafT k) = some (L k) := hl.leaf k
  have dD0 : denote s0.heap (s.varT v) = some (D v) := hl.var v
  -- log p
  obtain ⟨lp, o1, w1⟩ := el_ok K .log hp
  obtain ⟨x1, s1, a1, b1, f1, d1, c1⟩ := store_own hk.k1 lp s0 hA
  have e1 : hforward kind (el K (i + 1) .log (.var v c)) s0 = ok (x1, s1) := by rw [el, fwd_un (x := s.varT v) (s1 := s0) rfl rfl dD0 o1, a1]
  have dL1 := f1.keep dL0 (nA _ pL)
  have dD1 := f1.keep dD0 (nA _ pD)
  -- t log p
  obtain ⟨tl, o2, w2⟩ := had_ok K ht w1 hz
  obtain ⟨x2, s2, a2, b2, f2, d2, c2⟩ := store_fresh hk.k2 tl s1
  have e2 : hforward kind (hadE K (i + 2) (.leaf k) (el K (i + 1) .log (.var v c))) s0 = ok (x2, s2) := by
    rw [hadE, fwd_bin (by rw [hk.k2]; simp) rfl (fwd_leaf dL0 (snd ht).1) e1 dL1 d1 o2, a2]
  have dL2 := f2.keep dL1 (fun h => h)
  have dD2 := f2.keep dD1 (fun h => h)
  have T2 : s2.leafT = s.leafT := by rw [f2.leafT, f1.leafT]
  have V2 : s2.varT = s.varT := by rw [f2.varT, f1.varT]
  have C2 : s2.cache = upd (upd (fun _ => none) (i + 1) (some x1)) (i + 2) (some x2) := by rw [c2, c1]
  -- ones
  have o3 : opOnes.fwd (L k) = ok ⟨sh, List.replicate (size sh) 1⟩ := by show ok _ = _; rw [ht.1]
  have w3 := replicate_has sh (1 : ℝ)
  obtain ⟨x3, s3, a3, b3, f3, d3, c3⟩ := store_fresh hk.k0 (⟨sh, List.replicate (size sh) 1⟩ : Ten ℝ) s2
  have e3 : hforward kind (.un i opOnes (.leaf k)) s2 = ok (x3, s3) := by
    rw [fwd_un (by rw [C2]; simp [upd]) (fwd_leaf (by rw [T2]; exact dL2) (snd ht).1) (by rw [T2]; exact dL2) o3, a3]
  have dL3 := f3.keep dL2 (fun h => h)
  have dD3 := f3.keep dD2 (fun h => h)
  have T3 : s3.leafT = s.leafT := by rw [f3.leafT, T2]
  have V3 : s3.varT = s.varT := by rw [f3.varT, V2]
  have g2 : s.heap.length ≤ x2.loc := by rw [b2]; exact f1.grow
  have g3 : x2.loc < x3.loc := by rw [b3]; exact lt_of_denote d2
  -- -t
  obtain ⟨nt, o4, w4⟩ := el_ok K .negative ht
  obtain ⟨x4, s4, a4, b4, f4, d4, c4⟩ := store_fresh hk.k3 nt s3
  have e4 : hforward kind (el K (i + 3) .negative (.leaf k)) s3 = ok (x4, s4) := by
    rw [el, fwd_un (by rw [c3, C2]; simp [upd]) (fwd_leaf (by rw [T3]; exact dL3) (snd ht).1) (by rw [T3]; exact dL3) o4, a4]
  have g4 : x3.loc < x4.loc := by rw [b4]; exact lt_of_denote d3
  -- ones - t, in the storage of ones
  obtain ⟨s5, z5, e5, d5, w5, f5, c5⟩ := fwd_plus (op := opPlus K.red K.fuel) (i := i + 4) hk.k4 (by rw [C2]; simp [upd]) e3 e4 (f4.keep d3 (fun h => h)) d4
    (by rw [w4.1]) (snd w3) (snd w4)
  have dD5 := f5.keep (f4.keep dD3 (fun h => h)) (by omega)
  have V5 : s5.varT = s.varT := by rw [f5.varT, f4.varT, V3]
  -- ones again
  have C5 : s5.cache = upd (upd (upd (upd (upd (fun _ => none) (i + 1) (some x1)) (i + 2) (some x2)) i (some x3)) (i + 3) (some x4)) (i + 4) (some x3) := by rw [c5, c4, c3, C2]
  have e6 : hforward kind (.un i opOnes (.leaf k)) s5 = ok (x3, s5) := fwd_hit (by rw [C5]; simp [upd]) d5 (snd w5).1
  -- -p
  obtain ⟨np, o7, w7⟩ := el_ok K .negative hp
  obtain ⟨x7, s7, a7, b7, f7, d7, c7⟩ := store_fresh hk.k5 np s5
  have e7 : hforward kind (el K (i + 5) .negative (.var v c)) s5 = ok (x7, s7) := by
    rw [el, fwd_un (x := s.varT v) (s1 := s5) (by rw [C5]; simp [upd]) (by rw [hforward, V5]) dD5 o7, a7]
  -- ones - p, in the storage of ones
  obtain ⟨s8, z8, e8, d8, w8, f8, c8⟩ := fwd_plus (op := opPlus K.red K.fuel) (i := i + 6) hk.k6 (by rw [C5]; simp [upd]) e6 e7 (f7.keep d5 (fun h => h)) d7
    (by rw [w5.1, w7.1]) (snd w5) (snd w7)
  have w8' : z8.Has sh (fun is => 1 - t is - p is) := by
    have := w8
    rw [w5.1] at this
    refine this.congr (fun is hv => ?_)
    rw [w5.at_eq hv, w3.at_eq hv, w4.at_eq hv, w7.at_eq hv]
    simp only [EOp.fwd]; ring
  -- its logarithm
  obtain ⟨ll, o9, w9⟩ := el_ok K .log w8'
  have O8 : s8.opc = s.opc := by rw [f8.opc, f7.opc, f5.opc, f4.opc, f3.opc, f2.opc, f1.opc]
  have G8 : s.heap.length ≤ s8.heap.length :=
    f1.grow.trans (f2.grow.trans (f3.grow.trans (f4.grow.trans (f5.grow.trans (f7.grow.trans f8.grow)))))
  obtain ⟨x9, s9, a9, b9, f9, d9, c9⟩ := store_own hk.k7 ll s8 (by rw [O8]; omega)
  have C8 : s8.cache = upd (upd s5.cache (i + 5) (some x7)) (i + 6) (some x3) := by rw [c8, c7]
  have e9 : hforward kind (el K (i + 7) .log (minusE K (i + 5) (.un i opOnes (.leaf k)) (.var v c))) s5 = ok (x9, s9) := by
    rw [el]; exact (fwd_un (i := i + 7) (by rw [C5]; simp [upd]) e8 d8 o9).trans a9
  rw [O8] at f9
  have dU9 := f9.keep d8 (by show x3.loc ≠ _; omega)
  -- the product
  obtain ⟨pr, o10, w10⟩ := had_ok K w8' w9 hz
  obtain ⟨x10, s10, a10, b10, f10, d10, c10⟩ := store_fresh hk.k8 pr s9
  have e10 : hforward kind (hadE K (i + 8) (minusE K (i + 3) (.un i opOnes (.leaf k)) (.leaf k)) (el K (i + 7) .log (minusE K (i + 5) (.un i opOnes (.leaf k)) (.var v c)))) s2 =
      ok (x10, s10) := by
    rw [hadE]; exact (fwd_bin (i := i + 8) (by rw [hk.k8]; simp) (by rw [C2]; simp [upd]) e5 e9 dU9 d9 o10).trans a10
  have d2' : denote s10.heap x2 = some tl :=
    f10.keep (f9.keep (f8.keep (f7.keep (f5.keep (f4.keep (f3.keep d2 (fun h => h)) (fun h => h)) (by omega)) (fun h => h)) (by omega)) (by omega)) (fun h => h)
  -- the sum
  obtain ⟨s11, z11, e11, d11, w11, f11, c11⟩ := fwd_plus (op := opPlus K.red K.fuel) (i := i + 9) hk.k9 (s := s0) rfl e2 e10 d2' d10 (by rw [w2.1, w10.1]) (snd w2) (snd w10)
  rw [w2.1] at w11
  obtain ⟨ng, o12, w12⟩ := el_ok K .negative w11
  obtain ⟨x12, s12, a12, b12, f12, d12, c12⟩ := store_fresh hk.k10 ng s11
  have e12 : hforward kind (bceError K i (.leaf k) (.var v c)) s0 = ok (x12, s12) := by
    rw [bceError, el]; exact (fwd_un (i := i + 10) rfl e11 d11 o12).trans a12
  have o13 := meanReduce_ok w12 hz
  obtain ⟨x13, s13, a13, b13, f13, d13, c13⟩ := store_fresh hk.k11 _ s12
  refine ⟨x13, s13, ?_, ?_⟩
  · unfold hrun bce
    rw [← hs0, fwd_un rfl e12 d12 o13, a13]
  · rw [d13, sumIdx_congr (g := fun is => -(t is * Real.log (p is) + (1 - t is - p is) * Real.log (1 - t is - p is))) (fun is hv => by
      rw [w2.at_eq hv, w10.at_eq hv]; rfl)]

/-! ## Examples -/

noncomputable section

/-- Four storages: labels 0, predictions 1/2 (two of each), and the caches of the two logarithms. -/
def stHeap : HSt ℝ := ⟨[[0, 0], [1/2, 1/2], [], []], fun _ => ⟨[2], 0⟩, fun _ => ⟨[2], 1⟩, fun i => if i = 1 then 2 else 3, fun _ => none⟩

/-- Where operators leave their results: `plus` for the identities in `ps`, a cache of their own for those in `os`. -/
def kindOf (ps os : List Nat) : Nat → Kind := fun i => if i ∈ ps then .plus else if i ∈ os then .own else .fresh

theorem stHeap_layout : Layout [0 + 1, 0 + 7] (fun _ => (⟨[2], [0, 0]⟩ : Ten ℝ)) (fun _ => ⟨[2], [1/2, 1/2]⟩) stHeap := by
  refine ⟨fun _ => rfl, fun _ => rfl, ?_, ?_, ?_⟩ <;> simp [stHeap, Prot]

/-- The labels 0, predictions 1/2: after `mean_squared_error` the labels are -1/2, the second value of the loss is 1 and not 1/4. -/
example : ∃ x s1 x' s2, hrun (kindOf [1] []) (mse kit0 0 (.leaf 0) (.var 0 ⟨0, 0, true⟩)) stHeap = ok (x, s1) ∧
    hrun (kindOf [1] []) (mse kit0 0 (.leaf 0) (.var 0 ⟨0, 0, true⟩)) s1 = ok (x', s2) ∧
    denote s1.heap x = some ⟨[1], [1/4]⟩ ∧ denote s2.heap x' = some ⟨[1], [1]⟩ := by
  obtain ⟨x, s1, x', s2, h1, h2, h3, h4⟩ := mse_twice_violated kit0 (kindOf [1] []) 0 0 0 ⟨0, 0, true⟩ _ _ stHeap
    ⟨stHeap_layout.leaf, stHeap_layout.var, by simp, by simp, by simp⟩ rfl rfl rfl rfl rfl rfl rfl (by simp [size]) (by simp [Tensor.minusOne]) (by simp [stHeap])
  refine ⟨x, s1, x', s2, h1, h2, ?_, ?_⟩
  · rw [h3]
    simp [sumIdx, Ten.at, flat, size, Finset.sum_range_succ]
    norm_num
  · rw [h4]
    simp [sumIdx, Ten.at, flat, size, Finset.sum_range_succ]

/-- `binary_cross_entropy_loss` of labels 0 and predictions 1/2 is log 2, and half of that is computed. -/
example : (∃ x s', hrun (kindOf [4, 6, 9] [1, 7]) (bce kit0 0 (.leaf 0) (.var 0 ⟨0, 0, true⟩)) stHeap = ok (x, s') ∧ denote s'.heap x = some ⟨[1], [Real.log 2 / 2]⟩) ∧
    eval (fun _ => (⟨[2], [0, 0]⟩ : Ten ℝ)) (fun _ => ⟨[2], [1/2, 1/2]⟩) (bce kit0 0 (.leaf 0) (.var 0 ⟨0, 0, true⟩)) = ok ⟨[1], [Real.log 2]⟩ ∧ Real.log 2 / 2 ≠ Real.log 2 := by
  have h12 : Real.log (1 / 2) = - Real.log 2 := by rw [one_div, Real.log_inv]
  have hr0 := replicate_has [2] (0 : ℝ)
  have hr := replicate_has [2] (1 / 2 : ℝ)
  refine ⟨?_, ?_, ?_⟩
  · obtain ⟨x, s', h1, h2⟩ := bce_shared_violated kit0 (kindOf [4, 6, 9] [1, 7]) 0 0 0 ⟨0, 0, true⟩ ⟨rfl, rfl, rfl, rfl, rfl, rfl, rfl, rfl, rfl, rfl, rfl, rfl⟩ _ _ stHeap stHeap_layout
      hr0 hr (by simp [size]) (by simp [Tensor.minusOne])
    refine ⟨x, s', h1, ?_⟩
    rw [h2]
    have h3 : (-(0 * Real.log (1 / 2) + (1 - 0 - 1 / 2) * Real.log (1 - 0 - 1 / 2)) : ℝ) = Real.log 2 / 2 := by
      rw [show (1 - 0 - 1 / 2 : ℝ) = 1 / 2 by norm_num, h12]; ring
    simp only [h3]
    simp [sumIdx, size]
  · have hf : Fits1 kit0 [2] := ⟨fits0.1, by simp, by simp [minusOne], by simp [minusOne], by simp [kit0], by simp [size]⟩
    rw [bce_value (L := fun _ => (⟨[2], [0, 0]⟩ : Ten ℝ)) (D := fun _ => (⟨[2], [1/2, 1/2]⟩ : Ten ℝ)) (t := .leaf 0) (p := .var 0 ⟨0, 0, true⟩)
      ⟨_, by rw [eval, assert_true (by simp)]; rfl, hr0⟩ ⟨_, rfl, hr⟩ hf 0]
    have h3 : (-(0 * Real.log (1 / 2) + (1 - 0) * Real.log (1 - 1 / 2)) : ℝ) = Real.log 2 := by
      rw [show (1 - 1 / 2 : ℝ) = 1 / 2 by norm_num, h12]; ring
    simp only [h3]
    simp [sumIdx, size]
  · have := Real.log_pos (by norm_num : (1 : ℝ) < 2)
    intro h
    linarith

end

end Verif.Loss
