import Verif.Alias.Props
/-!
# C146: `assign`

The operator `assign( x, v )` of include/operation.hpp lines 4846-4860 on shared storages.  The tensor `rhs_tensor` it writes to is the member `rhs_input_data_` of the
operator object (include/operation.hpp lines 162, 191, 194), a copy of the variable's tensor: its own shape, the same storage.
-/
namespace Verif.Alias
open Verif Res Tensor Data Graph

variable {α : Type}

/-- The forward action (include/operation.hpp lines 4849-4854); `x` is `lhs_tensor`, `r` is `rhs_tensor`.  `std::copy` may not start to write inside the range it reads.
The result is the heap and the shape `rhs_tensor` has now. -/
def assignAct [Zero α] (h : Heap α) (x r : Tn) : Res (Tn × Heap α) := do
  let (r, h) ← reshape h r x.shape
  let src ← rd h x.loc
  require (x.loc ≠ r.loc ∨ src = [])
  let dst ← rd h r.loc
  let d ← copyN src src.length dst
  let h ← wr h r.loc d
  pure (r, h)

/-- `forward` of the operator with identity `i` (include/operation.hpp lines 168-197, 4847-4860): the result is the tensor of the expression (line 4853). -/
def assignForward [Zero α] [Add α] (kind : Nat → Kind) (i : Nat) (e : Ex α) (v : Nat) (s : HSt α) : Res (Tn × HSt α) := do
  let q ← hquery s i
  match q with
  | some t => pure (t, s)
  | none => do
    let (x, s) ← hforward kind e s
    let (_, h) ← assignAct s.heap x (s.varT v)
    pure (x, { s with heap := h, cache := upd s.cache i (some x) })

/-- `session::run` of it (include/session.hpp lines 58-63). -/
def assignRun [Zero α] [Add α] (kind : Nat → Kind) (i : Nat) (e : Ex α) (v : Nat) (s : HSt α) : Res (Tn × HSt α) := assignForward kind i e v { s with cache := fun _ => none }

/-- `n` times. -/
def assignRuns [Zero α] [Add α] (kind : Nat → Kind) (i : Nat) (e : Ex α) (v : Nat) : Nat → HSt α → Res (HSt α)
  | 0, s => ok s
  | n + 1, s => do
    let s ← assignRuns kind i e v n s
    let (_, s) ← assignRun kind i e v s
    pure s

/-- The backward action (include/operation.hpp lines 4855-4858): zeros in the shapes of the two tensors (`rhs_tensor` has been given the shape of `lhs_tensor`). -/
def assignBack [Zero α] (x r : Ten α) : Ten α × Ten α := (⟨x.shape, List.replicate (size x.shape) 0⟩, ⟨r.shape, List.replicate (size r.shape) 0⟩)

/-- The variable's storage is its own. -/
def Apart (v : Nat) (s : HSt α) : Prop := (∀ k, (s.leafT k).loc ≠ (s.varT v).loc) ∧ ∀ w, w ≠ v → (s.varT w).loc ≠ (s.varT v).loc

theorem assignAct_ok [Zero α] {h : Heap α} {x r : Tn} {y d : Ten α} (hx : denote h x = some y) (hr : denote h r = some d) (hy : Sound y) (hs : y.shape ≠ []) (hne : x.loc ≠ r.loc) :
    ∃ h', assignAct h x r = ok (⟨y.shape, r.loc⟩, h') ∧ h'.length = h.length ∧ h'[r.loc]? = some y.data ∧ ∀ l, l ≠ r.loc → h'[l]? = h[l]? := by
  obtain ⟨hxb, hxs⟩ := denote_some hx
  obtain ⟨hrb, hrs⟩ := denote_some hr
  have hlt := (List.getElem?_eq_some_iff.mp hrb).1
  have hys : y.data.length = size y.shape := hy.2.1
  have hsh : x.shape = y.shape := hxs.symm
  -- after `reshape`
  have hre : ∃ h1 b, reshape h r x.shape = ok (⟨y.shape, r.loc⟩, h1) ∧ h1.length = h.length ∧ h1[r.loc]? = some b ∧ b.length = y.data.length ∧ ∀ l, l ≠ r.loc → h1[l]? = h[l]? := by
    unfold reshape
    rw [rd_ok hrb, bind_ok, hsh, require_true hs, bind_ok, if_neg hy.2.2]
    by_cases he : d.data.length = size y.shape
    · rw [if_neg (by simpa using he)]
      exact ⟨h, d.data, rfl, rfl, hrb, by omega, fun _ _ => rfl⟩
    · rw [if_pos he]
      unfold Tensor.resize
      rw [rd_ok hrb, bind_ok, wr_ok hlt, bind_ok]
      refine ⟨_, vecResize d.data (size y.shape), rfl, by simp, by simp [hlt], ?_, fun l hl => by simp [List.getElem?_set_ne (Ne.symm hl)]⟩
      unfold vecResize
      rw [if_neg (fun hc => he hc.symm), List.length_replicate, hys]
  obtain ⟨h1, b, e1, e2, e3, e4, e5⟩ := hre
  unfold assignAct
  rw [e1, bind_ok]
  dsimp only
  rw [rd_ok (by rw [e5 _ hne]; exact hxb), bind_ok, require_true (Or.inl hne), bind_ok, rd_ok e3, bind_ok, copyN_full e4, bind_ok, wr_ok (by omega), bind_ok]
  refine ⟨_, rfl, by simp [e2], ?_, fun l hl => ?_⟩
  · rw [List.getElem?_set_self (by omega)]
  · rw [List.getElem?_set_ne (Ne.symm hl), e5 l hl]

/-- One run, exactly: the storage of the variable holds the elements of the value, its shape is what it was. -/
theorem assign_run [Zero α] [Add α] (kind : Nat → Kind) (i : Nat) (e : Ex α) (v : Nat) (L D : Nat → Ten α) (s : HSt α) (hl : Layout (ids e) L D s) (hc : Consistent e) (hp : Plain L D e)
    (ht : Tidy kind e) (hv : Apart v s) (hb : e.id? ≠ none ∨ ∃ k, e = .leaf k) (y : Ten α) (hev : eval L D e = ok y) (hs : y.shape ≠ []) :
    ∃ x s', assignRun kind i e v s = ok (x, s') ∧ denote s'.heap x = some y ∧ Layout (ids e) L (upd D v ⟨(D v).shape, y.data⟩) s' ∧
      s'.leafT = s.leafT ∧ s'.varT = s.varT := by
  have hl' : Layout (ids e) L D { s with cache := fun _ => none } := ⟨hl.leaf, hl.var, hl.lt, hl.inj, hl.ne⟩
  obtain ⟨x, s1, dead, h1, g⟩ := hforward_spec hl' hc hp ht e none _ _ (mem_occs_self e none) (hinv_start s) (fun _ _ h => h) y hev
  have hy : Sound y := hp _ (mem_occs_self e none) y hev
  have hvT : s1.varT = s.varT := g.inv.varT
  have hlT : s1.leafT = s.leafT := g.inv.leafT
  have hopc : s1.opc = s.opc := g.inv.opc
  have hvar : ∀ w, denote s1.heap (s.varT w) = some (D w) := fun w => by
    rw [denote_congr (h := s.heap) (g.inv.prot _ (Or.inr ⟨w, rfl⟩))]; exact hl.var w
  have hleaf : ∀ k, denote s1.heap (s.leafT k) = some (L k) := fun k => by
    rw [denote_congr (h := s.heap) (g.inv.prot _ (Or.inl ⟨k, rfl⟩))]; exact hl.leaf k
  have hne : x.loc ≠ (s.varT v).loc := by
    rcases hb with hb | ⟨k, rfl⟩
    · obtain ⟨a, ha⟩ := Option.ne_none_iff_exists'.mp hb
      have hca := (g.node a ha).1
      intro he
      rcases g.inv.own a x hca with h | ⟨k, hk, _, h⟩
      · have := hl'.prot_lt (l := (s.varT v).loc) (Or.inr ⟨v, rfl⟩)
        omega
      · exact hl.ne k hk (Or.inr ⟨v, by rw [← he]; exact h⟩)
    · have hx : x = s.leafT k := by
        rw [hforward] at h1
        simp only [bind_eq_ok, pure_eq] at h1
        obtain ⟨_, _, _, _, h2⟩ := h1
        cases h2
        rfl
      rw [hx]
      exact hv.1 k
  obtain ⟨h', a1, a2, a3, a4⟩ := assignAct_ok g.val (hvar v) hy hs hne
  refine ⟨x, { s1 with heap := h', cache := upd s1.cache i (some x) }, ?_, ?_, ⟨?_, ?_, ?_, ?_, ?_⟩, hlT, hvT⟩
  · unfold assignRun assignForward
    rw [hquery_miss rfl, bind_ok]
    dsimp only
    rw [h1, bind_ok]
    dsimp only
    rw [hvT, a1, bind_ok]
    rfl
  · rw [denote_congr (h := s1.heap) (a4 _ hne)]
    exact g.val
  · intro k
    simp only [hlT]
    rw [denote_congr (h := s1.heap) (a4 _ (hv.1 k))]
    exact hleaf k
  · intro w
    simp only [hvT]
    by_cases hw : w = v
    · subst hw
      simp only [denote, a3, upd, if_true, Option.map_some, (denote_some (hl.var w)).2]
    · rw [denote_congr (h := s1.heap) (a4 _ (hv.2 w hw)), hvar w]
      simp [upd, hw]
  · intro j hj
    simp only [hopc, a2]
    exact Nat.lt_of_lt_of_le (hl.lt j hj) g.inv.grow
  · simp only [hopc]
    exact hl.inj
  · intro j hj
    simp only [hopc]
    rintro (⟨k, hk⟩ | ⟨w, hw⟩)
    · simp only [hlT] at hk
      exact hl.ne j hj (Or.inl ⟨k, hk⟩)
    · simp only [hvT] at hw
      exact hl.ne j hj (Or.inr ⟨w, hw⟩)

/-- C146, the part that holds: where the value has the shape of the variable (and is not stored in the variable itself), running `assign` returns the value and stores it in the
variable, and all other variables and the inputs stay as they are.  Missing: values of other shapes (`assign_shape_violated`), and values left in the variable's own storage
(`assign_self_violated`, `assign_increment_violated`). -/
theorem assign_stores_partial [Zero α] [Add α] (kind : Nat → Kind) (i : Nat) (e : Ex α) (v : Nat) (L D : Nat → Ten α) (s : HSt α) (hl : Layout (ids e) L D s) (hc : Consistent e) (hp : Plain L D e)
    (ht : Tidy kind e) (hv : Apart v s) (hb : e.id? ≠ none ∨ ∃ k, e = .leaf k) (y : Ten α) (hev : eval L D e = ok y) (hs : y.shape ≠ []) (hshape : (D v).shape = y.shape) :
    ∃ x s', assignRun kind i e v s = ok (x, s') ∧ denote s'.heap x = some y ∧ denote s'.heap (s'.varT v) = some y ∧
      (∀ w, w ≠ v → denote s'.heap (s'.varT w) = some (D w)) ∧ ∀ k, denote s'.heap (s'.leafT k) = some (L k) := by
  obtain ⟨x, s', h1, h2, h3, h4, h5⟩ := assign_run kind i e v L D s hl hc hp ht hv hb y hev hs
  refine ⟨x, s', h1, h2, ?_, fun w hw => ?_, h3.leaf⟩
  · rw [h3.var v]
    simp [upd, hshape]
  · rw [h3.var w]
    simp [upd, hw]

/-- C146 over many runs: the variable goes through the values of the expression, each computed from the one before. -/
theorem assign_iterates_partial [Zero α] [Add α] (kind : Nat → Kind) (i : Nat) (e : Ex α) (v : Nat) (L D : Nat → Ten α) (s : HSt α) (hl : Layout (ids e) L D s) (hc : Consistent e)
    (ht : Tidy kind e) (hv : Apart v s) (hb : e.id? ≠ none ∨ ∃ k, e = .leaf k) (Y : Nat → Ten α) (h0 : Y 0 = D v) (hp : ∀ n, Plain L (upd D v (Y n)) e)
    (hstep : ∀ n, eval L (upd D v (Y n)) e = ok (Y (n + 1))) (hs : ∀ n, (Y n).shape = (D v).shape) (hne : (D v).shape ≠ []) (n : Nat) :
    ∃ s', assignRuns kind i e v n s = ok s' ∧ denote s'.heap (s'.varT v) = some (Y n) ∧ (∀ w, w ≠ v → denote s'.heap (s'.varT w) = some (D w)) ∧
      ∀ k, denote s'.heap (s'.leafT k) = some (L k) := by
  suffices h : ∃ s', assignRuns kind i e v n s = ok s' ∧ Layout (ids e) L (upd D v (Y n)) s' ∧ s'.leafT = s.leafT ∧ s'.varT = s.varT by
    obtain ⟨s', h1, h2, _⟩ := h
    refine ⟨s', h1, ?_, fun w hw => ?_, h2.leaf⟩
    · rw [h2.var v]; simp [upd]
    · rw [h2.var w]; simp [upd, hw]
  induction n with
  | zero =>
    have : upd D v (Y 0) = D := by
      funext w
      by_cases hw : w = v
      · subst hw; simp [upd, h0]
      · simp [upd, hw]
    exact ⟨s, rfl, by rw [this]; exact hl, rfl, rfl⟩
  | succ n ih =>
    obtain ⟨s1, h1, h2, h3, h4⟩ := ih
    have hv1 : Apart v s1 := by
      unfold Apart
      rw [h3, h4]
      exact hv
    obtain ⟨x, s2, a1, a2, a3, a4, a5⟩ := assign_run kind i e v L (upd D v (Y n)) s1 h2 hc (hp n) ht hv1 hb (Y (n + 1)) (hstep n) (by rw [hs]; exact hne)
    refine ⟨s2, by rw [assignRuns, h1, bind_ok, a1, bind_ok]; rfl, ?_, by rw [a4, h3], by rw [a5, h4]⟩
    have hup : upd (upd D v (Y n)) v ⟨(upd D v (Y n) v).shape, (Y (n + 1)).data⟩ = upd D v (Y (n + 1)) := by
      funext w
      by_cases hw : w = v
      · subst hw
        simp only [upd, if_true]
        rw [hs n, ← hs (n + 1)]
      · simp [upd, hw]
    rwa [hup] at a3

/-- C146 fails, in general, for values of another shape: the variable keeps its shape and gets the elements, so that it does not have the value; if the number of elements is
another one, it is no tensor at all any more (its elements are not as many as its shape says). -/
theorem assign_shape_violated [Zero α] [Add α] (kind : Nat → Kind) (i : Nat) (e : Ex α) (v : Nat) (L D : Nat → Ten α) (s : HSt α) (hl : Layout (ids e) L D s) (hc : Consistent e) (hp : Plain L D e)
    (ht : Tidy kind e) (hv : Apart v s) (hb : e.id? ≠ none ∨ ∃ k, e = .leaf k) (y : Ten α) (hev : eval L D e = ok y) (hs : y.shape ≠ []) (hshape : (D v).shape ≠ y.shape) :
    ∃ x s' z, assignRun kind i e v s = ok (x, s') ∧ denote s'.heap (s'.varT v) = some z ∧ z ≠ y ∧ (size (D v).shape ≠ size y.shape → ¬ z.WF) := by
  obtain ⟨x, s', h1, h2, h3, h4, h5⟩ := assign_run kind i e v L D s hl hc hp ht hv hb y hev hs
  refine ⟨x, s', _, h1, h3.var v, ?_, ?_⟩
  · simp only [upd, if_true]
    intro hz
    exact hshape (by rw [← hz])
  · simp only [upd, if_true]
    intro hne hw
    have hy : y.WF := (hp _ (mem_occs_self e none) y hev).2.1
    have h1 : y.data.length = size (D v).shape := hw
    have h2 : y.data.length = size y.shape := hy
    omega

/-- C146 fails for a variable assigned to itself: `std::copy` writes where it reads. -/
theorem assign_self_violated [Zero α] [Add α] (kind : Nat → Kind) (i v : Nat) (c : Cfg α) (I : List Nat) (L D : Nat → Ten α) (s : HSt α) (hl : Layout I L D s) (hv : Sound (D v)) :
    assignRun kind i (.var v c) v s = ub := by
  have hd := hl.var v
  obtain ⟨hb, hs⟩ := denote_some hd
  have hw : (D v).data.length = size (D v).shape := hv.2.1
  unfold assignRun assignForward
  rw [hquery_miss rfl, bind_ok]
  dsimp only
  rw [hforward, bind_ok]
  dsimp only
  unfold assignAct reshape
  rw [rd_ok hb, bind_ok]
  by_cases h0 : (s.varT v).shape = []
  · rw [h0]
    rfl
  · rw [require_true h0, bind_ok, ← hs, if_neg hv.2.2, if_neg (by simpa using hw), pure_eq, bind_ok]
    dsimp only
    rw [rd_ok hb, bind_ok, require_false (by simp [hv.1])]
    rfl

/-- C146 fails for counters, `assign( v + c, v )`: `plus` leaves its result in the storage of `v`, and `std::copy` writes where it reads. -/
theorem assign_increment_violated [Zero α] [Add α] (kind : Nat → Kind) (i j v k : Nat) (op : BOp α) (c : Cfg α) (hk : kind j = .plus) (I : List Nat) (L D : Nat → Ten α) (s : HSt α)
    (hl : Layout I L D s) (hs : (D v).shape = (L k).shape) (hv : Sound (D v)) (hc : Sound (L k)) : assignRun kind i (.bin j op (.var v c) (.leaf k)) v s = ub := by
  obtain ⟨h', z, h1, h2, h3, _⟩ := plus_same (hl.var v) (hl.leaf k) hs hv hc
  have hfw : hforward kind (.bin j op (.var v c) (.leaf k)) { s with cache := fun _ => none } =
      ok (s.varT v, { s with heap := h', cache := upd (fun _ => none) j (some (s.varT v)) }) := by
    rw [hforward, hquery_miss rfl, bind_ok]
    simp only [hforward, bind_ok, rd_ok (denote_some (hl.leaf k)).1, assert_true hc.1, pure_eq, hk, if_true, h1]
  have hzs : z.shape = (D v).shape := h3.1
  obtain ⟨hb, hsz⟩ := denote_some h2
  have hlen : z.data.length = size (s.varT v).shape := by
    rw [← hsz, hzs]
    exact h3.2.1
  have hne : z.data ≠ [] := by
    intro h0
    have : size (D v).shape = 0 := by rw [h0, ← hsz, hzs] at hlen; exact hlen.symm
    exact hv.1 (List.length_eq_zero_iff.mp (by rw [← this]; exact hv.2.1))
  unfold assignRun assignForward
  rw [hquery_miss rfl, bind_ok]
  dsimp only
  rw [hfw, bind_ok]
  dsimp only
  unfold assignAct reshape
  rw [rd_ok hb, bind_ok]
  by_cases h0 : (s.varT v).shape = []
  · rw [h0]
    rfl
  · rw [require_true h0, bind_ok, if_neg (by rw [← hsz, hzs]; exact hv.2.2), if_neg (by simpa using hlen), pure_eq, bind_ok]
    dsimp only
    rw [rd_ok hb, bind_ok, require_false (by simp [hne])]
    rfl

/-- C146, gradients: the expression is given zeros in its shape, and the gradient the variable has collected stays what it is, if the value had the shape of the variable (`r` is
`rhs_tensor`, reshaped like `x`).  Missing: `assign_backward_violated`. -/
theorem assign_backward_partial [CommRing α] (g d x : Ten α) (hs : d.shape = x.shape) (hg : g.shape = d.shape) (hw : g.WF) :
    (assignBack x ⟨x.shape, d.data⟩).1.Has x.shape (fun _ => 0) ∧ addGrad g d (assignBack x ⟨x.shape, d.data⟩).2 = ok g := by
  have hz : (assignBack x ⟨x.shape, d.data⟩).1.Has x.shape (fun _ => (0 : α)) := by
    refine ⟨rfl, by simp [assignBack], fun is hv => ?_⟩
    simp only [assignBack]
    rw [List.getElem?_replicate, if_pos (flat_lt hv)]
  refine ⟨hz, ?_⟩
  have hgx : g.Has x.shape g.at := by rw [← hs, ← hg]; exact hw.has
  obtain ⟨u, h1, h2⟩ := addGrad_ok hgx hs (inc := (assignBack x ⟨x.shape, d.data⟩).2) hz
  rw [h1, h2.ext (hgx.congr fun is _ => (add_zero _).symm)]

/-- C146 fails for the gradient of the variable, in general: after the assignment of a value of another shape the backward pass stops at an assertion. -/
theorem assign_backward_violated [Zero α] [Add α] (g d x : Ten α) (hs : d.shape ≠ x.shape) : addGrad g d (assignBack x ⟨x.shape, d.data⟩).2 = abort := by
  unfold addGrad
  by_cases hg : g.shape = d.shape
  · simp only [hg, ne_eq, not_true, if_false]
    rw [assert_false (by exact hs)]
    rfl
  · simp only [ne_eq, hg, not_false_eq_true, if_true]
    rw [assert_false (by exact hs)]
    rfl

/-- Storages: a place holder `(10, 20)`, a variable `(1, 2)`, the cache of operator 1, all other variables `(5, 6)`. -/
def stAssign : HSt Int := ⟨[[10, 20], [1, 2], [7], [5, 6]], fun _ => ⟨[2], 0⟩, fun w => if w = 0 then ⟨[2], 1⟩ else ⟨[2], 3⟩, fun _ => 2, fun _ => none⟩

/-- `-v`. -/
def exNeg : Ex Int := .un 1 negOp (.var 0 ⟨0, 0, true⟩)

def valAssign (a b : Int) : Nat → Ten Int := upd (fun w => if w = 0 then ⟨[2], [1, 2]⟩ else ⟨[2], [5, 6]⟩) 0 ⟨[2], [a, b]⟩

theorem stAssign_layout : Layout (ids exNeg) (fun _ => ⟨[2], [10, 20]⟩) (valAssign 1 2) stAssign := by
  refine ⟨fun _ => rfl, fun v => ?_, ?_, ?_, ?_⟩
  · by_cases hv : v = 0 <;> simp [stAssign, denote, valAssign, upd, hv]
  · simp [stAssign, ids, exNeg]
  · simp [ids, exNeg]
  · intro i _
    rintro (⟨k, hk⟩ | ⟨v, hv⟩)
    · simp [stAssign] at hk
    · by_cases h0 : v = 0 <;> simp [stAssign, h0] at hv

theorem stAssign_apart : Apart 0 stAssign := ⟨fun k => by simp [stAssign], fun w hw => by simp [stAssign, hw]⟩

theorem exNeg_eval (L : Nat → Ten Int) (a b : Int) : eval L (valAssign a b) exNeg = ok ⟨[2], [-a, -b]⟩ := by
  simp [exNeg, eval, valAssign, upd, negOp]

theorem exNeg_plain (L : Nat → Ten Int) (a b : Int) : Plain L (valAssign a b) exNeg := by
  intro p hp y hy
  simp only [exNeg, occs, List.mem_cons, List.not_mem_nil, or_false] at hp
  rcases hp with rfl | rfl
  · rw [show (Ex.un 1 negOp (.var 0 ⟨0, 0, true⟩)) = exNeg from rfl, exNeg_eval] at hy
    cases hy
    exact ⟨by simp, rfl, by simp [Tensor.minusOne]⟩
  · simp only [eval, valAssign, upd, if_true] at hy
    cases hy
    exact ⟨by simp, rfl, by simp [Tensor.minusOne]⟩

theorem exNeg_consistent : Consistent exNeg := by
  intro p hp q hq k hk1 hk2
  simp only [exNeg, occs, List.mem_cons, List.not_mem_nil, or_false] at hp hq
  rcases hp with rfl | rfl <;> rcases hq with rfl | rfl <;> simp_all [Ex.id?]

theorem exNeg_tidy (kind : Nat → Kind) : Tidy kind exNeg := by
  intro p hp i op l r h
  simp only [exNeg, occs, List.mem_cons, List.not_mem_nil, or_false] at hp
  rcases hp with rfl | rfl <;> simp at h

/-- `assign( -v, v )` on the variable `(1, 2)`, once and twice. -/
example : (∃ x s', assignRun (fun _ => .own) 5 exNeg 0 stAssign = ok (x, s') ∧ denote s'.heap (s'.varT 0) = some ⟨[2], [-1, -2]⟩ ∧ denote s'.heap (s'.varT 1) = some ⟨[2], [5, 6]⟩) ∧
    ∃ s', assignRuns (fun _ => .own) 5 exNeg 0 2 stAssign = ok s' ∧ denote s'.heap (s'.varT 0) = some ⟨[2], [1, 2]⟩ := by
  constructor
  · obtain ⟨x, s', h1, _, h2, h3, _⟩ := assign_stores_partial (fun _ => .own) 5 exNeg 0 _ _ stAssign stAssign_layout exNeg_consistent (exNeg_plain _ _ _) (exNeg_tidy _) stAssign_apart
      (Or.inl (by simp [exNeg, Ex.id?])) _ (exNeg_eval _ _ _) (by simp) rfl
    exact ⟨x, s', h1, h2, by rw [h3 1 (by decide)]; rfl⟩
  · have hup : ∀ a b, upd (valAssign 1 2) 0 ⟨[2], [a, b]⟩ = valAssign a b := fun a b => by
      funext w
      by_cases hw : w = 0 <;> simp [valAssign, upd, hw]
    have hY : ∀ n : Nat, (fun n : Nat => (⟨[2], [(-1) ^ n * 1, (-1) ^ n * 2]⟩ : Ten Int)) (n + 1) = ⟨[2], [-((-1) ^ n * 1), -((-1) ^ n * 2)]⟩ := fun n => by
      simp [pow_succ]
    obtain ⟨s', h1, h2, _⟩ := assign_iterates_partial (fun _ => .own) 5 exNeg 0 (fun _ => ⟨[2], [10, 20]⟩) (valAssign 1 2) stAssign stAssign_layout exNeg_consistent (exNeg_tidy _) stAssign_apart
      (Or.inl (by simp [exNeg, Ex.id?])) (fun n => ⟨[2], [(-1) ^ n * 1, (-1) ^ n * 2]⟩) (by simp [valAssign, upd]) (fun n => by rw [hup]; exact exNeg_plain _ _ _)
      (fun n => by rw [hup, exNeg_eval]; exact congrArg ok (hY n).symm) (fun n => by simp [valAssign, upd]) (by simp [valAssign, upd]) 2
    exact ⟨s', h1, by rw [h2]; simp⟩

/-- A variable of shape `[2]` that is assigned a tensor of three elements: its shape stays `[2]`. -/
example : (do
    let (_, s') ← assignRun (fun _ => .own) 5 (.leaf 0) 0 (⟨[[10, 20, 30], [1, 2]], fun _ => ⟨[3], 0⟩, fun _ => ⟨[2], 1⟩, fun _ => 2, fun _ => none⟩ : HSt Int)
    readT s'.heap (s'.varT 0)) = ok ⟨[2], [10, 20, 30]⟩ := by decide

/-- `assign( v, v )` and `assign( v + p, v )`. -/
example : assignRun (fun _ => .own) 5 (.var 0 ⟨0, 0, true⟩) 0 stAssign = ub ∧
    assignRun (fun _ => .plus) 5 (.bin 2 ⟨plusT, fun _ _ _ _ => ub⟩ (.var 0 ⟨0, 0, true⟩) (.leaf 0)) 0 stAssign = ub :=
  ⟨assign_self_violated _ _ _ _ _ _ _ _ stAssign_layout ⟨by simp [valAssign, upd], rfl, by simp [valAssign, upd, Tensor.minusOne]⟩,
   assign_increment_violated _ _ _ _ _ _ _ rfl _ _ _ _ stAssign_layout rfl ⟨by simp [valAssign, upd], rfl, by simp [valAssign, upd, Tensor.minusOne]⟩ ⟨by simp, rfl, by simp [Tensor.minusOne]⟩⟩

/-- Gradients: kept for shape `[2]`, stopped for shape `[3]`. -/
example : addGrad (⟨[2], [3, 4]⟩ : Ten Int) ⟨[2], [1, 2]⟩ (assignBack ⟨[2], [7, 8]⟩ ⟨[2], [1, 2]⟩).2 = ok ⟨[2], [3, 4]⟩ ∧
    addGrad (⟨[2], [3, 4]⟩ : Ten Int) ⟨[2], [1, 2]⟩ (assignBack ⟨[3], [7, 8, 9]⟩ ⟨[3], [1, 2]⟩).2 = abort := by decide

end Verif.Alias
