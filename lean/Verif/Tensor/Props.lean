import Verif.Tensor.Arith
/-!
# Properties C11-C14, C16-C19
-/
namespace Verif.Tensor
open Verif Res

variable {α : Type}

/-! ## C11: size() is the product of shape() -/

/-- C11 is false of the code: `tensor<float> a{{2}}; auto b = a; b.resize({3});` leaves `a` with shape `{2}` and
three elements.  Full statement (false): for every history, `run cs ([], []) = ok s → SizesMatch s`. -/
theorem tensor_size_violated :
    ∃ (cs : List (Cmd Int)) (s : State Int), run cs ([], []) = ok s ∧ ¬ SizesMatch s := by
  refine ⟨[.new [2] 7, .copy 0, .resize 1 [3]], ([⟨[2], 0⟩, ⟨[3], 0⟩], [[0, 0, 0]]), by rfl, ?_⟩
  intro h
  have := h ⟨[2], 0⟩ (by simp)
  simp [sizeT, rd] at this

/-- A default-constructed tensor has the empty shape (product 1) and no element. -/
theorem tensor_default_size_violated (h : Heap α) :
    sizeT (newDefault h).2 (newDefault h).1 = ok 0 ∧ size (newDefault h).1.shape = 1 := by
  simp [newDefault, sizeT, rd]

/-- C11, the part that holds: along every history in which an operation changing the number of elements is only
applied to a variable whose storage no other variable shares, every live tensor has as many elements as its shape
says.  Missing from the full claim: size-changing operations on shared storage and `tensor()` (both violate it). -/
theorem tensor_size_partial [Zero α] (cs : List (Cmd α)) (s s' : State α) (h0 : SizesMatch s) (hd : AllDisciplined cs s)
    (h : run cs s = ok s') : SizesMatch s' := by
  induction cs generalizing s with
  | nil => simp only [run, ok.injEq] at h; exact h ▸ h0
  | cons c cs ih =>
    simp only [run, bind_eq_ok] at h
    obtain ⟨s1, h1, h2⟩ := h
    exact ih s1 (step_sizesMatch h0 hd.1 h1) (hd.2 s1 h1) h2

/-- A disciplined history that really shares and really resizes. -/
example : ∃ s', run [Cmd.new [2, 3] (1 : Int), .copy 0, .reshape 1 [3, minusOne], .deepCopy 1, .resize 2 [5], .opAssign (· + ·) 0 0]
      (([], []) : State Int) = ok s' ∧
    s' = ([⟨[2, 3], 0⟩, ⟨[3, 2], 0⟩, ⟨[5], 1⟩], [[2, 2, 2, 2, 2, 2], [0, 0, 0, 0, 0]]) := ⟨_, by decide, rfl⟩

example : AllDisciplined [Cmd.new [2, 3] (1 : Int), .copy 0, .reshape 1 [3, minusOne], .deepCopy 1, .resize 2 [5]] ([], []) := by
  refine ⟨trivial, fun s1 h1 => ?_⟩
  have e1 : s1 = ([⟨[2,3],0⟩], [[1,1,1,1,1,1]]) := by
    have : step ([], []) (Cmd.new [2, 3] (1 : Int)) = ok ([⟨[2,3],0⟩], [[1,1,1,1,1,1]]) := by decide
    rw [this] at h1; exact (ok.inj h1).symm
  subst e1
  refine ⟨trivial, fun s2 h2 => ?_⟩
  have e2 : s2 = ([⟨[2,3],0⟩, ⟨[2,3],0⟩], [[1,1,1,1,1,1]]) := by
    have : step ([⟨[2,3],0⟩], [[1,1,1,1,1,1]]) (Cmd.copy (α := Int) 0) = ok ([⟨[2,3],0⟩, ⟨[2,3],0⟩], [[1,1,1,1,1,1]]) := by decide
    rw [this] at h2; exact (ok.inj h2).symm
  subst e2
  refine ⟨Or.inl ⟨_, _, rfl, rfl, by decide⟩, fun s3 h3 => ?_⟩
  have e3 : s3 = ([⟨[2,3],0⟩, ⟨[3,2],0⟩], [[1,1,1,1,1,1]]) := by
    have : step ([⟨[2,3],0⟩, ⟨[2,3],0⟩], [[1,1,1,1,1,1]]) (Cmd.reshape (α := Int) 1 [3, minusOne])
      = ok ([⟨[2,3],0⟩, ⟨[3,2],0⟩], [[1,1,1,1,1,1]]) := by decide
    rw [this] at h3; exact (ok.inj h3).symm
  subst e3
  refine ⟨trivial, fun s4 h4 => ?_⟩
  have e4 : s4 = ([⟨[2,3],0⟩, ⟨[3,2],0⟩, ⟨[3,2],1⟩], [[1,1,1,1,1,1], [1,1,1,1,1,1]]) := by
    have : step ([⟨[2,3],0⟩, ⟨[3,2],0⟩], [[1,1,1,1,1,1]]) (Cmd.deepCopy (α := Int) 1)
      = ok ([⟨[2,3],0⟩, ⟨[3,2],0⟩, ⟨[3,2],1⟩], [[1,1,1,1,1,1], [1,1,1,1,1,1]]) := by decide
    rw [this] at h4; exact (ok.inj h4).symm
  subst e4
  refine ⟨Or.inr ?_, fun _ _ => trivial⟩
  intro t ht j u hj hu
  simp only [List.getElem?_cons_succ, List.getElem?_cons_zero, Option.some.injEq] at ht
  subst ht
  match j, hj with
  | 0, hj => simp only [List.getElem?_cons_zero, Option.some.injEq] at hj; subst hj; simp at hu
  | 1, hj => simp only [List.getElem?_cons_succ, List.getElem?_cons_zero, Option.some.injEq] at hj; subst hj; simp at hu
  | 2, _ => rfl
  | j + 3, hj => simp at hj

/-! ## C12: resize keeps or zero-fills -/

/-- C12: `resize` always succeeds on a live tensor, sets the shape, keeps all elements when their number does not
change and otherwise leaves exactly the new number of zeros; no other storage is touched. -/
theorem resize_keeps_or_zero_fills [Zero α] (h : Heap α) (t : Tn) (b : List α) (hb : contents h t = some b) (s : List Nat) :
    ∃ t' h', resize h t s = ok (t', h') ∧ t'.shape = s ∧ t'.loc = t.loc ∧
      (b.length = size s → contents h' t' = some b) ∧
      (b.length ≠ size s → contents h' t' = some (List.replicate (size s) 0)) ∧
      (∀ o : Tn, o.loc ≠ t.loc → contents h' o = contents h o) := by
  have hl : t.loc < h.length := (List.getElem?_eq_some_iff.mp hb).1
  refine ⟨_, _, resize_ok hb s, rfl, rfl, fun e => ?_, fun e => ?_, fun o ho => ?_⟩
  · simp only [contents, vecResize, e, if_true]
    rw [List.getElem?_set_self hl]
  · simp only [contents, vecResize, if_neg (Ne.symm e)]
    rw [List.getElem?_set_self hl]
  · simp only [contents]
    rw [List.getElem?_set_ne (Ne.symm ho)]

example : resize [[5, 6, 7, 8], [9]] ⟨[2, 2], 0⟩ [3] = ok (⟨[3], 0⟩, [[0, 0, (0 : Int)], [9]]) ∧
    resize [[5, 6, 7, 8], [9]] ⟨[2, 2], 0⟩ [4, 1] = ok (⟨[4, 1], 0⟩, [[5, 6, 7, (8 : Int)], [9]]) := by decide

/-! ## C13: deep copies are independent, copies are aliases -/

theorem writes_two {h : Heap α} {a b : Tn} {la lb : List α} (ha : h[a.loc]? = some la) (hb : h[b.loc]? = some lb)
    (hne : a.loc ≠ b.loc) (ws : List (Bool × Nat × α)) (hin : ∀ w ∈ ws, w.2.1 < if w.1 then la.length else lb.length) :
    ∃ h', writes h a b ws = ok h' ∧ contents h' a = some (applyWrites la (through true ws)) ∧
      contents h' b = some (applyWrites lb (through false ws)) := by
  induction ws generalizing h la lb with
  | nil => exact ⟨h, rfl, ha, hb⟩
  | cons w ws ih =>
    obtain ⟨w, i, v⟩ := w
    have hal : a.loc < h.length := (List.getElem?_eq_some_iff.mp ha).1
    have hbl : b.loc < h.length := (List.getElem?_eq_some_iff.mp hb).1
    have hi := hin (w, i, v) (by simp)
    have hin' : ∀ x ∈ ws, x.2.1 < if x.1 then la.length else lb.length := fun x hx => hin x (by simp [hx])
    cases w with
    | true =>
      simp only [if_true] at hi
      obtain ⟨h', e1, e2, e3⟩ := ih (h := h.set a.loc (la.set i v)) (la := la.set i v) (lb := lb)
        (List.getElem?_set_self hal) (by rw [List.getElem?_set_ne hne]; exact hb) (by simpa using hin')
      refine ⟨h', ?_, ?_, ?_⟩
      · simp only [writes, if_true, setT_ok ha hi, bind_ok]; exact e1
      · simpa [through, applyWrites] using e2
      · simpa [through, applyWrites] using e3
    | false =>
      simp only [Bool.false_eq_true, if_false] at hi
      obtain ⟨h', e1, e2, e3⟩ := ih (h := h.set b.loc (lb.set i v)) (la := la) (lb := lb.set i v)
        (by rw [List.getElem?_set_ne (Ne.symm hne)]; exact ha) (List.getElem?_set_self hbl) (by simpa using hin')
      refine ⟨h', ?_, ?_, ?_⟩
      · simp only [writes, Bool.false_eq_true, if_false, setT_ok hb hi, bind_ok]; exact e1
      · simpa [through, applyWrites] using e2
      · simpa [through, applyWrites] using e3

/-- C13, first half: a deep copy of a well-formed tensor has the same shape and elements, and after any sequence of
element writes through the original and the copy, each shows exactly the writes made through itself. -/
theorem deep_copy_independent [Zero α] (h : Heap α) (a : Tn) (la : List α) (ha : contents h a = some la)
    (hsz : la.length = size a.shape) :
    ∃ b h1, deepCopy h a = ok (b, h1) ∧ b.shape = a.shape ∧ contents h1 a = some la ∧ contents h1 b = some la ∧
      ∀ ws : List (Bool × Nat × α), (∀ w ∈ ws, w.2.1 < la.length) →
        ∃ h2, writes h1 a b ws = ok h2 ∧ contents h2 a = some (applyWrites la (through true ws)) ∧
          contents h2 b = some (applyWrites la (through false ws)) := by
  have hal : a.loc < h.length := (List.getElem?_eq_some_iff.mp ha).1
  have hd : deepCopy h a = ok (⟨a.shape, h.length⟩, h ++ [la]) := by
    simp only [deepCopy, newT, contents] at ha ⊢
    rw [rd_ok ha, bind_ok, copyN_full (by simp [hsz]), bind_ok, wr_ok (by simp), bind_ok,
      List.set_append_right _ _ (Nat.le_refl _)]
    simp
  have h1 : (h ++ [la])[a.loc]? = some la := by rw [List.getElem?_append_left hal]; exact ha
  have h2 : (h ++ [la])[h.length]? = some la := by simp
  refine ⟨_, _, hd, rfl, h1, h2, fun ws hw => ?_⟩
  exact writes_two (b := ⟨a.shape, h.length⟩) h1 h2 (by simp only; omega) ws (fun w hw' => by simpa using hw w hw')

/-- C13, second half: after `b = a` (also after a later reshape of either object) the two objects share their storage,
and every sequence of writes through either is seen through both. -/
theorem copy_is_alias (h : Heap α) (a : Tn) (la : List α) (ha : contents h a = some la) (shape : List Nat)
    (ws : List (Bool × Nat × α)) (hin : ∀ w ∈ ws, w.2.1 < la.length) :
    let b : Tn := ⟨shape, a.loc⟩   -- the copy, possibly with a shape of its own
    ∃ h', writes h a b ws = ok h' ∧ contents h' a = some (applyWrites la (ws.map (·.2))) ∧
      contents h' b = some (applyWrites la (ws.map (·.2))) := by
  intro b
  induction ws generalizing h la with
  | nil => exact ⟨h, rfl, ha, ha⟩
  | cons w ws ih =>
    obtain ⟨w, i, v⟩ := w
    have hal : a.loc < h.length := (List.getElem?_eq_some_iff.mp ha).1
    have hi : i < la.length := hin (w, i, v) (by simp)
    have hin' : ∀ x ∈ ws, x.2.1 < la.length := fun x hx => hin x (by simp [hx])
    obtain ⟨h', e1, e2, e3⟩ := ih (h.set a.loc (la.set i v)) (la.set i v) (List.getElem?_set_self hal) (by simpa using hin')
    refine ⟨h', ?_, by simpa [applyWrites] using e2, by simpa [applyWrites] using e3⟩
    have : setT h (if w then a else b) i v = ok (h.set a.loc (la.set i v)) := by
      cases w
      · exact setT_ok (t := b) ha hi
      · exact setT_ok ha hi
    simp only [writes, this, bind_ok]; exact e1

example : ∃ b h1, deepCopy [[1, 2, 3, (4 : Int)]] ⟨[2, 2], 0⟩ = ok (b, h1) ∧
    writes h1 ⟨[2, 2], 0⟩ b [(true, 0, 9), (false, 3, 8), (true, 3, 7)] = ok [[9, 2, 3, 7], [1, 2, 3, 8]] :=
  ⟨⟨[2, 2], 1⟩, [[1, 2, 3, 4], [1, 2, 3, 4]], by decide, by decide⟩

/-! ## C14: reshape -/

/-- C14: reshaping a well-formed tensor to a shape with the same number of elements keeps the storage, so the elements
keep their row-major order, and reshaping back gives the original tensor. -/
theorem reshape_keeps_order [Zero α] (h : Heap α) (t : Tn) (a : List Nat → α) (hh : Holds h t a) (s : List Nat)
    (hs : size s = size t.shape) (hne : s ≠ []) (hl : s.getLast? ≠ some minusOne)
    (hne' : t.shape ≠ []) (hl' : t.shape.getLast? ≠ some minusOne) :
    ∃ t', reshape h t s = ok (t', h) ∧ t'.shape = s ∧
      Holds h t' (fun is => a (unflat t.shape (flat s is))) ∧ reshape h t' t.shape = ok (t, h) := by
  obtain ⟨b, hb, hT⟩ := hh
  refine ⟨⟨s, t.loc⟩, ?_, rfl, ⟨b, hb, by rw [hT.1, hs], fun is hv => ?_⟩, ?_⟩
  · simp only [reshape, rd_ok hb, bind_ok, require_true hne, if_neg hl]
    rw [if_neg (by rw [not_not, hT.1, hs])]; rfl
  · have hp : flat s is < size t.shape := by rw [← hs]; exact flat_lt hv
    obtain ⟨v, e⟩ := unflat_spec hp
    have := hT.2 _ v
    rw [e] at this
    exact this
  · simp only [reshape, rd_ok hb, bind_ok, require_true hne', if_neg hl']
    rw [if_neg (by rw [not_not, hT.1])]; rfl

/-- C14, the trailing -1: it is replaced by the only extent that fits, and the elements are untouched.  When no extent
fits, the quotient is rounded down and the elements are replaced by zeros (second part). -/
theorem reshape_infers_last [Zero α] (h : Heap α) (t : Tn) (b : List α) (hb : contents h t = some b) (front : List Nat)
    (hf : 0 < size front) :
    (∀ k, b.length = size front * k →
      reshape h t (front ++ [minusOne]) = ok (⟨front ++ [k], t.loc⟩, h) ∧
      (∀ k', b.length = size (front ++ [k']) → k' = k)) ∧
    ((¬ ∃ k, b.length = size front * k) →
      reshape h t (front ++ [minusOne]) = ok (⟨front ++ [b.length / size front], t.loc⟩,
        h.set t.loc (List.replicate (size front * (b.length / size front)) 0))) := by
  simp only [contents] at hb
  have hne : front ++ [minusOne] ≠ [] := by simp
  have e : reshape h t (front ++ [minusOne]) =
      if b.length ≠ size front * (b.length / size front) then resize h t (front ++ [b.length / size front])
      else ok (⟨front ++ [b.length / size front], t.loc⟩, h) := by
    simp only [reshape, rd_ok hb, bind_ok, require_true hne, List.getLast?_append, List.getLast?_singleton, Option.some_or,
      if_true, List.dropLast_concat, require_true (show size front ≠ 0 by omega), size_append, size_cons, size_nil, Nat.mul_one]
    rfl
  rw [e]
  refine ⟨fun k hk => ?_, fun hno => ?_⟩
  · have hq : b.length / size front = k := by rw [hk, Nat.mul_div_cancel_left _ hf]
    rw [hq, if_neg (by rw [not_not]; exact hk)]
    refine ⟨rfl, fun k' hk' => ?_⟩
    rw [hk] at hk'
    simp only [size_append, size_cons, size_nil, Nat.mul_one] at hk'
    exact (Nat.eq_of_mul_eq_mul_left hf hk').symm
  · have hne2 : b.length ≠ size front * (b.length / size front) := fun hc => hno ⟨_, hc⟩
    rw [if_pos hne2, resize_ok hb]
    simp only [size_append, size_cons, size_nil, Nat.mul_one, vecResize]
    rw [if_neg (Ne.symm hne2)]

example : reshape [[1, 2, 3, 4, 5, (6 : Int)]] ⟨[2, 3], 0⟩ [3, minusOne] = ok (⟨[3, 2], 0⟩, [[1, 2, 3, 4, 5, 6]]) ∧
    reshape [[1, 2, 3, 4, 5, (6 : Int)]] ⟨[3, 2], 0⟩ [2, 3] = ok (⟨[2, 3], 0⟩, [[1, 2, 3, 4, 5, 6]]) ∧
    reshape [[1, 2, 3, 4, 5, (6 : Int)]] ⟨[2, 3], 0⟩ [4, minusOne] = ok (⟨[4, 1], 0⟩, [[0, 0, 0, 0]]) := by decide

/-! ## C16: broadcast_shape -/

/-- C16: for compatible shapes the result has the larger rank and, aligned at the right, in each dimension the extent of
the operand that is not 1 (the common extent when both are not 1). -/
theorem broadcast_shape_numpy (a b : List Nat) (h : Compatible a b) :
    ∃ c, broadcastShape a b = ok c ∧ c.length = max a.length b.length ∧
      ∀ k, (dimR a k = 1 → dimR c k = dimR b k) ∧ (dimR b k = 1 → dimR c k = dimR a k) ∧
        (dimR a k = dimR b k → dimR c k = dimR a k) := by
  obtain ⟨c, h1, h2, h3⟩ := broadcastShape_ok h
  refine ⟨c, h1, h2, fun k => ?_⟩
  rw [h3 k, rule]
  refine ⟨fun e => by rw [if_pos e], fun e => ?_, fun e => ?_⟩
  · by_cases e' : dimR a k = 1
    · rw [if_pos e', e, e']
    · rw [if_neg e']
  · rw [← e]; split <;> rfl

/-- C16: exactly the incompatible pairs are rejected. -/
theorem broadcast_shape_rejects (a b : List Nat) : broadcastShape a b = abort ↔ ¬ Compatible a b := by
  constructor
  · intro h hc
    obtain ⟨c, h1, _⟩ := broadcastShape_ok hc
    rw [h1] at h; cases h
  · exact broadcastShape_abort

theorem Compatible.symm {a b : List Nat} (h : Compatible a b) : Compatible b a :=
  fun k => by rcases h k with e | e | e <;> simp [e]

/-- C16: `broadcast_shape` is commutative (also in rejecting). -/
theorem broadcast_shape_comm (a b : List Nat) : broadcastShape a b = broadcastShape b a := by
  by_cases h : Compatible a b
  · obtain ⟨c, h1, h2, h3⟩ := broadcastShape_ok h
    obtain ⟨d, g1, g2, g3⟩ := broadcastShape_ok h.symm
    rw [h1, g1, dimR_ext (a := c) (b := d) (by omega)]
    intro k
    rw [h3, g3, rule, rule]
    rcases h k with e | e | e
    · rw [e]
    · rw [if_pos e, e]; split <;> simp_all
    · rw [if_pos e, e]; split <;> simp_all
  · rw [broadcastShape_abort h, broadcastShape_abort (fun hc => h hc.symm)]

example : broadcastShape [15, 3, 5] [3, 1] = ok [15, 3, 5] ∧ broadcastShape [8, 1, 6, 1] [7, 1, 5] = ok [8, 7, 6, 5] ∧
    broadcastShape [2, 1] [8, 4, 3] = abort := by decide

/-- The compatibility hypothesis is met by shapes of different rank. -/
example : Compatible [15, 3, 5] [3, 1] := by
  intro k
  match k with
  | 0 => decide
  | 1 => decide
  | k + 2 => right; right; exact dimR_of_ge (by simp)

/-! ## C17: broadcast_tensor -/

/-- C17: broadcasting a well-formed tensor to any shape it broadcasts to succeeds, yields that shape, and shows at each
index the element of the original with the surplus coordinates dropped and coordinate 0 in the unit dimensions.  Existing
storages are not changed. -/
theorem broadcast_tensor_repeats [Zero α] (h : Heap α) (t : Tn) (a : List Nat → α) (new : List Nat) (hh : Holds h t a)
    (hbc : BroadcastsTo t.shape new) (hlast : t.shape.getLast? ≠ some minusOne) :
    ∃ t' h', broadcastTensor h t new = ok (t', h') ∧ t'.shape = new ∧ Holds h' t' (fun is => a (bcIdx t.shape is)) ∧
      ∀ o : Tn, o.loc < h.length → contents h' o = contents h o := by
  obtain ⟨t', ext, g1, g2, g3, _, _⟩ := broadcastTensor_ok hh hbc hlast
  exact ⟨t', _, g1, g2, g3, fun o ho => List.getElem?_append_left ho⟩

/-- Outside C17's range: a target with fewer dimensions makes the code read outside `new_shape`. -/
theorem broadcast_tensor_lower_rank_ub [Zero α] (h : Heap α) (t : Tn) (new : List Nat) (hl : new.length < t.shape.length) :
    broadcastTensor h t new = ub := broadcastTensor_ub hl

example : broadcastTensor [[1, (2 : Int)]] ⟨[2, 1], 0⟩ [2, 2, 3] =
    ok (⟨[2, 2, 3], 2⟩, [[1, 2], [1, 1, 1, 2, 2, 2], [1, 1, 1, 2, 2, 2, 1, 1, 1, 2, 2, 2]]) := by decide

example : Holds [[1, (2 : Int)]] ⟨[2, 1], 0⟩ (fun is => if is = [0, 0] then 1 else 2) ∧ BroadcastsTo [2, 1] [2, 2, 3] := by
  refine ⟨⟨_, rfl, rfl, ?_⟩, by decide, ?_⟩
  · intro is hv
    match is, hv with
    | [0, 0], _ => decide
    | [1, 0], _ => decide
  · intro k hk
    match k, hk with
    | 0, _ => decide
    | 1, _ => decide

/-! ## C18: values of a+b and a-b -/

/-- C18 for any element operation `f` (`add` with `f = (· + ·)`, `minus` with `f = (· - ·)`): for compatible shapes the
result has the broadcast shape and at each index `f` of the operands' elements at the broadcast index.  The operands may
share storage with each other. -/
theorem add_minus_values [Zero α] (f : α → α → α) (h : Heap α) (l r : Tn) (a b : List Nat → α) (hl : Holds h l a)
    (hr : Holds h r b) (hc : Compatible l.shape r.shape) (ml : l.shape.getLast? ≠ some minusOne)
    (mr : r.shape.getLast? ≠ some minusOne) :
    ∃ c t' h', broadcastShape l.shape r.shape = ok c ∧ addLike f h l r = ok (t', h') ∧ t'.shape = c ∧
      Holds h' t' (fun is => f (a (bcIdx l.shape is)) (b (bcIdx r.shape is))) := by
  obtain ⟨c, t', h', h1, h2, h3, h4, _⟩ := addLike_ok (f := f) hl hr hc ml mr
  exact ⟨c, t', h', h1, h2, h3, h4⟩

example : addLike (· - ·) [[1, 2, 3, 4], [10, (20 : Int)]] ⟨[2, 2], 0⟩ ⟨[2], 1⟩ =
    ok (⟨[2, 2], 0⟩, [[-9, -18, -7, -16], [10, 20], [10, 20, 10, 20]]) := by decide

/-! ## C19: operands unchanged -/

/-- C19 is false of the code: `a + b` with equal shapes overwrites `a` with the sum.
Full statement (false): `addLike f h l r = ok (t', h') → contents h' l = contents h l ∧ contents h' r = contents h r`. -/
theorem add_operands_violated :
    ∃ (h h' : Heap Int) (l r t' : Tn), addLike (· + ·) h l r = ok (t', h') ∧ contents h l = some [1, 2] ∧
      contents h' l = some [11, 22] :=
  ⟨[[1, 2], [10, 20]], [[11, 22], [10, 20]], ⟨[2], 0⟩, ⟨[2], 1⟩, ⟨[2], 0⟩, by decide, by decide, by decide⟩

/-- C19, exactly what happens: when the left operand has to be expanded (its shape, padded with leading ones, is not the
broadcast shape) every existing tensor keeps its contents; otherwise the result is stored in the left operand's storage and
every tensor not sharing that storage keeps its contents.  Missing from the full claim: the second case changes the left
operand. -/
theorem add_operands_partial [Zero α] (f : α → α → α) (h : Heap α) (l r : Tn) (a b : List Nat → α) (hl : Holds h l a)
    (hr : Holds h r b) (hc : Compatible l.shape r.shape) (ml : l.shape.getLast? ≠ some minusOne)
    (mr : r.shape.getLast? ≠ some minusOne) :
    ∃ c t' h', broadcastShape l.shape r.shape = ok c ∧ addLike f h l r = ok (t', h') ∧
      (List.replicate (c.length - l.shape.length) 1 ++ l.shape ≠ c →
        ∀ o : Tn, o.loc < h.length → contents h' o = contents h o) ∧
      (List.replicate (c.length - l.shape.length) 1 ++ l.shape = c → contents h' l = contents h' t' ∧
        ∀ o : Tn, o.loc < h.length → o.loc ≠ l.loc → contents h' o = contents h o) := by
  obtain ⟨c, t', h', h1, h2, h3, h4, _, h5, h6⟩ := addLike_ok (f := f) hl hr hc ml mr
  refine ⟨c, t', h', h1, h2, fun e o ho => (h5 e).2 o.loc ho, fun e => ?_⟩
  obtain ⟨g1, g2⟩ := h6 e
  exact ⟨by simp only [contents, g1], fun o ho hne => g2 o.loc ho hne⟩

example : addLike (· + ·) [[10, (20 : Int)], [1, 2, 3, 4]] ⟨[2], 0⟩ ⟨[2, 2], 1⟩ =
    ok (⟨[2, 2], 2⟩, [[10, 20], [1, 2, 3, 4], [11, 22, 13, 24]]) := by decide

end Verif.Tensor
