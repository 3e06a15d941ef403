import Verif.Release.Props

/-!
# C128, continued: products, quotients, concatenation, reductions and changes of shape in a release build
-/
namespace Verif.Release
open Verif Res View Tensor

variable {α : Type}

/-! ## element by element -/

theorem ewp_release [Mul α] (l r : Ten α) (hr : 0 < r.data.length) :
    ∃ t, ewpGo false l r = ok t ∧ t.shape = l.shape ∧ t.data.length = l.data.length ∧
      ∀ i x y, l.data[i]? = some x → r.data[i % r.data.length]? = some y →
        t.data[i]? = some (if i < l.data.length / r.data.length * r.data.length then x * y else x) := by
  have hle : l.data.length / r.data.length * r.data.length ≤ l.data.length := Nat.div_mul_le_self _ _
  generalize hq : l.data.length / r.data.length = q at hle
  generalize hR : r.data.length = R at *
  let P : Nat → List α → Prop := fun n d => d.length = l.data.length ∧
    ∀ i x y, l.data[i]? = some x → r.data[i % R]? = some y → d[i]? = some (if i < n then x * y else x)
  obtain ⟨d, h1, h2⟩ := loop_inv (n := q) (body := fun idx d => loop R (fun jdx d => do
      let x ← rd d (idx * R + jdx)
      let y ← rd r.data jdx
      wr d (idx * R + jdx) (x * y)) d) (s := l.data) (fun idx d => P (idx * R) d)
    ⟨rfl, fun i x y hx _ => by simp [hx]⟩ (by
      intro idx d hidx hd
      have hb : (idx + 1) * R ≤ q * R := Nat.mul_le_mul_right _ hidx
      rw [Nat.succ_mul] at hb
      obtain ⟨d', h1, h2⟩ := loop_inv (n := R) (body := fun jdx d => do
          let x ← rd d (idx * R + jdx)
          let y ← rd r.data jdx
          wr d (idx * R + jdx) (x * y)) (s := d) (fun jdx d => P (idx * R + jdx) d) hd (by
        intro jdx d hj hd
        have hlt : idx * R + jdx < l.data.length := by omega
        have hmod : (idx * R + jdx) % R = jdx := by
          rw [Nat.add_comm, Nat.add_mul_mod_self_right, Nat.mod_eq_of_lt hj]
        have hx := hd.2 (idx * R + jdx) _ (r.data[jdx]'(by omega)) (List.getElem?_eq_getElem hlt) (by rw [hmod]; exact List.getElem?_eq_getElem _)
        rw [if_neg (by omega)] at hx
        refine ⟨d.set (idx * R + jdx) (l.data[idx * R + jdx] * r.data[jdx]'(by omega)), ?_, by simpa using hd.1, ?_⟩
        · rw [rd_ok hx, bind_ok, rd_ok (List.getElem?_eq_getElem (by omega)), bind_ok, wr_ok (by rw [hd.1]; exact hlt)]
        · intro i x y hx' hy
          by_cases e : i = idx * R + jdx
          · subst e
            rw [List.getElem?_set_self (by rw [hd.1]; exact hlt), if_pos (by omega)]
            rw [List.getElem?_eq_getElem hlt] at hx'
            rw [hmod, List.getElem?_eq_getElem (by omega)] at hy
            rw [← Option.some.inj hx', ← Option.some.inj hy]
          · rw [List.getElem?_set_ne (Ne.symm e), hd.2 i x y hx' hy]
            by_cases hi : i < idx * R + jdx
            · rw [if_pos hi, if_pos (by omega)]
            · rw [if_neg hi, if_neg (by omega)])
      refine ⟨d', h1, ?_⟩
      rw [Nat.succ_mul]
      exact h2)
  refine ⟨⟨l.shape, d⟩, ?_, rfl, h2.1, h2.2⟩
  unfold ewpGo
  simp only [hR, hq]
  rw [require_true (by omega), bind_ok, show check false (R * q = l.data.length) = ok ⟨⟩ from rfl, bind_ok, h1]
  rfl

/-- C128 fails for the product element by element: where the size of the smaller operand does not divide that of the larger, a release build multiplies as many
elements as make up whole repetitions and returns the rest as they were. -/
theorem product_silent_violated [Mul α] (l r : Ten α) (hr : 0 < r.data.length) (hlt : r.data.length < l.data.length) (hd : ¬ r.data.length ∣ l.data.length) :
    elementwiseProduct true l r = abort ∧
    ∃ t, elementwiseProduct false l r = ok t ∧ t.shape = l.shape ∧ t.data.length = l.data.length ∧
      (∀ i x y, i < l.data.length / r.data.length * r.data.length → l.data[i]? = some x → r.data[i % r.data.length]? = some y → t.data[i]? = some (x * y)) ∧
      (∀ i, l.data.length / r.data.length * r.data.length ≤ i → t.data[i]? = l.data[i]?) ∧
      l.data.length / r.data.length * r.data.length < l.data.length := by
  obtain ⟨t, h1, h2, h3, h4⟩ := ewp_release l r hr
  have hne : r.data.length * (l.data.length / r.data.length) ≠ l.data.length := fun e => hd ⟨_, e.symm⟩
  have hle : l.data.length / r.data.length * r.data.length ≤ l.data.length := Nat.div_mul_le_self _ _
  refine ⟨?_, t, ?_, h2, h3, fun i x y hi hx hy => by rw [h4 i x y hx hy, if_pos hi], fun i hi => ?_, ?_⟩
  · rw [elementwiseProduct, if_neg (by omega), ewpGo, require_true (by omega), bind_ok]
    dsimp only
    rw [show check true (r.data.length * (l.data.length / r.data.length) = l.data.length) = abort by simp [check, hne], bind_abort]
  · rw [elementwiseProduct, if_neg (by omega), h1]
  · by_cases hil : i < l.data.length
    · rw [List.getElem?_eq_getElem hil]
      rw [h4 i _ _ (List.getElem?_eq_getElem hil) (List.getElem?_eq_getElem (Nat.mod_lt _ hr)), if_neg (by omega)]
    · rw [List.getElem?_eq_none (by omega), List.getElem?_eq_none (by omega)]
  · rw [Nat.mul_comm] at hle ⊢
    omega

example : elementwiseProduct false ⟨[5], [1, 2, 3, 4, (5 : Int)]⟩ ⟨[2], [10, 100]⟩ = ok ⟨[5], [10, 200, 30, 400, 5]⟩ ∧
    elementwiseProduct true ⟨[5], [1, 2, 3, 4, (5 : Int)]⟩ ⟨[2], [10, 100]⟩ = abort := by decide

/-- C128 fails for the quotient element by element: a release build reads beyond the storage of a divisor with fewer elements. -/
theorem divide_short_violated [Zero α] [Div α] (l r : Ten α) (h : r.data.length < l.data.length) : elementwiseDivide false l r = ub := by
  refine ub_of ((na_check _).bind fun _ => NA.bind (NA.loop fun _ _ => (na_rd _ _).bind fun _ => (na_rd _ _).bind fun _ => na_wr _ _ _) fun _ => na_pure _) fun z hz => ?_
  simp only [elementwiseDivide, check, Bool.false_eq_true, if_false, bind_ok, bind_eq_ok] at hz
  obtain ⟨d, hd, -⟩ := hz
  obtain ⟨a, b, hab, -⟩ := loop_ok_at (fun _ => True) trivial (fun _ _ _ _ _ => trivial) hd h
  simp only [bind_eq_ok] at hab
  obtain ⟨_, -, _, hr, -⟩ := hab
  have := rd_lt hr
  omega

/-- C128 fails for the quotient element by element: a release build divides by the first elements of a divisor with more elements, whatever its shape. -/
theorem divide_silent_violated [Zero α] [Div α] (l r : Ten α) (hl : l.data.length = size l.shape) (hs : l.shape ≠ r.shape) (h : l.data.length ≤ r.data.length) :
    elementwiseDivide true l r = abort ∧ elementwiseDivide false l r = ok ⟨l.shape, l.data.zipWith (· / ·) r.data⟩ := by
  constructor
  · simp [elementwiseDivide, check, hs]
  obtain ⟨o, h1, h2, h3⟩ := loop_inv (n := l.data.length) (body := fun i (o : List α) => do
      let x ← rd l.data i
      let y ← rd r.data i
      wr o i (x / y)) (s := List.replicate (size l.shape) 0)
    (fun n o => o.length = l.data.length ∧ ∀ i, i < n → o[i]? = (l.data.zipWith (· / ·) r.data)[i]?) ⟨by simp [hl], fun i hi => by omega⟩ (by
      intro i o hi ho
      refine ⟨o.set i (l.data[i] / r.data[i]'(by omega)), ?_, by simpa using ho.1, fun j hj => ?_⟩
      · rw [rd_ok (List.getElem?_eq_getElem hi), bind_ok, rd_ok (List.getElem?_eq_getElem (by omega)), bind_ok, wr_ok (by omega)]
      · by_cases e : j = i
        · subst e
          rw [List.getElem?_set_self (by omega), List.getElem?_zipWith, List.getElem?_eq_getElem hi, List.getElem?_eq_getElem (by omega)]
        · rw [List.getElem?_set_ne (Ne.symm e), ho.2 j (by omega)])
  have ho : o = l.data.zipWith (· / ·) r.data := by
    apply List.ext_getElem?
    intro i
    by_cases hi : i < l.data.length
    · exact h3 i hi
    · rw [List.getElem?_eq_none (by omega), List.getElem?_eq_none (by simp; omega)]
  rw [elementwiseDivide, show check false (l.shape = r.shape) = ok ⟨⟩ from rfl, bind_ok, h1, ho]
  rfl

example : elementwiseDivide false ⟨[2], [10, (20 : Int)]⟩ ⟨[3], [5, 2, 1]⟩ = ok ⟨[2], [2, 10]⟩ ∧ elementwiseDivide false ⟨[3], [10, 20, (30 : Int)]⟩ ⟨[2], [5, 2]⟩ = ub := by decide

/-! ## `concatenate` -/

theorem na_concatEq [Zero α] (l r : Ten α) (axis : Nat) : NA (concatEq false l r axis) :=
  (na_check _).bind fun _ => (na_check _).bind fun _ => (na_check _).bind fun _ => (na_check _).bind fun _ => (na_rd _ _).bind fun _ => (na_rd _ _).bind fun _ =>
    NA.bind (NA.loop fun _ _ => (na_copyTo _ _ _ _ _).bind fun _ => na_copyTo _ _ _ _ _) fun _ => na_pure _

/-- What a release build does when asked to concatenate any two tensors of non-empty shapes along an axis both have, for operands that hold what their shapes say: it
returns exactly if the number of rounds fits the storage of the second operand and of the result. -/
theorem concat_release_iff [Zero α] (l r : Ten α) (axis : Nat) (hl : l.data.length = size l.shape) (hla : axis < l.shape.length) (hra : axis < r.shape.length)
    (hax : axis ≠ minusOne) (hpl : ∀ d ∈ l.shape, 0 < d) (hpr : ∀ d ∈ r.shape, 0 < d) :
    (∃ t, concatEq false l r axis = ok t) ↔
      (size (l.shape.take axis) * size (r.shape.drop axis) ≤ r.data.length ∧
       size (l.shape.take axis) * (size (l.shape.drop axis) + size (r.shape.drop axis)) ≤ size (l.shape.set axis (l.shape[axis] + r.shape[axis]))) := by
  have hT : 0 < size (l.shape.take axis) := size_pos fun d hd => hpl d (List.mem_of_mem_take hd)
  have hL : 0 < size (l.shape.drop axis) := size_pos fun d hd => hpl d (List.mem_of_mem_drop hd)
  have hR : 0 < size (r.shape.drop axis) := size_pos fun d hd => hpr d (List.mem_of_mem_drop hd)
  have hsz : l.data.length = size (l.shape.take axis) * size (l.shape.drop axis) := by rw [hl, ← size_append, List.take_append_drop]
  have hmax : max 1 (size (l.shape.take axis)) = size (l.shape.take axis) := by omega
  have hunf : concatEq false l r axis = (do
      let d ← loop (size (l.shape.take axis)) (fun idx o => do
        let o ← Data.copyTo l.data (size (l.shape.drop axis) * idx) (size (l.shape.drop axis)) o ((size (l.shape.drop axis) + size (r.shape.drop axis)) * idx)
        Data.copyTo r.data (size (r.shape.drop axis) * idx) (size (r.shape.drop axis)) o
          ((size (l.shape.drop axis) + size (r.shape.drop axis)) * idx + size (l.shape.drop axis)))
        (List.replicate (size (l.shape.set axis (l.shape[axis] + r.shape[axis]))) 0)
      pure ⟨l.shape.set axis (l.shape[axis] + r.shape[axis]), d⟩) := by
    simp only [concatEq, check, Bool.false_eq_true, if_false, bind_ok, if_neg hax, rd_ok (List.getElem?_eq_getElem hla), rd_ok (List.getElem?_eq_getElem hra),
      hmax]
  rw [hunf]
  generalize size (l.shape.take axis) = T at *
  generalize size (l.shape.drop axis) = L at *
  generalize size (r.shape.drop axis) = R at *
  generalize size (l.shape.set axis (l.shape[axis] + r.shape[axis])) = N
  constructor
  · rintro ⟨t, ht⟩
    rw [bind_eq_ok] at ht
    obtain ⟨d, hd, -⟩ := ht
    obtain ⟨a, b, hab, ha⟩ := loop_ok_at (fun o : List α => o.length = N) (by simp) (fun i a b hab ha => by
      rw [bind_eq_ok] at hab
      obtain ⟨c, h1, h2⟩ := hab
      rw [copyTo_length h2, copyTo_length h1, ha]) hd (i := T - 1) (by omega)
    rw [bind_eq_ok] at hab
    obtain ⟨c, h1, h2⟩ := hab
    have g := (copyTo_ok_iff _ _ _ _ _).mp ⟨_, h2⟩
    rw [copyTo_length h1, ha] at g
    obtain ⟨T, rfl⟩ : ∃ k, T = k + 1 := ⟨T - 1, by omega⟩
    simp only [Nat.add_sub_cancel] at g
    have e1 : (T + 1) * R = R * T + R := by ring
    have e2 : (T + 1) * (L + R) = (L + R) * T + L + R := by ring
    omega
  · rintro ⟨h1, h2⟩
    obtain ⟨d, hd, -⟩ := loop_inv (n := T) (body := fun idx (o : List α) => do
        let o ← Data.copyTo l.data (L * idx) L o ((L + R) * idx)
        Data.copyTo r.data (R * idx) R o ((L + R) * idx + L)) (s := List.replicate N 0) (fun _ o => o.length = N) (by simp) (by
      intro i o hi ho
      have e1 : (i + 1) * R ≤ T * R := Nat.mul_le_mul_right _ hi
      have e2 : (i + 1) * (L + R) ≤ T * (L + R) := Nat.mul_le_mul_right _ hi
      have e3 : (i + 1) * L ≤ T * L := Nat.mul_le_mul_right _ hi
      have f1 : (i + 1) * R = R * i + R := by ring
      have f2 : (i + 1) * (L + R) = (L + R) * i + L + R := by ring
      have f3 : (i + 1) * L = L * i + L := by ring
      obtain ⟨c, hc⟩ := (copyTo_ok_iff l.data o (L * i) L ((L + R) * i)).mpr (Or.inr (by omega))
      have hcl := copyTo_length hc
      obtain ⟨d, hd⟩ := (copyTo_ok_iff r.data c (R * i) R ((L + R) * i + L)).mpr (Or.inr (by omega))
      exact ⟨d, by rw [hc, bind_ok, hd], by rw [copyTo_length hd, hcl, ho]⟩)
    exact ⟨_, by rw [hd]; rfl⟩

/-- C128 fails for `concatenate`: where the dimensions after the axis multiply to more in the second operand than in the first, a release build writes beyond the
storage of the result. -/
theorem concat_release_violated [Zero α] (l r : Ten α) (axis : Nat) (hl : l.data.length = size l.shape) (hla : axis < l.shape.length) (hra : axis < r.shape.length)
    (hax : axis ≠ minusOne) (hpl : ∀ d ∈ l.shape, 0 < d) (hpr : ∀ d ∈ r.shape, 0 < d)
    (hgt : size (l.shape.drop (axis + 1)) < size (r.shape.drop (axis + 1))) : concatEq false l r axis = ub := by
  refine ub_of (na_concatEq l r axis) fun z hz => ?_
  have h := ((concat_release_iff l r axis hl hla hra hax hpl hpr).mp ⟨z, hz⟩).2
  have hT : 0 < size (l.shape.take axis) := size_pos fun d hd => hpl d (List.mem_of_mem_take hd)
  have hrp : 0 < r.shape[axis] := hpr _ (List.getElem_mem _)
  rw [List.set_eq_take_append_cons_drop, if_pos hla, size_append, size_cons, drop_at (List.getElem?_eq_getElem hla), drop_at (List.getElem?_eq_getElem hra),
    size_cons, size_cons] at h
  have h := Nat.le_of_mul_le_mul_left h hT
  rw [Nat.add_mul] at h
  have := Nat.mul_lt_mul_of_pos_left hgt hrp
  omega

example : concatEq false ⟨[2, 2], [1, 2, 3, (4 : Int)]⟩ ⟨[2, 3], [5, 6, 7, 8, 9, 10]⟩ 0 = ub ∧
    concatEq false ⟨[2, 3], [5, 6, 7, 8, 9, (10 : Int)]⟩ ⟨[2, 2], [1, 2, 3, 4]⟩ 0 = ok ⟨[4, 3], [5, 6, 7, 8, 9, 10, 1, 2, 3, 4, 0, 0]⟩ ∧
    concatEq true ⟨[2, 3], [5, 6, 7, 8, 9, (10 : Int)]⟩ ⟨[2, 2], [1, 2, 3, 4]⟩ 0 = abort := by decide

/-! ## reductions -/

/-- Reductions of an empty tensor: 0 in a release build, whatever the reduction (rejected in a debug build). -/
theorem empty_reductions_release (s : List Nat) [Zero α] [Add α] [Div α] [NatCast α] [LT α] [DecidableLT α] (lo hi : α) :
    sumAll false (⟨s, []⟩ : Ten α) = ok 0 ∧ meanAll false (⟨s, []⟩ : Ten α) = ok 0 ∧ maxAll false lo ⟨s, []⟩ = ok 0 ∧ minAll false hi ⟨s, []⟩ = ok 0 ∧
    sumAll true (⟨s, []⟩ : Ten α) = abort ∧ meanAll true (⟨s, []⟩ : Ten α) = abort ∧ maxAll true lo ⟨s, []⟩ = abort ∧ minAll true hi ⟨s, []⟩ = abort :=
  ⟨rfl, rfl, rfl, rfl, rfl, rfl, rfl, rfl⟩

example : meanAll false (⟨[0], []⟩ : Ten Int) = ok 0 := rfl

/-! ## tensors and their shapes -/

theorem reshape_wipes [Zero α] {h : Heap α} {t : Tn} {x : List α} {s : List Nat} (ht : h[t.loc]? = some x) (hs : s ≠ []) (hm : s.getLast? ≠ some minusOne)
    (hne : x.length ≠ size s) : reshape h t s = ok (⟨s, t.loc⟩, h.set t.loc (List.replicate (size s) 0)) := by
  unfold reshape
  rw [rd_ok ht, bind_ok, require_true hs, bind_ok]
  dsimp only
  rw [if_neg hm, if_pos hne, resize, rd_ok ht, bind_ok, wr_ok (List.getElem?_eq_some_iff.mp ht).1, bind_ok, vecResize, if_neg (Ne.symm hne)]
  rfl

/-- C128 fails for `squeeze( t, axis )` with a dimension other than 1: a release build replaces the contents of `t` itself by zeros - fewer than its shape says - and
returns a tensor that shares them. -/
theorem squeeze_wipes_violated [Zero α] (h : Heap α) (t : Tn) (axis n : Nat) (x : List α) (ht : h[t.loc]? = some x) (hx : x.length = size t.shape)
    (hn : t.shape[axis]? = some n) (hn1 : 1 < n) (hpos : ∀ d ∈ t.shape, 0 < d) (hrank : 2 ≤ t.shape.length) (hm : minusOne ∉ t.shape) :
    squeezeAxis true h t axis = abort ∧
    ∃ h', squeezeAxis false h t axis = ok (⟨t.shape.eraseIdx axis, t.loc⟩, h') ∧
      contents h' t = some (List.replicate (size (t.shape.eraseIdx axis)) 0) ∧ size (t.shape.eraseIdx axis) * n = size t.shape ∧
      size (t.shape.eraseIdx axis) < size t.shape := by
  have hal : axis < t.shape.length := (List.getElem?_eq_some_iff.mp hn).1
  have hsz : size (t.shape.eraseIdx axis) * n = size t.shape := by
    conv_rhs => rw [split_at hn, size_append, size_cons]
    rw [List.eraseIdx_eq_take_drop_succ, size_append]
    ring
  have hp : 0 < size (t.shape.eraseIdx axis) := size_pos fun d hd => hpos d (List.mem_of_mem_eraseIdx hd)
  have hlt : size (t.shape.eraseIdx axis) < size t.shape := by
    rw [← hsz]
    have := Nat.mul_lt_mul_of_pos_left hn1 hp
    omega
  have hw := reshape_wipes (s := t.shape.eraseIdx axis) ht (fun e => by
      have := congrArg List.length e
      rw [List.length_eraseIdx_of_lt hal] at this
      simp at this
      omega) (fun e => hm (List.mem_of_mem_eraseIdx (List.mem_of_getLast? e))) (by omega)
  refine ⟨?_, h.set t.loc (List.replicate (size (t.shape.eraseIdx axis)) 0), ?_, ?_, hsz, hlt⟩
  · simp only [squeezeAxis, check, if_true, assert_true hal, bind_ok, rd_ok hn, assert_false (show ¬ n = 1 by omega), bind_abort]
  · simp only [squeezeAxis, check, Bool.false_eq_true, if_false, bind_ok, rd_ok hn, hw]
  · rw [contents, List.getElem?_set_self (List.getElem?_eq_some_iff.mp ht).1]

example : squeezeAxis false [[1, 2, 3, (4 : Int)]] ⟨[2, 2], 0⟩ 0 = ok (⟨[2], 0⟩, [[0, 0]]) ∧ squeezeAxis true [[1, 2, 3, (4 : Int)]] ⟨[2, 2], 0⟩ 0 = abort := by decide

/-- C128 fails for the operator `reshape`: if the new shape does not divide the number of elements, evaluating it in a release build replaces the contents of its
argument - the value of a variable, say - by zeros, and fewer of them. -/
theorem reshape_wipes_violated [Zero α] (batch : Bool) (h : Heap α) (t : Tn) (new : List Nat) (x : List α) (ht : h[t.loc]? = some x) (hne : new ≠ [])
    (hpos : ∀ d ∈ new, 0 < d) (hm : new.getLast? ≠ some minusOne) (hd : ¬ size new ∣ x.length) :
    reshapeOp true batch h t new = abort ∧
    ∃ t' h' n, reshapeOp false batch h t new = ok (t', h') ∧ contents h' t = some (List.replicate n 0) ∧ contents h' t' = contents h' t ∧ n ≠ x.length := by
  have hp := size_pos hpos
  have hmul : x.length / size new * size new ≠ x.length := fun e => hd ⟨_, by rw [Nat.mul_comm]; exact e.symm⟩
  have hloc := (List.getElem?_eq_some_iff.mp ht).1
  constructor
  · simp only [reshapeOp, sizeT, rd_ok ht, bind_ok, pure_eq, require_true (show size new ≠ 0 by omega), check, if_true, assert_false hmul, bind_abort]
  · cases batch with
    | false =>
      have hne' : x.length ≠ size new := fun e => hd ⟨1, by omega⟩
      refine ⟨⟨new, t.loc⟩, h.set t.loc (List.replicate (size new) 0), size new, ?_, ?_, rfl, Ne.symm hne'⟩
      · simp only [reshapeOp, sizeT, rd_ok ht, bind_ok, pure_eq, require_true (show size new ≠ 0 by omega), check, Bool.false_eq_true, if_false, if_true,
          reshape_wipes ht hne hm hne']
      · rw [contents, List.getElem?_set_self hloc]
    | true =>
      have hw := reshape_wipes (s := x.length / size new :: new) ht (by simp) (by rwa [List.getLast?_cons_of_ne_nil hne]) (by rw [size_cons]; exact Ne.symm hmul)
      refine ⟨⟨x.length / size new :: new, t.loc⟩, h.set t.loc (List.replicate (size (x.length / size new :: new)) 0), _, ?_, ?_, rfl, hmul⟩
      · simp only [reshapeOp, sizeT, rd_ok ht, bind_ok, pure_eq, require_true (show size new ≠ 0 by omega), check, Bool.false_eq_true, if_false,
          Bool.true_eq_false, hw]
      · rw [contents, List.getElem?_set_self hloc]; rfl

example : reshapeOp false true [[1, 2, 3, 4, 5, 6, (7 : Int)]] ⟨[7], 0⟩ [2] = ok (⟨[3, 2], 0⟩, [[0, 0, 0, 0, 0, 0]]) ∧
    reshapeOp true true [[1, 2, 3, 4, 5, 6, (7 : Int)]] ⟨[7], 0⟩ [2] = abort := by decide

/-- C128 fails for `tensor{ shape, {values} }` with too few values: a release build makes a tensor whose last element is beyond its storage. -/
theorem init_short_violated (h : Heap α) (s : List Nat) (vs : List α) (hl : vs.length < size s) :
    newInit true h s vs = abort ∧ newInit false h s vs = ok (⟨s, h.length⟩, h ++ [vs]) ∧
    getT (h ++ [vs]) ⟨s, h.length⟩ (size s - 1) = ub := by
  refine ⟨?_, rfl, ?_⟩
  · simp only [newInit, check, if_true, assert_false (show ¬ vs.length = size s by omega), bind_abort]
  · simp only [getT]
    rw [rd_ok (v := vs) (by simp), bind_ok, rd_ub (by omega)]

/-- C128 fails for `as_scalar()`: a release build returns the first element of any tensor that has one, and reads beyond an empty one. -/
theorem asScalar_violated (h : Heap α) (t : Tn) (x : List α) (ht : h[t.loc]? = some x) (hn : x.length ≠ 1) :
    asScalar true h t = abort ∧ asScalar false h t = (match x with | [] => ub | v :: _ => ok v) := by
  constructor
  · simp only [asScalar, sizeT, rd_ok ht, bind_ok, pure_eq, check, if_true, assert_false hn, bind_abort]
  · simp only [asScalar, sizeT, getT, rd_ok ht, bind_ok, pure_eq, check, Bool.false_eq_true, if_false]
    cases x <;> rfl

example : asScalar false [[3, (4 : Int)]] ⟨[2], 0⟩ = ok 3 ∧ asScalar false [[]] ⟨[0], 0⟩ = (ub : Res Int) ∧
    newInit false [] [2, 2] [1, 2, (3 : Int)] = ok (⟨[2, 2], 0⟩, [[1, 2, 3]]) := by decide

end Verif.Release
