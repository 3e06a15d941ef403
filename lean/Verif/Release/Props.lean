import Verif.Release.Lemmas

/-!
# C128: what the checks protect in a release build
-/
namespace Verif.Release
open Verif Res View Tensor

variable {α : Type}

/-! ## the debug build is the one modelled elsewhere -/

theorem broadcastGo_debug [Zero α] (fuel : Nat) (h : Heap α) (t : Tn) (new : List Nat) :
    broadcastGo true fuel h t new = Tensor.broadcastGo fuel h t new := by
  induction fuel generalizing h t with
  | zero => rfl
  | succ fuel ih =>
    unfold broadcastGo Tensor.broadcastGo
    simp only [ih]
    rfl

theorem multiply2_debug [Zero α] [Add α] [Mul α] (h : Heap α) (l r ans : Tn) : multiply2 true h l r ans = Gemm.multiply2 h l r ans := by
  unfold multiply2 Gemm.multiply2
  by_cases hr : r.shape.length = 2
  · obtain ⟨r0, r1, e⟩ := List.length_eq_two.mp hr
    have hc : check true (r.shape.length = 2) = ok ⟨⟩ := by simp [check, hr]
    rw [hc, assert_true hr, bind_ok, bind_ok]
    match l.shape, r.shape, e with
    | [], _, rfl => rfl
    | [_], _, rfl => rfl
    | [l0, l1], _, rfl => rfl
    | _ :: _ :: _ :: _, _, rfl => rfl
  · have hc : check true (r.shape.length = 2) = abort := by simp [check, hr]
    rw [hc, assert_false hr]; rfl

theorem multiplyR_debug [Zero α] [Add α] [Mul α] (h : Heap α) (l r ans : Tn) : multiplyR true h l r ans = Gemm.multiplyR h l r ans := by
  unfold multiplyR Gemm.multiplyR
  simp only [multiply2_debug]

/-- With `dbg = true` every function is the one of the other models. -/
theorem debug_is_model [Zero α] [Add α] [Mul α] :
    (∀ (h : Heap α) s vs, newInit true h s vs = Tensor.newInit h s vs) ∧
    (∀ f (h : Heap α) t o, opAssign true f h t o = Tensor.opAssign f h t o) ∧
    (∀ (h : Heap α) t, asScalar true h t = Tensor.asScalar h t) ∧
    (∀ f (h : Heap α) l r, addLike true f h l r = Tensor.addLike f h l r) ∧
    (∀ (h : Heap α) l r, multiply true h l r = Gemm.multiply h l r) ∧
    (∀ l r : Ten α, elementwiseProduct true l r = Data.elementwiseProduct l r) ∧
    (∀ (l r : Ten α) a, concatEq true l r a = Data.concatEq l r a) ∧
    (∀ t : Ten α, sumAll true t = Data.sumAll t) := by
  refine ⟨fun _ _ _ => rfl, fun _ _ _ _ => rfl, fun _ _ => rfl, fun f h l r => ?_, fun h l r => ?_, fun _ _ => rfl, fun _ _ _ => rfl, fun _ => rfl⟩
  · have hs : broadcastShape true l.shape r.shape = Tensor.broadcastShape l.shape r.shape := rfl
    simp only [addLike, Tensor.addLike, broadcastTensor, Tensor.broadcastTensor, broadcastGo_debug, hs]
  · unfold multiply Gemm.multiply
    simp only [multiplyR_debug]

theorem debug_is_model_div [Zero α] [Div α] (l r : Ten α) : elementwiseDivide true l r = Data.elementwiseDivide l r := rfl

theorem debug_is_model_mean [Zero α] [Add α] [Div α] [NatCast α] (t : Ten α) : meanAll true t = Data.meanAll t := by
  unfold meanAll Data.meanAll
  by_cases h : t.data.length = 0
  · rw [show check true (t.data.length ≠ 0) = abort by simp [check, h], assert_false (by simp [h])]; rfl
  · rw [if_neg h]; rfl

theorem debug_is_model_max [Zero α] [LT α] [DecidableLT α] (m : α) (t : Ten α) : maxAll true m t = Data.maxAll m t ∧ minAll true m t = Data.minAll m t := by
  unfold maxAll Data.maxAll minAll Data.minAll
  by_cases h : t.data.length = 0
  · rw [show check true (t.data.length ≠ 0) = abort by simp [check, h], assert_false (by simp [h])]; exact ⟨rfl, rfl⟩
  · rw [if_neg h, if_neg h]; exact ⟨rfl, rfl⟩

/-! ## accepted calls do the same in both builds -/

theorem le_broadcastDim (a b : List Nat) (i : Nat) (s : List Nat) : Le (broadcastDim true a b i s) (broadcastDim false a b i s) :=
  (Le.refl _).bind fun _ => (Le.refl _).bind fun _ => Le.ite (Le.refl _) (Le.ite (Le.refl _) ((le_check _).bind fun _ => Le.refl _))

theorem le_broadcastShape (a b : List Nat) : Le (broadcastShape true a b) (broadcastShape false a b) :=
  Le.ite (Le.refl _) ((Le.loop fun _ _ => le_broadcastDim _ _ _ _).bind fun _ => Le.refl _)

theorem le_broadcastGo [Zero α] (fuel : Nat) (h : Heap α) (t : Tn) (new : List Nat) : Le (broadcastGo true fuel h t new) (broadcastGo false fuel h t new) := by
  induction fuel generalizing h t with
  | zero => exact Le.refl _
  | succ fuel ih =>
    refine Le.ite (Le.refl _) ((Le.refl _).bind fun r => Le.ite (Le.refl _) ((Le.refl _).bind fun od => ?_))
    cases od with
    | none => exact Le.refl _
    | some d =>
      exact (Le.refl _).bind fun u => (le_check _).bind fun _ => (Le.refl _).bind fun _ => (Le.refl _).bind fun _ => (Le.refl _).bind fun _ => ih _ _

theorem le_multiply2 [Zero α] [Add α] [Mul α] (h : Heap α) (l r ans : Tn) : Le (multiply2 true h l r ans) (multiply2 false h l r ans) := by
  refine (le_check _).bind fun _ => ?_
  match l.shape with
  | [] => exact (le_check _).bind fun _ => Le.refl _
  | [_] => exact (le_check _).bind fun _ => Le.refl _
  | [_, _] =>
    exact (Le.refl _).bind fun _ => (Le.refl _).bind fun _ => (Le.refl _).bind fun _ => (Le.refl _).bind fun _ => (Le.refl _).bind fun _ => (Le.refl _).bind fun _ =>
      Le.bind ((le_check _).bind fun _ => (le_check _).bind fun _ => (le_check _).bind fun _ => Le.refl _) fun _ => Le.refl _
  | _ :: _ :: _ :: _ => exact (le_check _).bind fun _ => Le.refl _

theorem le_multiplyR [Zero α] [Add α] [Mul α] (h : Heap α) (l r ans : Tn) : Le (multiplyR true h l r ans) (multiplyR false h l r ans) :=
  Le.ite ((Le.refl _).bind fun _ => (Le.refl _).bind fun _ => le_multiply2 _ _ _ _) (le_multiply2 _ _ _ _)

/-- C128, for the functions on tensors: a call that is not rejected in a debug build does the same in a release build - the same result, or the same undefined
behaviour. -/
theorem accepted_same_partial [Zero α] [Add α] [Mul α] :
    (∀ (h : Heap α) s vs, newInit true h s vs ≠ abort → newInit false h s vs = newInit true h s vs) ∧
    (∀ f (h : Heap α) t o, opAssign true f h t o ≠ abort → opAssign false f h t o = opAssign true f h t o) ∧
    (∀ (h : Heap α) t, asScalar true h t ≠ abort → asScalar false h t = asScalar true h t) ∧
    (∀ f (h : Heap α) l r, addLike true f h l r ≠ abort → addLike false f h l r = addLike true f h l r) ∧
    (∀ (h : Heap α) l r, multiply true h l r ≠ abort → multiply false h l r = multiply true h l r) ∧
    (∀ l r : Ten α, elementwiseProduct true l r ≠ abort → elementwiseProduct false l r = elementwiseProduct true l r) ∧
    (∀ (l r : Ten α) a, concatEq true l r a ≠ abort → concatEq false l r a = concatEq true l r a) ∧
    (∀ t : Ten α, sumAll true t ≠ abort → sumAll false t = sumAll true t) ∧
    (∀ (h : Heap α) t a, squeezeAxis true h t a ≠ abort → squeezeAxis false h t a = squeezeAxis true h t a) ∧
    (∀ b (h : Heap α) t s, reshapeOp true b h t s ≠ abort → reshapeOp false b h t s = reshapeOp true b h t s) := by
  have key : ∀ {β : Type} {x y : Res β}, Le x y → x ≠ abort → y = x := fun h hx => (h.resolve_left hx).symm
  refine ⟨fun _ _ _ => key ((le_check _).bind fun _ => Le.refl _), fun _ _ _ _ => key ((le_check _).bind fun _ => Le.refl _),
    fun _ _ => key ((Le.refl _).bind fun _ => (le_check _).bind fun _ => Le.refl _),
    fun _ _ _ _ => key ((le_broadcastShape _ _).bind fun _ => (le_broadcastGo _ _ _ _).bind fun _ => (le_broadcastGo _ _ _ _).bind fun _ => Le.refl _),
    fun _ _ _ => key (Le.ite ((Le.refl _).bind fun _ => (Le.refl _).bind fun _ => le_multiplyR _ _ _ _) (le_multiplyR _ _ _ _)),
    fun _ _ => key (Le.ite ((Le.refl _).bind fun _ => (le_check _).bind fun _ => Le.refl _) ((Le.refl _).bind fun _ => (le_check _).bind fun _ => Le.refl _)),
    fun _ _ _ => key ((le_check _).bind fun _ => (le_check _).bind fun _ => (le_check _).bind fun _ => (le_check _).bind fun _ => Le.refl _),
    fun _ => key ((le_check _).bind fun _ => Le.refl _),
    fun _ _ _ => key ((le_check _).bind fun _ => (Le.refl _).bind fun _ => (le_check _).bind fun _ => Le.refl _),
    fun _ _ _ _ => key ((Le.refl _).bind fun _ => (Le.refl _).bind fun _ => (le_check _).bind fun _ => Le.ite ((le_check _).bind fun _ => Le.refl _) (Le.refl _))⟩

/-- The calls compared are met in practice: a sum with broadcasting, a matrix product. -/
example : addLike true (· + ·) [[1, 2, 3, 4], [10, (20 : Int)]] ⟨[2, 2], 0⟩ ⟨[2], 1⟩ ≠ abort ∧
    addLike false (· + ·) [[1, 2, 3, 4], [10, (20 : Int)]] ⟨[2, 2], 0⟩ ⟨[2], 1⟩ = ok (⟨[2, 2], 0⟩, [[11, 22, 13, 24], [10, 20], [10, 20, 10, 20]]) ∧
    multiply false [[1, 2, 3, 4], [1, (1 : Int)]] ⟨[2, 2], 0⟩ ⟨[2, 1], 1⟩ = ok (⟨[2, 1], 2⟩, [[1, 2, 3, 4], [1, 1], [3, 7]]) := by decide

/-! ## no call is rejected in a release build -/

theorem na_broadcastShape (a b : List Nat) : NA (broadcastShape false a b) :=
  NA.ite (na_ok _) ((NA.loop fun _ _ => (na_dimAt _ _).bind fun _ => (na_dimAt _ _).bind fun _ =>
    NA.ite (na_pure _) (NA.ite (na_pure _) ((na_check _).bind fun _ => na_pure _))).bind fun _ => na_pure _)

theorem na_broadcastGo [Zero α] (fuel : Nat) (h : Heap α) (t : Tn) (new : List Nat) : NA (broadcastGo false fuel h t new) := by
  induction fuel generalizing h t with
  | zero => exact na_ub
  | succ fuel ih =>
    refine NA.ite (na_ok _) ((na_padTensor _ _ _).bind fun r => NA.ite (na_pure _) ((na_findDim _ _ _).bind fun od => ?_))
    cases od with
    | none => exact na_ub
    | some d => exact (na_rd _ _).bind fun u => (na_check _).bind fun _ => (na_rd _ _).bind fun _ => (na_rd _ _).bind fun _ => (na_expandKernel _ _ _ _ _).bind fun _ => ih _ _

theorem na_addLike [Zero α] (f : α → α → α) (h : Heap α) (l r : Tn) : NA (addLike false f h l r) :=
  (na_broadcastShape _ _).bind fun _ => (na_broadcastGo _ _ _ _).bind fun _ => (na_broadcastGo _ _ _ _).bind fun _ => (na_zipInto _ _ _ _).bind fun _ => na_pure _

theorem na_multiply2 [Zero α] [Add α] [Mul α] (h : Heap α) (l r ans : Tn) : NA (multiply2 false h l r ans) := by
  refine (na_check _).bind fun _ => ?_
  match l.shape with
  | [] => exact (na_check _).bind fun _ => na_pure _
  | [_] => exact (na_check _).bind fun _ => na_pure _
  | [_, _] =>
    exact (na_rd _ _).bind fun _ => (na_rd _ _).bind fun _ => (na_resize _ _ _).bind fun _ => (na_rd _ _).bind fun _ => (na_rd _ _).bind fun _ => (na_rd _ _).bind fun _ =>
      NA.bind ((na_check _).bind fun _ => (na_check _).bind fun _ => (na_check _).bind fun _ => na_gemmCpu _ _ _ _ _ _ _ _) fun _ => (na_wr _ _ _).bind fun _ => na_pure _
  | _ :: _ :: _ :: _ => exact (na_check _).bind fun _ => na_pure _

theorem na_multiplyR [Zero α] [Add α] [Mul α] (h : Heap α) (l r ans : Tn) : NA (multiplyR false h l r ans) :=
  NA.ite ((na_sizeT _ _).bind fun _ => (na_reshape _ _ _).bind fun _ => na_multiply2 _ _ _ _) (na_multiply2 _ _ _ _)

theorem na_multiply [Zero α] [Add α] [Mul α] (h : Heap α) (l r : Tn) : NA (multiply false h l r) :=
  NA.ite ((na_sizeT _ _).bind fun _ => (na_reshape _ _ _).bind fun _ => na_multiplyR _ _ _ _) (na_multiplyR _ _ _ _)

theorem na_ewpGo [Mul α] (l r : Ten α) : NA (ewpGo false l r) :=
  (na_require _).bind fun _ => (na_check _).bind fun _ => NA.bind (NA.loop fun _ _ => NA.loop fun _ _ => (na_rd _ _).bind fun _ => (na_rd _ _).bind fun _ => na_wr _ _ _)
    fun _ => na_pure _

/-- C128 fails, generally: no call whatever is stopped by a check in a release build; what a debug build rejects returns, or is undefined. -/
theorem release_never_stops_violated [Zero α] [Add α] [Mul α] :
    (∀ (h : Heap α) s vs, newInit false h s vs ≠ abort) ∧ (∀ f (h : Heap α) t o, opAssign false f h t o ≠ abort) ∧
    (∀ (h : Heap α) t, asScalar false h t ≠ abort) ∧ (∀ f (h : Heap α) l r, addLike false f h l r ≠ abort) ∧
    (∀ (h : Heap α) l r, multiply false h l r ≠ abort) ∧ (∀ l r : Ten α, elementwiseProduct false l r ≠ abort) ∧
    (∀ (l r : Ten α) a, concatEq false l r a ≠ abort) ∧ (∀ t : Ten α, sumAll false t ≠ abort) ∧
    (∀ (h : Heap α) t a, squeezeAxis false h t a ≠ abort) ∧ (∀ b (h : Heap α) t s, reshapeOp false b h t s ≠ abort) := by
  refine ⟨fun _ _ _ => (na_check _).bind fun _ => na_pure _, fun _ _ _ _ => (na_check _).bind fun _ => na_zipInto _ _ _ _,
    fun _ _ => (na_sizeT _ _).bind fun _ => (na_check _).bind fun _ => na_getT _ _ _, fun _ _ _ _ => na_addLike _ _ _ _, fun _ _ _ => na_multiply _ _ _,
    fun _ _ => NA.ite (na_ewpGo _ _) (na_ewpGo _ _),
    fun _ _ _ => (na_check _).bind fun _ => (na_check _).bind fun _ => (na_check _).bind fun _ => (na_check _).bind fun _ => (na_rd _ _).bind fun _ => (na_rd _ _).bind fun _ =>
      NA.bind (NA.loop fun _ _ => (na_copyTo _ _ _ _ _).bind fun _ => na_copyTo _ _ _ _ _) fun _ => na_pure _,
    fun _ => (na_check _).bind fun _ => NA.loop fun _ _ => (na_rd _ _).bind fun _ => na_pure _,
    fun _ _ _ => (na_check _).bind fun _ => (na_rd _ _).bind fun _ => (na_check _).bind fun _ => na_reshape _ _ _,
    fun _ _ _ _ => (na_sizeT _ _).bind fun _ => (na_require _).bind fun _ => (na_check _).bind fun _ => NA.ite ((na_check _).bind fun _ => na_reshape _ _ _) (na_reshape _ _ _)⟩

/-! ## `a + b` -/

theorem broadcastShape_release (a b : List Nat) :
    ∃ c, broadcastShape false a b = ok c ∧ c.length = max a.length b.length ∧ ∀ k, dimR c k = if dimR a k = 1 then dimR b k else dimR a k := by
  unfold broadcastShape
  by_cases e : a = b
  · subst e
    exact ⟨a, by simp, by simp, fun k => by simp⟩
  · have hl : ∀ n, loop n (broadcastDim false a b) [] = ok ((List.range n).map (fun k => if dimR a k = 1 then dimR b k else dimR a k)) := by
      intro n
      induction n with
      | zero => rfl
      | succ n ih =>
        rw [loop_succ, ih, bind_ok]
        simp only [broadcastDim, readDim, bind_ok, check, Bool.false_eq_true, if_false, List.range_succ, List.map_append, List.map_cons, List.map_nil]
        by_cases h1 : dimR a n = 1
        · simp [h1]
        · simp [h1]
    rw [if_neg e, hl]
    refine ⟨_, rfl, by simp, fun k => ?_⟩
    by_cases hk : k < max a.length b.length
    · exact dimR_reverse_map _ k hk
    · rw [dimR_of_ge (by simpa using hk), dimR_of_ge (by omega), dimR_of_ge (by omega)]; rfl

theorem size_pos {s : List Nat} (h : ∀ d ∈ s, 0 < d) : 0 < size s := by
  induction s with
  | nil => simp
  | cons n s ih => exact Nat.mul_pos (h n (by simp)) (ih fun d hd => h d (by simp [hd]))

theorem go_fits [Zero α] {new : List Nat} (hnew : ∀ d ∈ new, 0 < d) : ∀ (fuel : Nat) (h : Heap α) (t : Tn) (z : Tn × Heap α), t.shape.length ≤ new.length →
    (∀ d ∈ t.shape, 0 < d) → broadcastGo false fuel h t new = ok z → ∀ (j v : Nat), (padShape t.shape new)[j]? = some v → new[j]? = some v ∨ v = 1 := by
  intro fuel
  induction fuel with
  | zero => intro h t z _ _ e; cases e
  | succ fuel ih =>
    intro h t z hl hpos e j v hj
    by_contra hbad
    rw [not_or] at hbad
    obtain ⟨hn, hv⟩ := hbad
    have hpl : (padShape t.shape new).length = new.length := by simp [padShape]; omega
    have hppos : ∀ d ∈ padShape t.shape new, 0 < d := by
      intro d hd
      rw [padShape, List.mem_append] at hd
      rcases hd with hd | hd
      · rw [(List.mem_replicate.mp hd).2]; omega
      · exact hpos d hd
    have hne : padShape t.shape new ≠ new := by rintro e; rw [e] at hj; exact hn hj
    have hne' : t.shape ≠ new := by
      rintro e
      rw [padShape_eq (by rw [e])] at hne
      exact hne e
    have hjl : j < new.length := by rw [← hpl]; exact (List.getElem?_eq_some_iff.mp hj).1
    obtain ⟨k, hk1, hk2, hk3, -⟩ := findDim_some (d := (padShape t.shape new).length) (upd := padShape t.shape new) (new := new) (Nat.le_refl _) (by omega)
      ⟨j, by omega, by rw [hj]; exact fun c => hn c.symm⟩
    simp only [broadcastGo, if_neg hne', if_neg hne, hk1, bind_ok, bind_eq_ok] at e
    obtain ⟨r, -, u, hu, _, -, x, hx, src, -, out, hout, e⟩ := e
    rw [rd_eq_ok] at hu hx
    have hx0 : 0 < x := hnew x (List.mem_of_getElem? hx)
    have hu0 : 0 < u := hppos u (List.mem_of_getElem? hu)
    have hH : 0 < size ((padShape t.shape new).take k) := size_pos fun d hd => hppos d (List.mem_of_mem_take hd)
    have hT' : 0 < size ((padShape t.shape new).drop (k + 1)) := size_pos fun d hd => hppos d (List.mem_of_mem_drop hd)
    have hdrop := drop_at hu
    have hlen := expandKernel_ok_len hout hH hx0 (by rw [hdrop, size_cons]; exact Nat.mul_pos hu0 hT')
    rw [List.length_replicate, hdrop, size_cons, List.set_eq_take_append_cons_drop, if_pos (List.getElem?_eq_some_iff.mp hu).1, size_append, size_cons] at hlen
    have hu1 : u = 1 := by
      by_contra hc
      have h2 : 2 ≤ u := by omega
      have hp : 0 < size ((padShape t.shape new).take k) * x * size ((padShape t.shape new).drop (k + 1)) := Nat.mul_pos (Nat.mul_pos hH hx0) hT'
      have h3 : size ((padShape t.shape new).take k) * x * (u * size ((padShape t.shape new).drop (k + 1))) =
          u * (size ((padShape t.shape new).take k) * x * size ((padShape t.shape new).drop (k + 1))) := by ring
      have h4 : u * (size ((padShape t.shape new).take k) * x * size ((padShape t.shape new).drop (k + 1))) ≤
          size ((padShape t.shape new).take k) * x * size ((padShape t.shape new).drop (k + 1)) := by
        rw [← h3]
        exact Nat.le_trans hlen (Nat.le_of_eq (by ring))
      have := Nat.mul_le_mul_right (size ((padShape t.shape new).take k) * x * size ((padShape t.shape new).drop (k + 1))) h2
      omega
    subst hu1
    have hkj : k ≠ j := by
      rintro rfl
      rw [hj] at hu
      exact hv (Option.some.inj hu)
    have hsl : ((padShape t.shape new).set k x).length = new.length := by simp; omega
    refine (ih _ _ _ (by simp only [hsl]; exact Nat.le_refl _) ?_ e j v ?_).elim hn hv
    · intro d hd
      rcases List.mem_or_eq_of_mem_set hd with hd | rfl
      · exact hppos d hd
      · exact hx0
    · rw [padShape_eq (by simp only [hsl]; exact Nat.le_refl _)]
      dsimp only
      rw [List.getElem?_set_ne hkj, hj]

/-- C128 fails for `a + b` and `a - b`: for operands without empty dimensions whose shapes do not fit, a release build writes beyond the storage it has allocated,
whatever the operands hold. -/
theorem add_release_violated [Zero α] (f : α → α → α) (h : Heap α) (l r : Tn) (hl : ∀ d ∈ l.shape, 0 < d) (hr : ∀ d ∈ r.shape, 0 < d)
    (hc : ¬ Compatible l.shape r.shape) : addLike false f h l r = ub := by
  refine ub_of (na_addLike _ _ _ _) fun z hz => hc ?_
  obtain ⟨c, hcs, hcl, hcd⟩ := broadcastShape_release l.shape r.shape
  have hpos : ∀ {s : List Nat}, (∀ d ∈ s, 0 < d) → ∀ k, 0 < dimR s k := by
    intro s hs k
    by_cases hk : k < s.length
    · rw [dimR_of_lt hk]; exact hs _ (List.getElem_mem _)
    · rw [dimR_of_ge (by omega)]; omega
  have hcpos : ∀ d ∈ c, 0 < d := by
    intro d hd
    obtain ⟨i, hi, rfl⟩ := List.getElem_of_mem hd
    rw [dimR_getElem hi, hcd]
    split
    · exact hpos hr _
    · exact hpos hl _
  simp only [addLike, hcs, bind_ok, bind_eq_ok] at hz
  obtain ⟨l', -, r', hr', -⟩ := hz
  intro k
  by_cases hk : k < r.shape.length
  · have := go_fits hcpos _ _ _ _ (by omega) hr hr' (c.length - 1 - k) (dimR r.shape k) (by
      rw [padShape, List.getElem?_append_right (by simp; omega), List.length_replicate, dimR_of_lt hk]
      rw [show c.length - 1 - k - (c.length - r.shape.length) = r.shape.length - 1 - k by omega]
      exact List.getElem?_eq_getElem (by omega))
    rcases this with h1 | h1
    · rw [List.getElem?_eq_getElem (by omega)] at h1
      have h2 : dimR c k = dimR r.shape k := by rw [dimR_of_lt (s := c) (by omega)]; exact Option.some.inj h1
      rw [hcd] at h2
      split at h2
      · exact Or.inr (Or.inl ‹_›)
      · exact Or.inl h2
    · exact Or.inr (Or.inr h1)
  · exact Or.inr (Or.inr (dimR_of_ge (by omega)))

example : addLike false (· + ·) [[1, 2, 3, 4], [10, 20, (30 : Int)]] ⟨[2, 2], 0⟩ ⟨[3], 1⟩ = ub :=
  add_release_violated _ _ _ _ (by decide) (by decide) fun h => by
    have := h 0
    simp [dimR] at this

/-! ## `a += b` -/

/-- C128 fails for `a += b` (`-=`, `*=`, `/=`) with different shapes: if `b` has at least as many elements, a release build combines the first elements of `b` with
those of `a` in the order they are stored. -/
theorem opAssign_silent_violated (f : α → α → α) (h : Heap α) (t o : Tn) (x y : List α) (ht : h[t.loc]? = some x) (ho : h[o.loc]? = some y)
    (hs : t.shape ≠ o.shape) (hl : x.length ≤ y.length) :
    opAssign true f h t o = abort ∧
    ∃ b, opAssign false f h t o = ok (h.set t.loc b) ∧ b.length = x.length ∧ ∀ (i : Nat) (u v : α), x[i]? = some u → y[i]? = some v → b[i]? = some (f u v) :=
  ⟨by simp [opAssign, check, hs], zipInto_spec ht ho hl⟩

/-- C128 fails for `a += b` with fewer elements in `b`: a release build reads beyond the storage of `b`. -/
theorem opAssign_short_violated (f : α → α → α) (h : Heap α) (t o : Tn) (x y : List α) (ht : h[t.loc]? = some x) (ho : h[o.loc]? = some y)
    (hl : y.length < x.length) : opAssign false f h t o = ub := by
  refine ub_of ((na_check _).bind fun _ => na_zipInto _ _ _ _) fun z hz => ?_
  simp only [opAssign, check, Bool.false_eq_true, if_false, bind_ok, zipInto, sizeT, rd_ok ht, pure_eq] at hz
  obtain ⟨a, b, hab, ha⟩ := loop_ok_at (fun g => SameLens h g) (SameLens.refl h) (fun i a b hab hP => by
    simp only [bind_eq_ok] at hab
    obtain ⟨_, _, _, _, hab⟩ := hab
    exact hP.trans (setT_sameLens hab)) hz hl
  simp only [bind_eq_ok, getT] at hab
  obtain ⟨_, _, _, ⟨c, hc, hr⟩, -⟩ := hab
  have h1 := ha.get o.loc
  rw [rd_eq_ok] at hc
  rw [hc, ho] at h1
  have := rd_lt hr
  simp at h1
  omega

example : opAssign false (· + ·) [[1, 2], [10, 20, 30, (40 : Int)]] ⟨[2], 0⟩ ⟨[2, 2], 1⟩ = ok [[11, 22], [10, 20, 30, 40]] ∧
    opAssign true (· + ·) [[1, 2], [10, 20, 30, (40 : Int)]] ⟨[2], 0⟩ ⟨[2, 2], 1⟩ = abort ∧
    opAssign false (· + ·) [[1, 2], [10, 20, 30, (40 : Int)]] ⟨[2, 2], 1⟩ ⟨[2], 0⟩ = ub := by decide

/-! ## `a * b` -/

theorem multiply2_release [Zero α] [Add α] [Mul α] {h : Heap α} {l r : Tn} {m n n' k : Nat} {x y : List α} (hx : h[l.loc]? = some x) (hy : h[r.loc]? = some y)
    (sl : l.shape = [m, n]) (sr : r.shape = [n', k]) :
    multiply2 false (h ++ [[]]) l r ⟨[], h.length⟩ = (do
      let z ← Gemm.gemmCpu x false y false m n k (vecResize [] (size [m, k]))
      pure (⟨[m, k], h.length⟩, h ++ [z])) := by
  obtain ⟨ls, ll⟩ := l
  obtain ⟨rs, rl⟩ := r
  dsimp only at sl sr hx hy
  subst sl sr
  have hlx : ll < h.length := (List.getElem?_eq_some_iff.mp hx).1
  have hly : rl < h.length := (List.getElem?_eq_some_iff.mp hy).1
  have hz0 : (h ++ [[]])[(⟨[], h.length⟩ : Tn).loc]? = some [] := by simp
  have hset : ∀ z w : List α, (h ++ [w]).set h.length z = h ++ [z] := by
    intro z w; rw [List.set_append_right _ _ (Nat.le_refl _)]; simp
  have e1 : rd [n', k] 0 = ok n' := rfl
  have e2 : rd [n', k] 1 = ok k := rfl
  have e3 : ∀ z : List α, rd (h ++ [z]) ll = ok x := fun z => rd_ok (by rw [List.getElem?_append_left hlx]; exact hx)
  have e4 : ∀ z : List α, rd (h ++ [z]) rl = ok y := fun z => rd_ok (by rw [List.getElem?_append_left hly]; exact hy)
  have e5 : ∀ z : List α, rd (h ++ [z]) h.length = ok z := fun z => rd_ok (by simp)
  have e6 : ∀ z w : List α, wr (h ++ [w]) h.length z = ok (h ++ [z]) := fun z w => by rw [wr_ok (by simp), hset]
  simp only [multiply2, check, Bool.false_eq_true, if_false, bind_ok, e1, e2, resize_ok hz0, hset, e3, e4, e5, gemmView, e6]

theorem multiply_release [Zero α] [Add α] [Mul α] {h : Heap α} {l r : Tn} {m n n' k : Nat} {x y : List α} (hx : h[l.loc]? = some x) (hy : h[r.loc]? = some y)
    (sl : l.shape = [m, n]) (sr : r.shape = [n', k]) :
    multiply false h l r = (do
      let z ← Gemm.gemmCpu x false y false m n k (vecResize [] (size [m, k]))
      pure (⟨[m, k], h.length⟩, h ++ [z])) := by
  rw [← multiply2_release hx hy sl sr]
  have h1 : ¬ l.shape.length = 1 := by rw [sl]; simp
  have h2 : ¬ r.shape.length = 1 := by rw [sr]; simp
  simp only [multiply, newDefault, multiplyR, if_neg h1, if_neg h2]

/-- C128 fails for `a * b`: if `a` has more columns than `b` has rows, a release build reads beyond the storage of `b`. -/
theorem multiply_release_violated [Zero α] [Add α] [Mul α] (h : Heap α) (l r : Tn) (m n n' k : Nat) (x y : List α) (hx : h[l.loc]? = some x)
    (hy : h[r.loc]? = some y) (sl : l.shape = [m, n]) (sr : r.shape = [n', k]) (hyl : y.length = n' * k) (hn : n' < n) (hm : 0 < m) (hk : 0 < k) :
    multiply false h l r = ub := by
  refine ub_of (na_multiply _ _ _) fun z hz => ?_
  rw [multiply_release hx hy sl sr, bind_eq_ok] at hz
  obtain ⟨c, hc, -⟩ := hz
  simp only [Gemm.gemmCpu, bind_eq_ok, and_self, if_true] at hc
  obtain ⟨C, -, hc⟩ := hc
  obtain ⟨a, b, hab, -⟩ := loop_ok_at (fun _ => True) trivial (fun _ _ _ _ _ => trivial) hc hm
  obtain ⟨a, b, hab, -⟩ := loop_ok_at (fun _ => True) trivial (fun _ _ _ _ _ => trivial) hab hn
  obtain ⟨a, b, hab, -⟩ := loop_ok_at (fun _ => True) trivial (fun _ _ _ _ _ => trivial) hab hk
  simp only [bind_eq_ok] at hab
  obtain ⟨_, -, _, hr, -⟩ := hab
  have := rd_lt hr
  simp [at2] at this
  omega

/-- C128 fails for `a * b`: if `a` has fewer columns than `b` has rows, a release build returns the product with the first rows of `b`. -/
theorem multiply_silent_violated [CommSemiring α] (h : Heap α) (l r : Tn) (m n n' k : Nat) (a b : List Nat → α) (hl : Holds h l a) (hr : Holds h r b)
    (sl : l.shape = [m, n]) (sr : r.shape = [n', k]) (hn : n < n') :
    multiply true h l r = abort ∧
    ∃ t h', multiply false h l r = ok (t, h') ∧ t.shape = [m, k] ∧
      ∃ c : List Nat → α, Holds h' t c ∧ ∀ i j, i < m → j < k → c [i, j] = ∑ p ∈ Finset.range n, a [i, p] * b [p, j] := by
  constructor
  · rw [debug_is_model.2.2.2.2.1, Gemm.multiply_rejects h l r m n n' k a b hl hr sl sr (by omega)]
  obtain ⟨x, hx, hxT⟩ := hl
  obtain ⟨y, hy, hyT⟩ := hr
  rw [sl] at hxT; rw [sr] at hyT
  have h2 := Gemm.isT2_iff.mp hyT
  have hnk : n * k ≤ y.length := by rw [h2.1]; exact Nat.mul_le_mul_right _ (by omega)
  have htake : Is2 (y.take (n * k)) n k (fun i j => b [i, j]) := by
    refine ⟨by rw [List.length_take]; omega, fun i j hi hj => ?_⟩
    rw [List.getElem?_take_of_lt (lt_mul_of_lt hi hj)]
    exact h2.2 i j (by omega) hj
  obtain ⟨C', g1, g2⟩ := Gemm.gemmCpu_ok (aT := false) (bT := false) (C := vecResize [] (size [m, k])) (m := m) (n := n) (k := k)
    (A := x) (B := y.take (n * k)) (by simpa [Gemm.Stores] using Gemm.isT2_iff.mp hxT) (by simpa [Gemm.Stores] using htake) (by rw [vecResize_length]; simp)
  have hsame : Gemm.gemmCpu x false y false m n k (vecResize [] (size [m, k])) = Gemm.gemmCpu x false (y.take (n * k)) false m n k (vecResize [] (size [m, k])) := by
    simp only [Gemm.gemmCpu, and_self, if_true]
    refine congrArg _ (funext fun C => ?_)
    refine loop_congr _ fun i C _ => loop_congr _ fun p C hp => loop_congr _ fun j C hj => ?_
    have hrd : rd y (at2 n k false p j) = rd (y.take (n * k)) (at2 n k false p j) := by
      simp only [at2, Bool.false_eq_true, if_false]
      unfold rd
      rw [List.getElem?_take_of_lt (lt_mul_of_lt hp hj)]
    rw [hrd]
  refine ⟨⟨[m, k], h.length⟩, h ++ [C'], ?_, rfl, fun is => Gemm.prod n (fun i j => a [i, j]) (fun i j => b [i, j]) (is[0]?.getD 0) (is[1]?.getD 0),
    ⟨C', by simp, Gemm.isT2_iff.mpr (by simpa using g2)⟩, fun i j _ _ => by simp [Gemm.prod]⟩
  rw [multiply_release hx hy sl sr, hsame, g1]; rfl

/-- C128 fails for `a * b` with `a` of rank other than 1 and 2: a release build returns an empty tensor. -/
theorem multiply_rank_violated [Zero α] [Add α] [Mul α] (h : Heap α) (l r : Tn) (sl : l.shape.length ≠ 1 ∧ l.shape.length ≠ 2) (sr : r.shape.length ≠ 1) :
    multiply true h l r = abort ∧ multiply false h l r = ok (⟨[], h.length⟩, h ++ [[]]) := by
  have h0 : ∀ dbg, multiply dbg h l r = multiply2 dbg (h ++ [[]]) l r ⟨[], h.length⟩ := by
    intro dbg
    simp only [multiply, multiplyR, newDefault, if_neg sl.1, if_neg sr]
  rw [h0, h0]
  unfold multiply2
  constructor
  · by_cases hr : r.shape.length = 2
    · simp only [check, if_true, assert_true hr, bind_ok]
      match l.shape, sl with
      | [], _ => rfl
      | [_], sl => exact absurd rfl sl.1
      | [_, _], sl => exact absurd rfl sl.2
      | _ :: _ :: _ :: _, _ => rfl
    · simp only [check, if_true, assert_false hr, bind_abort]
  · match l.shape, sl with
    | [], _ => rfl
    | [_], sl => exact absurd rfl sl.1
    | [_, _], sl => exact absurd rfl sl.2
    | _ :: _ :: _ :: _, _ => rfl

example : multiply false [[1, 2, 3, 4, 5, (6 : Int)], [1, 1]] ⟨[2, 3], 0⟩ ⟨[2, 1], 1⟩ = ub ∧
    multiply false [[1, 2], [1, 2, 3, 4, 5, (6 : Int)]] ⟨[2, 1], 0⟩ ⟨[3, 2], 1⟩ = ok (⟨[2, 2], 2⟩, [[1, 2], [1, 2, 3, 4, 5, 6], [1, 2, 2, 4]]) ∧
    multiply true [[1, 2], [1, 2, 3, 4, 5, (6 : Int)]] ⟨[2, 1], 0⟩ ⟨[3, 2], 1⟩ = abort ∧
    multiply false [[1, 2], [1, (2 : Int)]] ⟨[1, 2, 1], 0⟩ ⟨[2, 1], 1⟩ = ok (⟨[], 2⟩, [[1, 2], [1, 2], []]) := by decide

end Verif.Release
