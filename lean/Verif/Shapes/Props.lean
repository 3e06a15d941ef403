import Verif.Shapes.Model
import Verif.Alias.Run
import Verif.Pool.Reduce
import Mathlib.Algebra.Order.Ring.Rat
/-!
# Shape calculators: properties

`shape()` of an operator against the shape of what `forward()` returns.
-/
namespace Verif.Shapes
open Verif Res Graph Data
open Verif.Tensor (loop_ok_inv wr_eq_ok broadcastShape)

variable {α : Type}

/-! ### Storage lengths -/

theorem wr_len {b c : List α} {i : Nat} {v : α} (h : wr b i v = ok c) : c.length = b.length := by
  obtain ⟨_, rfl⟩ := wr_eq_ok.1 h
  simp

theorem loop_len {n : Nat} {body : Nat → List α → Res (List α)} {s s' : List α} (hb : ∀ i a b, body i a = ok b → b.length = a.length)
    (h : loop n body s = ok s') : s'.length = s.length :=
  loop_ok_inv (fun a => a.length = s.length) rfl (fun i a b hab ha => (hb i a b hab).trans ha) h

theorem loopFrom_len {lo hi : Nat} {body : Nat → List α → Res (List α)} {s s' : List α} (hb : ∀ i a b, body i a = ok b → b.length = a.length)
    (h : loopFrom lo hi body s = ok s') : s'.length = s.length := by
  unfold loopFrom at h
  split at h
  · cases h
  · exact loop_len (fun i a b => hb _ a b) h

theorem loop_len2 {β : Type} {n : Nat} {body : Nat → List α × List β → Res (List α × List β)} {s s' : List α × List β}
    (hb : ∀ i a b, body i a = ok b → b.1.length = a.1.length ∧ b.2.length = a.2.length)
    (h : loop n body s = ok s') : s'.1.length = s.1.length ∧ s'.2.length = s.2.length :=
  loop_ok_inv (fun a => a.1.length = s.1.length ∧ a.2.length = s.2.length) ⟨rfl, rfl⟩
    (fun i a b hab ha => ⟨(hb i a b hab).1.trans ha.1, (hb i a b hab).2.trans ha.2⟩) h

theorem copyTo_len {src dst out : List α} {s n d : Nat} (h : copyTo src s n dst d = ok out) : out.length = dst.length := by
  unfold copyTo at h
  refine loop_len ?_ h
  intro i a b hab
  obtain ⟨x, _, hw⟩ := bind_eq_ok.1 hab
  exact wr_len hw

theorem rd_wr_len {src : List α} {f : α → α} {o o' : List α} {i j : Nat} (h : (do let x ← rd src i; wr o j (f x)) = ok o') : o'.length = o.length := by
  obtain ⟨x, _, hw⟩ := bind_eq_ok.1 h
  exact wr_len hw

theorem addAt_len [Add α] {o o' : List α} {i : Nat} {v : α} (h : addAt o i v = ok o') : o'.length = o.length := by
  unfold addAt at h
  obtain ⟨x, _, hw⟩ := bind_eq_ok.1 h
  exact wr_len hw

theorem fillN_len {n : Nat} {v : α} {o o' : List α} (h : Gemm.fillN n v o = ok o') : o'.length = o.length := by
  unfold Gemm.fillN at h
  exact loop_len (fun i a b hab => wr_len hab) h

theorem assert_eq_ok {c : Prop} [Decidable c] {u : PUnit} : Res.assert c = ok u ↔ c := by
  by_cases h : c <;> simp [h]

theorem require_eq_ok {c : Prop} [Decidable c] {u : PUnit} : require c = ok u ↔ c := by
  by_cases h : c <;> simp [h]

/-- `reshape` to a shape whose last extent is not the wild card. -/
theorem reshapeV_shape [Zero α] {t u : Ten α} {s : List Nat} (hl : s.getLast? ≠ some Data.minusOne) (h : reshapeV t s = ok u) : u.shape = s ∧ u.WF := by
  unfold reshapeV at h
  obtain ⟨_, _, h⟩ := bind_eq_ok.1 h
  rw [if_neg hl] at h
  split at h
  · cases h
    exact ⟨rfl, by simp [Ten.WF]⟩
  · rename_i h'
    cases h
    exact ⟨rfl, not_not.1 h'⟩

/-! ### Conditions -/

/-- The tensor fits the machine: no extent is the wild card 2^64 - 1 and the numbers of axes and elements are representable. -/
def Fits (t : Ten α) : Prop := (∀ d ∈ t.shape, d ≠ Data.minusOne) ∧ t.shape.length < Data.minusOne ∧ t.data.length < Data.minusOne

/-- When the calculator of a unary operator is right (the violations below show that none of these can be dropped): `flatten` needs the
elements per sample below 2^31, `squeeze( -1 )` and `flip` a tensor with elements, `repeat` at least one axis, the axis of a reduction has to be one
of the operand's. -/
def Op1.Regular : Op1 α → Ten α → Prop
  | .reshape new _, _ => new.getLast? ≠ some Data.minusOne ∧ size new < 2 ^ 64
  | .flatten, t => size t.shape.tail < 2 ^ 31
  | .squeeze axis, t => axis = -1 → t.data ≠ []
  | .flip _ _, t => t.data ≠ []
  | .repeat_ _ _ _, t => t.shape ≠ []
  | .reduceExt _ axis _ _, t => axis < t.shape.length
  | .reduceSum axis _, t => axis < t.shape.length
  | _, _ => True

/-- When the calculator of a binary operator is right: for products the operand with more elements is the one with more axes, or the shapes
agree. -/
def Op2.Regular : Op2 α → Ten α → Ten α → Prop
  | .product, l, r => if l.data.length < r.data.length then l.shape.length ≤ r.shape.length else r.shape.length < l.shape.length ∨ l.shape = r.shape
  | _, _, _ => True

/-! ### The pieces of the calculators -/

theorem copyWithin_erase {v : List Nat} {k : Nat} (hk : k < v.length) : (do let w ← copyWithin v (k + 1) k; dropOne w) = ok (v.eraseIdx k) := by
  have key : ∃ w, copyWithin v (k + 1) k = ok w ∧ w.length = v.length ∧ ∀ j, w[j]? = if j < k then v[j]? else if j + 1 < v.length then v[j + 1]? else v[j]? := by
    unfold copyWithin
    rw [require_true ⟨hk, hk.le⟩, bind_ok]
    have L := loop_inv (n := v.length - (k + 1)) (body := fun i o => do
        let x ← rd o (k + 1 + i)
        wr o (k + i) x) (s := v)
      (fun i w => w.length = v.length ∧ ∀ j, w[j]? = if j < k then v[j]? else if j < k + i then v[j + 1]? else v[j]?)
      ⟨rfl, fun j => by split_ifs <;> first | rfl | omega⟩ (by
      rintro i w hi ⟨hw, hg⟩
      have hx : w[k + 1 + i]? = some v[k + 1 + i] := by
        rw [hg, if_neg (by omega), if_neg (by omega), List.getElem?_eq_getElem]
      rw [rd_ok hx, bind_ok, wr_ok (by omega)]
      refine ⟨_, rfl, by simpa using hw, fun j => ?_⟩
      rw [List.getElem?_set]
      by_cases hj : k + i = j
      · subst hj
        rw [if_pos rfl, if_pos (by omega), if_neg (by omega), if_pos (by omega), ← List.getElem?_eq_getElem]
        congr 1
        omega
      · rw [if_neg hj, hg]
        split_ifs <;> first | rfl | omega)
    obtain ⟨w, h1, h2, h3⟩ := L
    refine ⟨w, h1, h2, fun j => ?_⟩
    rw [h3]
    split_ifs <;> first | rfl | omega
  obtain ⟨w, h1, h2, h3⟩ := key
  rw [h1, bind_ok]
  unfold dropOne
  rw [require_true (by rintro rfl; simp at h2; omega), bind_ok]
  congr 1
  refine List.ext_getElem? fun j => ?_
  rw [List.getElem?_take, List.getElem?_eraseIdx, h2, h3]
  split_ifs <;> first | rfl | omega | skip
  all_goals first | rfl | (symm; apply List.getElem?_eq_none; omega)

/-- Erasing with the axis outside the vector is undefined. -/
theorem copyWithin_ub {v : List Nat} {k d : Nat} (hk : v.length ≤ k) : copyWithin v (k + 1) d = ub := by
  unfold copyWithin
  rw [require_false (by omega)]
  rfl

theorem accInt_eq (s : List Nat) : accInt s = Int.bmod (size s : Int) (2 ^ 32) := by
  have key : ∀ (s : List Nat) (a : Int), s.foldl (fun acc (d : Nat) => toInt32 (acc * (d : Int))) (Int.bmod a (2 ^ 32)) = Int.bmod (a * (size s : Int)) (2 ^ 32) := by
    intro s
    induction s with
    | nil => intro a; simp [size]
    | cons d s ih =>
      intro a
      rw [List.foldl_cons]
      have : toInt32 (Int.bmod a (2 ^ 32) * (d : Int)) = Int.bmod (a * d) (2 ^ 32) := by
        unfold toInt32
        exact Int.bmod_mul_bmod
      rw [this, ih, size]
      push_cast
      rw [mul_assoc]
  have := key s 1
  rwa [show Int.bmod 1 (2 ^ 32) = 1 by decide, one_mul] at this

theorem toU64_acc {s : List Nat} (h : size s < 2 ^ 31) : toU64 (accInt s) = size s := by
  rw [accInt_eq]
  unfold toU64
  rw [Int.bmod_eq_of_le (by omega) (by omega)]
  omega

theorem toU64_acc_ne {s : List Nat} (h : 2 ^ 31 ≤ size s) (h' : size s < 2 ^ 64 - 2 ^ 31) : toU64 (accInt s) ≠ size s := by
  rw [accInt_eq]
  unfold toU64
  have h1 := Int.bmod_lt (x := (size s : Int)) (m := 2 ^ 32) (by decide)
  have h2 := Int.le_bmod (x := (size s : Int)) (m := 2 ^ 32) (by decide)
  omega

/-! ### Every operator -/

/-- Lengths of storages written by nested loops. -/
syntax "lens " ident : tactic
macro_rules
  | `(tactic| lens $h) => `(tactic| first
    | exact wr_len $h
    | exact copyTo_len $h
    | exact addAt_len $h
    | exact fillN_len $h
    | (refine loop_len ?_ $h; intro i a b hab; lens hab)
    | (refine loopFrom_len ?_ $h; intro i a b hab; lens hab)
    | (obtain ⟨x, _, hab⟩ := bind_eq_ok.1 $h; lens hab))

theorem wf_of [Zero α] {cache : Ten α} {s : List Nat} {d : List α} (h : d.length = (resizeV cache s).data.length) : Ten.WF ⟨s, d⟩ := by
  rw [Ten.WF, h, resizeV_length]

theorem last_ne {s : List Nat} (h : ∀ d ∈ s, d ≠ Data.minusOne) : s.getLast? ≠ some Data.minusOne := fun he =>
  h _ (List.mem_of_getLast? he) rfl

theorem mapT_shape [Zero α] {f : α → α} {cache t u : Ten α} (h : Ops.mapT f cache t = ok u) : u.shape = t.shape ∧ u.WF := by
  unfold Ops.mapT at h
  obtain ⟨d, hd, h⟩ := bind_eq_ok.1 h
  cases h
  exact ⟨rfl, wf_of (cache := cache) (by lens hd)⟩

theorem reshapeOp_shape [Zero α] {new : List Nat} {t u : Ten α} (hw : t.WF) (hn : new.getLast? ≠ some Data.minusOne) (h64 : size new < 2 ^ 64) (hf : Fits t)
    (h : Conv.reshapeOp new t = ok u) : reshapeCalc new true t.shape = ok u.shape ∧ u.WF := by
  unfold Conv.reshapeOp at h
  obtain ⟨_, h0, h⟩ := bind_eq_ok.1 h
  obtain ⟨_, h1, h⟩ := bind_eq_ok.1 h
  rw [require_eq_ok] at h0
  have hl : (t.data.length / size new :: new).getLast? ≠ some Data.minusOne := by
    cases new with
    | nil =>
      simp only [List.getLast?_singleton, size, Nat.div_one, ne_eq, Option.some.injEq]
      exact hf.2.2.ne
    | cons a l => rwa [List.getLast?_cons_cons]
  obtain ⟨h2, h3⟩ := reshapeV_shape hl h
  refine ⟨?_, h3⟩
  unfold reshapeCalc
  rw [if_neg (by simp), Nat.mod_eq_of_lt h64, require_true h0, bind_ok, h2, ← hw, Nat.mod_eq_of_lt (hf.2.2.trans (by decide))]
  rfl

theorem reshapePlain_shape [Zero α] {new : List Nat} {t u : Ten α} (hn : new.getLast? ≠ some Data.minusOne) (h : reshapePlain new t = ok u) :
    u.shape = new ∧ u.WF := by
  unfold reshapePlain at h
  obtain ⟨_, _, h⟩ := bind_eq_ok.1 h
  obtain ⟨_, _, h⟩ := bind_eq_ok.1 h
  obtain ⟨_, _, h⟩ := bind_eq_ok.1 h
  exact reshapeV_shape hn h

theorem flattenFwd_shape [Zero α] {t u : Ten α} (hw : t.WF) (hn : size t.shape.tail ≠ Data.minusOne) (h : flattenFwd t = ok u) :
    ∃ b, t.shape[0]? = some b ∧ u.shape = [b, size t.shape.tail] ∧ u.WF := by
  unfold flattenFwd at h
  obtain ⟨_, _, h⟩ := bind_eq_ok.1 h
  obtain ⟨b, hb, h⟩ := bind_eq_ok.1 h
  obtain ⟨_, h0, h⟩ := bind_eq_ok.1 h
  rw [rd_eq_ok] at hb
  rw [require_eq_ok] at h0
  have hq : t.data.length / b = size t.shape.tail := by
    rw [hw]
    cases hs : t.shape with
    | nil => rw [hs] at hb; simp at hb
    | cons a l =>
      rw [hs] at hb
      obtain rfl : a = b := by simpa using hb
      rw [size, List.tail_cons, Nat.mul_div_cancel_left _ (Nat.pos_of_ne_zero h0)]
  rw [hq] at h
  obtain ⟨h1, h2⟩ := reshapeV_shape (by simpa using hn) h
  exact ⟨b, hb, h1, h2⟩

theorem expandDims_shape [Zero α] {axis : Int} {t u : Ten α} (hf : Fits t) (h : Data.expandDims t axis = ok u) : expandCalc axis t.shape = ok u.shape ∧ u.WF := by
  unfold Data.expandDims at h
  obtain ⟨_, h0, h⟩ := bind_eq_ok.1 h
  rw [require_eq_ok] at h0
  have hl : (t.shape.insertIdx (if axis = -1 then (t.shape.length : Int) else axis).toNat 1).getLast? ≠ some Data.minusOne := by
    refine last_ne fun d hd => ?_
    rcases List.eq_or_mem_of_mem_insertIdx hd with rfl | hd
    · decide
    · exact hf.1 d hd
  obtain ⟨h1, h2⟩ := reshapeV_shape hl h
  refine ⟨?_, h2⟩
  unfold expandCalc
  dsimp only
  rw [require_true h0, bind_ok, h1]
  rfl

theorem size_ne_mem {s : List Nat} (h : size s ≠ 0) : ∀ d ∈ s, d ≠ 0 := by
  induction s with
  | nil => simp
  | cons a l ih =>
    rw [size] at h
    intro d hd
    rcases List.mem_cons.1 hd with rfl | hd
    · exact left_ne_zero_of_mul h
    · exact ih (right_ne_zero_of_mul h) d hd

theorem size_one_mem {s : List Nat} (h : size s = 1) : ∀ d ∈ s, d = 1 := by
  induction s with
  | nil => simp
  | cons a l ih =>
    rw [size] at h
    intro d hd
    rcases List.mem_cons.1 hd with rfl | hd
    · exact Nat.eq_one_of_mul_eq_one_right h
    · exact ih (Nat.eq_one_of_mul_eq_one_left h) d hd

theorem filter_ones {s : List Nat} (h : ∀ d ∈ s, d = 1) : size s = 1 := by
  induction s with
  | nil => rfl
  | cons a l ih => rw [size, h a (by simp), ih (fun d hd => h d (by simp [hd]))]

theorem squeeze_shape [Zero α] {axis : Int} {t u : Ten α} (hw : t.WF) (hf : Fits t) (hr : axis = -1 → t.data ≠ []) (h : squeezeAxis t axis = ok u) :
    squeezeCalc axis t.shape = ok u.shape ∧ u.WF := by
  unfold squeezeAxis at h
  unfold squeezeCalc
  by_cases ha : axis = -1
  · rw [if_pos ha] at h ⊢
    have hd := hr ha
    unfold squeezeAll at h
    have hne : t.data.length ≠ 0 := by simpa using hd
    rw [if_neg hne] at h
    have hs : size t.shape ≠ 0 := by rw [← hw]; exact hne
    have hfil : t.shape.filter (fun n => decide (n ≠ 1)) = t.shape.filter (fun s => decide (1 < s)) := by
      refine List.filter_congr fun d hd => ?_
      have := size_ne_mem hs d hd
      rw [decide_eq_decide]
      omega
    dsimp only
    rw [hfil]
    by_cases h1 : t.data.length = 1
    · rw [if_pos h1] at h
      obtain ⟨k1, k2⟩ := reshapeV_shape (by decide) h
      have : t.shape.filter (fun s => decide (1 < s)) = [] := by
        rw [List.filter_eq_nil_iff]
        intro d hd
        have := size_one_mem (by rw [← hw]; exact h1) d hd
        simp [this]
      rw [this, if_neg (by simp), k1]
      exact ⟨rfl, k2⟩
    · rw [if_neg h1] at h
      obtain ⟨k1, k2⟩ := reshapeV_shape (last_ne fun d hd => hf.1 d (List.mem_of_mem_filter hd)) h
      rw [if_pos, k1]
      · exact ⟨rfl, k2⟩
      · refine List.length_pos_iff.2 fun he => h1 ?_
        rw [hw]
        refine filter_ones fun d hd => ?_
        have h0 := size_ne_mem hs d hd
        have := (List.filter_eq_nil_iff.1 he) d hd
        simp at this
        omega
  · rw [if_neg ha] at h ⊢
    obtain ⟨_, h0, h⟩ := bind_eq_ok.1 h
    obtain ⟨n, hn, h⟩ := bind_eq_ok.1 h
    obtain ⟨_, h1, h⟩ := bind_eq_ok.1 h
    rw [assert_eq_ok] at h0
    obtain ⟨k1, k2⟩ := reshapeV_shape (last_ne fun d hd => hf.1 d (List.mem_of_mem_eraseIdx hd)) h
    rw [require_true h0.1, bind_ok, copyWithin_erase h0.2, k1]
    exact ⟨rfl, k2⟩

theorem argmax_shape [LinearOrder α] [Zero α] {cast : Nat → α} {axis : Nat} {cache t u : Ten α} (h : argmaxInto cast axis cache t = ok u) :
    argmaxCalc axis t.shape = ok u.shape ∧ u.WF := by
  unfold argmaxInto at h
  obtain ⟨_, h0, h⟩ := bind_eq_ok.1 h
  obtain ⟨r, hr, h⟩ := bind_eq_ok.1 h
  obtain ⟨d, hd, h⟩ := bind_eq_ok.1 h
  cases h
  rw [assert_eq_ok] at h0
  refine ⟨?_, wf_of (cache := cache) (by lens hd)⟩
  unfold argmaxCalc
  rw [require_true h0.le, bind_ok, copyWithin_erase h0]

theorem flip_shape [Zero α] {axis : Int} {cache t u : Ten α} (hd : t.data ≠ []) (h : flipInto t axis cache = ok u) : u.shape = t.shape ∧ u.WF := by
  unfold flipInto at h
  rw [if_neg (by simpa using hd)] at h
  obtain ⟨_, _, h⟩ := bind_eq_ok.1 h
  obtain ⟨_, _, h⟩ := bind_eq_ok.1 h
  obtain ⟨_, _, h⟩ := bind_eq_ok.1 h
  have f3 : ∀ {src dst o : List α} {r c ch ax : Nat}, flip3 src dst r c ch ax = ok o → o.length = dst.length := by
    intro src dst o r c ch ax h
    unfold flip3 at h
    split_ifs at h
    · lens h
    · lens h
    · lens h
  unfold flipRank at h
  split at h
  · obtain ⟨d, hd, h⟩ := bind_eq_ok.1 h
    cases h
    unfold flip1 at hd
    exact ⟨rfl, wf_of (cache := cache) (by lens hd)⟩
  · obtain ⟨d, hd, h⟩ := bind_eq_ok.1 h
    cases h
    exact ⟨rfl, wf_of (cache := cache) (f3 hd)⟩
  · obtain ⟨d, hd, h⟩ := bind_eq_ok.1 h
    cases h
    exact ⟨rfl, wf_of (cache := cache) (f3 hd)⟩
  · generalize (if axis = -1 then (t.shape.length : Int) - 1 else axis).toNat = ax at h
    split at h
    · obtain ⟨d, hd, h⟩ := bind_eq_ok.1 h
      cases h
      exact ⟨rfl, wf_of (cache := cache) (f3 hd)⟩
    · obtain ⟨d, hd, h⟩ := bind_eq_ok.1 h
      cases h
      exact ⟨rfl, wf_of (cache := cache) (f3 hd)⟩
  · cases h

theorem transpose_shape [Zero α] {cache t u : Ten α} (h : transposeInto cache t = ok u) : transposeCalc t.shape = ok u.shape ∧ u.WF := by
  unfold transposeInto at h
  split at h
  · rename_i row col hs
    obtain ⟨d, hd, h⟩ := bind_eq_ok.1 h
    cases h
    rw [hs]
    exact ⟨rfl, wf_of (cache := cache) (by lens hd)⟩
  · cases h

theorem img2col_shape [Zero α] {g : Conv.Geo} {cache t : Ten α} {rec : List Nat} {r : Ten α × List Nat} (h : Conv.img2col g t cache rec = ok r) :
    img2colCalc g t.shape = ok r.1.shape ∧ r.1.WF := by
  unfold Conv.img2col at h
  split at h
  · rename_i BS R C CH hs
    obtain ⟨_, h0, h⟩ := bind_eq_ok.1 h
    obtain ⟨rec', hr, h⟩ := bind_eq_ok.1 h
    obtain ⟨d, hd, h⟩ := bind_eq_ok.1 h
    cases h
    rw [require_eq_ok] at h0
    rw [hs]
    refine ⟨?_, ?_⟩
    · unfold img2colCalc
      dsimp only
      rw [require_true h0, bind_ok]
      rfl
    · unfold Conv.fillFrom at hd
      refine wf_of (cache := cache) (loop_len ?_ hd)
      intro i a b hab
      obtain ⟨q, _, hab⟩ := bind_eq_ok.1 hab
      dsimp only at hab
      split at hab
      · exact wr_len hab
      · obtain ⟨v, _, hab⟩ := bind_eq_ok.1 hab
        exact wr_len hab
  · cases h

theorem maxPool_shape [LinearOrder α] [Zero α] [One α] {s : Nat} {t mask cache : Ten α} {r : Ten α × Ten α} (h : Pool.maxPool s t mask cache = ok r) :
    poolCalc s t.shape = ok r.1.shape ∧ r.1.WF := by
  unfold Pool.maxPool at h
  obtain ⟨_, h0, h⟩ := bind_eq_ok.1 h
  rw [assert_eq_ok] at h0
  split at h
  · rename_i BS R C CH hs
    obtain ⟨st, hst, h⟩ := bind_eq_ok.1 h
    cases h
    rw [hs]
    refine ⟨?_, wf_of (cache := cache) ?_⟩
    · unfold poolCalc
      dsimp only
      rw [require_true (by omega), bind_ok]
      rfl
    · refine (loop_len2 ?_ hst).2
      intro i a b hab
      refine loop_len2 ?_ hab
      intro i a b hab
      refine loop_len2 ?_ hab
      intro i a b hab
      refine loop_len2 ?_ hab
      intro i a b hab
      obtain ⟨k, _, hab⟩ := bind_eq_ok.1 hab
      obtain ⟨m, hm, hab⟩ := bind_eq_ok.1 hab
      obtain ⟨v, _, hab⟩ := bind_eq_ok.1 hab
      obtain ⟨o, ho, hab⟩ := bind_eq_ok.1 hab
      cases hab
      exact ⟨wr_len hm, wr_len ho⟩
  · cases h

theorem avgPool_shape [Field α] {s : Nat} {t cache u : Ten α} (h : Pool.avgPool s t cache = ok u) : poolCalc s t.shape = ok u.shape ∧ u.WF := by
  unfold Pool.avgPool at h
  obtain ⟨_, h0, h⟩ := bind_eq_ok.1 h
  rw [assert_eq_ok] at h0
  split at h
  · rename_i BS R C CH hs
    obtain ⟨z, hz, h⟩ := bind_eq_ok.1 h
    obtain ⟨d, hd, h⟩ := bind_eq_ok.1 h
    cases h
    rw [hs]
    refine ⟨?_, wf_of (cache := cache) (Eq.trans (b := z.length) (by lens hd) (by lens hz))⟩
    unfold poolCalc
    dsimp only
    rw [require_true (by omega), bind_ok]
    rfl
  · cases h

theorem upSample_shape [Zero α] {s : Nat} {t cache u : Ten α} (h : Pool.upSample s t cache = ok u) : upCalc s t.shape = ok u.shape ∧ u.WF := by
  unfold Pool.upSample at h
  obtain ⟨_, h0, h⟩ := bind_eq_ok.1 h
  split at h
  · rename_i BS R C CH hs
    obtain ⟨z, hz, h⟩ := bind_eq_ok.1 h
    obtain ⟨d, hd, h⟩ := bind_eq_ok.1 h
    cases h
    rw [hs]
    exact ⟨rfl, wf_of (cache := cache) (Eq.trans (b := z.length) (by lens hd) (by lens hz))⟩
  · cases h

theorem zeroPad_shape [Zero α] {p : Pool.Pads} {t cache u : Ten α} (h : Pool.zeroPad p t cache = ok u) : padCalc p t.shape = ok u.shape ∧ u.WF := by
  unfold Pool.zeroPad at h
  split at h
  · rename_i BS R C CH hs
    obtain ⟨d, hd, h⟩ := bind_eq_ok.1 h
    cases h
    rw [hs]
    refine ⟨?_, wf_of (cache := cache) (by lens hd)⟩
    show ok _ = ok _
    rw [Nat.add_comm R p.top, Nat.add_comm C p.left]
  · cases h

theorem crop_shape [Zero α] {p : Pool.Pads} {t cache u : Ten α} (h : Pool.crop p t cache = ok u) : cropCalc p t.shape = ok u.shape ∧ u.WF := by
  unfold Pool.crop at h
  split at h
  · rename_i BS R C CH hs
    obtain ⟨_, _, h⟩ := bind_eq_ok.1 h
    obtain ⟨_, _, h⟩ := bind_eq_ok.1 h
    obtain ⟨_, h0, h⟩ := bind_eq_ok.1 h
    obtain ⟨d, hd, h⟩ := bind_eq_ok.1 h
    cases h
    rw [require_eq_ok] at h0
    rw [hs]
    refine ⟨?_, wf_of (cache := cache) (by lens hd)⟩
    unfold cropCalc
    simp only [rd, List.getElem?_cons_zero, List.getElem?_cons_succ, bind_ok]
    rw [require_true h0, bind_ok]
    rfl
  · cases h

theorem repeat_shape [Zero α] {rep axis : Nat} {t cache u : Ten α} (hw : t.WF) (hs : t.shape ≠ []) (h : Pool.repeatOp rep axis t cache = ok u) :
    repeatCalc rep axis t.shape = ok u.shape ∧ u.WF := by
  have hpos := List.length_pos_iff.2 hs
  have hlt : min axis (t.shape.length - 1) < t.shape.length := by omega
  unfold Pool.repeatOp at h
  obtain ⟨_, _, h⟩ := bind_eq_ok.1 h
  unfold repeatCalc
  rw [require_true hs, bind_ok]
  dsimp only
  rw [rd_ok (List.getElem?_eq_getElem hlt), bind_ok, wr_ok hlt]
  by_cases h1 : rep = 1
  · rw [if_pos h1] at h
    cases h
    subst h1
    rw [Nat.mul_one, List.set_getElem_self]
    exact ⟨rfl, hw⟩
  · rw [if_neg h1] at h
    obtain ⟨_, _, h⟩ := bind_eq_ok.1 h
    obtain ⟨n, hn, h⟩ := bind_eq_ok.1 h
    obtain ⟨d, hd, h⟩ := bind_eq_ok.1 h
    cases h
    rw [rd_eq_ok, List.getElem?_eq_getElem hlt] at hn
    cases hn
    exact ⟨rfl, wf_of (cache := cache) (by lens hd)⟩

theorem reduceCalc_ok {axis : Nat} {s : List Nat} (h : axis < s.length) : reduceCalc axis s = ok (s.eraseIdx axis) := by
  unfold reduceCalc
  rw [require_true (by rintro rfl; simp at h), bind_ok]
  dsimp only
  rw [require_true h.le, bind_ok, show min axis (s.length - 1) = axis by omega, copyWithin_erase h]

theorem reduceSum_shape [Zero α] [Add α] {axis : Nat} {t cache u : Ten α} (h : Pool.reduceSum axis t cache = ok u) :
    u.shape = t.shape.eraseIdx (min axis (t.shape.length - 1)) ∧ u.WF := by
  unfold Pool.reduceSum at h
  obtain ⟨_, _, h⟩ := bind_eq_ok.1 h
  obtain ⟨_, _, h⟩ := bind_eq_ok.1 h
  obtain ⟨d, hd, h⟩ := bind_eq_ok.1 h
  cases h
  exact ⟨rfl, wf_of (cache := cache) (by lens hd)⟩

theorem reduceExt_shape [Zero α] {better : α → α → Bool} {axis : Nat} {t cache : Ten α} {index : Ten Nat} {r : Ten α × Ten Nat}
    (h : Pool.reduceExt better axis t cache index = ok r) : r.1.shape = t.shape.eraseIdx (min axis (t.shape.length - 1)) ∧ r.1.WF := by
  unfold Pool.reduceExt at h
  obtain ⟨_, _, h⟩ := bind_eq_ok.1 h
  obtain ⟨_, _, h⟩ := bind_eq_ok.1 h
  obtain ⟨d, hd, h⟩ := bind_eq_ok.1 h
  cases h
  refine ⟨rfl, wf_of (cache := cache) ?_⟩
  refine (loop_len2 ?_ hd).1
  intro i a b hab
  refine loop_len2 ?_ hab
  intro i a b hab
  obtain ⟨k, _, hab⟩ := bind_eq_ok.1 hab
  obtain ⟨v, _, hab⟩ := bind_eq_ok.1 hab
  obtain ⟨o, ho, hab⟩ := bind_eq_ok.1 hab
  obtain ⟨j, hj, hab⟩ := bind_eq_ok.1 hab
  cases hab
  exact ⟨wr_len ho, wr_len hj⟩

theorem broadcast_shape [Zero α] {new : List Nat} {cache t u : Ten α} (hw : t.WF) (h : Ops.broadcastOp new cache t = ok u) : u.shape = new ∧ u.WF := by
  unfold Ops.broadcastOp at h
  obtain ⟨_, _, h⟩ := bind_eq_ok.1 h
  by_cases hn : new = t.shape
  · rw [if_pos hn] at h
    cases h
    exact ⟨hn.symm, hw⟩
  · rw [if_neg hn] at h
    obtain ⟨d, hd, h⟩ := bind_eq_ok.1 h
    cases h
    exact ⟨rfl, wf_of (cache := cache) (by lens hd)⟩

/-- Every unary operator, under `Regular`. -/
theorem unary_shape [Field α] [LinearOrder α] (op : Op1 α) {t u : Ten α} (hw : t.WF) (hf : Fits t) (hr : op.Regular t) (h : op.fwd t = ok u) :
    op.calc t.shape = ok u.shape ∧ u.WF := by
  cases op with
  | map f cache =>
    obtain ⟨h1, h2⟩ := mapT_shape h
    exact ⟨congrArg ok h1.symm, h2⟩
  | reshape new batch =>
    cases batch with
    | true => exact reshapeOp_shape hw hr.1 hr.2 hf h
    | false =>
      obtain ⟨h1, h2⟩ := reshapePlain_shape hr.1 h
      exact ⟨congrArg ok h1.symm, h2⟩
  | flatten =>
    have hr' : size t.shape.tail < 2 ^ 31 := hr
    obtain ⟨b, h1, h2, h3⟩ := flattenFwd_shape hw (by unfold Data.minusOne; omega) h
    refine ⟨?_, h3⟩
    show flattenCalc t.shape = _
    unfold flattenCalc
    rw [rd_ok h1, bind_ok, toU64_acc hr', h2]
    rfl
  | expandDims axis => exact expandDims_shape hf h
  | squeeze axis => exact squeeze_shape hw hf hr h
  | argmax cast axis cache => exact argmax_shape h
  | flip axis cache =>
    obtain ⟨h1, h2⟩ := flip_shape hr h
    exact ⟨congrArg ok h1.symm, h2⟩
  | transpose cache => exact transpose_shape h
  | img2col g cache rec =>
    obtain ⟨r, h1, h2⟩ := bind_eq_ok.1 h
    cases h2
    exact img2col_shape h1
  | maxPool s mask cache =>
    obtain ⟨r, h1, h2⟩ := bind_eq_ok.1 h
    cases h2
    exact maxPool_shape h1
  | avgPool s cache => exact avgPool_shape h
  | upSample s cache => exact upSample_shape h
  | zeroPad p cache => exact zeroPad_shape h
  | crop p cache => exact crop_shape h
  | repeat_ rep axis cache => exact repeat_shape hw hr h
  | reduceExt better axis cache index =>
    obtain ⟨r, h1, h2⟩ := bind_eq_ok.1 h
    cases h2
    obtain ⟨k1, k2⟩ := reduceExt_shape h1
    have hr' : axis < t.shape.length := hr
    refine ⟨(reduceCalc_ok hr').trans ?_, k2⟩
    rw [k1, show min axis (t.shape.length - 1) = axis by omega]
  | reduceSum axis cache =>
    obtain ⟨k1, k2⟩ := reduceSum_shape h
    have hr' : axis < t.shape.length := hr
    refine ⟨(reduceCalc_ok hr').trans ?_, k2⟩
    rw [k1, show min axis (t.shape.length - 1) = axis by omega]
  | sumReduce =>
    obtain ⟨x, _, h2⟩ := bind_eq_ok.1 h
    cases h2
    exact ⟨rfl, rfl⟩
  | meanReduce =>
    obtain ⟨x, _, h2⟩ := bind_eq_ok.1 h
    cases h2
    exact ⟨rfl, rfl⟩
  | broadcast new cache =>
    obtain ⟨h1, h2⟩ := broadcast_shape hw h
    exact ⟨congrArg ok h1.symm, h2⟩

theorem matmul_shape [Zero α] [Add α] [Mul α] {cache l r u : Ten α} (h : Ops.matmul cache l r = ok u) : matmulCalc l.shape r.shape = ok u.shape ∧ u.WF := by
  unfold Ops.matmul at h
  obtain ⟨_, _, h⟩ := bind_eq_ok.1 h
  obtain ⟨_, _, h⟩ := bind_eq_ok.1 h
  split at h
  · rename_i m n n' k hl hr
    obtain ⟨d, hd, h⟩ := bind_eq_ok.1 h
    cases h
    unfold Gemm.gemmView at hd
    obtain ⟨_, _, hd⟩ := bind_eq_ok.1 hd
    obtain ⟨_, _, hd⟩ := bind_eq_ok.1 hd
    obtain ⟨_, h0, hd⟩ := bind_eq_ok.1 hd
    rw [assert_eq_ok] at h0
    unfold Gemm.gemmCpu at hd
    obtain ⟨z, hz, hd'⟩ := bind_eq_ok.1 hd
    rw [if_pos ⟨rfl, rfl⟩] at hd'
    refine ⟨?_, wf_of (cache := cache) (Eq.trans (b := z.length) (by lens hd') (by lens hz))⟩
    rw [hl, hr]
    simp [matmulCalc, rd, h0]
  · cases h

theorem ewpGo_shape [Mul α] {l r u : Ten α} (hw : l.WF) (h : ewpGo l r = ok u) : u.shape = l.shape ∧ u.WF := by
  unfold ewpGo at h
  obtain ⟨_, _, h⟩ := bind_eq_ok.1 h
  obtain ⟨_, _, h⟩ := bind_eq_ok.1 h
  obtain ⟨d, hd, h⟩ := bind_eq_ok.1 h
  cases h
  refine ⟨rfl, ?_⟩
  have : d.length = l.data.length := by lens hd
  rw [Ten.WF, this]
  exact hw

theorem concatEq_shape [Zero α] {axe : Nat} {l r u : Ten α} (hf : Fits l) (h : concatEq l r axe = ok u) :
    Concat.concatShape axe l.shape r.shape = ok u.shape ∧ u.WF := by
  unfold concatEq at h
  obtain ⟨_, h0, h⟩ := bind_eq_ok.1 h
  rw [assert_eq_ok] at h0
  dsimp only at h
  obtain ⟨_, h1, h⟩ := bind_eq_ok.1 h
  rw [assert_eq_ok] at h1
  obtain ⟨_, _, h⟩ := bind_eq_ok.1 h
  obtain ⟨_, _, h⟩ := bind_eq_ok.1 h
  obtain ⟨la, hla, h⟩ := bind_eq_ok.1 h
  obtain ⟨ra, hra, h⟩ := bind_eq_ok.1 h
  obtain ⟨d, hd, h⟩ := bind_eq_ok.1 h
  cases h
  have hax : (if l.shape.length < axe then l.shape.length - 1 else axe) = if axe = Data.minusOne then l.shape.length - 1 else axe := by
    have := hf.2.1
    split_ifs at h1 ⊢ <;> omega
  refine ⟨?_, ?_⟩
  · unfold Concat.concatShape
    rw [assert_true h0, bind_ok]
    dsimp only
    rw [hax, hla, bind_ok, hra, bind_ok, wr_ok h1]
  · have : d.length = (List.replicate (size (l.shape.set (if axe = Data.minusOne then l.shape.length - 1 else axe) (la + ra))) (0 : α)).length := by
      refine loop_len ?_ hd
      intro i a b hab
      obtain ⟨o, ho, hab⟩ := bind_eq_ok.1 hab
      exact (copyTo_len hab).trans (copyTo_len ho)
    rw [Ten.WF, this, List.length_replicate]

theorem concatenate_eq [Zero α] {axe : Nat} {l r u : Ten α} (h : concatenate l r axe = ok u) : concatEq l r axe = ok u := by
  have nope : ∀ {l r : Ten α}, r.shape.length < l.shape.length → concatAlign false l r axe = ub := by
    intro l r hl
    unfold concatAlign tempRange
    rw [if_neg]
    · rfl
    · rintro (h | h)
      · cases h
      · have := congrArg List.length h
        simp at this
        omega
  unfold concatenate concatenateB at h
  split_ifs at h with h1 h2
  · rw [nope h1] at h; cases h
  · rw [nope h2] at h; cases h
  · exact h

/-- Every binary operator, under `Regular`. -/
theorem binary_shape [Field α] [LinearOrder α] (op : Op2 α) {l r u : Ten α} (hl : l.WF) (hr : r.WF) (fl : Fits l) (fr : Fits r) (hg : op.Regular l r)
    (h : op.fwd l r = ok u) : op.calc l.shape r.shape = ok u.shape ∧ u.WF := by
  cases op with
  | plus =>
    have hc := Alias.plusT_inv h
    obtain ⟨c, u', h1, h2, h3⟩ := plusT_ok hl.has hr.has hc (last_ne fl.1) (last_ne fr.1)
    rw [show plusT l r = ok u from h] at h2
    cases h2
    exact ⟨h1.trans (congrArg ok h3.1.symm), h3.wf⟩
  | matmul cache => exact matmul_shape h
  | product =>
    replace h : elementwiseProduct l r = ok u := h
    unfold elementwiseProduct at h
    replace hg : if l.data.length < r.data.length then l.shape.length ≤ r.shape.length else r.shape.length < l.shape.length ∨ l.shape = r.shape := hg
    show ok (identity2 l.shape r.shape) = _ ∧ _
    unfold identity2
    split_ifs at h hg with hlt
    · obtain ⟨k1, k2⟩ := ewpGo_shape hr h
      rw [if_neg (by omega), k1]
      exact ⟨rfl, k2⟩
    · obtain ⟨k1, k2⟩ := ewpGo_shape hl h
      rcases hg with hg | hg
      · rw [if_pos hg, k1]
        exact ⟨rfl, k2⟩
      · rw [← hg, ite_self, k1]
        exact ⟨rfl, k2⟩
  | maximum cache mask =>
    obtain ⟨v, h1, h2⟩ := bind_eq_ok.1 h
    cases h2
    unfold Pool.maximumFwd at h1
    obtain ⟨_, h0, h1⟩ := bind_eq_ok.1 h1
    rw [assert_eq_ok] at h0
    obtain ⟨st, hst, h1⟩ := bind_eq_ok.1 h1
    cases h1
    refine ⟨?_, wf_of (cache := cache) ?_⟩
    · show ok (identity2 l.shape r.shape) = ok l.shape
      unfold identity2
      rw [← h0, ite_self]
    · refine (loop_len2 ?_ hst).1
      intro i a b hab
      obtain ⟨_, _, hab⟩ := bind_eq_ok.1 hab
      obtain ⟨_, _, hab⟩ := bind_eq_ok.1 hab
      obtain ⟨m, hm, hab⟩ := bind_eq_ok.1 hab
      obtain ⟨o, ho, hab⟩ := bind_eq_ok.1 hab
      cases hab
      exact ⟨wr_len ho, wr_len hm⟩
  | minimum cache mask =>
    obtain ⟨v, h1, h2⟩ := bind_eq_ok.1 h
    cases h2
    unfold Pool.minimumFwd at h1
    obtain ⟨_, h0, h1⟩ := bind_eq_ok.1 h1
    rw [assert_eq_ok] at h0
    obtain ⟨st, hst, h1⟩ := bind_eq_ok.1 h1
    cases h1
    refine ⟨?_, wf_of (cache := cache) ?_⟩
    · show ok (identity2 l.shape r.shape) = ok l.shape
      unfold identity2
      rw [← h0, ite_self]
    · refine (loop_len2 ?_ hst).1
      intro i a b hab
      obtain ⟨_, _, hab⟩ := bind_eq_ok.1 hab
      obtain ⟨_, _, hab⟩ := bind_eq_ok.1 hab
      obtain ⟨m, hm, hab⟩ := bind_eq_ok.1 hab
      obtain ⟨o, ho, hab⟩ := bind_eq_ok.1 hab
      cases hab
      exact ⟨wr_len ho, wr_len hm⟩
  | concat axe => exact concatEq_shape fl (concatenate_eq h)

/-! ### Expressions -/

/-- The forward actions of the expression's operators are those of the operators named by `ku` and `kb`. -/
def Named [Field α] [LinearOrder α] (ku : Nat → Op1 α) (kb : Nat → Op2 α) : Ex α → Prop
  | .leaf _ => True
  | .var _ _ => True
  | .un i op e => op.fwd = (ku i).fwd ∧ Named ku kb e
  | .bin i op l r => op.fwd = (kb i).fwd ∧ Named ku kb l ∧ Named ku kb r

/-- Bound tensors are well formed and every operator meets, on the values of its operands, the conditions under which its calculator is right. -/
def Regular (ku : Nat → Op1 α) (kb : Nat → Op2 α) (leaf data : Nat → Ten α) : Ex α → Prop
  | .leaf k => (leaf k).WF
  | .var v _ => (data v).WF
  | .un i _ e => Regular ku kb leaf data e ∧ ∀ x, eval leaf data e = ok x → Fits x ∧ (ku i).Regular x
  | .bin i _ l r => (Regular ku kb leaf data l ∧ Regular ku kb leaf data r) ∧
      ∀ x y, eval leaf data l = ok x → eval leaf data r = ok y → Fits x ∧ Fits y ∧ (kb i).Regular x y

/-- C79, where it holds: `shape()` of an expression built from the operators above is the shape of its value, and the value is a well formed tensor. -/
theorem shape_of_value_partial [Field α] [LinearOrder α] (ku : Nat → Op1 α) (kb : Nat → Op2 α) (leaf data : Nat → Ten α) (e : Ex α) (hn : Named ku kb e)
    (hr : Regular ku kb leaf data e) (y : Ten α) (h : eval leaf data e = ok y) : shapeOf ku kb leaf data e = ok y.shape ∧ y.WF := by
  induction e generalizing y with
  | leaf k =>
    obtain ⟨_, _, h⟩ := bind_eq_ok.1 h
    cases h
    exact ⟨rfl, hr⟩
  | var v c =>
    cases h
    exact ⟨rfl, hr⟩
  | un i op e ih =>
    obtain ⟨x, hx, h⟩ := bind_eq_ok.1 h
    obtain ⟨k1, k2⟩ := ih hn.2 hr.1 x hx
    rw [hn.1] at h
    obtain ⟨k3, k4⟩ := unary_shape (ku i) k2 (hr.2 x hx).1 (hr.2 x hx).2 h
    refine ⟨?_, k4⟩
    rw [shapeOf, k1, bind_ok, k3]
  | bin i op l r ihl ihr =>
    obtain ⟨x, hx, h⟩ := bind_eq_ok.1 h
    obtain ⟨z, hz, h⟩ := bind_eq_ok.1 h
    obtain ⟨k1, k2⟩ := ihl hn.2.1 hr.1.1 x hx
    obtain ⟨k3, k4⟩ := ihr hn.2.2 hr.1.2 z hz
    rw [hn.1] at h
    obtain ⟨g1, g2, g3⟩ := hr.2 x z hx hz
    obtain ⟨k5, k6⟩ := binary_shape (kb i) k2 k4 g1 g2 g3 h
    refine ⟨?_, k6⟩
    rw [shapeOf, k1, bind_ok, k3, bind_ok, k5]

/-! ### Where the calculators are wrong -/

/-- `reduce_sum( axis )` of a tensor of rank at most `axis` (the default axis is 2^64 - 1) reduces the last axis, and `shape()` is undefined. -/
theorem shape_reduce_violated [Field α] [LinearOrder α] (axis : Nat) (pre : List Nat) (n : Nat) (t cache : Ten α) (a : List Nat → α) (ht : t.Has (pre ++ [n]) a)
    (hax : pre.length < axis) :
    (∃ u, (Op1.reduceSum axis cache).fwd t = ok u ∧ u.shape = pre) ∧ (Op1.reduceSum axis cache).calc t.shape = ub ∧
      ∀ better index, (Op1.reduceExt better axis cache index).calc t.shape = ub := by
  have hc : reduceCalc axis t.shape = ub := by
    rw [ht.1]
    unfold reduceCalc
    rw [require_true (by simp), bind_ok]
    by_cases h : axis ≤ (pre ++ [n]).length
    · rw [require_true h, bind_ok, copyWithin_ub (by simp; omega)]
      rfl
    · rw [require_false h]
      rfl
  have hg : Ten.Has (⟨pre ++ [], List.replicate (size pre) 0⟩ : Ten α) (pre ++ []) _ := Ten.WF.has (by simp [Ten.WF])
  obtain ⟨u, d, v, w, h1, h2, _⟩ := Pool.reduce_sum_routes axis pre [] n t cache _ cache a _ ht hg (Or.inr ⟨rfl, hax.le⟩)
  rw [List.append_nil] at h2
  exact ⟨⟨u, h1, h2.1⟩, hc, fun _ _ => hc⟩

/-- The product of tensors of equal rank, the left one with more elements: `shape()` gives the shape of the right one. -/
theorem shape_product_violated [Field α] [LinearOrder α] (l r : Ten α) (hr : 0 < r.data.length) (hd : r.data.length ∣ l.data.length) (hlt : r.data.length < l.data.length)
    (hk : l.shape.length ≤ r.shape.length) (hne : l.shape ≠ r.shape) :
    ∃ u, (Op2.product : Op2 α).fwd l r = ok u ∧ u.shape = l.shape ∧ (Op2.product : Op2 α).calc l.shape r.shape = ok r.shape ∧ r.shape ≠ u.shape := by
  obtain ⟨u, h1, h2, _⟩ := elementwise_product_values l r (by omega) hr (Or.inr hd)
  rw [if_neg (by omega)] at h2
  refine ⟨u, h1, h2, ?_, by rw [h2]; exact hne.symm⟩
  show ok (identity2 l.shape r.shape) = _
  unfold identity2
  rw [if_neg (by omega)]

/-- `flatten` of samples with 2^31 elements or more: `shape()` computes the extent with `int`. -/
theorem shape_flatten_violated [Field α] [LinearOrder α] (b : Nat) (rest : List Nat) (t : Ten α) (hs : t.shape = b :: rest) (hw : t.WF) (hb : b ≠ 0) (hr : rest ≠ [])
    (hlo : 2 ^ 31 ≤ size rest) (hhi : size rest < 2 ^ 64 - 2 ^ 31) :
    ∃ u, (Op1.flatten : Op1 α).fwd t = ok u ∧ u.shape = [b, size rest] ∧ ∃ n, (Op1.flatten : Op1 α).calc t.shape = ok [b, n] ∧ n ≠ size rest := by
  have hq : t.data.length / b = size rest := by
    rw [hw, hs, size, Nat.mul_div_cancel_left _ (Nat.pos_of_ne_zero hb)]
  have hfw : flattenFwd t = reshapeV t [b, size rest] := by
    unfold flattenFwd
    rw [assert_true (by rw [hs]; simpa using List.length_pos_iff.2 hr), bind_ok, hs]
    show (do require (b ≠ 0); reshapeV t [b, t.data.length / b]) = _
    rw [require_true hb, bind_ok, hq]
  have hv : reshapeV t [b, size rest] = ok ⟨[b, size rest], t.data⟩ :=
    reshapeV_same (by simp) (by simp only [List.getLast?_cons_cons, List.getLast?_singleton, ne_eq, Option.some.injEq]; unfold Data.minusOne; omega)
      (by rw [hw, hs]; simp [size])
  refine ⟨_, hfw.trans hv, rfl, _, ?_, toU64_acc_ne hlo hhi⟩
  rw [hs]
  rfl

/-- `squeeze( -1 )` of a tensor without elements returns it unchanged; `shape()` drops its unit extents. -/
theorem shape_squeeze_violated [Field α] [LinearOrder α] (t : Ten α) (hd : t.data = []) (h1 : 1 ∈ t.shape) (h0 : 0 ∈ t.shape) :
    (Op1.squeeze (-1) : Op1 α).fwd t = ok t ∧ ∃ s, (Op1.squeeze (-1) : Op1 α).calc t.shape = ok s ∧ s ≠ t.shape := by
  refine ⟨?_, t.shape.filter (fun n => decide (n ≠ 1)), ?_, ?_⟩
  · show squeezeAxis t (-1) = _
    unfold squeezeAxis squeezeAll
    rw [if_pos rfl, if_pos (by simp [hd])]
  · show squeezeCalc (-1) t.shape = _
    unfold squeezeCalc
    rw [if_pos rfl]
    dsimp only
    rw [if_pos]
    exact List.length_pos_of_mem (a := 0) (by simp [h0])
  · intro h
    have := (List.filter_eq_self.1 h) 1 h1
    simp at this

/-- `flip` of a tensor without elements returns whatever the cache holds. -/
theorem shape_flip_violated [Field α] [LinearOrder α] (axis : Int) (t cache : Ten α) (hd : t.data = []) (hne : cache.shape ≠ t.shape) :
    (Op1.flip axis cache).fwd t = ok cache ∧ (Op1.flip axis cache).calc t.shape = ok t.shape ∧ cache.shape ≠ t.shape := by
  refine ⟨?_, rfl, hne⟩
  show flipInto t axis cache = _
  unfold flipInto
  rw [if_pos (by simp [hd])]

/-- `repeat( 1 )` of a scalar returns it; `shape()` is undefined. -/
theorem shape_repeat_violated [Field α] [LinearOrder α] (axis : Nat) (x : α) (cache : Ten α) :
    (Op1.repeat_ 1 axis cache).fwd ⟨[], [x]⟩ = ok ⟨[], [x]⟩ ∧ (Op1.repeat_ 1 axis cache).calc [] = ub := ⟨rfl, rfl⟩

/-- `reshape` applied to an expression whose batch size is still unknown (a place holder with a hint of 2^64 - 1 in front): the unknown extent
is lost, `shape()` gives some other number. -/
theorem shape_reshape_unknown_violated (new rest : List Nat) (hs : size rest = size new) (h2 : 2 ≤ size new) (h64 : size new < 2 ^ 64) :
    ∃ b, (Op1.reshape new true : Op1 α).calc (Data.minusOne :: rest) = ok (b :: new) ∧ b ≠ Data.minusOne ∧ b < 2 ^ 63 := by
  refine ⟨size (Data.minusOne :: rest) % 2 ^ 64 / (size new % 2 ^ 64), ?_, ?_⟩
  · show reshapeCalc new true _ = _
    unfold reshapeCalc
    rw [if_neg (by simp), require_true (by rw [Nat.mod_eq_of_lt h64]; omega), bind_ok]
    rfl
  · rw [Nat.mod_eq_of_lt h64, size, hs]
    have h3 : Data.minusOne * size new % 2 ^ 64 = 2 ^ 64 - size new := by
      have : Data.minusOne * size new = 2 ^ 64 - size new + 2 ^ 64 * (size new - 1) := by
        unfold Data.minusOne
        omega
      rw [this, Nat.add_mul_mod_self_left, Nat.mod_eq_of_lt (by omega)]
    rw [h3]
    have h4 : (2 ^ 64 - size new) / size new ≤ (2 ^ 64 - 2) / 2 :=
      (Nat.div_le_div_left h2 (by omega)).trans (Nat.div_le_div_right (by omega))
    have : (2 ^ 64 - size new) / size new < 2 ^ 63 := by omega
    exact ⟨by unfold Data.minusOne; omega, this⟩

/-! ### Examples -/

/-- `flatten( max_pooling_2d( 2 )( x ) ) * w` with `x` of shape 1×4×4×2 and `w` of shape 8×3. -/
def exLeaf : Nat → Ten ℚ := fun _ => ⟨[1, 4, 4, 2], List.replicate 32 1⟩
def exData : Nat → Ten ℚ := fun _ => ⟨[8, 3], List.replicate 24 2⟩
def exKu : Nat → Op1 ℚ := fun i => if i = 0 then .maxPool 2 ⟨[], []⟩ ⟨[], []⟩ else .flatten
def exKb : Nat → Op2 ℚ := fun _ => .matmul ⟨[], []⟩
def exEx (c : Cfg ℚ) (b : Ten ℚ → Ten ℚ → Ten ℚ → Res (Ten ℚ)) (b2 : Ten ℚ → Ten ℚ → Ten ℚ → Ten ℚ → Res (Ten ℚ × Ten ℚ)) : Ex ℚ :=
  .bin 2 ⟨(exKb 2).fwd, b2⟩ (.un 1 ⟨(exKu 1).fwd, b⟩ (.un 0 ⟨(exKu 0).fwd, b⟩ (.leaf 0))) (.var 0 c)

example (c : Cfg ℚ) (b b2) : Named exKu exKb (exEx c b b2) ∧ Regular exKu exKb exLeaf exData (exEx c b b2) ∧
    ∃ y, eval exLeaf exData (exEx c b b2) = ok y ∧ y.shape = [1, 3] := by
  have e0 : eval exLeaf exData (.un 0 ⟨(exKu 0).fwd, b⟩ (.leaf 0)) = ok (⟨[1, 2, 2, 2], List.replicate 8 1⟩ : Ten ℚ) := by rfl
  have e1 : eval exLeaf exData (.un 1 ⟨(exKu 1).fwd, b⟩ (.un 0 ⟨(exKu 0).fwd, b⟩ (.leaf 0))) = ok (⟨[1, 8], List.replicate 8 1⟩ : Ten ℚ) := by
    rw [eval, e0]
    rfl
  refine ⟨⟨rfl, ⟨rfl, rfl, trivial⟩, trivial⟩, ⟨⟨⟨⟨rfl, ?_⟩, ?_⟩, rfl⟩, ?_⟩, ?_⟩
  · intro x hx
    cases hx
    exact ⟨⟨by decide, by decide, by decide⟩, trivial⟩
  · intro x hx
    rw [e0] at hx
    cases hx
    exact ⟨⟨by decide, by decide, by decide⟩, show size [2, 2, 2] < 2 ^ 31 by decide⟩
  · intro x y hx hy
    rw [e1] at hx
    cases hx
    cases hy
    exact ⟨⟨by decide, by decide, by decide⟩, ⟨by decide, by decide, by decide⟩, trivial⟩
  · obtain ⟨y, h1, h2⟩ := Ops.matmul_forward ⟨[], []⟩ (⟨[1, 8], List.replicate 8 1⟩ : Ten ℚ) (exData 0) 1 8 3 _ _ (Ten.WF.has (by rfl)) (Ten.WF.has (by rfl))
      (by decide) (by decide) (by decide)
    refine ⟨y, ?_, h2.1⟩
    show (eval exLeaf exData (.un 1 ⟨(exKu 1).fwd, b⟩ (.un 0 ⟨(exKu 0).fwd, b⟩ (.leaf 0))) >>= _) = _
    rw [e1]
    exact h1

example : ∃ u, (Op2.product : Op2 ℚ).fwd ⟨[2, 3], [1, 2, 3, 4, 5, 6]⟩ ⟨[1, 3], [1, 2, 3]⟩ = ok u ∧ u.shape = [2, 3] ∧
    (Op2.product : Op2 ℚ).calc [2, 3] [1, 3] = ok [1, 3] ∧ [1, 3] ≠ u.shape :=
  shape_product_violated ⟨[2, 3], [1, 2, 3, 4, 5, 6]⟩ ⟨[1, 3], [1, 2, 3]⟩ (by decide) (by decide) (by decide) (by decide) (by decide)

example : ∃ b, (Op1.reshape [28, 28, 1] true : Op1 ℚ).calc [Data.minusOne, 784] = ok [b, 28, 28, 1] ∧ b ≠ Data.minusOne ∧ b < 2 ^ 63 :=
  shape_reshape_unknown_violated [28, 28, 1] [784] (by decide) (by decide) (by decide)

example (cache : Ten ℚ) : (Op1.reduceSum Data.minusOne cache).calc [2, 3] = ub := by
  have := (shape_reduce_violated Data.minusOne [2] 3 (⟨[2, 3], [1, 2, 3, 4, 5, 6]⟩ : Ten ℚ) cache _ (Ten.WF.has (by rfl)) (by decide)).2.1
  exact this

example (t : Ten ℚ) (hs : t.shape = [1, 2 ^ 31]) (hw : t.WF) : ∃ n, (Op1.flatten : Op1 ℚ).calc t.shape = ok [1, n] ∧ n ≠ size [2 ^ 31] := by
  have h : size [2 ^ 31] = 2 ^ 31 := Nat.mul_one _
  obtain ⟨u, _, _, n, h1, h2⟩ := shape_flatten_violated 1 [2 ^ 31] t hs hw (by decide) (by simp) h.symm.le (by rw [h]; omega)
  exact ⟨n, h1, h2⟩

example : ∃ t : Ten ℚ, t.shape = [1, 2 ^ 31] ∧ t.WF := ⟨⟨_, List.replicate _ 0⟩, rfl, List.length_replicate⟩

example : (Op1.squeeze (-1) : Op1 ℚ).fwd ⟨[0, 1], []⟩ = ok ⟨[0, 1], []⟩ ∧ ∃ s, (Op1.squeeze (-1) : Op1 ℚ).calc [0, 1] = ok s ∧ s ≠ [0, 1] :=
  shape_squeeze_violated ⟨[0, 1], []⟩ rfl (by decide) (by decide)

example : (Op1.flip 0 ⟨[2], [1, 2]⟩ : Op1 ℚ).fwd ⟨[0], []⟩ = ok ⟨[2], [1, 2]⟩ :=
  (shape_flip_violated 0 (⟨[0], []⟩ : Ten ℚ) ⟨[2], [1, 2]⟩ rfl (by decide)).1

end Verif.Shapes
