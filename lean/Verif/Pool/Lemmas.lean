import Verif.Pool.Model
import Verif.Data.Flip
import Verif.Basic.Grid
import Mathlib.Algebra.Order.Ring.Rat
import Mathlib.Algebra.BigOperators.Ring.Finset
/-!
# Pooling: helper lemmas
-/
namespace Verif.Pool
open Verif Res View Data

variable {α : Type}

theorem at4_eq (a r c ch i j k l : Nat) : at4 a r c ch i j k l = ((i * r + j) * c + k) * ch + l := by
  unfold at4; rw [at3_eq]; ring

theorem loopFrom_add {σ : Type} (a n : Nat) (body : Nat → σ → Res σ) (s : σ) :
    loopFrom a (a + n) body s = loop n (fun i => body (a + i)) s := by
  unfold loopFrom
  rw [if_neg (by omega), Nat.add_sub_cancel_left]

/-- Two independent loops run as one on a pair. -/
theorem loop_pair {σ τ : Type} {n : Nat} {f : Nat → σ → Res σ} {g : Nat → τ → Res τ} {body : Nat → σ × τ → Res (σ × τ)}
    {s s' : σ} {t t' : τ}
    (hb : ∀ i s t s1 t1, i < n → f i s = ok s1 → g i t = ok t1 → body i (s, t) = ok (s1, t1))
    (hf : loop n f s = ok s') (hg : loop n g t = ok t') : loop n body (s, t) = ok (s', t') := by
  induction n generalizing s' t' with
  | zero =>
    simp only [loop_zero, ok.injEq] at hf hg ⊢
    rw [hf, hg]
  | succ n ih =>
    rw [loop_succ] at hf hg ⊢
    cases e1 : loop n f s with
    | ok s1 =>
      cases e2 : loop n g t with
      | ok t1 =>
        rw [e1, bind_ok] at hf
        rw [e2, bind_ok] at hg
        rw [ih (fun i s t s1 t1 hi => hb i s t s1 t1 (by omega)) e1 e2, bind_ok]
        exact hb n s1 t1 s' t' (by omega) hf hg
      | abort => rw [e2] at hg; cases hg
      | ub => rw [e2] at hg; cases hg
    | abort => rw [e1] at hf; cases hf
    | ub => rw [e1] at hf; cases hf

/-- If a loop succeeds, every iteration did. -/
theorem loop_ok_step {σ : Type} {n : Nat} {body : Nat → σ → Res σ} {s s' : σ} (h : loop n body s = ok s') {i : Nat} (hi : i < n) :
    ∃ s1 s2, body i s1 = ok s2 := by
  induction n generalizing s' with
  | zero => omega
  | succ n ih =>
    rw [loop_succ] at h
    cases e : loop n body s with
    | ok t =>
      rw [e, bind_ok] at h
      by_cases hin : i = n
      · subst hin; exact ⟨t, s', h⟩
      · exact ih e (by omega)
    | abort => rw [e] at h; cases h
    | ub => rw [e] at h; cases h

theorem sum_mul_split [AddCommMonoid α] (m n : Nat) (f : Nat → α) :
    ∑ l ∈ Finset.range (m * n), f l = ∑ i ∈ Finset.range m, ∑ j ∈ Finset.range n, f (i * n + j) := by
  induction m with
  | zero => simp
  | succ m ih => rw [Nat.succ_mul, Finset.sum_range_add, ih, Finset.sum_range_succ]

theorem _root_.Verif.Is4.pos {A : List α} {k l m n : Nat} {a : Nat → Nat → Nat → Nat → α} (h : Is4 A k l m n a) {p : Nat}
    (hp : p < k * l * m * n) : A[p]? = some (a (dec4 l m n p).1 (dec4 l m n p).2.1 (dec4 l m n p).2.2.1 (dec4 l m n p).2.2.2) := by
  obtain ⟨w, x, i, j, hw, hx, hi, hj, rfl⟩ := exists_dec4 hp
  rw [h.2 w x i j hw hx hi hj, dec4_enc hx hi hj]

/-- Inner product of four-dimensional tables. -/
theorem dot4 [CommSemiring α] {A B : List α} {k l m n : Nat} {a b : Nat → Nat → Nat → Nat → α} (hA : Is4 A k l m n a) (hB : Is4 B k l m n b) :
    dot A B = ∑ w ∈ Finset.range k, ∑ x ∈ Finset.range l, ∑ i ∈ Finset.range m, ∑ j ∈ Finset.range n, a w x i j * b w x i j := by
  rw [dot_eq_sum hA.1 hB.1 (fun p hp => hA.pos hp) (fun p hp => hB.pos hp), sum_mul_split, sum_mul_split, sum_mul_split]
  refine Finset.sum_congr rfl (fun w _ => Finset.sum_congr rfl (fun x hx => Finset.sum_congr rfl (fun i hi => Finset.sum_congr rfl (fun j hj => ?_))))
  rw [dec4_enc (Finset.mem_range.mp hx) (Finset.mem_range.mp hi) (Finset.mem_range.mp hj)]

/-- Inner product of three-dimensional tables. -/
theorem dot3 [CommSemiring α] {A B : List α} {l m n : Nat} {a b : Nat → Nat → Nat → α} (hA : Is3 A l m n a) (hB : Is3 B l m n b) :
    dot A B = ∑ x ∈ Finset.range l, ∑ i ∈ Finset.range m, ∑ j ∈ Finset.range n, a x i j * b x i j := by
  have e : ∀ (A : List α) (a : Nat → Nat → Nat → α), Is3 A l m n a → ∀ p, p < l * m * n →
      A[p]? = some (a (dec3 m n p).1 (dec3 m n p).2.1 (dec3 m n p).2.2) := by
    intro A a h p hp
    obtain ⟨x, i, j, hx, hi, hj, rfl⟩ := exists_dec3 hp
    rw [h.2 x i j hx hi hj, dec3_enc hi hj]
  rw [dot_eq_sum hA.1 hB.1 (e A a hA) (e B b hB), sum_mul_split, sum_mul_split]
  refine Finset.sum_congr rfl (fun x hx => Finset.sum_congr rfl (fun i hi => Finset.sum_congr rfl (fun j hj => ?_)))
  rw [dec3_enc (Finset.mem_range.mp hi) (Finset.mem_range.mp hj)]

/-- Accumulating into a four-dimensional table: one cell per outer iteration. -/
theorem accum4 [AddCommMonoid α] {k l m n : Nat} {body : Nat → Nat → Nat → Nat → List α → Res (List α)} {f : Nat → Nat → Nat → Nat → α}
    (h : ∀ w x i j, w < k → x < l → i < m → j < n →
      Adds (fun o => body w x i j o) (k * l * m * n) (fun p => if p = ((w * l + x) * m + i) * n + j then f w x i j else 0)) :
    ∃ o', loop k (fun w o => loop l (fun x o => loop m (fun i o => loop n (fun j o => body w x i j o) o) o) o)
      (List.replicate (k * l * m * n) 0) = ok o' ∧ Is4 o' k l m n f := by
  have hadds : Adds (fun o => loop k (fun w o => loop l (fun x o => loop m (fun i o => loop n (fun j o => body w x i j o) o) o) o) o)
      (k * l * m * n) (fun p => ∑ w ∈ Finset.range k, ∑ x ∈ Finset.range l, ∑ i ∈ Finset.range m, ∑ j ∈ Finset.range n,
        if p = ((w * l + x) * m + i) * n + j then f w x i j else 0) :=
    Adds.loop (fun w hw => Adds.loop (fun x hx => Adds.loop (fun i hi => Adds.loop (fun j hj => h w x i j hw hx hi hj))))
  obtain ⟨o', h1, h2, h3⟩ := hadds.run (o := List.replicate (k * l * m * n) (0 : α)) (g := fun _ => 0) (by simp) (fun p hp => by simp [hp])
  refine ⟨o', h1, h2, fun w x i j hw hx hi hj => ?_⟩
  rw [h3 _ (idx4_lt hw hx hi hj), zero_add]
  congr 1
  have inj : ∀ w' x' i' j', x' < l → i' < m → j' < n → ((w * l + x) * m + i) * n + j = ((w' * l + x') * m + i') * n + j' →
      w = w' ∧ x = x' ∧ i = i' ∧ j = j' := by
    intro w' x' i' j' hx' hi' hj' e
    obtain ⟨e1, e2⟩ := mul_add_inj hj hj' e
    obtain ⟨e3, e4⟩ := mul_add_inj hi hi' e1
    obtain ⟨e5, e6⟩ := mul_add_inj hx hx' e3
    exact ⟨e5, e6, e4, e2⟩
  rw [Finset.sum_eq_single_of_mem w (Finset.mem_range.mpr hw), Finset.sum_eq_single_of_mem x (Finset.mem_range.mpr hx),
    Finset.sum_eq_single_of_mem i (Finset.mem_range.mpr hi), Finset.sum_eq_single_of_mem j (Finset.mem_range.mpr hj), if_pos rfl]
  · intro j' hj' hne
    rw [if_neg (fun e => hne (inj w x i j' hx hi (Finset.mem_range.mp hj') e).2.2.2.symm)]
  · intro i' hi' hne
    refine Finset.sum_eq_zero (fun j' hj' => ?_)
    rw [if_neg (fun e => hne (inj w x i' j' hx (Finset.mem_range.mp hi') (Finset.mem_range.mp hj') e).2.2.1.symm)]
  · intro x' hx' hne
    refine Finset.sum_eq_zero (fun i' hi' => Finset.sum_eq_zero (fun j' hj' => ?_))
    rw [if_neg (fun e => hne (inj w x' i' j' (Finset.mem_range.mp hx') (Finset.mem_range.mp hi') (Finset.mem_range.mp hj') e).2.1.symm)]
  · intro w' _ hne
    refine Finset.sum_eq_zero (fun x' hx' => Finset.sum_eq_zero (fun i' hi' => Finset.sum_eq_zero (fun j' hj' => ?_)))
    rw [if_neg (fun e => hne (inj w' x' i' j' (Finset.mem_range.mp hx') (Finset.mem_range.mp hi') (Finset.mem_range.mp hj') e).1.symm)]

/-- Adding several values to one cell. -/
theorem adds_cell [AddCommMonoid α] {N q n : Nat} {body : Nat → List α → Res (List α)} {v : Nat → α} (hq : q < N)
    (h : ∀ i o, i < n → o.length = N → body i o = addAt o q (v i)) :
    Adds (fun o => loop n body o) N (fun p => if p = q then ∑ i ∈ Finset.range n, v i else 0) := by
  refine Adds.congr (Adds.loop (inc := fun i p => if p = q then v i else 0) (fun i hi => (adds_addAt hq).congr_prog (fun o ho => h i o hi ho)))
    (fun p _ => ?_)
  by_cases e : p = q
  · simp [e]
  · simp [e]

theorem adds_cell2 [AddCommMonoid α] {N q n m : Nat} {body : Nat → Nat → List α → Res (List α)} {v : Nat → Nat → α} (hq : q < N)
    (h : ∀ i j o, i < n → j < m → o.length = N → body i j o = addAt o q (v i j)) :
    Adds (fun o => loop n (fun i o => loop m (fun j o => body i j o) o) o) N
      (fun p => if p = q then ∑ i ∈ Finset.range n, ∑ j ∈ Finset.range m, v i j else 0) := by
  refine Adds.congr (Adds.loop (inc := fun i p => if p = q then ∑ j ∈ Finset.range m, v i j else 0)
    (fun i hi => adds_cell hq (fun j o hj ho => h i j o hi hj ho))) (fun p _ => ?_)
  by_cases e : p = q
  · simp [e]
  · simp [e]

theorem win_lt {R s r i : Nat} (hr : r < R / s) (hi : i < s) : r * s + i < R :=
  calc r * s + i < r * s + s := by omega
    _ = (r + 1) * s := by ring
    _ ≤ R / s * s := Nat.mul_le_mul_right _ hr
    _ ≤ R := Nat.div_mul_le_self R s

theorem ten4 {t : Ten α} {a b c d : Nat} {f : List Nat → α} (h : t.Has [a, b, c, d] f) :
    t.shape = [a, b, c, d] ∧ Is4 t.data a b c d (fun w x i j => f [w, x, i, j]) := ⟨h.1, is4_iff.mp h.2⟩

theorem has4 {sh : List Nat} {D : List α} {a b c d : Nat} {f : Nat → Nat → Nat → Nat → α} {f' : List Nat → α} (hs : sh = [a, b, c, d])
    (h : Is4 D a b c d f) (e : ∀ w x i j, w < a → x < b → i < c → j < d → f w x i j = f' [w, x, i, j]) :
    (⟨sh, D⟩ : Ten α).Has [a, b, c, d] f' := by
  refine ⟨hs, is4_iff.mpr ⟨h.1, fun w x i j hw hx hi hj => ?_⟩⟩
  dsimp only
  rw [← e w x i j hw hx hi hj]; exact h.2 w x i j hw hx hi hj

theorem size4 (a b c d : Nat) : size [a, b, c, d] = a * b * c * d := by simp; ring

theorem fill0 [Zero α] (t : Ten α) (s : List Nat) :
    Gemm.fillN (resizeV t s).data.length 0 (resizeV t s).data = ok (List.replicate (size s) 0) := by
  rw [Gemm.fillN_ok rfl, resizeV_length]

/-- An operator's cache that is unused, holds another number of elements, or holds zeros, is zero after `resize`. -/
def Blank [Zero α] (cache : Ten α) (s : List Nat) : Prop := cache.data.length ≠ size s ∨ ∀ x ∈ cache.data, x = 0

theorem Blank.get [Zero α] {cache : Ten α} {s : List Nat} (h : Blank cache s) {p : Nat} (hp : p < size s) :
    (resizeV cache s).data[p]? = some 0 := by
  unfold resizeV
  dsimp only
  split
  · rename_i hl
    rcases h with h | h
    · exact absurd hl h
    · rw [List.getElem?_eq_getElem (by omega), h _ (List.getElem_mem _)]
  · simp [hp]

theorem blank_nil [Zero α] (s : List Nat) : Blank (⟨[], []⟩ : Ten α) s := Or.inr (by simp)

end Verif.Pool
