import Verif.Fp.Spec
import Verif.Gemm.Lemmas
/-!
# Computing with rounding (lemmas)
-/
namespace Verif.Fp
open Verif Res Gemm Finset

variable {F : Type}

section
variable [Arith F]

theorem one_le_pow (n : Nat) : 1 ≤ (1 + Arith.u F) ^ n := one_le_pow₀ (by have := Arith.u_nonneg (F := F); linarith)

theorem list_abs_sum (l : List F) : |(l.map val).sum| ≤ (l.map (fun x => |val x|)).sum := by
  induction l with
  | nil => simp
  | cons a l ih =>
    simp only [List.map_cons, List.sum_cons]
    exact (abs_add_le _ _).trans (by linarith)

theorem list_abs_nonneg (l : List F) : 0 ≤ (l.map (fun x => |val x|)).sum := by
  induction l with
  | nil => simp
  | cons a l ih => simp only [List.map_cons, List.sum_cons]; have := abs_nonneg (val a); linarith

theorem Sums.pos {l : List F} {r : F} (h : Sums l r) : 1 ≤ l.length := by
  induction h with
  | one => simp
  | add _ _ h1 _ => rw [List.length_append]; omega
  | perm p _ h => rw [← p.length_eq]; exact h

/-- Any way to add up numbers is within the bound, if it is finite. -/
theorem sums_err {l : List F} {r : F} (h : Sums l r) (hf : fin r) :
    |val r - (l.map val).sum| ≤ sumBound (Arith.u F) (l.length - 1) (l.map (fun x => |val x|)).sum ∧ ∀ x ∈ l, fin x := by
  have hu := Arith.u_nonneg (F := F)
  induction h with
  | one x => simp [sumBound, hf]
  | @add l m a b h1 h2 i1 i2 =>
    obtain ⟨f1, f2, e⟩ := Arith.add_err _ _ hf
    obtain ⟨a1, a2⟩ := i1 f1
    obtain ⟨b1, b2⟩ := i2 f2
    refine ⟨?_, fun x hx => (List.mem_append.mp hx).elim (a2 x) (b2 x)⟩
    simp only [List.map_append, List.sum_append, List.length_append]
    have p1 := h1.pos
    have p2 := h2.pos
    set s := (l.map val).sum
    set t := (m.map val).sum
    have hS := list_abs_nonneg l
    have hT := list_abs_nonneg m
    have hs : |s| ≤ _ := list_abs_sum l
    have ht : |t| ≤ _ := list_abs_sum m
    set S := (l.map (fun x => |val x|)).sum
    set T := (m.map (fun x => |val x|)).sum
    unfold sumBound at *
    have g1 : (1 + Arith.u F) * (1 + Arith.u F) ^ (l.length - 1) ≤ (1 + Arith.u F) ^ (l.length + m.length - 1) := by
      rw [← pow_succ']
      exact pow_le_pow_right₀ (by linarith) (by omega)
    have g2 : (1 + Arith.u F) * (1 + Arith.u F) ^ (m.length - 1) ≤ (1 + Arith.u F) ^ (l.length + m.length - 1) := by
      rw [← pow_succ']
      exact pow_le_pow_right₀ (by linarith) (by omega)
    have hab : |val a + val b| ≤ |val a - s| + |val b - t| + S + T := by
      have : val a + val b = ((val a - s) + (val b - t)) + (s + t) := by ring
      rw [this]
      linarith [abs_add_le ((val a - s) + (val b - t)) (s + t), abs_add_le (val a - s) (val b - t), abs_add_le s t]
    have hr : |val (a + b) - (s + t)| ≤ |val (a + b) - (val a + val b)| + (|val a - s| + |val b - t|) := by
      have : val (a + b) - (s + t) = (val (a + b) - (val a + val b)) + ((val a - s) + (val b - t)) := by ring
      rw [this]
      linarith [abs_add_le (val (a + b) - (val a + val b)) ((val a - s) + (val b - t)), abs_add_le (val a - s) (val b - t)]
    have k1 := mul_le_mul_of_nonneg_right g1 hS
    have k2 := mul_le_mul_of_nonneg_right g2 hT
    have k3 := mul_le_mul_of_nonneg_left hab hu
    nlinarith
  | perm p _ i =>
    obtain ⟨e, f⟩ := i hf
    refine ⟨?_, fun x hx => f x (p.mem_iff.mpr hx)⟩
    rw [← (p.map val).sum_eq, ← (p.map (fun x => |val x|)).sum_eq, ← p.length_eq]
    exact e

theorem sums_fin {l : List F} {r : F} (h : Sums l r) (hf : ∀ x ∈ l, fin x)
    (ht : (l.map (fun x => |val x|)).sum + sumBound (Arith.u F) (l.length - 1) (l.map (fun x => |val x|)).sum ≤ Arith.top F) : fin r := by
  have hu := Arith.u_nonneg (F := F)
  induction h with
  | one x => exact hf x (by simp)
  | @add l m a b h1 h2 i1 i2 =>
    have p1 := h1.pos
    have p2 := h2.pos
    have hS := list_abs_nonneg l
    have hT := list_abs_nonneg m
    have hs := list_abs_sum l
    have ht' := list_abs_sum m
    simp only [List.map_append, List.sum_append, List.length_append] at ht
    have g1 : (1 + Arith.u F) ^ (l.length - 1) ≤ (1 + Arith.u F) ^ (l.length + m.length - 1) := pow_le_pow_right₀ (by linarith) (by omega)
    have g2 : (1 + Arith.u F) ^ (m.length - 1) ≤ (1 + Arith.u F) ^ (l.length + m.length - 1) := pow_le_pow_right₀ (by linarith) (by omega)
    have g0 := one_le_pow (F := F) (l.length + m.length - 1)
    have k1 := mul_le_mul_of_nonneg_right g1 hS
    have k2 := mul_le_mul_of_nonneg_right g2 hT
    have k3 := mul_le_mul_of_nonneg_right g0 hS
    have k4 := mul_le_mul_of_nonneg_right g0 hT
    have f1 := i1 (fun x hx => hf x (List.mem_append_left _ hx)) (by unfold sumBound at *; nlinarith)
    have f2 := i2 (fun x hx => hf x (List.mem_append_right _ hx)) (by unfold sumBound at *; nlinarith)
    have e1 := (sums_err h1 f1).1
    have e2 := (sums_err h2 f2).1
    refine Arith.add_fin _ _ f1 f2 ?_
    have hab : |val a + val b| ≤ |val a - (l.map val).sum| + |val b - (m.map val).sum| + |(l.map val).sum| + |(m.map val).sum| := by
      have : val a + val b = ((val a - (l.map val).sum) + (val b - (m.map val).sum)) + ((l.map val).sum + (m.map val).sum) := by ring
      rw [this]
      linarith [abs_add_le ((val a - (l.map val).sum) + (val b - (m.map val).sum)) ((l.map val).sum + (m.map val).sum),
        abs_add_le (val a - (l.map val).sum) (val b - (m.map val).sum), abs_add_le (l.map val).sum (m.map val).sum]
    unfold sumBound at *
    nlinarith
  | perm p _ i =>
    refine i (fun x hx => hf x (p.mem_iff.mp hx)) ?_
    rw [(p.map (fun x => |val x|)).sum_eq, p.length_eq]
    exact ht

theorem list_int {l : List F} (h : ∀ x ∈ l, ∃ k : ℤ, val x = k) : ∃ k : ℤ, (l.map val).sum = k := by
  induction l with
  | nil => exact ⟨0, by simp⟩
  | cons a l ih =>
    obtain ⟨k, hk⟩ := ih (fun x hx => h x (List.mem_cons_of_mem _ hx))
    obtain ⟨j, hj⟩ := h a (by simp)
    exact ⟨j + k, by rw [List.map_cons, List.sum_cons, hk, hj]; push_cast; rfl⟩

theorem sums_exact {l : List F} {r : F} (h : Sums l r) (hf : ∀ x ∈ l, fin x ∧ ∃ k : ℤ, val x = k)
    (ht : (l.map (fun x => |val x|)).sum < Arith.whole F) : fin r ∧ val r = (l.map val).sum := by
  induction h with
  | one x => exact ⟨(hf x (by simp)).1, by simp⟩
  | @add l m a b h1 h2 i1 i2 =>
    have hS := list_abs_nonneg l
    have hT := list_abs_nonneg m
    have hs := list_abs_sum l
    have ht' := list_abs_sum m
    simp only [List.map_append, List.sum_append] at ht ⊢
    have q1 := fun x (hx : x ∈ l) => hf x (List.mem_append_left m hx)
    have q2 := fun x (hx : x ∈ m) => hf x (List.mem_append_right l hx)
    obtain ⟨f1, e1⟩ := i1 q1 (by linarith)
    obtain ⟨f2, e2⟩ := i2 q2 (by linarith)
    obtain ⟨j, hj⟩ := list_int (fun x hx => (q1 x hx).2)
    obtain ⟨k, hk⟩ := list_int (fun x hx => (q2 x hx).2)
    obtain ⟨a1, a2⟩ := Arith.add_exact _ _ f1 f2 ⟨j + k, by rw [e1, e2, hj, hk]; push_cast; rfl⟩ (by
      rw [e1, e2]
      exact lt_of_le_of_lt (abs_add_le _ _) (by linarith))
    exact ⟨a1, by rw [a2, e1, e2]⟩
  | perm p _ i =>
    rw [← (p.map val).sum_eq]
    refine i (fun x hx => hf x (p.mem_iff.mp hx)) ?_
    rw [(p.map (fun x => |val x|)).sum_eq]
    exact ht

/-- What adding up a list, from zero and in any order, may be relied on for. -/
theorem sums_accurate {l : List F} {r : F} (h : Sums (0 :: l) r) : AccurateSum l r := by
  have hz : |val (0 : F)| = 0 := by rw [Arith.val_zero, abs_zero]
  have hc : ((0 : F) :: l).length - 1 = l.length := by simp
  have e1 : (((0 : F) :: l).map val).sum = (l.map val).sum := by rw [List.map_cons, List.sum_cons, Arith.val_zero, zero_add]
  have e2 : (((0 : F) :: l).map (fun x => |val x|)).sum = (l.map (fun x => |val x|)).sum := by rw [List.map_cons, List.sum_cons, hz, zero_add]
  refine ⟨fun hf => ?_, fun hl ht => ?_, fun hl ht => ?_⟩
  · obtain ⟨h1, h2⟩ := sums_err h hf
    rw [e1, e2, hc] at h1
    exact ⟨fun x hx => h2 x (List.mem_cons_of_mem _ hx), h1⟩
  · refine sums_fin h (fun x hx => ?_) (by rw [e2, hc]; exact ht)
    rcases List.mem_cons.mp hx with rfl | hx
    · exact Arith.fin_zero
    · exact hl x hx
  · rw [← e1]
    refine sums_exact h (fun x hx => ?_) (by rw [e2]; exact ht)
    rcases List.mem_cons.mp hx with rfl | hx
    · exact ⟨Arith.fin_zero, 0, by rw [Arith.val_zero]; simp⟩
    · exact hl x hx

theorem sum_range_list (g : Nat → ℝ) (n : Nat) : ((List.range n).map g).sum = ∑ i ∈ range n, g i := by
  induction n with
  | zero => simp
  | succ n ih => rw [List.range_succ, List.map_append, List.sum_append, ih, sum_range_succ]; simp

theorem sums_dot_accurate {x y : Nat → F} {n : Nat} {r : F} (h : Sums (0 :: prods x y n) r) : Accurate x y n r := by
  have hu := Arith.u_nonneg (F := F)
  have hw := Arith.w_nonneg (F := F)
  obtain ⟨s1, s2, s3⟩ := sums_accurate h
  have hlen : (prods x y n).length = n := by simp [prods]
  have m1 : ((prods x y n).map val).sum = ∑ i ∈ range n, val (x i * y i) := by
    rw [prods, List.map_map, ← sum_range_list]; rfl
  have m2 : ((prods x y n).map (fun x => |val x|)).sum = ∑ i ∈ range n, |val (x i * y i)| := by
    rw [prods, List.map_map, ← sum_range_list]; rfl
  have mem : ∀ {p : F → Prop}, (∀ z ∈ prods x y n, p z) ↔ ∀ i, i < n → p (x i * y i) := by
    intro p; simp [prods]
  rw [m1, m2, hlen, mem] at s1
  rw [m2, hlen, mem] at s2
  rw [m1, m2, mem] at s3
  set S := ∑ i ∈ range n, |val (x i)| * |val (y i)| with hS
  have hS0 : 0 ≤ S := Finset.sum_nonneg (fun i _ => by positivity)
  have g1 := one_le_pow (F := F) n
  -- the rounded products against the exact ones
  have pr : (∀ i, i < n → fin (x i * y i)) →
      |∑ i ∈ range n, val (x i * y i) - ∑ i ∈ range n, val (x i) * val (y i)| ≤ Arith.u F * S + n * Arith.w F ∧
      ∑ i ∈ range n, |val (x i * y i)| ≤ (1 + Arith.u F) * S + n * Arith.w F := by
    intro hf
    have hb : ∀ i ∈ range n, |val (x i * y i) - val (x i) * val (y i)| ≤ Arith.u F * (|val (x i)| * |val (y i)|) + Arith.w F := by
      intro i hi
      rw [← abs_mul]
      exact (Arith.mul_err _ _ (hf i (mem_range.mp hi))).2.2
    have hsum : ∑ i ∈ range n, (Arith.u F * (|val (x i)| * |val (y i)|) + Arith.w F) = Arith.u F * S + n * Arith.w F := by
      rw [Finset.sum_add_distrib, ← Finset.mul_sum]; simp [hS]
    constructor
    · rw [← Finset.sum_sub_distrib, ← hsum]
      exact (Finset.abs_sum_le_sum_abs _ _).trans (Finset.sum_le_sum hb)
    · have : (1 + Arith.u F) * S + n * Arith.w F = ∑ i ∈ range n, (|val (x i)| * |val (y i)| + (Arith.u F * (|val (x i)| * |val (y i)|) + Arith.w F)) := by
        rw [Finset.sum_add_distrib, hsum]; ring
      rw [this]
      refine Finset.sum_le_sum (fun i hi => ?_)
      have h1 := hb i hi
      have h2 : |val (x i * y i)| ≤ |val (x i * y i) - val (x i) * val (y i)| + |val (x i) * val (y i)| := by
        have := abs_add_le (val (x i * y i) - val (x i) * val (y i)) (val (x i) * val (y i))
        simpa using this
      rw [abs_mul (val (x i)) (val (y i))] at h2
      linarith
  have bd : ∀ T, T ≤ (1 + Arith.u F) * S + n * Arith.w F → sumBound (Arith.u F) n T + (Arith.u F * S + n * Arith.w F) ≤ dotBound (Arith.u F) (Arith.w F) n S := by
    intro T hT
    have := mul_le_mul_of_nonneg_left hT (show 0 ≤ (1 + Arith.u F) ^ n - 1 by linarith)
    unfold sumBound dotBound
    rw [pow_succ]
    nlinarith
  refine ⟨fun hf => ?_, fun hxy ht => ?_, fun hxy ht => ?_⟩
  · obtain ⟨f1, f2⟩ := s1 hf
    obtain ⟨p1, p2⟩ := pr f1
    refine ⟨fun i hi => ⟨(Arith.mul_err _ _ (f1 i hi)).1, (Arith.mul_err _ _ (f1 i hi)).2.1⟩, ?_⟩
    refine le_trans ?_ (bd _ p2)
    have : val r - ∑ i ∈ range n, val (x i) * val (y i) = (val r - ∑ i ∈ range n, val (x i * y i)) +
      (∑ i ∈ range n, val (x i * y i) - ∑ i ∈ range n, val (x i) * val (y i)) := by ring
    rw [this]
    exact (abs_add_le _ _).trans (add_le_add f2 p1)
  · have hd0 : 0 ≤ dotBound (Arith.u F) (Arith.w F) n S := by
      unfold dotBound
      have := one_le_pow (F := F) (n + 1)
      have : 0 ≤ ((1 + Arith.u F) ^ (n + 1) - 1) * S := mul_nonneg (by linarith) hS0
      positivity
    have f1 : ∀ i, i < n → fin (x i * y i) := fun i hi => Arith.mul_fin _ _ (hxy i hi).1 (hxy i hi).2 (by
      have : |val (x i)| * |val (y i)| ≤ S := Finset.single_le_sum (f := fun i => |val (x i)| * |val (y i)|) (fun i _ => by positivity) (mem_range.mpr hi)
      rw [abs_mul]; linarith)
    obtain ⟨p1, p2⟩ := pr f1
    refine s2 f1 ?_
    have := bd _ p2
    linarith
  · have f1 : ∀ i, i < n → fin (x i * y i) ∧ val (x i * y i) = val (x i) * val (y i) := fun i hi => by
      obtain ⟨⟨a1, a2⟩, ⟨k, hk⟩, ⟨j, hj⟩⟩ := hxy i hi
      refine Arith.mul_exact _ _ a1 a2 ⟨k * j, by rw [hk, hj]; push_cast; rfl⟩ ?_
      have : |val (x i)| * |val (y i)| ≤ S := Finset.single_le_sum (f := fun i => |val (x i)| * |val (y i)|) (fun i _ => by positivity) (mem_range.mpr hi)
      rw [abs_mul]; linarith
    obtain ⟨r1, r2⟩ := s3 (fun i hi => ⟨(f1 i hi).1, by
      obtain ⟨_, ⟨k, hk⟩, ⟨j, hj⟩⟩ := hxy i hi
      exact ⟨k * j, by rw [(f1 i hi).2, hk, hj]; push_cast; rfl⟩⟩) (by
        refine lt_of_le_of_lt (le_of_eq ?_) ht
        exact Finset.sum_congr rfl (fun i hi => by rw [(f1 i (mem_range.mp hi)).2, abs_mul]))
    exact ⟨r1, by rw [r2]; exact Finset.sum_congr rfl (fun i hi => (f1 i (mem_range.mp hi)).2)⟩

theorem dot_sums (x y : Nat → F) (n : Nat) : Sums (0 :: prods x y n) (dot x y n) := by
  induction n with
  | zero => exact .one 0
  | succ n ih =>
    rw [prods, List.range_succ, List.map_append, ← List.cons_append]
    exact .add ih (.one _)

end

/-! ### fused operations -/

section
variable [Fused F]

/-- The exact sum, and the sum of the absolute values. -/
def psum (l : List (F × F)) : ℝ := (l.map (fun p => val p.1 * val p.2)).sum
def pabs (l : List (F × F)) : ℝ := (l.map (fun p => |val p.1| * |val p.2|)).sum

theorem psum_append (l m : List (F × F)) : psum (l ++ m) = psum l + psum m := by simp [psum]
theorem pabs_append (l m : List (F × F)) : pabs (l ++ m) = pabs l + pabs m := by simp [pabs]
theorem psum_cons (x y : F) (l : List (F × F)) : psum ((x, y) :: l) = val x * val y + psum l := by simp [psum]
theorem pabs_cons (x y : F) (l : List (F × F)) : pabs ((x, y) :: l) = |val x| * |val y| + pabs l := by simp [pabs]
theorem psum_perm {l m : List (F × F)} (p : l.Perm m) : psum l = psum m := (p.map _).sum_eq
theorem pabs_perm {l m : List (F × F)} (p : l.Perm m) : pabs l = pabs m := (p.map _).sum_eq

theorem pabs_nonneg (l : List (F × F)) : 0 ≤ pabs l := by
  induction l with
  | nil => simp [pabs]
  | cons p l ih => rw [pabs_cons]; positivity

theorem psum_le (l : List (F × F)) : |psum l| ≤ pabs l := by
  induction l with
  | nil => simp [psum, pabs]
  | cons p l ih =>
    rw [psum_cons, pabs_cons, ← abs_mul]
    exact (abs_add_le _ _).trans (by linarith)

theorem Dots.pos {l : List (F × F)} {r : F} (h : Dots l r) : 1 ≤ l.length := by
  induction h with
  | zero => simp
  | mul => simp
  | add _ _ h1 _ => rw [List.length_append]; omega
  | fma _ _ _ _ => rw [List.length_cons]; omega
  | perm p _ h => rw [← p.length_eq]; exact h

/-- The bound for a list of `n` pairs. -/
def fb (u w : ℝ) (n : Nat) (S : ℝ) : ℝ := ((1 + u) ^ n - 1) * S + n * (1 + u) ^ (n - 1) * w

theorem fb_nonneg {u w S : ℝ} (n : Nat) (hu : 0 ≤ u) (hw : 0 ≤ w) (hS : 0 ≤ S) : 0 ≤ fb u w n S := by
  have : 1 ≤ (1 + u) ^ n := one_le_pow₀ (by linarith)
  have : 0 ≤ ((1 + u) ^ n - 1) * S := mul_nonneg (by linarith) hS
  unfold fb
  positivity

theorem fb_add {u w S T : ℝ} {l m : Nat} (hu : 0 ≤ u) (hw : 0 ≤ w) (hS : 0 ≤ S) (hT : 0 ≤ T) (hl : 1 ≤ l) (hm : 1 ≤ m) :
    (1 + u) * (fb u w l S + fb u w m T) + u * (S + T) ≤ fb u w (l + m) (S + T) := by
  obtain ⟨l, rfl⟩ : ∃ k, l = k + 1 := ⟨l - 1, by omega⟩
  obtain ⟨m, rfl⟩ : ∃ k, m = k + 1 := ⟨m - 1, by omega⟩
  unfold fb
  have e : l + 1 + (m + 1) - 1 = l + m + 1 := by omega
  have e' : l + 1 + (m + 1) = l + m + 1 + 1 := by omega
  rw [e, e', Nat.add_sub_cancel, Nat.add_sub_cancel]
  have g1 : (1 + u) ^ l * (1 + u) * (1 + u) ≤ (1 + u) ^ (l + m + 1 + 1) := by
    rw [← pow_succ, ← pow_succ]; exact pow_le_pow_right₀ (by linarith) (by omega)
  have g2 : (1 + u) ^ m * (1 + u) * (1 + u) ≤ (1 + u) ^ (l + m + 1 + 1) := by
    rw [← pow_succ, ← pow_succ]; exact pow_le_pow_right₀ (by linarith) (by omega)
  have g3 : (1 + u) ^ l * (1 + u) ≤ (1 + u) ^ (l + m + 1) := by
    rw [← pow_succ]; exact pow_le_pow_right₀ (by linarith) (by omega)
  have g4 : (1 + u) ^ m * (1 + u) ≤ (1 + u) ^ (l + m + 1) := by
    rw [← pow_succ]; exact pow_le_pow_right₀ (by linarith) (by omega)
  have k1 := mul_le_mul_of_nonneg_right g1 hS
  have k2 := mul_le_mul_of_nonneg_right g2 hT
  have k3 := mul_le_mul_of_nonneg_right g3 (show 0 ≤ ((l : ℝ) + 1) * w by positivity)
  have k4 := mul_le_mul_of_nonneg_right g4 (show 0 ≤ ((m : ℝ) + 1) * w by positivity)
  push_cast
  rw [pow_succ (1 + u) l, pow_succ (1 + u) m]
  linarith

theorem fb_fma {u w S q : ℝ} {l : Nat} (hu : 0 ≤ u) (hw : 0 ≤ w) (hq : 0 ≤ q) (hl : 1 ≤ l) :
    (1 + u) * fb u w l S + u * (q + S) + w ≤ fb u w (l + 1) (q + S) := by
  obtain ⟨l, rfl⟩ : ∃ k, l = k + 1 := ⟨l - 1, by omega⟩
  unfold fb
  rw [Nat.add_sub_cancel, Nat.add_sub_cancel]
  have g1 : 1 + u ≤ (1 + u) ^ (l + 1 + 1) := by
    calc 1 + u = (1 + u) ^ 1 := by ring
      _ ≤ _ := pow_le_pow_right₀ (by linarith) (by omega)
  have g2 : 1 ≤ (1 + u) ^ (l + 1) := one_le_pow₀ (by linarith)
  have k1 := mul_le_mul_of_nonneg_right g1 hq
  have k2 := mul_le_mul_of_nonneg_right g2 hw
  push_cast
  rw [pow_succ (1 + u) (l + 1), pow_succ (1 + u) l] at *
  linarith

theorem dots_err {l : List (F × F)} {r : F} (h : Dots l r) (hf : fin r) :
    |val r - psum l| ≤ fb (Arith.u F) (Arith.w F) l.length (pabs l) ∧ ∀ p ∈ l, fin p.1 ∧ fin p.2 := by
  have hu := Arith.u_nonneg (F := F)
  have hw := Arith.w_nonneg (F := F)
  induction h with
  | zero => simp [psum, pabs, fb, Arith.val_zero, hw, Arith.fin_zero]
  | mul x y =>
    obtain ⟨f1, f2, e⟩ := Arith.mul_err _ _ hf
    refine ⟨?_, by simp [f1, f2]⟩
    simp only [psum, pabs, fb, List.map_cons, List.map_nil, List.sum_cons, List.sum_nil, List.length_cons, List.length_nil]
    rw [← abs_mul]
    simpa using e
  | @add l m a b h1 h2 i1 i2 =>
    obtain ⟨f1, f2, e⟩ := Arith.add_err _ _ hf
    obtain ⟨a1, a2⟩ := i1 f1
    obtain ⟨b1, b2⟩ := i2 f2
    refine ⟨?_, fun p hp => (List.mem_append.mp hp).elim (a2 p) (b2 p)⟩
    rw [psum_append, pabs_append, List.length_append]
    refine le_trans ?_ (fb_add hu hw (pabs_nonneg l) (pabs_nonneg m) h1.pos h2.pos)
    have hs := psum_le l
    have ht := psum_le m
    have hab : |val a + val b| ≤ |val a - psum l| + |val b - psum m| + |psum l| + |psum m| := by
      have : val a + val b = ((val a - psum l) + (val b - psum m)) + (psum l + psum m) := by ring
      rw [this]
      linarith [abs_add_le ((val a - psum l) + (val b - psum m)) (psum l + psum m), abs_add_le (val a - psum l) (val b - psum m),
        abs_add_le (psum l) (psum m)]
    have hr : |val (a + b) - (psum l + psum m)| ≤ |val (a + b) - (val a + val b)| + (|val a - psum l| + |val b - psum m|) := by
      have : val (a + b) - (psum l + psum m) = (val (a + b) - (val a + val b)) + ((val a - psum l) + (val b - psum m)) := by ring
      rw [this]
      linarith [abs_add_le (val (a + b) - (val a + val b)) ((val a - psum l) + (val b - psum m)), abs_add_le (val a - psum l) (val b - psum m)]
    have k3 := mul_le_mul_of_nonneg_left hab hu
    have k4 := mul_le_mul_of_nonneg_left (add_le_add (add_le_add a1 b1) (add_le_add hs ht)) hu
    linarith
  | @fma l a x y h1 i1 =>
    obtain ⟨f1, f2, f3, e⟩ := Fused.fma_err _ _ _ hf
    obtain ⟨a1, a2⟩ := i1 f3
    refine ⟨?_, fun p hp => ?_⟩
    · rw [psum_cons, pabs_cons, List.length_cons, ← abs_mul]
      refine le_trans ?_ (fb_fma hu hw (abs_nonneg _) h1.pos)
      have hs := psum_le l
      have hab : |val x * val y + val a| ≤ |val x * val y| + (|val a - psum l| + |psum l|) := by
        have : val x * val y + val a = val x * val y + ((val a - psum l) + psum l) := by ring
        rw [this]
        linarith [abs_add_le (val x * val y) ((val a - psum l) + psum l), abs_add_le (val a - psum l) (psum l)]
      have hr : |val (Fused.fma x y a) - (val x * val y + psum l)| ≤ |val (Fused.fma x y a) - (val x * val y + val a)| + |val a - psum l| := by
        have : val (Fused.fma x y a) - (val x * val y + psum l) = (val (Fused.fma x y a) - (val x * val y + val a)) + (val a - psum l) := by ring
        rw [this]
        exact abs_add_le _ _
      have k3 := mul_le_mul_of_nonneg_left hab hu
      have k4 := mul_le_mul_of_nonneg_left (add_le_add a1 hs) hu
      linarith
    · rcases List.mem_cons.mp hp with rfl | hp
      · exact ⟨f1, f2⟩
      · exact a2 p hp
  | perm p _ i =>
    obtain ⟨e, f⟩ := i hf
    refine ⟨?_, fun x hx => f x (p.mem_iff.mpr hx)⟩
    rw [← psum_perm p, ← pabs_perm p, ← p.length_eq]
    exact e

theorem dots_fin {l : List (F × F)} {r : F} (h : Dots l r) (hf : ∀ p ∈ l, fin p.1 ∧ fin p.2)
    (ht : pabs l + fb (Arith.u F) (Arith.w F) l.length (pabs l) ≤ Arith.top F) : fin r := by
  have hu := Arith.u_nonneg (F := F)
  have hw := Arith.w_nonneg (F := F)
  induction h with
  | zero => exact Arith.fin_zero
  | mul x y =>
    have := hf (x, y) (by simp)
    refine Arith.mul_fin _ _ this.1 this.2 ?_
    have h1 := fb_nonneg [(x, y)].length hu hw (pabs_nonneg [(x, y)])
    simp only [pabs, List.map_cons, List.map_nil, List.sum_cons, List.sum_nil, add_zero] at h1 ht
    rw [abs_mul]
    linarith
  | @add l m a b h1 h2 i1 i2 =>
    rw [pabs_append, List.length_append] at ht
    have hb := fb_add hu hw (pabs_nonneg l) (pabs_nonneg m) h1.pos h2.pos
    have hS := pabs_nonneg l
    have hT := pabs_nonneg m
    have n1 := fb_nonneg l.length hu hw hS
    have n2 := fb_nonneg m.length hu hw hT
    have n3 : 0 ≤ Arith.u F * (fb (Arith.u F) (Arith.w F) l.length (pabs l) + fb (Arith.u F) (Arith.w F) m.length (pabs m)) := by positivity
    have n4 : 0 ≤ Arith.u F * (pabs l + pabs m) := by positivity
    have f1 := i1 (fun x hx => hf x (List.mem_append_left _ hx)) (by linarith)
    have f2 := i2 (fun x hx => hf x (List.mem_append_right _ hx)) (by linarith)
    have e1 := (dots_err h1 f1).1
    have e2 := (dots_err h2 f2).1
    refine Arith.add_fin _ _ f1 f2 ?_
    have hs := psum_le l
    have ht' := psum_le m
    have hab : |val a + val b| ≤ |val a - psum l| + |val b - psum m| + |psum l| + |psum m| := by
      have : val a + val b = ((val a - psum l) + (val b - psum m)) + (psum l + psum m) := by ring
      rw [this]
      linarith [abs_add_le ((val a - psum l) + (val b - psum m)) (psum l + psum m), abs_add_le (val a - psum l) (val b - psum m),
        abs_add_le (psum l) (psum m)]
    linarith
  | @fma l a x y h1 i1 =>
    rw [pabs_cons, List.length_cons, ← abs_mul] at ht
    have hb := fb_fma (S := pabs l) hu hw (abs_nonneg (val x * val y)) h1.pos
    have hS := pabs_nonneg l
    have n1 := fb_nonneg l.length hu hw hS
    have hq := abs_nonneg (val x * val y)
    have n3 : 0 ≤ Arith.u F * fb (Arith.u F) (Arith.w F) l.length (pabs l) := by positivity
    have n4 : 0 ≤ Arith.u F * (|val x * val y| + pabs l) := by positivity
    have f1 := i1 (fun p hp => hf p (List.mem_cons_of_mem _ hp)) (by linarith)
    have e1 := (dots_err h1 f1).1
    have hxy := hf (x, y) (by simp)
    refine Fused.fma_fin _ _ _ hxy.1 hxy.2 f1 ?_
    have hs := psum_le l
    have hab : |val x * val y + val a| ≤ |val x * val y| + (|val a - psum l| + |psum l|) := by
      have : val x * val y + val a = val x * val y + ((val a - psum l) + psum l) := by ring
      rw [this]
      linarith [abs_add_le (val x * val y) ((val a - psum l) + psum l), abs_add_le (val a - psum l) (psum l)]
    linarith
  | perm p _ i =>
    refine i (fun x hx => hf x (p.mem_iff.mp hx)) ?_
    rw [pabs_perm p, p.length_eq]
    exact ht

theorem psum_int {l : List (F × F)} (h : ∀ p ∈ l, (∃ k : ℤ, val p.1 = k) ∧ ∃ k : ℤ, val p.2 = k) : ∃ k : ℤ, psum l = k := by
  induction l with
  | nil => exact ⟨0, by simp [psum]⟩
  | cons a l ih =>
    obtain ⟨k, hk⟩ := ih (fun x hx => h x (List.mem_cons_of_mem _ hx))
    obtain ⟨⟨i, hi⟩, ⟨j, hj⟩⟩ := h a (by simp)
    exact ⟨i * j + k, by rw [psum_cons, hk, hi, hj]; push_cast; rfl⟩

theorem dots_exact {l : List (F × F)} {r : F} (h : Dots l r)
    (hf : ∀ p ∈ l, (fin p.1 ∧ fin p.2) ∧ (∃ k : ℤ, val p.1 = k) ∧ ∃ k : ℤ, val p.2 = k) (ht : pabs l < Arith.whole F) : fin r ∧ val r = psum l := by
  induction h with
  | zero => exact ⟨Arith.fin_zero, by simp [psum, Arith.val_zero]⟩
  | mul x y =>
    obtain ⟨⟨f1, f2⟩, ⟨i, hi⟩, ⟨j, hj⟩⟩ := hf (x, y) (by simp)
    simp only [pabs, psum, List.map_cons, List.map_nil, List.sum_cons, List.sum_nil, add_zero] at ht ⊢
    exact Arith.mul_exact _ _ f1 f2 ⟨i * j, by rw [hi, hj]; push_cast; rfl⟩ (by rw [abs_mul]; exact ht)
  | @add l m a b h1 h2 i1 i2 =>
    rw [pabs_append] at ht
    rw [psum_append]
    have hS := pabs_nonneg l
    have hT := pabs_nonneg m
    have q1 := fun x (hx : x ∈ l) => hf x (List.mem_append_left m hx)
    have q2 := fun x (hx : x ∈ m) => hf x (List.mem_append_right l hx)
    obtain ⟨f1, e1⟩ := i1 q1 (by linarith)
    obtain ⟨f2, e2⟩ := i2 q2 (by linarith)
    obtain ⟨j, hj⟩ := psum_int (fun x hx => (q1 x hx).2)
    obtain ⟨k, hk⟩ := psum_int (fun x hx => (q2 x hx).2)
    obtain ⟨a1, a2⟩ := Arith.add_exact _ _ f1 f2 ⟨j + k, by rw [e1, e2, hj, hk]; push_cast; rfl⟩ (by
      rw [e1, e2]
      exact lt_of_le_of_lt (abs_add_le _ _) (by linarith [psum_le l, psum_le m]))
    exact ⟨a1, by rw [a2, e1, e2]⟩
  | @fma l a x y h1 i1 =>
    rw [pabs_cons] at ht
    rw [psum_cons]
    have hS := pabs_nonneg l
    have hq : 0 ≤ |val x| * |val y| := by positivity
    have q1 := fun p (hp : p ∈ l) => hf p (List.mem_cons_of_mem _ hp)
    obtain ⟨f1, e1⟩ := i1 q1 (by linarith)
    obtain ⟨k, hk⟩ := psum_int (fun x hx => (q1 x hx).2)
    obtain ⟨⟨g1, g2⟩, ⟨i, hi⟩, ⟨j, hj⟩⟩ := hf (x, y) (by simp)
    obtain ⟨a1, a2⟩ := Fused.fma_exact _ _ _ g1 g2 f1 ⟨i * j + k, by rw [e1, hk, hi, hj]; push_cast; rfl⟩ (by
      rw [e1]
      refine lt_of_le_of_lt (abs_add_le _ _) ?_
      rw [abs_mul]
      linarith [psum_le l])
    exact ⟨a1, by rw [a2, e1]⟩
  | perm p _ i =>
    rw [← psum_perm p]
    refine i (fun x hx => hf x (p.mem_iff.mp hx)) ?_
    rw [pabs_perm p]
    exact ht

/-- The pairs of a row and a column, after the zero the sum starts from. -/
def pairs (x y : Nat → F) (n : Nat) : List (F × F) := (0, 0) :: (List.range n).map (fun i => (x i, y i))

theorem dots_accurate {x y : Nat → F} {n : Nat} {r : F} (h : Dots (pairs x y n) r) :
    AccurateTo (fusedBound (Arith.u F) (Arith.w F) n) x y n r := by
  have m1 : psum (pairs x y n) = ∑ i ∈ range n, val (x i) * val (y i) := by
    rw [pairs, psum_cons, Arith.val_zero, zero_mul, zero_add, psum, List.map_map, ← sum_range_list]; rfl
  have m2 : pabs (pairs x y n) = ∑ i ∈ range n, |val (x i)| * |val (y i)| := by
    rw [pairs, pabs_cons, Arith.val_zero, abs_zero, zero_mul, zero_add, pabs, List.map_map, ← sum_range_list]; rfl
  have hl : (pairs x y n).length = n + 1 := by simp [pairs]
  have mem : ∀ {q : F × F → Prop}, (∀ z ∈ pairs x y n, q z) ↔ q (0, 0) ∧ ∀ i, i < n → q (x i, y i) := by
    intro q; simp [pairs]
  have hb : ∀ S, fb (Arith.u F) (Arith.w F) (n + 1) S = fusedBound (Arith.u F) (Arith.w F) n S := by
    intro S; unfold fb fusedBound; push_cast; rfl
  refine ⟨fun hf => ?_, fun hxy ht => ?_, fun hxy ht => ?_⟩
  · obtain ⟨h1, h2⟩ := dots_err h hf
    rw [m1, m2, hl, hb] at h1
    exact ⟨(mem.mp h2).2, h1⟩
  · exact dots_fin h (mem.mpr ⟨⟨Arith.fin_zero, Arith.fin_zero⟩, hxy⟩) (by rw [m2, hl, hb]; exact ht)
  · rw [← m1]
    exact dots_exact h (mem.mpr ⟨⟨⟨Arith.fin_zero, Arith.fin_zero⟩, ⟨0, by simp [Arith.val_zero]⟩, ⟨0, by simp [Arith.val_zero]⟩⟩, hxy⟩)
      (by rw [m2]; exact ht)

end

/-! ### The matrix product, without any law -/

theorem acts_addAt [Add F] {N i : Nat} {v : F} (h : i < N) : Acts (fun o => addAt o i v) N (fun p x => if p = i then x + v else x) := by
  intro o ho
  have hlt : i < o.length := by omega
  refine ⟨o.set i (o[i] + v), ?_, by simpa using ho, fun p x hp => ?_⟩
  · show (rd o i >>= fun x => wr o i (x + v)) = _
    rw [rd_ok (List.getElem?_eq_getElem hlt), bind_ok, wr_ok hlt]
  · by_cases e : p = i
    · subst e
      rw [List.getElem?_eq_getElem hlt, Option.some.injEq] at hp
      simp [hlt, hp]
    · dsimp only; rw [List.getElem?_set_ne (Ne.symm e), hp, if_neg e]

/-- A loop that does something in one round only. -/
theorem rec_once {α : Type} (g : α → α) (j : Nat) (x : α) (k : Nat) :
    (Nat.rec x (fun c y => if c = j then g y else y) k : α) = if j < k then g x else x := by
  induction k with
  | zero => rfl
  | succ k ih =>
    show (if k = j then g (Nat.rec x (fun c y => if c = j then g y else y) k) else Nat.rec x (fun c y => if c = j then g y else y) k) = _
    rw [ih]
    by_cases e : k = j
    · subst e; rw [if_pos rfl, if_neg (by omega), if_pos (by omega)]
    · rw [if_neg e]
      by_cases h : j < k
      · rw [if_pos h, if_pos (by omega)]
      · rw [if_neg h, if_neg (by omega)]

theorem rec_congr {α : Type} {f g : Nat → α → α} (x : α) (k : Nat) (h : ∀ i y, i < k → f i y = g i y) :
    (Nat.rec x f k : α) = Nat.rec x g k := by
  induction k with
  | zero => rfl
  | succ k ih =>
    show f k (Nat.rec x f k) = g k (Nat.rec x g k)
    rw [ih (fun i y hi => h i y (by omega)), h k _ (by omega)]

theorem rec_id {α : Type} (x : α) (k : Nat) : (Nat.rec x (fun _ y => y) k : α) = x := by
  induction k with
  | zero => rfl
  | succ k ih => exact ih

/-- The triple loop adds, in every cell, one term after the other. -/
theorem gemm_loop_any [Add F] {m n k : Nat} {body : Nat → Nat → Nat → List F → Res (List F)} {t : Nat → Nat → Nat → F}
    (h : ∀ r idx c o, r < m → idx < n → c < k → body r idx c o = addAt o (r * k + c) (t r idx c)) {C : List F} {z : F}
    (hC : C = List.replicate (m * k) z) :
    ∃ C', loop m (fun r C => loop n (fun idx C => loop k (fun c C => body r idx c C) C) C) C = ok C' ∧
      Is2 C' m k (fun r c => Nat.rec z (fun idx y => y + t r idx c) n) := by
  have hacts : Acts (fun o => loop m (fun r C => loop n (fun idx C => loop k (fun c C => body r idx c C) C) C) o) (m * k)
      (fun p x => Nat.rec x (fun r y => Nat.rec y (fun idx y => Nat.rec y (fun c y => if p = r * k + c then y + t r idx c else y) k) n) m) := by
    refine Acts.loop (fun r hr => Acts.loop (fun idx hi => Acts.loop (fun c hc => ?_)))
    intro o ho
    obtain ⟨o', e, r'⟩ := acts_addAt (F := F) (v := t r idx c) (lt_mul_of_lt hr hc) o ho
    exact ⟨o', (h r idx c o hr hi hc).trans e, r'⟩
  obtain ⟨C', h1, h2, h3⟩ := hacts C (by simp [hC])
  refine ⟨C', h1, h2, fun i j hi hj => ?_⟩
  rw [h3 (i * k + j) z (by simp [hC, lt_mul_of_lt hi hj])]
  congr 1
  have e1 : ∀ r idx y, r < m → (Nat.rec y (fun c y => if i * k + j = r * k + c then y + t r idx c else y) k : F) = if r = i then y + t r idx j else y := by
    intro r idx y hr
    by_cases e : r = i
    · subst e
      rw [if_pos rfl]
      rw [rec_congr (g := fun c y => if c = j then y + t r idx j else y) y k (fun c y hc => ?_), rec_once (fun y => y + t r idx j), if_pos hj]
      by_cases ec : c = j
      · subst ec; rw [if_pos rfl, if_pos rfl]
      · rw [if_neg ec, if_neg (by omega)]
    · rw [if_neg e]
      rw [rec_congr (g := fun _ y => y) y k (fun c y hc => ?_), rec_id]
      rw [if_neg]
      intro h'
      exact e (mul_add_inj hj hc h').1.symm
  dsimp only
  rw [rec_congr (g := fun r y => if r = i then (Nat.rec y (fun idx y => y + t i idx j) n : F) else y) z m (fun r y hr => ?_),
    rec_once (fun y => (Nat.rec y (fun idx y => y + t i idx j) n : F)), if_pos hi]
  rw [rec_congr (g := fun idx y => if r = i then y + t r idx j else y) y n (fun idx y _ => e1 r idx y hr)]
  by_cases e : r = i
  · subst e
    simp only [if_true]
  · simp only [if_neg e]
    exact rec_id y n

theorem rec_dot [Zero F] [Add F] [Mul F] (x y : Nat → F) (n : Nat) : (Nat.rec 0 (fun i s => s + x i * y i) n : F) = dot x y n := by
  induction n with
  | zero => rfl
  | succ n ih => show (Nat.rec 0 (fun i s => s + x i * y i) n : F) + x n * y n = _; rw [ih]; rfl

/-- `gemm_cpu` over any numbers: every entry is the sum of the products from the left. -/
theorem gemmCpu_any [Zero F] [Add F] [Mul F] {A B C : List F} {aT bT : Bool} {m n k : Nat} {a b : Nat → Nat → F}
    (hA : Stores A aT m n a) (hB : Stores B bT n k b) (hC : C.length = m * k) :
    ∃ C', gemmCpu A aT B bT m n k C = ok C' ∧ Is2 C' m k (fun r c => dot (fun l => a r l) (fun l => b l c) n) := by
  suffices h : ∃ C', gemmCpu A aT B bT m n k C = ok C' ∧ Is2 C' m k (fun r c => Nat.rec 0 (fun idx y => y + a r idx * b idx c) n) by
    obtain ⟨C', h1, h2, h3⟩ := h
    exact ⟨C', h1, h2, fun i j hi hj => by rw [h3 i j hi hj]; exact congrArg some (rec_dot (fun l => a i l) (fun l => b l j) n)⟩
  unfold gemmCpu
  rw [fillN_ok hC, bind_ok]
  cases aT <;> cases bT
  · simp only [Stores, Bool.false_eq_true, if_false] at hA hB
    simp only [and_self, if_true, View.at2, Bool.false_eq_true, if_false]
    refine gemm_loop_any (t := fun r idx c => a r idx * b idx c) (fun r idx c o hr hi hc => ?_) rfl
    rw [hA.rd hr hi, bind_ok, hB.rd hi hc, bind_ok]
  · simp only [Stores, Bool.false_eq_true, if_false, if_true] at hA hB
    simp only [Bool.true_eq_false, and_false, and_self, if_false, if_true, View.at2, Bool.false_eq_true]
    refine gemm_loop_any (t := fun r idx c => a r idx * b idx c) (fun r idx c o hr hi hc => ?_) rfl
    rw [hA.rd hr hi, bind_ok, hB.rd hc hi, bind_ok]
  · simp only [Stores, Bool.false_eq_true, if_false, if_true] at hA hB
    simp only [Bool.true_eq_false, false_and, and_self, if_false, if_true, View.at2, Bool.false_eq_true]
    refine gemm_loop_any (t := fun r idx c => a r idx * b idx c) (fun r idx c o hr hi hc => ?_) rfl
    rw [hA.rd hi hr, bind_ok, hB.rd hi hc, bind_ok]
  · simp only [Stores, if_true] at hA hB
    simp only [Bool.true_eq_false, false_and, and_false, if_false, if_true, View.at2, Bool.false_eq_true]
    refine gemm_loop_any (t := fun r idx c => a r idx * b idx c) (fun r idx c o hr hi hc => ?_) rfl
    rw [hA.rd hi hr, bind_ok, hB.rd hc hi, bind_ok]

end Verif.Fp
