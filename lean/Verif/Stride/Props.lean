import Verif.Stride.Model
import Verif.Pool.Reduce
import Verif.Data.Reduce
import Mathlib.Tactic.Linarith
import Mathlib.Tactic.Ring
/-!
# Stride iterators: laws, and what the reductions compute with them
-/
namespace Verif.Stride
open Verif Res View Data Pool

variable {α : Type}

/-- The `i`-th element of the column that starts at `p` with step `s`. -/
def It (p s i : Int) : SIt := ⟨p + s * i, s⟩

theorem advance_free (n : Nat) (p d : Int) : advance false n p d = ok (p + d) := by
  unfold advance; rw [require_true (by simp)]; rfl

theorem advance_in {b : Bool} {n : Nat} {p d : Int} (h : b = true → 0 ≤ p + d ∧ p + d ≤ n) : advance b n p d = ok (p + d) := by
  unfold advance; rw [require_true h]; rfl

theorem advance_out {n : Nat} {p d : Int} (h : p + d < 0 ∨ (n : Int) < p + d) : advance true n p d = ub := by
  unfold advance
  rw [require_false (by intro k; have := k rfl; omega)]
  rfl

theorem ltb_iff (p s i j : Int) : ltb (It p s i) (It p s j) = true ↔ p + s * i < p + s * j := by
  show ltb ⟨p + s * i, s⟩ ⟨p + s * j, s⟩ = true ↔ _
  simp [ltb]

/-! ### the laws of random access iterators -/

/-- **C120** (moving). Without the check of the block, adding, subtracting, incrementing and decrementing move the index of the element, the two subtractions
and the two additions undo each other, and indexing is moving and dereferencing. -/
theorem stride_moves (n : Nat) (p s i k : Int) (d : List α) :
    add false n (It p s i) k = ok (It p s (i + k)) ∧ sub false n (It p s i) k = ok (It p s (i - k)) ∧
    inc false n (It p s i) = ok (It p s (i + 1)) ∧ dec false n (It p s i) = ok (It p s (i - 1)) ∧
    (add false n (It p s i) k >>= fun a => sub false n a k) = ok (It p s i) ∧
    (inc false n (It p s i) >>= dec false n) = ok (It p s i) ∧
    index d (It p s i) k = (add false n (It p s i) k >>= deref d) ∧
    deref d (It p s i) = load d (p + s * i) := by
  have e1 : p + s * i + s * k = p + s * (i + k) := by ring
  have e2 : p + s * i + -k * s = p + s * (i - k) := by ring
  have e3 : p + s * i + s = p + s * (i + 1) := by ring
  have e4 : p + s * i + -s = p + s * (i - 1) := by ring
  have e5 : p + s * (i + k) + -k * s = p + s * i := by ring
  have e6 : p + s * (i + 1) + -s = p + s * i := by ring
  have e7 : p + s * i + k * s = p + s * (i + k) := by ring
  simp only [add, sub, inc, dec, index, deref, It, advance_free, bind_ok, pure_eq, e1, e2, e3, e4, e5, e6, e7]
  simp

/-- **C120** (distance and order). With a step other than zero the difference of two elements of a column is the difference of their indices and they are equal
exactly when the indices are; with a positive step the order is that of the indices. -/
theorem stride_distance_partial (p s i j : Int) (hs : s ≠ 0) :
    diff (It p s i) (It p s j) = ok (i - j) ∧ (eqb (It p s i) (It p s j) = true ↔ i = j) ∧
    (0 < s → (ltb (It p s i) (It p s j) = true ↔ i < j)) := by
  refine ⟨?_, ?_, fun h => ?_⟩
  · unfold diff
    rw [assert_true (by rfl), bind_ok, require_true (by exact hs), bind_ok]
    have e : (It p s i).pos - (It p s j).pos = s * (i - j) := by simp only [It]; ring
    rw [e]; simp only [It, pure_eq]
    rw [Int.mul_tdiv_cancel_left _ hs]
  · simp only [eqb, It, beq_self_eq_true, Bool.and_true, beq_iff_eq]
    constructor
    · intro h; exact mul_left_cancel₀ hs (by linarith)
    · rintro rfl; rfl
  · rw [ltb_iff]
    constructor
    · intro h'; have : s * i < s * j := by linarith
      exact lt_of_mul_lt_mul_left this h.le
    · intro h'; have := mul_lt_mul_of_pos_left h' h; linarith

/-- **C120** (violated). With a negative step the order is the reverse of that of the indices: `a < a + 1` is false and `a + 1 < a` true, although `b - a > 0` says
that `b` comes after `a`.  With step zero the difference divides by zero. -/
theorem stride_order_violated (p s i j : Int) :
    (s < 0 → (ltb (It p s i) (It p s j) = true ↔ j < i)) ∧ (s < 0 → ltb (It p s i) (It p s (i + 1)) = false ∧ diff (It p s (i + 1)) (It p s i) = ok 1) ∧
    diff (It p 0 i) (It p 0 j) = ub := by
  have key : ∀ j, s < 0 → (ltb (It p s i) (It p s j) = true ↔ j < i) := by
    intro j h
    rw [ltb_iff]
    constructor
    · intro h'; have : s * i < s * j := by linarith
      exact lt_of_mul_lt_mul_of_nonpos_left this h.le
    · intro h'; have := mul_lt_mul_of_neg_left h' h; linarith
  refine ⟨key j, fun h => ⟨?_, ?_⟩, ?_⟩
  · rw [Bool.eq_false_iff]; intro hc; have := (key (i + 1) h).1 hc; omega
  · rw [(stride_distance_partial p s (i + 1) i h.ne).1]; congr 1; ring
  · unfold diff; rw [assert_true (by rfl), bind_ok, require_false (by simp [It])]; rfl

/-- **C120** (iterators of different columns): the difference stops in its assertion, and they are never equal, even at the same element. -/
theorem stride_mixed (a b : SIt) (h : a.step ≠ b.step) : diff a b = abort ∧ eqb a b = false := by
  constructor
  · unfold diff; rw [assert_false h]; rfl
  · simp [eqb, h]

example : add false 12 (It 1 4 0) 2 = ok ⟨9, 4⟩ ∧ diff (It 1 4 2) (It 1 4 0) = ok 2 ∧ index [(10 : Int), 11, 12, 13, 14, 15] (It 1 2 0) 2 = ok 15 := by
  refine ⟨?_, ?_, ?_⟩ <;> decide

example : ltb (It 9 (-4) 0) (It 9 (-4) 1) = false ∧ diff (It 9 (-4) 1) (It 9 (-4) 0) = ok 1 := by constructor <;> decide

/-! ### loops over a column -/

theorem loop_front {σ : Type} (m : Nat) (body : Nat → σ → Res σ) (s : σ) :
    loop (m + 1) body s = body 0 s >>= loop m (fun i => body (i + 1)) := by
  induction m generalizing s with
  | zero => rw [loop_succ, loop_zero, bind_ok]; cases body 0 s <;> rfl
  | succ m ih =>
    rw [loop_succ, ih]
    cases body 0 s with
    | ok t => rw [bind_ok, bind_ok, loop_succ]
    | abort => rfl
    | ub => rfl

/-- Between two elements of a column the loop runs over the elements in between, in their order; with the check of the block as long as all of them and the end
are within it. -/
theorem forRange_eq {σ : Type} (b : Bool) (n : Nat) (body : SIt → σ → Res σ) (p s : Int) (hs : s ≠ 0) :
    ∀ (m fuel : Nat) (k : Int) (st : σ), m < fuel →
      (b = true → ∀ i : Nat, i ≤ m → 0 ≤ p + s * (k + i) ∧ p + s * (k + i) ≤ n) →
      forRange b n body fuel (It p s k) (It p s (k + m)) st = loop m (fun i => body (It p s (k + i))) st := by
  intro m
  induction m with
  | zero =>
    intro fuel k st hf _
    obtain ⟨f, rfl⟩ := Nat.exists_eq_succ_of_ne_zero (Nat.pos_iff_ne_zero.1 hf)
    rw [forRange, if_pos (((stride_distance_partial p s _ _ hs).2.1).2 (by simp)), loop_zero]
  | succ m ih =>
    intro fuel k st hf hin
    obtain ⟨f, rfl⟩ := Nat.exists_eq_succ_of_ne_zero (Nat.pos_iff_ne_zero.1 (Nat.zero_lt_of_lt hf))
    rw [forRange, if_neg (by rw [(stride_distance_partial p s _ _ hs).2.1]; push_cast; omega), loop_front]
    rw [show It p s (k + ((0 : Nat) : Int)) = It p s k by simp]
    cases body (It p s k) st with
    | abort => rfl
    | ub => rfl
    | ok t =>
      rw [bind_ok, bind_ok]
      have e3 : p + s * k + s = p + s * (k + 1) := by ring
      have hinc : inc b n (It p s k) = ok (It p s (k + 1)) := by
        simp only [inc, It]
        rw [advance_in (by
          intro hb; have := hin hb 1 (by omega); rw [e3]; exact_mod_cast this), bind_ok, e3]; rfl
      rw [hinc, bind_ok, show k + ((m + 1 : Nat) : Int) = k + 1 + (m : Int) by push_cast; ring]
      rw [ih f (k + 1) t (by omega) (by
        intro hb i hi; have := hin hb (i + 1) (by omega); push_cast at this
        rw [show k + 1 + (i : Int) = k + (i + 1) by ring]; exact this)]
      refine loop_congr _ (fun i u _ => ?_)
      rw [show k + 1 + (i : Int) = k + ((i + 1 : Nat) : Int) by push_cast; ring]

theorem load_nat (d : List α) (p : Nat) : load d (p : Int) = rd d p := by
  unfold load; rw [if_pos (by omega)]; rfl

theorem store_nat (d : List α) (p : Nat) (v : α) : store d (p : Int) v = wr d p v := by
  unfold store; rw [if_pos (by omega)]; rfl

/-! ### `std::reduce` -/

/-- Four elements at a time, `init + ( ( a + b ) + ( c + d ) )`, the rest one by one. -/
def foldFour (f : α → α → α) : α → List α → α
  | acc, a :: b :: c :: e :: rest => foldFour f (f acc (f (f a b) (f c e))) rest
  | acc, l => l.foldl f acc

theorem foldFour_short (f : α → α → α) (acc : α) {l : List α} (h : l.length < 4) : foldFour f acc l = l.foldl f acc := by
  match l, h with
  | [], _ => rfl
  | [_], _ => rfl
  | [_, _], _ => rfl
  | [_, _, _], _ => rfl
  | a :: b :: c :: e :: rest, h => simp at h; omega

theorem isReduction_foldl (f : α → α → α) (xs l : List α) (acc : α) (h : IsReduction f l acc) : IsReduction f (l ++ xs) (xs.foldl f acc) := by
  induction xs generalizing l acc with
  | nil => simpa using h
  | cons x xs ih =>
    have := ih (l ++ [x]) (f acc x) (.node (l₁ := l) (l₂ := [x]) (List.Perm.refl _) h (.single x))
    simpa using this

theorem isReduction_foldFour (f : α → α → α) (l xs : List α) (acc : α) (h : IsReduction f l acc) : IsReduction f (l ++ xs) (foldFour f acc xs) := by
  induction acc, xs using foldFour.induct (f := f) generalizing l with
  | case1 acc a b c e rest ih =>
    rw [foldFour]
    have h2 : IsReduction f [a, b] (f a b) := .node (l₁ := [a]) (l₂ := [b]) (List.Perm.refl _) (.single a) (.single b)
    have h3 : IsReduction f [c, e] (f c e) := .node (l₁ := [c]) (l₂ := [e]) (List.Perm.refl _) (.single c) (.single e)
    have h4 : IsReduction f [a, b, c, e] (f (f a b) (f c e)) := .node (l₁ := [a, b]) (l₂ := [c, e]) (List.Perm.refl _) h2 h3
    have := ih (l ++ [a, b, c, e]) (.node (l₁ := l) (l₂ := [a, b, c, e]) (List.Perm.refl _) h h4)
    simpa using this
  | case2 acc xs hx =>
    rw [foldFour]
    · exact isReduction_foldl f xs l acc h
    · exact hx

/-- **C120** (std::reduce is a reduction). What libstdc++ computes is one of the generalised sums the C++ standard allows, so everything proved about the
reductions for any such sum holds for it. -/
theorem foldFour_reduces (f : α → α → α) (z : α) : Reduces f (fun l => foldFour f (l.headD z) l.tail) := by
  intro l hl
  match l, hl with
  | x :: xs, _ => exact isReduction_foldFour f [x] xs x (.single x)

theorem range_map_four (m : Nat) (x : Nat → α) : (List.range (m + 4)).map x = x 0 :: x 1 :: x 2 :: x 3 :: (List.range m).map (fun i => x (i + 4)) := by
  rw [Nat.add_comm m 4, List.range_add, List.map_append, List.map_map]
  have : List.range 4 = [0, 1, 2, 3] := by decide
  rw [this]
  simp only [List.map_cons, List.map_nil, List.cons_append, List.nil_append]
  congr 4
  refine List.map_congr_left (fun i _ => ?_)
  simp [Nat.add_comm]

theorem accumulate_ok {b : Bool} {op : α → α → α} {d : List α} {p s : Int} (hs : s ≠ 0) (m fuel : Nat) (k : Int) (x : Nat → α) (init : α) (hf : m < fuel)
    (hx : ∀ i, i < m → load d (p + s * (k + i)) = ok (x i))
    (hin : b = true → ∀ i : Nat, i ≤ m → 0 ≤ p + s * (k + i) ∧ p + s * (k + i) ≤ d.length) :
    accumulate b op d fuel (It p s k) (It p s (k + m)) init = ok (((List.range m).map x).foldl op init) := by
  unfold accumulate
  rw [forRange_eq b _ _ p s hs m fuel k init hf hin]
  clear hin hf
  induction m with
  | zero => rfl
  | succ m ih =>
    rw [loop_succ, ih (fun i hi => hx i (by omega)), bind_ok]
    have := hx m (by omega)
    simp only [deref, It, this, bind_ok, pure_eq]
    rw [List.range_succ, List.map_append, List.foldl_append]; rfl

theorem reduceFour_ok {b : Bool} {op : α → α → α} {d : List α} {p s : Int} (hs : s ≠ 0) (F : Nat) :
    ∀ (m fuel : Nat) (k : Int) (x : Nat → α) (init : α), m < fuel → m < F →
      (∀ i, i < m → load d (p + s * (k + i)) = ok (x i)) →
      (b = true → ∀ i : Nat, i ≤ m → 0 ≤ p + s * (k + i) ∧ p + s * (k + i) ≤ d.length) →
      (reduceFour b op d fuel (It p s k) (It p s (k + m)) init >>= fun r => accumulate b op d F r.1 (It p s (k + m)) r.2)
        = ok (foldFour op init ((List.range m).map x)) := by
  intro m
  induction m using Nat.strongRecOn with
  | _ m ih =>
    intro fuel k x init hf hF hx hin
    obtain ⟨f, rfl⟩ := Nat.exists_eq_succ_of_ne_zero (Nat.pos_iff_ne_zero.1 (Nat.zero_lt_of_lt hf))
    rw [reduceFour, (stride_distance_partial p s _ _ hs).1, bind_ok]
    by_cases h4 : 4 ≤ m
    · rw [if_pos (by omega)]
      obtain ⟨m', rfl⟩ := Nat.exists_eq_add_of_le' h4
      have h (i : Nat) (hi : i < m' + 4) : index d (It p s k) (i : Int) = ok (x i) := by
        have := hx i hi
        simp only [index, It]; rw [← this]; congr 1; ring
      have hadd : add b d.length (It p s k) 4 = ok (It p s (k + 4)) := by
        have e : p + s * k + s * 4 = p + s * (k + 4) := by ring
        simp only [add, It]
        rw [advance_in (by intro hb; have := hin hb 4 (by omega); rw [e]; exact_mod_cast this), bind_ok, e]; rfl
      have a0 := h 0 (by omega); have a1 := h 1 (by omega); have a2 := h 2 (by omega); have a3 := h 3 (by omega)
      simp only [Nat.cast_zero, Nat.cast_one, Nat.cast_ofNat] at a0 a1 a2 a3
      rw [a0, bind_ok, a1, bind_ok, a2, bind_ok, a3, bind_ok, hadd, bind_ok, range_map_four, foldFour]
      have e : k + ((m' + 4 : Nat) : Int) = k + 4 + (m' : Int) := by push_cast; ring
      rw [e]
      refine ih m' (by omega) f (k + 4) (fun i => x (i + 4)) _ (by omega) (by omega) (fun i hi => ?_) (fun hb i hi => ?_)
      · rw [← hx (i + 4) (by omega)]; congr 1; push_cast; ring
      · have := hin hb (i + 4) (by omega)
        rw [show k + 4 + (i : Int) = k + ((i + 4 : Nat) : Int) by push_cast; ring]; exact this
    · rw [if_neg (by omega), pure_eq, bind_ok, foldFour_short _ _ (by simp; omega)]
      exact accumulate_ok hs m F k x init hF hx hin

theorem stdReduce_ok {b : Bool} {op : α → α → α} {d : List α} {p s : Int} (hs : s ≠ 0) (m fuel : Nat) (x : Nat → α) (init : α) (hf : m < fuel)
    (hx : ∀ i, i < m → load d (p + s * i) = ok (x i)) (hin : b = true → ∀ i : Nat, i ≤ m → 0 ≤ p + s * i ∧ p + s * i ≤ d.length) :
    stdReduce b op d fuel (It p s 0) (It p s m) init = ok (foldFour op init ((List.range m).map x)) := by
  have := reduceFour_ok (b := b) (op := op) (d := d) hs fuel m fuel 0 x init hf hf (by simpa using hx) (by simpa using hin)
  simpa [stdReduce] using this

end Verif.Stride
