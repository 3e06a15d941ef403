import Verif.Basic.Res
import Verif.Basic.Shape
import Mathlib.Algebra.BigOperators.Group.Finset.Basic
import Mathlib.Algebra.BigOperators.Intervals
/-!
# Loop calculus: programs that fill or accumulate into a buffer (helper lemmas)
-/
namespace Verif
open Res

variable {α : Type}

/-- `f` succeeds on every buffer of length `N`, keeps the length, and changes cell `p` from `x` to `φ p x`. -/
def Acts (f : List α → Res (List α)) (N : Nat) (φ : Nat → α → α) : Prop :=
  ∀ o : List α, o.length = N → ∃ o', f o = ok o' ∧ o'.length = N ∧ ∀ p x, o[p]? = some x → o'[p]? = some (φ p x)

theorem Acts.congr {f : List α → Res (List α)} {N : Nat} {φ ψ : Nat → α → α} (h : Acts f N φ)
    (e : ∀ p x, p < N → φ p x = ψ p x) : Acts f N ψ := by
  intro o ho
  obtain ⟨o', h1, h2, h3⟩ := h o ho
  refine ⟨o', h1, h2, fun p x hp => ?_⟩
  have hlt : p < N := by rw [← ho]; exact (List.getElem?_eq_some_iff.mp hp).1
  rw [← e p x hlt]; exact h3 p x hp

theorem Acts.seq {f g : List α → Res (List α)} {N : Nat} {φ ψ : Nat → α → α} (hf : Acts f N φ) (hg : Acts g N ψ) :
    Acts (fun o => f o >>= g) N (fun p x => ψ p (φ p x)) := by
  intro o ho
  obtain ⟨o', h1, h2, h3⟩ := hf o ho
  obtain ⟨o'', g1, g2, g3⟩ := hg o' h2
  exact ⟨o'', by dsimp only; rw [h1, bind_ok, g1], g2, fun p x hp => g3 p _ (h3 p x hp)⟩

theorem Acts.loop {n : Nat} {body : Nat → List α → Res (List α)} {N : Nat} {φ : Nat → Nat → α → α}
    (h : ∀ i, i < n → Acts (body i) N (φ i)) :
    Acts (fun o => loop n body o) N (fun p x => Nat.rec x (fun i y => φ i p y) n) := by
  induction n with
  | zero => intro o ho; exact ⟨o, rfl, ho, fun p x hp => hp⟩
  | succ n ih => exact (ih (fun i hi => h i (by omega))).seq (h n (by omega))

theorem acts_wr {N i : Nat} {v : α} (h : i < N) : Acts (fun o => wr o i v) N (fun p x => if p = i then v else x) := by
  intro o ho
  refine ⟨o.set i v, wr_ok (by omega), by simpa using ho, fun p x hp => ?_⟩
  by_cases e : p = i
  · subst e; simp [ho, h]
  · dsimp only; rw [List.getElem?_set_ne (Ne.symm e), hp, if_neg e]

theorem acts_id {N : Nat} : Acts (fun o : List α => ok o) N (fun _ x => x) := fun o ho => ⟨o, rfl, ho, fun _ _ h => h⟩

/-! ### filling -/

/-- Cells satisfying `S` are set to `v`, the others keep their value. -/
def Sets (f : List α → Res (List α)) (N : Nat) (S : Nat → Prop) (v : Nat → α) : Prop :=
  ∀ o : List α, o.length = N → ∃ o', f o = ok o' ∧ o'.length = N ∧
    (∀ p, p < N → S p → o'[p]? = some (v p)) ∧ (∀ p, ¬ S p → o'[p]? = o[p]?)

theorem sets_wr {N i : Nat} {x : α} {v : Nat → α} (h : i < N) (hv : v i = x) :
    Sets (fun o => wr o i x) N (fun p => p = i) v := by
  intro o ho
  refine ⟨o.set i x, wr_ok (by omega), by simpa using ho, fun p hp e => ?_, fun p hp => ?_⟩
  · subst e; rw [List.getElem?_set_self (by omega), hv]
  · rw [List.getElem?_set_ne (Ne.symm hp)]

theorem sets_nop {N : Nat} {v : Nat → α} : Sets (fun o => ok o) N (fun _ => False) v :=
  fun o ho => ⟨o, rfl, ho, fun _ _ h => h.elim, fun _ _ => rfl⟩

theorem Sets.congr {f : List α → Res (List α)} {N : Nat} {S T : Nat → Prop} {v : Nat → α} (h : Sets f N S v)
    (e : ∀ p, p < N → (S p ↔ T p)) : Sets f N T v := by
  intro o ho
  obtain ⟨o', h1, h2, h3, h4⟩ := h o ho
  refine ⟨o', h1, h2, fun p hp ht => h3 p hp ((e p hp).mpr ht), fun p hp => ?_⟩
  by_cases hlt : p < N
  · exact h4 p (fun hs => hp ((e p hlt).mp hs))
  · rw [List.getElem?_eq_none (by omega), List.getElem?_eq_none (by omega)]

theorem Sets.congr_prog {f g : List α → Res (List α)} {N : Nat} {S : Nat → Prop} {v : Nat → α} (h : Sets f N S v)
    (e : ∀ o, o.length = N → g o = f o) : Sets g N S v := by
  intro o ho
  rw [e o ho]; exact h o ho

theorem Sets.seq {f g : List α → Res (List α)} {N : Nat} {S T : Nat → Prop} {v : Nat → α}
    (hf : Sets f N S v) (hg : Sets g N T v) : Sets (fun o => f o >>= g) N (fun p => S p ∨ T p) v := by
  intro o ho
  obtain ⟨o', h1, h2, h3, h4⟩ := hf o ho
  obtain ⟨o'', g1, g2, g3, g4⟩ := hg o' h2
  refine ⟨o'', by dsimp only; rw [h1, bind_ok, g1], g2, fun p hp hs => ?_, fun p hp => ?_⟩
  · by_cases ht : T p
    · exact g3 p hp ht
    · rw [g4 p ht]
      exact h3 p hp (hs.resolve_right ht)
  · rw [g4 p (fun h => hp (Or.inr h)), h4 p (fun h => hp (Or.inl h))]

theorem Sets.loop {n : Nat} {body : Nat → List α → Res (List α)} {N : Nat} {S : Nat → Nat → Prop} {v : Nat → α}
    (h : ∀ i, i < n → Sets (body i) N (S i) v) :
    Sets (fun o => loop n body o) N (fun p => ∃ i, i < n ∧ S i p) v := by
  induction n with
  | zero => intro o ho; exact ⟨o, rfl, ho, fun p _ ⟨i, hi, _⟩ => absurd hi (by omega), fun _ _ => rfl⟩
  | succ n ih =>
    refine Sets.congr ((ih (fun i hi => h i (by omega))).seq (h n (by omega))) (fun p _ => ?_)
    constructor
    · rintro (⟨i, hi, hs⟩ | hs)
      · exact ⟨i, by omega, hs⟩
      · exact ⟨n, by omega, hs⟩
    · rintro ⟨i, hi, hs⟩
      by_cases e : i = n
      · subst e; exact Or.inr hs
      · exact Or.inl ⟨i, by omega, hs⟩

/-- A program that sets every cell. -/
theorem Sets.total {f : List α → Res (List α)} {N : Nat} {S : Nat → Prop} {v : Nat → α} (h : Sets f N S v)
    (hS : ∀ p, p < N → S p) {o : List α} (ho : o.length = N) :
    ∃ o', f o = ok o' ∧ o'.length = N ∧ ∀ p, p < N → o'[p]? = some (v p) := by
  obtain ⟨o', h1, h2, h3, _⟩ := h o ho
  exact ⟨o', h1, h2, fun p hp => h3 p hp (hS p hp)⟩

/-- ... produces exactly the list of `v`. -/
theorem Sets.eq_ok {f : List α → Res (List α)} {N : Nat} {S : Nat → Prop} {v : Nat → α} (h : Sets f N S v)
    (hS : ∀ p, p < N → S p) {o : List α} (ho : o.length = N) : f o = ok ((List.range N).map v) := by
  obtain ⟨o', h1, h2, h3⟩ := h.total hS ho
  rw [h1]
  congr 1
  apply List.ext_getElem?
  intro p
  by_cases hp : p < N
  · rw [h3 p hp]; simp [hp]
  · rw [List.getElem?_eq_none (by omega), List.getElem?_eq_none (by simp; omega)]

/-! ### accumulating -/

/-- Every cell is increased by `inc`. -/
def Adds [Add α] (f : List α → Res (List α)) (N : Nat) (inc : Nat → α) : Prop := Acts f N (fun p x => x + inc p)

/-- `o[i] += v`. -/
def addAt [Add α] (o : List α) (i : Nat) (v : α) : Res (List α) := rd o i >>= fun x => wr o i (x + v)

theorem adds_addAt [AddCommMonoid α] {N i : Nat} {v : α} (h : i < N) :
    Adds (fun o => addAt o i v) N (fun p => if p = i then v else 0) := by
  intro o ho
  have hlt : i < o.length := by omega
  refine ⟨o.set i (o[i] + v), ?_, by simpa using ho, fun p x hp => ?_⟩
  · simp only [addAt]; rw [rd_ok (List.getElem?_eq_getElem hlt), bind_ok, wr_ok hlt]
  · by_cases e : p = i
    · subst e
      dsimp only; rw [List.getElem?_set_self hlt, if_pos rfl]
      rw [List.getElem?_eq_getElem hlt] at hp
      simp at hp; rw [hp]
    · dsimp only; rw [List.getElem?_set_ne (Ne.symm e), hp, if_neg e, add_zero]

theorem adds_nop [AddCommMonoid α] {N : Nat} : Adds (fun o : List α => ok o) N (fun _ => 0) :=
  fun o ho => ⟨o, rfl, ho, fun p x h => by dsimp only; rw [add_zero]; exact h⟩

theorem Adds.congr [AddCommMonoid α] {f : List α → Res (List α)} {N : Nat} {a b : Nat → α} (h : Adds f N a)
    (e : ∀ p, p < N → a p = b p) : Adds f N b := Acts.congr h (fun p x hp => by rw [e p hp])

theorem Adds.congr_prog [AddCommMonoid α] {f g : List α → Res (List α)} {N : Nat} {a : Nat → α} (h : Adds f N a)
    (e : ∀ o, o.length = N → g o = f o) : Adds g N a := by
  intro o ho
  rw [e o ho]; exact h o ho

theorem Adds.loop [AddCommMonoid α] {n : Nat} {body : Nat → List α → Res (List α)} {N : Nat} {inc : Nat → Nat → α}
    (h : ∀ i, i < n → Adds (body i) N (inc i)) :
    Adds (fun o => loop n body o) N (fun p => ∑ i ∈ Finset.range n, inc i p) := by
  induction n with
  | zero => exact adds_nop.congr_prog (fun _ _ => rfl)
  | succ n ih =>
    refine Acts.congr ((ih (fun i hi => h i (by omega))).seq (h n (by omega))) (fun p x _ => ?_)
    dsimp only; rw [Finset.sum_range_succ, add_assoc]

theorem Adds.run [AddCommMonoid α] {f : List α → Res (List α)} {N : Nat} {inc : Nat → α} (h : Adds f N inc)
    {o : List α} (ho : o.length = N) {g : Nat → α} (hg : ∀ p, p < N → o[p]? = some (g p)) :
    ∃ o', f o = ok o' ∧ o'.length = N ∧ ∀ p, p < N → o'[p]? = some (g p + inc p) := by
  obtain ⟨o', h1, h2, h3⟩ := h o ho
  exact ⟨o', h1, h2, fun p hp => h3 p _ (hg p hp)⟩

/-! ### local accumulators -/

theorem loop_pure {σ : Type} {n : Nat} {body : Nat → σ → Res σ} {g : Nat → σ → σ} (s : σ)
    (h : ∀ i t, i < n → body i t = ok (g i t)) : loop n body s = ok (Nat.rec s (fun i t => g i t) n) := by
  induction n with
  | zero => rfl
  | succ n ih => rw [loop_succ, ih (fun i t hi => h i t (by omega)), bind_ok, h n _ (by omega)]

theorem loop_sum [AddCommMonoid α] {n : Nat} {body : Nat → α → Res α} {g : Nat → α} (a : α)
    (h : ∀ i t, i < n → body i t = ok (t + g i)) : loop n body a = ok (a + ∑ i ∈ Finset.range n, g i) := by
  induction n with
  | zero => simp [loop_zero]
  | succ n ih =>
    rw [loop_succ, ih (fun i t hi => h i t (by omega)), bind_ok, h n _ (by omega), Finset.sum_range_succ, add_assoc]

/-! ### buffers holding functions (specification vocabulary) -/

/-- The buffer is the row-major `m × n` table of `a`. -/
def Is2 (A : List α) (m n : Nat) (a : Nat → Nat → α) : Prop :=
  A.length = m * n ∧ ∀ i j, i < m → j < n → A[i * n + j]? = some (a i j)

/-- The buffer is the row-major `l × m × n` table of `a`. -/
def Is3 (A : List α) (l m n : Nat) (a : Nat → Nat → Nat → α) : Prop :=
  A.length = l * m * n ∧ ∀ h i j, h < l → i < m → j < n → A[(h * m + i) * n + j]? = some (a h i j)

/-- The buffer is the row-major `k × l × m × n` table of `a`. -/
def Is4 (A : List α) (k l m n : Nat) (a : Nat → Nat → Nat → Nat → α) : Prop :=
  A.length = k * l * m * n ∧
    ∀ g h i j, g < k → h < l → i < m → j < n → A[((g * l + h) * m + i) * n + j]? = some (a g h i j)

/-- The buffer holds the row-major tensor of shape `s` with element `a is` at every index. -/
def IsT (A : List α) (s : List Nat) (a : List Nat → α) : Prop :=
  A.length = size s ∧ ∀ is, ValidIdx s is → A[flat s is]? = some (a is)

theorem IsT.congr {A : List α} {s : List Nat} {a b : List Nat → α} (h : IsT A s a) (e : ∀ is, ValidIdx s is → a is = b is) :
    IsT A s b := ⟨h.1, fun is hv => by rw [h.2 is hv, e is hv]⟩

theorem exists_div_mod {m n p : Nat} (h : p < m * n) : ∃ i j, i < m ∧ j < n ∧ p = i * n + j := by
  have hn : 0 < n := by
    rcases Nat.eq_zero_or_pos n with h0 | h0
    · simp [h0] at h
    · exact h0
  refine ⟨p / n, p % n, ?_, Nat.mod_lt _ hn, ?_⟩
  · rw [Nat.div_lt_iff_lt_mul hn]; exact h
  · rw [Nat.mul_comm]; exact (Nat.div_add_mod p n).symm

/-- A buffer given by values at positions is a table. -/
theorem is2_of_pos {A : List α} {m n : Nat} {v : Nat → α} {a : Nat → Nat → α} (hl : A.length = m * n)
    (h : ∀ p, p < m * n → A[p]? = some (v p)) (hv : ∀ i j, i < m → j < n → v (i * n + j) = a i j) : Is2 A m n a :=
  ⟨hl, fun i j hi hj => by rw [h _ (lt_mul_of_lt hi hj), hv i j hi hj]⟩

theorem idx3_lt {l m n h i j : Nat} (hh : h < l) (hi : i < m) (hj : j < n) : (h * m + i) * n + j < l * m * n :=
  lt_mul_of_lt (lt_mul_of_lt hh hi) hj

theorem idx4_lt {k l m n g h i j : Nat} (hg : g < k) (hh : h < l) (hi : i < m) (hj : j < n) :
    ((g * l + h) * m + i) * n + j < k * l * m * n := lt_mul_of_lt (idx3_lt hg hh hi) hj

theorem Is2.rd {A : List α} {m n : Nat} {a : Nat → Nat → α} (h : Is2 A m n a) {i j : Nat} (hi : i < m) (hj : j < n) :
    Verif.rd A (i * n + j) = ok (a i j) := rd_ok (h.2 i j hi hj)

theorem Is3.rd {A : List α} {l m n : Nat} {a : Nat → Nat → Nat → α} (h : Is3 A l m n a) {x i j : Nat} (hx : x < l) (hi : i < m)
    (hj : j < n) : Verif.rd A ((x * m + i) * n + j) = ok (a x i j) := rd_ok (h.2 x i j hx hi hj)

theorem Is4.rd {A : List α} {k l m n : Nat} {a : Nat → Nat → Nat → Nat → α} (h : Is4 A k l m n a) {w x i j : Nat} (hw : w < k)
    (hx : x < l) (hi : i < m) (hj : j < n) : Verif.rd A (((w * l + x) * m + i) * n + j) = ok (a w x i j) :=
  rd_ok (h.2 w x i j hw hx hi hj)

/-- Decoding of a row-major position. -/
def dec2 (n p : Nat) : Nat × Nat := (p / n, p % n)
def dec3 (m n p : Nat) : Nat × Nat × Nat := (p / n / m, p / n % m, p % n)
def dec4 (l m n p : Nat) : Nat × Nat × Nat × Nat := (p / n / m / l, p / n / m % l, p / n % m, p % n)

theorem dec2_enc {n i j : Nat} (hj : j < n) : dec2 n (i * n + j) = (i, j) := by
  simp [dec2, div_mod_eq (i := i) hj]

theorem dec3_enc {m n h i j : Nat} (hi : i < m) (hj : j < n) : dec3 m n ((h * m + i) * n + j) = (h, i, j) := by
  simp [dec3, div_mod_eq (i := h * m + i) hj, div_mod_eq (i := h) hi]

theorem dec4_enc {l m n g h i j : Nat} (hh : h < l) (hi : i < m) (hj : j < n) :
    dec4 l m n (((g * l + h) * m + i) * n + j) = (g, h, i, j) := by
  simp [dec4, div_mod_eq (i := (g * l + h) * m + i) hj, div_mod_eq (i := g * l + h) hi, div_mod_eq (i := g) hh]

theorem exists_dec3 {l m n p : Nat} (hp : p < l * m * n) :
    ∃ h i j, h < l ∧ i < m ∧ j < n ∧ p = (h * m + i) * n + j := by
  obtain ⟨q, j, hq, hj, rfl⟩ := exists_div_mod hp
  obtain ⟨h, i, hh, hi, rfl⟩ := exists_div_mod hq
  exact ⟨h, i, j, hh, hi, hj, rfl⟩

theorem exists_dec4 {k l m n p : Nat} (hp : p < k * l * m * n) :
    ∃ g h i j, g < k ∧ h < l ∧ i < m ∧ j < n ∧ p = ((g * l + h) * m + i) * n + j := by
  obtain ⟨q, j, hq, hj, rfl⟩ := exists_div_mod hp
  obtain ⟨g, h, i, hg, hh, hi, rfl⟩ := exists_dec3 hq
  exact ⟨g, h, i, j, hg, hh, hi, hj, rfl⟩

end Verif
