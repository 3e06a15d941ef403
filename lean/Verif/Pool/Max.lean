import Verif.Pool.Lemmas
import Mathlib.Algebra.Order.AbsoluteValue.Basic
import Mathlib.Algebra.Order.Field.Basic
/-!
# C40, C41: max_pooling_2d
-/
namespace Verif.Pool
open Verif Res View Data

variable {α : Type}

/-- Specification: `(y, x)` lies in the `s`-by-`s` window number `(r, c)`. -/
def InWindow (s r c y x : Nat) : Prop := r * s ≤ y ∧ y < r * s + s ∧ c * s ≤ x ∧ x < c * s + s

/-- Specification: `(y, x)` is the position of the largest element of the window `(r, c)`, the first one in reading order. -/
def IsWindowMax [LT α] [LE α] (s r c : Nat) (v : Nat → Nat → α) (y x : Nat) : Prop :=
  InWindow s r c y x ∧ ∀ y' x', InWindow s r c y' x' → v y' x' ≤ v y x ∧ ((y' < y ∨ y' = y ∧ x' < x) → v y' x' < v y x)

theorem IsWindowMax.unique [LinearOrder α] {s r c : Nat} {v : Nat → Nat → α} {y x y' x' : Nat} (h : IsWindowMax s r c v y x)
    (h' : IsWindowMax s r c v y' x') : y = y' ∧ x = x' := by
  by_contra hne
  have h1 := h.2 y' x' h'.1
  have h2 := h'.2 y x h.1
  rcases Nat.lt_trichotomy y y' with hlt | heq | hgt
  · exact absurd (h2.2 (Or.inl hlt)) (not_lt.mpr h1.1)
  · subst heq
    rcases Nat.lt_trichotomy x x' with hlt | heq | hgt
    · exact absurd (h2.2 (Or.inr ⟨rfl, hlt⟩)) (not_lt.mpr h1.1)
    · exact hne ⟨rfl, heq⟩
    · exact absurd (h1.2 (Or.inr ⟨rfl, hgt⟩)) (not_lt.mpr h2.1)
  · exact absurd (h1.2 (Or.inl hgt)) (not_lt.mpr h2.1)

theorem InWindow.div {s r c y x : Nat} (h : InWindow s r c y x) : y / s = r ∧ x / s = c := by
  obtain ⟨h1, h2, h3, h4⟩ := h
  have hs : 0 < s := by omega
  constructor
  · exact Nat.div_eq_of_lt_le h1 (by rw [Nat.succ_mul]; exact h2)
  · exact Nat.div_eq_of_lt_le h3 (by rw [Nat.succ_mul]; exact h4)

theorem InWindow.lt {s r c y x R C : Nat} (h : InWindow s r c y x) (hr : r < R / s) (hc : c < C / s) : y < R ∧ x < C := by
  obtain ⟨h1, h2, h3, h4⟩ := h
  have e1 := win_lt hr (i := y - r * s) (by omega)
  have e2 := win_lt hc (i := x - c * s) (by omega)
  omega

theorem maxScan_ok [LinearOrder α] {d : List α} {BS R C CH s b r c ch : Nat} {a : Nat → Nat → Nat → Nat → α}
    (hd : Is4 d BS R C CH a) (hs : 0 < s) (hb : b < BS) (hr : r < R / s) (hc : c < C / s) (hch : ch < CH) :
    ∃ k : Nat × Nat, maxScan d BS R C CH s b r c ch = ok k ∧ IsWindowMax s r c (fun y x => a b y x ch) k.1 k.2 := by
  unfold maxScan
  rw [loopFrom_add]
  obtain ⟨k, h1, h2⟩ := loop_inv (n := s) (s := (r * s, c * s))
    (body := fun i m => loopFrom (c * s) (c * s + s) (fun x (m : Nat × Nat) => do
      let v ← rd d (at4 BS R C CH b (r * s + i) x ch)
      let w ← rd d (at4 BS R C CH b m.1 m.2 ch)
      if w < v then ok (r * s + i, x) else ok m) m)
    (fun i m => InWindow s r c m.1 m.2 ∧
      (∀ y' x', InWindow s r c y' x' → y' < r * s + i → a b y' x' ch ≤ a b m.1 m.2 ch) ∧
      (∀ y' x', InWindow s r c y' x' → (y' < m.1 ∨ y' = m.1 ∧ x' < m.2) → a b y' x' ch < a b m.1 m.2 ch))
    (by
      refine ⟨⟨le_refl _, by simp only; omega, le_refl _, by simp only; omega⟩, fun y' x' h hy => ?_, fun y' x' h hlt => ?_⟩
      · exact absurd h.1 (by omega)
      · obtain ⟨h1, h2, h3, h4⟩ := h
        simp only at hlt; omega)
    (by
      rintro i m hi ⟨hw, hle, hlt⟩
      rw [loopFrom_add]
      obtain ⟨k, h1, h2⟩ := loop_inv (n := s) (s := m)
        (body := fun j (m : Nat × Nat) => do
          let v ← rd d (at4 BS R C CH b (r * s + i) (c * s + j) ch)
          let w ← rd d (at4 BS R C CH b m.1 m.2 ch)
          if w < v then ok (r * s + i, c * s + j) else ok m)
        (fun j m => InWindow s r c m.1 m.2 ∧
          (∀ y' x', InWindow s r c y' x' → (y' < r * s + i ∨ y' = r * s + i ∧ x' < c * s + j) → a b y' x' ch ≤ a b m.1 m.2 ch) ∧
          (∀ y' x', InWindow s r c y' x' → (y' < m.1 ∨ y' = m.1 ∧ x' < m.2) → a b y' x' ch < a b m.1 m.2 ch))
        (by
          refine ⟨hw, fun y' x' h hy => ?_, hlt⟩
          rcases hy with hy | ⟨_, hx⟩
          · exact hle y' x' h hy
          · exact absurd h.2.2.1 (by omega))
        (by
          rintro j m hj ⟨hw, hle, hlt⟩
          have e1 := win_lt hr hi
          have e2 := win_lt hc hj
          have e3 := hw.lt hr hc
          rw [at4_eq, at4_eq, hd.rd hb e1 e2 hch, bind_ok, hd.rd hb e3.1 e3.2 hch, bind_ok]
          by_cases hv : a b m.1 m.2 ch < a b (r * s + i) (c * s + j) ch
          · rw [if_pos hv]
            refine ⟨_, rfl, ⟨by simp only; omega, by simp only; omega, by simp only; omega, by simp only; omega⟩, ?_, ?_⟩
            · intro y' x' h hy
              dsimp only
              by_cases he : y' = r * s + i ∧ x' = c * s + j
              · rw [he.1, he.2]
              · exact le_of_lt (lt_of_le_of_lt (hle y' x' h (by omega)) hv)
            · intro y' x' h hy
              dsimp only at hy ⊢
              exact lt_of_le_of_lt (hle y' x' h hy) hv
          · rw [if_neg hv]
            refine ⟨m, rfl, hw, ?_, hlt⟩
            intro y' x' h hy
            by_cases he : y' = r * s + i ∧ x' = c * s + j
            · rw [he.1, he.2]; exact not_lt.mp hv
            · exact hle y' x' h (by omega))
      refine ⟨k, h1, h2.1, fun y' x' h hy => ?_, h2.2.2⟩
      refine h2.2.1 y' x' h ?_
      have := h.2.2.2
      omega)
  exact ⟨k, h1, h2.1, fun y' x' h => ⟨h2.2.1 y' x' h h.2.1, h2.2.2 y' x' h⟩⟩

/-- What forward computes, and which mask entries it sets, from what is known (`Q`) of the position picked in every window. -/
theorem maxPool_sel [LT α] [DecidableLT α] [Zero α] [One α] {s BS R C CH : Nat} {t mask cache : Ten α} {a : List Nat → α} (hs : 1 < s)
    {Q : Nat → Nat → (Nat → Nat → α) → Nat × Nat → Prop}
    (hQ : ∀ b r c ch, Is4 t.data BS R C CH (fun b y x ch => a [b, y, x, ch]) → b < BS → r < R / s → c < C / s → ch < CH →
      ∃ k : Nat × Nat, maxScan t.data BS R C CH s b r c ch = ok k ∧ InWindow s r c k.1 k.2 ∧ Q r c (fun y x => a [b, y, x, ch]) k)
    (ht : t.Has [BS, R, C, CH] a) :
    ∃ u m : Ten α, ∃ o : Nat → Nat → Nat → Nat → α, ∃ pos : Nat → Nat → Nat → Nat → Nat × Nat,
      maxPool s t mask cache = ok (u, m) ∧ u.shape = [BS, R / s, C / s, CH] ∧
      Is4 u.data BS (R / s) (C / s) CH o ∧ m.shape = [BS, R, C, CH] ∧ m.data.length = BS * R * C * CH ∧
      (∀ b r c ch, b < BS → r < R / s → c < C / s → ch < CH →
        (InWindow s r c (pos b r c ch).1 (pos b r c ch).2 ∧ Q r c (fun y x => a [b, y, x, ch]) (pos b r c ch)) ∧
        o b r c ch = a [b, (pos b r c ch).1, (pos b r c ch).2, ch]) ∧
      (∀ p, (∃ b r c ch, b < BS ∧ r < R / s ∧ c < C / s ∧ ch < CH ∧
        p = ((b * R + (pos b r c ch).1) * C + (pos b r c ch).2) * CH + ch) → m.data[p]? = some 1) ∧
      (∀ p, (¬ ∃ b r c ch, b < BS ∧ r < R / s ∧ c < C / s ∧ ch < CH ∧
        p = ((b * R + (pos b r c ch).1) * C + (pos b r c ch).2) * CH + ch) → m.data[p]? = (resizeV mask [BS, R, C, CH]).data[p]?) := by
  obtain ⟨hsh, hd⟩ := ten4 ht
  have hex : ∀ b r c ch, ∃ k : Nat × Nat, b < BS → r < R / s → c < C / s → ch < CH →
      maxScan t.data BS R C CH s b r c ch = ok k ∧ InWindow s r c k.1 k.2 ∧ Q r c (fun y x => a [b, y, x, ch]) k := by
    intro b r c ch
    by_cases h : b < BS ∧ r < R / s ∧ c < C / s ∧ ch < CH
    · obtain ⟨k, h1, h2⟩ := hQ b r c ch hd h.1 h.2.1 h.2.2.1 h.2.2.2
      exact ⟨k, fun _ _ _ _ => ⟨h1, h2⟩⟩
    · exact ⟨(0, 0), fun h1 h2 h3 h4 => absurd ⟨h1, h2, h3, h4⟩ h⟩
  choose pos hpos using hex
  have hlt : ∀ b r c ch, b < BS → r < R / s → c < C / s → ch < CH → (pos b r c ch).1 < R ∧ (pos b r c ch).2 < C :=
    fun b r c ch h1 h2 h3 h4 => (hpos b r c ch h1 h2 h3 h4).2.1.lt h2 h3
  -- the mask loop
  have hmask : Sets (fun o => loop BS (fun b o => loop (R / s) (fun r o => loop (C / s) (fun c o => loop CH (fun ch o =>
      wr o (((b * R + (pos b r c ch).1) * C + (pos b r c ch).2) * CH + ch) (1 : α)) o) o) o) o) (BS * R * C * CH)
      (fun p => ∃ b, b < BS ∧ ∃ r, r < R / s ∧ ∃ c, c < C / s ∧ ∃ ch, ch < CH ∧
        p = ((b * R + (pos b r c ch).1) * C + (pos b r c ch).2) * CH + ch) (fun _ => 1) :=
    Sets.loop (fun b hb => Sets.loop (fun r hr => Sets.loop (fun c hc => Sets.loop (fun ch hch =>
      sets_wr (idx4_lt hb (hlt b r c ch hb hr hc hch).1 (hlt b r c ch hb hr hc hch).2 hch) rfl))))
  obtain ⟨m', m1, m2, m3, m4⟩ := hmask (resizeV mask [BS, R, C, CH]).data (by rw [resizeV_length, size4])
  obtain ⟨o', o1, o2⟩ := fill4 (k := BS) (l := R / s) (m := C / s) (n := CH)
    (body := fun b r c ch o => wr o (((b * (R / s) + r) * (C / s) + c) * CH + ch) (a [b, (pos b r c ch).1, (pos b r c ch).2, ch]))
    (f := fun b r c ch => a [b, (pos b r c ch).1, (pos b r c ch).2, ch])
    (fun _ _ _ _ _ _ _ _ _ _ => rfl) (out := (resizeV cache [BS, R / s, C / s, CH]).data) (by rw [resizeV_length, size4])
  refine ⟨⟨[BS, R / s, C / s, CH], o'⟩, ⟨[BS, R, C, CH], m'⟩, fun b r c ch => a [b, (pos b r c ch).1, (pos b r c ch).2, ch], pos,
    ?_, rfl, o2, rfl, m2, fun b r c ch h1 h2 h3 h4 => ⟨(hpos b r c ch h1 h2 h3 h4).2, rfl⟩, ?_, ?_⟩
  · unfold maxPool
    rw [assert_true hs, bind_ok, hsh]
    dsimp only
    rw [loop_pair (s' := m') (t' := o') _ m1 o1, bind_ok]; rfl
    intro b s1 t1 s2 t2 hb hf hg
    refine loop_pair ?_ hf hg
    intro r s1 t1 s2 t2 hr hf hg
    refine loop_pair ?_ hf hg
    intro c s1 t1 s2 t2 hc hf hg
    refine loop_pair ?_ hf hg
    intro ch s1 t1 s2 t2 hch hf hg
    obtain ⟨e1, e2⟩ := hpos b r c ch hb hr hc hch
    have e3 := hlt b r c ch hb hr hc hch
    dsimp only at hf hg ⊢
    rw [e1, bind_ok]
    simp only [at4_eq]
    rw [hf, bind_ok, hd.rd hb e3.1 e3.2 hch, bind_ok, hg, bind_ok]; rfl
  · rintro p ⟨b, r, c, ch, hb, hr, hc, hch, rfl⟩
    have e3 := hlt b r c ch hb hr hc hch
    exact m3 _ (idx4_lt hb e3.1 e3.2 hch) ⟨b, hb, r, hr, c, hc, ch, hch, rfl⟩
  · intro p hp
    exact m4 p (fun ⟨b, hb, r, hr, c, hc, ch, hch, e⟩ => hp ⟨b, r, c, ch, hb, hr, hc, hch, e⟩)

/-- What forward computes, and which mask entries it sets. -/
theorem maxPool_ok [LinearOrder α] [Zero α] [One α] {s BS R C CH : Nat} {t mask cache : Ten α} {a : List Nat → α} (hs : 1 < s)
    (ht : t.Has [BS, R, C, CH] a) :
    ∃ u m : Ten α, ∃ o : Nat → Nat → Nat → Nat → α, ∃ pos : Nat → Nat → Nat → Nat → Nat × Nat,
      maxPool s t mask cache = ok (u, m) ∧ u.shape = [BS, R / s, C / s, CH] ∧
      Is4 u.data BS (R / s) (C / s) CH o ∧ m.shape = [BS, R, C, CH] ∧ m.data.length = BS * R * C * CH ∧
      (∀ b r c ch, b < BS → r < R / s → c < C / s → ch < CH →
        IsWindowMax s r c (fun y x => a [b, y, x, ch]) (pos b r c ch).1 (pos b r c ch).2 ∧
        o b r c ch = a [b, (pos b r c ch).1, (pos b r c ch).2, ch]) ∧
      (∀ p, (∃ b r c ch, b < BS ∧ r < R / s ∧ c < C / s ∧ ch < CH ∧
        p = ((b * R + (pos b r c ch).1) * C + (pos b r c ch).2) * CH + ch) → m.data[p]? = some 1) ∧
      (∀ p, (¬ ∃ b r c ch, b < BS ∧ r < R / s ∧ c < C / s ∧ ch < CH ∧
        p = ((b * R + (pos b r c ch).1) * C + (pos b r c ch).2) * CH + ch) → m.data[p]? = (resizeV mask [BS, R, C, CH]).data[p]?) :=
  maxPool_sel (Q := fun r c v k => ∀ y' x', InWindow s r c y' x' → v y' x' ≤ v k.1 k.2 ∧ ((y' < k.1 ∨ y' = k.1 ∧ x' < k.2) → v y' x' < v k.1 k.2))
    hs (fun _ _ _ _ hd hb hr hc hch => maxScan_ok hd (by omega) hb hr hc hch) ht

/-- C40: forward of `max_pooling_2d` returns, for every window, a value that occurs in the window and is at least every value of the
window, whatever the operator's caches held; sizes not divisible by the stride leave the incomplete windows out. -/
theorem max_pool_window_max [LinearOrder α] [Zero α] [One α] (s BS R C CH : Nat) (t mask cache : Ten α) (a : List Nat → α) (hs : 1 < s)
    (ht : t.Has [BS, R, C, CH] a) :
    ∃ (u m : Ten α) (v : List Nat → α), maxPool s t mask cache = ok (u, m) ∧ u.Has [BS, R / s, C / s, CH] v ∧
      ∀ b r c ch, b < BS → r < R / s → c < C / s → ch < CH →
        (∃ y x, InWindow s r c y x ∧ v [b, r, c, ch] = a [b, y, x, ch]) ∧
        ∀ y x, InWindow s r c y x → a [b, y, x, ch] ≤ v [b, r, c, ch] := by
  obtain ⟨u, m, o, pos, h1, h2, h3, -, -, h6, -, -⟩ := maxPool_ok (mask := mask) (cache := cache) hs ht
  refine ⟨u, m, fun is => match is with | [b, r, c, ch] => o b r c ch | _ => o 0 0 0 0, h1, ⟨h2, is4_iff.mpr h3⟩, ?_⟩
  intro b r c ch hb hr hc hch
  obtain ⟨e1, e2⟩ := h6 b r c ch hb hr hc hch
  dsimp only
  rw [e2]
  exact ⟨⟨_, _, e1.1, rfl⟩, fun y x hw => (e1.2 y x hw).1⟩

example : (maxPool 2 ⟨[1, 2, 5, 1], [3, 1, 4, 1, 5, 9, 2, 6, 5, (3 : ℚ)]⟩ ⟨[], []⟩ ⟨[], []⟩) =
    ok (⟨[1, 1, 2, 1], [9, 6]⟩, ⟨[1, 2, 5, 1], [0, 0, 0, 0, 0, 1, 0, 1, 0, 0]⟩) := by decide +kernel

/-- C40: an operand that is not four-dimensional stops in an assertion. -/
theorem max_pool_rejects [LinearOrder α] [Zero α] [One α] (s : Nat) (t mask cache : Ten α) (h : s ≤ 1 ∨ t.shape.length ≠ 4) :
    maxPool s t mask cache = abort := by
  unfold maxPool
  by_cases hs : 1 < s
  · rw [assert_true hs, bind_ok]
    have h4 : t.shape.length ≠ 4 := by rcases h with h | h <;> [omega; exact h]
    split
    · rename_i e; rw [e] at h4; simp at h4
    · rfl
  · rw [assert_false hs, bind_abort]

example : maxPool 2 (⟨[2, 2], [1, 2, 3, 4]⟩ : Ten ℚ) ⟨[], []⟩ ⟨[], []⟩ = abort := by decide +kernel

/-! ### C41 -/

/-- C41 is violated: one operator applied to two inputs of the same shape.  The mask keeps the maximum of the first run, so the
second backward pass sends the gradient to both positions. -/
theorem max_pool_backward_violated :
    ∃ (u1 m1 u2 m2 g : Ten ℚ),
      maxPool 2 ⟨[1, 2, 2, 1], [9, 0, 0, 0]⟩ ⟨[], []⟩ ⟨[], []⟩ = ok (u1, m1) ∧
      maxPool 2 ⟨[1, 2, 2, 1], [0, 0, 0, 9]⟩ m1 u1 = ok (u2, m2) ∧
      maxPoolBack 2 ⟨[1, 2, 2, 1], [0, 0, 0, 9]⟩ m2 ⟨[1, 1, 1, 1], [1]⟩ ⟨[], []⟩ = ok g ∧
      g.data = [1, 0, 0, 1] ∧
      maxPoolBack 2 (⟨[1, 2, 2, 1], [0, 0, 0, 9]⟩ : Ten ℚ) ⟨[1, 2, 2, 1], [0, 0, 0, 1]⟩ ⟨[1, 1, 1, 1], [1]⟩ ⟨[], []⟩ =
        ok ⟨[1, 2, 2, 1], [0, 0, 0, 1]⟩ := by
  refine ⟨⟨[1, 1, 1, 1], [9]⟩, ⟨[1, 2, 2, 1], [1, 0, 0, 0]⟩, ⟨[1, 1, 1, 1], [9]⟩, ⟨[1, 2, 2, 1], [1, 0, 0, 1]⟩,
    ⟨[1, 2, 2, 1], [1, 0, 0, 1]⟩, ?_, ?_, ?_, rfl, ?_⟩ <;> decide +kernel

/-- What backward computes when the mask is one exactly at the positions `P`, which lie in complete windows. -/
theorem maxPoolBack_ok [Field α] [LinearOrder α] [IsStrictOrderedRing α] {s BS R C CH : Nat} {t m grad gcache : Ten α} {g : List Nat → α}
    {P : Nat → Nat → Nat → Nat → Prop} [∀ b y x ch, Decidable (P b y x ch)] (ht : t.shape = [BS, R, C, CH]) (hgd : Is4 grad.data BS (R / s) (C / s) CH (fun b r c ch => g [b, r, c, ch]))
    (hm : Is4 m.data BS R C CH (fun b y x ch => if P b y x ch then (1 : α) else 0))
    (hP : ∀ b y x ch, P b y x ch → y / s < R / s ∧ x / s < C / s) (hcache : Blank gcache [BS, R, C, CH]) :
    ∃ d, maxPoolBack s t m grad gcache = ok ⟨[BS, R, C, CH], d⟩ ∧
      Is4 d BS R C CH (fun b y x ch => if P b y x ch then g [b, y / s, x / s, ch] else 0) := by
  have hsets : Sets (fun o => loop BS (fun b o => loop R (fun y o => loop C (fun x o => loop CH (fun ch o => do
      let mm ← rd m.data (at4 BS R C CH b y x ch)
      if |mm - 1| < 1 / 100000 then do
        let g ← rd grad.data (at4 BS (R / s) (C / s) CH b (y / s) (x / s) ch)
        wr o (at4 BS R C CH b y x ch) g
      else ok o) o) o) o) o) (BS * R * C * CH)
      (fun p => ∃ b, b < BS ∧ ∃ y, y < R ∧ ∃ x, x < C ∧ ∃ ch, ch < CH ∧ P b y x ch ∧ p = ((b * R + y) * C + x) * CH + ch)
      (fun p => g [(dec4 R C CH p).1, (dec4 R C CH p).2.1 / s, (dec4 R C CH p).2.2.1 / s, (dec4 R C CH p).2.2.2]) := by
    refine Sets.loop (fun b hb => Sets.loop (fun y hy => Sets.loop (fun x hx => Sets.loop (fun ch hch => ?_))))
    by_cases hp : P b y x ch
    · refine Sets.congr (Sets.congr_prog (sets_wr (x := g [b, y / s, x / s, ch]) (idx4_lt hb hy hx hch)
        (by rw [dec4_enc hy hx hch])) (fun o ho => ?_)) (fun p _ => ⟨fun e => ⟨hp, e⟩, fun e => e.2⟩)
      obtain ⟨hr, hc⟩ := hP b y x ch hp
      simp only [at4_eq]
      rw [hm.rd hb hy hx hch, bind_ok]
      rw [if_pos hp, if_pos (by simp), hgd.rd hb hr hc hch, bind_ok]
    · refine Sets.congr (Sets.congr_prog sets_nop (fun o ho => ?_)) (fun p _ => ⟨fun e => e.elim, fun e => absurd e.1 hp⟩)
      simp only [at4_eq]
      rw [hm.rd hb hy hx hch, bind_ok]
      rw [if_neg hp, if_neg (by rw [zero_sub, abs_neg, abs_one]; exact not_lt.mpr (by rw [div_le_one] <;> norm_num))]
  obtain ⟨d, d1, d2, d3, d4⟩ := hsets (resizeV gcache [BS, R, C, CH]).data (by rw [resizeV_length, size4])
  refine ⟨d, ?_, d2, fun b y x ch hb hy hx hch => ?_⟩
  · unfold maxPoolBack
    rw [ht]
    dsimp only at d1 ⊢
    rw [d1, bind_ok]; rfl
  · dsimp only
    by_cases hp : P b y x ch
    · rw [if_pos hp, d3 _ (idx4_lt hb hy hx hch) ⟨b, hb, y, hy, x, hx, ch, hch, hp, rfl⟩]
      dsimp only
      rw [dec4_enc hy hx hch]
    · rw [if_neg hp, d4]
      · exact hcache.get (by rw [size4]; exact idx4_lt hb hy hx hch)
      · rintro ⟨b', hb', y', hy', x', hx', ch', hch', hP', e⟩
        obtain ⟨e1, e2⟩ := mul_add_inj hch hch' e
        obtain ⟨e3, e4⟩ := mul_add_inj hx hx' e1
        obtain ⟨e5, e6⟩ := mul_add_inj hy hy' e3
        subst e2; subst e5; subst e4; subst e6
        exact hp hP'

/-- The mask after a forward run, if before it was one exactly at the positions `Q` (or unused): one at `Q` and at the maxima. -/
theorem maxPool_mask [Field α] [LinearOrder α] [IsStrictOrderedRing α] {s BS R C CH : Nat} {t mask cache : Ten α} {a : List Nat → α}
    {Q P : Nat → Nat → Nat → Nat → Prop} [∀ b y x ch, Decidable (Q b y x ch)] [∀ b y x ch, Decidable (P b y x ch)] (hs : 1 < s) (ht : t.Has [BS, R, C, CH] a)
    (hmask : Is4 (resizeV mask [BS, R, C, CH]).data BS R C CH (fun b y x ch => if Q b y x ch then (1 : α) else 0))
    (hP : ∀ b y x ch, P b y x ch ↔ Q b y x ch ∨ ∃ r c, r < R / s ∧ c < C / s ∧ IsWindowMax s r c (fun y x => a [b, y, x, ch]) y x) :
    ∃ u m : Ten α, ∃ v, maxPool s t mask cache = ok (u, m) ∧ u.Has [BS, R / s, C / s, CH] v ∧ m.shape = [BS, R, C, CH] ∧
      Is4 m.data BS R C CH (fun b y x ch => if P b y x ch then (1 : α) else 0) := by
  obtain ⟨u, m, o, pos, h1, h2, h3, h4, h5, h6, h7, h8⟩ := maxPool_ok (mask := mask) (cache := cache) hs ht
  refine ⟨u, m, fun is => match is with | [b, r, c, ch] => o b r c ch | _ => o 0 0 0 0, h1, ⟨h2, is4_iff.mpr h3⟩, h4, h5, fun b y x ch hb hy hx hch => ?_⟩
  dsimp only
  by_cases hw : ∃ r c, r < R / s ∧ c < C / s ∧ IsWindowMax s r c (fun y x => a [b, y, x, ch]) y x
  · rw [if_pos ((hP b y x ch).mpr (Or.inr hw))]
    obtain ⟨r, c, hr, hc, hw⟩ := hw
    obtain ⟨e1, e2⟩ := hw.unique (h6 b r c ch hb hr hc hch).1
    exact h7 _ ⟨b, r, c, ch, hb, hr, hc, hch, by rw [← e1, ← e2]⟩
  · rw [h8]
    · rw [hmask.2 b y x ch hb hy hx hch]
      simp only [hP, hw, or_false]
    · rintro ⟨b', r, c, ch', hb', hr, hc, hch', e⟩
      have hw' := (h6 b' r c ch' hb' hr hc hch').1
      have hl := hw'.1.lt hr hc
      obtain ⟨e1, e2⟩ := mul_add_inj hch hch' e
      obtain ⟨e3, e4⟩ := mul_add_inj hx hl.2 e1
      obtain ⟨e5, e6⟩ := mul_add_inj hy hl.1 e3
      subst e2; subst e5
      rw [← e4, ← e6] at hw'
      exact hw ⟨r, c, hr, hc, hw'⟩

theorem blank_is4 [Zero α] {mask : Ten α} {BS R C CH : Nat} (h : Blank mask [BS, R, C, CH]) : Is4 (resizeV mask [BS, R, C, CH]).data BS R C CH (fun _ _ _ _ => 0) :=
  ⟨by rw [resizeV_length, size4], fun b y x ch hb hy hx hch => h.get (by rw [size4]; exact idx4_lt hb hy hx hch)⟩

/-- C41: backward after a forward whose mask and gradient caches are unused (or held another number of elements, or zeros) sends the gradient
of each window to the position of the window's first maximum, and zero everywhere else, also to the incomplete windows.
Missing: an operator used before on an input with as many elements (see `max_pool_backward_violated`). -/
theorem max_pool_backward_partial [Field α] [LinearOrder α] [IsStrictOrderedRing α] (s BS R C CH : Nat)
    (t mask cache grad gcache : Ten α) (a g : List Nat → α) (hs : 1 < s) (ht : t.Has [BS, R, C, CH] a)
    (hg : grad.Has [BS, R / s, C / s, CH] g)
    (hmask : Blank mask [BS, R, C, CH]) (hcache : Blank gcache [BS, R, C, CH]) :
    ∃ (u m d : Ten α) (v : List Nat → α), maxPool s t mask cache = ok (u, m) ∧ maxPoolBack s t m grad gcache = ok d ∧
      d.Has [BS, R, C, CH] v ∧
      ∀ b y x ch, b < BS → y < R → x < C → ch < CH →
        (∀ r c, r < R / s → c < C / s → IsWindowMax s r c (fun y x => a [b, y, x, ch]) y x → v [b, y, x, ch] = g [b, r, c, ch]) ∧
        ((¬ ∃ r c, r < R / s ∧ c < C / s ∧ IsWindowMax s r c (fun y x => a [b, y, x, ch]) y x) → v [b, y, x, ch] = 0) := by
  classical
  let P : Nat → Nat → Nat → Nat → Prop := fun b y x ch =>
    ∃ r c, r < R / s ∧ c < C / s ∧ IsWindowMax s r c (fun y x => a [b, y, x, ch]) y x
  obtain ⟨u, m, v, h1, -, -, h3⟩ := maxPool_mask (mask := mask) (cache := cache) (Q := fun _ _ _ _ => False) (P := P) hs ht (by simpa using blank_is4 hmask)
    (fun b y x ch => by simp [P])
  obtain ⟨d, d1, d2⟩ := maxPoolBack_ok (t := t) ht.1 (ten4 hg).2 h3 (fun b y x ch ⟨r, c, hr, hc, hw⟩ => by
    obtain ⟨e1, e2⟩ := hw.1.div
    rw [e1, e2]
    exact ⟨hr, hc⟩) hcache
  refine ⟨u, m, ⟨[BS, R, C, CH], d⟩, fun is => match is with
    | [b, y, x, ch] => if P b y x ch then g [b, y / s, x / s, ch] else 0
    | _ => 0, h1, d1, ⟨rfl, is4_iff.mpr d2⟩, ?_⟩
  intro b y x ch hb hy hx hch
  dsimp only
  constructor
  · intro r c hr hc hw
    obtain ⟨e1, e2⟩ := hw.1.div
    rw [if_pos (show P b y x ch from ⟨r, c, hr, hc, hw⟩), e1, e2]
  · intro h
    rw [if_neg h]

example : (maxPool 2 ⟨[1, 2, 5, 1], [3, 1, 4, 1, 5, 9, 2, 6, 5, (3 : ℚ)]⟩ ⟨[], []⟩ ⟨[], []⟩ >>= fun r =>
    maxPoolBack 2 ⟨[1, 2, 5, 1], [3, 1, 4, 1, 5, 9, 2, 6, 5, (3 : ℚ)]⟩ r.2 ⟨[1, 1, 2, 1], [7, 8]⟩ ⟨[], []⟩) =
    ok ⟨[1, 2, 5, 1], [0, 0, 0, 0, 0, 7, 0, 8, 0, 0]⟩ := by decide +kernel

end Verif.Pool
