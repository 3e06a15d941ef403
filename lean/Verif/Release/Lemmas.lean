import Verif.Release.Model
import Verif.Tensor.Reject
import Verif.Gemm.Props
import Verif.Data.Reduce

/-!
# Both builds (helper lemmas)
-/
namespace Verif.Release
open Verif Res View Tensor

variable {α : Type}

/-! ### equal unless rejected -/

/-- The outcome of the debug build is to abort, or that of the release build. -/
def Le {β : Type} (x y : Res β) : Prop := x = abort ∨ x = y

theorem Le.refl {β : Type} (x : Res β) : Le x x := Or.inr rfl

theorem Le.bind {β γ : Type} {x y : Res β} {f g : β → Res γ} (h : Le x y) (h' : ∀ a, Le (f a) (g a)) : Le (x >>= f) (y >>= g) := by
  rcases h with rfl | rfl
  · exact Or.inl rfl
  · cases x with
    | ok a => exact h' a
    | abort => exact Or.inl rfl
    | ub => exact Or.inr rfl

theorem Le.loop {σ : Type} {n : Nat} {f g : Nat → σ → Res σ} {s : σ} (h : ∀ i a, Le (f i a) (g i a)) : Le (loop n f s) (loop n g s) := by
  induction n with
  | zero => exact Le.refl _
  | succ n ih => exact ih.bind (h n)

theorem Le.ite {β : Type} {c : Prop} [Decidable c] {x y x' y' : Res β} (h : Le x x') (h' : Le y y') :
    Le (if c then x else y) (if c then x' else y') := by
  split <;> assumption

theorem le_check (c : Prop) [Decidable c] : Le (check true c) (check false c) := by
  by_cases h : c
  · exact Or.inr (by simp [check, h])
  · exact Or.inl (by simp [check, h])

/-! ### no build without checks aborts -/

/-- Does not abort. -/
def NA {β : Type} (x : Res β) : Prop := x ≠ abort

theorem na_ok {β : Type} (a : β) : NA (ok a) := fun e => by cases e
theorem na_pure {β : Type} (a : β) : NA (pure a : Res β) := fun e => by cases e
theorem na_ub {β : Type} : NA (ub : Res β) := fun e => by cases e

theorem NA.bind {β γ : Type} {x : Res β} {f : β → Res γ} (h : NA x) (h' : ∀ a, NA (f a)) : NA (x >>= f) := by
  cases x with
  | ok a => exact h' a
  | abort => exact absurd rfl h
  | ub => exact na_ub

theorem NA.loop {σ : Type} {n : Nat} {f : Nat → σ → Res σ} {s : σ} (h : ∀ i a, NA (f i a)) : NA (loop n f s) := by
  induction n with
  | zero => exact na_ok _
  | succ n ih => exact ih.bind (h n)

theorem NA.ite {β : Type} {c : Prop} [Decidable c] {x y : Res β} (h : NA x) (h' : NA y) : NA (if c then x else y) := by
  split <;> assumption

theorem na_rd {β : Type} (b : List β) (i : Nat) : NA (rd b i) := by
  unfold rd NA; split <;> exact fun e => by cases e
theorem na_wr {β : Type} (b : List β) (i : Nat) (v : β) : NA (wr b i v) := (na_ok _).ite na_ub
theorem na_require (c : Prop) [Decidable c] : NA (require c) := (na_ok _).ite na_ub
theorem na_check (c : Prop) [Decidable c] : NA (check false c) := na_ok _

theorem na_sizeT (h : Heap α) (t : Tn) : NA (sizeT h t) := (na_rd _ _).bind fun _ => na_pure _
theorem na_getT (h : Heap α) (t : Tn) (i : Nat) : NA (getT h t i) := (na_rd _ _).bind fun _ => na_rd _ _
theorem na_setT (h : Heap α) (t : Tn) (i : Nat) (v : α) : NA (setT h t i v) := (na_rd _ _).bind fun _ => (na_wr _ _ _).bind fun _ => na_wr _ _ _
theorem na_resize [Zero α] (h : Heap α) (t : Tn) (s : List Nat) : NA (resize h t s) := (na_rd _ _).bind fun _ => (na_wr _ _ _).bind fun _ => na_pure _
theorem na_reshape [Zero α] (h : Heap α) (t : Tn) (s : List Nat) : NA (reshape h t s) :=
  (na_rd _ _).bind fun _ => (na_require _).bind fun _ =>
    NA.ite ((na_require _).bind fun _ => NA.ite (na_resize _ _ _) (na_pure _)) (NA.ite (na_resize _ _ _) (na_pure _))
theorem na_zipInto (f : α → α → α) (h : Heap α) (t o : Tn) : NA (zipInto f h t o) :=
  (na_sizeT _ _).bind fun _ => NA.loop fun _ _ => (na_getT _ _ _).bind fun _ => (na_getT _ _ _).bind fun _ => na_setT _ _ _ _
theorem na_dimAt (a : List Nat) (i : Nat) : NA (dimAt a i) := NA.ite (na_rd _ _) (na_ok _)
theorem na_padTensor [Zero α] (h : Heap α) (t : Tn) (new : List Nat) : NA (padTensor h t new) := NA.ite (na_reshape _ _ _) (na_ok _)
theorem na_findDim (u n : List Nat) (d : Nat) : NA (findDim u n d) := by
  induction d with
  | zero => exact na_ok _
  | succ d ih => exact (na_rd _ _).bind fun _ => (na_rd _ _).bind fun _ => NA.ite (na_pure _) ih
theorem na_expandKernel (a b c : Nat) (s o : List α) : NA (expandKernel a b c s o) :=
  NA.loop fun _ _ => NA.loop fun _ _ => NA.loop fun _ _ => (na_rd _ _).bind fun _ => na_wr _ _ _
theorem na_copyTo (s : List α) (a n : Nat) (d : List α) (b : Nat) : NA (Data.copyTo s a n d b) :=
  NA.loop fun _ _ => (na_rd _ _).bind fun _ => na_wr _ _ _
theorem na_gemmCpu [Zero α] [Add α] [Mul α] (A : List α) (aT : Bool) (B : List α) (bT : Bool) (m n k : Nat) (C : List α) :
    NA (Gemm.gemmCpu A aT B bT m n k C) := by
  have hadd : ∀ (C : List α) (p : Nat) (v : α), NA (addAt C p v) := fun C p v => (na_rd _ _).bind fun _ => na_wr _ _ _
  refine NA.bind (NA.loop fun _ _ => na_wr _ _ _) fun C => ?_
  refine NA.ite ?_ (NA.ite ?_ (NA.ite ?_ ?_)) <;>
    exact NA.loop fun _ _ => NA.loop fun _ _ => NA.loop fun _ _ => (na_rd _ _).bind fun _ => (na_rd _ _).bind fun _ => hadd _ _ _

theorem ub_of {β : Type} {x : Res β} (h : NA x) (h' : ∀ r, x ≠ ok r) : x = ub := by
  cases x with
  | ok a => exact absurd rfl (h' a)
  | abort => exact absurd rfl h
  | ub => rfl

/-! ### a loop that succeeds has succeeded in every round -/

theorem loop_ok_at {σ : Type} {n : Nat} {body : Nat → σ → Res σ} {s t : σ} (P : σ → Prop) (h0 : P s)
    (hs : ∀ i a b, body i a = ok b → P a → P b) (h : loop n body s = ok t) {i : Nat} (hi : i < n) : ∃ a b, body i a = ok b ∧ P a := by
  induction n generalizing t with
  | zero => omega
  | succ n ih =>
    rw [loop_succ, bind_eq_ok] at h
    obtain ⟨a, ha, hb⟩ := h
    by_cases e : i = n
    · subst e; exact ⟨a, t, hb, loop_ok_inv P h0 hs ha⟩
    · exact ih ha (by omega)

theorem copyTo_length {s d e : List α} {a n b : Nat} (h : Data.copyTo s a n d b = ok e) : e.length = d.length := by
  refine loop_ok_inv (fun x => x.length = d.length) rfl (fun i x y hxy hx => ?_) h
  rw [bind_eq_ok] at hxy
  obtain ⟨v, -, hw⟩ := hxy
  rw [wr_eq_ok] at hw
  rw [hw.2, List.length_set, hx]

theorem copyTo_ok_iff (s d : List α) (a n b : Nat) :
    (∃ e, Data.copyTo s a n d b = ok e) ↔ n = 0 ∨ (a + n ≤ s.length ∧ b + n ≤ d.length) := by
  constructor
  · rintro ⟨e, h⟩
    rcases Nat.eq_zero_or_pos n with rfl | hn
    · exact Or.inl rfl
    · right
      obtain ⟨x, y, hxy, hx⟩ := loop_ok_at (fun x => x.length = d.length) rfl (fun i x y hxy hx => by
        rw [bind_eq_ok] at hxy
        obtain ⟨v, -, hw⟩ := hxy
        rw [wr_eq_ok] at hw
        rw [hw.2, List.length_set, hx]) h (i := n - 1) (by omega)
      rw [bind_eq_ok] at hxy
      obtain ⟨v, hr, hw⟩ := hxy
      rw [wr_eq_ok] at hw
      have := rd_lt hr
      omega
  · rintro (rfl | ⟨h1, h2⟩)
    · exact ⟨d, rfl⟩
    · obtain ⟨t, ht, -⟩ := loop_inv (n := n) (body := fun i (o : List α) => do let x ← rd s (a + i); wr o (b + i) x) (s := d)
        (fun _ o => o.length = d.length) rfl (fun i o hi ho => by
          refine ⟨o.set (b + i) (s[a + i]'(by omega)), ?_, by simpa using ho⟩
          rw [rd_ok (List.getElem?_eq_getElem (by omega)), bind_ok, wr_ok (by omega)])
      exact ⟨t, ht⟩

theorem expandKernel_ok_len {H R T : Nat} {src out o : List α} (h : expandKernel H R T src out = ok o) (hH : 0 < H) (hR : 0 < R) (hT : 0 < T) :
    H * R * T ≤ out.length := by
  have hbody : ∀ r c ch (x y : List α), (do let v ← rd src (r * T + ch); wr x (r * R * T + c * T + ch) v) = ok y → x.length = out.length → y.length = out.length := by
    intro r c ch x y hxy hx
    rw [bind_eq_ok] at hxy
    obtain ⟨v, -, hw⟩ := hxy
    rw [wr_eq_ok] at hw
    rw [hw.2, List.length_set, hx]
  have hb2 : ∀ r c (x y : List α), loop T (fun ch o => do let v ← rd src (r * T + ch); wr o (r * R * T + c * T + ch) v) x = ok y →
      x.length = out.length → y.length = out.length := fun r c x y hxy hx =>
    loop_ok_inv (fun z => z.length = out.length) hx (fun i a b hab ha => hbody r c i a b hab ha) hxy
  have hb1 : ∀ r (x y : List α), loop R (fun c o => loop T (fun ch o => do let v ← rd src (r * T + ch); wr o (r * R * T + c * T + ch) v) o) x = ok y →
      x.length = out.length → y.length = out.length := fun r x y hxy hx =>
    loop_ok_inv (fun z => z.length = out.length) hx (fun i a b hab ha => hb2 r i a b hab ha) hxy
  obtain ⟨a, b, hab, ha⟩ := loop_ok_at (fun z => z.length = out.length) rfl (fun i x y hxy hx => hb1 i x y hxy hx) h (i := H - 1) (by omega)
  obtain ⟨a', b', hab', ha'⟩ := loop_ok_at (fun z => z.length = out.length) ha (fun i x y hxy hx => hb2 _ i x y hxy hx) hab (i := R - 1) (by omega)
  obtain ⟨c, d, hcd, hc⟩ := loop_ok_at (fun z => z.length = out.length) ha' (fun i x y hxy hx => hbody _ _ i x y hxy hx) hab' (i := T - 1) (by omega)
  rw [bind_eq_ok] at hcd
  obtain ⟨v, -, hw⟩ := hcd
  rw [wr_eq_ok, hc] at hw
  have hw := hw.1
  obtain ⟨H, rfl⟩ : ∃ k, H = k + 1 := ⟨H - 1, by omega⟩
  obtain ⟨R, rfl⟩ : ∃ k, R = k + 1 := ⟨R - 1, by omega⟩
  obtain ⟨T, rfl⟩ : ∃ k, T = k + 1 := ⟨T - 1, by omega⟩
  simp only [Nat.add_sub_cancel] at hw
  have : (H + 1) * (R + 1) * (T + 1) = H * (R + 1) * (T + 1) + R * (T + 1) + T + 1 := by ring
  omega

end Verif.Release
