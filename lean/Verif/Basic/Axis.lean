import Verif.Basic.Kernel
/-!
# Tensors by value, and a tensor seen as (before the axis) x (axis) x (after the axis)
-/
namespace Verif
open Res

variable {α : Type}

/-- A tensor by value: shape and row-major elements (include/tensor.hpp lines 45-47).  Used for functions that read their
arguments and write a storage of their own; sharing of storages is modelled in `Verif.Tensor`. -/
structure Ten (α : Type) where
  shape : List Nat
  data : List α
  deriving DecidableEq, Repr

/-- Specification vocabulary: `t` has shape `s` and element `a is` at every index `is`. -/
def Ten.Has (t : Ten α) (s : List Nat) (a : List Nat → α) : Prop := t.shape = s ∧ IsT t.data s a

theorem Ten.Has.congr {t : Ten α} {s : List Nat} {a b : List Nat → α} (h : t.Has s a) (e : ∀ is, ValidIdx s is → a is = b is) :
    t.Has s b := ⟨h.1, h.2.congr e⟩

/-- A tensor holds exactly one table of values. -/
theorem Ten.Has.ext {t u : Ten α} {s : List Nat} {a : List Nat → α} (h : t.Has s a) (g : u.Has s a) : t = u := by
  obtain ⟨h1, h2, h3⟩ := h
  obtain ⟨g1, g2, g3⟩ := g
  cases t with | mk ts td =>
  cases u with | mk us ud =>
  simp only at *
  subst h1; subst g1
  congr 1
  apply List.ext_getElem?
  intro p
  by_cases hp : p < size us
  · obtain ⟨is, hv, rfl⟩ := exists_idx hp
    rw [h3 is hv, g3 is hv]
  · rw [List.getElem?_eq_none (by omega), List.getElem?_eq_none (by omega)]

theorem IsT.is3 {A : List α} {pre post : List Nat} {n : Nat} {a : List Nat → α} (h : IsT A (pre ++ n :: post) a) :
    Is3 A (size pre) n (size post) (fun x i j => a (unflat pre x ++ i :: unflat post j)) := by
  refine ⟨by rw [h.1, size_append, size_cons, Nat.mul_assoc], fun x i j hx hi hj => ?_⟩
  obtain ⟨v1, e1⟩ := unflat_spec hx
  obtain ⟨v2, e2⟩ := unflat_spec hj
  have := h.2 (unflat pre x ++ i :: unflat post j) ((validIdx_append v1.length_eq).mpr ⟨v1, hi, v2⟩)
  rwa [flat_axis v1.length_eq, e1, e2] at this

theorem Is3.isT {A : List α} {pre post : List Nat} {n : Nat} {b : Nat → Nat → Nat → α} {c : List Nat → α}
    (h : Is3 A (size pre) n (size post) b)
    (e : ∀ ip i iq, ValidIdx pre ip → i < n → ValidIdx post iq → b (flat pre ip) i (flat post iq) = c (ip ++ i :: iq)) :
    IsT A (pre ++ n :: post) c := by
  refine ⟨by rw [h.1, size_append, size_cons, Nat.mul_assoc], fun is hv => ?_⟩
  obtain ⟨ip, i, iq, rfl, v1, hi, v2⟩ := validIdx_split hv
  rw [flat_axis v1.length_eq, h.2 _ _ _ (flat_lt v1) hi (flat_lt v2), e ip i iq v1 hi v2]

theorem IsT.is2 {A : List α} {pre post : List Nat} {a : List Nat → α} (h : IsT A (pre ++ post) a) :
    Is2 A (size pre) (size post) (fun x j => a (unflat pre x ++ unflat post j)) := by
  refine ⟨by rw [h.1, size_append], fun x j hx hj => ?_⟩
  obtain ⟨v1, e1⟩ := unflat_spec hx
  obtain ⟨v2, e2⟩ := unflat_spec hj
  have := h.2 (unflat pre x ++ unflat post j) ((validIdx_append v1.length_eq).mpr ⟨v1, v2⟩)
  rwa [flat_append v1.length_eq, e1, e2] at this

theorem validIdx_split2 {pre post is : List Nat} (h : ValidIdx (pre ++ post) is) :
    ∃ ip iq, is = ip ++ iq ∧ ValidIdx pre ip ∧ ValidIdx post iq := by
  induction pre generalizing is with
  | nil => exact ⟨[], is, rfl, trivial, h⟩
  | cons n pre ih =>
    cases is with
    | nil => exact absurd h id
    | cons i is =>
      obtain ⟨ip, iq, rfl, h1, h2⟩ := ih h.2
      exact ⟨i :: ip, iq, rfl, ⟨h.1, h1⟩, h2⟩

theorem Is2.isT {A : List α} {pre post : List Nat} {b : Nat → Nat → α} {c : List Nat → α}
    (h : Is2 A (size pre) (size post) b)
    (e : ∀ ip iq, ValidIdx pre ip → ValidIdx post iq → b (flat pre ip) (flat post iq) = c (ip ++ iq)) :
    IsT A (pre ++ post) c := by
  refine ⟨by rw [h.1, size_append], fun is hv => ?_⟩
  obtain ⟨ip, iq, rfl, v1, v2⟩ := validIdx_split2 hv
  rw [flat_append v1.length_eq, h.2 _ _ (flat_lt v1) (flat_lt v2), e ip iq v1 v2]

theorem IsT.pos {A : List α} {s : List Nat} {a : List Nat → α} (h : IsT A s a) {p : Nat} (hp : p < size s) :
    A[p]? = some (a (unflat s p)) := by
  have := h.2 _ (unflat_spec hp).1
  rwa [(unflat_spec hp).2] at this

theorem isT_of_pos {A : List α} {s : List Nat} {v : Nat → α} {a : List Nat → α} (hl : A.length = size s)
    (h : ∀ p, p < size s → A[p]? = some (v p)) (e : ∀ is, ValidIdx s is → v (flat s is) = a is) : IsT A s a :=
  ⟨hl, fun is hv => by rw [h _ (flat_lt hv), e is hv]⟩

/-- Filling a three-dimensional table by a triple loop that writes each cell once. -/
theorem fill3 {l m n : Nat} {body : Nat → Nat → Nat → List α → Res (List α)} {g : Nat → Nat → Nat → α}
    (h : ∀ x i j o, x < l → i < m → j < n → o.length = l * m * n →
      body x i j o = wr o ((x * m + i) * n + j) (g x i j)) {out : List α} (ho : out.length = l * m * n) :
    ∃ o', loop l (fun x o => loop m (fun i o => loop n (fun j o => body x i j o) o) o) out = ok o' ∧ Is3 o' l m n g := by
  have hsets : Sets (fun o => loop l (fun x o => loop m (fun i o => loop n (fun j o => body x i j o) o) o) o) (l * m * n)
      (fun p => ∃ x, x < l ∧ ∃ i, i < m ∧ ∃ j, j < n ∧ p = (x * m + i) * n + j)
      (fun p => g (dec3 m n p).1 (dec3 m n p).2.1 (dec3 m n p).2.2) := by
    refine Sets.loop (fun x hx => Sets.loop (fun i hi => Sets.loop (fun j hj => ?_)))
    refine Sets.congr_prog (sets_wr (x := g x i j) (idx3_lt hx hi hj) (by rw [dec3_enc hi hj])) (fun o ho => ?_)
    exact h x i j o hx hi hj ho
  obtain ⟨o', h1, h2, h3⟩ := hsets.total (fun p hp => by
    obtain ⟨x, i, j, hx, hi, hj, rfl⟩ := exists_dec3 hp
    exact ⟨x, hx, i, hi, j, hj, rfl⟩) ho
  refine ⟨o', h1, h2, fun x i j hx hi hj => ?_⟩
  rw [h3 _ (idx3_lt hx hi hj), dec3_enc hi hj]

/-- Filling a two-dimensional table. -/
theorem fill2 {m n : Nat} {body : Nat → Nat → List α → Res (List α)} {g : Nat → Nat → α}
    (h : ∀ i j o, i < m → j < n → o.length = m * n → body i j o = wr o (i * n + j) (g i j)) {out : List α}
    (ho : out.length = m * n) :
    ∃ o', loop m (fun i o => loop n (fun j o => body i j o) o) out = ok o' ∧ Is2 o' m n g := by
  have hsets : Sets (fun o => loop m (fun i o => loop n (fun j o => body i j o) o) o) (m * n)
      (fun p => ∃ i, i < m ∧ ∃ j, j < n ∧ p = i * n + j) (fun p => g (dec2 n p).1 (dec2 n p).2) := by
    refine Sets.loop (fun i hi => Sets.loop (fun j hj => ?_))
    refine Sets.congr_prog (sets_wr (x := g i j) (lt_mul_of_lt hi hj) (by rw [dec2_enc hj])) (fun o ho => ?_)
    exact h i j o hi hj ho
  obtain ⟨o', h1, h2, h3⟩ := hsets.total (fun p hp => by
    obtain ⟨i, j, hi, hj, rfl⟩ := exists_div_mod hp
    exact ⟨i, hi, j, hj, rfl⟩) ho
  refine ⟨o', h1, h2, fun i j hi hj => ?_⟩
  rw [h3 _ (lt_mul_of_lt hi hj), dec2_enc hj]

/-- Filling a one-dimensional table. -/
theorem fill1 {n : Nat} {body : Nat → List α → Res (List α)} {g : Nat → α}
    (h : ∀ j o, j < n → o.length = n → body j o = wr o j (g j)) {out : List α} (ho : out.length = n) :
    ∃ o', loop n (fun j o => body j o) out = ok o' ∧ o'.length = n ∧ ∀ p, p < n → o'[p]? = some (g p) := by
  have hsets : Sets (fun o => loop n (fun j o => body j o) o) n (fun p => ∃ j, j < n ∧ p = j) g :=
    Sets.loop (fun j hj => Sets.congr_prog (sets_wr (x := g j) hj rfl) (fun o ho => h j o hj ho))
  exact hsets.total (fun p hp => ⟨p, hp, rfl⟩) ho

theorem getD_append_axis {ip iq : List Nat} {i : Nat} {k : Nat} (h : ip.length = k) : (ip ++ i :: iq).getD k 0 = i := by
  subst h; simp

theorem set_append_axis {ip iq : List Nat} {i j : Nat} {k : Nat} (h : ip.length = k) : (ip ++ i :: iq).set k j = ip ++ j :: iq := by
  subst h; simp

theorem eraseIdx_append_axis {ip iq : List Nat} {i : Nat} {k : Nat} (h : ip.length = k) : (ip ++ i :: iq).eraseIdx k = ip ++ iq := by
  subst h; simp [List.eraseIdx_append_of_length_le]

theorem take_append_axis {ip iq : List Nat} {i : Nat} {k : Nat} (h : ip.length = k) : (ip ++ i :: iq).take k = ip := by
  subst h; simp

theorem drop_append_axis {ip iq : List Nat} {i : Nat} {k : Nat} (h : ip.length = k) : (ip ++ i :: iq).drop (k + 1) = iq := by
  subst h; simp [List.drop_append]

theorem getElem?_append_axis {ip iq : List Nat} {i : Nat} {k : Nat} (h : ip.length = k) : (ip ++ i :: iq)[k]? = some i := by
  subst h; simp

end Verif
