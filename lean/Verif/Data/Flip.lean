import Verif.Data.Reduce
/-!
# C31-C34: squeeze and expand_dims, flip, transpose, argmax
-/
namespace Verif.Data
open Verif Res View

variable {α : Type}

/-! ### C31 -/

theorem reshapeV_same [Zero α] {t : Ten α} {s : List Nat} (hs : s ≠ []) (hl : s.getLast? ≠ some minusOne)
    (hlen : t.data.length = size s) : reshapeV t s = ok ⟨s, t.data⟩ := by
  unfold reshapeV
  rw [require_true hs, bind_ok, if_neg hl, if_neg (by simp [hlen])]; rfl

theorem size_filter_ones (s : List Nat) : size (s.filter (fun n => n ≠ 1)) = size s := by
  induction s with
  | nil => rfl
  | cons n s ih =>
    by_cases h : n = 1
    · subst h; simpa using ih
    · rw [List.filter_cons_of_pos (by simpa using h), size_cons, size_cons, ih]

theorem size_ne_zero_iff {s : List Nat} : size s ≠ 0 ↔ ∀ n ∈ s, n ≠ 0 := by
  induction s with
  | nil => simp
  | cons n s ih => simp [not_or, ih]

theorem size_eq_one_iff {s : List Nat} : size s = 1 ↔ ∀ n ∈ s, n = 1 := by
  induction s with
  | nil => simp
  | cons n s ih => simp [ih]

theorem last_ne {s : List Nat} {x : Nat} (h : x ∉ s) : s.getLast? ≠ some x := by
  intro e
  exact h (List.mem_of_getLast? e)

/-- C31: `squeeze` removes exactly the dimensions of extent 1 (keeping one if all are) and keeps the elements, for every
non-empty tensor. -/
theorem squeeze_removes_ones [Zero α] (t : Ten α) (s : List Nat) (a : List Nat → α) (ht : t.Has s a) (hne : size s ≠ 0)
    (hm : minusOne ∉ s) :
    squeezeAll t = ok ⟨if s.filter (fun n => n ≠ 1) = [] then [1] else s.filter (fun n => n ≠ 1), t.data⟩ := by
  obtain ⟨hts, htT⟩ := ht
  unfold squeezeAll
  rw [if_neg (by rw [htT.1]; exact hne)]
  have hf : s.filter (fun n => decide (1 < n)) = s.filter (fun n => decide (n ≠ 1)) := by
    refine List.filter_congr (fun n hn => ?_)
    have := size_ne_zero_iff.mp hne n hn
    simp only [decide_eq_decide]; omega
  by_cases h1 : size s = 1
  · rw [if_pos (by rw [htT.1]; exact h1), if_pos]
    · exact reshapeV_same (by simp) (by simp [minusOne]) (by simpa using htT.1.trans h1)
    · rw [List.filter_eq_nil_iff]
      intro n hn; simpa using size_eq_one_iff.mp h1 n hn
  · have hnil : s.filter (fun n => decide (n ≠ 1)) ≠ [] := by
      intro h
      rw [List.filter_eq_nil_iff] at h
      exact h1 (size_eq_one_iff.mpr (fun n hn => by simpa using h n hn))
    rw [if_neg (by rw [htT.1]; exact h1), if_neg hnil, hts, hf]
    exact reshapeV_same hnil (last_ne (fun h => hm (List.mem_of_mem_filter h))) (by rw [htT.1, size_filter_ones])

theorem size_insertIdx (s : List Nat) (k : Nat) (h : k ≤ s.length) : size (s.insertIdx k 1) = size s := by
  induction s generalizing k with
  | nil =>
    have : k = 0 := by simpa using h
    subst this; rfl
  | cons n s ih =>
    cases k with
    | zero => simp
    | succ k => rw [List.insertIdx_succ_cons, size_cons, size_cons, ih k (by simpa using h)]

theorem mem_insertIdx_imp {s : List Nat} {k x : Nat} (h : x ∈ s.insertIdx k 1) : x = 1 ∨ x ∈ s := by
  by_cases hk : k ≤ s.length
  · rw [List.mem_insertIdx hk] at h; exact h
  · rw [List.insertIdx_of_length_lt (by omega)] at h; exact Or.inr h

theorem insertIdx_ne_nil {s : List Nat} {k : Nat} (h : k ≤ s.length) : s.insertIdx k 1 ≠ [] := by
  intro e
  have := congrArg List.length e
  rw [List.length_insertIdx_of_le_length h] at this
  simp at this

/-- C31: `expand_dims(k)` inserts an extent 1 at position `k` (at the end for -1) and keeps the elements. -/
theorem expand_dims_inserts_one [Zero α] (t : Ten α) (s : List Nat) (a : List Nat → α) (ht : t.Has s a) (hm : minusOne ∉ s)
    (k : Nat) (hk : k ≤ s.length) (axis : Int) (hax : axis = (k : Int) ∨ axis = -1 ∧ k = s.length) :
    expandDims t axis = ok ⟨s.insertIdx k 1, t.data⟩ := by
  obtain ⟨hts, htT⟩ := ht
  unfold expandDims
  rw [hts]
  have hax' : (if axis = -1 then (s.length : Int) else axis) = (k : Int) := by
    rcases hax with h | ⟨h1, h2⟩
    · rw [if_neg (by omega), h]
    · rw [if_pos h1, h2]
  simp only [hax', Int.toNat_natCast]
  rw [require_true ⟨by omega, hk⟩, bind_ok]
  exact reshapeV_same (insertIdx_ne_nil hk) (last_ne (fun h => by
    rcases mem_insertIdx_imp h with h | h
    · simp [minusOne] at h
    · exact hm h)) (by rw [htT.1, size_insertIdx s k hk])

/-- C31: `squeeze(k)` undoes `expand_dims(k)` on every tensor of rank at least one, for every non-negative axis.
Missing: axis -1 (see `squeeze_expand_violated`). -/
theorem squeeze_expand_partial [Zero α] (t : Ten α) (s : List Nat) (a : List Nat → α) (ht : t.Has s a) (hm : minusOne ∉ s)
    (hs : s ≠ []) (k : Nat) (hk : k ≤ s.length) : (expandDims t k >>= fun u => squeezeAxis u k) = ok t := by
  rw [expand_dims_inserts_one t s a ht hm k hk k (Or.inl rfl), bind_ok]
  unfold squeezeAxis
  rw [if_neg (by omega)]
  have hlen : (s.insertIdx k 1).length = s.length + 1 := List.length_insertIdx_of_le_length hk 1
  simp only [Int.toNat_natCast]
  rw [assert_true ⟨by omega, by omega⟩, bind_ok, rd_ok (b := s.insertIdx k 1) (v := 1) (by rw [List.getElem?_insertIdx_self, if_pos hk]), bind_ok, assert_true rfl, bind_ok,
    List.eraseIdx_insertIdx_self, reshapeV_same hs (last_ne hm) (by simpa using ht.2.1)]
  obtain ⟨h1, _⟩ := ht
  cases t; simp only at h1; subst h1; rfl

/-- C31: `expand_dims(k)` undoes `squeeze(k)` on every tensor of rank two or more whose extent `k` is 1. -/
theorem expand_squeeze_partial [Zero α] (t : Ten α) (s : List Nat) (a : List Nat → α) (ht : t.Has s a) (hm : minusOne ∉ s)
    (k : Nat) (hk : s[k]? = some 1) (hs : s.length ≠ 1) : (squeezeAxis t k >>= fun u => expandDims u k) = ok t := by
  have hklt : k < s.length := (List.getElem?_eq_some_iff.mp hk).1
  have hback : (s.eraseIdx k).insertIdx k 1 = s := by
    have := (List.getElem?_eq_some_iff.mp hk).2
    rw [← this]; exact List.insertIdx_eraseIdx_getElem hklt
  have hle : k ≤ (s.eraseIdx k).length := by rw [List.length_eraseIdx_of_lt hklt]; omega
  have hsz : size (s.eraseIdx k) = size s := by
    have h := size_insertIdx (s.eraseIdx k) k hle
    rw [hback] at h; exact h.symm
  have hm' : minusOne ∉ s.eraseIdx k := fun h => hm (List.mem_of_mem_eraseIdx h)
  have hsq : squeezeAxis t k = ok ⟨s.eraseIdx k, t.data⟩ := by
    unfold squeezeAxis
    rw [if_neg (by omega), ht.1]
    simp only [Int.toNat_natCast]
    rw [assert_true ⟨by omega, hklt⟩, bind_ok, rd_ok hk, bind_ok, assert_true rfl, bind_ok,
      reshapeV_same (by
        intro e
        have := congrArg List.length e
        rw [List.length_eraseIdx_of_lt hklt] at this
        simp at this; omega) (last_ne hm') (by rw [ht.2.1, hsz])]
  rw [hsq, bind_ok]
  unfold expandDims
  simp only []
  rw [if_neg (by omega), require_true ⟨by omega, by simpa using hle⟩, bind_ok]
  simp only [Int.toNat_natCast, hback]
  rw [reshapeV_same (t := ⟨s.eraseIdx k, t.data⟩) (by intro e; simp [e] at hklt) (last_ne hm) ht.2.1]
  obtain ⟨h1, _⟩ := ht
  cases t; simp only at h1; subst h1; rfl

/-- C31 is false of the code for the default axis -1: `squeeze(-1)` drops every unit dimension, not the one that
`expand_dims(-1)` appended; and `squeeze(0)` of a tensor of shape [1] is undefined. -/
theorem squeeze_expand_violated :
    (expandDims ⟨[2, 1], [5, (6 : Int)]⟩ (-1) >>= fun u => squeezeAxis u (-1)) = ok ⟨[2], [5, 6]⟩ ∧
    squeezeAxis ⟨[1], [(5 : Int)]⟩ 0 = ub := by decide

/-- C31: `squeeze(k)` of a dimension that is not 1, or of a negative axis other than -1, is rejected. -/
theorem squeeze_rejects [Zero α] (t : Ten α) (axis : Int) (h1 : axis ≠ -1)
    (h : axis < 0 ∨ t.shape[axis.toNat]? ≠ some 1) : squeezeAxis t axis = abort := by
  unfold squeezeAxis
  rw [if_neg h1]
  by_cases hlt : 0 ≤ axis ∧ axis.toNat < t.shape.length
  · rw [assert_true hlt, bind_ok, rd_ok (List.getElem?_eq_getElem hlt.2), bind_ok, assert_false]
    · rfl
    · intro e
      rcases h with h | h
      · omega
      · exact h (by rw [List.getElem?_eq_getElem hlt.2, e])
  · rw [assert_false hlt]; rfl

example : squeezeAll ⟨[1, 2, 1, 3], [1, 2, 3, 4, 5, (6 : Int)]⟩ = ok ⟨[2, 3], [1, 2, 3, 4, 5, 6]⟩ ∧
    squeezeAxis ⟨[1, 2, 1, 3], [1, 2, 3, 4, 5, (6 : Int)]⟩ 2 = ok ⟨[1, 2, 3], [1, 2, 3, 4, 5, 6]⟩ ∧
    expandDims ⟨[2, 3], [1, 2, 3, 4, 5, (6 : Int)]⟩ 1 = ok ⟨[2, 1, 3], [1, 2, 3, 4, 5, 6]⟩ := by decide

/-! ### C32 -/

/-- Filling a table through permuted coordinates. -/
theorem fill3perm {l m n : Nat} {s1 s2 s3 : Nat → Nat} {body : Nat → Nat → Nat → List α → Res (List α)} {g : Nat → Nat → Nat → α}
    (p1 : ∀ x, x < l → s1 x < l ∧ s1 (s1 x) = x) (p2 : ∀ x, x < m → s2 x < m ∧ s2 (s2 x) = x) (p3 : ∀ x, x < n → s3 x < n ∧ s3 (s3 x) = x)
    (h : ∀ x i j o, x < l → i < m → j < n → body x i j o = wr o ((s1 x * m + s2 i) * n + s3 j) (g x i j)) {out : List α}
    (ho : out.length = l * m * n) :
    ∃ o', loop l (fun x o => loop m (fun i o => loop n (fun j o => body x i j o) o) o) out = ok o' ∧
      Is3 o' l m n (fun x i j => g (s1 x) (s2 i) (s3 j)) := by
  have hsets : Sets (fun o => loop l (fun x o => loop m (fun i o => loop n (fun j o => body x i j o) o) o) o) (l * m * n)
      (fun p => ∃ x, x < l ∧ ∃ i, i < m ∧ ∃ j, j < n ∧ p = (s1 x * m + s2 i) * n + s3 j)
      (fun p => g (s1 (dec3 m n p).1) (s2 (dec3 m n p).2.1) (s3 (dec3 m n p).2.2)) := by
    refine Sets.loop (fun x hx => Sets.loop (fun i hi => Sets.loop (fun j hj => ?_)))
    refine Sets.congr_prog (sets_wr (x := g x i j) (idx3_lt (p1 x hx).1 (p2 i hi).1 (p3 j hj).1) ?_) (fun o _ => h x i j o hx hi hj)
    rw [dec3_enc (p2 i hi).1 (p3 j hj).1]
    simp only [(p1 x hx).2, (p2 i hi).2, (p3 j hj).2]
  obtain ⟨o', h1, h2, h3⟩ := hsets.total (fun p hp => by
    obtain ⟨x, i, j, hx, hi, hj, rfl⟩ := exists_dec3 hp
    exact ⟨s1 x, (p1 x hx).1, s2 i, (p2 i hi).1, s3 j, (p3 j hj).1, by rw [(p1 x hx).2, (p2 i hi).2, (p3 j hj).2]⟩) ho
  refine ⟨o', h1, h2, fun x i j hx hi hj => ?_⟩
  rw [h3 _ (idx3_lt hx hi hj), dec3_enc hi hj]

theorem at3_eq (r c ch i j k : Nat) : at3 r c ch i j k = (i * c + j) * ch + k := by
  simp only [at3, at2, Bool.false_eq_true, if_false]; ring

theorem rev_perm (n : Nat) : ∀ x, x < n → n - x - 1 < n ∧ n - (n - x - 1) - 1 = x := fun x hx => by omega

theorem id_perm (n : Nat) : ∀ x, x < n → x < n ∧ x = x := fun _ hx => ⟨hx, rfl⟩

theorem flip3_ok {src dst : List α} {r c ch axis : Nat} {f : Nat → Nat → Nat → α} (hs : Is3 src r c ch f)
    (hd : dst.length = r * c * ch) :
    ∃ o, flip3 src dst r c ch axis = ok o ∧ Is3 o r c ch (fun i j k =>
      if axis = 0 then f (r - i - 1) j k else if axis = 1 then f i (c - j - 1) k else f i j (ch - k - 1)) := by
  unfold flip3
  by_cases h0 : axis = 0
  · simp only [h0, if_true]
    refine fill3perm (s1 := fun x => r - x - 1) (s2 := fun x => x) (s3 := fun x => x) (g := fun i j k => f i j k)
      (rev_perm r) (id_perm c) (id_perm ch) (fun x i j o hx hi hj => ?_) hd
    rw [at3_eq, at3_eq, hs.rd hx hi hj, bind_ok]
  · by_cases h1 : axis = 1
    · simp only [h1, Nat.one_ne_zero, if_false, if_true]
      refine fill3perm (s1 := fun x => x) (s2 := fun x => c - x - 1) (s3 := fun x => x) (g := fun i j k => f i j k)
        (id_perm r) (rev_perm c) (id_perm ch) (fun x i j o hx hi hj => ?_) hd
      rw [at3_eq, at3_eq, hs.rd hx hi hj, bind_ok]
    · simp only [h0, h1, if_false]
      refine fill3perm (s1 := fun x => x) (s2 := fun x => x) (s3 := fun x => ch - x - 1) (g := fun i j k => f i j k)
        (id_perm r) (id_perm c) (rev_perm ch) (fun x i j o hx hi hj => ?_) hd
      rw [at3_eq, at3_eq, hs.rd hx hi hj, bind_ok]

theorem flip1_ok {src dst : List α} {n : Nat} {f : Nat → α} (hs : ∀ i, i < n → src[i]? = some (f i)) (hl : src.length = n)
    (hd : dst.length = n) : ∃ o, flip1 src dst = ok o ∧ o.length = n ∧ ∀ i, i < n → o[i]? = some (f (n - 1 - i)) := by
  have hsets : Sets (fun o => loop n (fun i o => do let x ← rd src i; wr o (o.length - 1 - i) x) o) n
      (fun p => ∃ i, i < n ∧ p = n - 1 - i) (fun p => f (n - 1 - p)) := by
    refine Sets.loop (fun i hi => ?_)
    refine Sets.congr_prog (sets_wr (i := n - 1 - i) (x := f i) (by omega) (by congr 1; omega)) (fun o ho => ?_)
    rw [rd_ok (hs i hi), bind_ok, ho]
  obtain ⟨o', h1, h2, h3⟩ := hsets.total (fun p hp => ⟨n - 1 - p, by omega, by omega⟩) hd
  exact ⟨o', by rw [flip1, hl]; exact h1, h2, h3⟩

theorem resizeV_length [Zero α] (t : Ten α) (s : List Nat) : (resizeV t s).data.length = size s := by
  unfold resizeV; dsimp only; split
  · assumption
  · simp

/-- `flip` after the axis has been resolved, on any storage of the right length. -/
theorem flipRank_ok {t : Ten α} {pre post : List Nat} {n : Nat} {a : List Nat → α} {dst : List α}
    (ht : t.Has (pre ++ n :: post) a) (hrank : (pre ++ n :: post).length ≤ 4) (hd : dst.length = size (pre ++ n :: post)) :
    ∃ u, flipRank t dst pre.length = ok u ∧
      u.Has (pre ++ n :: post) (fun is => a (is.set pre.length (n - 1 - is.getD pre.length 0))) := by
  obtain ⟨hts, htT⟩ := ht
  have h3 := htT.is3
  unfold flipRank
  rw [hts]
  have hsub : ∀ i m : Nat, m - i - 1 = m - 1 - i := fun i m => by omega
  -- the axis is the middle coordinate of the split pre / n / post; every rank reduces to a 3-D flip
  match pre, post, hrank with
  | [], [], _ =>
    have hsz : size [n] = n := by simp
    simp only [List.nil_append] at htT hd ⊢
    obtain ⟨o, e1, e2, e3⟩ := flip1_ok (src := t.data) (dst := dst) (n := n) (f := fun i => a [i])
      (fun i hi => by have := htT.2 [i] ⟨hi, trivial⟩; simpa using this) (by simpa using htT.1) (by simpa using hd)
    refine ⟨⟨[n], o⟩, by simp only [e1, bind_ok]; rfl, rfl, by simpa using e2, fun is hv => ?_⟩
    match is, hv with
    | [i], hv => have := e3 i hv.1; simpa using this
  | [], [b], _ =>
    simp only [List.nil_append, List.length_nil] at htT hd ⊢
    obtain ⟨o, e1, e2⟩ := flip3_ok (axis := 0) (r := n) (c := b) (ch := 1) (dst := dst) (f := fun i j _ => a [i, j])
      (src := t.data) ⟨by simpa using htT.1, fun h i j hh hi hj => by
        have hj0 : j = 0 := by omega
        subst hj0
        have := htT.2 [h, i] ⟨hh, hi, trivial⟩; simpa using this⟩ (by simpa using hd)
    refine ⟨⟨[n, b], o⟩, by simp only [e1, bind_ok]; rfl, rfl, by simpa using e2.1, fun is hv => ?_⟩
    match is, hv with
    | [i, j], hv => have := e2.2 i j 0 hv.1 hv.2.1 (by omega); simpa [hsub] using this
  | [p], [], _ =>
    simp only [List.cons_append, List.nil_append, List.length_cons, List.length_nil] at htT hd ⊢
    obtain ⟨o, e1, e2⟩ := flip3_ok (axis := 1) (r := p) (c := n) (ch := 1) (dst := dst) (f := fun i j _ => a [i, j])
      (src := t.data) ⟨by simpa using htT.1, fun h i j hh hi hj => by
        have hj0 : j = 0 := by omega
        subst hj0
        have := htT.2 [h, i] ⟨hh, hi, trivial⟩; simpa using this⟩ (by simpa using hd)
    refine ⟨⟨[p, n], o⟩, by simp only [e1, bind_ok]; rfl, rfl, by simpa using e2.1, fun is hv => ?_⟩
    match is, hv with
    | [i, j], hv => have := e2.2 i j 0 hv.1 hv.2.1 (by omega); simpa [hsub] using this
  | [], [b, c], _ =>
    simp only [List.nil_append, List.length_nil] at htT hd ⊢
    obtain ⟨o, e1, e2⟩ := flip3_ok (axis := 0) (r := n) (c := b) (ch := c) (dst := dst) (f := fun i j k => a [i, j, k])
      (src := t.data) ⟨by simpa [Nat.mul_assoc] using htT.1, fun h i j hh hi hj => by
        have := htT.2 [h, i, j] ⟨hh, hi, hj, trivial⟩
        rw [← this]; congr 1; simp; ring⟩ (by simpa [Nat.mul_assoc] using hd)
    refine ⟨⟨[n, b, c], o⟩, by simp only [e1, bind_ok]; rfl, rfl, by simpa [Nat.mul_assoc] using e2.1, fun is hv => ?_⟩
    match is, hv with
    | [i, j, k], hv =>
      have := e2.2 i j k hv.1 hv.2.1 hv.2.2.1
      rw [show flat [n, b, c] [i, j, k] = (i * b + j) * c + k by simp; ring, this]; simp [hsub]
  | [p], [c], _ =>
    simp only [List.cons_append, List.nil_append, List.length_cons, List.length_nil] at htT hd ⊢
    obtain ⟨o, e1, e2⟩ := flip3_ok (axis := 1) (r := p) (c := n) (ch := c) (dst := dst) (f := fun i j k => a [i, j, k])
      (src := t.data) ⟨by simpa [Nat.mul_assoc] using htT.1, fun h i j hh hi hj => by
        have := htT.2 [h, i, j] ⟨hh, hi, hj, trivial⟩
        rw [← this]; congr 1; simp; ring⟩ (by simpa [Nat.mul_assoc] using hd)
    refine ⟨⟨[p, n, c], o⟩, by simp only [e1, bind_ok]; rfl, rfl, by simpa [Nat.mul_assoc] using e2.1, fun is hv => ?_⟩
    match is, hv with
    | [i, j, k], hv =>
      have := e2.2 i j k hv.1 hv.2.1 hv.2.2.1
      rw [show flat [p, n, c] [i, j, k] = (i * n + j) * c + k by simp; ring, this]; simp [hsub]
  | [p, q], [], _ =>
    simp only [List.cons_append, List.nil_append, List.length_cons, List.length_nil] at htT hd ⊢
    obtain ⟨o, e1, e2⟩ := flip3_ok (axis := 2) (r := p) (c := q) (ch := n) (dst := dst) (f := fun i j k => a [i, j, k])
      (src := t.data) ⟨by simpa [Nat.mul_assoc] using htT.1, fun h i j hh hi hj => by
        have := htT.2 [h, i, j] ⟨hh, hi, hj, trivial⟩
        rw [← this]; congr 1; simp; ring⟩ (by simpa [Nat.mul_assoc] using hd)
    refine ⟨⟨[p, q, n], o⟩, by simp only [e1, bind_ok]; rfl, rfl, by simpa [Nat.mul_assoc] using e2.1, fun is hv => ?_⟩
    match is, hv with
    | [i, j, k], hv =>
      have := e2.2 i j k hv.1 hv.2.1 hv.2.2.1
      rw [show flat [p, q, n] [i, j, k] = (i * q + j) * n + k by simp; ring, this]; simp [hsub]
  | [], [b, c, d], _ =>
    simp only [List.nil_append, List.length_nil] at htT hd ⊢
    obtain ⟨o, e1, e2⟩ := flip3_ok (axis := 0) (r := n) (c := b) (ch := c * d) (dst := dst) (f := fun i j k => a [i, j, k / d, k % d])
      (src := t.data) ⟨by simpa [Nat.mul_assoc] using htT.1, fun h i j hh hi hj => by
        obtain ⟨k, l, hk, hl, rfl⟩ := exists_div_mod hj
        have := htT.2 [h, i, k, l] ⟨hh, hi, hk, hl, trivial⟩
        dsimp only; rw [(div_mod_eq hl).1, (div_mod_eq hl).2, ← this]; congr 1; simp; ring⟩ (by simpa [Nat.mul_assoc] using hd)
    refine ⟨⟨[n, b, c, d], o⟩, by simp only [true_or, if_true, e1, bind_ok]; rfl, rfl, by simpa [Nat.mul_assoc] using e2.1, fun is hv => ?_⟩
    match is, hv with
    | [i, j, k, l], hv =>
      have := e2.2 i j (k * d + l) hv.1 hv.2.1 (lt_mul_of_lt hv.2.2.1 hv.2.2.2.1)
      dsimp only at this; rw [(div_mod_eq hv.2.2.2.1).1, (div_mod_eq hv.2.2.2.1).2] at this
      rw [show flat [n, b, c, d] [i, j, k, l] = (i * b + j) * (c * d) + (k * d + l) by simp; ring, this]; simp [hsub]
  | [p], [c, d], _ =>
    simp only [List.cons_append, List.nil_append, List.length_cons, List.length_nil] at htT hd ⊢
    obtain ⟨o, e1, e2⟩ := flip3_ok (axis := 1) (r := p) (c := n) (ch := c * d) (dst := dst) (f := fun i j k => a [i, j, k / d, k % d])
      (src := t.data) ⟨by simpa [Nat.mul_assoc] using htT.1, fun h i j hh hi hj => by
        obtain ⟨k, l, hk, hl, rfl⟩ := exists_div_mod hj
        have := htT.2 [h, i, k, l] ⟨hh, hi, hk, hl, trivial⟩
        dsimp only; rw [(div_mod_eq hl).1, (div_mod_eq hl).2, ← this]; congr 1; simp; ring⟩ (by simpa [Nat.mul_assoc] using hd)
    refine ⟨⟨[p, n, c, d], o⟩, by simp only [Nat.zero_add, or_true, if_true, e1, bind_ok]; rfl, rfl, by simpa [Nat.mul_assoc] using e2.1, fun is hv => ?_⟩
    match is, hv with
    | [i, j, k, l], hv =>
      have := e2.2 i j (k * d + l) hv.1 hv.2.1 (lt_mul_of_lt hv.2.2.1 hv.2.2.2.1)
      dsimp only at this; rw [(div_mod_eq hv.2.2.2.1).1, (div_mod_eq hv.2.2.2.1).2] at this
      rw [show flat [p, n, c, d] [i, j, k, l] = (i * n + j) * (c * d) + (k * d + l) by simp; ring, this]; simp [hsub]
  | [p, q], [d], _ =>
    simp only [List.cons_append, List.nil_append, List.length_cons, List.length_nil] at htT hd ⊢
    obtain ⟨o, e1, e2⟩ := flip3_ok (axis := 1) (r := p * q) (c := n) (ch := d) (dst := dst) (f := fun i j k => a [i / q, i % q, j, k])
      (src := t.data) ⟨by simpa [Nat.mul_assoc] using htT.1, fun h i j hh hi hj => by
        obtain ⟨k, l, hk, hl, rfl⟩ := exists_div_mod hh
        have := htT.2 [k, l, i, j] ⟨hk, hl, hi, hj, trivial⟩
        dsimp only; rw [(div_mod_eq hl).1, (div_mod_eq hl).2, ← this]; congr 1; simp; ring⟩ (by simpa [Nat.mul_assoc] using hd)
    refine ⟨⟨[p, q, n, d], o⟩, ?_, rfl, by simpa [Nat.mul_assoc] using e2.1, fun is hv => ?_⟩
    · rw [if_neg (by omega)]; simp only [Nat.zero_add, Nat.reduceAdd, Nat.reduceSub, e1, bind_ok]; rfl
    match is, hv with
    | [i, j, k, l], hv =>
      have := e2.2 (i * q + j) k l (lt_mul_of_lt hv.1 hv.2.1) hv.2.2.1 hv.2.2.2.1
      dsimp only at this; rw [(div_mod_eq hv.2.1).1, (div_mod_eq hv.2.1).2] at this
      rw [show flat [p, q, n, d] [i, j, k, l] = ((i * q + j) * n + k) * d + l by simp; ring, this]; simp [hsub]
  | [p, q, r], [], _ =>
    simp only [List.cons_append, List.nil_append, List.length_cons, List.length_nil] at htT hd ⊢
    obtain ⟨o, e1, e2⟩ := flip3_ok (axis := 2) (r := p * q) (c := r) (ch := n) (dst := dst) (f := fun i j k => a [i / q, i % q, j, k])
      (src := t.data) ⟨by simpa [Nat.mul_assoc] using htT.1, fun h i j hh hi hj => by
        obtain ⟨k, l, hk, hl, rfl⟩ := exists_div_mod hh
        have := htT.2 [k, l, i, j] ⟨hk, hl, hi, hj, trivial⟩
        dsimp only; rw [(div_mod_eq hl).1, (div_mod_eq hl).2, ← this]; congr 1; simp; ring⟩ (by simpa [Nat.mul_assoc] using hd)
    refine ⟨⟨[p, q, r, n], o⟩, ?_, rfl, by simpa [Nat.mul_assoc] using e2.1, fun is hv => ?_⟩
    · rw [if_neg (by omega)]; simp only [Nat.zero_add, Nat.reduceAdd, Nat.reduceSub, e1, bind_ok]; rfl
    match is, hv with
    | [i, j, k, l], hv =>
      have := e2.2 (i * q + j) k l (lt_mul_of_lt hv.1 hv.2.1) hv.2.2.1 hv.2.2.2.1
      dsimp only at this; rw [(div_mod_eq hv.2.1).1, (div_mod_eq hv.2.1).2] at this
      rw [show flat [p, q, r, n] [i, j, k, l] = ((i * q + j) * r + k) * n + l by simp; ring, this]; simp [hsub]
  | _ :: _ :: _ :: _ :: _, _, h => simp at h; omega
  | [_, _, _], _ :: _, h => simp at h; omega
  | [_, _], _ :: _ :: _, h => simp at h; omega
  | [_], _ :: _ :: _ :: _, h => simp at h; omega
  | [], _ :: _ :: _ :: _ :: _, h => simp at h; omega

/-- C32: for every non-empty tensor of rank 1 to 4, every axis (or -1 for the last) and whatever the reused output tensor held,
`flip` replaces the axis coordinate `i` by `n-1-i`. -/
theorem flip_reverses_axis [Zero α] (t ans : Ten α) (pre post : List Nat) (n : Nat) (a : List Nat → α) (ht : t.Has (pre ++ n :: post) a)
    (hrank : (pre ++ n :: post).length ≤ 4) (hne : size (pre ++ n :: post) ≠ 0) (axis : Int)
    (hax : axis = (pre.length : Int) ∨ axis = -1 ∧ post = []) :
    ∃ u, flipInto t axis ans = ok u ∧
      u.Has (pre ++ n :: post) (fun is => a (is.set pre.length (n - 1 - is.getD pre.length 0))) := by
  obtain ⟨u, h1, h2⟩ := flipRank_ok (dst := (resizeV ans (pre ++ n :: post)).data) ht hrank (resizeV_length _ _)
  refine ⟨u, ?_, h2⟩
  unfold flipInto
  rw [if_neg (by rw [ht.2.1]; exact hne), ht.1, assert_true hrank, bind_ok]
  have hax' : (if axis = -1 then ((pre ++ n :: post).length : Int) - 1 else axis) = (pre.length : Int) := by
    rcases hax with h | ⟨h, h'⟩
    · rw [if_neg (by omega), h]
    · rw [if_pos h, h']; simp
  simp only [hax']
  rw [assert_true (by simp), bind_ok, require_true (by omega), bind_ok, Int.toNat_natCast, h1]

/-- C32: flipping twice restores the tensor. -/
theorem flip_involution [Zero α] (t : Ten α) (pre post : List Nat) (n : Nat) (a : List Nat → α) (ht : t.Has (pre ++ n :: post) a)
    (hrank : (pre ++ n :: post).length ≤ 4) (hne : size (pre ++ n :: post) ≠ 0) (axis : Int)
    (hax : axis = (pre.length : Int) ∨ axis = -1 ∧ post = []) :
    (flip t axis >>= fun u => flip u axis) = ok t := by
  obtain ⟨u, h1, h2⟩ := flip_reverses_axis t ⟨[], []⟩ pre post n a ht hrank hne axis hax
  obtain ⟨v, g1, g2⟩ := flip_reverses_axis u ⟨[], []⟩ pre post n _ h2 hrank hne axis hax
  unfold flip
  rw [h1, bind_ok, g1]
  congr 1
  refine Ten.Has.ext g2 (ht.congr (fun is hv => ?_))
  obtain ⟨ip, i, iq, rfl, v1, hi, v2⟩ := validIdx_split hv
  simp only [getD_append_axis v1.length_eq, set_append_axis v1.length_eq]
  congr 3; omega

/-- C32: rank above 4 or an axis beyond the rank is rejected. -/
theorem flip_rejects [Zero α] (t ans : Ten α) (axis : Int) (hne : t.data ≠ []) (h : 4 < t.shape.length ∨ (t.shape.length : Int) ≤ axis) :
    flipInto t axis ans = abort := by
  unfold flipInto
  rw [if_neg (by simpa using hne)]
  by_cases h4 : t.shape.length ≤ 4
  · rw [assert_true h4, bind_ok]
    dsimp only
    rw [assert_false]
    · rfl
    · split <;> omega
  · rw [assert_false h4]; rfl

/-- A tensor without elements leaves the output tensor untouched (the fresh one has the empty shape). -/
theorem flip_empty [Zero α] (t : Ten α) (axis : Int) (ans : Ten α) (h : t.data = []) : flipInto t axis ans = ok ans := by
  rw [flipInto, if_pos (by simp [h])]

example : flip ⟨[2, 3], [1, 2, 3, 4, 5, (6 : Int)]⟩ 0 = ok ⟨[2, 3], [4, 5, 6, 1, 2, 3]⟩ ∧
    flip ⟨[2, 3], [1, 2, 3, 4, 5, (6 : Int)]⟩ (-1) = ok ⟨[2, 3], [3, 2, 1, 6, 5, 4]⟩ ∧
    flip ⟨[1, 2, 2, 1], [1, 2, 3, (4 : Int)]⟩ 2 = ok ⟨[1, 2, 2, 1], [2, 1, 4, 3]⟩ := by decide

/-! ### C33 -/

/-- C33: `transpose(t)[c][r] = t[r][c]`, whatever the cache held before. -/
theorem transpose_values [Zero α] (cache t : Ten α) (row col : Nat) (a : List Nat → α) (ht : t.Has [row, col] a) :
    ∃ u, transposeInto cache t = ok u ∧ u.Has [col, row] (fun is => a [is.getD 1 0, is.getD 0 0]) := by
  obtain ⟨hts, htT⟩ := ht
  have h2 : Is2 t.data row col (fun i j => a [i, j]) := by
    refine ⟨by simpa using htT.1, fun i j hi hj => ?_⟩
    have := htT.2 [i, j] ⟨hi, hj, trivial⟩
    simpa using this
  have hsets : Sets (fun o => loop row (fun r o => loop col (fun c o => do
      let x ← rd t.data (at2 row col false r c)
      wr o (at2 col row false c r) x) o) o) (col * row)
      (fun p => ∃ r, r < row ∧ ∃ c, c < col ∧ p = c * row + r) (fun p => a [p % row, p / row]) := by
    refine Sets.loop (fun r hr => Sets.loop (fun c hc => ?_))
    simp only [at2, Bool.false_eq_true, if_false, h2.rd hr hc, bind_ok]
    refine sets_wr (lt_mul_of_lt hc hr) ?_
    rw [(div_mod_eq hr).1, (div_mod_eq hr).2]
  obtain ⟨o', e1, _, e3⟩ := hsets.total (o := (resizeV cache [col, row]).data) (fun p hp => by
    obtain ⟨c, r, hc, hr, rfl⟩ := exists_div_mod hp
    exact ⟨r, hr, c, hc, rfl⟩) (by rw [resizeV_length]; simp)
  refine ⟨⟨[col, row], o'⟩, ?_, rfl, by simpa using (by assumption), fun is hv => ?_⟩
  · unfold transposeInto
    rw [hts]
    dsimp only at e1 ⊢
    rw [e1]; rfl
  · match is, hv with
    | [c, r], hv =>
      have := e3 (c * row + r) (lt_mul_of_lt hv.1 hv.2.1)
      rw [(div_mod_eq hv.2.1).1, (div_mod_eq hv.2.1).2] at this
      simpa using this

/-- C33: anything but a matrix is rejected. -/
theorem transpose_rejects [Zero α] (cache t : Ten α) (h : t.shape.length ≠ 2) : transposeInto cache t = abort := by
  unfold transposeInto
  split
  · rename_i e; rw [e] at h; exact absurd rfl h
  · rfl

/-- C33: transposing twice restores the matrix; since the backward pass runs the same code on the gradient, the gradient of
`transpose` is the transposed gradient. -/
theorem transpose_involution [Zero α] (cache cache' t : Ten α) (row col : Nat) (a : List Nat → α) (ht : t.Has [row, col] a) :
    (transposeInto cache t >>= fun u => transposeInto cache' u) = ok t := by
  obtain ⟨u, h1, h2⟩ := transpose_values cache t row col a ht
  obtain ⟨v, g1, g2⟩ := transpose_values cache' u col row _ h2
  rw [h1, bind_ok, g1]
  congr 1
  refine Ten.Has.ext g2 (ht.congr (fun is hv => ?_))
  match is, hv with
  | [i, j], _ => rfl

example : transposeInto ⟨[2], [9, 9]⟩ ⟨[2, 3], [1, 2, 3, 4, 5, (6 : Int)]⟩ = ok ⟨[3, 2], [1, 4, 2, 5, 3, 6]⟩ := by decide

/-! ### C34 -/

/-- Specification: `k` is the smallest coordinate below `n` at which `f` attains its maximum. -/
def IsFirstMax [LinearOrder α] (f : Nat → α) (n k : Nat) : Prop := k < n ∧ (∀ i, i < n → f i ≤ f k) ∧ ∀ i, i < k → f i < f k

theorem argmaxScan_ok [LinearOrder α] {d : List α} {bs row col : Nat} {f : Nat → Nat → Nat → α} (hd : Is3 d bs row col f)
    {b c : Nat} (hb : b < bs) (hc : c < col) (hrow : 0 < row) :
    ∃ k, argmaxScan d bs row col b c = ok k ∧ IsFirstMax (fun i => f b i c) row k := by
  unfold argmaxScan
  rw [at3_eq, hd.rd hb hrow hc, bind_ok]
  obtain ⟨s, h1, h2⟩ := loop_inv (n := row)
    (body := fun i (s : α × Nat) => do
      let x ← rd d (at3 bs row col b i c)
      if s.1 < x then pure (x, i) else pure s) (s := (f b 0 c, 0))
    (fun i s => s.2 < row ∧ s.1 = f b s.2 c ∧ (∀ j, j < i → f b j c ≤ s.1) ∧ ∀ j, j < s.2 → f b j c < s.1)
    ⟨hrow, rfl, fun j hj => by omega, fun j hj => by omega⟩ (by
      rintro i ⟨m, k⟩ hi ⟨q1, q2, q3, q4⟩
      rw [at3_eq, hd.rd hb hi hc, bind_ok]
      simp only at q1 q2 q3 q4 ⊢
      by_cases hlt : m < f b i c
      · refine ⟨_, by rw [if_pos hlt]; rfl, hi, rfl, fun j hj => ?_, fun j hj => ?_⟩
        · by_cases e : j = i
          · subst e; exact le_refl _
          · exact le_trans (q3 j (by omega)) (le_of_lt hlt)
        · exact lt_of_le_of_lt (q3 j hj) hlt
      · refine ⟨_, by rw [if_neg hlt]; rfl, q1, q2, fun j hj => ?_, q4⟩
        by_cases e : j = i
        · subst e; exact not_lt.mp hlt
        · exact q3 j (by omega))
  refine ⟨s.2, by rw [h1]; rfl, h2.1, fun i hi => ?_, fun i hi => ?_⟩
  · dsimp only; rw [← h2.2.1]; exact h2.2.2.1 i hi
  · dsimp only; rw [← h2.2.1]; exact h2.2.2.2 i hi

/-- C34: for every tensor whose axis has at least one coordinate, `argmax(axis)` holds at each remaining index the smallest
coordinate at which the maximum is attained (converted by `cast`), whatever the cache held before. -/
theorem argmax_first_max [LinearOrder α] [Zero α] (cast : Nat → α) (cache t : Ten α) (pre post : List Nat) (n : Nat) (a : List Nat → α)
    (ht : t.Has (pre ++ n :: post) a) (hn : 0 < n) :
    ∃ (u : Ten α) (k : List Nat → Nat), argmaxInto cast pre.length cache t = ok u ∧ u.Has (pre ++ post) (fun is => cast (k is)) ∧
      ∀ ip iq, ValidIdx pre ip → ValidIdx post iq → IsFirstMax (fun i => a (ip ++ i :: iq)) n (k (ip ++ iq)) := by
  obtain ⟨hts, htT⟩ := ht
  have h3 := htT.is3
  have hk : ∀ x j, ∃ k, x < size pre → j < size post → argmaxScan t.data (size pre) n (size post) x j = ok k ∧
      IsFirstMax (fun i => a (unflat pre x ++ i :: unflat post j)) n k := by
    intro x j
    by_cases h : x < size pre ∧ j < size post
    · obtain ⟨k, q1, q2⟩ := argmaxScan_ok h3 h.1 h.2 hn
      exact ⟨k, fun _ _ => ⟨q1, q2⟩⟩
    · exact ⟨0, fun h1 h2 => absurd ⟨h1, h2⟩ h⟩
  choose kk hkk using hk
  obtain ⟨o', e1, e2⟩ := fill2 (m := size pre) (n := size post) (out := (resizeV cache (pre ++ post)).data)
    (body := fun b c o => do
      let m ← argmaxScan t.data (size pre) n (size post) b c
      wr o (at2 (size pre) (size post) false b c) (cast m)) (g := fun x j => cast (kk x j))
    (fun i j o hi hj _ => by rw [(hkk i j hi hj).1, bind_ok]; rfl) (by rw [resizeV_length, size_append])
  refine ⟨⟨pre ++ post, o'⟩, fun is => kk (flat pre (is.take pre.length)) (flat post (is.drop pre.length)), ?_, ⟨rfl, ?_⟩, ?_⟩
  · unfold argmaxInto
    rw [hts, assert_true (by simp), bind_ok]
    simp only [rd_ok (getElem?_append_axis (rfl : pre.length = pre.length)), bind_ok,
      take_append_axis (rfl : pre.length = pre.length), drop_append_axis (rfl : pre.length = pre.length),
      eraseIdx_append_axis (rfl : pre.length = pre.length)]
    rw [e1]; rfl
  · refine Is2.isT e2 (fun ip iq v1 v2 => ?_)
    simp only [← v1.length_eq, List.take_left, List.drop_left]
  · intro ip iq v1 v2
    have := (hkk _ _ (flat_lt v1) (flat_lt v2)).2
    rw [unflat_flat v1, unflat_flat v2] at this
    simpa only [← v1.length_eq, List.take_left, List.drop_left] using this

/-- C34: an axis beyond the rank is rejected. -/
theorem argmax_rejects [LinearOrder α] [Zero α] (cast : Nat → α) (axis : Nat) (cache t : Ten α) (h : t.shape.length ≤ axis) :
    argmaxInto cast axis cache t = abort := by
  unfold argmaxInto; rw [assert_false (by omega)]; rfl

/-- C34: the backward pass gives zeros of the input's shape. -/
theorem argmax_backward_zero [Zero α] (cache input : Ten α) :
    argmaxBack cache input = ok ⟨input.shape, List.replicate (size input.shape) 0⟩ := by
  unfold argmaxBack
  have h := Gemm.fillN_ok (v := (0 : α)) (C := (resizeV cache input.shape).data) rfl
  unfold Gemm.fillN at h
  rw [resizeV_length] at h
  dsimp only
  rw [show (resizeV cache input.shape).data.length = size input.shape from resizeV_length _ _, h]; rfl

/-- `argmin(axis)` holds the smallest coordinate at which the minimum is attained. -/
theorem argmin_first_min [AddCommGroup α] [LinearOrder α] [IsOrderedAddMonoid α] (cast : Nat → α) (cache t : Ten α) (pre post : List Nat)
    (n : Nat) (a : List Nat → α) (ht : t.Has (pre ++ n :: post) a) (hn : 0 < n) :
    ∃ (u : Ten α) (k : List Nat → Nat), argminInto cast pre.length cache t = ok u ∧ u.Has (pre ++ post) (fun is => cast (k is)) ∧
      ∀ ip iq, ValidIdx pre ip → ValidIdx post iq → k (ip ++ iq) < n ∧
        (∀ i, i < n → a (ip ++ k (ip ++ iq) :: iq) ≤ a (ip ++ i :: iq)) ∧
        ∀ i, i < k (ip ++ iq) → a (ip ++ k (ip ++ iq) :: iq) < a (ip ++ i :: iq) := by
  have hneg : (⟨t.shape, t.data.map (fun x => -x)⟩ : Ten α).Has (pre ++ n :: post) (fun is => -(a is)) :=
    ⟨ht.1, by simpa using ht.2.1, fun is hv => by simp [ht.2.2 is hv]⟩
  obtain ⟨u, k, h1, h2, h3⟩ := argmax_first_max cast cache _ pre post n _ hneg hn
  refine ⟨u, k, h1, h2, fun ip iq v1 v2 => ?_⟩
  obtain ⟨q1, q2, q3⟩ := h3 ip iq v1 v2
  exact ⟨q1, fun i hi => neg_le_neg_iff.mp (q2 i hi), fun i hi => neg_lt_neg_iff.mp (q3 i hi)⟩

example : argmaxInto (fun n => (n : Int)) 1 ⟨[], []⟩ ⟨[2, 3], [1, 7, 7, 4, 5, 2]⟩ = ok ⟨[2], [1, 1]⟩ ∧
    argminInto (fun n => (n : Int)) 0 ⟨[3], [9, 9, 9]⟩ ⟨[2, 3], [1, 7, 7, 4, 5, 2]⟩ = ok ⟨[3], [0, 1, 1]⟩ := by decide

end Verif.Data
