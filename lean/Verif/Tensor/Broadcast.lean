import Verif.Tensor.History
/-!
# Helper lemmas: broadcasting
-/
namespace Verif.Tensor
open Verif Res

variable {α : Type}

/-! ### shapes -/

theorem dimR_of_lt {s : List Nat} {k : Nat} (h : k < s.length) : dimR s k = s[s.length - 1 - k] := by simp [dimR, h]
theorem dimR_of_ge {s : List Nat} {k : Nat} (h : s.length ≤ k) : dimR s k = 1 := by simp [dimR, Nat.not_lt.mpr h]

theorem dimR_getElem {s : List Nat} {i : Nat} (h : i < s.length) : s[i] = dimR s (s.length - 1 - i) := by
  rw [dimR_of_lt (by omega)]
  congr 1
  omega

theorem dimR_ext {a b : List Nat} (hl : a.length = b.length) (h : ∀ k, dimR a k = dimR b k) : a = b := by
  apply List.ext_getElem hl
  intro i h1 h2
  rw [dimR_getElem h1, dimR_getElem h2, h, hl]

theorem readDim (a : List Nat) (idx : Nat) : dimAt a idx = ok (dimR a idx) := by
  unfold dimAt
  by_cases h : idx < a.length
  · rw [if_pos h, dimR_of_lt h, rd_eq_ok, List.getElem?_eq_getElem]
  · rw [if_neg h, dimR_of_ge (by omega)]

/-- The dimension chosen by the code. -/
def rule (a b : List Nat) (k : Nat) : Nat := if dimR a k = 1 then dimR b k else dimR a k

theorem broadcastDim_ok {a b : List Nat} {k : Nat} (ans : List Nat)
    (h : dimR a k = dimR b k ∨ dimR a k = 1 ∨ dimR b k = 1) : broadcastDim a b k ans = ok (ans ++ [rule a b k]) := by
  simp only [broadcastDim, readDim, bind_ok, rule]
  by_cases h1 : dimR a k = 1
  · simp [h1]
  · by_cases h2 : dimR b k = 1
    · simp [h1, h2]
    · have h3 : dimR a k = dimR b k := by tauto
      simp [h2, h3]

theorem broadcastDim_abort {a b : List Nat} {k : Nat} (ans : List Nat)
    (h : ¬ (dimR a k = dimR b k ∨ dimR a k = 1 ∨ dimR b k = 1)) : broadcastDim a b k ans = abort := by
  simp only [not_or] at h
  simp [broadcastDim, readDim, bind_ok, h.1, h.2.1, h.2.2]

theorem broadcastLoop_ok {a b : List Nat} {n : Nat}
    (h : ∀ k, k < n → (dimR a k = dimR b k ∨ dimR a k = 1 ∨ dimR b k = 1)) :
    loop n (broadcastDim a b) [] = ok ((List.range n).map (rule a b)) := by
  induction n with
  | zero => rfl
  | succ n ih =>
    rw [loop_succ, ih (fun k hk => h k (by omega)), bind_ok, broadcastDim_ok _ (h n (by omega)), List.range_succ]
    simp

theorem broadcastLoop_abort {a b : List Nat} {n : Nat}
    (h : ∃ k, k < n ∧ ¬ (dimR a k = dimR b k ∨ dimR a k = 1 ∨ dimR b k = 1)) :
    loop n (broadcastDim a b) [] = abort := by
  induction n with
  | zero => obtain ⟨k, hk, _⟩ := h; omega
  | succ n ih =>
    rw [loop_succ]
    by_cases h' : ∃ k, k < n ∧ ¬ (dimR a k = dimR b k ∨ dimR a k = 1 ∨ dimR b k = 1)
    · rw [ih h', bind_abort]
    · have hn : ¬ (dimR a n = dimR b n ∨ dimR a n = 1 ∨ dimR b n = 1) := by
        obtain ⟨k, hk, hk'⟩ := h
        by_cases e : k = n
        · exact e ▸ hk'
        · exact absurd ⟨k, by omega, hk'⟩ h'
      rw [broadcastLoop_ok (fun k hk => Classical.not_not.mp (fun hc => h' ⟨k, hk, hc⟩)), bind_ok, broadcastDim_abort _ hn]

theorem dimR_reverse_map {n : Nat} (f : Nat → Nat) (k : Nat) (hk : k < n) : dimR ((List.range n).map f).reverse k = f k := by
  rw [dimR_of_lt (by simpa using hk)]
  simp only [List.length_reverse, List.length_map, List.length_range, List.getElem_reverse, List.getElem_map, List.getElem_range]
  congr 1; omega

theorem broadcastShape_ok {a b : List Nat} (h : Compatible a b) :
    ∃ c, broadcastShape a b = ok c ∧ c.length = max a.length b.length ∧ ∀ k, dimR c k = rule a b k := by
  unfold broadcastShape
  by_cases e : a = b
  · subst e
    exact ⟨a, by simp, by simp, fun k => by simp [rule]⟩
  · rw [if_neg e, broadcastLoop_ok (fun k _ => h k)]
    refine ⟨_, rfl, by simp, fun k => ?_⟩
    by_cases hk : k < max a.length b.length
    · exact dimR_reverse_map _ k hk
    · rw [dimR_of_ge (by simpa using hk), rule, dimR_of_ge (by omega), dimR_of_ge (by omega)]; rfl

theorem broadcastShape_abort {a b : List Nat} (h : ¬ Compatible a b) : broadcastShape a b = abort := by
  unfold broadcastShape
  by_cases e : a = b
  · subst e; exact absurd (fun k => Or.inl rfl) h
  · rw [if_neg e, broadcastLoop_abort, bind_abort]
    unfold Compatible at h
    rw [not_forall] at h
    obtain ⟨k, hk⟩ := h
    refine ⟨k, ?_, hk⟩
    by_contra hc
    exact hk (Or.inr (Or.inl (dimR_of_ge (by omega))))

/-! ### one expansion step -/

theorem expandKernel_spec {H R T : Nat} {src out : List α} {f : Nat → Nat → α} (hs : Is2 src H T f)
    (ho : out.length = H * R * T) :
    ∃ o', expandKernel H R T src out = ok o' ∧ Is3 o' H R T (fun r _ ch => f r ch) := by
  have hsets : Sets (fun o => expandKernel H R T src o) (H * R * T)
      (fun p => ∃ r, r < H ∧ ∃ c, c < R ∧ ∃ ch, ch < T ∧ p = (r * R + c) * T + ch)
      (fun p => f (dec3 R T p).1 (dec3 R T p).2.2) := by
    refine Sets.loop (fun r hr => Sets.loop (fun c hc => Sets.loop (fun ch hch => ?_)))
    have e : r * R * T + c * T + ch = (r * R + c) * T + ch := by ring
    simp only [hs.rd hr hch, bind_ok, e]
    exact sets_wr (idx3_lt hr hc hch) (by rw [dec3_enc hc hch])
  obtain ⟨o', h1, h2, h3⟩ := hsets.total (fun p hp => by
    obtain ⟨r, c, ch, hr, hc, hch, rfl⟩ := exists_dec3 hp
    exact ⟨r, hr, c, hc, ch, hch, rfl⟩) ho
  refine ⟨o', h1, h2, fun r c ch hr hc hch => ?_⟩
  rw [h3 _ (idx3_lt hr hc hch), dec3_enc hc hch]

theorem findDim_none {upd new : List Nat} {d : Nat} (h1 : d ≤ upd.length) (h2 : d ≤ new.length)
    (h : ∀ k, k < d → upd[k]? = new[k]?) : findDim upd new d = ok none := by
  induction d with
  | zero => rfl
  | succ d ih =>
    have e := h d (by omega)
    rw [List.getElem?_eq_getElem (by omega), List.getElem?_eq_getElem (by omega)] at e
    simp only [findDim, rd_ok (List.getElem?_eq_getElem (show d < new.length by omega)),
      rd_ok (List.getElem?_eq_getElem (show d < upd.length by omega)), bind_ok]
    rw [if_neg (by simpa using (Option.some.inj e).symm)]
    exact ih (by omega) (by omega) (fun k hk => h k (by omega))

theorem findDim_some {upd new : List Nat} {d : Nat} (h1 : d ≤ upd.length) (h2 : d ≤ new.length)
    (h : ∃ k, k < d ∧ upd[k]? ≠ new[k]?) :
    ∃ k, findDim upd new d = ok (some k) ∧ k < d ∧ upd[k]? ≠ new[k]? ∧ ∀ j, k < j → j < d → upd[j]? = new[j]? := by
  induction d with
  | zero => obtain ⟨k, hk, _⟩ := h; omega
  | succ d ih =>
    simp only [findDim, rd_ok (List.getElem?_eq_getElem (show d < new.length by omega)),
      rd_ok (List.getElem?_eq_getElem (show d < upd.length by omega)), bind_ok]
    by_cases e : new[d] = upd[d]
    · rw [if_neg (by simpa using e)]
      have ed : upd[d]? = new[d]? := by
        rw [List.getElem?_eq_getElem (by omega), List.getElem?_eq_getElem (by omega), e]
      obtain ⟨k, hk1, hk2, hk3, hk4⟩ := ih (by omega) (by omega) (by
        obtain ⟨k, hk, hne⟩ := h
        refine ⟨k, ?_, hne⟩
        by_contra hc
        have : k = d := by omega
        subst this
        exact hne ed)
      refine ⟨k, hk1, by omega, hk3, fun j hj1 hj2 => ?_⟩
      by_cases ej : j = d
      · subst ej; exact ed
      · exact hk4 j hj1 (by omega)
    · rw [if_pos (by simpa using e)]
      refine ⟨d, rfl, by omega, ?_, fun j hj1 hj2 => by omega⟩
      rw [List.getElem?_eq_getElem (by omega), List.getElem?_eq_getElem (by omega)]
      simpa using fun h => e h.symm

/-- Expanding dimension `pre.length` from 1 to `x`. -/
theorem expand_isT {pre post : List Nat} {x : Nat} {src : List α} {a : List Nat → α} (hs : IsT src (pre ++ 1 :: post) a) :
    ∃ o, expandKernel (size pre) x (size (1 :: post)) src (List.replicate (size (pre ++ x :: post)) z) = ok o ∧
      IsT o (pre ++ x :: post) (fun is => a (is.set pre.length 0)) := by
  have h2 : Is2 src (size pre) (size (1 :: post)) (fun i j => a (unflat pre i ++ 0 :: unflat post j)) := by
    refine ⟨by rw [hs.1, size_append], fun i j hi hj => ?_⟩
    rw [size_cons, Nat.one_mul] at hj ⊢
    obtain ⟨v1, e1⟩ := unflat_spec hi
    obtain ⟨v2, e2⟩ := unflat_spec hj
    have := hs.2 (unflat pre i ++ 0 :: unflat post j) ((validIdx_append v1.length_eq).mpr ⟨v1, by simp [v2]⟩)
    rw [flat_axis v1.length_eq, e1, e2] at this
    simpa using this
  obtain ⟨o, ho, h3⟩ := expandKernel_spec (R := x) h2 (out := List.replicate (size (pre ++ x :: post)) z)
    (by simp [size_append]; ring)
  refine ⟨o, ho, by rw [h3.1]; simp [size_append]; ring, fun is hv => ?_⟩
  obtain ⟨ip, i, iq, rfl, v1, hi, v2⟩ := validIdx_split hv
  have := h3.2 (flat pre ip) i (flat post iq) (flat_lt v1) hi (by simpa using flat_lt v2)
  rw [flat_axis v1.length_eq]
  simp only [size_cons, Nat.one_mul] at this
  rw [this, unflat_flat v1, unflat_flat v2, ← v1.length_eq]
  simp

/-- Coordinates of unit dimensions replaced by 0. -/
def collapse (s is : List Nat) : List Nat := List.zipWith (fun d i => if d = 1 then 0 else i) s is

theorem collapse_valid {s is : List Nat} (h : ValidIdx s is) : collapse s is = is := by
  induction s generalizing is with
  | nil => cases is with
    | nil => rfl
    | cons => exact absurd h id
  | cons d s ih => cases is with
    | nil => exact absurd h id
    | cons i is =>
      obtain ⟨h1, h2⟩ := h
      have := ih h2
      simp only [collapse, List.zipWith_cons_cons] at this ⊢
      rw [this]
      by_cases e : d = 1
      · subst e; simp; omega
      · simp [e]

theorem collapse_set {s is : List Nat} {k x : Nat} (h : s[k]? = some 1) (hl : is.length = s.length) :
    (collapse (s.set k x) is).set k 0 = collapse s is := by
  apply List.ext_getElem?
  intro j
  simp only [collapse]
  have hk : k < s.length := (List.getElem?_eq_some_iff.mp h).1
  by_cases e : j = k
  · subst e
    rw [List.getElem?_set_self (by simp; omega), List.getElem?_zipWith, h,
      List.getElem?_eq_getElem (show j < is.length by omega)]
    simp
  · rw [List.getElem?_set_ne (Ne.symm e), List.getElem?_zipWith, List.getElem?_zipWith, List.getElem?_set_ne (Ne.symm e)]

theorem padShape_eq {s new : List Nat} (h : new.length ≤ s.length) : padShape s new = s := by
  simp [padShape, Nat.sub_eq_zero_of_le h]

theorem split_at {s : List Nat} {k v : Nat} (h : s[k]? = some v) : s = s.take k ++ v :: s.drop (k + 1) := by
  obtain ⟨hk, hv⟩ := List.getElem?_eq_some_iff.mp h
  rw [← hv, List.cons_getElem_drop_succ, List.take_append_drop]

theorem drop_at {s : List Nat} {k v : Nat} (h : s[k]? = some v) : s.drop k = v :: s.drop (k + 1) := by
  obtain ⟨hk, hv⟩ := List.getElem?_eq_some_iff.mp h
  rw [← hv, List.cons_getElem_drop_succ]

theorem go_same_rank [Zero α] {new : List Nat} : ∀ (fuel m : Nat) (h : Heap α) (t : Tn) (a : List Nat → α),
    t.shape.length = new.length → m < fuel → (∀ j, m ≤ j → t.shape[j]? = new[j]?) →
    (∀ j : Nat, t.shape[j]? = new[j]? ∨ t.shape[j]? = some 1) → Holds h t a →
    ∃ t' ext, broadcastGo fuel h t new = ok (t', h ++ ext) ∧ t'.shape = new ∧
      Holds (h ++ ext) t' (fun is => a (collapse t.shape is)) ∧ (t.shape = new → t' = t ∧ ext = []) ∧
      (t.shape ≠ new → h.length ≤ t'.loc) := by
  intro fuel
  induction fuel with
  | zero => intro m h t a _ hm; omega
  | succ fuel ih =>
    intro m h t a hl hm hge hone hh
    obtain ⟨b, hb, hT⟩ := hh
    by_cases e : t.shape = new
    · refine ⟨t, [], by simp [broadcastGo, e], e, ⟨b, by simpa using hb, hT.congr (fun is hv => ?_)⟩,
        fun _ => ⟨rfl, rfl⟩, fun h => absurd e h⟩
      rw [collapse_valid hv]
    · have hpad : padShape t.shape new = t.shape := padShape_eq (by omega)
      have hpt : padTensor h t new = ok (t, h) := by rw [padTensor, if_neg (by omega)]
      obtain ⟨k, hk1, hk2, hk3, hk4⟩ := findDim_some (d := t.shape.length) (upd := t.shape) (new := new) (Nat.le_refl _) (by omega) (by
        by_contra hc
        apply e
        apply List.ext_getElem? 
        intro j
        by_cases hj : j < t.shape.length
        · by_contra hne; exact hc ⟨j, hj, hne⟩
        · rw [List.getElem?_eq_none (by omega), List.getElem?_eq_none (by omega)])
      have h1 : t.shape[k]? = some 1 := (hone k).resolve_left hk3
      have hnk : new[k]? = some (new[k]'(by omega)) := List.getElem?_eq_getElem (by omega)
      have hsp := split_at h1
      have hdrop : t.shape.drop k = 1 :: t.shape.drop (k+1) := drop_at h1
      have hset : t.shape.set k (new[k]'(by omega)) = t.shape.take k ++ (new[k]'(by omega)) :: t.shape.drop (k+1) := by
        rw [List.set_eq_take_append_cons_drop, if_pos hk2]
      have htl : (t.shape.take k).length = k := by simp; omega
      rw [hsp] at hT
      obtain ⟨o, ho, hoT⟩ := expand_isT (x := new[k]'(by omega)) (z := (0 : α)) hT
      rw [htl] at hoT
      have hkm : k < m := by
        by_contra hc
        exact hk3 (hge k (by omega))
      obtain ⟨t', ext, g1, g2, g3, g4, g5⟩ := ih k (h ++ [o]) ⟨t.shape.set k (new[k]'(by omega)), h.length⟩
        (fun is => a (is.set k 0)) (by simpa using hl) (by omega)
        (by
          intro j hj
          simp only
          by_cases ejk : j = k
          · subst ejk; rw [List.getElem?_set_self (by omega), hnk]
          · rw [List.getElem?_set_ne (Ne.symm ejk)]
            by_cases hj' : j < t.shape.length
            · exact hk4 j (by omega) hj'
            · rw [List.getElem?_eq_none (by omega), List.getElem?_eq_none (by omega)])
        (by
          intro j
          simp only
          by_cases ejk : j = k
          · subst ejk; rw [List.getElem?_set_self (by omega), hnk]; exact Or.inl rfl
          · rw [List.getElem?_set_ne (Ne.symm ejk)]; exact hone j)
        ⟨o, by simp, by simp only; rw [hset]; exact hoT⟩
      refine ⟨t', [o] ++ ext, ?_, g2, ?_, fun h => absurd h e, fun _ => ?_⟩
      · rw [← List.append_assoc, ← g1]
        simp only [broadcastGo, if_neg e, hpt, bind_ok, hpad, hk1, rd_ok h1, assert_true, rd_ok hnk, rd_ok hb]
        rw [hdrop, hset, ho, bind_ok]
      · rw [← List.append_assoc]
        obtain ⟨b', hb', hT'⟩ := g3
        refine ⟨b', hb', hT'.congr (fun is hv => ?_)⟩
        simp only
        rw [collapse_set h1 (by rw [hv.length_eq, g2, hl])]
      · by_cases e' : t.shape.set k (new[k]'(by omega)) = new
        · have := (g4 e').1
          rw [this]
        · have := g5 e'
          simp at this; omega

theorem flat_replicate_one (k : Nat) (s is : List Nat) (h : ValidIdx (List.replicate k 1 ++ s) is) :
    ValidIdx s (is.drop k) ∧ flat (List.replicate k 1 ++ s) is = flat s (is.drop k) := by
  induction k generalizing is with
  | zero => simpa using h
  | succ k ih =>
    cases is with
    | nil => exact absurd h id
    | cons i is =>
      rw [List.replicate_succ, List.cons_append] at h ⊢
      obtain ⟨h1, h2⟩ := h
      have : i = 0 := by omega
      subst this
      obtain ⟨h3, h4⟩ := ih is h2
      exact ⟨by simpa using h3, by simp [h4]⟩

theorem size_replicate_one (k : Nat) (s : List Nat) : size (List.replicate k 1 ++ s) = size s := by
  induction k with
  | zero => simp
  | succ k ih => rw [List.replicate_succ, List.cons_append, size_cons, ih, Nat.one_mul]

theorem go_pad [Zero α] {h : Heap α} {t : Tn} {new : List Nat} {b : List α} (fuel : Nat) (hlt : t.shape.length < new.length)
    (hb : h[t.loc]? = some b) (hsz : b.length = size t.shape) (hlast : t.shape.getLast? ≠ some minusOne) :
    broadcastGo (fuel + 1) h t new = broadcastGo (fuel + 1) h ⟨padShape t.shape new, t.loc⟩ new := by
  have hne : t.shape ≠ new := fun e => by rw [e] at hlt; omega
  have hpl : (padShape t.shape new).length = new.length := by simp [padShape]; omega
  have hpad2 : padShape (padShape t.shape new) new = padShape t.shape new := padShape_eq (by omega)
  have hnil : padShape t.shape new ≠ [] := by intro e; rw [e] at hpl; simp at hpl; omega
  have hlast' : (padShape t.shape new).getLast? ≠ some minusOne := by
    rw [padShape, List.getLast?_append]
    cases hs : t.shape.getLast? with
    | some v => rw [hs] at hlast; simpa using hlast
    | none =>
      rw [Option.none_or, List.getLast?_replicate]
      split <;> simp [minusOne]
  have hre : padTensor h t new = ok (⟨padShape t.shape new, t.loc⟩, h) := by
    simp only [padTensor, if_pos hlt, reshape, rd_ok hb, bind_ok, require_true hnil, if_neg hlast']
    rw [if_neg (by rw [not_not, hsz, padShape, size_replicate_one])]; rfl
  have hpt : padTensor h ⟨padShape t.shape new, t.loc⟩ new = ok (⟨padShape t.shape new, t.loc⟩, h) := by
    rw [padTensor, if_neg (by simp only; omega)]
  simp only [broadcastGo, if_neg hne, hre, bind_ok, hpt, hpad2]
  by_cases e : padShape t.shape new = new
  · simp [e]
  · simp [e]

theorem broadcastTensor_ok [Zero α] {h : Heap α} {t : Tn} {new : List Nat} {a : List Nat → α} (hh : Holds h t a)
    (hbc : BroadcastsTo t.shape new) (hlast : t.shape.getLast? ≠ some minusOne) :
    ∃ t' ext, broadcastTensor h t new = ok (t', h ++ ext) ∧ t'.shape = new ∧
      Holds (h ++ ext) t' (fun is => a (bcIdx t.shape is)) ∧
      (padShape t.shape new = new → t'.loc = t.loc ∧ ext = []) ∧ (padShape t.shape new ≠ new → h.length ≤ t'.loc) := by
  obtain ⟨hle, hdim⟩ := hbc
  have hpl : (padShape t.shape new).length = new.length := by simp [padShape]; omega
  have hone : ∀ j : Nat, (padShape t.shape new)[j]? = new[j]? ∨ (padShape t.shape new)[j]? = some 1 := by
    intro j
    by_cases hj : j < new.length - t.shape.length
    · right
      rw [padShape, List.getElem?_append_left (by simpa using hj), List.getElem?_replicate, if_pos hj]
    · by_cases hj' : j < new.length
      · rw [padShape, List.getElem?_append_right (by simp; omega), List.length_replicate]
        have hk := hdim (new.length - 1 - j) (by omega)
        rw [dimR_of_lt (by omega), dimR_of_lt (by omega)] at hk
        have e1 : t.shape.length - 1 - (new.length - 1 - j) = j - (new.length - t.shape.length) := by omega
        have e2 : new.length - 1 - (new.length - 1 - j) = j := by omega
        simp only [e1, e2] at hk
        rw [List.getElem?_eq_getElem (show j - (new.length - t.shape.length) < t.shape.length by omega),
          List.getElem?_eq_getElem hj']
        simpa using hk
      · left; rw [List.getElem?_eq_none (by omega), List.getElem?_eq_none (by omega)]
  obtain ⟨b, hb, hT⟩ := hh
  have hH : Holds h ⟨padShape t.shape new, t.loc⟩ (fun is => a (is.drop (new.length - t.shape.length))) := by
    refine ⟨b, hb, by rw [hT.1, padShape, size_replicate_one], fun is hv => ?_⟩
    obtain ⟨v1, v2⟩ := flat_replicate_one _ _ _ hv
    simp only [padShape]
    rw [v2, hT.2 _ v1]
  obtain ⟨t', ext, g1, g2, g3, g4, g5⟩ := go_same_rank (new.length + 1) new.length h ⟨padShape t.shape new, t.loc⟩ _ hpl
    (by omega) (by intro j hj; rw [List.getElem?_eq_none (by simp only; omega), List.getElem?_eq_none (by omega)]) hone hH
  have hgo : broadcastTensor h t new = broadcastGo (new.length + 1) h ⟨padShape t.shape new, t.loc⟩ new := by
    unfold broadcastTensor
    by_cases hlt : t.shape.length < new.length
    · exact go_pad _ hlt hb hT.1 hlast
    · rw [padShape_eq (by omega)]
  refine ⟨t', ext, hgo.trans g1, g2, ?_, fun e => ?_, fun e => g5 e⟩
  · obtain ⟨b', hb', hT'⟩ := g3
    refine ⟨b', hb', hT'.congr (fun is hv => ?_)⟩
    have hil : is.length = new.length := by rw [hv.length_eq, g2]
    simp only [collapse, padShape, bcIdx, hil, List.drop_zipWith]
    rw [List.drop_append_of_le_length (by simp)]
    simp
  · obtain ⟨e1, e2⟩ := g4 e
    exact ⟨by rw [e1], e2⟩

/-- More dimensions than the target: the dimension search reads outside `new_shape`. -/
theorem broadcastTensor_ub [Zero α] {h : Heap α} {t : Tn} {new : List Nat} (hl : new.length < t.shape.length) :
    broadcastTensor h t new = ub := by
  have hne : t.shape ≠ new := fun e => by rw [e] at hl; omega
  have hpad : padShape t.shape new = t.shape := padShape_eq (by omega)
  have hpt : padTensor h t new = ok (t, h) := by rw [padTensor, if_neg (by omega)]
  obtain ⟨n, hn⟩ : ∃ n, t.shape.length = n + 1 := ⟨t.shape.length - 1, by omega⟩
  simp only [broadcastTensor, broadcastGo, if_neg hne, hpt, bind_ok, hpad, hn, findDim, rd_ub (show new.length ≤ n by omega), bind_ub]

end Verif.Tensor
