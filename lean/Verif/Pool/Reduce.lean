import Verif.Pool.Lemmas
/-!
# C46-C48: the operators repeat, reduce_min, reduce_max, reduce_sum, maximum and minimum
-/
namespace Verif.Pool
open Verif Res View Data

variable {α : Type}

theorem at2_eq (r c i j : Nat) : at2 r c false i j = i * c + j := by simp [at2]

theorem colPos_eq (col c k : Nat) : colPos col c k = k * col + c := by
  induction k with
  | zero => simp [colPos]
  | succ k ih => rw [colPos, ih]; ring

/-- Specification: `axis` names the dimension after `pre` of the shape `pre ++ n :: post`; too large values (such as `-1UL`) mean
the last one. -/
def Names (axis : Nat) (pre post : List Nat) : Prop := axis = pre.length ∨ post = [] ∧ pre.length ≤ axis

theorem Names.min {axis : Nat} {pre post : List Nat} {n : Nat} (h : Names axis pre post) :
    min axis ((pre ++ n :: post).length - 1) = pre.length := by
  rw [List.length_append, List.length_cons]
  rcases h with h | ⟨h, h'⟩
  · omega
  · subst h; simp; omega

/-! ### C46 -/

/-- C46: `repeat( rep, axis )` writes every slice along the axis `rep` times in a row, whatever the cache held. -/
theorem repeat_op_values [Zero α] (rep axis : Nat) (pre post : List Nat) (n : Nat) (t cache : Ten α) (a : List Nat → α)
    (ht : t.Has (pre ++ n :: post) a) (hrep : 0 < rep) (hax : Names axis pre post) :
    ∃ (u : Ten α) (v : List Nat → α), repeatOp rep axis t cache = ok u ∧ u.Has (pre ++ (n * rep) :: post) v ∧
      ∀ ip i k iq, ValidIdx pre ip → i < n → k < rep → ValidIdx post iq → v (ip ++ (i * rep + k) :: iq) = a (ip ++ i :: iq) := by
  obtain ⟨hts, htT⟩ := ht
  unfold repeatOp
  rw [assert_true hrep, bind_ok]
  by_cases h1 : rep = 1
  · rw [if_pos h1]
    refine ⟨t, a, rfl, ⟨by rw [hts, h1, Nat.mul_one], by rw [h1, Nat.mul_one]; exact htT⟩, ?_⟩
    intro ip i k iq _ _ hk _
    rw [show i * rep + k = i by rw [h1, Nat.mul_one]; omega]
  rw [if_neg h1, hts, require_true (by simp), bind_ok, hax.min]
  dsimp only
  rw [rd_ok (getElem?_append_axis rfl), bind_ok, drop_append_axis rfl, set_append_axis rfl]
  have htake : size ((pre ++ n :: post).take (pre.length + 1)) = size pre * n := by
    rw [show pre ++ n :: post = (pre ++ [n]) ++ post by simp, List.take_left' (by simp), size_append]; simp
  rw [htake]
  have h3 := htT.is3
  have hsets : Sets (fun o => loop (size pre * n) (fun it o => loop rep (fun re o =>
      copyTo t.data (it * size post) (size post) o (at3 (size pre * n) rep (size post) it re 0)) o) o) (size pre * n * rep * size post)
      (fun p => ∃ it, it < size pre * n ∧ ∃ re, re < rep ∧ ∃ st, st < size post ∧ p = at3 (size pre * n) rep (size post) it re 0 + st)
      (fun p => a (unflat pre ((dec3 rep (size post) p).1 / n) ++ ((dec3 rep (size post) p).1 % n) :: unflat post (dec3 rep (size post) p).2.2)) := by
    refine Sets.loop (fun it hit => Sets.loop (fun re hre => copyTo_sets ?_ ?_))
    · rw [at3_eq, Nat.add_zero]
      calc (it * rep + re) * size post + size post = (it * rep + re + 1) * size post := by ring
        _ ≤ size pre * n * rep * size post := Nat.mul_le_mul_right _ (lt_mul_of_lt hit hre)
    · intro st hst
      rw [at3_eq, Nat.add_zero, dec3_enc hre hst]
      obtain ⟨x, i, hx, hi, rfl⟩ := exists_div_mod hit
      dsimp only
      rw [h3.2 x i st hx hi hst, (div_mod_eq hi).1, (div_mod_eq hi).2]
  obtain ⟨o', o1, o2, o3⟩ := hsets.total (fun p hp => by
    obtain ⟨it, re, st, h1, h2, h3, rfl⟩ := exists_dec3 hp
    exact ⟨it, h1, re, h2, st, h3, by rw [at3_eq, Nat.add_zero]⟩) (o := (resizeV cache (pre ++ (n * rep) :: post)).data)
    (by rw [resizeV_length, size_append, size_cons]; ring)
  rw [o1, bind_ok]
  have his : Is3 o' (size pre) (n * rep) (size post) (fun x i j => a (unflat pre x ++ (i / rep) :: unflat post j)) := by
    refine ⟨by rw [o2]; ring, fun x i j hx hi hj => ?_⟩
    obtain ⟨i, k, hi', hk, rfl⟩ := exists_div_mod hi
    rw [show (x * (n * rep) + (i * rep + k)) * size post + j = ((x * n + i) * rep + k) * size post + j by ring,
      o3 _ (idx3_lt (lt_mul_of_lt hx hi') hk hj), dec3_enc hk hj]
    dsimp only
    rw [(div_mod_eq hi').1, (div_mod_eq hi').2, (div_mod_eq hk).1]
  refine ⟨⟨pre ++ (n * rep) :: post, o'⟩, fun is => a (is.take pre.length ++ (is.getD pre.length 0 / rep) :: is.drop (pre.length + 1)), rfl,
    ⟨rfl, his.isT ?_⟩, ?_⟩
  · intro ip i iq hp hi hq
    rw [unflat_flat hp, unflat_flat hq, take_append_axis hp.length_eq, drop_append_axis hp.length_eq, getD_append_axis hp.length_eq]
  · intro ip i k iq hp hi hk hq
    dsimp only
    rw [take_append_axis hp.length_eq, drop_append_axis hp.length_eq, getD_append_axis hp.length_eq, (div_mod_eq hk).1]

example : repeatOp 2 1 ⟨[2, 2], [1, 2, 3, (4 : ℚ)]⟩ ⟨[], []⟩ = ok ⟨[2, 4], [1, 1, 2, 2, 3, 3, 4, 4]⟩ ∧
    repeatOp 2 0 ⟨[2, 2], [1, 2, 3, (4 : ℚ)]⟩ ⟨[], []⟩ = ok ⟨[4, 2], [1, 2, 1, 2, 3, 4, 3, 4]⟩ := by decide +kernel

/-- C46: backward of `repeat` adds up the copies' gradients; it is the adjoint of forward. -/
theorem repeat_op_adjoint [CommSemiring α] (rep axis : Nat) (pre post : List Nat) (n : Nat) (t cache grad gcache : Ten α)
    (a g : List Nat → α) (ht : t.Has (pre ++ n :: post) a) (hg : grad.Has (pre ++ (n * rep) :: post) g) (hrep : 0 < rep)
    (hax : Names axis pre post) :
    ∃ (u d : Ten α) (w : List Nat → α), repeatOp rep axis t cache = ok u ∧ repeatBack rep axis t grad gcache = ok d ∧
      d.Has (pre ++ n :: post) w ∧
      (∀ ip i iq, ValidIdx pre ip → i < n → ValidIdx post iq →
        w (ip ++ i :: iq) = ∑ k ∈ Finset.range rep, g (ip ++ (i * rep + k) :: iq)) ∧
      dot u.data grad.data = dot t.data d.data := by
  obtain ⟨u, v, u1, u2, u3⟩ := repeat_op_values rep axis pre post n t cache a ht hrep hax
  have hu3 := u2.2.is3
  have hg3 := hg.2.is3
  have ht3 := ht.2.is3
  -- the value of the backward pass as a table
  have hback : ∃ d : Ten α, repeatBack rep axis t grad gcache = ok d ∧ d.shape = pre ++ n :: post ∧
      Is3 d.data (size pre) n (size post)
        (fun x i j => ∑ k ∈ Finset.range rep, g (unflat pre x ++ (i * rep + k) :: unflat post j)) := by
    unfold repeatBack
    by_cases h1 : rep = 1
    · rw [if_pos h1]
      subst h1
      refine ⟨grad, rfl, by rw [hg.1, Nat.mul_one], ?_⟩
      simpa using hg3
    rw [if_neg h1, ht.1, require_true (by simp), bind_ok, hax.min]
    dsimp only
    have htake : size ((pre ++ n :: post).take (pre.length + 1)) = size pre * n := by
      rw [show pre ++ n :: post = (pre ++ [n]) ++ post by simp, List.take_left' (by simp), size_append]; simp
    rw [drop_append_axis rfl, htake, fill0, bind_ok]
    have hadds : Adds (fun o => loop (size pre * n) (fun it o => loop rep (fun re o => loop (size post) (fun st o => do
        let g ← rd grad.data (at3 (size pre * n) rep (size post) it re st)
        addAt o (at2 (size pre * n) (size post) false it st) g) o) o) o) (size pre * n * size post)
        (fun p => ∑ it ∈ Finset.range (size pre * n), ∑ re ∈ Finset.range rep, ∑ st ∈ Finset.range (size post),
          if p = it * size post + st then g (unflat pre (it / n) ++ (it % n * rep + re) :: unflat post st) else 0) := by
      refine Adds.loop (fun it hit => Adds.loop (fun re hre => Adds.loop (fun st hst => ?_)))
      refine (adds_addAt (v := g (unflat pre (it / n) ++ (it % n * rep + re) :: unflat post st)) (lt_mul_of_lt hit hst)).congr_prog (fun o _ => ?_)
      obtain ⟨x, i, hx, hi, rfl⟩ := exists_div_mod hit
      rw [at3_eq, at2_eq, (div_mod_eq hi).1, (div_mod_eq hi).2,
        show ((x * n + i) * rep + re) * size post + st = (x * (n * rep) + (i * rep + re)) * size post + st by ring,
        hg3.rd hx (lt_mul_of_lt hi hre) hst, bind_ok]
    obtain ⟨o', o1, o2, o3⟩ := hadds.run (o := List.replicate (size (pre ++ n :: post)) (0 : α)) (g := fun _ => 0)
      (by rw [List.length_replicate, size_append, size_cons]; ring)
      (fun p hp => by
        rw [List.getElem?_replicate, if_pos (by rw [size_append, size_cons, ← Nat.mul_assoc]; exact hp)])
    refine ⟨⟨pre ++ n :: post, o'⟩, by rw [o1, bind_ok]; rfl, rfl, by rw [o2], fun x i j hx hi hj => ?_⟩
    rw [o3 _ (idx3_lt hx hi hj), zero_add]
    congr 1
    rw [Finset.sum_eq_single_of_mem (x * n + i) (Finset.mem_range.mpr (lt_mul_of_lt hx hi))]
    · refine Finset.sum_congr rfl (fun k _ => ?_)
      rw [Finset.sum_eq_single_of_mem j (Finset.mem_range.mpr hj), if_pos rfl, (div_mod_eq hi).1, (div_mod_eq hi).2]
      intro st hst hne
      rw [if_neg (fun e => hne (mul_add_inj hj (Finset.mem_range.mp hst) e).2.symm)]
    · intro it hit hne
      refine Finset.sum_eq_zero (fun k _ => Finset.sum_eq_zero (fun st hst => ?_))
      rw [if_neg (fun e => hne (mul_add_inj hj (Finset.mem_range.mp hst) e).1.symm)]
  obtain ⟨d, d1, d2, d3⟩ := hback
  refine ⟨u, d, fun is => ∑ k ∈ Finset.range rep, g (is.take pre.length ++ (is.getD pre.length 0 * rep + k) :: is.drop (pre.length + 1)),
    u1, d1, ⟨d2, d3.isT ?_⟩, ?_, ?_⟩
  · intro ip i iq hp hi hq
    rw [unflat_flat hp, unflat_flat hq, take_append_axis hp.length_eq, drop_append_axis hp.length_eq, getD_append_axis hp.length_eq]
  · intro ip i iq hp hi hq
    dsimp only
    rw [take_append_axis hp.length_eq, drop_append_axis hp.length_eq, getD_append_axis hp.length_eq]
  · rw [dot3 hu3 hg3, dot3 ht3 d3]
    refine Finset.sum_congr rfl (fun x hx => ?_)
    rw [sum_mul_split]
    refine Finset.sum_congr rfl (fun i hi => ?_)
    rw [Finset.sum_comm]
    refine Finset.sum_congr rfl (fun j hj => ?_)
    rw [Finset.mul_sum]
    refine Finset.sum_congr rfl (fun k hk => ?_)
    rw [u3 _ i k _ (unflat_spec (Finset.mem_range.mp hx)).1 (Finset.mem_range.mp hi) (Finset.mem_range.mp hk)
      (unflat_spec (Finset.mem_range.mp hj)).1]

example : repeatBack 2 1 ⟨[2, 2], [1, 2, 3, (4 : ℚ)]⟩ ⟨[2, 4], [1, 2, 3, 4, 5, 6, 7, 8]⟩ ⟨[], []⟩ = ok ⟨[2, 2], [3, 7, 11, 15]⟩ := by
  decide +kernel

/-! ### C47 -/

/-- `k` is the first coordinate below `n` that no other one beats. -/
def FirstBest (better : α → α → Bool) (f : Nat → α) (n k : Nat) : Prop :=
  k < n ∧ (∀ i, i < n → better (f i) (f k) = false) ∧ ∀ i, i < k → better (f k) (f i) = true

theorem colBest_ok {better : α → α → Bool} (hirr : ∀ x, better x x = false)
    (hasymm : ∀ x y, better x y = true → better y x = false)
    (hpos : ∀ x y z, better x y = true → better z y = false → better x z = true)
    {d : List α} {P n S : Nat} {f : Nat → Nat → Nat → α} (hd : Is3 d P n S f) {x j : Nat} (hx : x < P) (hj : j < S) (hn : 0 < n) :
    ∃ k, colBest better d (x * (n * S)) n S j = ok k ∧ FirstBest better (fun i => f x i j) n k := by
  have hrd : ∀ i, i < n → rd d (x * (n * S) + colPos S j i) = ok (f x i j) := by
    intro i hi
    rw [colPos_eq, show x * (n * S) + (i * S + j) = (x * n + i) * S + j by ring, hd.rd hx hi hj]
  unfold colBest
  rw [require_true hn, bind_ok, hrd 0 hn, bind_ok]
  obtain ⟨s, h1, h2⟩ := loop_inv (n := n)
    (body := fun i (s : α × Nat) => do
      let x ← rd d (x * (n * S) + colPos S j i)
      if better x s.1 = true then pure (x, i) else pure s) (s := (f x 0 j, 0))
    (fun i s => s.2 < n ∧ s.1 = f x s.2 j ∧ (∀ l, l < i → better (f x l j) s.1 = false) ∧ ∀ l, l < s.2 → better s.1 (f x l j) = true)
    ⟨hn, rfl, fun l hl => by omega, fun l hl => by simp at hl⟩ (by
      rintro i ⟨m, k⟩ hi ⟨q1, q2, q3, q4⟩
      rw [hrd i hi, bind_ok]
      simp only at q1 q2 q3 q4 ⊢
      by_cases hb : better (f x i j) m = true
      · rw [if_pos hb]
        refine ⟨_, rfl, hi, rfl, fun l hl => ?_, fun l hl => ?_⟩
        · dsimp only
          by_cases e : l = i
          · rw [e]; exact hirr _
          · exact hasymm _ _ (hpos _ m _ hb (q3 l (by omega)))
        · dsimp only at hl ⊢
          exact hpos _ m _ hb (q3 l hl)
      · rw [if_neg hb]
        have hb' : better (f x i j) m = false := by simpa using hb
        refine ⟨(m, k), rfl, q1, q2, fun l hl => ?_, q4⟩
        by_cases e : l = i
        · rw [e]; exact hb'
        · exact q3 l (by omega))
  obtain ⟨m, k⟩ := s
  refine ⟨k, by rw [h1, bind_ok]; rfl, h2.1, ?_, ?_⟩
  · intro i hi; have := h2.2.2.1 i hi; rw [h2.2.1] at this; exact this
  · intro i hi; have := h2.2.2.2 i hi; rw [h2.2.1] at this; exact this

/-- What forward and backward compute, from what is known (`Q`) of the element picked in every column. -/
theorem reduceExt_sel [Zero α] {better : α → α → Bool} {Q : (Nat → α) → Nat → Prop} {n : Nat}
    (hQ : ∀ (d : List α) (P S : Nat) (f : Nat → Nat → Nat → α) (x j : Nat), Is3 d P n S f → x < P → j < S →
      ∃ k, colBest better d (x * (n * S)) n S j = ok k ∧ k < n ∧ Q (fun i => f x i j) k)
    (axis : Nat) (pre post : List Nat) (t cache grad gcache : Ten α) (index : Ten Nat) (a g : List Nat → α)
    (ht : t.Has (pre ++ n :: post) a) (hg : grad.Has (pre ++ post) g) (hax : Names axis pre post) :
    ∃ (u d : Ten α) (idx : Ten Nat) (k : List Nat → Nat), reduceExt better axis t cache index = ok (u, idx) ∧
      u.Has (pre ++ post) (fun is => a (is.take pre.length ++ k is :: is.drop pre.length)) ∧
      reduceExtBack axis t grad gcache idx = ok d ∧
      d.Has (pre ++ n :: post) (fun is => if is.getD pre.length 0 = k (is.eraseIdx pre.length) then g (is.eraseIdx pre.length) else 0) ∧
      ∀ ip iq, ValidIdx pre ip → ValidIdx post iq → k (ip ++ iq) < n ∧ Q (fun i => a (ip ++ i :: iq)) (k (ip ++ iq)) := by
  have h3 := ht.2.is3
  have hg2 := hg.2.is2
  have hk : ∀ x j, ∃ k, x < size pre → j < size post → colBest better t.data (x * (n * size post)) n (size post) j = ok k ∧
      k < n ∧ Q (fun i => a (unflat pre x ++ i :: unflat post j)) k := by
    intro x j
    by_cases h : x < size pre ∧ j < size post
    · obtain ⟨k, q1, q2⟩ := hQ _ _ _ _ _ _ h3 h.1 h.2
      exact ⟨k, fun _ _ => ⟨q1, q2⟩⟩
    · exact ⟨0, fun h1 h2 => absurd ⟨h1, h2⟩ h⟩
  choose kk hkk using hk
  have hrd : ∀ x i j, x < size pre → i < n → j < size post → rd t.data (x * (n * size post) + colPos (size post) j i) =
      ok (a (unflat pre x ++ i :: unflat post j)) := by
    intro x i j hx hi hj
    rw [colPos_eq, show x * (n * size post) + (i * size post + j) = (x * n + i) * size post + j by ring, h3.rd hx hi hj]
  obtain ⟨o', o1, o2⟩ := fill2 (m := size pre) (n := size post) (out := (resizeV cache (pre ++ post)).data)
    (body := fun x j o => wr o (x * size post + j) (a (unflat pre x ++ kk x j :: unflat post j)))
    (g := fun x j => a (unflat pre x ++ kk x j :: unflat post j)) (fun _ _ _ _ _ _ => rfl) (by rw [resizeV_length, size_append])
  obtain ⟨i', i1, i2⟩ := fill2 (m := size pre) (n := size post) (out := (resizeV index (pre ++ post)).data)
    (body := fun x j o => wr o (x * size post + j) (kk x j))
    (g := fun x j => kk x j) (fun _ _ _ _ _ _ => rfl) (by rw [resizeV_length, size_append])
  -- backward
  have hsets : Sets (fun o => loop (size pre) (fun it o => loop (size post) (fun j o => do
      let k ← rd i' (at2 (size pre) (size post) false it j)
      let g ← rd grad.data (at2 (size pre) (size post) false it j)
      wr o (at3 (size pre) n (size post) it k j) g) o) o) (size pre * n * size post)
      (fun p => ∃ x, x < size pre ∧ ∃ j, j < size post ∧ p = (x * n + kk x j) * size post + j)
      (fun p => g (unflat pre (dec3 n (size post) p).1 ++ unflat post (dec3 n (size post) p).2.2)) := by
    refine Sets.loop (fun x hx => Sets.loop (fun j hj => ?_))
    have hlt := (hkk x j hx hj).2.1
    refine Sets.congr_prog (sets_wr (x := g (unflat pre x ++ unflat post j)) (idx3_lt hx hlt hj) (by rw [dec3_enc hlt hj])) (fun o _ => ?_)
    rw [at2_eq, i2.rd hx hj, bind_ok, hg2.rd hx hj, bind_ok, at3_eq]
  obtain ⟨d', d1, d2, d3, d4⟩ := hsets (List.replicate (size (pre ++ n :: post)) 0) (by
    rw [List.length_replicate, size_append, size_cons]; ring)
  refine ⟨⟨pre ++ post, o'⟩, ⟨pre ++ n :: post, d'⟩, ⟨pre ++ post, i'⟩,
    fun is => kk (flat pre (is.take pre.length)) (flat post (is.drop pre.length)), ?_, ⟨rfl, o2.isT ?_⟩, ?_, ⟨rfl, Is3.isT
      (b := fun x i j => if i = kk x j then g (unflat pre x ++ unflat post j) else 0) ⟨d2, ?_⟩ ?_⟩, ?_⟩
  · unfold reduceExt
    rw [ht.1, require_true (by simp), bind_ok, hax.min]
    dsimp only
    rw [rd_ok (getElem?_append_axis rfl), bind_ok, drop_append_axis rfl, take_append_axis rfl, eraseIdx_append_axis rfl]
    rw [loop_pair (s' := o') (t' := i') _ o1 i1, bind_ok]; rfl
    intro x s1 t1 s2 t2 hx hf hg
    refine loop_pair ?_ hf hg
    intro j s1 t1 s2 t2 hj hf hg
    dsimp only at hf hg ⊢
    rw [(hkk x j hx hj).1, bind_ok, hrd x _ j hx (hkk x j hx hj).2.1 hj, bind_ok, at2_eq, hf, bind_ok, hg, bind_ok]; rfl
  · intro ip iq hp hq
    dsimp only
    rw [unflat_flat hp, unflat_flat hq, List.take_left' hp.length_eq, List.drop_left' hp.length_eq]
  · unfold reduceExtBack
    rw [ht.1, require_true (by simp), bind_ok, hax.min]
    dsimp only at d1 ⊢
    rw [rd_ok (getElem?_append_axis rfl), bind_ok, drop_append_axis rfl, take_append_axis rfl, fill0, bind_ok]
    have hidx : (resizeV (⟨pre ++ post, i'⟩ : Ten Nat) grad.shape).data = i' := by
      unfold resizeV
      dsimp only
      rw [if_pos (by rw [hg.1, i2.1, size_append])]
    rw [hidx, d1, bind_ok]; rfl
  · intro x i j hx hi hj
    by_cases e : i = kk x j
    · rw [d3 _ (idx3_lt hx hi hj) ⟨x, hx, j, hj, by rw [e]⟩]
      dsimp only
      rw [dec3_enc hi hj, if_pos e]
    · dsimp only
      rw [if_neg e, d4]
      · rw [List.getElem?_replicate, if_pos (by rw [size_append, size_cons, ← Nat.mul_assoc]; exact idx3_lt hx hi hj)]
      · rintro ⟨x', hx', j', hj', e'⟩
        obtain ⟨e1, e2⟩ := mul_add_inj hj hj' e'
        obtain ⟨e3, e4⟩ := mul_add_inj hi (hkk x' j' hx' hj').2.1 e1
        subst e2; subst e3
        exact e e4
  · intro ip i iq hp hi hq
    simp only [getD_append_axis hp.length_eq, eraseIdx_append_axis hp.length_eq, List.take_left' hp.length_eq,
      List.drop_left' hp.length_eq, unflat_flat hp, unflat_flat hq]
  · intro ip iq hp hq
    have := (hkk (flat pre ip) (flat post iq) (flat_lt hp) (flat_lt hq)).2
    rw [unflat_flat hp, unflat_flat hq] at this
    dsimp only
    rw [List.take_left' hp.length_eq, List.drop_left' hp.length_eq]
    exact this

/-- Specification: `k` is the smallest coordinate below `n` at which `f` attains its minimum. -/
def IsFirstMin [LinearOrder α] (f : Nat → α) (n k : Nat) : Prop := k < n ∧ (∀ i, i < n → f k ≤ f i) ∧ ∀ i, i < k → f k < f i

theorem reduceExt_ok [Zero α] {better : α → α → Bool} (hirr : ∀ x, better x x = false)
    (hasymm : ∀ x y, better x y = true → better y x = false)
    (hpos : ∀ x y z, better x y = true → better z y = false → better x z = true)
    (axis : Nat) (pre post : List Nat) (n : Nat) (t cache grad gcache : Ten α) (index : Ten Nat) (a g : List Nat → α)
    (ht : t.Has (pre ++ n :: post) a) (hg : grad.Has (pre ++ post) g) (hax : Names axis pre post) (hn : 0 < n) :
    ∃ (u d : Ten α) (idx : Ten Nat) (k : List Nat → Nat), reduceExt better axis t cache index = ok (u, idx) ∧
      u.Has (pre ++ post) (fun is => a (is.take pre.length ++ k is :: is.drop pre.length)) ∧
      reduceExtBack axis t grad gcache idx = ok d ∧
      d.Has (pre ++ n :: post) (fun is => if is.getD pre.length 0 = k (is.eraseIdx pre.length) then g (is.eraseIdx pre.length) else 0) ∧
      ∀ ip iq, ValidIdx pre ip → ValidIdx post iq → FirstBest better (fun i => a (ip ++ i :: iq)) n (k (ip ++ iq)) :=
  reduceExt_sel (Q := fun f k => (∀ i, i < n → better (f i) (f k) = false) ∧ ∀ i, i < k → better (f k) (f i) = true)
    (fun _ _ _ _ _ _ h3 hx hj => colBest_ok hirr hasymm hpos h3 hx hj hn) axis pre post t cache grad gcache index a g ht hg hax

/-- C47: `reduce_min( axis )` returns the minimum along the axis, and backward gives the gradient to the first element attaining it
and zero to the others, whatever the caches held. -/
theorem reduce_min_routes [LinearOrder α] [Zero α] (axis : Nat) (pre post : List Nat) (n : Nat) (t cache grad gcache : Ten α)
    (index : Ten Nat) (a g : List Nat → α) (ht : t.Has (pre ++ n :: post) a) (hg : grad.Has (pre ++ post) g)
    (hax : Names axis pre post) (hn : 0 < n) :
    ∃ (u d : Ten α) (idx : Ten Nat) (v w : List Nat → α), reduceExt (fun x y => decide (x < y)) axis t cache index = ok (u, idx) ∧
      u.Has (pre ++ post) v ∧ reduceExtBack axis t grad gcache idx = ok d ∧ d.Has (pre ++ n :: post) w ∧
      ∀ ip iq, ValidIdx pre ip → ValidIdx post iq → ∃ k, IsFirstMin (fun i => a (ip ++ i :: iq)) n k ∧
        v (ip ++ iq) = a (ip ++ k :: iq) ∧ w (ip ++ k :: iq) = g (ip ++ iq) ∧ ∀ i, i < n → i ≠ k → w (ip ++ i :: iq) = 0 := by
  obtain ⟨u, d, idx, k, h1, h2, h3, h4, h5⟩ := reduceExt_ok (better := fun x y => decide (x < y)) (by simp)
    (by simp only [decide_eq_true_eq, decide_eq_false_iff_not, not_lt]; intro x y h; exact le_of_lt h)
    (by simp only [decide_eq_true_eq, decide_eq_false_iff_not, not_lt]; intro x y z h h'; exact lt_of_lt_of_le h h')
    axis pre post n t cache grad gcache index a g ht hg hax hn
  refine ⟨u, d, idx, _, _, h1, h2, h3, h4, fun ip iq hp hq => ⟨k (ip ++ iq), ?_, ?_, ?_, fun i hi hne => ?_⟩⟩
  · obtain ⟨q1, q2, q3⟩ := h5 ip iq hp hq
    exact ⟨q1, fun i hi => by simpa using q2 i hi, fun i hi => by simpa using q3 i hi⟩
  · rw [List.take_left' hp.length_eq, List.drop_left' hp.length_eq]
  · rw [getD_append_axis hp.length_eq, eraseIdx_append_axis hp.length_eq, if_pos rfl]
  · rw [getD_append_axis hp.length_eq, eraseIdx_append_axis hp.length_eq, if_neg hne]

/-- C47: `reduce_max( axis )` returns the maximum along the axis, and backward gives the gradient to the first element attaining it
and zero to the others, whatever the caches held. -/
theorem reduce_max_routes [LinearOrder α] [Zero α] (axis : Nat) (pre post : List Nat) (n : Nat) (t cache grad gcache : Ten α)
    (index : Ten Nat) (a g : List Nat → α) (ht : t.Has (pre ++ n :: post) a) (hg : grad.Has (pre ++ post) g)
    (hax : Names axis pre post) (hn : 0 < n) :
    ∃ (u d : Ten α) (idx : Ten Nat) (v w : List Nat → α), reduceExt (fun x y => decide (y < x)) axis t cache index = ok (u, idx) ∧
      u.Has (pre ++ post) v ∧ reduceExtBack axis t grad gcache idx = ok d ∧ d.Has (pre ++ n :: post) w ∧
      ∀ ip iq, ValidIdx pre ip → ValidIdx post iq → ∃ k, IsFirstMax (fun i => a (ip ++ i :: iq)) n k ∧
        v (ip ++ iq) = a (ip ++ k :: iq) ∧ w (ip ++ k :: iq) = g (ip ++ iq) ∧ ∀ i, i < n → i ≠ k → w (ip ++ i :: iq) = 0 := by
  obtain ⟨u, d, idx, k, h1, h2, h3, h4, h5⟩ := reduceExt_ok (better := fun x y => decide (y < x)) (by simp)
    (by simp only [decide_eq_true_eq, decide_eq_false_iff_not, not_lt]; intro x y h; exact le_of_lt h)
    (by simp only [decide_eq_true_eq, decide_eq_false_iff_not, not_lt]; intro x y z h h'; exact lt_of_le_of_lt h' h)
    axis pre post n t cache grad gcache index a g ht hg hax hn
  refine ⟨u, d, idx, _, _, h1, h2, h3, h4, fun ip iq hp hq => ⟨k (ip ++ iq), ?_, ?_, ?_, fun i hi hne => ?_⟩⟩
  · obtain ⟨q1, q2, q3⟩ := h5 ip iq hp hq
    exact ⟨q1, fun i hi => by simpa using q2 i hi, fun i hi => by simpa using q3 i hi⟩
  · rw [List.take_left' hp.length_eq, List.drop_left' hp.length_eq]
  · rw [getD_append_axis hp.length_eq, eraseIdx_append_axis hp.length_eq, if_pos rfl]
  · rw [getD_append_axis hp.length_eq, eraseIdx_append_axis hp.length_eq, if_neg hne]

example : (reduceExt (fun x y => decide (y < x)) 0 ⟨[2, 3], [1, 5, 3, 4, 5, (6 : ℚ)]⟩ ⟨[], []⟩ ⟨[], []⟩) =
    ok (⟨[3], [4, 5, 6]⟩, ⟨[3], [1, 0, 1]⟩) ∧
    (reduceExt (fun x y => decide (x < y)) 7 ⟨[2, 3], [1, 5, 3, 4, 4, (6 : ℚ)]⟩ ⟨[], []⟩ ⟨[], []⟩ >>= fun r =>
      reduceExtBack 7 ⟨[2, 3], [1, 5, 3, 4, 4, (6 : ℚ)]⟩ ⟨[2], [8, 9]⟩ ⟨[], []⟩ r.2) = ok ⟨[2, 3], [8, 0, 0, 9, 0, 0]⟩ := by
  decide +kernel

/-- C47: an axis of extent zero is undefined (the end of an empty range is dereferenced). -/
theorem reduce_ext_empty_ub [Zero α] (better : α → α → Bool) (axis : Nat) (pre post : List Nat) (t cache : Ten α) (index : Ten Nat)
    (hs : t.shape = pre ++ 0 :: post) (hax : Names axis pre post) (hne : 0 < size pre ∧ 0 < size post) :
    reduceExt better axis t cache index = ub := by
  unfold reduceExt
  rw [hs, require_true (by simp), bind_ok, hax.min]
  dsimp only
  rw [rd_ok (getElem?_append_axis rfl), bind_ok, drop_append_axis rfl, take_append_axis rfl]
  have hl : ∀ {σ : Type} (m : Nat) (f : Nat → σ → Res σ) (s : σ), 0 < m → (∀ s, f 0 s = ub) → loop m f s = ub := by
    intro σ m f s hm hf
    induction m with
    | zero => omega
    | succ m ih =>
      rw [loop_succ]
      by_cases h0 : m = 0
      · subst h0; rw [loop_zero, bind_ok, hf]
      · rw [ih (by omega), bind_ub]
  rw [hl _ _ _ hne.1, bind_ub]
  intro s
  refine hl _ _ _ hne.2 (fun s => ?_)
  unfold colBest
  rw [require_false (by omega), bind_ub, bind_ub]

example : reduceExt (fun x y => decide (x < y)) 0 (⟨[0, 3], []⟩ : Ten ℚ) ⟨[], []⟩ ⟨[], []⟩ = ub := by decide +kernel

/-- C47: `reduce_sum( axis )` returns the sum along the axis and backward gives every element the gradient of its sum; backward is
the adjoint of forward. -/
theorem reduce_sum_routes [CommSemiring α] (axis : Nat) (pre post : List Nat) (n : Nat) (t cache grad gcache : Ten α)
    (a g : List Nat → α) (ht : t.Has (pre ++ n :: post) a) (hg : grad.Has (pre ++ post) g) (hax : Names axis pre post) :
    ∃ (u d : Ten α) (v w : List Nat → α), reduceSum axis t cache = ok u ∧ u.Has (pre ++ post) v ∧
      reduceSumBack axis t grad gcache = ok d ∧ d.Has (pre ++ n :: post) w ∧
      (∀ ip iq, ValidIdx pre ip → ValidIdx post iq →
        v (ip ++ iq) = ∑ i ∈ Finset.range n, a (ip ++ i :: iq) ∧ ∀ i, i < n → w (ip ++ i :: iq) = g (ip ++ iq)) ∧
      dot u.data grad.data = dot t.data d.data := by
  have h3 := ht.2.is3
  have hg2 := hg.2.is2
  have hrd : ∀ x i j, x < size pre → i < n → j < size post → rd t.data (x * (n * size post) + colPos (size post) j i) =
      ok (a (unflat pre x ++ i :: unflat post j)) := by
    intro x i j hx hi hj
    rw [colPos_eq, show x * (n * size post) + (i * size post + j) = (x * n + i) * size post + j by ring, h3.rd hx hi hj]
  obtain ⟨o', o1, o2⟩ := fill2 (m := size pre) (n := size post) (out := (resizeV cache (pre ++ post)).data)
    (body := fun it j o => do
      let v ← loop n (fun i acc => do
        let x ← rd t.data (it * (n * size post) + colPos (size post) j i)
        pure (acc + x)) 0
      wr o (at2 (size pre) (size post) false it j) v)
    (g := fun x j => ∑ i ∈ Finset.range n, a (unflat pre x ++ i :: unflat post j)) (by
      intro x j o hx hj _
      rw [loop_sum (g := fun i => a (unflat pre x ++ i :: unflat post j)), bind_ok, zero_add, at2_eq]
      intro i acc hi
      rw [hrd x i j hx hi hj, bind_ok]; rfl) (by rw [resizeV_length, size_append])
  have hsets : Sets (fun o => loop (size pre) (fun it o => loop (size post) (fun j o => do
      let g ← rd grad.data (at2 (size pre) (size post) false it j)
      loop n (fun i o => wr o (it * (n * size post) + colPos (size post) j i) g) o) o) o) (size pre * n * size post)
      (fun p => ∃ x, x < size pre ∧ ∃ j, j < size post ∧ ∃ i, i < n ∧ p = (x * n + i) * size post + j)
      (fun p => g (unflat pre (dec3 n (size post) p).1 ++ unflat post (dec3 n (size post) p).2.2)) := by
    refine Sets.loop (fun x hx => Sets.loop (fun j hj => ?_))
    refine Sets.congr_prog (f := fun o => loop n (fun i o => wr o ((x * n + i) * size post + j) (g (unflat pre x ++ unflat post j))) o)
      (Sets.loop (fun i hi => sets_wr (idx3_lt hx hi hj) (by rw [dec3_enc hi hj]))) (fun o _ => ?_)
    rw [at2_eq, hg2.rd hx hj, bind_ok]
    refine loop_congr _ (fun i o hi => ?_)
    rw [colPos_eq, show x * (n * size post) + (i * size post + j) = (x * n + i) * size post + j by ring]
  obtain ⟨d', d1, d2, d3⟩ := hsets.total (fun p hp => by
    obtain ⟨x, i, j, hx, hi, hj, rfl⟩ := exists_dec3 hp
    exact ⟨x, hx, j, hj, i, hi, rfl⟩) (o := List.replicate (size (pre ++ n :: post)) 0)
    (by rw [List.length_replicate, size_append, size_cons]; ring)
  have hd3 : Is3 d' (size pre) n (size post) (fun x _ j => g (unflat pre x ++ unflat post j)) := by
    refine ⟨d2, fun x i j hx hi hj => ?_⟩
    rw [d3 _ (idx3_lt hx hi hj), dec3_enc hi hj]
  refine ⟨⟨pre ++ post, o'⟩, ⟨pre ++ n :: post, d'⟩,
    fun is => ∑ i ∈ Finset.range n, a (is.take pre.length ++ i :: is.drop pre.length), fun is => g (is.eraseIdx pre.length), ?_,
    ⟨rfl, o2.isT ?_⟩, ?_, ⟨rfl, hd3.isT ?_⟩, ?_, ?_⟩
  · unfold reduceSum
    rw [ht.1, require_true (by simp), bind_ok, hax.min]
    dsimp only
    rw [rd_ok (getElem?_append_axis rfl), bind_ok, drop_append_axis rfl, take_append_axis rfl, eraseIdx_append_axis rfl, o1, bind_ok]; rfl
  · intro ip iq hp hq
    rw [unflat_flat hp, unflat_flat hq, List.take_left' hp.length_eq, List.drop_left' hp.length_eq]
  · unfold reduceSumBack
    rw [ht.1, require_true (by simp), bind_ok, hax.min]
    dsimp only at d1 ⊢
    rw [rd_ok (getElem?_append_axis rfl), bind_ok, drop_append_axis rfl, take_append_axis rfl, fill0, bind_ok, d1, bind_ok]; rfl
  · intro ip i iq hp hi hq
    rw [unflat_flat hp, unflat_flat hq, eraseIdx_append_axis hp.length_eq]
  · intro ip iq hp hq
    dsimp only
    rw [List.take_left' hp.length_eq, List.drop_left' hp.length_eq]
    exact ⟨rfl, fun i hi => by rw [eraseIdx_append_axis hp.length_eq]⟩
  · have e2 : ∀ (A : List α) (f : Nat → Nat → α), Is2 A (size pre) (size post) f → ∀ p, p < size pre * size post →
        A[p]? = some (f (p / size post) (p % size post)) := by
      intro A f h p hp
      obtain ⟨x, j, hx, hj, rfl⟩ := exists_div_mod hp
      rw [h.2 x j hx hj, (div_mod_eq hj).1, (div_mod_eq hj).2]
    rw [dot_eq_sum o2.1 hg2.1 (e2 _ _ o2) (e2 _ _ hg2), dot3 h3 hd3, sum_mul_split]
    refine Finset.sum_congr rfl (fun x _ => ?_)
    rw [Finset.sum_comm]
    refine Finset.sum_congr rfl (fun j hj => ?_)
    rw [(div_mod_eq (Finset.mem_range.mp hj)).1, (div_mod_eq (Finset.mem_range.mp hj)).2, Finset.sum_mul]

example : reduceSum 0 ⟨[2, 3], [1, 5, 3, 4, 5, (6 : ℚ)]⟩ ⟨[], []⟩ = ok ⟨[3], [5, 10, 9]⟩ ∧
    reduceSumBack 1 ⟨[2, 3], [1, 5, 3, 4, 5, (6 : ℚ)]⟩ ⟨[2], [7, 8]⟩ ⟨[], []⟩ = ok ⟨[2, 3], [7, 7, 7, 8, 8, 8]⟩ := by decide +kernel

/-! ### C48 -/

/-- The two result buffers of an element-wise loop. -/
theorem pairLoop_ok {N : Nat} {body : Nat → List α × List α → Res (List α × List α)} {A B : List α} {f h : Nat → α}
    (hA : A.length = N) (hB : B.length = N)
    (hb : ∀ i st, i < N → body i st = do
      let x ← wr st.1 i (f i)
      let y ← wr st.2 i (h i)
      pure (x, y)) :
    ∃ A' B', loop N body (A, B) = ok (A', B') ∧ (A'.length = N ∧ ∀ p, p < N → A'[p]? = some (f p)) ∧
      (B'.length = N ∧ ∀ p, p < N → B'[p]? = some (h p)) := by
  obtain ⟨A', a1, a2, a3⟩ := fill1 (n := N) (body := fun i o => wr o i (f i)) (g := f) (fun _ _ _ _ => rfl) hA
  obtain ⟨B', b1, b2, b3⟩ := fill1 (n := N) (body := fun i o => wr o i (h i)) (g := h) (fun _ _ _ _ => rfl) hB
  refine ⟨A', B', loop_pair ?_ a1 b1, ⟨a2, a3⟩, ⟨b2, b3⟩⟩
  intro i s t s1 t1 hi hf hg
  rw [hb i _ hi]
  dsimp only
  rw [hf, bind_ok, hg, bind_ok]; rfl

/-- `maximum` and `minimum` forward: the mask says which operand was selected. -/
theorem extFwd_ok [Zero α] [One α] [LinearOrder α] (l r cache mask : Ten α) (s : List Nat) (a b : List Nat → α) (hl : l.Has s a) (hr : r.Has s b) :
    (∃ u m, maximumFwd l r cache mask = ok (u, m) ∧ u.Has s (fun is => max (a is) (b is)) ∧
      m.Has s (fun is => if b is < a is then 1 else 0)) ∧
    (∃ u m, minimumFwd l r cache mask = ok (u, m) ∧ u.Has s (fun is => min (a is) (b is)) ∧
      m.Has s (fun is => if b is < a is then 0 else 1)) := by
  have hA : (resizeV cache s).data.length = size s := resizeV_length ..
  have hB : (resizeV mask s).data.length = size s := resizeV_length ..
  constructor
  · unfold maximumFwd
    rw [assert_true (by rw [hl.1, hr.1]), bind_ok, hl.1, hl.2.1]
    obtain ⟨A', B', h1, h2, h3⟩ := pairLoop_ok (N := size s) (A := (resizeV cache s).data) (B := (resizeV mask s).data)
      (f := fun p => max (a (unflat s p)) (b (unflat s p))) (h := fun p => if b (unflat s p) < a (unflat s p) then (1 : α) else 0)
      (body := fun i (st : List α × List α) => do
        let x ← rd l.data i
        let y ← rd r.data i
        let m ← wr st.2 i (if y < x then 1 else 0)
        let o ← wr st.1 i (if y < x then x else y)
        pure (o, m)) hA hB (by
        intro i st hi
        rw [rd_ok (hl.2.pos hi), bind_ok, rd_ok (hr.2.pos hi), bind_ok]
        have e : (if b (unflat s i) < a (unflat s i) then a (unflat s i) else b (unflat s i)) = max (a (unflat s i)) (b (unflat s i)) := by
          split
          · rename_i h; exact (max_eq_left (le_of_lt h)).symm
          · rename_i h; exact (max_eq_right (not_lt.mp h)).symm
        rw [e]
        unfold wr
        split <;> split <;> rfl)
    rw [h1, bind_ok]
    exact ⟨⟨s, A'⟩, ⟨s, B'⟩, rfl, ⟨rfl, isT_of_pos h2.1 h2.2 (fun is hv => by rw [unflat_flat hv])⟩,
      ⟨rfl, isT_of_pos h3.1 h3.2 (fun is hv => by rw [unflat_flat hv])⟩⟩
  · unfold minimumFwd
    rw [assert_true (by rw [hl.1, hr.1]), bind_ok, hl.1, hl.2.1]
    obtain ⟨A', B', h1, h2, h3⟩ := pairLoop_ok (N := size s) (A := (resizeV cache s).data) (B := (resizeV mask s).data)
      (f := fun p => min (a (unflat s p)) (b (unflat s p))) (h := fun p => if b (unflat s p) < a (unflat s p) then (0 : α) else 1)
      (body := fun i (st : List α × List α) => do
        let x ← rd l.data i
        let y ← rd r.data i
        let m ← wr st.2 i (if y < x then 0 else 1)
        let o ← wr st.1 i (if y < x then y else x)
        pure (o, m)) hA hB (by
        intro i st hi
        rw [rd_ok (hl.2.pos hi), bind_ok, rd_ok (hr.2.pos hi), bind_ok]
        have e : (if b (unflat s i) < a (unflat s i) then b (unflat s i) else a (unflat s i)) = min (a (unflat s i)) (b (unflat s i)) := by
          split
          · rename_i h; exact (min_eq_right (le_of_lt h)).symm
          · rename_i h; exact (min_eq_left (not_lt.mp h)).symm
        rw [e]
        unfold wr
        split <;> split <;> rfl)
    rw [h1, bind_ok]
    exact ⟨⟨s, A'⟩, ⟨s, B'⟩, rfl, ⟨rfl, isT_of_pos h2.1 h2.2 (fun is hv => by rw [unflat_flat hv])⟩,
      ⟨rfl, isT_of_pos h3.1 h3.2 (fun is hv => by rw [unflat_flat hv])⟩⟩

theorem splitGrad_ok [Zero α] (toLeft : α → Bool) (l r grad mask cl cr : Ten α) (s : List Nat) (g m : List Nat → α)
    (hl : l.shape = s) (hr : r.shape = s) (hg : grad.Has s g) (hm : mask.Has s m) :
    ∃ dl dr, splitGrad toLeft l r grad mask cl cr = ok (dl, dr) ∧ dl.Has s (fun is => if toLeft (m is) = true then g is else 0) ∧
      dr.Has s (fun is => if toLeft (m is) = true then 0 else g is) := by
  unfold splitGrad
  obtain ⟨A', B', h1, h2, h3⟩ := pairLoop_ok (N := size s) (A := (resizeV cl s).data) (B := (resizeV cr s).data)
    (f := fun p => if toLeft (m (unflat s p)) = true then g (unflat s p) else 0)
    (h := fun p => if toLeft (m (unflat s p)) = true then 0 else g (unflat s p))
    (body := fun i (st : List α × List α) => do
      let g ← rd grad.data i
      let m ← rd mask.data i
      let a ← wr st.1 i (if toLeft m = true then g else 0)
      let b ← wr st.2 i (if toLeft m = true then 0 else g)
      pure (a, b)) (resizeV_length ..) (resizeV_length ..) (by
      intro i st hi
      rw [rd_ok (hg.2.pos hi), bind_ok, rd_ok (hm.2.pos hi), bind_ok])
  rw [hl, hr, hg.2.1, h1, bind_ok]
  exact ⟨⟨s, A'⟩, ⟨s, B'⟩, rfl, ⟨rfl, isT_of_pos h2.1 h2.2 (fun is hv => by rw [unflat_flat hv])⟩,
    ⟨rfl, isT_of_pos h3.1 h3.2 (fun is hv => by rw [unflat_flat hv])⟩⟩

/-- C48: `maximum( a, b )` is the larger element, and backward gives each element's gradient to the operand whose value was selected
(to the second one in case of a tie) and zero to the other. -/
theorem maximum_routes [Field α] [LinearOrder α] [IsStrictOrderedRing α] (l r cache mask grad cl cr : Ten α) (s : List Nat)
    (a b g : List Nat → α) (hl : l.Has s a) (hr : r.Has s b) (hg : grad.Has s g) :
    ∃ u m dl dr, maximumFwd l r cache mask = ok (u, m) ∧ u.Has s (fun is => max (a is) (b is)) ∧
      maximumBack l r grad m cl cr = ok (dl, dr) ∧ dl.Has s (fun is => if b is < a is then g is else 0) ∧
      dr.Has s (fun is => if b is < a is then 0 else g is) := by
  obtain ⟨⟨u, m, h1, h2, h3⟩, -⟩ := extFwd_ok l r cache mask s a b hl hr
  obtain ⟨dl, dr, h4, h5, h6⟩ := splitGrad_ok (fun m => decide (1 / 2 < m)) l r grad m cl cr s g _ hl.1 hr.1 hg h3
  refine ⟨u, m, dl, dr, h1, h2, h4, h5.congr (fun is _ => ?_), h6.congr (fun is _ => ?_)⟩
  all_goals
    by_cases h : b is < a is
    · rw [if_pos h, if_pos (by simp; norm_num), if_pos h]
    · rw [if_neg h, if_neg (by simp), if_neg h]

example : (maximumFwd ⟨[2], [1, (5 : ℚ)]⟩ ⟨[2], [3, 4]⟩ ⟨[], []⟩ ⟨[], []⟩ >>= fun r =>
    maximumBack ⟨[2], [1, (5 : ℚ)]⟩ ⟨[2], [3, 4]⟩ ⟨[2], [7, 8]⟩ r.2 ⟨[], []⟩ ⟨[], []⟩) = ok (⟨[2], [0, 8]⟩, ⟨[2], [7, 0]⟩) := by
  decide +kernel

/-- C48: `minimum( a, b )` is the smaller element, and its two gradients add up to the gradient.
Missing: that the gradient goes to the selected operand, which is false (see `minimum_routes_violated`). -/
theorem minimum_routes_partial [Field α] [LinearOrder α] [IsStrictOrderedRing α] (l r cache mask grad cl cr : Ten α) (s : List Nat)
    (a b g : List Nat → α) (hl : l.Has s a) (hr : r.Has s b) (hg : grad.Has s g) :
    ∃ u m dl dr x y, minimumFwd l r cache mask = ok (u, m) ∧ u.Has s (fun is => min (a is) (b is)) ∧
      minimumBack l r grad m cl cr = ok (dl, dr) ∧ dl.Has s x ∧ dr.Has s y ∧ ∀ is, x is + y is = g is := by
  obtain ⟨-, ⟨u, m, h1, h2, h3⟩⟩ := extFwd_ok l r cache mask s a b hl hr
  obtain ⟨dl, dr, h4, h5, h6⟩ := splitGrad_ok (fun m => decide (m < 1 / 2)) l r grad m cl cr s g _ hl.1 hr.1 hg h3
  refine ⟨u, m, dl, dr, _, _, h1, h2, h4, h5, h6, fun is => ?_⟩
  generalize decide ((if b is < a is then (0 : α) else 1) < 1 / 2) = c
  cases c <;> simp

example : minimumFwd ⟨[2], [1, (5 : ℚ)]⟩ ⟨[2], [3, 4]⟩ ⟨[], []⟩ ⟨[], []⟩ = ok (⟨[2], [1, 4]⟩, ⟨[2], [1, 0]⟩) := by decide +kernel

/-- C48 is violated for every pair of tensors: where the second operand is smaller the first one gets the gradient, and where the
first operand is smaller (or equal) the second one gets it. -/
theorem minimum_routes_violated [Field α] [LinearOrder α] [IsStrictOrderedRing α] (l r cache mask grad cl cr : Ten α) (s : List Nat)
    (a b g : List Nat → α) (hl : l.Has s a) (hr : r.Has s b) (hg : grad.Has s g) :
    ∃ u m dl dr, minimumFwd l r cache mask = ok (u, m) ∧ minimumBack l r grad m cl cr = ok (dl, dr) ∧
      dl.Has s (fun is => if b is < a is then g is else 0) ∧ dr.Has s (fun is => if b is < a is then 0 else g is) := by
  obtain ⟨-, ⟨u, m, h1, h2, h3⟩⟩ := extFwd_ok l r cache mask s a b hl hr
  obtain ⟨dl, dr, h4, h5, h6⟩ := splitGrad_ok (fun m => decide (m < 1 / 2)) l r grad m cl cr s g _ hl.1 hr.1 hg h3
  refine ⟨u, m, dl, dr, h1, h4, h5.congr (fun is _ => ?_), h6.congr (fun is _ => ?_)⟩
  all_goals
    by_cases h : b is < a is
    · rw [if_pos h, if_pos (by simp), if_pos h]
    · rw [if_neg h, if_neg (by simp; norm_num), if_neg h]

example : (minimumFwd ⟨[1], [(1 : ℚ)]⟩ ⟨[1], [3]⟩ ⟨[], []⟩ ⟨[], []⟩ >>= fun r =>
    minimumBack ⟨[1], [(1 : ℚ)]⟩ ⟨[1], [3]⟩ ⟨[1], [7]⟩ r.2 ⟨[], []⟩ ⟨[], []⟩) = ok (⟨[1], [0]⟩, ⟨[1], [7]⟩) := by
  decide +kernel

end Verif.Pool
