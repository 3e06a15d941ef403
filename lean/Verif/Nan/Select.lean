import Verif.Nan.Props
/-!
# C119: largest and smallest elements

`max`, `min` of a tensor, `reduce_max`, `reduce_min`, `max_pooling_2d`: which element is picked when some are NaN.
-/
namespace Verif.Nan
open Verif Res Data Tensor Fp

variable {F : Type} [Floats F]

/-- One step of `max( tsor )` (`R` is `<`) and `min( tsor )` (`R` is `>`). -/
def pick (R : F → F → Prop) [DecidableRel R] (acc x : F) : F := if R x acc then acc else x

/-- What is needed of `R`. -/
structure Order (R : F → F → Prop) : Prop where
  num : ∀ a b, R a b → isNan a = false ∧ isNan b = false
  irrefl : ∀ a, ¬ R a a
  trans : ∀ a b c, R a b → R b c → R a c
  not_trans : ∀ a b c, isNan b = false → ¬ R a b → ¬ R b c → ¬ R a c

theorem order_lt : Order (fun a b : F => a < b) :=
  ⟨Floats.lt_num, Floats.lt_irrefl, Floats.lt_trans, Floats.not_lt_trans⟩

theorem order_gt : Order (fun a b : F => b < a) :=
  ⟨fun a b h => (Floats.lt_num b a h).symm, Floats.lt_irrefl, fun a b c h h' => Floats.lt_trans c b a h' h, fun a b c hb h h' => Floats.not_lt_trans c b a hb h' h⟩

/-- From an accumulator on, over elements none of which is NaN. -/
theorem foldl_pick {R : F → F → Prop} [DecidableRel R] (hR : Order R) (s : List F) (hs : ∀ y ∈ s, isNan y = false) (m : F) (hm : isNan m = false) :
    (s.foldl (pick R) m ∈ m :: s) ∧ ∀ y ∈ m :: s, ¬ R (s.foldl (pick R) m) y := by
  induction s generalizing m with
  | nil => exact ⟨by simp, fun y hy => by rw [List.mem_singleton.mp hy]; exact hR.irrefl _⟩
  | cons x s ih =>
    have hx := hs x (by simp)
    have hp : isNan (pick R m x) = false := by unfold pick; split <;> assumption
    obtain ⟨h1, h2⟩ := ih (fun y hy => hs y (by simp [hy])) (pick R m x) hp
    rw [List.foldl_cons]
    refine ⟨?_, fun y hy => ?_⟩
    · rcases List.mem_cons.mp h1 with h | h
      · rw [h]; unfold pick; split <;> simp
      · simp [h]
    · have h3 := h2 (pick R m x) (by simp)
      have h4 : ¬ R (pick R m x) m ∧ ¬ R (pick R m x) x := by
        unfold pick
        split
        · next h => exact ⟨hR.irrefl _, fun h' => hR.irrefl _ (hR.trans _ _ _ h h')⟩
        · next h => exact ⟨h, hR.irrefl _⟩
      rcases List.mem_cons.mp hy with h | h
      · rw [h]; exact hR.not_trans _ _ _ hp h3 h4.1
      · rcases List.mem_cons.mp h with h | h
        · rw [h]; exact hR.not_trans _ _ _ hp h3 h4.2
        · exact h2 y (by simp [h])

theorem foldl_nan {R : F → F → Prop} [DecidableRel R] (hR : Order R) (p s : List F) (x m : F) (hx : isNan x = true) (hs : ∀ y ∈ s, isNan y = false) :
    (s = [] → (p ++ x :: s).foldl (pick R) m = x) ∧
    (s ≠ [] → (p ++ x :: s).foldl (pick R) m ∈ s ∧ ∀ y ∈ s, ¬ R ((p ++ x :: s).foldl (pick R) m) y) := by
  have e : ∀ m, pick R m x = x := fun m => if_neg (fun h => by rw [(hR.num _ _ h).1] at hx; contradiction)
  rw [List.foldl_append, List.foldl_cons, e]
  refine ⟨fun h => by rw [h]; rfl, fun h => ?_⟩
  cases s with
  | nil => exact absurd rfl h
  | cons y s =>
    rw [List.foldl_cons, show pick R x y = y from if_neg (fun h => by rw [(hR.num _ _ h).2] at hx; contradiction)]
    exact foldl_pick hR s (fun z hz => hs z (by simp [hz])) y (hs y (by simp))

theorem foldl_loop {R : F → F → Prop} [DecidableRel R] (d : List F) (m : F) :
    loop d.length (fun i acc => do let x ← rd d i; pure (if R x acc then acc else x)) m = ok (d.foldl (pick R) m) := by
  obtain ⟨x, h1, h2⟩ := loop_inv (n := d.length) (body := fun i acc => do let x ← rd d i; pure (if R x acc then acc else x)) (s := m)
    (fun i acc => acc = (d.take i).foldl (pick R) m) rfl (by
      intro i acc hi e
      refine ⟨_, by rw [rd_ok (List.getElem?_eq_getElem hi), bind_ok]; rfl, ?_⟩
      rw [List.take_succ_eq_append_getElem hi, List.foldl_append, e]; rfl)
  rw [h1, h2, List.take_length]

/-- C119 is violated by `max( tsor )` and `min( tsor )`: with a NaN in the tensor, after which come elements that are not, the result is the largest
(smallest) of the elements after it, whatever stands before; only if the last element is NaN, is the result. -/
theorem extremes_hide_nan_violated (t : Ten F) (p s : List F) (x m M : F) (ht : t.data = p ++ x :: s) (hx : isNan x = true) (hs : ∀ y ∈ s, isNan y = false) :
    ∃ a b, maxAll m t = ok a ∧ minAll M t = ok b ∧ (s = [] → a = x ∧ b = x) ∧
      (s ≠ [] → isNan a = false ∧ isNan b = false ∧ (a ∈ s ∧ ∀ y ∈ s, ¬ a < y) ∧ (b ∈ s ∧ ∀ y ∈ s, ¬ y < b)) := by
  have hl : t.data.length ≠ 0 := by rw [ht]; simp
  refine ⟨t.data.foldl (pick (fun a b => a < b)) m, t.data.foldl (pick (fun a b => b < a)) M, ?_, ?_, fun h => ?_, fun h => ?_⟩
  · unfold maxAll
    rw [assert_true hl, bind_ok]
    exact foldl_loop (R := fun a b => a < b) t.data m
  · unfold minAll
    rw [assert_true hl, bind_ok]
    exact foldl_loop (R := fun a b => b < a) t.data M
  · rw [ht]; exact ⟨(foldl_nan order_lt p s x m hx hs).1 h, (foldl_nan order_gt p s x M hx hs).1 h⟩
  · rw [ht]
    have h1 := (foldl_nan order_lt p s x m hx hs).2 h
    have h2 := (foldl_nan order_gt p s x M hx hs).2 h
    exact ⟨hs _ h1.1, hs _ h2.1, h1, h2⟩

/-- Infinity, NaN, zero: the maximum is zero. -/
example : maxAll (0 : Num float32) ⟨[3], [.inf false, .nan, 0]⟩ = ok 0 := by
  obtain ⟨a, b, h1, _, _, h4⟩ := extremes_hide_nan_violated (⟨[3], [.inf false, .nan, 0]⟩ : Ten (Num float32)) [.inf false] [0] .nan 0 0 rfl rfl (by
    intro y hy; rw [List.mem_singleton.mp hy]; rfl)
  rw [h1, List.mem_singleton.mp (h4 (by simp)).2.2.1.1]

/-! ### reduce_max, reduce_min -/

theorem colBest_nan {better : F → F → Bool} (hR : Order (fun a b => better a b = true)) {d : List F} {P n S : Nat} {f : Nat → Nat → Nat → F}
    (hd : Is3 d P n S f) {x j : Nat} (hx : x < P) (hj : j < S) (hn : 0 < n) :
    ∃ k, Pool.colBest better d (x * (n * S)) n S j = ok k ∧ k < n ∧ (isNan (f x 0 j) = true → k = 0) ∧
      (isNan (f x 0 j) = false → isNan (f x k j) = false ∧ ∀ i, i < n → better (f x i j) (f x k j) = false) := by
  have hrd : ∀ i, i < n → rd d (x * (n * S) + View.colPos S j i) = ok (f x i j) := by
    intro i hi
    rw [Pool.colPos_eq, show x * (n * S) + (i * S + j) = (x * n + i) * S + j by ring, hd.rd hx hi hj]
  unfold Pool.colBest
  rw [require_true hn, bind_ok, hrd 0 hn, bind_ok]
  obtain ⟨s, h1, h2⟩ := loop_inv (n := n)
    (body := fun i (s : F × Nat) => do
      let x ← rd d (x * (n * S) + View.colPos S j i)
      if better x s.1 = true then pure (x, i) else pure s) (s := (f x 0 j, 0))
    (fun i s => s.2 < n ∧ s.1 = f x s.2 j ∧ (isNan (f x 0 j) = true → s.2 = 0) ∧
      (isNan (f x 0 j) = false → isNan s.1 = false ∧ ∀ l, l < i → better (f x l j) s.1 = false))
    ⟨hn, rfl, fun _ => rfl, fun h => ⟨h, fun l hl => by omega⟩⟩ (by
      rintro i ⟨m, k⟩ hi ⟨q1, q2, q3, q4⟩
      rw [hrd i hi, bind_ok]
      simp only at q1 q2 q3 q4 ⊢
      by_cases hb : better (f x i j) m = true
      · rw [if_pos hb]
        have hm := hR.num _ _ hb
        refine ⟨_, rfl, hi, rfl, fun hnan => ?_, fun hnum => ⟨hm.1, fun l hl => ?_⟩⟩
        · rw [q2, q3 hnan, hnan] at hm; simp at hm
        · by_cases e : l = i
          · rw [e]; exact Bool.eq_false_iff.mpr (hR.irrefl _)
          · exact Bool.eq_false_iff.mpr (fun h' => Bool.eq_false_iff.mp ((q4 hnum).2 l (by omega)) (hR.trans _ _ _ h' hb))
      · rw [if_neg hb]
        refine ⟨(m, k), rfl, q1, q2, q3, fun hnum => ⟨(q4 hnum).1, fun l hl => ?_⟩⟩
        by_cases e : l = i
        · rw [e]; exact Bool.eq_false_iff.mpr hb
        · exact (q4 hnum).2 l (by omega))
  obtain ⟨m, k⟩ := s
  obtain ⟨q1, q2, q3, q4⟩ := h2
  simp only at q1 q2 q3 q4
  rw [q2] at q4
  exact ⟨k, by rw [h1, bind_ok]; rfl, q1, q3, q4⟩

/-- `reduce_max` and `reduce_min` along an axis, when elements may be NaN: the result for a column is NaN exactly if its first element is; otherwise it is
an element of the column that no other one beats, NaN being left out. -/
theorem reduce_nan_aux {better : F → F → Bool} (hR : Order (fun a b => better a b = true)) (axis : Nat) (pre post : List Nat) (n : Nat) (t cache : Ten F)
    (index : Ten Nat) (a : List Nat → F) (ht : t.Has (pre ++ n :: post) a) (hax : Pool.Names axis pre post) (hn : 0 < n) :
    ∃ (u : Ten F) (idx : Ten Nat) (v : List Nat → F), Pool.reduceExt better axis t cache index = ok (u, idx) ∧ u.Has (pre ++ post) v ∧
      ∀ ip iq, ValidIdx pre ip → ValidIdx post iq →
        (isNan (a (ip ++ 0 :: iq)) = true → v (ip ++ iq) = a (ip ++ 0 :: iq)) ∧
        (isNan (a (ip ++ 0 :: iq)) = false → isNan (v (ip ++ iq)) = false ∧ (∃ i, i < n ∧ v (ip ++ iq) = a (ip ++ i :: iq)) ∧
          ∀ i, i < n → better (a (ip ++ i :: iq)) (v (ip ++ iq)) = false) := by
  have hg : (⟨pre ++ post, List.replicate (size (pre ++ post)) (0 : F)⟩ : Ten F).Has (pre ++ post) (fun _ => 0) :=
    ⟨rfl, by simp, fun is hv => by
      dsimp only
      rw [List.getElem?_replicate, if_pos (flat_lt hv)]⟩
  obtain ⟨u, d, idx, k, h1, h2, _, _, h5⟩ := Pool.reduceExt_sel (better := better)
    (Q := fun f k => (isNan (f 0) = true → k = 0) ∧ (isNan (f 0) = false → isNan (f k) = false ∧ ∀ i, i < n → better (f i) (f k) = false))
    (fun d P S f x j h3 hx hj => colBest_nan hR h3 hx hj hn) axis pre post t cache _ ⟨[], []⟩ index a _ ht hg hax
  refine ⟨u, idx, _, h1, h2, fun ip iq hp hq => ?_⟩
  obtain ⟨q1, q2, q3⟩ := h5 ip iq hp hq
  rw [List.take_left' hp.length_eq, List.drop_left' hp.length_eq]
  exact ⟨fun h => by rw [q2 h], fun h => ⟨(q3 h).1, ⟨_, q1, rfl⟩, (q3 h).2⟩⟩

/-- C119 is violated by `reduce_max( axis )` and `reduce_min( axis )`: a column whose first element is not NaN gives a result that is not NaN, the largest
(smallest) of its numbers, however many of them are NaN.  A column that begins with NaN gives NaN. -/
theorem reduce_hides_nan_violated (axis : Nat) (pre post : List Nat) (n : Nat) (t cache : Ten F) (index : Ten Nat) (a : List Nat → F)
    (ht : t.Has (pre ++ n :: post) a) (hax : Pool.Names axis pre post) (hn : 0 < n) :
    ∃ (u w : Ten F) (idx idx' : Ten Nat) (v y : List Nat → F),
      Pool.reduceExt (fun x y => decide (y < x)) axis t cache index = ok (u, idx) ∧ u.Has (pre ++ post) v ∧
      Pool.reduceExt (fun x y => decide (x < y)) axis t cache index = ok (w, idx') ∧ w.Has (pre ++ post) y ∧
      ∀ ip iq, ValidIdx pre ip → ValidIdx post iq →
        (isNan (a (ip ++ 0 :: iq)) = true → isNan (v (ip ++ iq)) = true ∧ isNan (y (ip ++ iq)) = true) ∧
        (isNan (a (ip ++ 0 :: iq)) = false → isNan (v (ip ++ iq)) = false ∧ isNan (y (ip ++ iq)) = false ∧
          (∃ i, i < n ∧ v (ip ++ iq) = a (ip ++ i :: iq)) ∧ (∃ i, i < n ∧ y (ip ++ iq) = a (ip ++ i :: iq)) ∧
          ∀ i, i < n → ¬ v (ip ++ iq) < a (ip ++ i :: iq) ∧ ¬ a (ip ++ i :: iq) < y (ip ++ iq)) := by
  obtain ⟨u, idx, v, h1, h2, h3⟩ := reduce_nan_aux (better := fun x y => decide (y < x)) (by simpa only [decide_eq_true_eq] using order_gt (F := F))
    axis pre post n t cache index a ht hax hn
  obtain ⟨w, idx', y, k1, k2, k3⟩ := reduce_nan_aux (better := fun x y => decide (x < y)) (by simpa only [decide_eq_true_eq] using order_lt (F := F))
    axis pre post n t cache index a ht hax hn
  refine ⟨u, w, idx, idx', v, y, h1, h2, k1, k2, fun ip iq hp hq => ?_⟩
  obtain ⟨p1, p2⟩ := h3 ip iq hp hq
  obtain ⟨q1, q2⟩ := k3 ip iq hp hq
  refine ⟨fun h => ⟨by rw [p1 h]; exact h, by rw [q1 h]; exact h⟩, fun h => ?_⟩
  obtain ⟨r1, r2, r3⟩ := p2 h
  obtain ⟨s1, s2, s3⟩ := q2 h
  exact ⟨r1, s1, r2, s2, fun i hi => ⟨by simpa using r3 i hi, by simpa using s3 i hi⟩⟩

/-- A column of zero and NaN: the results are zero. -/
example : ∃ (u w : Ten (Num float32)) (i j : Ten Nat),
    Pool.reduceExt (fun x y => decide (y < x)) 0 (⟨[2], [0, .nan]⟩ : Ten (Num float32)) ⟨[], []⟩ ⟨[], []⟩ = ok (u, i) ∧ hasNan u = false ∧
    Pool.reduceExt (fun x y => decide (x < y)) 0 (⟨[2], [0, .nan]⟩ : Ten (Num float32)) ⟨[], []⟩ ⟨[], []⟩ = ok (w, j) ∧ hasNan w = false :=
  ⟨⟨[], [0]⟩, ⟨[], [0]⟩, ⟨[], [0]⟩, ⟨[], [0]⟩, rfl, rfl, rfl, rfl⟩

/-! ### max_pooling_2d -/

theorem maxScan_nan {d : List F} {BS R C CH s b r c ch : Nat} {a : Nat → Nat → Nat → Nat → F}
    (hd : Is4 d BS R C CH a) (hs : 0 < s) (hb : b < BS) (hr : r < R / s) (hc : c < C / s) (hch : ch < CH) :
    ∃ k : Nat × Nat, Pool.maxScan d BS R C CH s b r c ch = ok k ∧ Pool.InWindow s r c k.1 k.2 ∧
      (isNan (a b (r * s) (c * s) ch) = true → k = (r * s, c * s)) ∧
      (isNan (a b (r * s) (c * s) ch) = false → isNan (a b k.1 k.2 ch) = false ∧ ∀ y x, Pool.InWindow s r c y x → ¬ a b k.1 k.2 ch < a b y x ch) := by
  unfold Pool.maxScan
  rw [Pool.loopFrom_add]
  obtain ⟨k, h1, h2⟩ := loop_inv (n := s) (s := (r * s, c * s))
    (body := fun i m => loopFrom (c * s) (c * s + s) (fun x (m : Nat × Nat) => do
      let v ← rd d (View.at4 BS R C CH b (r * s + i) x ch)
      let w ← rd d (View.at4 BS R C CH b m.1 m.2 ch)
      if w < v then ok (r * s + i, x) else ok m) m)
    (fun i m => Pool.InWindow s r c m.1 m.2 ∧ (isNan (a b (r * s) (c * s) ch) = true → m = (r * s, c * s)) ∧
      (isNan (a b (r * s) (c * s) ch) = false → isNan (a b m.1 m.2 ch) = false ∧
        ∀ y x, Pool.InWindow s r c y x → y < r * s + i → ¬ a b m.1 m.2 ch < a b y x ch))
    ⟨⟨le_refl _, by simp only; omega, le_refl _, by simp only; omega⟩, fun _ => rfl, fun h => ⟨h, fun y x h hy => absurd h.1 (by omega)⟩⟩
    (by
      rintro i m hi ⟨hw, hnan, hnum⟩
      rw [Pool.loopFrom_add]
      obtain ⟨k, h1, h2⟩ := loop_inv (n := s) (s := m)
        (body := fun j (m : Nat × Nat) => do
          let v ← rd d (View.at4 BS R C CH b (r * s + i) (c * s + j) ch)
          let w ← rd d (View.at4 BS R C CH b m.1 m.2 ch)
          if w < v then ok (r * s + i, c * s + j) else ok m)
        (fun j m => Pool.InWindow s r c m.1 m.2 ∧ (isNan (a b (r * s) (c * s) ch) = true → m = (r * s, c * s)) ∧
          (isNan (a b (r * s) (c * s) ch) = false → isNan (a b m.1 m.2 ch) = false ∧
            ∀ y x, Pool.InWindow s r c y x → (y < r * s + i ∨ y = r * s + i ∧ x < c * s + j) → ¬ a b m.1 m.2 ch < a b y x ch))
        (by
          refine ⟨hw, hnan, fun h => ⟨(hnum h).1, fun y x hyx hy => ?_⟩⟩
          rcases hy with hy | ⟨_, hx⟩
          · exact (hnum h).2 y x hyx hy
          · exact absurd hyx.2.2.1 (by omega))
        (by
          rintro j m hj ⟨hw, hnan, hnum⟩
          have e1 := Pool.win_lt hr hi
          have e2 := Pool.win_lt hc hj
          have e3 := hw.lt hr hc
          rw [Pool.at4_eq, Pool.at4_eq, hd.rd hb e1 e2 hch, bind_ok, hd.rd hb e3.1 e3.2 hch, bind_ok]
          by_cases hv : a b m.1 m.2 ch < a b (r * s + i) (c * s + j) ch
          · rw [if_pos hv]
            have hm := Floats.lt_num _ _ hv
            refine ⟨_, rfl, ⟨by simp only; omega, by simp only; omega, by simp only; omega, by simp only; omega⟩, fun h => ?_, fun h => ⟨hm.2, fun y x hyx hy => ?_⟩⟩
            · rw [hnan h, h] at hm; simp at hm
            · dsimp only
              by_cases he : y = r * s + i ∧ x = c * s + j
              · rw [he.1, he.2]; exact Floats.lt_irrefl _
              · exact fun h' => (hnum h).2 y x hyx (by omega) (Floats.lt_trans _ _ _ hv h')
          · rw [if_neg hv]
            refine ⟨m, rfl, hw, hnan, fun h => ⟨(hnum h).1, fun y x hyx hy => ?_⟩⟩
            by_cases he : y = r * s + i ∧ x = c * s + j
            · rw [he.1, he.2]; exact hv
            · exact (hnum h).2 y x hyx (by omega))
      refine ⟨k, h1, h2.1, h2.2.1, fun h => ⟨(h2.2.2 h).1, fun y x hyx hy => (h2.2.2 h).2 y x hyx ?_⟩⟩
      have := hyx.2.2.2
      omega)
  exact ⟨k, h1, h2.1, h2.2.1, fun h => ⟨(h2.2.2 h).1, fun y x hyx => (h2.2.2 h).2 y x hyx hyx.2.1⟩⟩

/-- C119 is violated by `max_pooling_2d`: a window whose first element is not NaN gives a result that is not NaN, the largest of its numbers, however many
are NaN.  A window that begins with NaN gives NaN. -/
theorem max_pool_hides_nan_violated (s BS R C CH : Nat) (t mask cache : Ten F) (a : List Nat → F) (hs : 1 < s) (ht : t.Has [BS, R, C, CH] a) :
    ∃ (u m : Ten F) (v : List Nat → F), Pool.maxPool s t mask cache = ok (u, m) ∧ u.Has [BS, R / s, C / s, CH] v ∧
      ∀ b r c ch, b < BS → r < R / s → c < C / s → ch < CH →
        (isNan (a [b, r * s, c * s, ch]) = true → isNan (v [b, r, c, ch]) = true) ∧
        (isNan (a [b, r * s, c * s, ch]) = false → isNan (v [b, r, c, ch]) = false ∧
          (∃ y x, Pool.InWindow s r c y x ∧ v [b, r, c, ch] = a [b, y, x, ch]) ∧
          ∀ y x, Pool.InWindow s r c y x → ¬ v [b, r, c, ch] < a [b, y, x, ch]) := by
  obtain ⟨u, m, o, pos, h1, h2, h3, -, -, h6, -, -⟩ := Pool.maxPool_sel (mask := mask) (cache := cache) hs
    (Q := fun r c v k => (isNan (v (r * s) (c * s)) = true → k = (r * s, c * s)) ∧
      (isNan (v (r * s) (c * s)) = false → isNan (v k.1 k.2) = false ∧ ∀ y x, Pool.InWindow s r c y x → ¬ v k.1 k.2 < v y x))
    (fun b r c ch hd hb hr hc hch => maxScan_nan hd (by omega) hb hr hc hch) ht
  refine ⟨u, m, fun is => match is with | [b, r, c, ch] => o b r c ch | _ => o 0 0 0 0, h1, ⟨h2, is4_iff.mpr h3⟩, ?_⟩
  intro b r c ch hb hr hc hch
  obtain ⟨⟨e1, e2, e3⟩, e4⟩ := h6 b r c ch hb hr hc hch
  dsimp only
  rw [e4]
  exact ⟨fun h => by rw [e2 h]; exact h, fun h => ⟨(e3 h).1, ⟨_, _, e1, rfl⟩, (e3 h).2⟩⟩

/-- A window with zero first and NaN otherwise is pooled to zero; with NaN first, to NaN. -/
example : (Pool.maxPool 2 (⟨[1, 2, 4, 1], [0, .nan, .nan, 0, .nan, .nan, 0, 0]⟩ : Ten (Num float32)) ⟨[], []⟩ ⟨[], []⟩ >>= fun r => ok r.1) =
    ok ⟨[1, 1, 2, 1], [0, .nan]⟩ := rfl

end Verif.Nan
