import Verif.Alias.Props
import Verif.Pool.Max
/-!
# Operators made by one factory (C77)

`max_pooling_2d( s )`, `average_pooling_2d( s )`, `up_sampling_2d( s )`, `zero_padding_2d( … )`, `dropout( r )`, … create their caches
(`std::make_shared<std::any>()`) and return a lambda holding them (include/operation.hpp lines 2051-2069, 2076-2079, 2216-2219, 2848-2851,
1888-1892); every application of the lambda to an expression makes an operator around the *same* caches.  In `Verif.Alias` this says that the
two operators have one storage: `opc i = opc j`.
-/
namespace Verif.Alias
open Verif Res Tensor Data Graph

variable {α : Type}

/-- C77 is false of the code: with `f` the result of one factory call, evaluating `g( f(x), f(y) )` combines the result for `y` with itself
(under the shape of the result for `x`), whatever the inputs, `f` and `g` are. -/
theorem factory_shared_cache_violated [Zero α] [Add α] (kind : Nat → Kind) (i j m p q : Nat) (op : UOp α) (g : BOp α) (hki : kind i = .own) (hkj : kind j = .own) (hkm : kind m ≠ .plus)
    (hij : i ≠ j) (him : i ≠ m) (hjm : j ≠ m) (L D : Nat → Ten α) (s : HSt α) (hl : Layout [i, m] L D s) (hone : s.opc j = s.opc i)
    (sp : (L p).data ≠ []) (sq : (L q).data ≠ []) (y1 y2 r : Ten α) (h1 : op.fwd (L p) = ok y1) (h2 : op.fwd (L q) = ok y2) (hr : g.fwd ⟨y1.shape, y2.data⟩ y2 = ok r) :
    ∃ x s', hrun kind (.bin m g (.un i op (.leaf p)) (.un j op (.leaf q))) s = ok (x, s') ∧ denote s'.heap x = some r := by
  have hl' : Layout [i, m] L D { s with cache := fun _ => none } := ⟨hl.leaf, hl.var, hl.lt, hl.inj, hl.ne⟩
  obtain ⟨x1, s1, a1, a2, a3, a4, a5, a6, a7, a8, a9, a10⟩ := store_base hl' kind i (by simp) y1
  have hopc : s1.opc j = s1.opc i := by rw [a9]; exact hone
  have hl1 : Layout [j, m] L D s1 := by
    refine ⟨a5.leaf, a5.var, ?_, ?_, ?_⟩
    · intro k hk
      simp only [List.mem_cons, List.not_mem_nil, or_false] at hk
      rcases hk with rfl | rfl
      · rw [hopc]; exact a5.lt i (by simp)
      · exact a5.lt k (by simp)
    · intro k hk k' hk' he
      simp only [List.mem_cons, List.not_mem_nil, or_false] at hk hk'
      rcases hk with rfl | rfl <;> rcases hk' with rfl | rfl
      · rfl
      · rw [hopc] at he; exact absurd (a5.inj i (by simp) _ (by simp) he) him
      · rw [hopc] at he; exact absurd (a5.inj _ (by simp) i (by simp) he).symm him
      · rfl
    · intro k hk
      simp only [List.mem_cons, List.not_mem_nil, or_false] at hk
      rcases hk with rfl | rfl
      · rw [hopc]; exact a5.ne i (by simp)
      · exact a5.ne k (by simp)
  obtain ⟨x2, s2, b1, b2, b3, b4, b5, b6, b7, b8, b9, b10⟩ := store_base hl1 kind j (by simp) y2
  obtain ⟨x3, s3, c1, c2, c3, -⟩ := store_base b5 kind m (by simp) r
  have hx1 : denote s2.heap x1 = some ⟨y1.shape, y2.data⟩ := by
    have e : x1.loc = x2.loc := by rw [a10 hki, b10 hkj, hopc, a9]
    simp only [denote, e, a2, (denote_some b3).1, Option.map_some]
  refine ⟨x3, s3, ?_, c3⟩
  have hc1 : s1.cache j = none := by rw [a4, upd_ne _ _ hij.symm]
  unfold hrun
  rw [hforward, hquery_miss rfl, bind_ok]
  simp only [hforward, hquery_miss (s := { s with cache := fun _ => none }) (i := i) rfl, bind_ok, rd_ok (denote_some (hl'.leaf p)).1, assert_true sp, pure_eq, readT_ok (hl'.leaf p), h1, a1,
    hquery_miss hc1, rd_ok (denote_some (a5.leaf q)).1, assert_true sq, readT_ok (a5.leaf q), h2, b1, if_neg hkm, readT_ok hx1, readT_ok b3, hr, c1]

/-- Partial (C77): operators made by two factory calls have caches of their own, and `g( f1(x), f2(y) )` is what it says.
Missing: operators made by one factory call (see `factory_shared_cache_violated`). -/
theorem factory_separate_partial [Zero α] [Add α] (kind : Nat → Kind) (i j m p q : Nat) (op op' : UOp α) (g : BOp α) (hkm : kind m ≠ .plus)
    (hij : i ≠ j) (L D : Nat → Ten α) (s : HSt α) (hl : Layout [i, j, m] L D s)
    (sp : (L p).data ≠ []) (sq : (L q).data ≠ []) (y1 y2 r : Ten α) (h1 : op.fwd (L p) = ok y1) (h2 : op'.fwd (L q) = ok y2) (hr : g.fwd y1 y2 = ok r) :
    ∃ x s', hrun kind (.bin m g (.un i op (.leaf p)) (.un j op' (.leaf q))) s = ok (x, s') ∧ denote s'.heap x = some r := by
  have hl' : Layout [i, j, m] L D { s with cache := fun _ => none } := ⟨hl.leaf, hl.var, hl.lt, hl.inj, hl.ne⟩
  obtain ⟨x1, s1, a1, a2, a3, a4, a5, a6, a7, a8, a9, a10⟩ := store_base hl' kind i (by simp) y1
  have hx1 : ∀ x2 s2, Alias.store kind j y2 s1 = ok (x2, s2) → denote s2.heap x1 = some y1 := by
    intro x2 s2 h
    have hlt : x1.loc < s1.heap.length := (List.getElem?_eq_some_iff.mp (denote_some a3).1).1
    have hx : ∀ h' : Heap α, h'[x1.loc]? = s1.heap[x1.loc]? → denote h' x1 = some y1 := fun h' e => by rw [denote_congr e]; exact a3
    have hloc : x1.loc ≠ s1.opc j := by
      rw [a9]
      by_cases hk : kind i = .own
      · rw [a10 hk]
        exact fun e => hij (hl'.inj i (by simp) j (by simp) e)
      · intro e
        have e0 : x1.loc = s.heap.length := by
          unfold Alias.store at a1
          cases hk' : kind i with
          | own => exact absurd hk' hk
          | fresh => rw [hk'] at a1; cases a1; rfl
          | plus => rw [hk'] at a1; cases a1; rfl
        have := hl.lt j (by simp)
        dsimp only at e
        omega
    unfold Alias.store at h
    cases hk : kind j with
    | own =>
      rw [hk] at h
      dsimp only at h
      rw [wr_ok (a5.lt j (by simp)), bind_ok] at h
      cases h
      exact hx _ (List.getElem?_set_ne hloc.symm)
    | fresh => rw [hk] at h; cases h; exact hx _ (List.getElem?_append_left hlt)
    | plus => rw [hk] at h; cases h; exact hx _ (List.getElem?_append_left hlt)
  obtain ⟨x2, s2, b1, b2, b3, b4, b5, b6, b7, b8, b9, b10⟩ := store_base a5 kind j (by simp) y2
  obtain ⟨x3, s3, c1, c2, c3, -⟩ := store_base b5 kind m (by simp) r
  refine ⟨x3, s3, ?_, c3⟩
  have hc1 : s1.cache j = none := by rw [a4, upd_ne _ _ hij.symm]
  unfold hrun
  rw [hforward, hquery_miss rfl, bind_ok]
  simp only [hforward, hquery_miss (s := { s with cache := fun _ => none }) (i := i) rfl, bind_ok, rd_ok (denote_some (hl'.leaf p)).1, assert_true sp, pure_eq, readT_ok (hl'.leaf p), h1, a1,
    hquery_miss hc1, rd_ok (denote_some (a5.leaf q)).1, assert_true sq, readT_ok (a5.leaf q), h2, b1, if_neg hkm, readT_ok (hx1 _ _ b1), readT_ok b3, hr, c1]

/-- `f(x) - f(y)` for `x = 10`, `y = 1` and an operator leaving its operand's value in its cache: 0 with one cache, 9 with two. -/
example : (do
    let (x, s') ← hrun (fun _ => .own)
      (.bin 3 ⟨fun a b => ok ⟨a.shape, List.zipWith (· - ·) a.data b.data⟩, fun _ _ _ _ => ub⟩ (.un 1 ⟨ok, fun _ _ _ => ub⟩ (.leaf 0)) (.un 2 ⟨ok, fun _ _ _ => ub⟩ (.leaf 1)))
      (⟨[[10], [1], [], [], []], fun k => ⟨[1], k % 2⟩, fun _ => ⟨[1], 0⟩, fun i => if i = 3 then 4 else 2, fun _ => none⟩ : HSt Int)
    readT s'.heap x) = ok ⟨[1], [0]⟩ ∧ (do
    let (x, s') ← hrun (fun _ => .own)
      (.bin 3 ⟨fun a b => ok ⟨a.shape, List.zipWith (· - ·) a.data b.data⟩, fun _ _ _ _ => ub⟩ (.un 1 ⟨ok, fun _ _ _ => ub⟩ (.leaf 0)) (.un 2 ⟨ok, fun _ _ _ => ub⟩ (.leaf 1)))
      (⟨[[10], [1], [], [], []], fun k => ⟨[1], k % 2⟩, fun _ => ⟨[1], 0⟩, fun i => i + 1, fun _ => none⟩ : HSt Int)
    readT s'.heap x) = ok ⟨[1], [9]⟩ := by decide

example : Layout [1, 3] (fun k => ⟨[1], if k % 2 = 0 then [10] else [1]⟩) (fun _ => ⟨[1], [10]⟩)
      (⟨[[10], [1], [], [], []], fun k => ⟨[1], k % 2⟩, fun _ => ⟨[1], 0⟩, fun i => if i = 3 then 4 else 2, fun _ => none⟩ : HSt Int) ∧
    Layout [1, 2, 3] (fun k => ⟨[1], if k % 2 = 0 then [10] else [1]⟩) (fun _ => ⟨[1], [10]⟩)
      (⟨[[10], [1], [], [], []], fun k => ⟨[1], k % 2⟩, fun _ => ⟨[1], 0⟩, fun i => i + 1, fun _ => none⟩ : HSt Int) := by
  constructor
  all_goals
    refine ⟨fun k => ?_, fun _ => rfl, by simp, by simp, fun i hi => ?_⟩
    · rcases Nat.mod_two_eq_zero_or_one k with h | h <;> simp [denote, h]
    · simp only [List.mem_cons, List.not_mem_nil, or_false] at hi
      rintro (⟨k, hk⟩ | ⟨k, hk⟩)
      · dsimp only at hk
        have := Nat.mod_lt k (show 0 < 2 by omega)
        rcases hi with rfl | rfl | rfl <;> simp at hk <;> omega
      · dsimp only at hk
        rcases hi with rfl | rfl | rfl <;> simp at hk

/-- C77 is false of the code: two `max_pooling_2d` operators made by one factory call share the mask.  Backward of the first, after both ran
forward, sends the gradient of each window to the maximum of the first input and, as well, to the position where the second input has its
maximum. -/
theorem factory_shared_mask_violated [Field α] [LinearOrder α] [IsStrictOrderedRing α] (s BS R C CH : Nat)
    (t1 t2 mask cache grad gcache : Ten α) (a1 a2 g : List Nat → α) (hs : 1 < s) (ht1 : t1.Has [BS, R, C, CH] a1) (ht2 : t2.Has [BS, R, C, CH] a2)
    (hg : grad.Has [BS, R / s, C / s, CH] g) (hmask : Pool.Blank mask [BS, R, C, CH]) (hcache : Pool.Blank gcache [BS, R, C, CH]) :
    ∃ (u1 m1 u2 m2 d : Ten α) (v : List Nat → α), Pool.maxPool s t1 mask cache = ok (u1, m1) ∧ Pool.maxPool s t2 m1 u1 = ok (u2, m2) ∧
      Pool.maxPoolBack s t1 m2 grad gcache = ok d ∧ d.Has [BS, R, C, CH] v ∧
      ∀ b y x ch, b < BS → y < R → x < C → ch < CH → ∀ r c, r < R / s → c < C / s →
        Pool.IsWindowMax s r c (fun y x => a1 [b, y, x, ch]) y x ∨ Pool.IsWindowMax s r c (fun y x => a2 [b, y, x, ch]) y x → v [b, y, x, ch] = g [b, r, c, ch] := by
  classical
  let P : (List Nat → α) → Nat → Nat → Nat → Nat → Prop := fun a b y x ch =>
    ∃ r c, r < R / s ∧ c < C / s ∧ Pool.IsWindowMax s r c (fun y x => a [b, y, x, ch]) y x
  obtain ⟨u1, m1, v1, h1, -, hm1, h2⟩ := Pool.maxPool_mask (mask := mask) (cache := cache) (Q := fun _ _ _ _ => False) (P := P a1) hs ht1 (by simpa using Pool.blank_is4 hmask)
    (fun b y x ch => by simp [P])
  have h2' : Is4 (resizeV m1 [BS, R, C, CH]).data BS R C CH (fun b y x ch => if P a1 b y x ch then (1 : α) else 0) := by
    rw [show (resizeV m1 [BS, R, C, CH]).data = m1.data by unfold resizeV; dsimp only; rw [if_pos (by rw [h2.1, Pool.size4])]]
    exact h2
  obtain ⟨u2, m2, v2, h3, -, -, h4⟩ := Pool.maxPool_mask (mask := m1) (cache := u1) (Q := P a1) (P := fun b y x ch => P a1 b y x ch ∨ P a2 b y x ch) hs ht2 h2' (fun b y x ch => Iff.rfl)
  obtain ⟨d, d1, d2⟩ := Pool.maxPoolBack_ok (t := t1) ht1.1 (Pool.ten4 hg).2 h4 (fun b y x ch h => by
    rcases h with ⟨r, c, hr, hc, hw⟩ | ⟨r, c, hr, hc, hw⟩ <;>
    · obtain ⟨e1, e2⟩ := hw.1.div
      rw [e1, e2]
      exact ⟨hr, hc⟩) hcache
  refine ⟨u1, m1, u2, m2, ⟨[BS, R, C, CH], d⟩, fun is => match is with
    | [b, y, x, ch] => if P a1 b y x ch ∨ P a2 b y x ch then g [b, y / s, x / s, ch] else 0
    | _ => 0, h1, h3, d1, ⟨rfl, is4_iff.mpr d2⟩, ?_⟩
  rintro b y x ch hb hy hx hch r c hr hc hw
  dsimp only
  have hd : Pool.InWindow s r c y x := hw.elim (·.1) (·.1)
  obtain ⟨e1, e2⟩ := hd.div
  rw [if_pos (hw.imp (fun h => ⟨r, c, hr, hc, h⟩) (fun h => ⟨r, c, hr, hc, h⟩)), e1, e2]

/-- Inputs with the maximum in opposite corners. -/
example : (Pool.maxPool 2 ⟨[1, 2, 2, 1], [9, 0, 0, 0]⟩ ⟨[], []⟩ ⟨[], []⟩ >>= fun r1 => Pool.maxPool 2 ⟨[1, 2, 2, 1], [0, 0, 0, 9]⟩ r1.2 r1.1 >>= fun r2 =>
    Pool.maxPoolBack 2 ⟨[1, 2, 2, 1], [9, 0, 0, (0 : ℚ)]⟩ r2.2 ⟨[1, 1, 1, 1], [1]⟩ ⟨[], []⟩) = ok ⟨[1, 2, 2, 1], [1, 0, 0, 1]⟩ ∧
    Pool.Blank (⟨[], []⟩ : Ten ℚ) [1, 2, 2, 1] := by
  refine ⟨by decide +kernel, Or.inl (by simp)⟩

end Verif.Alias
