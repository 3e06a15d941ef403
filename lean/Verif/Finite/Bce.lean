import Verif.Finite.Losses
import Verif.Loss.Shared
/-!
# C134: `binary_cross_entropy_loss` and `cross_entropy` on floating point numbers

`binary_cross_entropy_loss` uses one tensor of ones twice, and `plus` leaves its result in the storage of its left operand (C98): for a label 1 the
second logarithm is that of `-p`.  Over the reals (`bce_shared_violated`) that is some number; here it is NaN.
-/
namespace Verif.Finite
open Verif Res View Data Fp Nan Alias Graph Optim Ops
open Verif.Tensor (Tn Heap)
open Verif.Loss (Fr store_fresh store_own fwd_leaf fwd_hit fwd_un fwd_bin fwd_plus lt_of_denote sound_of BceKinds replicate_has)

variable {f : Fmt}

/-- `binary_cross_entropy_loss` (include/loss.hpp lines 118-124) with the operators as parameters. -/
def bceOf {α : Type} (on lg ng me : UOp α) (hd pl : BOp α) (i : Nat) (t p : Ex α) : Ex α :=
  .un (i + 11) me (.un (i + 10) ng (.bin (i + 9) pl (.bin (i + 2) hd t (.un (i + 1) lg p))
    (.bin (i + 8) hd (.bin (i + 4) pl (.un i on t) (.un (i + 3) ng t)) (.un (i + 7) lg (.bin (i + 6) pl (.un i on t) (.un (i + 5) ng p))))))

/-- With the operators over the reals it is the expression of `Verif/Loss`. -/
theorem bceOf_real (K : Loss.Kit) (i : Nat) (t p : Ex ℝ) : Loss.bce K i t p =
    bceOf Loss.opOnes (opElem .log K.cacheF K.cacheB) (opElem .negative K.cacheF K.cacheB) Loss.opMean (opEwp K.red K.fuel) (opPlus K.red K.fuel) i t p := rfl

/-- Forward action of `negative` (include/operation.hpp lines 675-679): the check of the argument (with `checks`), and the tensor with the opposite elements
(include/tensor.hpp lines 460-465). -/
def negT (checks : Bool) (x : Ten (Num f)) : Res (Ten (Num f)) := do
  Res.assert (checks = true → hasNan x = false)
  pure ⟨x.shape, x.data.map neg⟩

theorem Fin.num {a : Num f} (h : Fin a) : nanb a = false := by
  obtain ⟨q, g, rfl, _⟩ := h
  rfl

theorem hasNan_has {x : Ten (Num f)} {sh : List Nat} {a : List Nat → Num f} (h : x.Has sh a) : hasNan x = true ↔ ∃ is, ValidIdx sh is ∧ nanb (a is) = true := by
  rw [(has_nan_iff x).1]
  constructor
  · rintro ⟨y, hy, hn⟩
    obtain ⟨j, hj, rfl⟩ := List.getElem_of_mem hy
    have hs : j < size sh := by rw [← h.2.1]; exact hj
    obtain ⟨v, e⟩ := unflat_spec hs
    have := h.2.2 _ v
    rw [e, List.getElem?_eq_getElem hj] at this
    injection this with this
    exact ⟨_, v, this ▸ hn⟩
  · rintro ⟨is, hv, hn⟩
    exact ⟨_, List.mem_of_getElem? (h.2.2 is hv), hn⟩

theorem negT_ok (checks : Bool) {x : Ten (Num f)} {sh : List Nat} {a : List Nat → Num f} (h : x.Has sh a) (hn : checks = true → ∀ is, ValidIdx sh is → nanb (a is) = false) :
    ∃ y, negT checks x = ok y ∧ y.Has sh (fun is => neg (a is)) := by
  refine ⟨⟨x.shape, x.data.map neg⟩, ?_, h.1, by rw [List.length_map, h.2.1], fun is hv => by rw [List.getElem?_map, h.2.2 is hv]; rfl⟩
  unfold negT
  rw [assert_true, bind_ok]
  · rfl
  · intro hc
    rw [← Bool.not_eq_true, hasNan_has h]
    rintro ⟨is, hv, he⟩
    rw [hn hc is hv] at he
    cases he

theorem ewp_mul {α : Type} [Mul α] {l r : Ten α} {s : List Nat} {a b : List Nat → α} (hl : l.Has s a) (hr : r.Has s b) (hs : size s ≠ 0) :
    ∃ u, elementwiseProduct l r = ok u ∧ u.Has s (fun is => a is * b is) := by
  have e : l.data.length = r.data.length := by rw [hl.2.1, hr.2.1]
  obtain ⟨t, h1, h2, h3, h4⟩ := ewpGo_ok (l := l) (r := r) (by rw [hr.2.1]; omega) (by rw [e])
  refine ⟨t, ?_, by rw [h2, hl.1], by rw [h3, hl.2.1], fun is hv => ?_⟩
  · unfold elementwiseProduct
    rw [if_neg (by omega), h1]
  · have hlt : flat s is < r.data.length := by rw [hr.2.1]; exact flat_lt hv
    exact h4 _ _ _ (hl.2.2 is hv) (by rw [Nat.mod_eq_of_lt hlt]; exact hr.2.2 is hv)

/-- The logarithm of `1 - t - p`, as computed for a label 1 and a prediction above 0. -/
theorem label_one (M : Maths f) {t p : Num f} (ht : In 1 1 t) (hp : ∃ q h, p = .num q h ∧ 0 < q) (hpf : Fin p) (z : Num f) :
    neg (z + (1 + neg t + neg p) * M.log (1 + neg t + neg p)) = .nan := by
  obtain ⟨a, ga, rfl, _, a1, a2⟩ := ht
  obtain ⟨q, g, rfl, hq⟩ := hp
  obtain ⟨b, gb, eb, _, b1, b2⟩ := one_in (f := f)
  obtain ⟨q', g', e, e'⟩ := hpf
  injection e with e
  subst e
  have h0 : (1 : Num f) + neg (.num a ga) = .num 0 ⟨0, by simp⟩ := by
    rw [eb]
    show toNum f (b + -a) = _
    rw [show b + -a = 0 by linarith]
    exact toNum_fixed fixed_zero
  have h1 : (1 : Num f) + neg (.num a ga) + neg (.num q g) = neg (.num q g) := by
    rw [h0]
    show toNum f (0 + -q) = _
    rw [zero_add]
    exact toNum_fixed (fixed_of e').neg
  have h2 : M.log (neg (.num q g)) = .nan := M.log_neg _ _ (by linarith)
  rw [h1, h2]
  have h3 : neg (.num q g) * (.nan : Num f) = .nan := rfl
  rw [h3]
  have h4 : z + (.nan : Num f) = .nan := by cases z <;> rfl
  rw [h4]
  rfl

theorem foldl_nan : ∀ (l : List (Num f)) (z : Num f), (nanb z = true ∨ ∃ x ∈ l, nanb x = true) → nanb (l.foldl (· + ·) z) = true
  | [], z, h => by
    rcases h with h | ⟨x, hx, _⟩
    · exact h
    · cases hx
  | y :: l, z, h => by
    rw [List.foldl_cons]
    refine foldl_nan l _ ?_
    rcases h with h | ⟨x, hx, hn⟩
    · exact Or.inl (Floats.add_nan z y (Or.inl h))
    · rcases List.mem_cons.mp hx with rfl | hx
      · exact Or.inl (Floats.add_nan z _ (Or.inr hn))
      · exact Or.inr ⟨x, hx, hn⟩

theorem nan_of {a : Num f} (h : nanb a = true) : a = .nan := by
  cases a <;> first | rfl | cases h

theorem mean_nan {x : Ten (Num f)} (hn : hasNan x = true) : Ops.meanReduce x = ok ⟨[1], [.nan]⟩ := by
  obtain ⟨y, hy, hyn⟩ := (has_nan_iff x).1.mp hn
  have hne : x.data ≠ [] := fun h => by rw [h] at hy; cases hy
  unfold Ops.meanReduce meanAll
  rw [assert_true (by simpa using hne), bind_ok, sumAll_foldl x hne, bind_ok]
  have h1 := foldl_nan x.data 0 (Or.inr ⟨y, hy, hyn⟩)
  have h2 := nan_of (Floats.div_nan _ ((x.data.length : Nat) : Num f) (Or.inl h1))
  rw [h2]
  rfl

/-- The sum of which `binary_cross_entropy_loss` takes the negative: `t log p + (1 - t - p) log( 1 - t - p )`, in new tensors and caches. -/
theorem bce_sum (M : Maths f) (checks : Bool) (logCache : Ten (Num f)) (kind : Nat → Kind) (i k v : Nat) (c : Cfg (Num f)) (hk : BceKinds kind i) (on lg ng : UOp (Num f))
    (hd pl : BOp (Num f)) (hon : ∀ x, on.fwd x = ok ⟨x.shape, List.replicate (size x.shape) 1⟩) (hlg : ∀ x, lg.fwd x = Ops.mapT M.log logCache x) (hng : ∀ x, ng.fwd x = negT checks x)
    (hhd : ∀ x y, hd.fwd x y = elementwiseProduct x y) (L D : Nat → Ten (Num f)) (s : HSt (Num f)) (hl : Layout [i + 1, i + 7] L D s)
    {sh : List Nat} {t p : List Nat → Num f} (ht : (L k).Has sh t) (hp : (D v).Has sh p) (hz : size sh ≠ 0) (hm : sh.getLast? ≠ some Tensor.minusOne)
    (tf : ∀ is, ValidIdx sh is → Fin (t is)) (pf : ∀ is, ValidIdx sh is → Fin (p is)) :
    ∃ x s' z, hforward kind (.bin (i + 9) pl (.bin (i + 2) hd (.leaf k) (.un (i + 1) lg (.var v c)))
      (.bin (i + 8) hd (.bin (i + 4) pl (.un i on (.leaf k)) (.un (i + 3) ng (.leaf k))) (.un (i + 7) lg (.bin (i + 6) pl (.un i on (.leaf k)) (.un (i + 5) ng (.var v c))))))
      { s with cache := fun _ => none } = ok (x, s') ∧ denote s'.heap x = some z ∧
      z.Has sh (fun is => t is * M.log (p is) + (1 + neg (t is) + neg (p is)) * M.log (1 + neg (t is) + neg (p is))) := by
  have snd : ∀ {y : Ten (Num f)} {a : List Nat → Num f}, y.Has sh a → Sound y := fun h => sound_of hz hm h
  have hA : s.opc (i + 1) < s.heap.length := hl.lt _ (by simp)
  have hB : s.opc (i + 7) < s.heap.length := hl.lt _ (by simp)
  have nA : ∀ l, Prot s l → l ≠ s.opc (i + 1) := fun l h e => hl.ne (i + 1) (by simp) (e ▸ h)
  have nB : ∀ l, Prot s l → l ≠ s.opc (i + 7) := fun l h e => hl.ne (i + 7) (by simp) (e ▸ h)
  have pL : Prot s (s.leafT k).loc := Or.inl ⟨k, rfl⟩
  have pD : Prot s (s.varT v).loc := Or.inr ⟨v, rfl⟩
  have bL : (s.leafT k).loc < s.heap.length := hl.prot_lt pL
  have bD : (s.varT v).loc < s.heap.length := hl.prot_lt pD
  set s0 : HSt (Num f) := { s with cache := fun _ => none } with hs0
  have dL0 : denote s0.heap (s.leafT k) = some (L k) := hl.leaf k
  have dD0 : denote s0.heap (s.varT v) = some (D v) := hl.var v
  -- log p
  obtain ⟨lp, o1, w1⟩ := Ops.mapT_ok M.log logCache (D v) hp
  obtain ⟨x1, s1, a1, b1, f1, d1, c1⟩ := store_own hk.k1 lp s0 hA
  have e1 : hforward kind (.un (i + 1) lg (.var v c)) s0 = ok (x1, s1) := by rw [fwd_un (x := s.varT v) (s1 := s0) rfl rfl dD0 ((hlg _).trans o1), a1]
  have dL1 := f1.keep dL0 (nA _ pL)
  have dD1 := f1.keep dD0 (nA _ pD)
  -- t log p
  obtain ⟨tl, o2, w2⟩ := ewp_mul ht w1 hz
  obtain ⟨x2, s2, a2, b2, f2, d2, c2⟩ := store_fresh hk.k2 tl s1
  have e2 : hforward kind (.bin (i + 2) hd (.leaf k) (.un (i + 1) lg (.var v c))) s0 = ok (x2, s2) := by
    rw [fwd_bin (by rw [hk.k2]; simp) rfl (fwd_leaf dL0 (snd ht).1) e1 dL1 d1 ((hhd _ _).trans o2), a2]
  have dL2 := f2.keep dL1 (fun h => h)
  have dD2 := f2.keep dD1 (fun h => h)
  have T2 : s2.leafT = s.leafT := by rw [f2.leafT, f1.leafT]
  have V2 : s2.varT = s.varT := by rw [f2.varT, f1.varT]
  have C2 : s2.cache = upd (upd (fun _ => none) (i + 1) (some x1)) (i + 2) (some x2) := by rw [c2, c1]
  -- ones
  have o3 : on.fwd (L k) = ok ⟨sh, List.replicate (size sh) 1⟩ := by rw [hon, ht.1]
  have w3 := replicate_has sh (1 : Num f)
  obtain ⟨x3, s3, a3, b3, f3, d3, c3⟩ := store_fresh hk.k0 (⟨sh, List.replicate (size sh) 1⟩ : Ten (Num f)) s2
  have e3 : hforward kind (.un i on (.leaf k)) s2 = ok (x3, s3) := by
    rw [fwd_un (by rw [C2]; simp [upd]) (fwd_leaf (by rw [T2]; exact dL2) (snd ht).1) (by rw [T2]; exact dL2) o3, a3]
  have dL3 := f3.keep dL2 (fun h => h)
  have dD3 := f3.keep dD2 (fun h => h)
  have T3 : s3.leafT = s.leafT := by rw [f3.leafT, T2]
  have V3 : s3.varT = s.varT := by rw [f3.varT, V2]
  have g2 : s.heap.length ≤ x2.loc := by rw [b2]; exact f1.grow
  have g3 : x2.loc < x3.loc := by rw [b3]; exact lt_of_denote d2
  -- -t
  obtain ⟨nt, o4, w4⟩ := negT_ok checks ht (fun _ is hv => (tf is hv).num)
  obtain ⟨x4, s4, a4, b4, f4, d4, c4⟩ := store_fresh hk.k3 nt s3
  have e4 : hforward kind (.un (i + 3) ng (.leaf k)) s3 = ok (x4, s4) := by
    rw [fwd_un (by rw [c3, C2]; simp [upd]) (fwd_leaf (by rw [T3]; exact dL3) (snd ht).1) (by rw [T3]; exact dL3) ((hng _).trans o4), a4]
  have g4 : x3.loc < x4.loc := by rw [b4]; exact lt_of_denote d3
  -- ones - t, in the storage of ones
  obtain ⟨s5, z5, e5, d5, w5, f5, c5⟩ := fwd_plus (op := pl) (i := i + 4) hk.k4 (by rw [C2]; simp [upd]) e3 e4 (f4.keep d3 (fun h => h)) d4
    (by rw [w4.1]) (snd w3) (snd w4)
  have dD5 := f5.keep (f4.keep dD3 (fun h => h)) (by omega)
  have V5 : s5.varT = s.varT := by rw [f5.varT, f4.varT, V3]
  -- ones again
  have C5 : s5.cache = upd (upd (upd (upd (upd (fun _ => none) (i + 1) (some x1)) (i + 2) (some x2)) i (some x3)) (i + 3) (some x4)) (i + 4) (some x3) := by rw [c5, c4, c3, C2]
  have e6 : hforward kind (.un i on (.leaf k)) s5 = ok (x3, s5) := fwd_hit (by rw [C5]; simp [upd]) d5 (snd w5).1
  -- -p
  obtain ⟨np, o7, w7⟩ := negT_ok checks hp (fun _ is hv => (pf is hv).num)
  obtain ⟨x7, s7, a7, b7, f7, d7, c7⟩ := store_fresh hk.k5 np s5
  have e7 : hforward kind (.un (i + 5) ng (.var v c)) s5 = ok (x7, s7) := by
    rw [fwd_un (x := s.varT v) (s1 := s5) (by rw [C5]; simp [upd]) (by rw [hforward, V5]) dD5 ((hng _).trans o7), a7]
  -- ones - p, in the storage of ones
  obtain ⟨s8, z8, e8, d8, w8, f8, c8⟩ := fwd_plus (op := pl) (i := i + 6) hk.k6 (by rw [C5]; simp [upd]) e6 e7 (f7.keep d5 (fun h => h)) d7
    (by rw [w5.1, w7.1]) (snd w5) (snd w7)
  have w8' : z8.Has sh (fun is => 1 + neg (t is) + neg (p is)) := by
    have := w8
    rw [w5.1] at this
    refine this.congr (fun is hv => ?_)
    rw [w5.at_eq hv, w3.at_eq hv, w4.at_eq hv, w7.at_eq hv]
  -- its logarithm
  obtain ⟨ll, o9, w9⟩ := Ops.mapT_ok M.log logCache z8 w8'
  have O8 : s8.opc = s.opc := by rw [f8.opc, f7.opc, f5.opc, f4.opc, f3.opc, f2.opc, f1.opc]
  have G8 : s.heap.length ≤ s8.heap.length :=
    f1.grow.trans (f2.grow.trans (f3.grow.trans (f4.grow.trans (f5.grow.trans (f7.grow.trans f8.grow)))))
  obtain ⟨x9, s9, a9, b9, f9, d9, c9⟩ := store_own hk.k7 ll s8 (by rw [O8]; omega)
  have C8 : s8.cache = upd (upd s5.cache (i + 5) (some x7)) (i + 6) (some x3) := by rw [c8, c7]
  have e9 : hforward kind (.un (i + 7) lg (.bin (i + 6) pl (.un i on (.leaf k)) (.un (i + 5) ng (.var v c)))) s5 = ok (x9, s9) := by
    exact (fwd_un (i := i + 7) (by rw [C5]; simp [upd]) e8 d8 ((hlg _).trans o9)).trans a9
  rw [O8] at f9
  have dU9 := f9.keep d8 (by show x3.loc ≠ _; omega)
  -- the product
  obtain ⟨pr, o10, w10⟩ := ewp_mul w8' w9 hz
  obtain ⟨x10, s10, a10, b10, f10, d10, c10⟩ := store_fresh hk.k8 pr s9
  have e10 : hforward kind (.bin (i + 8) hd (.bin (i + 4) pl (.un i on (.leaf k)) (.un (i + 3) ng (.leaf k))) (.un (i + 7) lg (.bin (i + 6) pl (.un i on (.leaf k)) (.un (i + 5) ng (.var v c))))) s2 =
      ok (x10, s10) := by
    exact (fwd_bin (i := i + 8) (by rw [hk.k8]; simp) (by rw [C2]; simp [upd]) e5 e9 dU9 d9 ((hhd _ _).trans o10)).trans a10
  have d2' : denote s10.heap x2 = some tl :=
    f10.keep (f9.keep (f8.keep (f7.keep (f5.keep (f4.keep (f3.keep d2 (fun h => h)) (fun h => h)) (by omega)) (fun h => h)) (by omega)) (by omega)) (fun h => h)
  -- the sum
  obtain ⟨s11, z11, e11, d11, w11, f11, c11⟩ := fwd_plus (op := pl) (i := i + 9) hk.k9 (s := s0) rfl e2 e10 d2' d10 (by rw [w2.1, w10.1]) (snd w2) (snd w10)
  rw [w2.1] at w11
  exact ⟨_, s11, z11, e11, d11, w11.congr (fun is hv => by rw [w2.at_eq hv, w10.at_eq hv])⟩

/-- C134 is violated by `binary_cross_entropy_loss`: if there is a label 1 whose prediction is above 0, however good the prediction, then the loss is NaN in a
build without checks and the program is aborted in a build with checks.  `pl` is the operator `plus`, whose forward action is in `hforward`. -/
theorem bce_nan_violated (M : Maths f) (logCache : Ten (Num f)) (kind : Nat → Kind) (i k v : Nat) (c : Cfg (Num f)) (hk : BceKinds kind i) (on lg ng ng' me : UOp (Num f))
    (hd pl : BOp (Num f)) (hon : ∀ x, on.fwd x = ok ⟨x.shape, List.replicate (size x.shape) 1⟩) (hlg : ∀ x, lg.fwd x = Ops.mapT M.log logCache x) (hng : ∀ x, ng.fwd x = negT false x)
    (hng' : ∀ x, ng'.fwd x = negT true x) (hme : ∀ x, me.fwd x = Ops.meanReduce x) (hhd : ∀ x y, hd.fwd x y = elementwiseProduct x y) (L D : Nat → Ten (Num f)) (s : HSt (Num f))
    (hl : Layout [i + 1, i + 7] L D s) {sh : List Nat} {t p : List Nat → Num f} (ht : (L k).Has sh t) (hp : (D v).Has sh p) (hm : sh.getLast? ≠ some Tensor.minusOne)
    (tf : ∀ is, ValidIdx sh is → Fin (t is)) (pf : ∀ is, ValidIdx sh is → Fin (p is)) (js : List Nat) (hv : ValidIdx sh js) (h1 : In 1 1 (t js))
    (h2 : ∃ q h, p js = .num q h ∧ 0 < q) :
    (∃ x s', hrun kind (bceOf on lg ng me hd pl i (.leaf k) (.var v c)) s = ok (x, s') ∧ denote s'.heap x = some ⟨[1], [.nan]⟩) ∧
    hrun kind (bceOf on lg ng' me hd pl i (.leaf k) (.var v c)) s = abort := by
  have hz : size sh ≠ 0 := by have := flat_lt hv; omega
  have hn := label_one M h1 h2 (pf js hv) (t js * M.log (p js))
  have hin : nanb (t js * M.log (p js) + (1 + neg (t js) + neg (p js)) * M.log (1 + neg (t js) + neg (p js))) = true := by
    cases h : t js * M.log (p js) + (1 + neg (t js) + neg (p js)) * M.log (1 + neg (t js) + neg (p js)) with
    | nan => rfl
    | num q g => rw [h] at hn; cases hn
    | inf b => rw [h] at hn; cases hn
  constructor
  · obtain ⟨x11, s11, z11, e11, d11, w11⟩ := bce_sum M false logCache kind i k v c hk on lg ng hd pl hon hlg hng hhd L D s hl ht hp hz hm tf pf
    obtain ⟨y, o12, w12⟩ := negT_ok false w11 (fun h => by cases h)
    obtain ⟨x12, s12, a12, b12, f12, d12, c12⟩ := store_fresh hk.k10 y s11
    have e12 := (fwd_un (i := i + 10) rfl e11 d11 ((hng _).trans o12)).trans a12
    have hnan : hasNan y = true := (hasNan_has w12).mpr ⟨js, hv, by rw [hn]; rfl⟩
    obtain ⟨x13, s13, a13, b13, f13, d13, c13⟩ := store_fresh hk.k11 (⟨[1], [.nan]⟩ : Ten (Num f)) s12
    exact ⟨x13, s13, (fwd_un (i := i + 11) rfl e12 d12 ((hme _).trans (mean_nan hnan))).trans a13, d13⟩
  · obtain ⟨x11, s11, z11, e11, d11, w11⟩ := bce_sum M true logCache kind i k v c hk on lg ng' hd pl hon hlg hng' hhd L D s hl ht hp hz hm tf pf
    have hnan : hasNan z11 = true := (hasNan_has w11).mpr ⟨js, hv, hin⟩
    have hneg : ng'.fwd z11 = abort := by
      rw [hng']
      unfold negT
      rw [assert_false (fun h => by rw [h rfl] at hnan; cases hnan)]
      rfl
    unfold hrun bceOf
    rw [hforward, hquery_miss rfl, bind_ok]
    dsimp only
    rw [hforward, hquery_miss rfl, bind_ok]
    dsimp only
    rw [e11, bind_ok]
    dsimp only
    rw [readT_ok d11, bind_ok, hneg]
    rfl

/-- Four storages: the label 1, the prediction 1, and the caches of the two logarithms. -/
def oneHeap (f : Fmt) : HSt (Num f) := ⟨[[1], [1], [], []], fun _ => ⟨[1], 0⟩, fun _ => ⟨[1], 1⟩, fun i => if i = 1 then 2 else 3, fun _ => none⟩

/-- A perfect prediction. -/
example (c : Cfg (Num float32)) : ∃ kind, BceKinds kind 0 ∧ Layout [0 + 1, 0 + 7] (fun _ => (⟨[1], [1]⟩ : Ten (Num float32))) (fun _ => ⟨[1], [1]⟩) (oneHeap float32) ∧
    (⟨[1], [1]⟩ : Ten (Num float32)).Has [1] (fun _ => 1) ∧ In 1 1 (1 : Num float32) ∧ ∃ q h, (1 : Num float32) = .num q h ∧ 0 < q := by
  refine ⟨Loss.kindOf [4, 6, 9] [1, 7], ⟨rfl, rfl, rfl, rfl, rfl, rfl, rfl, rfl, rfl, rfl, rfl, rfl⟩, ⟨fun _ => rfl, fun _ => rfl, ?_, ?_, ?_⟩, ⟨rfl, rfl, fun is hv => ?_⟩, one_in, ?_⟩
  · intro i hi
    simp only [List.mem_cons, List.not_mem_nil, or_false] at hi
    rcases hi with rfl | rfl <;> simp [oneHeap]
  · intro i hi j hj h
    simp only [List.mem_cons, List.not_mem_nil, or_false] at hi hj
    rcases hi with rfl | rfl <;> rcases hj with rfl | rfl <;> simp_all [oneHeap]
  · intro i hi
    simp only [List.mem_cons, List.not_mem_nil, or_false] at hi
    rcases hi with rfl | rfl <;> simp [oneHeap, Prot]
  · match is, hv with
    | [0], _ => rfl
    | [n + 1], hv => exact absurd hv.1 (by omega)
  · obtain ⟨q, g, e, _, h1, _⟩ := one_in (f := float32)
    exact ⟨q, g, e, by linarith⟩

/-- `cross_entropy` (include/loss.hpp lines 53-57) with the operators as parameters. -/
def crossEntropyOf {α : Type} (lg ng su : UOp α) (hd : BOp α) (i : Nat) (l r : Ex α) : Ex α := .un (i + 3) ng (.un (i + 2) su (.bin (i + 1) hd l (.un i lg r)))

theorem crossEntropyOf_real (K : Loss.Kit) (i : Nat) (l r : Ex ℝ) : Loss.crossEntropy K i l r =
    crossEntropyOf (opElem .log K.cacheF K.cacheB) (opElem .negative K.cacheF K.cacheB) opSum (opEwp K.red K.fuel) i l r := rfl

/-- C134 is violated by `cross_entropy`: if there is a label 0 whose prediction is 0, as it should be, then the loss is NaN in a build without checks and the
program is aborted in a build with checks. -/
theorem cross_entropy_nan_violated (M : Maths f) (checks : Bool) (logCache : Ten (Num f)) (i : Nat) (lg ng su : UOp (Num f)) (hd : BOp (Num f))
    (hlg : ∀ x, lg.fwd x = Ops.mapT M.log logCache x) (hng : ∀ x, ng.fwd x = negT checks x) (hsu : ∀ x, su.fwd x = Ops.sumReduce x)
    (hhd : ∀ x y, hd.fwd x y = elementwiseProduct x y) (L D : Nat → Ten (Num f)) (l r : Ex (Num f)) (x y : Ten (Num f)) (hl : eval L D l = ok x) (hr : eval L D r = ok y)
    (sh : List Nat) (t p : List Nat → Num f) (ht : x.Has sh t) (hp : y.Has sh p) (js : List Nat) (hv : ValidIdx sh js) (h1 : t js = 0) (h2 : p js = 0) :
    eval L D (crossEntropyOf lg ng su hd i l r) = if checks = true then abort else ok ⟨[1], [.nan]⟩ := by
  have hz : size sh ≠ 0 := by have := flat_lt hv; omega
  obtain ⟨u, u1, u2⟩ := Ops.mapT_ok M.log logCache y hp
  obtain ⟨w, w1, w2⟩ := ewp_mul ht u2 hz
  have hne : w.data ≠ [] := fun h => hz (by rw [← w2.2.1, h]; rfl)
  have hin : nanb (t js * M.log (p js)) = true := by
    have hl0 : M.log 0 = .inf true := M.log_zero _
    rw [h1, h2, hl0]
    change nanb (if (0 : ℚ) = 0 then (.nan : Num f) else .inf (xor true (decide ((0 : ℚ) < 0)))) = true
    rw [if_pos rfl]
    rfl
  have hsum : Ops.sumReduce w = ok ⟨[1], [.nan]⟩ := by
    unfold Ops.sumReduce
    rw [sumAll_foldl w hne, bind_ok, nan_of (foldl_nan w.data 0 (Or.inr ⟨_, List.mem_of_getElem? (w2.2.2 js hv), hin⟩))]
    rfl
  unfold crossEntropyOf
  simp only [eval]
  rw [hl, bind_ok, hr, bind_ok, hlg, u1, bind_ok, hhd, w1, bind_ok, hsu, hsum, bind_ok, hng]
  unfold negT
  have hnan : hasNan (⟨[1], [.nan]⟩ : Ten (Num f)) = true := rfl
  cases checks
  · rw [assert_true (fun h => by cases h), bind_ok, if_neg (by simp)]
    rfl
  · rw [assert_false (fun h => by rw [hnan] at h; cases h rfl), if_pos rfl]
    rfl

/-- The label 0 and the prediction 0. -/
example : (⟨[2], [1, 0]⟩ : Ten (Num float32)).Has [2] (fun is => if is = [1] then 0 else 1) ∧ ValidIdx [2] [1] := by
  refine ⟨⟨rfl, rfl, fun is hv => ?_⟩, by simp⟩
  match is, hv with
  | [0], _ => rfl
  | [1], _ => rfl
  | [n + 2], hv => exact absurd hv.1 (by omega)

end Verif.Finite
