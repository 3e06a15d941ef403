import Verif.Graph.Props
import Verif.Ops.ScalarProps
import Verif.Ops.Ewp
import Verif.Tensor.Arith
/-!
# Operators in expressions

The operators of `include/operation.hpp` as nodes of expressions, and that they are `Good` where their own properties (C49-C51, C81) say so.
-/
namespace Verif.Graph
open Verif Res View Data Ops
open Verif.Tensor (BroadcastsTo Compatible bcIdx addLike broadcastShape)

theorem moves_of_has {c : ℝ → Ten ℝ} {s : List Nat} {a : ℝ → List Nat → ℝ} {d : List Nat → ℝ} (h : ∀ t, (c t).Has s (a t))
    (hd : ∀ is, ValidIdx s is → HasDerivAt (fun t => a t is) (d is) 0) : Moves c s d := by
  refine ⟨fun t => ⟨(h t).wf, (h t).1⟩, fun is hv => ?_⟩
  have : (fun t => (c t).at is) = fun t => a t is := by funext t; exact (h t).at_eq hv
  rw [this]; exact hd is hv

theorem Moves.has {c : ℝ → Ten ℝ} {s : List Nat} {d : List Nat → ℝ} (h : Moves c s d) (t : ℝ) : (c t).Has s (c t).at := by
  have := (h.1 t).1.has
  rwa [(h.1 t).2] at this

theorem pair_congr {s : List Nat} {a b : List Nat → ℝ} {x y : List Nat → ℝ} (h : ∀ is, ValidIdx s is → a is * x is = b is * y is) : pair s a x = pair s b y :=
  sumIdx_congr h

/-- The element-wise operators (C51) as unary operators; the caches hold anything. -/
noncomputable def opElem (op : EOp) (cacheF cacheB : Ten ℝ) : UOp ℝ := ⟨mapT op.fwd cacheF, zipT op.bwd cacheB⟩

theorem opElem_good (op : EOp) (cacheF cacheB x : Ten ℝ) (hd : ∀ is, ValidIdx x.shape is → op.Dom (x.at is)) : (opElem op cacheF cacheB).Good x := by
  intro c d hc hm
  choose y hy using fun t => mapT_ok op.fwd cacheF (c t) (hm.has t)
  have hder : ∀ is, ValidIdx x.shape is → HasDerivAt op.fwd (deriv op.fwd (x.at is)) (x.at is) := by
    intro is hv
    obtain ⟨d, e1, _⟩ := elementwise_backward_partial op (x.at is) (hd is hv)
    rw [e1.deriv]; exact e1
  refine ⟨y, x.shape, fun is => deriv op.fwd (x.at is) * d is, fun t => (hy t).1, moves_of_has (fun t => (hy t).2) ?_, ?_⟩
  · intro is hv
    have h1 := hder is hv
    have h2 := hm.2 is hv
    have : HasDerivAt op.fwd (deriv op.fwd (x.at is)) ((fun t => (c t).at is) 0) := by simp only [hc]; exact h1
    exact HasDerivAt.comp (h := fun t => (c t).at is) (0 : ℝ) this h2
  · intro g hg hgs
    have hx := hm.has 0
    rw [hc] at hx
    have hgh := hg.has
    rw [hgs] at hgh
    obtain ⟨o, u, e1, e2, e3, e4⟩ := elementwise_tensor_partial op cacheF cacheB x g x.shape x.at g.at hx hgh hd
    have : o = y 0 := by
      have := (hy 0).1
      rw [hc, e1] at this
      simpa using this
    subst this
    refine ⟨u, e3, e4.wf, e4.1, pair_congr (fun is hv => ?_)⟩
    rw [e4.at_eq hv]; ring

theorem zip_valid : ∀ {l s is : List Nat}, s.length = l.length → (∀ k (h : k < l.length) (h' : k < s.length), l[k] = s[k] ∨ l[k] = 1) → ValidIdx s is →
    ValidIdx l (List.zipWith (fun d i => if d = 1 then 0 else i) l is)
  | [], [], _, _, _, _ => by simp
  | d :: l, e :: s, [], _, _, h => h.elim
  | d :: l, e :: s, i :: is, hl, hk, h => by
    refine ⟨?_, zip_valid (by simpa using hl) (fun k h1 h2 => ?_) h.2⟩
    · have := hk 0 (by simp) (by simp)
      simp at this
      have h1 := h.1
      dsimp only
      split <;> omega
    · have := hk (k + 1) (by simpa using h1) (by simpa using h2)
      simpa using this
  | [], _ :: _, _, hl, _, _ => by simp at hl
  | _ :: _, [], _, hl, _, _ => by simp at hl

theorem bcIdx_valid {l s is : List Nat} (hb : BroadcastsTo l s) (hv : ValidIdx s is) : ValidIdx l (bcIdx l is) := by
  obtain ⟨pre, s', rfl, e, hk⟩ := broadcastsTo_split hb
  have h1 := hv.length_eq
  have h2 := (flat_append_mod hv).2
  unfold bcIdx
  rw [show is.length - l.length = pre.length by simp at h1; omega]
  exact zip_valid e.symm (fun k a _ => hk k a) h2

/-- Forward action of `plus` (include/operation.hpp lines 531-538): `add` on two tensors with storages of their own. -/
def plusT {α : Type} [Zero α] [Add α] (l r : Ten α) : Res (Ten α) := do
  let (t, h) ← addLike (· + ·) [l.data, r.data] ⟨l.shape, 0⟩ ⟨r.shape, 1⟩
  let b ← rd h t.loc
  pure ⟨t.shape, b⟩

/-- `plus` (C49) as a binary operator. -/
noncomputable def opPlus (red : List ℝ → ℝ) (fuel : Nat) : BOp ℝ := ⟨plusT, fun l r _ g => plusBack red fuel l.shape r.shape g⟩

theorem plusT_ok {α : Type} [Zero α] [Add α] {l r : Ten α} {ls rs : List Nat} {a b : List Nat → α} (hl : l.Has ls a) (hr : r.Has rs b) (hc : Compatible ls rs)
    (ml : ls.getLast? ≠ some minusOne) (mr : rs.getLast? ≠ some minusOne) :
    ∃ c u, broadcastShape ls rs = ok c ∧ plusT l r = ok u ∧ u.Has c (fun is => a (bcIdx ls is) + b (bcIdx rs is)) := by
  obtain ⟨c, t', h', h1, h2, h3, ⟨buf, h4, h5⟩, _⟩ := Tensor.addLike_ok (f := (· + ·)) (h := [l.data, r.data]) (l := ⟨ls, 0⟩) (r := ⟨rs, 1⟩)
    ⟨l.data, rfl, hl.2⟩ ⟨r.data, rfl, hr.2⟩ hc ml mr
  refine ⟨c, ⟨t'.shape, buf⟩, h1, ?_, h3, by rw [h3] at h5; exact h5⟩
  unfold plusT
  rw [hl.1, hr.1, h2, bind_ok]
  dsimp only
  rw [rd_ok h4, bind_ok]
  rfl

/-- Adding tensors of compatible shapes of rank at least one. -/
theorem opPlus_good (red : List ℝ → ℝ) (hred : Reduces (· + ·) red) (fuel : Nat) (x y : Ten ℝ) (s : List Nat) (hs : broadcastShape x.shape y.shape = ok s)
    (hc : Compatible x.shape y.shape) (hx0 : x.shape ≠ []) (hy0 : y.shape ≠ []) (hm : ∀ d ∈ s, d ≠ minusOne)
    (ml : x.shape.getLast? ≠ some minusOne) (mr : y.shape.getLast? ≠ some minusOne) (hrank : s.length < minusOne) (hne : size s ≠ 0) (hf : s.length ≤ fuel) :
    (opPlus red fuel).Good x y := by
  intro c d b e hc0 hcm hb0 hbm
  have key := fun t => plusT_ok (hcm.has t) (hbm.has t) hc ml mr
  choose c' z hz using key
  have hc' : ∀ t, c' t = s := by
    intro t
    have := (hz t).1
    rw [hs] at this
    exact (by simpa using this.symm)
  have hz2 : ∀ t, plusT (c t) (b t) = ok (z t) ∧ (z t).Has s (fun is => (c t).at (bcIdx x.shape is) + (b t).at (bcIdx y.shape is)) := by
    intro t
    refine ⟨(hz t).2.1, ?_⟩
    have := (hz t).2.2
    rwa [hc' t] at this
  have hbl : BroadcastsTo x.shape s ∧ BroadcastsTo y.shape s := by
    obtain ⟨s', h1, h2, h3⟩ := Tensor.broadcastShape_ok hc
    rw [hs] at h1
    obtain rfl : s = s' := by simpa using h1
    exact ⟨Tensor.broadcastsTo_left h2 h3, Tensor.broadcastsTo_right hc h2 h3⟩
  refine ⟨z, s, fun is => d (bcIdx x.shape is) + e (bcIdx y.shape is), fun t => (hz2 t).1, moves_of_has (fun t => (hz2 t).2) ?_, ?_⟩
  · intro is hv
    refine HasDerivAt.add (hcm.2 _ ?_) (hbm.2 _ ?_)
    · exact bcIdx_valid hbl.1 hv
    · exact bcIdx_valid hbl.2 hv
  · intro g hg hgs
    have hgh := hg.has
    rw [hgs] at hgh
    obtain ⟨dl, dr, δl, δr, h1, h2, h3, h4⟩ := plus_backward_partial red hred x.shape y.shape s hbl.1 hbl.2 hx0 hy0 hm hrank g g.at hgh hne fuel hf
    refine ⟨dl, dr, h1, h2.wf, h2.1, h3.wf, h3.1, ?_⟩
    have := h4 d e
    unfold pair
    rw [← this]
    congr 1
    · exact sumIdx_congr (fun is hv => by rw [h2.at_eq hv])
    · exact sumIdx_congr (fun is hv => by rw [h3.at_eq hv])

/-- The matrix product (C50) as a binary operator; the caches hold anything. -/
noncomputable def opMatmul (cache cacheL cacheR : Ten ℝ) : BOp ℝ := ⟨matmul cache, fun l r _ g => matmulBack cacheL cacheR l r g⟩

theorem opMatmul_good (cache cacheL cacheR x y : Ten ℝ) (m k n : Nat) (hx : x.shape = [m, k]) (hy : y.shape = [k, n]) (hm : 0 < m) (hk : 0 < k) (hn : 0 < n) :
    (opMatmul cache cacheL cacheR).Good x y := by
  intro c d b e hc0 hcm hb0 hbm
  rw [hx] at hcm
  rw [hy] at hbm
  choose z hz using fun t => matmul_forward cache (c t) (b t) m k n (c t).at (b t).at (hcm.has t) (hbm.has t) hm hk hn
  refine ⟨z, [m, n], fun is => ∑ p ∈ Finset.range k, (d [is[0]?.getD 0, p] * y.at [p, is[1]?.getD 0] + x.at [is[0]?.getD 0, p] * e [p, is[1]?.getD 0]),
    fun t => (hz t).1, moves_of_has (fun t => (hz t).2) ?_, ?_⟩
  · intro is hv
    match is, hv with
    | [i, j], hv =>
      simp only [List.getElem?_cons_zero, List.getElem?_cons_succ, Option.getD_some]
      refine HasDerivAt.fun_sum (fun p hp => ?_)
      have h1 := hcm.2 [i, p] ⟨hv.1, Finset.mem_range.mp hp, trivial⟩
      have h2 := hbm.2 [p, j] ⟨Finset.mem_range.mp hp, hv.2.1, trivial⟩
      have := h1.mul h2
      simp only [hc0, hb0] at this
      exact this
  · intro g hg hgs
    have hgh := hg.has
    rw [hgs] at hgh
    have h0 := hcm.has 0
    rw [hc0] at h0
    have h0' := hbm.has 0
    rw [hb0] at h0'
    obtain ⟨dl, dr, δl, δr, h1, h2, h3, h4⟩ := matmul_adjoint cacheL cacheR x y g m k n x.at y.at g.at h0 h0' hgh
    refine ⟨dl, dr, h1, h2.wf, by rw [h2.1, hx], h3.wf, by rw [h3.1, hy], ?_⟩
    unfold pair
    rw [← h4 (fun i j => d [i, j]) (fun i j => e [i, j]), hx, hy]
    congr 1
    · refine sumIdx_congr (fun is hv => ?_)
      match is, hv with
      | [i, j], hv => rw [h2.at_eq hv]; rfl
    · refine sumIdx_congr (fun is hv => ?_)
      match is, hv with
      | [i, j], hv => rw [h3.at_eq hv]; rfl

/-- `sum_reduce` (include/operation.hpp lines 921-940) as a unary operator. -/
noncomputable def opSum : UOp ℝ := ⟨sumReduce, fun x _ g => sumReduceBack x g⟩

theorem opSum_good (x : Ten ℝ) (hs : size x.shape ≠ 0) : opSum.Good x := by
  intro c d hc hm
  have key := fun t => (sum_reduce_adjoint (c t) (⟨[1], [0]⟩ : Ten ℝ) x.shape (c t).at 0 (hm.has t) hs rfl).1
  refine ⟨fun t => ⟨[1], [sumIdx x.shape (c t).at]⟩, [1], fun _ => sumIdx x.shape d, key, ⟨fun t => ⟨rfl, rfl⟩, ?_⟩, ?_⟩
  · intro is hv
    match is, hv with
    | [0], _ => exact hasDerivAt_sumIdx (fun is hv => hm.2 is hv)
  · intro g hg hgs
    obtain ⟨v, hgd⟩ : ∃ v, g.data = [v] := by
      have : g.data.length = 1 := by rw [hg, hgs]; rfl
      match hd : g.data, this with
      | [v], _ => exact ⟨v, rfl⟩
    have hx := hm.has 0
    rw [hc] at hx
    obtain ⟨_, u, h1, h2⟩ := sum_reduce_adjoint x g x.shape x.at v hx hs hgd
    refine ⟨u, h1, h2.wf, h2.1, ?_⟩
    have e1 : pair x.shape u.at d = sumIdx x.shape (fun is => v * d is) := sumIdx_congr (fun is hv => by rw [h2.at_eq hv])
    have e2 : g.at [0] = v := by unfold Ten.at; rw [hgs, hgd]; rfl
    rw [e1, sumIdx_mul_left]
    unfold pair
    simp [sumIdx, e2]

/-- The element-wise product (C81) as a binary operator. -/
noncomputable def opEwp (red : List ℝ → ℝ) (fuel : Nat) : BOp ℝ := ⟨elementwiseProduct, fun l r _ g => ewpBack red fuel l r g⟩

theorem opEwp_good (red : List ℝ → ℝ) (hred : Reduces (· + ·) red) (fuel : Nat) (x y : Ten ℝ) (pre t : List Nat) (hx : x.shape = pre ++ t) (hy : y.shape = t)
    (ht : t ≠ []) (hs : size (pre ++ t) ≠ 0) (hm : ∀ d ∈ pre ++ t, d ≠ minusOne) (hrank : (pre ++ t).length < minusOne) (hf : (pre ++ t).length ≤ fuel) :
    (opEwp red fuel).Good x y := by
  intro c d b e hc0 hcm hb0 hbm
  rw [hx] at hcm
  rw [hy] at hbm
  choose z hz using fun τ => ewp_suffix (hcm.has τ) (hbm.has τ) hs
  refine ⟨z, pre ++ t, fun is => d is * y.at (is.drop pre.length) + x.at is * e (is.drop pre.length),
    fun τ => (hz τ).1, moves_of_has (fun τ => (hz τ).2) ?_, ?_⟩
  · intro is hv
    have h1 := hcm.2 is hv
    have h2 := hbm.2 _ (flat_append_mod hv).2
    have := h1.mul h2
    simp only [hc0, hb0] at this
    exact this
  · intro g hg hgs
    have hgh := hg.has
    rw [hgs] at hgh
    have h0 := hcm.has 0
    rw [hc0] at h0
    have h0' := hbm.has 0
    rw [hb0] at h0'
    obtain ⟨_, dl, dr, δl, δr, h1, h2, h3, h4⟩ := elementwise_product_backward_partial red hred x y g pre t x.at y.at g.at ht h0 h0' hgh hs hm hrank fuel hf
    refine ⟨dl, dr, h1, h2.wf, by rw [h2.1, hx], h3.wf, by rw [h3.1, hy], ?_⟩
    unfold pair
    rw [← h4 d e, hx, hy]
    congr 1
    · exact sumIdx_congr (fun is hv => by rw [h2.at_eq hv])
    · exact sumIdx_congr (fun is hv => by rw [h3.at_eq hv])

end Verif.Graph
