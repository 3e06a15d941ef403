import Verif.Net.Ops
import Verif.Pool.Max
import Mathlib.Topology.Order.OrderClosed
import Mathlib.Order.Filter.Finite
/-!
# Max pooling in expressions

Helper theorems for C105: the value of `max_pooling_2d`, and that it is `Good` where every window has one largest element.
-/
namespace Verif.Net
open Verif Res View Data Ops Graph Loss Pool

noncomputable section

/-- Every complete window of side `n` has one element larger than all its others. -/
def Peaks (n BS R C CH : Nat) (a : List Nat → ℝ) : Prop :=
  ∀ b r c ch, b < BS → r < R / n → c < C / n → ch < CH → ∃ y x, InWindow n r c y x ∧
    ∀ y' x', InWindow n r c y' x' → (y' ≠ y ∨ x' ≠ x) → a [b, y', x', ch] < a [b, y, x, ch]

theorem windowMax_eq {n r c y x b ch : Nat} {a : List Nat → ℝ} (hw : InWindow n r c y x) (hm : ∀ y' x', InWindow n r c y' x' → a [b, y', x', ch] ≤ a [b, y, x, ch]) :
    windowMax n a [b, r, c, ch] = a [b, y, x, ch] := by
  obtain ⟨h1, h2, h3, h4⟩ := hw
  have hn : 0 < n := by omega
  have : Nonempty (Fin n × Fin n) := ⟨⟨0, hn⟩, ⟨0, hn⟩⟩
  unfold windowMax
  simp only [List.getD_cons_zero, List.getD_cons_succ]
  refine le_antisymm (ciSup_le (fun p => hm _ _ ⟨by omega, by have := p.1.2; omega, by omega, by have := p.2.2; omega⟩)) ?_
  have := le_ciSup (f := fun p : Fin n × Fin n => a [b, r * n + p.1, c * n + p.2, ch]) (Set.finite_range _).bddAbove (⟨y - r * n, by omega⟩, ⟨x - c * n, by omega⟩)
  simp only [Nat.add_sub_of_le h1, Nat.add_sub_of_le h3] at this
  exact this

theorem maxPool_values {n BS R C CH : Nat} {t mask cache : Ten ℝ} {a : List Nat → ℝ} (hn : 1 < n) (ht : t.Has [BS, R, C, CH] a) :
    ∃ u m, maxPool n t mask cache = ok (u, m) ∧ u.Has [BS, R / n, C / n, CH] (windowMax n a) := by
  obtain ⟨u, m, v, h1, h2, h3⟩ := max_pool_window_max n BS R C CH t mask cache a hn ht
  refine ⟨u, m, h1, h2.congr (fun is hv => ?_)⟩
  match is, hv with
  | [b, r, c, ch], hv =>
    obtain ⟨⟨y, x, hw, e⟩, hm⟩ := h3 b r c ch hv.1 hv.2.1 hv.2.2.1 hv.2.2.2.1
    rw [e, windowMax_eq hw (fun y' x' h => by rw [← e]; exact hm y' x' h)]

theorem windowMax_deriv {n r c y x b ch : Nat} {a : ℝ → List Nat → ℝ} {d : List Nat → ℝ} (hw : InWindow n r c y x)
    (hd : ∀ y' x', InWindow n r c y' x' → HasDerivAt (fun t => a t [b, y', x', ch]) (d [b, y', x', ch]) 0)
    (hm : ∀ y' x', InWindow n r c y' x' → (y' ≠ y ∨ x' ≠ x) → a 0 [b, y', x', ch] < a 0 [b, y, x, ch]) :
    HasDerivAt (fun t => windowMax n (a t) [b, r, c, ch]) (d [b, y, x, ch]) 0 := by
  refine (hd y x hw).congr_of_eventuallyEq ?_
  have key : ∀ p : Fin n × Fin n, ∀ᶠ t in nhds (0 : ℝ), a t [b, r * n + p.1, c * n + p.2, ch] ≤ a t [b, y, x, ch] := by
    intro p
    have hp : InWindow n r c (r * n + p.1) (c * n + p.2) := ⟨by omega, by have := p.1.2; omega, by omega, by have := p.2.2; omega⟩
    by_cases h : r * n + p.1 ≠ y ∨ c * n + p.2 ≠ x
    · filter_upwards [(hd _ _ hp).continuousAt.eventually_lt (hd y x hw).continuousAt (hm _ _ hp h)] with t ht
      exact ht.le
    · push Not at h
      rw [h.1, h.2]
      exact Filter.Eventually.of_forall (fun t => le_refl _)
  filter_upwards [Filter.eventually_all.mpr key] with t ht
  refine windowMax_eq hw (fun y' x' h => ?_)
  obtain ⟨h1, h2, h3, h4⟩ := h
  have := ht (⟨y' - r * n, by omega⟩, ⟨x' - c * n, by omega⟩)
  simpa only [Nat.add_sub_of_le h1, Nat.add_sub_of_le h3] using this

theorem opMaxPool_good (K : Kit) {n BS R C CH : Nat} {x mask gcache : Ten ℝ} (hn : 1 < n) (hxs : x.shape = [BS, R, C, CH]) (hp : Peaks n BS R C CH x.at)
    (hmask : Blank mask [BS, R, C, CH]) (hg : Blank gcache [BS, R, C, CH]) : (opMaxPool K n mask gcache).Good x := by
  intro c d hc hm
  rw [hxs] at hm ⊢
  have hex : ∀ b r c' ch, ∃ k : Nat × Nat, b < BS → r < R / n → c' < C / n → ch < CH → InWindow n r c' k.1 k.2 ∧
      ∀ y' x', InWindow n r c' y' x' → (y' ≠ k.1 ∨ x' ≠ k.2) → x.at [b, y', x', ch] < x.at [b, k.1, k.2, ch] := by
    intro b r c' ch
    by_cases h : b < BS ∧ r < R / n ∧ c' < C / n ∧ ch < CH
    · obtain ⟨y, z, h1, h2⟩ := hp b r c' ch h.1 h.2.1 h.2.2.1 h.2.2.2
      exact ⟨(y, z), fun _ _ _ _ => ⟨h1, h2⟩⟩
    · exact ⟨(0, 0), fun h1 h2 h3 h4 => absurd ⟨h1, h2, h3, h4⟩ h⟩
  choose pos hpos using hex
  choose u m hu using fun t => maxPool_values (mask := mask) (cache := K.cacheF) hn (hm.has t)
  refine ⟨u, [BS, R / n, C / n, CH], fun is => d [is.getD 0 0, (pos (is.getD 0 0) (is.getD 1 0) (is.getD 2 0) (is.getD 3 0)).1,
    (pos (is.getD 0 0) (is.getD 1 0) (is.getD 2 0) (is.getD 3 0)).2, is.getD 3 0], fun t => ?_, moves_of_has (fun t => (hu t).2) (fun is hv => ?_), fun g hgw hgs => ?_⟩
  · show (maxPool n (c t) mask K.cacheF >>= fun um => pure um.1) = _
    rw [(hu t).1, bind_ok]; rfl
  · match is, hv with
    | [b, r, c', ch], hv =>
      obtain ⟨h1, h2⟩ := hpos b r c' ch hv.1 hv.2.1 hv.2.2.1 hv.2.2.2.1
      refine windowMax_deriv h1 (fun y' x' hw => ?_) (fun y' x' hw hne => ?_)
      · have := hw.lt hv.2.1 hv.2.2.1
        exact hm.2 _ ⟨hv.1, this.1, this.2, hv.2.2.2.1, trivial⟩
      · rw [hc]
        exact h2 y' x' hw hne
  · have hx : x.Has [BS, R, C, CH] x.at := by have := hm.has 0; rwa [hc] at this
    have hgh := hgw.has
    rw [hgs] at hgh
    obtain ⟨uu, mm, dd, v, k1, k2, k3, k4⟩ := max_pool_backward_partial n BS R C CH x mask K.cacheF g gcache x.at g.at hn hx hgh hmask hg
    have hpk : ∀ b r c' ch, b < BS → r < R / n → c' < C / n → ch < CH → IsWindowMax n r c' (fun y z => x.at [b, y, z, ch]) (pos b r c' ch).1 (pos b r c' ch).2 := by
      intro b r c' ch h1 h2 h3 h4
      obtain ⟨q1, q2⟩ := hpos b r c' ch h1 h2 h3 h4
      refine ⟨q1, fun y' x' hw => ⟨?_, fun hlt => q2 y' x' hw (by omega)⟩⟩
      by_cases hne : y' ≠ (pos b r c' ch).1 ∨ x' ≠ (pos b r c' ch).2
      · exact (q2 y' x' hw hne).le
      · push Not at hne
        rw [hne.1, hne.2]
    refine ⟨dd, ?_, k3.wf, k3.1, ?_⟩
    · show (maxPool n x mask K.cacheF >>= fun um => maxPoolBack n x um.2 g gcache) = _
      rw [k1, bind_ok]; exact k2
    · have hdd : pair [BS, R, C, CH] dd.at d = pair [BS, R, C, CH] v d := sumIdx_congr (fun is hv => by rw [k3.at_eq hv])
      rw [hdd]
      unfold pair
      simp only [sumIdx, List.getD_cons_zero, List.getD_cons_succ]
      simp only [← Finset.sum_product']
      symm
      refine Finset.sum_of_injOn (fun q => (q.1, (pos q.1 q.2.1 q.2.2.1 q.2.2.2).1, (pos q.1 q.2.1 q.2.2.1 q.2.2.2).2, q.2.2.2)) ?_ ?_ ?_ ?_
      · rintro ⟨b, r, c', ch⟩ h ⟨b', r', c'', ch'⟩ h' e
        simp only [Finset.coe_product, Set.mem_prod, Finset.coe_range, Set.mem_Iio, Prod.mk.injEq] at h h' e ⊢
        have w1 := (hpk b r c' ch h.1 h.2.1 h.2.2.1 h.2.2.2).1.div
        have w2 := (hpk b' r' c'' ch' h'.1 h'.2.1 h'.2.2.1 h'.2.2.2).1.div
        refine ⟨e.1, ?_, ?_, e.2.2.2⟩
        · rw [← w1.1, ← w2.1, e.2.1]
        · rw [← w1.2, ← w2.2, e.2.2.1]
      · rintro ⟨b, r, c', ch⟩ h
        simp only [Finset.coe_product, Set.mem_prod, Finset.coe_range, Set.mem_Iio] at h ⊢
        have := (hpk b r c' ch h.1 h.2.1 h.2.2.1 h.2.2.2).1.lt h.2.1 h.2.2.1
        exact ⟨h.1, this.1, this.2, h.2.2.2⟩
      · rintro ⟨b, y, z, ch⟩ h hno
        simp only [Finset.mem_product, Finset.mem_range] at h
        rw [(k4 b y z ch h.1 h.2.1 h.2.2.1 h.2.2.2).2, zero_mul]
        rintro ⟨r, c', hr, hc', hw⟩
        have := hw.unique (hpk b r c' ch h.1 hr hc' h.2.2.2)
        refine hno ⟨(b, r, c', ch), ?_, ?_⟩
        · simp only [Finset.coe_product, Set.mem_prod, Finset.coe_range, Set.mem_Iio]
          exact ⟨h.1, hr, hc', h.2.2.2⟩
        · show (b, (pos b r c' ch).1, (pos b r c' ch).2, ch) = _
          rw [← this.1, ← this.2]
      · rintro ⟨b, r, c', ch⟩ h
        simp only [Finset.mem_product, Finset.mem_range] at h
        have hw := hpk b r c' ch h.1 h.2.1 h.2.2.1 h.2.2.2
        have hl := hw.1.lt h.2.1 h.2.2.1
        dsimp only
        rw [(k4 b _ _ ch h.1 hl.1 hl.2 h.2.2.2).1 r c' h.2.1 h.2.2.1 hw]

section
variable {K : Kit} {L D : Nat → Ten ℝ} {n BS R C CH : Nat} {mask gcache : Ten ℝ} {e : Ex ℝ} {a : List Nat → ℝ}

theorem ev_maxPool (he : Ev L D e [BS, R, C, CH] a) (hn : 1 < n) (i : Nat) :
    Ev L D (.un i (opMaxPool K n mask gcache) e) [BS, R / n, C / n, CH] (windowMax n a) := by
  obtain ⟨x, h1, h2⟩ := he
  obtain ⟨u, m, k1, k2⟩ := maxPool_values (mask := mask) (cache := K.cacheF) hn h2
  refine ⟨u, ?_, k2⟩
  rw [eval, h1, bind_ok]
  show (maxPool n x mask K.cacheF >>= fun um => pure um.1) = _
  rw [k1, bind_ok]; rfl

theorem smooth_maxPool (he : Ev L D e [BS, R, C, CH] a) (hs : Smooth L D e) (hn : 1 < n) (hp : Peaks n BS R C CH a) (hmask : Blank mask [BS, R, C, CH])
    (hg : Blank gcache [BS, R, C, CH]) (i : Nat) : Smooth L D (.un i (opMaxPool K n mask gcache) e) := by
  obtain ⟨x, h1, h2⟩ := he
  refine ⟨hs, fun x' hx' => ?_⟩
  rw [h1] at hx'
  cases hx'
  refine opMaxPool_good K hn h2.1 (fun b r c ch hb hr hc hch => ?_) hmask hg
  obtain ⟨y, z, q1, q2⟩ := hp b r c ch hb hr hc hch
  refine ⟨y, z, q1, fun y' z' hw hne => ?_⟩
  have l1 := q1.lt hr hc
  have l2 := hw.lt hr hc
  rw [h2.at_eq (is := [b, y, z, ch]) ⟨hb, l1.1, l1.2, hch, trivial⟩, h2.at_eq (is := [b, y', z', ch]) ⟨hb, l2.1, l2.2, hch, trivial⟩]
  exact q2 y' z' hw hne

end
end
end Verif.Net
