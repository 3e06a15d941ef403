import Verif.Pool.Lemmas
/-!
# C42, C43: average_pooling_2d and up_sampling_2d
-/
namespace Verif.Pool
open Verif Res View Data

variable {α : Type}

/-- Summing block by block is summing over the whole plane. -/
theorem block_sum [AddCommMonoid α] (m n k s : Nat) (F : Nat → Nat → Nat → α) :
    ∑ r ∈ Finset.range m, ∑ c ∈ Finset.range n, ∑ ch ∈ Finset.range k, ∑ i ∈ Finset.range s, ∑ j ∈ Finset.range s,
      F (r * s + i) (c * s + j) ch =
    ∑ y ∈ Finset.range (m * s), ∑ x ∈ Finset.range (n * s), ∑ ch ∈ Finset.range k, F y x ch := by
  rw [sum_mul_split]
  refine Finset.sum_congr rfl (fun r _ => ?_)
  have e : ∀ c, ∑ ch ∈ Finset.range k, ∑ i ∈ Finset.range s, ∑ j ∈ Finset.range s, F (r * s + i) (c * s + j) ch =
      ∑ i ∈ Finset.range s, ∑ j ∈ Finset.range s, ∑ ch ∈ Finset.range k, F (r * s + i) (c * s + j) ch := by
    intro c
    rw [Finset.sum_comm]
    exact Finset.sum_congr rfl (fun i _ => Finset.sum_comm)
  simp only [e]
  rw [Finset.sum_comm]
  exact Finset.sum_congr rfl (fun i _ => (sum_mul_split n s (fun x => ∑ ch ∈ Finset.range k, F (r * s + i) x ch)).symm)

theorem mul_add_div' {s r i : Nat} (hi : i < s) : (r * s + i) / s = r := by
  rw [Nat.mul_comm, Nat.mul_add_div (by omega), Nat.div_eq_of_lt hi, Nat.add_zero]

/-! ### C42 -/

/-- C42: forward of `average_pooling_2d` returns the mean of every complete window. -/
theorem avg_pool_mean [Field α] (s BS R C CH : Nat) (t cache : Ten α) (a : List Nat → α) (hs : 1 < s)
    (ht : t.Has [BS, R, C, CH] a) :
    ∃ (u : Ten α) (v : List Nat → α), avgPool s t cache = ok u ∧ u.Has [BS, R / s, C / s, CH] v ∧
      ∀ b r c ch, v [b, r, c, ch] =
        (∑ i ∈ Finset.range s, ∑ j ∈ Finset.range s, a [b, r * s + i, c * s + j, ch]) / ((s * s : Nat) : α) := by
  obtain ⟨hsh, hd⟩ := ten4 ht
  obtain ⟨o', h1, h2⟩ := accum4 (k := BS) (l := R / s) (m := C / s) (n := CH)
    (body := fun b r c ch o => loopFrom (r * s) (r * s + s) (fun y o => loopFrom (c * s) (c * s + s) (fun x o => do
        let v ← rd t.data (at4 BS R C CH b y x ch)
        addAt o (at4 BS (R / s) (C / s) CH b r c ch) (v * (1 / ((s * s : Nat) : α)))) o) o)
    (f := fun b r c ch => ∑ i ∈ Finset.range s, ∑ j ∈ Finset.range s, a [b, r * s + i, c * s + j, ch] * (1 / ((s * s : Nat) : α)))
    (by
      intro b r c ch hb hr hc hch
      simp only [loopFrom_add]
      refine adds_cell2 (idx4_lt hb hr hc hch) (fun i j o hi hj ho => ?_)
      simp only [at4_eq]
      rw [hd.rd hb (win_lt hr hi) (win_lt hc hj) hch, bind_ok])
  refine ⟨⟨[BS, R / s, C / s, CH], o'⟩, fun is => match is with
    | [b, r, c, ch] => ∑ i ∈ Finset.range s, ∑ j ∈ Finset.range s, a [b, r * s + i, c * s + j, ch] * (1 / ((s * s : Nat) : α))
    | _ => 0, ?_, has4 rfl h2 (fun _ _ _ _ _ _ _ _ => rfl), ?_⟩
  · unfold avgPool
    rw [assert_true hs, bind_ok, hsh]
    dsimp only
    rw [fill0, bind_ok, size4, h1, bind_ok]; rfl
  · intro b r c ch
    dsimp only
    simp only [← Finset.sum_mul]
    rw [mul_one_div]

example : avgPool 2 ⟨[1, 2, 5, 1], [3, 1, 4, 1, 5, 9, 2, 6, 5, (3 : ℚ)]⟩ ⟨[], []⟩ =
    ok ⟨[1, 1, 2, 1], [15 / 4, 4]⟩ := by decide +kernel

/-- Backward of average pooling, when the stride divides the sizes. -/
theorem avgPoolBack_ok [Field α] {s BS R C CH : Nat} {t grad cache : Ten α} {g : List Nat → α}
    (ht : t.shape = [BS, R, C, CH]) (hg : grad.Has [BS, R / s, C / s, CH] g) (hR : s ∣ R) (hC : s ∣ C) :
    ∃ d : Ten α, avgPoolBack s t grad cache = ok d ∧ d.shape = [BS, R, C, CH] ∧
      Is4 d.data BS R C CH (fun b y x ch => 1 / ((s * s : Nat) : α) * g [b, y / s, x / s, ch]) := by
  obtain ⟨-, hgd⟩ := ten4 hg
  obtain ⟨o', h1, h2⟩ := fill4 (k := BS) (l := R) (m := C) (n := CH)
    (body := fun b r c ch o => do
      let g ← rd grad.data (at4 BS (R / s) (C / s) CH b (r / s) (c / s) ch)
      wr o (at4 BS R C CH b r c ch) (1 / ((s * s : Nat) : α) * g))
    (f := fun b y x ch => 1 / ((s * s : Nat) : α) * g [b, y / s, x / s, ch])
    (by
      intro b y x ch o hb hy hx hch ho
      simp only [at4_eq]
      rw [hgd.rd hb (Nat.div_lt_div_of_lt_of_dvd hR hy) (Nat.div_lt_div_of_lt_of_dvd hC hx) hch, bind_ok])
    (out := (resizeV cache [BS, R, C, CH]).data) (by rw [resizeV_length, size4])
  refine ⟨⟨[BS, R, C, CH], o'⟩, ?_, rfl, h2⟩
  unfold avgPoolBack
  rw [ht]
  dsimp only
  rw [h1, bind_ok]; rfl

/-- C42: when the stride divides both sizes, backward of `average_pooling_2d` is the adjoint of forward: for every input `x` and
gradient `g`, `<forward x, g> = <x, backward g>`, whatever the caches held.
Missing: other sizes (see `avg_pool_backward_violated`). -/
theorem avg_pool_adjoint_partial [Field α] (s BS R C CH : Nat) (t cache grad gcache : Ten α) (a g : List Nat → α) (hs : 1 < s)
    (ht : t.Has [BS, R, C, CH] a) (hg : grad.Has [BS, R / s, C / s, CH] g) (hR : s ∣ R) (hC : s ∣ C) :
    ∃ u d, avgPool s t cache = ok u ∧ avgPoolBack s t grad gcache = ok d ∧ d.shape = t.shape ∧
      dot u.data grad.data = dot t.data d.data := by
  obtain ⟨u, v, u1, u2, u3⟩ := avg_pool_mean s BS R C CH t cache a hs ht
  obtain ⟨d, d1, d2, d3⟩ := avgPoolBack_ok (cache := gcache) ht.1 hg hR hC
  refine ⟨u, d, u1, d1, by rw [d2, ht.1], ?_⟩
  rw [dot4 (ten4 u2).2 (ten4 hg).2, dot4 (ten4 ht).2 d3]
  refine Finset.sum_congr rfl (fun b _ => ?_)
  obtain ⟨m, rfl⟩ := hR
  obtain ⟨n, rfl⟩ := hC
  have hs0 : 0 < s := by omega
  rw [Nat.mul_div_cancel_left _ hs0, Nat.mul_div_cancel_left _ hs0, Nat.mul_comm s m, Nat.mul_comm s n,
    ← block_sum m n CH s (fun y x ch => a [b, y, x, ch] * (1 / ((s * s : Nat) : α) * g [b, y / s, x / s, ch]))]
  refine Finset.sum_congr rfl (fun r _ => Finset.sum_congr rfl (fun c _ => Finset.sum_congr rfl (fun ch _ => ?_)))
  rw [u3, div_eq_mul_one_div, mul_assoc, Finset.sum_mul]
  refine Finset.sum_congr rfl (fun i hi => ?_)
  rw [Finset.sum_mul]
  refine Finset.sum_congr rfl (fun j hj => ?_)
  rw [mul_add_div' (Finset.mem_range.mp hi), mul_add_div' (Finset.mem_range.mp hj)]

example : (avgPoolBack 2 (⟨[1, 2, 4, 1], [3, 1, 4, 1, 5, 9, 2, 6]⟩ : Ten ℚ) ⟨[1, 1, 2, 1], [4, 8]⟩ ⟨[], []⟩) =
    ok ⟨[1, 2, 4, 1], [1, 1, 2, 2, 1, 1, 2, 2]⟩ := by decide +kernel

/-- C42 is violated: whenever the stride does not divide a size, backward reads the gradient out of bounds, for every non-empty
input and every gradient of forward's shape. -/
theorem avg_pool_backward_violated [Zero α] [One α] [Mul α] [Div α] [NatCast α] (s BS R C CH : Nat) (t grad cache : Ten α) (g : List Nat → α) (hs : 1 < s)
    (ht : t.shape = [BS, R, C, CH]) (hg : grad.Has [BS, R / s, C / s, CH] g)
    (h0 : 0 < BS ∧ 0 < R ∧ 0 < C ∧ 0 < CH) (hdiv : ¬ (s ∣ R ∧ s ∣ C)) (u : Ten α) : avgPoolBack s t grad cache ≠ ok u := by
  intro h
  obtain ⟨hB, hR0, hC0, hCH⟩ := h0
  have hs0 : 0 < s := by omega
  have hlast : ∀ N, 0 < N → s ∣ N → (N - 1) / s + 1 = N / s := by
    intro N hN hd
    obtain ⟨m, rfl⟩ := hd
    have hm : 0 < m := Nat.pos_of_mul_pos_left hN
    obtain ⟨k, rfl⟩ : ∃ k, m = k + 1 := ⟨m - 1, by omega⟩
    rw [Nat.mul_div_cancel_left _ hs0, show s * (k + 1) - 1 = s * k + (s - 1) by rw [Nat.mul_succ]; omega, Nat.mul_add_div hs0,
      Nat.div_eq_of_lt (by omega)]
  have hlast' : ∀ N, 0 < N → ¬ s ∣ N → (N - 1) / s = N / s := by
    intro N hN hd
    have hm : N % s ≠ 0 := fun e => hd (Nat.dvd_of_mod_eq_zero e)
    have h1 := Nat.div_add_mod N s
    have h2 := Nat.mod_lt N hs0
    have e : N - 1 = s * (N / s) + (N % s - 1) := by omega
    rw [e, Nat.mul_add_div hs0, Nat.div_eq_of_lt (show N % s - 1 < s by omega), Nat.add_zero]
  unfold avgPoolBack at h
  rw [ht] at h
  dsimp only at h
  obtain ⟨z, hz, _⟩ := bind_eq_ok.mp h
  obtain ⟨_, _, hz⟩ := loop_ok_step hz (i := BS - 1) (by omega)
  obtain ⟨_, _, hz⟩ := loop_ok_step hz (i := R - 1) (by omega)
  have hbad : ∀ x, x < C → grad.data.length ≤ ((((BS - 1) * (R / s) + (R - 1) / s) * (C / s) + x / s) * CH + 0) → False := by
    intro x hx hle
    obtain ⟨_, _, hz⟩ := loop_ok_step hz (i := x) hx
    obtain ⟨_, _, hz⟩ := loop_ok_step hz (i := 0) hCH
    rw [at4_eq, rd_ub hle, bind_ub] at hz
    cases hz
  have hlen : grad.data.length = BS * (R / s) * (C / s) * CH := by rw [hg.2.1, size4]
  obtain ⟨k, rfl⟩ : ∃ k, BS = k + 1 := ⟨BS - 1, by omega⟩
  by_cases hR : s ∣ R
  · have hC : ¬ s ∣ C := fun e => hdiv ⟨hR, e⟩
    refine hbad (C - 1) (by omega) (le_of_eq ?_)
    rw [hlen, hlast' C hC0 hC, ← hlast R hR0 hR, Nat.add_sub_cancel]
    ring
  · refine hbad 0 hC0 ?_
    rw [hlen, hlast' R hR0 hR, Nat.zero_div, Nat.add_sub_cancel]
    exact le_of_eq (by ring)

example : avgPoolBack 2 (⟨[1, 3, 3, 1], [1, 2, 3, 4, 5, 6, 7, 8, 9]⟩ : Ten ℚ) ⟨[1, 1, 1, 1], [1]⟩ ⟨[], []⟩ = ub := by decide +kernel

/-! ### C43 -/

/-- C43: `up_sampling_2d` repeats every pixel `s` by `s` times. -/
theorem up_sampling_values [Zero α] (s BS R C CH : Nat) (t cache : Ten α) (a : List Nat → α) (hs : 1 < s)
    (ht : t.Has [BS, R, C, CH] a) :
    ∃ (u : Ten α) (v : List Nat → α), upSample s t cache = ok u ∧ u.Has [BS, R * s, C * s, CH] v ∧
      ∀ b y x ch, v [b, y, x, ch] = a [b, y / s, x / s, ch] := by
  obtain ⟨hsh, hd⟩ := ten4 ht
  have hs0 : 0 < s := by omega
  have hsets : Sets (fun o => loop BS (fun b o => loop R (fun r o => loop C (fun c o => loop CH (fun ch o =>
      loopFrom (r * s) (r * s + s) (fun y o => loopFrom (c * s) (c * s + s) (fun x o => do
        let v ← rd t.data (at4 BS R C CH b r c ch)
        wr o (at4 BS (R * s) (C * s) CH b y x ch) v) o) o) o) o) o) o) (BS * (R * s) * (C * s) * CH)
      (fun p => ∃ b, b < BS ∧ ∃ r, r < R ∧ ∃ c, c < C ∧ ∃ ch, ch < CH ∧ ∃ i, i < s ∧ ∃ j, j < s ∧
        p = ((b * (R * s) + (r * s + i)) * (C * s) + (c * s + j)) * CH + ch)
      (fun p => a [(dec4 (R * s) (C * s) CH p).1, (dec4 (R * s) (C * s) CH p).2.1 / s, (dec4 (R * s) (C * s) CH p).2.2.1 / s,
        (dec4 (R * s) (C * s) CH p).2.2.2]) := by
    simp only [loopFrom_add]
    refine Sets.loop (fun b hb => Sets.loop (fun r hr => Sets.loop (fun c hc => Sets.loop (fun ch hch => Sets.loop (fun i hi =>
      Sets.loop (fun j hj => ?_))))))
    have e1 := lt_mul_of_lt hr hi
    have e2 := lt_mul_of_lt hc hj
    refine Sets.congr_prog (sets_wr (x := a [b, r, c, ch]) (idx4_lt hb e1 e2 hch) (by
      rw [dec4_enc e1 e2 hch]; dsimp only; rw [mul_add_div' hi, mul_add_div' hj])) (fun o ho => ?_)
    simp only [at4_eq]
    rw [hd.rd hb hr hc hch, bind_ok]
  obtain ⟨o', h1, h2, h3⟩ := hsets.total (fun p hp => by
    obtain ⟨b, y, x, ch, hb, hy, hx, hch, rfl⟩ := exists_dec4 hp
    obtain ⟨r, i, hr, hi, rfl⟩ := exists_div_mod hy
    obtain ⟨c, j, hc, hj, rfl⟩ := exists_div_mod hx
    exact ⟨b, hb, r, hr, c, hc, ch, hch, i, hi, j, hj, rfl⟩) (o := List.replicate (size [BS, R * s, C * s, CH]) 0) (by simp; ring)
  refine ⟨⟨[BS, R * s, C * s, CH], o'⟩, fun is => match is with
    | [b, y, x, ch] => a [b, y / s, x / s, ch]
    | _ => 0, ?_, ⟨rfl, is4_iff.mpr ⟨h2, fun b y x ch hb hy hx hch => ?_⟩⟩, fun _ _ _ _ => rfl⟩
  · unfold upSample
    rw [assert_true hs, bind_ok, hsh]
    dsimp only at h1 ⊢
    rw [fill0, bind_ok, h1, bind_ok]; rfl
  · rw [h3 _ (idx4_lt hb hy hx hch)]
    dsimp only
    rw [dec4_enc hy hx hch]

example : upSample 2 ⟨[1, 1, 2, 1], [3, (4 : ℚ)]⟩ ⟨[], []⟩ = ok ⟨[1, 2, 4, 1], [3, 3, 4, 4, 3, 3, 4, 4]⟩ := by decide +kernel

/-- C43: backward of `up_sampling_2d` adds up the gradient over each block and is the adjoint of forward. -/
theorem up_sampling_adjoint [CommSemiring α] (s BS R C CH : Nat) (t cache grad gcache : Ten α) (a g : List Nat → α) (hs : 1 < s)
    (ht : t.Has [BS, R, C, CH] a) (hg : grad.Has [BS, R * s, C * s, CH] g) :
    ∃ (u d : Ten α) (v : List Nat → α), upSample s t cache = ok u ∧ upSampleBack s t grad gcache = ok d ∧ d.Has [BS, R, C, CH] v ∧
      (∀ b r c ch, v [b, r, c, ch] = ∑ i ∈ Finset.range s, ∑ j ∈ Finset.range s, g [b, r * s + i, c * s + j, ch]) ∧
      dot u.data grad.data = dot t.data d.data := by
  obtain ⟨hsh, hd⟩ := ten4 ht
  obtain ⟨hgs, hgd⟩ := ten4 hg
  obtain ⟨u, w, u1, u2, u3⟩ := up_sampling_values s BS R C CH t cache a hs ht
  obtain ⟨o', h1, h2⟩ := accum4 (k := BS) (l := R) (m := C) (n := CH)
    (body := fun b r c ch o => loopFrom (r * s) (r * s + s) (fun y o => loopFrom (c * s) (c * s + s) (fun x o => do
        let g ← rd grad.data (at4 BS (R * s) (C * s) CH b y x ch)
        addAt o (at4 BS R C CH b r c ch) g) o) o)
    (f := fun b r c ch => ∑ i ∈ Finset.range s, ∑ j ∈ Finset.range s, g [b, r * s + i, c * s + j, ch])
    (by
      intro b r c ch hb hr hc hch
      simp only [loopFrom_add]
      refine adds_cell2 (idx4_lt hb hr hc hch) (fun i j o hi hj ho => ?_)
      simp only [at4_eq]
      rw [hgd.rd hb (lt_mul_of_lt hr hi) (lt_mul_of_lt hc hj) hch, bind_ok])
  refine ⟨u, ⟨[BS, R, C, CH], o'⟩, fun is => match is with
    | [b, r, c, ch] => ∑ i ∈ Finset.range s, ∑ j ∈ Finset.range s, g [b, r * s + i, c * s + j, ch]
    | _ => 0, u1, ?_, has4 rfl h2 (fun _ _ _ _ _ _ _ _ => rfl), fun _ _ _ _ => rfl, ?_⟩
  · unfold upSampleBack
    rw [hsh]
    dsimp only
    rw [fill0, bind_ok, size4, h1, bind_ok]; rfl
  · rw [dot4 (ten4 u2).2 hgd, dot4 hd h2]
    refine Finset.sum_congr rfl (fun b _ => ?_)
    rw [← block_sum R C CH s (fun y x ch => w [b, y, x, ch] * g [b, y, x, ch])]
    refine Finset.sum_congr rfl (fun r _ => Finset.sum_congr rfl (fun c _ => Finset.sum_congr rfl (fun ch _ => ?_)))
    rw [Finset.mul_sum]
    refine Finset.sum_congr rfl (fun i hi => ?_)
    rw [Finset.mul_sum]
    refine Finset.sum_congr rfl (fun j hj => ?_)
    rw [u3, mul_add_div' (Finset.mem_range.mp hi), mul_add_div' (Finset.mem_range.mp hj)]

example : upSampleBack 2 ⟨[1, 1, 2, 1], [3, (4 : ℚ)]⟩ ⟨[1, 2, 4, 1], [1, 2, 3, 4, 5, 6, 7, 8]⟩ ⟨[], []⟩ =
    ok ⟨[1, 1, 2, 1], [14, 22]⟩ := by decide +kernel

end Verif.Pool
