import Verif.Pool.Lemmas
/-!
# C44, C45: zero_padding_2d and cropping_2d
-/
namespace Verif.Pool
open Verif Res View Data

variable {α : Type}

/-- Specification: position `(y, x)` of the padded plane lies over the original `R` by `C` plane. -/
def Pads.Inside (p : Pads) (R C y x : Nat) : Prop := p.top ≤ y ∧ y < p.top + R ∧ p.left ≤ x ∧ x < p.left + C

instance (p : Pads) (R C y x : Nat) : Decidable (p.Inside R C y x) := by unfold Pads.Inside; infer_instance

/-- Specification: the plane `a` surrounded by zeros. -/
def padded [Zero α] (p : Pads) (R C : Nat) (a : List Nat → α) : List Nat → α
  | [b, y, x, ch] => if p.Inside R C y x then a [b, y - p.top, x - p.left, ch] else 0
  | _ => 0

/-- Specification: `a` without its margins. -/
def cropped (p : Pads) (a : List Nat → α) : List Nat → α
  | [b, r, c, ch] => a [b, p.top + r, p.left + c, ch]
  | is => a is

theorem Pads.inside_mk (p : Pads) {R C r c : Nat} (hr : r < R) (hc : c < C) : p.Inside R C (p.top + r) (p.left + c) :=
  ⟨by omega, by omega, by omega, by omega⟩

theorem Pads.Inside.exists {p : Pads} {R C y x : Nat} (h : p.Inside R C y x) :
    ∃ r c, r < R ∧ c < C ∧ y = p.top + r ∧ x = p.left + c := by
  obtain ⟨h1, h2, h3, h4⟩ := h
  exact ⟨y - p.top, x - p.left, by omega, by omega, by omega, by omega⟩

/-- The writing loop of padding: cells over the plane are set, the others keep their value. -/
theorem pad_sets {D : List α} {BS R C CH H W : Nat} {p : Pads} {a : Nat → Nat → Nat → Nat → α} {body : Nat → Nat → Nat → Nat → List α → Res (List α)}
    (hH : p.top + R ≤ H) (hW : p.left + C ≤ W) (hD : D.length = BS * H * W * CH)
    (hbody : ∀ b r c ch o, b < BS → r < R → c < C → ch < CH →
      body b r c ch o = wr o (((b * H + (p.top + r)) * W + (p.left + c)) * CH + ch) (a b r c ch)) :
    ∃ o', loop BS (fun b o => loop R (fun r o => loop C (fun c o => loop CH (fun ch o => body b r c ch o) o) o) o) D = ok o' ∧
      o'.length = BS * H * W * CH ∧ ∀ b y x ch, b < BS → y < H → x < W → ch < CH →
        o'[((b * H + y) * W + x) * CH + ch]? =
          if p.Inside R C y x then some (a b (y - p.top) (x - p.left) ch) else D[((b * H + y) * W + x) * CH + ch]? := by
  have hsets : Sets (fun o => loop BS (fun b o => loop R (fun r o => loop C (fun c o => loop CH (fun ch o => body b r c ch o) o) o) o) o)
      (BS * H * W * CH) (fun q => ∃ b, b < BS ∧ ∃ r, r < R ∧ ∃ c, c < C ∧ ∃ ch, ch < CH ∧
        q = ((b * H + (p.top + r)) * W + (p.left + c)) * CH + ch)
      (fun q => a (dec4 H W CH q).1 ((dec4 H W CH q).2.1 - p.top) ((dec4 H W CH q).2.2.1 - p.left) (dec4 H W CH q).2.2.2) := by
    refine Sets.loop (fun b hb => Sets.loop (fun r hr => Sets.loop (fun c hc => Sets.loop (fun ch hch => ?_))))
    refine Sets.congr_prog (sets_wr (x := a b r c ch) (idx4_lt hb (show p.top + r < H by omega) (show p.left + c < W by omega) hch) ?_)
      (fun o _ => hbody b r c ch o hb hr hc hch)
    rw [dec4_enc (show p.top + r < H by omega) (show p.left + c < W by omega) hch]
    dsimp only
    rw [Nat.add_sub_cancel_left, Nat.add_sub_cancel_left]
  obtain ⟨o', h1, h2, h3, h4⟩ := hsets D hD
  refine ⟨o', h1, h2, fun b y x ch hb hy hx hch => ?_⟩
  by_cases hin : p.Inside R C y x
  · rw [if_pos hin]
    obtain ⟨r, c, hr, hc, e1, e2⟩ := hin.exists
    rw [h3 _ (idx4_lt hb hy hx hch) ⟨b, hb, r, hr, c, hc, ch, hch, by rw [e1, e2]⟩]
    dsimp only
    rw [dec4_enc hy hx hch]
  · rw [if_neg hin, h4]
    rintro ⟨b', hb', r, hr, c, hc, ch', hch', e⟩
    obtain ⟨e1, e2⟩ := mul_add_inj hch hch' e
    obtain ⟨e3, e4⟩ := mul_add_inj hx (show p.left + c < W by omega) e1
    obtain ⟨e5, e6⟩ := mul_add_inj hy (show p.top + r < H by omega) e3
    exact hin (e4 ▸ e6 ▸ p.inside_mk hr hc)

/-- What `zero_padding_2d` returns for any content of its cache: the border keeps what the cache held. -/
theorem zeroPad_ok [Zero α] {p : Pads} {BS R C CH : Nat} {t cache : Ten α} {a : List Nat → α} (ht : t.Has [BS, R, C, CH] a) :
    ∃ u : Ten α, zeroPad p t cache = ok u ∧ u.shape = [BS, p.top + R + p.bottom, p.left + C + p.right, CH] ∧
      u.data.length = BS * (p.top + R + p.bottom) * (p.left + C + p.right) * CH ∧
      ∀ b y x ch, b < BS → y < p.top + R + p.bottom → x < p.left + C + p.right → ch < CH →
        u.data[((b * (p.top + R + p.bottom) + y) * (p.left + C + p.right) + x) * CH + ch]? =
          if p.Inside R C y x then some (a [b, y - p.top, x - p.left, ch])
          else (resizeV cache [BS, p.top + R + p.bottom, p.left + C + p.right, CH]).data[((b * (p.top + R + p.bottom) + y) * (p.left + C + p.right) + x) * CH + ch]? := by
  obtain ⟨hsh, hd⟩ := ten4 ht
  obtain ⟨o', h1, h2, h3⟩ := pad_sets (D := (resizeV cache [BS, p.top + R + p.bottom, p.left + C + p.right, CH]).data) (BS := BS)
    (R := R) (C := C) (CH := CH) (H := p.top + R + p.bottom) (W := p.left + C + p.right) (p := p)
    (a := fun b r c ch => a [b, r, c, ch])
    (body := fun b r c ch o => do
      let v ← rd t.data (at4 BS R C CH b r c ch)
      wr o (at4 BS (p.top + R + p.bottom) (p.left + C + p.right) CH b (p.top + r) (p.left + c) ch) v)
    (by omega) (by omega) (by rw [resizeV_length, size4]) (by
      intro b r c ch o hb hr hc hch
      simp only [at4_eq]
      rw [hd.rd hb hr hc hch, bind_ok])
  refine ⟨⟨_, o'⟩, ?_, rfl, h2, h3⟩
  unfold zeroPad
  rw [hsh]
  dsimp only
  rw [h1, bind_ok]; rfl

/-- One use after the other of one `zero_padding_2d` operator: its cache is the previous result. -/
def padRuns [Zero α] (p : Pads) : List (Ten α) → Ten α → Res (List (Ten α))
  | [], _ => ok []
  | t :: ts, cache => do
    let u ← zeroPad p t cache
    let us ← padRuns p ts u
    pure (u :: us)

/-- C44 is violated: a padding operator used on a 1x2 image and then on a 2x1 image (both padded images have 12 elements) leaves
the pixels of the first one in the border of the second. -/
theorem zero_padding_border_violated :
    ∃ u1 u2 : Ten ℚ, padRuns ⟨1, 1, 1, 1⟩ [⟨[1, 1, 2, 1], [5, 6]⟩, ⟨[1, 2, 1, 1], [7, 8]⟩] ⟨[], []⟩ = ok [u1, u2] ∧
      u2.shape = [1, 4, 3, 1] ∧ ¬ u2.Has [1, 4, 3, 1] (padded ⟨1, 1, 1, 1⟩ 2 1 (fun is => [7, (8 : ℚ)].getD (flat [1, 2, 1, 1] is) 0)) ∧
      u2.data = [0, 0, 0, 0, 7, 5, 6, 8, 0, 0, 0, 0] := by
  refine ⟨⟨[1, 3, 4, 1], [0, 0, 0, 0, 0, 5, 6, 0, 0, 0, 0, 0]⟩, ⟨[1, 4, 3, 1], [0, 0, 0, 0, 7, 5, 6, 8, 0, 0, 0, 0]⟩,
    by decide +kernel, rfl, ?_, rfl⟩
  intro h
  have := h.2.2 [0, 1, 2, 0] (by simp [ValidIdx])
  revert this
  decide +kernel

/-- What is needed of the cache: it is blank, or has the shape of the result and zeros in the border. -/
def BorderZero [Zero α] (p : Pads) (BS R C CH : Nat) (cache : Ten α) : Prop :=
  cache.data.length ≠ BS * (p.top + R + p.bottom) * (p.left + C + p.right) * CH ∨
    ∀ b y x ch, b < BS → y < p.top + R + p.bottom → x < p.left + C + p.right → ch < CH → ¬ p.Inside R C y x →
      cache.data[((b * (p.top + R + p.bottom) + y) * (p.left + C + p.right) + x) * CH + ch]? = some 0

theorem borderZero_nil [Zero α] (p : Pads) (BS R C CH : Nat) : BorderZero p BS R C CH (⟨[], []⟩ : Ten α) := by
  by_cases h : BS * (p.top + R + p.bottom) * (p.left + C + p.right) * CH = 0
  · refine Or.inr (fun b y x ch hb hy hx hch => ?_)
    have := idx4_lt hb hy hx hch
    omega
  · exact Or.inl (by simpa using Ne.symm h)

theorem zeroPad_border [Zero α] {p : Pads} {BS R C CH : Nat} {t cache : Ten α} {a : List Nat → α} (ht : t.Has [BS, R, C, CH] a)
    (hc : BorderZero p BS R C CH cache) :
    ∃ u : Ten α, zeroPad p t cache = ok u ∧ u.Has [BS, p.top + R + p.bottom, p.left + C + p.right, CH] (padded p R C a) := by
  obtain ⟨u, h1, h2, h3, h4⟩ := zeroPad_ok (p := p) (cache := cache) ht
  refine ⟨u, h1, h2, is4_iff.mpr ⟨h3, fun b y x ch hb hy hx hch => ?_⟩⟩
  rw [h4 b y x ch hb hy hx hch]
  simp only [padded]
  split
  · rfl
  · rename_i hin
    unfold resizeV
    dsimp only
    rw [size4]
    by_cases hl : cache.data.length = BS * (p.top + R + p.bottom) * (p.left + C + p.right) * CH
    · rw [if_pos hl]
      rcases hc with hc | hc
      · exact absurd hl hc
      · exact hc b y x ch hb hy hx hch hin
    · rw [if_neg hl]
      simp [idx4_lt hb hy hx hch]

/-- C44: a `zero_padding_2d` operator surrounds its input with zeros, for every history in which two consecutive inputs whose padded
images have the same number of elements also have the same shape (in particular for inputs of one shape, and for the first use).
Missing: the remaining histories (see `zero_padding_border_violated`). -/
theorem zero_padding_border_partial [Zero α] (p : Pads) (ts : List (Ten α))
    (hts : ∀ t ∈ ts, ∃ BS R C CH a, t.Has [BS, R, C, CH] a)
    (hchain : List.IsChain (fun t t' : Ten α => ∀ BS R C CH BS' R' C' CH', t.shape = [BS, R, C, CH] → t'.shape = [BS', R', C', CH'] →
      BS * (p.top + R + p.bottom) * (p.left + C + p.right) * CH = BS' * (p.top + R' + p.bottom) * (p.left + C' + p.right) * CH' →
      t.shape = t'.shape) ts) :
    ∃ us, padRuns p ts ⟨[], []⟩ = ok us ∧ List.Forall₂ (fun t u : Ten α => ∀ BS R C CH a, t.Has [BS, R, C, CH] a →
      u.Has [BS, p.top + R + p.bottom, p.left + C + p.right, CH] (padded p R C a)) ts us := by
  suffices H : ∀ (ts : List (Ten α)) (cache : Ten α), (∀ t ∈ ts, ∃ BS R C CH a, t.Has [BS, R, C, CH] a) →
      List.IsChain (fun t t' : Ten α => ∀ BS R C CH BS' R' C' CH', t.shape = [BS, R, C, CH] → t'.shape = [BS', R', C', CH'] →
        BS * (p.top + R + p.bottom) * (p.left + C + p.right) * CH = BS' * (p.top + R' + p.bottom) * (p.left + C' + p.right) * CH' →
        t.shape = t'.shape) ts →
      (∀ t, ts.head? = some t → ∀ BS R C CH, t.shape = [BS, R, C, CH] → BorderZero p BS R C CH cache) →
      ∃ us, padRuns p ts cache = ok us ∧ List.Forall₂ (fun t u : Ten α => ∀ BS R C CH a, t.Has [BS, R, C, CH] a →
        u.Has [BS, p.top + R + p.bottom, p.left + C + p.right, CH] (padded p R C a)) ts us by
    exact H ts _ hts hchain (fun t _ BS R C CH _ => borderZero_nil p BS R C CH)
  clear hts hchain ts
  intro ts
  induction ts with
  | nil => intro cache _ _ _; exact ⟨[], rfl, List.Forall₂.nil⟩
  | cons t ts ih =>
    intro cache hts hchain hcache
    obtain ⟨BS, R, C, CH, a, ht⟩ := hts t (by simp)
    obtain ⟨u, h1, h2⟩ := zeroPad_border (p := p) ht (hcache t rfl BS R C CH ht.1)
    obtain ⟨us, h3, h4⟩ := ih u (fun t h => hts t (by simp [h])) (by
      cases ts with
      | nil => exact List.IsChain.nil
      | cons t' ts => exact (List.isChain_cons_cons.mp hchain).2) (by
      intro t' ht' BS' R' C' CH' hs'
      cases ts with
      | nil => cases ht'
      | cons t'' ts =>
        simp only [List.head?_cons, Option.some.injEq] at ht'
        subst ht'
        by_cases hsz : BS * (p.top + R + p.bottom) * (p.left + C + p.right) * CH = BS' * (p.top + R' + p.bottom) * (p.left + C' + p.right) * CH'
        · have e := (List.isChain_cons_cons.mp hchain).1 BS R C CH BS' R' C' CH' ht.1 hs' hsz
          rw [ht.1, hs'] at e
          injection e with e1 e
          injection e with e2 e
          injection e with e3 e
          injection e with e4 _
          subst e1; subst e2; subst e3; subst e4
          refine Or.inr (fun b y x ch hb hy hx hch hin => ?_)
          rw [(ten4 h2).2.2 b y x ch hb hy hx hch]
          simp only [padded, if_neg hin]
        · refine Or.inl ?_
          rw [h2.2.1, size4]
          exact hsz)
    refine ⟨u :: us, ?_, List.Forall₂.cons ?_ h4⟩
    · simp only [padRuns]
      rw [h1, bind_ok, h3, bind_ok]; rfl
    · intro BS' R' C' CH' a' ht'
      have e := ht.1.symm.trans ht'.1
      injection e with e1 e
      injection e with e2 e
      injection e with e3 e
      injection e with e4 _
      subst e1; subst e2; subst e3; subst e4
      refine h2.congr (fun is hv => ?_)
      match is, hv with
      | [b, y, x, ch], hv =>
        simp only [padded]
        split
        · rename_i hin
          obtain ⟨r, c, hr, hc, rfl, rfl⟩ := hin.exists
          rw [Nat.add_sub_cancel_left, Nat.add_sub_cancel_left]
          have hv' : ValidIdx [BS, R, C, CH] [b, r, c, ch] := ⟨hv.1, hr, hc, hv.2.2.2.1, trivial⟩
          have := (ht.2.2 _ hv').symm.trans (ht'.2.2 _ hv')
          exact Option.some.inj this
        · rfl

example : padRuns ⟨1, 1, 1, 1⟩ [⟨[1, 1, 2, 1], [5, 6]⟩, ⟨[1, 1, 2, 1], [7, (8 : ℚ)]⟩] ⟨[], []⟩ =
    ok [⟨[1, 3, 4, 1], [0, 0, 0, 0, 0, 5, 6, 0, 0, 0, 0, 0]⟩, ⟨[1, 3, 4, 1], [0, 0, 0, 0, 0, 7, 8, 0, 0, 0, 0, 0]⟩] := by
  decide +kernel

/-! ### C45 -/

/-- C45: `cropping_2d` returns the inside of its input. -/
theorem cropping_values [Zero α] (p : Pads) (BS R C CH : Nat) (t cache : Ten α) (a : List Nat → α) (ht : t.Has [BS, R, C, CH] a)
    (hR : p.top + p.bottom < R) (hC : p.left + p.right < C) :
    ∃ u, crop p t cache = ok u ∧ u.Has [BS, R - p.top - p.bottom, C - p.left - p.right, CH] (cropped p a) := by
  obtain ⟨hsh, hd⟩ := ten4 ht
  obtain ⟨o', h1, h2⟩ := fill4 (k := BS) (l := R - p.top - p.bottom) (m := C - p.left - p.right) (n := CH)
    (body := fun b r c ch o => do
      let v ← rd t.data (at4 BS R C CH b (p.top + r) (p.left + c) ch)
      wr o (at4 BS (R - p.top - p.bottom) (C - p.left - p.right) CH b r c ch) v)
    (f := fun b r c ch => a [b, p.top + r, p.left + c, ch])
    (by
      intro b r c ch o hb hr hc hch ho
      simp only [at4_eq]
      rw [hd.rd hb (show p.top + r < R by omega) (show p.left + c < C by omega) hch, bind_ok])
    (out := (resizeV cache [BS, R - p.top - p.bottom, C - p.left - p.right, CH]).data) (by rw [resizeV_length, size4])
  refine ⟨⟨[BS, R - p.top - p.bottom, C - p.left - p.right, CH], o'⟩, ?_, has4 rfl h2 (fun _ _ _ _ _ _ _ _ => rfl)⟩
  unfold crop
  rw [hsh]
  dsimp only
  rw [assert_true (by omega), bind_ok, assert_true (by omega), bind_ok, require_true ⟨by omega, by omega⟩, bind_ok, h1, bind_ok]; rfl

/-- C45: backward of `zero_padding_2d` is the inside of the gradient. -/
theorem zero_padding_backward_crops [Zero α] (p : Pads) (BS R C CH : Nat) (t grad cache : Ten α) (g : List Nat → α)
    (ht : t.shape = [BS, R, C, CH]) (hg : grad.Has [BS, p.top + R + p.bottom, p.left + C + p.right, CH] g) :
    ∃ d, zeroPadBack p t grad cache = ok d ∧ d.Has [BS, R, C, CH] (cropped p g) := by
  obtain ⟨hgs, hgd⟩ := ten4 hg
  obtain ⟨o', h1, h2⟩ := fill4 (k := BS) (l := R) (m := C) (n := CH)
    (body := fun b r c ch o => do
      let v ← rd grad.data (at4 BS (p.top + R + p.bottom) (p.left + C + p.right) CH b (r + p.top) (c + p.left) ch)
      wr o (at4 BS R C CH b r c ch) v)
    (f := fun b r c ch => g [b, p.top + r, p.left + c, ch])
    (by
      intro b r c ch o hb hr hc hch ho
      simp only [at4_eq]
      rw [Nat.add_comm r, Nat.add_comm c, hgd.rd hb (show p.top + r < p.top + R + p.bottom by omega)
        (show p.left + c < p.left + C + p.right by omega) hch, bind_ok])
    (out := List.replicate (size [BS, R, C, CH]) 0) (by rw [List.length_replicate, size4])
  refine ⟨⟨[BS, R, C, CH], o'⟩, ?_, has4 rfl h2 (fun _ _ _ _ _ _ _ _ => rfl)⟩
  unfold zeroPadBack
  rw [ht]
  dsimp only
  rw [fill0, bind_ok, h1, bind_ok]; rfl

/-- C45: backward of `cropping_2d` is the gradient surrounded by zeros. -/
theorem cropping_backward_pads [Zero α] (p : Pads) (BS R C CH : Nat) (t grad cache : Ten α) (g : List Nat → α)
    (ht : t.shape = [BS, p.top + R + p.bottom, p.left + C + p.right, CH]) (hg : grad.Has [BS, R, C, CH] g) :
    ∃ d, cropBack p t grad cache = ok d ∧ d.Has [BS, p.top + R + p.bottom, p.left + C + p.right, CH] (padded p R C g) := by
  obtain ⟨hgs, hgd⟩ := ten4 hg
  obtain ⟨o', h1, h2, h3⟩ := pad_sets (D := List.replicate (size [BS, p.top + R + p.bottom, p.left + C + p.right, CH]) (0 : α)) (BS := BS)
    (R := R) (C := C) (CH := CH) (H := p.top + R + p.bottom) (W := p.left + C + p.right) (p := p)
    (a := fun b r c ch => g [b, r, c, ch])
    (body := fun b r c ch o => do
      let v ← rd grad.data (at4 BS R C CH b r c ch)
      wr o (at4 BS (R + p.top + p.bottom) (C + p.left + p.right) CH b (r + p.top) (c + p.left) ch) v)
    (by omega) (by omega) (by rw [List.length_replicate, size4]) (by
      intro b r c ch o hb hr hc hch
      simp only [at4_eq]
      rw [hgd.rd hb hr hc hch, bind_ok, Nat.add_comm r, Nat.add_comm c, Nat.add_comm R, Nat.add_comm C])
  refine ⟨⟨_, o'⟩, ?_, rfl, is4_iff.mpr ⟨h2, fun b y x ch hb hy hx hch => ?_⟩⟩
  · unfold cropBack
    rw [hgs]
    dsimp only
    rw [ht, fill0, bind_ok, h1, bind_ok]; rfl
  · rw [h3 b y x ch hb hy hx hch]
    simp only [padded]
    split
    · rfl
    · have := idx4_lt hb hy hx hch
      rw [← size4] at this
      simp only [List.getElem?_replicate, if_pos this]

theorem pad_sum1 [AddCommMonoid α] (t R b : Nat) (F : Nat → α) (h : ∀ y, y < t + R + b → ¬ (t ≤ y ∧ y < t + R) → F y = 0) :
    ∑ y ∈ Finset.range (t + R + b), F y = ∑ r ∈ Finset.range R, F (t + r) := by
  rw [Finset.sum_range_add, Finset.sum_range_add]
  rw [Finset.sum_eq_zero (s := Finset.range t) (fun y hy => h y (by have := Finset.mem_range.mp hy; omega) (by have := Finset.mem_range.mp hy; omega)),
    Finset.sum_eq_zero (s := Finset.range b) (fun y hy => h _ (by have := Finset.mem_range.mp hy; omega) (by omega)), zero_add, add_zero]

/-- Inner product with a padded plane. -/
theorem padded_sum [CommSemiring α] (p : Pads) (BS R C CH : Nat) (a g : List Nat → α) :
    ∑ b ∈ Finset.range BS, ∑ y ∈ Finset.range (p.top + R + p.bottom), ∑ x ∈ Finset.range (p.left + C + p.right), ∑ ch ∈ Finset.range CH,
      padded p R C a [b, y, x, ch] * g [b, y, x, ch] =
    ∑ b ∈ Finset.range BS, ∑ r ∈ Finset.range R, ∑ c ∈ Finset.range C, ∑ ch ∈ Finset.range CH,
      a [b, r, c, ch] * cropped p g [b, r, c, ch] := by
  refine Finset.sum_congr rfl (fun b _ => ?_)
  rw [pad_sum1]
  · refine Finset.sum_congr rfl (fun r hr => ?_)
    rw [pad_sum1]
    · refine Finset.sum_congr rfl (fun c hc => Finset.sum_congr rfl (fun ch _ => ?_))
      simp only [padded, cropped]
      rw [if_pos (p.inside_mk (Finset.mem_range.mp hr) (Finset.mem_range.mp hc)), Nat.add_sub_cancel_left, Nat.add_sub_cancel_left]
    · intro x _ hx
      refine Finset.sum_eq_zero (fun ch _ => ?_)
      simp only [padded]
      rw [if_neg (fun h => hx ⟨h.2.2.1, h.2.2.2⟩), zero_mul]
  · intro y _ hy
    refine Finset.sum_eq_zero (fun x _ => Finset.sum_eq_zero (fun ch _ => ?_))
    simp only [padded]
    rw [if_neg (fun h => hy ⟨h.1, h.2.1⟩), zero_mul]

/-- C45: backward of `zero_padding_2d` is the adjoint of padding with zeros (which is what forward does, C44). -/
theorem zero_padding_adjoint [CommSemiring α] (p : Pads) (BS R C CH : Nat) (t cache grad gcache : Ten α) (a g : List Nat → α)
    (ht : t.Has [BS, R, C, CH] a) (hc : BorderZero p BS R C CH cache)
    (hg : grad.Has [BS, p.top + R + p.bottom, p.left + C + p.right, CH] g) :
    ∃ u d, zeroPad p t cache = ok u ∧ zeroPadBack p t grad gcache = ok d ∧ d.shape = t.shape ∧
      dot u.data grad.data = dot t.data d.data := by
  obtain ⟨u, u1, u2⟩ := zeroPad_border (p := p) ht hc
  obtain ⟨d, d1, d2⟩ := zero_padding_backward_crops p BS R C CH t grad gcache g ht.1 hg
  refine ⟨u, d, u1, d1, by rw [d2.1, ht.1], ?_⟩
  rw [dot4 (ten4 u2).2 (ten4 hg).2, dot4 (ten4 ht).2 (ten4 d2).2]
  exact padded_sum p BS R C CH a g

/-- C45: backward of `cropping_2d` is the adjoint of forward. -/
theorem cropping_adjoint [CommSemiring α] (p : Pads) (BS R C CH : Nat) (t cache grad gcache : Ten α) (a g : List Nat → α)
    (hR : 0 < R) (hC : 0 < C)
    (ht : t.Has [BS, p.top + R + p.bottom, p.left + C + p.right, CH] a) (hg : grad.Has [BS, R, C, CH] g) :
    ∃ u d, crop p t cache = ok u ∧ cropBack p t grad gcache = ok d ∧ u.shape = grad.shape ∧ d.shape = t.shape ∧
      dot u.data grad.data = dot t.data d.data := by
  obtain ⟨u, u1, u2⟩ := cropping_values p BS _ _ CH t cache a ht (by omega) (by omega)
  rw [show p.top + R + p.bottom - p.top - p.bottom = R by omega, show p.left + C + p.right - p.left - p.right = C by omega] at u2
  obtain ⟨d, d1, d2⟩ := cropping_backward_pads p BS R C CH t grad gcache g ht.1 hg
  refine ⟨u, d, u1, d1, by rw [u2.1, hg.1], by rw [d2.1, ht.1], ?_⟩
  rw [dot4 (ten4 u2).2 (ten4 hg).2, dot4 (ten4 ht).2 (ten4 d2).2]
  refine Eq.trans ?_ (Eq.trans (padded_sum p BS R C CH g a).symm ?_)
  · simp only [mul_comm]
  · simp only [mul_comm]

/-- C45: cropping what was padded gives the input back. -/
theorem cropping_undoes_padding [Zero α] (p : Pads) (BS R C CH : Nat) (t cache cache' : Ten α) (a : List Nat → α)
    (ht : t.Has [BS, R, C, CH] a) (hR : 0 < R) (hC : 0 < C) (hc : BorderZero p BS R C CH cache) :
    (zeroPad p t cache >>= fun u => crop p u cache') = ok t := by
  obtain ⟨u, u1, u2⟩ := zeroPad_border (p := p) ht hc
  obtain ⟨w, w1, w2⟩ := cropping_values p BS _ _ CH u cache' _ u2 (by omega) (by omega)
  rw [show p.top + R + p.bottom - p.top - p.bottom = R by omega, show p.left + C + p.right - p.left - p.right = C by omega] at w2
  rw [u1, bind_ok, w1]
  congr 1
  refine (Ten.Has.ext (ht) (w2.congr (fun is hv => ?_))).symm
  match is, hv with
  | [b, r, c, ch], hv =>
    simp only [padded, cropped]
    rw [if_pos (p.inside_mk hv.2.1 hv.2.2.1), Nat.add_sub_cancel_left, Nat.add_sub_cancel_left]

example : crop ⟨1, 1, 1, 1⟩ ⟨[1, 3, 4, 1], [0, 0, 0, 0, 0, 5, (6 : ℚ), 0, 0, 0, 0, 0]⟩ ⟨[], []⟩ = ok ⟨[1, 1, 2, 1], [5, 6]⟩ ∧
    cropBack ⟨1, 1, 1, 1⟩ ⟨[1, 3, 4, 1], [0, 0, 0, 0, 0, 5, (6 : ℚ), 0, 0, 0, 0, 0]⟩ ⟨[1, 1, 2, 1], [8, 9]⟩ ⟨[], []⟩ =
      ok ⟨[1, 3, 4, 1], [0, 0, 0, 0, 0, 8, 9, 0, 0, 0, 0, 0]⟩ ∧
    zeroPadBack ⟨1, 1, 1, 1⟩ ⟨[1, 1, 2, 1], [5, (6 : ℚ)]⟩ ⟨[1, 3, 4, 1], [1, 2, 3, 4, 5, 6, 7, 8, 9, 10, 11, 12]⟩ ⟨[], []⟩ =
      ok ⟨[1, 1, 2, 1], [6, 7]⟩ := by decide +kernel

/-- C45: the four margins from one, two or four numbers; a zero margin is rejected. -/
theorem pads_of (a b c d : Nat) (ha : 1 ≤ a) (hb : 1 ≤ b) (hc : 1 ≤ c) (hd : 1 ≤ d) :
    padsOf [a] = ok ⟨a, a, a, a⟩ ∧ padsOf [a, b] = ok ⟨a, a, b, b⟩ ∧ padsOf [a, b, c, d] = ok ⟨a, b, c, d⟩ := by
  simp [padsOf, ha, hb, hc, hd]

example : padsOf [2, 0] = abort ∧ padsOf [1, 2, 3] = abort ∧ padsOf [3, 1] = ok ⟨3, 3, 1, 1⟩ := by decide

end Verif.Pool
