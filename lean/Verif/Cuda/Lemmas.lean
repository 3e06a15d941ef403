import Verif.Cuda.Spec
/-!
# The CUDA path: copies and the cache
-/
namespace Verif.Cuda
open Verif Res Gemm

variable {α : Type}

theorem put_ok {w p : Nat} {v : α} {b : Block α} (h : p + w ≤ b.bytes) : ∃ b', put w p v b = ok b' ∧ b'.bytes = b.bytes ∧ b'.cells p = some (w, v) ∧
    (∀ q, q ≠ p → b.cells q = none → b'.cells q = none) ∧ (∀ q u x, q ≠ p → b.cells q = some (u, x) → Apart p w q u → b'.cells q = some (u, x)) := by
  unfold put
  rw [require_true h, bind_ok]
  refine ⟨_, rfl, rfl, by simp, fun q hq hn => by simp [hq, hn], fun q u x hq hs ha => ?_⟩
  simp only [hq, if_false, hs]
  rw [if_neg]
  unfold Apart at ha
  omega

/-- Copying to the device. -/
theorem copyIn_ok {w n p : Nat} (hw : 0 < w) {src : List α} {b : Block α} {f : Nat → α} (hs : ∀ i, i < n → src[i]? = some (f i)) (hb : p + n * w ≤ b.bytes) :
    ∃ b', copyIn w n p src b = ok b' ∧ b'.bytes = b.bytes ∧ (∀ i, i < n → b'.cells (p + i * w) = some (w, f i)) ∧
      (∀ q, (q < p ∨ p + n * w ≤ q) → b.cells q = none → b'.cells q = none) ∧
      (∀ q u x, b.cells q = some (u, x) → (q + u ≤ p ∨ p + n * w ≤ q) → 0 < u → b'.cells q = some (u, x)) := by
  refine loop_inv (fun i (t : Block α) => t.bytes = b.bytes ∧ (∀ j, j < i → t.cells (p + j * w) = some (w, f j)) ∧
      (∀ q, (q < p ∨ p + n * w ≤ q) → b.cells q = none → t.cells q = none) ∧
      (∀ q u x, b.cells q = some (u, x) → (q + u ≤ p ∨ p + n * w ≤ q) → 0 < u → t.cells q = some (u, x)))
    ⟨rfl, fun j hj => absurd hj (Nat.not_lt_zero j), fun _ _ h => h, fun _ _ _ h _ _ => h⟩ ?_
  rintro i t hi ⟨h1, h2, h3, h4⟩
  have hin : (i + 1) * w ≤ n * w := Nat.mul_le_mul_right w hi
  rw [Nat.succ_mul] at hin
  obtain ⟨t', e1, e2, e3, e4, e5⟩ := put_ok (w := w) (p := p + i * w) (v := f i) (b := t) (by omega)
  refine ⟨t', by rw [rd_ok (hs i hi), bind_ok, e1], e2.trans h1, fun j hj => ?_, fun q hq hn => ?_, fun q u x hx hq hu => ?_⟩
  · rcases Nat.lt_succ_iff_lt_or_eq.mp hj with hj | rfl
    · have : (j + 1) * w ≤ i * w := Nat.mul_le_mul_right w hj
      rw [Nat.succ_mul] at this
      exact e5 _ _ _ (by omega) (h2 j hj) (Or.inr (by omega))
    · exact e3
  · exact e4 q (by omega) (h3 q hq hn)
  · exact e5 q u x (by omega) (h4 q u x hx hq hu) (by unfold Apart; omega)

theorem get_ok {w p : Nat} {b : Block α} {v : α} (h : b.cells p = some (w, v)) : get w p b = ok v := by unfold get; rw [h]; simp

theorem get_none {w p : Nat} {b : Block α} (h : b.cells p = none) : get w p b = ub := by unfold get; rw [h]

/-- Copying back. -/
theorem copyOut_ok {w n p : Nat} {b : Block α} {f : Nat → α} (hb : ∀ i, i < n → b.cells (p + i * w) = some (w, f i)) (dst : List α) (hd : dst.length = n) :
    ∃ o, copyOut w n p b dst = ok o ∧ o.length = n ∧ ∀ i, i < n → o[i]? = some (f i) := by
  obtain ⟨o, h1, h2, h3⟩ := loop_inv (n := n) (body := fun i o => do
      let v ← get w (p + i * w) b
      wr o i v) (s := dst) (fun i o => o.length = n ∧ ∀ j, j < i → o[j]? = some (f j)) ⟨hd, fun j hj => absurd hj (Nat.not_lt_zero j)⟩ (by
    rintro i o hi ⟨hl, ho⟩
    refine ⟨o.set i (f i), by rw [get_ok (hb i hi), bind_ok, wr_ok (by omega)], by simpa using hl, fun j hj => ?_⟩
    rcases Nat.lt_succ_iff_lt_or_eq.mp hj with hj | rfl
    · rw [List.getElem?_set_ne (by omega)]; exact ho j hj
    · rw [List.getElem?_set_self (by omega)])
  exact ⟨o, h1, h2, h3⟩

/-- What was copied back was there. -/
theorem copyOut_only {w n p : Nat} {b : Block α} {dst o : List α} (h : copyOut w n p b dst = ok o) : ∀ i, i < n → ∃ v, get w (p + i * w) b = ok v := by
  unfold copyOut at h
  induction n generalizing o with
  | zero => intro i hi; omega
  | succ n ih =>
    intro i hi
    rw [loop_succ, bind_eq_ok] at h
    obtain ⟨o', h1, h2⟩ := h
    rw [bind_eq_ok] at h2
    obtain ⟨v, hv, -⟩ := h2
    rcases Nat.lt_succ_iff_lt_or_eq.mp hi with hi | rfl
    · exact ih h1 i hi
    · exact ⟨v, hv⟩

theorem wrap_lt {n : Nat} (h : n < 2 ^ 64) : wrap n = n := Nat.mod_eq_of_lt h

theorem roundUp (x : Nat) : x < (1 + x / 2 ^ 20) * 2 ^ 20 ∧ (1 + x / 2 ^ 20) * 2 ^ 20 ≤ x + 2 ^ 20 := by
  omega

theorem good_release {d : Dev α} (hd : Good d) (hs : 0 < d.size) : ∃ d', deallocate d = ok d' ∧ d'.size = d.size ∧ d'.blocks.length = d.blocks.length ∧
    ∀ (j : Nat) (b : Block α), d'.blocks[j]? ≠ some (some b) := by
  rcases hd with ⟨h, -⟩ | ⟨-, i, b, h1, h2, h3, h4⟩
  · omega
  · unfold deallocate
    rw [h1]
    simp only [h2]
    refine ⟨_, rfl, rfl, by simp, fun j b' => ?_⟩
    by_cases hj : j = i
    · subst hj
      have : j < d.blocks.length := by
        by_contra hc
        rw [List.getElem?_eq_none (by omega)] at h2
        cases h2
      rw [List.getElem?_set_self this]
      simp
    · rw [List.getElem?_set_ne (Ne.symm hj)]
      exact h4 j b' hj

/-- **`reserve`**. If requests are granted, there is room afterwards; at most one block is live, nothing is released twice, and the cache grows to at most its old
size plus what is needed plus 1 MB. -/
theorem reserve_ok {grant : Grant} {w len : Nat} {d : Dev α} (hd : Good d) (hw : w ∣ 2 ^ 20) (hlen : 0 < len * w) (hfit : len * w + d.size + 2 ^ 20 < 2 ^ 64)
    (hg : d.size < len * w → grant d.blocks.length ((1 + (len * w + d.size) / 2 ^ 20) * 2 ^ 20) = true) :
    ∃ d' i b, reserve grant w len d = ok d' ∧ d'.data = some i ∧ d'.blocks[i]? = some (some b) ∧ b.bytes = d'.size ∧ len * w ≤ d'.size ∧
      (∀ (j : Nat) (b' : Block α), j ≠ i → d'.blocks[j]? ≠ some (some b')) ∧
      ((len * w ≤ d.size ∧ d' = d) ∨ (d.size < len * w ∧ d'.size = (1 + (len * w + d.size) / 2 ^ 20) * 2 ^ 20 ∧ ∀ p, b.cells p = none)) := by
  unfold reserve
  rw [wrap_lt (show len * w < 2 ^ 64 by omega)]
  by_cases hn : len * w ≤ d.size
  · simp only [hn, if_true]
    rcases hd with ⟨h, -⟩ | ⟨-, i, b, h1, h2, h3, h4⟩
    · omega
    · exact ⟨d, i, b, rfl, h1, h2, h3, hn, h4, Or.inl ⟨trivial, rfl⟩⟩
  · simp only [hn, if_false]
    obtain ⟨r1, r2⟩ := roundUp (len * w + d.size)
    rw [wrap_lt (show len * w + d.size < 2 ^ 64 by omega), wrap_lt (show (1 + (len * w + d.size) / 2 ^ 20) * 2 ^ 20 < 2 ^ 64 by omega)]
    have hdiv : (1 + (len * w + d.size) / 2 ^ 20) * 2 ^ 20 / w * w = (1 + (len * w + d.size) / 2 ^ 20) * 2 ^ 20 := Nat.div_mul_cancel (Dvd.dvd.mul_left hw _)
    obtain ⟨d1, e1, e2, e3, e4⟩ : ∃ d1, release d = ok d1 ∧ d1.size = d.size ∧ d1.blocks.length = d.blocks.length ∧
        ∀ (j : Nat) (b : Block α), d1.blocks[j]? ≠ some (some b) := by
      unfold release
      by_cases hs : 0 < d.size
      · rw [if_pos hs]; exact good_release hd hs
      · rw [if_neg hs]
        rcases hd with ⟨-, h⟩ | ⟨h, -⟩
        · exact ⟨d, rfl, rfl, rfl, h⟩
        · omega
    rw [e1, bind_ok]
    simp only [pure_eq, allocate, hdiv, wrap_lt (show (1 + (len * w + d.size) / 2 ^ 20) * 2 ^ 20 < 2 ^ 64 by omega), e3, hg (by omega), if_true]
    refine ⟨_, d.blocks.length, _, rfl, rfl, by rw [← e3]; simp; rfl, rfl, by simp only; omega, fun j b' hj => ?_, Or.inr ⟨by omega, rfl, fun _ => rfl⟩⟩
    rw [List.getElem?_append]
    split
    · exact e4 j b'
    · rename_i hlt
      rw [List.getElem?_eq_none (by simp; omega)]
      simp

theorem toInt_small {n : Nat} (h : n < 2 ^ 31) : toInt n = (n : Int) := by
  unfold toInt
  rw [Nat.mod_eq_of_lt (by omega), if_pos h]

end Verif.Cuda
