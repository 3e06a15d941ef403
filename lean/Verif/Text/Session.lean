import Verif.Text.Binary
/-!
# C65, C66, C97: what saving and restoring does to the numbers
-/
namespace Verif.Text
open Verif Res Data

/-- Examples for C65: a tensor of naturals, and the text in between. -/
example : writeTensor printNat (⟨[2, 3], [0, 10, 200, 3, 4, 55]⟩ : Ten Nat) = "2 3 \n0 10 200 3 4 55 \n".toList := by decide +kernel

example : readTensor (parseNat (2 ^ 32)) ⟨writeTensor printNat (⟨[2, 3], [0, 10, 200, 3, 4, 55]⟩ : Ten Nat) ++ "7 \n".toList, true⟩ ⟨[], []⟩
    = ok (⟨[2, 3], [0, 10, 200, 3, 4, 55]⟩, ⟨"7 \n".toList, true⟩) :=
  text_round_trip_partial printNat (parseNat (2 ^ 32)) _ _ _ (by decide) rfl (fun n _ => printNat_word n)
    (fun n hn => parseNat_printNat (by
      have : ∀ n ∈ [0, 10, 200, 3, 4, 55], n < 2 ^ 32 := by decide
      exact this n hn))

/-- A tensor with an element that cannot be read is refused; `nan` is such an element. -/
example (rest : List Char) (z : Zero (Option ℚ)) (x : Ten (Option ℚ)) : readTensor (fun w => (parseDec w).map some)
    ⟨writeTensor (fun b : Option ℚ => match b with | some x => printG 6 x | none => "nan".toList) (⟨[2], [some 1, none]⟩ : Ten (Option ℚ)) ++ rest, true⟩ x = abort := by
  refine text_unreadable _ _ _ _ _ none (by decide) rfl (fun y _ => ?_) (by simp) (by decide +kernel)
  cases y with
  | some q => exact printG_word 6 q
  | none => exact ⟨by decide, by decide⟩

theorem bin_exact {P : Nat} (hP : 1 ≤ P) {x : ℚ} (h : IsBin P x) : bin P x = x := by
  have pos : ∀ x : ℚ, 0 < x → IsBin P x → bin P x = x := by
    intro x hx hb
    obtain ⟨M, k, m1, m2, e⟩ := normal hP hx hb
    have hk : (0 : ℚ) < (2 : ℚ) ^ k := zpow_pos (by norm_num) _
    have m1' : (2 : ℚ) ^ (P - 1) ≤ M := by exact_mod_cast m1
    have m2' : (M : ℚ) < 2 ^ P := by exact_mod_cast m2
    have := bin_at (P := P) (y := x) (k := k) (n := (M : ℤ)) (by
        rw [show (2 : ℚ) ^ (k + ((P : ℤ) - 1)) = 2 ^ (P - 1) * (2 : ℚ) ^ k by rw [← zpow_natCast, ← zpow_add₀ (by norm_num)]; congr 1; omega, e]
        gcongr) (by
        rw [show (2 : ℚ) ^ (k + (P : ℤ)) = 2 ^ P * (2 : ℚ) ^ k by rw [← zpow_natCast, ← zpow_add₀ (by norm_num)]; congr 1; omega, e]
        gcongr) (by push_cast; rw [← e]; simpa using hk)
    rw [this]
    push_cast
    exact e.symm
  rcases lt_trichotomy x 0 with h0 | h0 | h0
  · obtain ⟨m, k, h1, h2⟩ := h
    have := pos (-x) (by linarith) ⟨-m, k, by rwa [abs_neg], by push_cast; rw [h2]; ring⟩
    rw [bin_neg, neg_inj] at this
    exact this
  · subst h0; exact bin_zero P
  · exact pos x h0 h

/-- Elements that survive printing with `p` digits and reading with the rounding `rnd`. -/
theorem parseF_printG {p : Nat} (hp : 1 ≤ p) (rnd : ℚ → ℚ) (x : ℚ) : parseF rnd (printG p x) = some (rnd (sig p x)) := by
  unfold parseF
  rw [parse_printG hp, Option.map_some]

/-- Variables of a session that exist: identifiers are ints, extents are machine words, as many elements as the extents say. -/
def Regular (V : Vars ℚ) : Prop := (V.map Prod.fst).Nodup ∧ ∀ e ∈ V, e.1 < 2 ^ 31 ∧ (∀ n ∈ e.2.shape, n < 2 ^ 64) ∧ e.2.data.length = size e.2.shape

/-- What restoring a saved session gives: every saved element rounded to six significant digits; the other variables keep their values. -/
theorem session_restored (rnd : ℚ → ℚ) (V W : Vars ℚ) (h : Regular V) (hW : ∀ e ∈ V, find W e.1 ≠ none) :
    ∃ file W', save (printG 6) V = ok file ∧ restore (parseF rnd) file W = ok W' ∧ ∀ j, find W' j = match find V j with
        | some t => some (through (fun x => rnd (sig 6 x)) t)
        | none => find W j := by
  have key := session_round_trip_through (printG 6) (parseF rnd) (fun x => rnd (sig 6 x)) V W (fun e he => by
      obtain ⟨h1, h2, h3⟩ := h.2 e he
      exact ⟨h1, h2, h3, fun y _ => ⟨printG_word 6 y, printG_byte, parseF_printG (by norm_num) rnd y⟩⟩) h.1 hW
  obtain ⟨file, W', k1, k2, k3⟩ := key
  refine ⟨file, W', k1, k2, fun j => ?_⟩
  rw [k3 j]
  cases find V j <;> rfl

/-- C66: restoring a saved session gives every saved variable the value it had, whatever happened to the values in between and in whatever
order the variables are met, and leaves variables made since alone.  Missing: elements of more than six significant digits
(`session_digits_violated`). -/
theorem session_round_trip_partial (P : Nat) (hP : 1 ≤ P) (V W : Vars ℚ) (h : Regular V) (hW : ∀ e ∈ V, find W e.1 ≠ none)
    (hx : ∀ e ∈ V, ∀ x ∈ e.2.data, IsBin P x ∧ ∃ m k : ℤ, |m| < 10 ^ 6 ∧ x = (m : ℚ) * (10 : ℚ) ^ k) :
    ∃ file W', save (printG 6) V = ok file ∧ restore (parseF (bin P)) file W = ok W' ∧ (∀ j t, find V j = some t → find W' j = some t) ∧
      ∀ j, find V j = none → find W' j = find W j := by
  obtain ⟨file, W', s1, s2, s3⟩ := session_restored (bin P) V W h hW
  refine ⟨file, W', s1, s2, fun j t hj => ?_, fun j hj => ?_⟩
  · rw [s3 j, hj]
    dsimp only
    have hm : ∃ e ∈ V, e.2 = t := by
      unfold find at hj
      obtain ⟨a, b, e1, _⟩ := List.lookup_eq_some_iff.mp hj
      exact ⟨(j, t), by rw [e1]; simp, rfl⟩
    obtain ⟨e, he, rfl⟩ := hm
    have hmap : e.2.data.map (fun x => bin P (sig 6 x)) = e.2.data := by
      conv_rhs => rw [← List.map_id e.2.data]
      refine List.map_congr_left (fun x hxm => ?_)
      obtain ⟨r1, r2⟩ := hx e he x hxm
      rw [(sig_exact_iff x).mpr r2, bin_exact hP r1]; rfl
    unfold through
    rw [hmap]
  · rw [s3 j, hj]

/-- Example: two variables, restored into a session that met them in another order, with other values and one variable more. -/
example : ∃ file W', save (printG 6) [(7, ⟨[2], [1 / 4, -3]⟩), (3, ⟨[], [1000]⟩)] = ok file ∧
    restore (parseF (bin 24)) file [(3, ⟨[1], [0]⟩), (9, ⟨[1], [5]⟩), (7, ⟨[2], [1, 1]⟩)] = ok W' ∧
    find W' 7 = some ⟨[2], [1 / 4, -3]⟩ ∧ find W' 3 = some ⟨[], [1000]⟩ ∧ find W' 9 = some ⟨[1], [5]⟩ := by
  obtain ⟨file, W', h1, h2, h3, h4⟩ := session_round_trip_partial 24 (by norm_num) [(7, ⟨[2], [1 / 4, -3]⟩), (3, ⟨[], [1000]⟩)]
    [(3, ⟨[1], [0]⟩), (9, ⟨[1], [5]⟩), (7, ⟨[2], [1, 1]⟩)] ⟨by decide, by decide⟩ (by simp [find]) (by
      intro e he x hx
      simp only [List.mem_cons, List.not_mem_nil, or_false] at he
      rcases he with rfl | rfl
      · simp only [List.mem_cons, List.not_mem_nil, or_false] at hx
        rcases hx with rfl | rfl
        · exact ⟨⟨1, -2, by norm_num, by norm_num⟩, 25, -2, by norm_num, by norm_num⟩
        · exact ⟨⟨-3, 0, by norm_num, by norm_num⟩, -3, 0, by norm_num, by norm_num⟩
      · simp only [List.mem_cons, List.not_mem_nil, or_false] at hx
        subst hx
        exact ⟨⟨1000, 0, by norm_num, by norm_num⟩, 1, 3, by norm_num, by norm_num⟩)
  exact ⟨file, W', h1, h2, h3 7 _ rfl, h3 3 _ rfl, (h4 9 rfl).trans rfl⟩

/-- The error of a restored element: at most five millionths of it, before the rounding to the type. -/
theorem session_error (x : ℚ) : |sig 6 x - x| ≤ |x| / 200000 := by
  have := sig_error (p := 6) (by norm_num) x
  norm_num at this ⊢
  exact this

/-- C66 is violated: a variable holding a whole number of more than six digits that does not end in zeros is not restored.  All these numbers
are numbers of type `float` and of type `double` (at least 24 bits). -/
theorem session_digits_violated (P : Nat) (hP : 24 ≤ P) (n : ℤ) (h1 : 10 ^ 6 < n) (h2 : n < 10 ^ 7) (h3 : n % 10 ≠ 0)
    (id : Nat) (hid : id < 2 ^ 31) (W : Vars ℚ) (hW : find W id ≠ none) :
    ∃ file W' m, save (printG 6) [(id, ⟨[1], [(n : ℚ)]⟩)] = ok file ∧ restore (parseF (bin P)) file W = ok W' ∧ find W' id = some ⟨[1], [m]⟩ ∧ IsBin P n ∧ m ≠ n := by
  obtain ⟨file, W', s1, s2, s3⟩ := session_restored (bin P) [(id, ⟨[1], [(n : ℚ)]⟩)] W ⟨by simp, by
    intro e he
    rw [List.mem_singleton] at he
    subst he
    exact ⟨hid, by simp, rfl⟩⟩ (by intro e he; rw [List.mem_singleton] at he; subst he; exact hW)
  have hsig : ∃ q : ℤ, sig 6 (n : ℚ) = ((10 * q : ℤ) : ℚ) ∧ |10 * q| < 2 ^ 24 := by
    have hpos : (0 : ℚ) < n := by exact_mod_cast (by omega : 0 < n)
    have hlog : Int.log 10 (n : ℚ) = 6 := by
      apply le_antisymm
      · have : (n : ℚ) < ((10 : ℕ) : ℚ) ^ (7 : ℤ) := by exact_mod_cast h2
        have := (Int.lt_zpow_iff_log_lt (b := 10) (by norm_num) hpos).mp this
        omega
      · have : ((10 : ℕ) : ℚ) ^ (6 : ℤ) ≤ n := by exact_mod_cast h1.le
        exact (Int.zpow_le_iff_le_log (b := 10) (by norm_num) hpos).mp this
    have hu : unit 6 (n : ℚ) = 10 := by unfold unit; rw [hlog]; norm_num
    rw [sig_pos hpos, hu]
    refine ⟨roundEven ((n : ℚ) / 10), by push_cast; ring, ?_⟩
    have hlo := roundEven_mono_int (q := (n : ℚ) / 10) (n := 0) (by push_cast; positivity)
    have hhi := roundEven_le_int (q := (n : ℚ) / 10) (n := 10 ^ 6) (by
      push_cast
      rw [div_le_iff₀ (by norm_num)]
      have : (n : ℚ) < 10 ^ 7 := by exact_mod_cast h2
      linarith)
    rw [abs_of_nonneg (by omega)]
    omega
  obtain ⟨q, hq, hb⟩ := hsig
  have hlt : ((2 : ℤ)) ^ 24 ≤ 2 ^ P := pow_le_pow_right₀ (by norm_num) hP
  have hr : ∀ n : ℤ, |n| < 2 ^ 24 → IsBin P n := fun n hn => ⟨n, 0, by omega, by simp⟩
  refine ⟨file, W', ((10 * q : ℤ) : ℚ), s1, s2, ?_, hr n (by rw [abs_of_pos (by omega)]; omega), ?_⟩
  · rw [s3 id]
    simp only [find, List.lookup_cons, beq_self_eq_true]
    simp only [through, List.map_cons, List.map_nil]
    rw [hq, bin_exact (by omega) (hr _ hb)]
  · intro h
    have : 10 * q = n := by exact_mod_cast h
    omega

/-- Example: 1234567 comes back as 1234570. -/
example : printG 6 1234567 = "1.23457e+06".toList ∧ parseF id (printG 6 1234567) = some 1234570 := by decide +kernel

/-- Restoring fails if a saved variable does not exist in the session. -/
theorem session_unknown (rnd : ℚ → ℚ) (V W : Vars ℚ) (id : Nat) (t : Ten ℚ) (h : Regular ((id, t) :: V)) (hW : find W id = none) :
    ∃ file, save (printG 6) ((id, t) :: V) = ok file ∧ restore (parseF rnd) file W = abort := by
  have hP : Printable (printG 6) (parseF rnd) (fun x => rnd (sig 6 x)) ((id, t) :: V) := by
    intro e he
    obtain ⟨h1, h2, h3⟩ := h.2 e he
    exact ⟨h1, h2, h3, fun y _ => ⟨printG_word 6 y, printG_byte, parseF_printG (by norm_num) rnd y⟩⟩
  obtain ⟨z, z1, r, z2, z3⟩ := unpacked (save_bytes hP)
  refine ⟨z, z1, ?_⟩
  unfold restore
  rw [z2, bind_ok, z3]
  unfold restoreOriginal saveOriginal
  dsimp only
  rw [getline_line (line_of_words (fun e : Nat × Ten ℚ => printNat e.1) _ (fun e _ => printNat_word e.1)), words_flatMap (fun e : Nat × Ten ℚ => printNat e.1) _ (fun e _ => printNat_word e.1),
    parseMany_map (g := Prod.fst) _ (fun e he => parseNat_printNat (hP e he).1)]
  rw [List.map_cons, restoreLoop]
  dsimp only
  rw [hW]

/-! ### tensors in files -/

/-- `save_tensor` (include/tensor.tcc lines 1290-1304) for elements printed with precision `p`: the file. -/
def saveTensor (p : Nat) (t : Ten ℚ) : List Char := writeTensor (printG p) t

/-- `load_tensor` (include/tensor.tcc lines 1280-1288) for elements of `P` bits. -/
def loadTensor (P : Nat) (file : List Char) : Res (Ten ℚ) := do
  let r ← readTensor (parseF (bin P)) ⟨file, true⟩ ⟨[], []⟩
  pure r.1

/-- Loading a saved tensor rounds its elements to `p` decimal digits and back to `P` bits. -/
theorem load_save (P p : Nat) (hp : 1 ≤ p) (t : Ten ℚ) (hsh : ∀ n ∈ t.shape, n < 2 ^ 64) (hlen : t.data.length = size t.shape) :
    loadTensor P (saveTensor p t) = ok ⟨t.shape, t.data.map (fun x => bin P (sig p x))⟩ := by
  have := read_write (x := ⟨[], []⟩) (ps := parseF (bin P)) [] hsh hlen (fun y _ => printG_word p y) (fun y _ => parseF_printG hp (bin P) y)
  rw [List.append_nil] at this
  unfold loadTensor saveTensor
  rw [this, bind_ok]
  rfl

/-- C97 for `long double` (64 bits, 25 digits): loading a saved tensor gives the tensor. -/
theorem long_double_file_round_trip (t : Ten ℚ) (hsh : ∀ n ∈ t.shape, n < 2 ^ 64) (hlen : t.data.length = size t.shape) (hx : ∀ x ∈ t.data, IsBin 64 x) :
    loadTensor 64 (saveTensor 25 t) = ok t := by
  rw [load_save 64 25 (by norm_num) t hsh hlen]
  rw [List.map_congr_left (f := fun x => bin 64 (sig 25 x)) (g := id) (fun x h => digits_suffice (by norm_num) (by norm_num) (by norm_num) (hx x h)), List.map_id]

/-- C97 for `float` (24 bits) and `double` (53 bits), with 8 and 15 digits: loading a saved tensor gives the tensor if its elements have at most that many
significant digits.  Missing: other elements (`float_file_violated`, `double_file_violated`); 9 and 17 digits would do (`digits_suffice`). -/
theorem file_round_trip_partial (P p : Nat) (hP : 1 ≤ P) (hp : 1 ≤ p) (t : Ten ℚ) (hsh : ∀ n ∈ t.shape, n < 2 ^ 64) (hlen : t.data.length = size t.shape)
    (hx : ∀ x ∈ t.data, IsBin P x ∧ ∃ m k : ℤ, |m| < 10 ^ p ∧ x = (m : ℚ) * (10 : ℚ) ^ k) :
    loadTensor P (saveTensor p t) = ok t := by
  rw [load_save P p hp t hsh hlen]
  rw [List.map_congr_left (g := id) (fun x h => by
    obtain ⟨r1, r2⟩ := hx x h
    rw [(sig_exact_iff x).mpr r2, bin_exact hP r1]; rfl), List.map_id]

/-- C97 is violated for `float`: 1000 + 2^-14 is loaded as 1000 + 2^-13. -/
theorem float_file_violated : IsBin 24 (1000 + 1 / 2 ^ 14) ∧ loadTensor 24 (saveTensor 8 ⟨[1], [1000 + 1 / 2 ^ 14]⟩) = ok ⟨[1], [1000 + 1 / 2 ^ 13]⟩ := by
  refine ⟨⟨1000 * 2 ^ 14 + 1, -14, by norm_num, by norm_num⟩, ?_⟩
  rw [load_save 24 8 (by norm_num) _ (by simp) rfl]
  have : bin 24 (sig 8 (1000 + 1 / 2 ^ 14)) = 1000 + 1 / 2 ^ 13 := by decide +kernel
  rw [List.map_singleton, this]

/-- C97 is violated for `double`: 1000 + 2^-43 is loaded as 1000. -/
theorem double_file_violated : IsBin 53 (1000 + 1 / 2 ^ 43) ∧ loadTensor 53 (saveTensor 15 ⟨[1], [1000 + 1 / 2 ^ 43]⟩) = ok ⟨[1], [1000]⟩ := by
  refine ⟨⟨1000 * 2 ^ 43 + 1, -43, by norm_num, by norm_num⟩, ?_⟩
  rw [load_save 53 15 (by norm_num) _ (by simp) rfl]
  have : bin 53 (sig 15 (1000 + 1 / 2 ^ 43)) = 1000 := by decide +kernel
  rw [List.map_singleton, this]

end Verif.Text
