import Verif.Text.Model
import Verif.Data.Move
import Verif.Data.Flip
import Verif.Lzw.Props
/-!
# C65, C66: tensors and sessions survive being written and read
-/
namespace Verif.Text
open Verif Res Data

variable {α : Type}

/-- A word: not empty, without spaces. -/
def Word (w : List Char) : Prop := w ≠ [] ∧ ∀ c ∈ w, isSpace c = false

theorem words_word {w : List Char} (hw : ∀ c ∈ w, isSpace c = false) (cur cs : List Char) : words cur (w ++ cs) = words (w.reverse ++ cur) cs := by
  induction w generalizing cur with
  | nil => rfl
  | cons c w ih =>
    simp only [List.cons_append, words]
    rw [if_neg (by simp [hw c (by simp)]), ih (fun d hd => hw d (by simp [hd]))]
    simp

theorem words_cons {w : List Char} (hw : Word w) (cs : List Char) : words [] (w ++ [' '] ++ cs) = w :: words [] cs := by
  rw [List.append_assoc, words_word hw.2, List.append_nil, List.singleton_append, words, if_pos (by decide), if_neg (by simpa using hw.1),
    List.reverse_reverse]

theorem words_flatMap {β : Type} (f : β → List Char) (l : List β) (h : ∀ x ∈ l, Word (f x)) : words [] (l.flatMap (fun x => f x ++ [' '])) = l.map f := by
  induction l with
  | nil => rfl
  | cons x l ih =>
    rw [List.flatMap_cons, words_cons (h x (by simp)), ih (fun y hy => h y (by simp [hy]))]; rfl

theorem parseMany_map {β : Type} {ps : List Char → Option β} {f : α → List Char} {g : α → β} (l : List α) (h : ∀ x ∈ l, ps (f x) = some (g x)) :
    parseMany ps (l.map f) = l.map g := by
  induction l with
  | nil => rfl
  | cons x l ih =>
    rw [List.map_cons, parseMany, h x (by simp)]
    dsimp only
    rw [ih (fun y hy => h y (by simp [hy]))]; rfl

theorem isDigit_not_space {c : Char} (h : c.isDigit = true) : isSpace c = false := by
  unfold isSpace
  rw [Char.isDigit_iff_toNat] at h
  have hne : ∀ d : Char, d.toNat < 48 → c ≠ d := fun d hd e => by subst e; simp at h; omega
  simp [hne ' ' (by decide), hne '\n' (by decide), hne '\t' (by decide), hne '\r' (by decide), hne (Char.ofNat 11) (by decide), hne (Char.ofNat 12) (by decide)]

theorem printNat_digit {n : Nat} {c : Char} (h : c ∈ printNat n) : c.isDigit = true := Nat.isDigit_of_mem_toDigits (by omega) (by omega) h

theorem printNat_word (n : Nat) : Word (printNat n) := ⟨Nat.toDigits_ne_nil, fun _ h => isDigit_not_space (printNat_digit h)⟩

theorem parseNat_printNat {limit n : Nat} (h : n < limit) : parseNat limit (printNat n) = some n := by
  unfold parseNat
  rw [if_pos ⟨Nat.toDigits_ne_nil, by rw [List.all_eq_true]; exact fun _ => printNat_digit⟩]
  unfold printNat
  rw [Nat.ofDigitChars_ten_toDigits, if_pos h]

theorem space_newline {c : Char} (h : isSpace c = false) : c ≠ '\n' := by
  intro e; subst e; exact absurd h (by decide)

theorem getline_line {l : List Char} (hl : ∀ c ∈ l, c ≠ '\n') (rest : List Char) : getline ⟨l ++ ['\n'] ++ rest, true⟩ = (l, ⟨rest, true⟩) := by
  have h1 : (l ++ ['\n'] ++ rest).takeWhile (· ≠ '\n') = l := by
    rw [List.append_assoc, List.takeWhile_append_of_pos (by simpa using hl)]
    simp
  have h2 : (l ++ ['\n'] ++ rest).dropWhile (· ≠ '\n') = '\n' :: rest := by
    rw [List.append_assoc, List.dropWhile_append_of_pos (by simpa using hl)]
    simp
  unfold getline
  rw [if_pos rfl]
  dsimp only
  rw [h1, h2]

theorem line_of_words {β : Type} (f : β → List Char) (l : List β) (h : ∀ x ∈ l, Word (f x)) : ∀ c ∈ l.flatMap (fun x => f x ++ [' ']), c ≠ '\n' := by
  intro c hc
  obtain ⟨x, hx, hc⟩ := List.mem_flatMap.mp hc
  rcases List.mem_append.mp hc with hc | hc
  · exact space_newline ((h x hx).2 c hc)
  · have : c = ' ' := by simpa using hc
    rw [this]; decide

theorem copyTo_all (src dst : List α) (h : dst.length = src.length) : copyTo src 0 src.length dst 0 = ok src := by
  by_cases h0 : src = []
  · subst h0
    have : dst = [] := by simpa using h
    subst this; rfl
  · obtain ⟨a, l, e⟩ := List.exists_cons_of_ne_nil h0
    have hs := copyTo_sets (src := src) (s := 0) (n := src.length) (d := 0) (N := src.length) (v := fun p => src.getD p a) (by omega) (fun i hi => by
      rw [Nat.zero_add, List.getD_eq_getElem?_getD, List.getElem?_eq_getElem hi]; rfl)
    rw [hs.eq_ok (fun p hp => ⟨p, hp, by omega⟩) h]
    congr 1
    apply List.ext_getElem
    · simp
    · intro i h1 h2
      simp [List.getElem?_eq_getElem h2]

/-- The general fact: what is read is what was printed, element by element. -/
theorem read_write [Zero α] {pr : α → List Char} {ps : List Char → Option α} {g : α → α} {t x : Ten α} (rest : List Char)
    (hsh : ∀ n ∈ t.shape, n < 2 ^ 64) (hlen : t.data.length = size t.shape)
    (hw : ∀ y ∈ t.data, Word (pr y)) (hp : ∀ y ∈ t.data, ps (pr y) = some (g y)) :
    readTensor ps ⟨writeTensor pr t ++ rest, true⟩ x = ok (⟨t.shape, t.data.map g⟩, ⟨rest, true⟩) := by
  have e1 : getline ⟨writeTensor pr t ++ rest, true⟩ =
      (t.shape.flatMap (fun n => printNat n ++ [' ']), ⟨t.data.flatMap (fun x => pr x ++ [' ']) ++ ['\n'] ++ rest, true⟩) := by
    unfold writeTensor
    rw [List.append_assoc]
    exact getline_line (line_of_words printNat t.shape (fun n _ => printNat_word n)) _
  have e2 := getline_line (line_of_words pr t.data hw) rest
  unfold readTensor
  rw [assert_true rfl, bind_ok]
  dsimp only
  rw [e1]
  dsimp only
  rw [e2]
  dsimp only
  rw [words_flatMap printNat t.shape (fun n _ => printNat_word n), words_flatMap pr t.data hw,
    parseMany_map (f := printNat) (g := id) t.shape (fun n hn => parseNat_printNat (hsh n hn)), parseMany_map (g := g) t.data hp, List.map_id]
  rw [assert_true (by rw [resizeV_length, List.length_map, hlen]), bind_ok, copyTo_all _ _ (by rw [resizeV_length, List.length_map, hlen]), bind_ok]
  rfl

/-- C65: a tensor written by `write_tensor` is read back by `read_tensor`, whatever the target held and whatever follows in the stream, and
the stream stands after it.  Missing: the default constructed tensor (`text_default_violated`). -/
theorem text_round_trip_partial [Zero α] (pr : α → List Char) (ps : List Char → Option α) (t x : Ten α) (rest : List Char)
    (hsh : ∀ n ∈ t.shape, n < 2 ^ 64) (hlen : t.data.length = size t.shape)
    (hw : ∀ y ∈ t.data, Word (pr y)) (hp : ∀ y ∈ t.data, ps (pr y) = some y) :
    readTensor ps ⟨writeTensor pr t ++ rest, true⟩ x = ok (t, ⟨rest, true⟩) := by
  have := read_write (x := x) (g := id) rest hsh hlen hw hp
  rwa [List.map_id] at this

/-- C65 is violated: the default constructed tensor has neither extents nor elements, while `read_tensor` expects one element when there are
no extents. -/
theorem text_default_violated [Zero α] (pr : α → List Char) (ps : List Char → Option α) (x : Ten α) (rest : List Char) :
    readTensor ps ⟨writeTensor pr (⟨[], []⟩ : Ten α) ++ rest, true⟩ x = abort := by
  have e1 : getline ⟨writeTensor pr (⟨[], []⟩ : Ten α) ++ rest, true⟩ = ([], ⟨[] ++ ['\n'] ++ rest, true⟩) :=
    getline_line (l := []) (by simp) _
  have e2 := getline_line (l := []) (by simp) rest
  unfold readTensor
  rw [assert_true rfl, bind_ok]
  dsimp only
  rw [e1]
  dsimp only
  rw [e2]
  rw [assert_false (by rw [resizeV_length]; simp [words, parseMany])]
  rfl

/-- Without a number where an element should be (such as `nan`, which can be written but not read) reading fails. -/
theorem text_unreadable [Zero α] (pr : α → List Char) (ps : List Char → Option α) (t x : Ten α) (rest : List Char) (y : α)
    (hsh : ∀ n ∈ t.shape, n < 2 ^ 64) (hlen : t.data.length = size t.shape) (hw : ∀ y ∈ t.data, Word (pr y)) (hy : y ∈ t.data) (hp : ps (pr y) = none) :
    readTensor ps ⟨writeTensor pr t ++ rest, true⟩ x = abort := by
  have hmany : ∀ l : List α, y ∈ l → (parseMany ps (l.map pr)).length < l.length := by
    intro l
    induction l with
    | nil => simp
    | cons z l ih =>
      intro hm
      rw [List.map_cons, parseMany]
      cases hz : ps (pr z) with
      | none => simp
      | some v =>
        rcases List.mem_cons.mp hm with e | e
        · subst e; rw [hp] at hz; cases hz
        · simpa using ih e
  have e1 : getline ⟨writeTensor pr t ++ rest, true⟩ =
      (t.shape.flatMap (fun n => printNat n ++ [' ']), ⟨t.data.flatMap (fun x => pr x ++ [' ']) ++ ['\n'] ++ rest, true⟩) := by
    unfold writeTensor
    rw [List.append_assoc]
    exact getline_line (line_of_words printNat t.shape (fun n _ => printNat_word n)) _
  have e2 := getline_line (line_of_words pr t.data hw) rest
  unfold readTensor
  rw [assert_true rfl, bind_ok]
  dsimp only
  rw [e1]
  dsimp only
  rw [e2]
  dsimp only
  rw [words_flatMap printNat t.shape (fun n _ => printNat_word n), words_flatMap pr t.data hw,
    parseMany_map (f := printNat) (g := id) t.shape (fun n hn => parseNat_printNat (hsh n hn)), List.map_id]
  rw [assert_false (by rw [resizeV_length]; have := hmany t.data hy; omega)]
  rfl

/-! ### sessions -/

/-- The variables as a table. -/
theorem find_update (V : Vars α) (id j : Nat) (t : Ten α) (h : find V id ≠ none) : find (update V id t) j = if j = id then some t else find V j := by
  unfold find update at *
  induction V with
  | nil => simp at h
  | cons e V ih =>
    obtain ⟨k, u⟩ := e
    by_cases hk : k = id
    · subst hk
      simp only [List.map_cons, if_true]
      by_cases hj : j = k
      · subst hj; simp
      · rw [if_neg hj, List.lookup_cons, List.lookup_cons]
        have hjk : (j == k) = false := by simpa using hj
        rw [hjk]
        dsimp only
        by_cases hin : List.lookup k V = none
        · have : V.map (fun e => if e.1 = k then (e.1, t) else e) = V := by
            rw [List.lookup_eq_none_iff] at hin
            conv_rhs => rw [← List.map_id V]
            refine List.map_congr_left (fun e he => ?_)
            have := hin e he
            rw [if_neg (fun h => by rw [h] at this; simp at this)]; rfl
          rw [this]
        · rw [ih hin, if_neg hj]
    · simp only [List.map_cons, if_neg hk]
      rw [List.lookup_cons, List.lookup_cons]
      have hik : (id == k) = false := by simpa using fun h => hk h.symm
      rw [List.lookup_cons, hik] at h
      dsimp only at h
      by_cases hj : j = k
      · have : (j == k) = true := by simpa using hj
        rw [this]
        dsimp only
        rw [if_neg (by omega)]
      · have : (j == k) = false := by simpa using hj
        rw [this]
        dsimp only
        exact ih h

/-- Saved variables that can be written and read. -/
def Printable (pr : α → List Char) (ps : List Char → Option α) (g : α → α) (V : Vars α) : Prop :=
  ∀ e ∈ V, e.1 < 2 ^ 31 ∧ (∀ n ∈ e.2.shape, n < 2 ^ 64) ∧ e.2.data.length = size e.2.shape ∧
    ∀ y ∈ e.2.data, Word (pr y) ∧ (∀ c ∈ pr y, c.toNat < 256) ∧ ps (pr y) = some (g y)

/-- The value of a variable after its elements went through `g`. -/
def through (g : α → α) (t : Ten α) : Ten α := ⟨t.shape, t.data.map g⟩

theorem restoreLoop_ok [Zero α] {pr : α → List Char} {ps : List Char → Option α} {g : α → α} (V W : Vars α) (rest : List Char) (h : Printable pr ps g V)
    (hd : (V.map Prod.fst).Nodup) (hW : ∀ e ∈ V, find W e.1 ≠ none) :
    ∃ W', restoreLoop ps (V.map Prod.fst) W ⟨V.flatMap (fun e => writeTensor pr e.2) ++ rest, true⟩ = ok W' ∧
      ∀ j, find W' j = match find V j with
        | some t => some (through g t)
        | none => find W j := by
  induction V generalizing W with
  | nil => exact ⟨W, rfl, fun j => rfl⟩
  | cons e V ih =>
    obtain ⟨id, t⟩ := e
    obtain ⟨_, h1, h2, h3⟩ := h (id, t) (by simp)
    obtain ⟨x, hx⟩ := Option.ne_none_iff_exists'.mp (hW (id, t) (by simp))
    simp only [List.map_cons, List.nodup_cons] at hd
    have hne : find W id ≠ none := by rw [hx]; simp
    obtain ⟨W', k1, k2⟩ := ih (update W id (through g t)) (fun e he => h e (by simp [he])) hd.2 (fun e he => by
      rw [find_update _ _ _ _ hne]
      split
      · simp
      · exact hW e (by simp [he]))
    refine ⟨W', ?_, fun j => ?_⟩
    · rw [List.map_cons, restoreLoop]
      dsimp only
      rw [hx]
      dsimp only
      rw [List.flatMap_cons, List.append_assoc, read_write _ h1 h2 (fun y hy => (h3 y hy).1) (fun y hy => (h3 y hy).2.2), bind_ok]
      exact k1
    · rw [k2 j]
      have hnone : find V id = none := by
        unfold find
        rw [List.lookup_eq_none_iff]
        intro e he
        have : e.1 ≠ id := fun h => hd.1 (List.mem_map.mpr ⟨e, he, h⟩)
        simpa using fun h => this h.symm
      by_cases hj : j = id
      · subst hj
        rw [hnone]
        dsimp only
        rw [find_update _ _ _ _ hne, if_pos rfl]
        simp [find]
      · have : find ((id, t) :: V) j = find V j := by
          unfold find
          rw [List.lookup_cons]
          have : (j == id) = false := by simpa using hj
          rw [this]
        rw [this]
        cases find V j with
        | some u => rfl
        | none =>
          dsimp only
          rw [find_update _ _ _ _ hne, if_neg hj]

theorem restoreOriginal_ok [Zero α] {pr : α → List Char} {ps : List Char → Option α} {g : α → α} (V W : Vars α) (h : Printable pr ps g V)
    (hd : (V.map Prod.fst).Nodup) (hW : ∀ e ∈ V, find W e.1 ≠ none) :
    ∃ W', restoreOriginal ps (saveOriginal pr V) W = ok W' ∧ ∀ j, find W' j = match find V j with
        | some t => some (through g t)
        | none => find W j := by
  obtain ⟨W', k1, k2⟩ := restoreLoop_ok V W [] h hd hW
  refine ⟨W', ?_, k2⟩
  unfold restoreOriginal saveOriginal
  dsimp only
  rw [getline_line (line_of_words (fun e : Nat × Ten α => printNat e.1) V (fun e _ => printNat_word e.1)), words_flatMap (fun e : Nat × Ten α => printNat e.1) V (fun e _ => printNat_word e.1),
    parseMany_map (g := Prod.fst) V (fun e he => parseNat_printNat (h e he).1)]
  rw [List.append_nil] at k1
  exact k1

theorem save_bytes {pr : α → List Char} {ps : List Char → Option α} {g : α → α} {V : Vars α} (h : Printable pr ps g V) :
    ∀ c ∈ saveOriginal pr V, c.toNat < 256 := by
  have hdig : ∀ n, ∀ c ∈ printNat n ++ [' '], c.toNat < 256 := by
    intro n c hc
    rcases List.mem_append.mp hc with hc | hc
    · have := printNat_digit hc
      rw [Char.isDigit_iff_toNat] at this
      simp at this
      omega
    · have : c = ' ' := by simpa using hc
      rw [this]; decide
  have hnl : ∀ c ∈ ['\n'], c.toNat < 256 := by decide
  intro c hc
  unfold saveOriginal at hc
  rcases List.mem_append.mp hc with hc | hc
  · rcases List.mem_append.mp hc with hc | hc
    · obtain ⟨e, _, hc⟩ := List.mem_flatMap.mp hc
      exact hdig _ c hc
    · exact hnl c hc
  · obtain ⟨e, he, hc⟩ := List.mem_flatMap.mp hc
    unfold writeTensor at hc
    rcases List.mem_append.mp hc with hc | hc
    · rcases List.mem_append.mp hc with hc | hc
      · obtain ⟨n, _, hc⟩ := List.mem_flatMap.mp hc
        exact hdig _ c hc
      · exact hnl c hc
    · rcases List.mem_append.mp hc with hc | hc
      · obtain ⟨y, hy, hc⟩ := List.mem_flatMap.mp hc
        rcases List.mem_append.mp hc with hc | hc
        · exact ((h e he).2.2.2 y hy).2.1 c hc
        · have : c = ' ' := by simpa using hc
          rw [this]; decide
      · exact hnl c hc

/-- The text that `restore` takes out of a file written by `save`. -/
theorem unpacked {text : List Char} (h : ∀ c ∈ text, c.toNat < 256) :
    ∃ file, Lzw.compress Lzw.dmsRepo (text.map (fun c => Lzw.toByte c.toNat)) = ok file ∧
      ∃ r, Lzw.decompress Lzw.dmsRepo file = ok r ∧ r.1.map (fun b => Char.ofNat b.val) = text := by
  obtain ⟨z, z1, z2⟩ := Lzw.lzw_round_trip (text.map (fun c => Lzw.toByte c.toNat))
  refine ⟨z, z1, _, z2, ?_⟩
  rw [List.map_map]
  conv_rhs => rw [← List.map_id text]
  refine List.map_congr_left (fun c hc => ?_)
  have : (Lzw.toByte c.toNat).val = c.toNat := Nat.mod_eq_of_lt (h c hc)
  simp only [Function.comp_apply, id, this, Char.ofNat_toNat]

/-- What restoring a saved session gives in general: the saved elements as far as they survive being printed. -/
theorem session_round_trip_through [Zero α] (pr : α → List Char) (ps : List Char → Option α) (g : α → α) (V W : Vars α) (h : Printable pr ps g V)
    (hd : (V.map Prod.fst).Nodup) (hW : ∀ e ∈ V, find W e.1 ≠ none) :
    ∃ file W', save pr V = ok file ∧ restore ps file W = ok W' ∧ ∀ j, find W' j = match find V j with
        | some t => some (through g t)
        | none => find W j := by
  obtain ⟨z, z1, r, z2, z3⟩ := unpacked (save_bytes h)
  obtain ⟨W', k1, k2⟩ := restoreOriginal_ok V W h hd hW
  refine ⟨z, W', z1, ?_, k2⟩
  unfold restore
  rw [z2, bind_ok, z3]
  exact k1

end Verif.Text
