import Verif.Fmt.Subst
import Verif.Text.Binary
/-!
# Property C125: values as text
-/
namespace Verif.Fmt
open Verif Res

/-! ### specification: reading the text back, as a compiler does -/

/-- An integer literal, with its sign. -/
def readInt : Str → Option Int
  | '-' :: w => if w ≠ [] ∧ w.all Char.isDigit then some (-(Nat.ofDigitChars 10 w 0 : Int)) else none
  | w => if w ≠ [] ∧ w.all Char.isDigit then some (Nat.ofDigitChars 10 w 0 : Int) else none

/-- Without the spaces around. -/
def trim (s : Str) : Str := ((s.dropWhile (· = ' ')).reverse.dropWhile (· = ' ')).reverse

/-- Without a last empty item (C++ allows a comma behind the last item). -/
def dropEmpty (l : List Str) : List Str := if l.getLast? = some [] then l.dropLast else l

/-- The items of a brace-enclosed list. -/
def items : Str → Option (List Str)
  | '{' :: r => if r.getLast? = some '}' then some (dropEmpty ((r.dropLast.splitOn ',').map trim)) else none
  | _ => none

/-- A brace-enclosed list of integers. -/
def readInts (s : Str) : Option (List Int) := (items s).bind fun l => l.mapM readInt

/-! ### streams -/

/-- The stream is at its end. -/
def Out.AtEnd (o : Out) (s : Str) : Prop := o.buf = s ∧ o.pos = s.length

theorem put_end {o : Out} {s t : Str} (h : o.AtEnd s) : (o.put t).AtEnd (s ++ t) := by
  obtain ⟨h1, h2⟩ := h
  unfold Out.put Out.AtEnd
  rw [h1, h2]
  simp

theorem putAll_end {l : List Str} : ∀ {o : Out} {s : Str}, o.AtEnd s → (putAll o l).AtEnd (s ++ l.flatMap (· ++ ", ".toList)) := by
  induction l with
  | nil => intro o s h; simpa [putAll] using h
  | cons a l ih =>
    intro o s h
    have := ih (put_end (t := ", ".toList) (put_end (t := a) h))
    simpa [putAll] using this

theorem start_end : ((⟨[], 0⟩ : Out)).AtEnd [] := ⟨rfl, rfl⟩

theorem back_put {o : Out} {s t : Str} {k : Nat} (h : o.AtEnd s) (hk : k ≤ s.length) (ht : k ≤ t.length) : ((o.back k).put t).buf = s.take (s.length - k) ++ t := by
  obtain ⟨h1, h2⟩ := h
  unfold Out.put Out.back
  simp only [h1, h2]
  rw [List.drop_eq_nil_of_le (by omega), List.append_nil]

theorem shift_comma (l : List Str) (e : Str) : ' ' :: (l.flatMap (· ++ ", ".toList) ++ e) = l.flatMap (fun s => ' ' :: (s ++ [','])) ++ ' ' :: e := by
  induction l with
  | nil => rfl
  | cons s l ih =>
    simp only [List.flatMap_cons, List.append_assoc, List.cons_append]
    rw [← ih]
    simp

/-- **C125** (containers). Up to eight elements are all in the text, each followed by a comma. -/
theorem list_text (l : List Str) (h : l.length ≤ 8) : listText l = '{' :: (l.flatMap (fun s => ' ' :: (s ++ [','])) ++ " }".toList) := by
  have hs : (if maxElements < l.length then l.take maxElements else l) = l := if_neg (by unfold maxElements; omega)
  have h1 := putAll_end (l := l) (put_end (t := "{ ".toList) start_end)
  unfold listText
  simp only [hs, if_true]
  rw [back_put h1 (by simp) (by simp), List.nil_append]
  have e : "{ ".toList ++ l.flatMap (· ++ ", ".toList) = '{' :: (l.flatMap (fun s => ' ' :: (s ++ [','])) ++ [' ']) := by
    have := shift_comma l []
    rw [List.append_nil] at this
    rw [← this]
    rfl
  rw [e]
  simp

theorem list_text_long (l : List Str) (h : 8 < l.length) : listText l = '{' :: ((l.take 8).flatMap (fun s => ' ' :: (s ++ [','])) ++ "  ... }".toList) := by
  have hs : (if maxElements < l.length then l.take maxElements else l) = l.take 8 := if_pos h
  have h1 := putAll_end (l := l.take 8) (put_end (t := "{ ".toList) start_end)
  unfold listText
  simp only [hs]
  rw [if_neg (by simp; omega), (put_end (t := " }".toList) (put_end (t := " ...".toList) h1)).1]
  have := shift_comma (l.take 8) " ... }".toList
  simp only [List.nil_append, List.append_assoc]
  exact congrArg (List.cons '{') this

/-! ### reading it back -/

theorem intText_chars (z : Int) : intText z ≠ [] ∧ ∀ c ∈ intText z, c = '-' ∨ c.isDigit = true := by
  unfold intText
  split
  · refine ⟨by simp, fun c hc => ?_⟩
    rcases List.mem_cons.mp hc with h | h
    · exact Or.inl h
    · exact Or.inr (digits_no h)
  · exact ⟨Nat.toDigits_ne_nil, fun c hc => Or.inr (digits_no hc)⟩

theorem readInt_intText (z : Int) : readInt (intText z) = some z := by
  have key : ∀ n : Nat, Nat.toDigits 10 n ≠ [] ∧ (Nat.toDigits 10 n).all Char.isDigit = true := fun n =>
    ⟨Nat.toDigits_ne_nil, List.all_eq_true.mpr (fun c hc => digits_no hc)⟩
  unfold intText
  split
  · show (if Nat.toDigits 10 z.natAbs ≠ [] ∧ (Nat.toDigits 10 z.natAbs).all Char.isDigit = true then some (-(Nat.ofDigitChars 10 (Nat.toDigits 10 z.natAbs) 0 : Int)) else none) = _
    rw [if_pos (key _), Nat.ofDigitChars_toDigits (by omega) (by omega)]
    congr 1
    omega
  · have hne : ∀ w : Str, Nat.toDigits 10 z.natAbs ≠ '-' :: w := by
      intro w e
      have := digits_no (i := z.natAbs) (c := '-') (by rw [e]; exact List.mem_cons_self)
      exact absurd this (by decide)
    unfold readInt
    split
    · rename_i w e
      exact absurd e (hne w)
    · rw [if_pos (key _), Nat.ofDigitChars_toDigits (by omega) (by omega)]
      congr 1
      omega

/-- A text a list can contain: not empty, without commas and spaces at its ends. -/
def Plain (s : Str) : Prop := s ≠ [] ∧ ',' ∉ s ∧ ' ' ∉ s

theorem plain_int (z : Int) : Plain (intText z) := by
  obtain ⟨h1, h2⟩ := intText_chars z
  refine ⟨h1, fun h => ?_, fun h => ?_⟩
  · rcases h2 _ h with h | h
    · exact absurd h (by decide)
    · exact absurd h (by decide)
  · rcases h2 _ h with h | h
    · exact absurd h (by decide)
    · exact absurd h (by decide)

theorem trim_plain {s : Str} (h : ' ' ∉ s) : trim (' ' :: s) = s := by
  have key : ∀ t : Str, ' ' ∉ t → t.dropWhile (· = ' ') = t := by
    intro t ht
    cases t with
    | nil => rfl
    | cons c t =>
      rw [List.dropWhile_cons_of_neg]
      simp only [decide_eq_true_eq]
      rintro rfl
      exact ht List.mem_cons_self
  unfold trim
  rw [List.dropWhile_cons_of_pos (by simp), key s h, key _ (by simpa using h), List.reverse_reverse]

theorem split_items (l : List Str) (h : ∀ s ∈ l, ',' ∉ s) (e : Str) (he : ',' ∉ e) :
    (l.flatMap (fun s => ' ' :: (s ++ [','])) ++ e).splitOn ',' = l.map (' ' :: ·) ++ [e] := by
  induction l with
  | nil =>
    simp only [List.flatMap_nil, List.nil_append, List.map_nil]
    exact List.splitOn_eq_singleton he
  | cons s l ih =>
    have hs := h s List.mem_cons_self
    have e1 : ((s :: l).flatMap (fun s => ' ' :: (s ++ [','])) ++ e) = (' ' :: s) ++ ',' :: (l.flatMap (fun s => ' ' :: (s ++ [','])) ++ e) := by simp
    rw [e1, List.splitOn_append_cons_self_of_not_mem, ih (fun s h' => h s (List.mem_cons_of_mem _ h'))]
    · rfl
    · intro hm
      rcases List.mem_cons.mp hm with hm | hm
      · exact absurd hm (by decide)
      · exact hs hm

theorem items_list (l : List Str) (h : ∀ s ∈ l, Plain s) (e : Str) (he : ',' ∉ e) :
    items ('{' :: (l.flatMap (fun s => ' ' :: (s ++ [','])) ++ (e ++ ['}']))) = some (dropEmpty (l ++ [trim e])) := by
  show (if (l.flatMap (fun s => ' ' :: (s ++ [','])) ++ (e ++ ['}'])).getLast? = some '}' then
    some (dropEmpty (((l.flatMap (fun s => ' ' :: (s ++ [','])) ++ (e ++ ['}'])).dropLast.splitOn ',').map trim)) else none) = _
  rw [← List.append_assoc, if_pos (by simp), List.dropLast_concat, split_items l (fun s hs => (h s hs).2.1) e he, List.map_append, List.map_map]
  congr 3
  conv_rhs => rw [← List.map_id l]
  exact List.map_congr_left (fun s hs => trim_plain (h s hs).2.2)

theorem texts_map (l : List Arg) : Arg.texts l = l.map Arg.text := by
  induction l with
  | nil => rfl
  | cons a l ih => simp only [Arg.texts, List.map_cons, ih]

theorem texts_ints (zs : List Int) : Arg.texts (zs.map .int) = zs.map intText := by
  rw [texts_map, List.map_map]
  exact List.map_congr_left (fun z _ => rfl)

theorem mapM_ints (zs : List Int) : (zs.map intText).mapM readInt = some zs := by
  induction zs with
  | nil => rfl
  | cons z zs ih => simp [List.mapM_cons, readInt_intText, ih]

/-- **C125** (shapes). A list of at most eight integers - in particular every shape of that many dimensions - reads back as itself. -/
theorem ints_read_back (zs : List Int) (h : zs.length ≤ 8) : readInts (Arg.list (zs.map .int)).text = some zs := by
  simp only [Arg.text]
  unfold readInts
  rw [texts_ints, list_text _ (by simpa), show " }".toList = [' '] ++ ['}'] from rfl, items_list _ _ [' '] (by decide)]
  · have e : dropEmpty (zs.map intText ++ [trim [' ']]) = zs.map intText := by
      rw [show trim [' '] = [] from rfl]
      unfold dropEmpty
      rw [if_pos (by simp), List.dropLast_concat]
    rw [e]
    exact mapM_ints zs
  · intro s hs
    obtain ⟨z, -, rfl⟩ := List.mem_map.mp hs
    exact plain_int z

/-- **C125** (violated: long containers). The text of a list of more than eight integers is no list of integers. -/
theorem long_list_violated (zs : List Int) (h : 8 < zs.length) : readInts (Arg.list (zs.map .int)).text = none := by
  simp only [Arg.text]
  unfold readInts
  rw [texts_ints, list_text_long _ (by simpa), show "  ... }".toList = "  ... ".toList ++ ['}'] from rfl, items_list _ _ _ (by decide)]
  · have e : dropEmpty ((zs.map intText).take 8 ++ [trim "  ... ".toList]) = (zs.map intText).take 8 ++ ["...".toList] := by
      rw [show trim "  ... ".toList = "...".toList from by decide]
      unfold dropEmpty
      rw [if_neg (by simp)]
    rw [e]
    have hm : ((zs.take 8).map intText ++ ["...".toList]).mapM readInt = none := by
      rw [List.mapM_append, mapM_ints]
      have : readInt ['.', '.', '.'] = none := by decide
      show (some (zs.take 8)).bind (fun a => ((readInt ['.', '.', '.']).bind fun x => some [x]).bind fun b => some (a ++ b)) = none
      rw [this]
      rfl
    rw [← List.map_take]
    exact hm
  · intro s hs
    obtain ⟨z, -, rfl⟩ := List.mem_map.mp (List.mem_of_mem_take hs)
    exact plain_int z

/-- **C125** (violated: long containers look the same). Lists of more than eight elements that agree in the first eight have one text. -/
theorem long_lists_same_violated (l m : List Arg) (hl : 8 < l.length) (hm : 8 < m.length) (h : l.take 8 = m.take 8) : (Arg.list l).text = (Arg.list m).text := by
  simp only [Arg.text]
  rw [texts_map, texts_map, list_text_long _ (by simpa), list_text_long _ (by simpa), ← List.map_take, ← List.map_take, h]

/-! ### numbers -/

/-- **C125** (numbers). The text of a number reads back as the number rounded to six decimal digits; so as itself if that many are enough. -/
theorem num_reads_back_partial (rnd : ℚ → ℚ) (x : ℚ) :
    Text.parseF rnd (Arg.num x).text = some (rnd (Text.sig 6 x)) ∧ ((∃ m k : ℤ, |m| < 10 ^ 6 ∧ x = (m : ℚ) * (10 : ℚ) ^ k) → Text.parseF rnd (Arg.num x).text = some (rnd x)) := by
  have h : Text.parseF rnd (Arg.num x).text = some (rnd (Text.sig 6 x)) := by
    simp only [Arg.text]
    unfold Text.parseF
    rw [Text.parse_printG (by omega)]
    rfl
  refine ⟨h, fun hx => ?_⟩
  rw [h, (Text.sig_exact_iff x).mpr hx]

/-- **C125** (violated: numbers). In every binary format of 19 bits or more there is a number - the one next to 1 - whose text reads back as another. -/
theorem num_violated (P : Nat) (hP : 19 ≤ P) : Text.IsBin P (1 + 1 / 2 ^ (P - 1)) ∧
    Text.parseDec (Arg.num (1 + 1 / 2 ^ (P - 1))).text = some 1 ∧ (1 : ℚ) + 1 / 2 ^ (P - 1) ≠ 1 := by
  obtain ⟨k, rfl⟩ : ∃ k, P = k + 19 := ⟨P - 19, by omega⟩
  rw [show k + 19 - 1 = k + 18 by omega]
  have h2 : (0 : ℚ) < 2 ^ (k + 18) := by positivity
  have hbig : (262144 : ℚ) ≤ 2 ^ (k + 18) := by
    rw [pow_add]
    have : (1 : ℚ) ≤ 2 ^ k := one_le_pow₀ (by norm_num)
    linarith
  have hsmall : (1 : ℚ) / 2 ^ (k + 18) ≤ 1 / 262144 := one_div_le_one_div_of_le (by norm_num) hbig
  have hpos : (0 : ℚ) < 1 / 2 ^ (k + 18) := by positivity
  refine ⟨⟨2 ^ (k + 18) + 1, -((k : ℤ) + 18), ?_, ?_⟩, ?_, by linarith⟩
  · rw [abs_of_pos (by positivity)]
    have : (1 : ℤ) < 2 ^ (k + 18) := one_lt_pow₀ (by norm_num) (by omega)
    rw [show k + 19 = (k + 18) + 1 by omega, pow_succ (2 : ℤ) (k + 18)]
    linarith
  · rw [zpow_neg, show ((k : ℤ) + 18) = ((k + 18 : ℕ) : ℤ) by push_cast; ring, zpow_natCast]
    push_cast
    field_simp
  · simp only [Arg.text]
    rw [Text.parse_printG (by omega)]
    refine congrArg some ?_
    set x : ℚ := 1 + 1 / 2 ^ (k + 18) with hx
    have hl : Int.log 10 x = 0 := by
      apply le_antisymm
      · have := (Int.lt_zpow_iff_log_lt (b := 10) (x := 1) (r := x) (by norm_num) (by linarith)).mp (by push_cast; linarith)
        omega
      · exact (Int.zpow_le_iff_le_log (b := 10) (x := 0) (r := x) (by norm_num) (by linarith)).mp (by push_cast; linarith)
    have hu : Text.unit 6 x = 1 / 100000 := by
      unfold Text.unit
      rw [hl]
      norm_num
    rw [Text.sig_pos (by linarith), hu, Text.roundEven_eq (n := 100000)]
    · norm_num
    · rw [abs_lt]
      constructor <;> push_cast <;> linarith

/-! ### characters, tuples -/

theorem format_one (a : Arg) : format ['{', '}'] [a] = ok a.text := by
  unfold format formatText
  rw [if_pos (show (find ['{', '}'] "{}".toList 0).isSome = true by decide)]
  have := once_first (u := []) (v := []) (a := a.text) (by unfold Quiet; decide)
  simpa [Arg.texts, plainFormat] using this

/-- **C125** (violated: characters). A character is written as two characters. -/
theorem char_violated (c : Char) : format ['{', '}'] [.chr c] = ok [Char.ofNat 1, c] := by
  rw [format_one]
  simp only [Arg.text]

/-- **C125** (violated: pointers to text). Of the text a `char const*` points to, the first character is written, as two, in brackets. -/
theorem c_string_violated (c : Char) : format ['{', '}'] [.raw (some (.chr c))] = ok ['<', Char.ofNat 1, c, '>'] := by
  rw [format_one]
  simp only [Arg.text]
  rfl

/-- **C125** (tuples). The elements, separated by commas. -/
theorem tuple_text (a : Str) (l : List Str) : tupleText (a :: l) = "( ".toList ++ a ++ l.flatMap (", ".toList ++ ·) ++ " )".toList := by
  have h1 := putAll_end (l := a :: l) (put_end (t := "( ".toList) start_end)
  unfold tupleText
  simp only
  have e : ∀ (a : Str) (l : List Str), (a :: l).flatMap (· ++ ", ".toList) = a ++ l.flatMap (", ".toList ++ ·) ++ ", ".toList := by
    intro a l
    induction l generalizing a with
    | nil => simp
    | cons b l ih =>
      rw [List.flatMap_cons, ih b]
      simp
  rw [back_put h1 (by simp) (by simp), List.nil_append, e]
  have : "( ".toList ++ (a ++ l.flatMap (", ".toList ++ ·) ++ ", ".toList) = ("( ".toList ++ a ++ l.flatMap (", ".toList ++ ·)) ++ ", ".toList := by simp
  rw [this, List.take_left' (by rw [List.length_append (bs := ", ".toList)]; rfl)]

/-- **C125** (violated: the empty tuple). Its bracket is overwritten. -/
theorem empty_tuple_violated : tupleText [] = " )".toList := by decide

end Verif.Fmt
