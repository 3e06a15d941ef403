import Verif.Fmt.Serial
/-!
# Properties C124, C125: examples
-/
namespace Verif.Fmt
open Verif Res Serial

/-- `format_in_order`: a message of the library, with a shape (which has brackets itself). -/
example : format "axis {} is greater than the dimension of the input tensor shape {}".toList [.int 5, .list [.int 2, .int 3]] =
    ok "axis 5 is greater than the dimension of the input tensor shape { 2, 3, }".toList := by
  have := format_calm ["axis ".toList, " is greater than the dimension of the input tensor shape ".toList, []] [.int 5, .list ([2, 3].map .int)] (by simp)
    (fun p hp => calm_of_no (by revert p; simp)) (fun a ha => by
      simp only [List.mem_cons, List.not_mem_nil, or_false] at ha
      rcases ha with rfl | rfl
      · exact calm_int 5
      · exact calm_ints [2, 3])
  have e1 : (Arg.int 5).text = ['5'] := by simp only [Arg.text]; decide
  have e2 : (Arg.list ([2, 3].map .int)).text = "{ 2, 3, }".toList := by
    simp only [Arg.text]
    rw [texts_ints]
    decide
  simp only [List.map_cons, List.map_nil] at e2
  simp only [List.map_cons, List.map_nil, fill, e1, e2] at this
  simpa using this

/-- One argument too few, and one too many. -/
example : format "a{}b{}c".toList [.str ['x']] = ok "axb{}c".toList ∧ format "a{}b".toList [.str ['x'], .str ['y']] = ok "axb".toList := by
  constructor
  · exact format_in_order [['a'], ['b'], ['c']] [.str ['x']] (by simp) (by unfold Quiet; simp only [Arg.texts, Arg.text, filled]; decide)
  · exact format_in_order [['a'], ['b']] [.str ['x'], .str ['y']] (by simp) (by unfold Quiet; simp only [Arg.texts, Arg.text, filled]; decide)

/-- `format_by_number`: out of order, one used twice, one left over; hole 10 is not hole 1. -/
example : format "{1}-{0}-{1}-{10}".toList [.str ['x'], .str ['y']] = ok "y-x-y-{10}".toList := by
  have := format_by_number [.hole 1, .lit ['-'], .hole 0, .lit ['-'], .hole 1, .lit ['-'], .hole 10] [.str ['x'], .str ['y']]
    (fun l hl => by
      simp only [List.mem_cons, List.not_mem_nil, or_false, Piece.lit.injEq, reduceCtorEq, false_or] at hl
      rcases hl with rfl | rfl | rfl <;> simp)
    (fun a ha => by
      simp only [Arg.texts, Arg.text, List.mem_cons, List.not_mem_nil, or_false] at ha
      rcases ha with rfl | rfl <;> simp)
  simp only [Arg.texts, Arg.text] at this
  exact this

/-- `format_again_violated`: the names `f{}` and `g`. -/
example : format "{}={}".toList [.str "f{}".toList, .str ['g']] = ok "fg={}".toList :=
  (format_again_violated [] ['='] [] ['f'] [] ['g'] (by unfold Quiet; decide) (by decide) (by decide)).1

example : format "{0}".toList [.str "f{1}".toList, .str ['g']] = ok "fg".toList := format_number_again_violated ['f'] [] ['g'] (by decide) (by decide)

example : format "{0}={}".toList [.str ['g']] = ok "{0}=g".toList := format_mixed_violated [] ['='] [] 0 ['g'] (by unfold Quiet; decide)

/-- `argument_lines`: `reshape` to 2 x 3, with the flag. -/
example : format (codeFormat1 2) [.str (Nm.render ⟨.unary "reshape", 7⟩), .str "reshape".toList, .list ([2, 3].map .int), .bool true, .str (Nm.render ⟨.var, 3⟩)] =
    ok (lineText (unaryLine ⟨.unary "reshape", 7⟩ "reshape" ⟨.var, 3⟩ (.args (String.ofList (commas [(Arg.list ([2, 3].map .int)).text, (Arg.bool true).text]))))) :=
  (argument_lines ⟨.unary "reshape", 7⟩ ⟨.var, 3⟩ ⟨.var, 3⟩ "reshape" (.list ([2, 3].map .int)) [.bool true]
    (clean_of _ (fun s h => by
      rcases h with h | h
      · cases h; simp
      · cases h))
    (clean_of _ (fun s h => by rcases h with h | h <;> cases h)) (clean_of _ (fun s h => by rcases h with h | h <;> cases h)) (by simp)
    (fun b hb => by
      simp only [List.mem_cons, List.not_mem_nil, or_false] at hb
      rcases hb with rfl | rfl
      · exact calm_ints [2, 3]
      · exact calm_bool true)).1

/-- `ints_read_back`, `long_list_violated`. -/
example : readInts (Arg.list ([1, -2, 30].map .int)).text = some [1, -2, 30] := ints_read_back [1, -2, 30] (by decide)

example : readInts (Arg.list ((List.replicate 9 1).map .int)).text = none := long_list_violated (List.replicate 9 1) (by decide)

/-- `long_lists_same_violated`: nine and ten ones. -/
example : (Arg.list (List.replicate 9 (.int 1))).text = (Arg.list (List.replicate 10 (.int 1))).text :=
  long_lists_same_violated _ _ (by simp) (by simp) (by simp)

/-- `num_reads_back_partial`: one half. -/
example (rnd : ℚ → ℚ) : Text.parseF rnd (Arg.num (1 / 2)).text = some (rnd (1 / 2)) := (num_reads_back_partial rnd (1 / 2)).2 ⟨5, -1, by norm_num, by norm_num⟩

/-- `num_violated`: `float` and `double`. -/
example : Text.parseDec (Arg.num (1 + 1 / 2 ^ 23)).text = some 1 ∧ Text.parseDec (Arg.num (1 + 1 / 2 ^ 52)).text = some 1 :=
  ⟨(num_violated 24 (by omega)).2.1, (num_violated 53 (by omega)).2.1⟩

/-- `tuple_text`. -/
example : tupleText ["1".toList, "2".toList] = "( 1, 2 )".toList := by
  rw [tuple_text]
  decide

end Verif.Fmt
