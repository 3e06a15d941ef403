import Verif.Fmt.Values
import Verif.Serial.Model
/-!
# Property C124: the lines the serialisers write

The lines of `Verif/Serial/Model.lean` are lists of pieces; here they are what `format` makes of the format strings in the code.
-/
namespace Verif.Fmt
open Verif Res Serial

/-- A line as text. -/
def lineText (l : List Tok) : Str :=
  l.flatMap fun
    | .lit s => s.toList
    | .name n => n.render

/-! ### texts without holes -/

/-- A text without holes, that does not begin one either. -/
def Calm (s : Str) : Prop := Quiet s ∧ s.getLast? ≠ some '{'

theorem quiet_append : ∀ {s t : Str}, Quiet s → Quiet t → ¬ (s.getLast? = some '{' ∧ t.head? = some '}') → Quiet (s ++ t) := by
  intro s t hs ht h
  rintro ⟨u, v, e⟩
  rw [List.append_assoc] at e
  rcases List.append_eq_append_iff.mp e with ⟨x, rfl, hx⟩ | ⟨x, rfl, hx⟩
  · match x with
    | [] => exact ht ⟨[], v, by simpa using hx⟩
    | [c] =>
      simp only [List.cons_append, List.nil_append, List.cons.injEq] at hx
      exact h ⟨by rw [← hx.1]; simp, by rw [← hx.2]; rfl⟩
    | c :: d :: x =>
      simp only [List.cons_append, List.nil_append, List.cons.injEq] at hx
      exact hs ⟨u, x, by rw [hx.1, hx.2.1]; simp⟩
  · exact ht ⟨x, v, by rw [hx]; simp⟩

theorem Calm.append {s t : Str} (hs : Calm s) (ht : Calm t) : Calm (s ++ t) := by
  refine ⟨quiet_append hs.1 ht.1 (fun h => hs.2 h.1), ?_⟩
  rw [List.getLast?_append]
  cases hl : t.getLast? with
  | none => simpa using hs.2
  | some c => simpa [hl] using ht.2

theorem calm_of_no {s : Str} (h : '{' ∉ s) : Calm s := by
  refine ⟨fun hi => h (hi.subset (by simp)), fun hl => h (List.mem_of_getLast? hl)⟩

theorem calm_flatMap {β : Type} {f : β → Str} {l : List β} (h : ∀ x ∈ l, Calm (f x)) : Calm (l.flatMap f) := by
  induction l with
  | nil => exact calm_of_no (by simp)
  | cons x l ih =>
    rw [List.flatMap_cons]
    exact (h x List.mem_cons_self).append (ih (fun y hy => h y (List.mem_cons_of_mem _ hy)))

/-- A container of calm texts has a calm text. -/
theorem calm_list {l : List Str} (h : ∀ s ∈ l, Calm s) : Calm (listText l) := by
  have hb : ∀ (l : List Str), (∀ s ∈ l, Calm s) → ∀ e : Str, Calm (' ' :: e) → Calm ('{' :: (l.flatMap (fun s => ' ' :: (s ++ [','])) ++ ' ' :: e)) := by
    intro l h e he
    rw [← shift_comma l e]
    have h1 : Calm "{ ".toList := ⟨by unfold Quiet; decide, by decide⟩
    have h2 : Calm (l.flatMap (· ++ ", ".toList)) := calm_flatMap (fun s hs => (h s hs).append (calm_of_no (by decide)))
    have h3 : Calm e := by
      refine ⟨quiet_infix he.1 (List.suffix_cons _ _).isInfix, ?_⟩
      cases e with
      | nil => simp
      | cons c e => exact he.2
    exact h1.append (h2.append h3)
  by_cases hl : l.length ≤ 8
  · rw [list_text l hl]
    exact hb l h ['}'] (calm_of_no (by decide))
  · rw [list_text_long l (by omega)]
    exact hb _ (fun s hs => h s (List.mem_of_mem_take hs)) " ... }".toList (calm_of_no (by decide))

theorem calm_int (z : Int) : Calm (Arg.int z).text := by
  simp only [Arg.text]
  refine calm_of_no (fun h => ?_)
  rcases (intText_chars z).2 _ h with h | h
  · exact absurd h (by decide)
  · exact absurd h (by decide)

theorem calm_num (x : ℚ) : Calm (Arg.num x).text := by
  simp only [Arg.text]
  refine calm_of_no (fun h => ?_)
  rcases Text.printG_chars _ h with h | h
  · exact absurd h (by decide)
  · exact absurd h (by decide)

theorem calm_bool (b : Bool) : Calm (Arg.bool b).text := by
  cases b <;> exact calm_of_no (by simp only [Arg.text]; decide)

theorem calm_ints (zs : List Int) : Calm (Arg.list (zs.map .int)).text := by
  simp only [Arg.text]
  refine calm_list (fun s hs => ?_)
  rw [texts_map] at hs
  obtain ⟨a, ha, rfl⟩ := List.mem_map.mp hs
  obtain ⟨z, -, rfl⟩ := List.mem_map.mp ha
  exact calm_int z

/-- A name without brackets. -/
def Clean (n : Nm) : Prop := '{' ∉ n.render

/-- Names made of operators' names without brackets are such. -/
theorem clean_of (n : Nm) (h : ∀ s, n.kind = .unary s ∨ n.kind = .binary s → '{' ∉ s.toList) : Clean n := by
  have hd : '{' ∉ Nat.toDigits 10 n.id := fun h => absurd (digits_no h) (by decide)
  unfold Clean Nm.render
  intro hm
  rcases List.mem_append.mp hm with hm | hm
  · cases hk : n.kind with
    | unary s =>
      rw [hk] at hm
      unfold Kind.text at hm
      rcases List.mem_append.mp hm with hm | hm
      · rcases List.mem_append.mp hm with hm | hm
        · exact absurd hm (by decide)
        · exact h s (Or.inl hk) hm
      · exact absurd hm (by decide)
    | binary s =>
      rw [hk] at hm
      unfold Kind.text at hm
      rcases List.mem_append.mp hm with hm | hm
      · rcases List.mem_append.mp hm with hm | hm
        · exact absurd hm (by decide)
        · exact h s (Or.inr hk) hm
      · exact absurd hm (by decide)
    | tensor => rw [hk] at hm; exact absurd hm (by decide)
    | placeHolder => rw [hk] at hm; exact absurd hm (by decide)
    | value => rw [hk] at hm; exact absurd hm (by decide)
    | constant => rw [hk] at hm; exact absurd hm (by decide)
    | var => rw [hk] at hm; exact absurd hm (by decide)
  · exact hd hm

theorem filled_calm : ∀ {ps as : List Str}, (∀ p ∈ ps, Calm p) → (∀ a ∈ as, Calm a) → Calm (filled ps as)
  | [], _, _, _ => calm_of_no (by simp [filled])
  | [p], _, hp, _ => by simpa [filled] using hp p (by simp)
  | p :: _ :: _, [], hp, _ => by simpa [filled] using hp p (by simp)
  | p :: q :: ps, a :: as, hp, ha => by
    have := filled_calm (ps := q :: ps) (as := as) (fun x hx => hp x (List.mem_cons_of_mem _ hx)) (fun x hx => ha x (List.mem_cons_of_mem _ hx))
    simp only [filled]
    exact ((hp p List.mem_cons_self).append (ha a List.mem_cons_self)).append this

theorem format_calm (ps : List Str) (as : List Arg) (h2 : 2 ≤ ps.length) (hp : ∀ p ∈ ps, Calm p) (ha : ∀ a ∈ as, Calm a.text) :
    format (fill ps []) as = ok (fill ps (as.map Arg.text)) := by
  rw [← texts_map]
  refine format_in_order ps as h2 (filled_calm hp ?_).1
  rw [texts_map]
  intro s hs
  obtain ⟨a, h, rfl⟩ := List.mem_map.mp hs
  exact ha a h

theorem str_text (s : Str) : (Arg.str s).text = s := by simp only [Arg.text]

theorem nat_text (n : Nat) : (Arg.int n).text = Nat.toDigits 10 n := by
  simp only [Arg.text]
  unfold intText
  rw [if_neg (by omega), Int.natAbs_natCast]

theorem calm_str {s : Str} (h : '{' ∉ s) : Calm (Arg.str s).text := by
  rw [str_text]
  exact calm_of_no h

/-- **C124** (identities). The identity of an operator (include/utils/enable_serializer.hpp lines 17, 33, include/operation.hpp lines 341, 357, 715, 771, 4926). -/
theorem identity_text (name : String) (id : Nat) (hn : '{' ∉ name.toList) :
    format "unary_expression_{}_{}".toList [.str name.toList, .int id] = ok (Nm.render ⟨.unary name, id⟩) ∧
    format "binary_expression_{}_{}".toList [.str name.toList, .int id] = ok (Nm.render ⟨.binary name, id⟩) := by
  have hc : ∀ a ∈ [Arg.str name.toList, Arg.int id], Calm a.text := by
    intro a ha
    simp only [List.mem_cons, List.not_mem_nil, or_false] at ha
    rcases ha with rfl | rfl
    · exact calm_str hn
    · exact calm_int _
  constructor
  · have := format_calm ["unary_expression_".toList, "_".toList, []] _ (by simp) (fun p hp => calm_of_no (by revert p; simp)) hc
    simp only [List.map_cons, List.map_nil, str_text, nat_text, fill] at this
    show format _ _ = ok ("unary_expression_".toList ++ name.toList ++ ['_'] ++ Nat.toDigits 10 id)
    simpa using this
  · have := format_calm ["binary_expression_".toList, "_".toList, []] _ (by simp) (fun p hp => calm_of_no (by revert p; simp)) hc
    simp only [List.map_cons, List.map_nil, str_text, nat_text, fill] at this
    show format _ _ = ok ("binary_expression_".toList ++ name.toList ++ ['_'] ++ Nat.toDigits 10 id)
    simpa using this

/-- **C124** (names of leaves). include/tensor.tcc line 1310, include/place_holder.hpp line 140, include/value.hpp line 93, include/constant.hpp line 69,
include/variable.hpp line 213. -/
theorem leaf_names (id : Nat) :
    format "tensor_{}".toList [.int id] = ok (Nm.render ⟨.tensor, id⟩) ∧ format "place_holder_{}".toList [.int id] = ok (Nm.render ⟨.placeHolder, id⟩) ∧
    format "value_{}".toList [.int id] = ok (Nm.render ⟨.value, id⟩) ∧ format "constant_{}".toList [.int id] = ok (Nm.render ⟨.constant, id⟩) ∧
    format "variable_{}".toList [.int id] = ok (Nm.render ⟨.var, id⟩) := by
  have key : ∀ s : Str, '{' ∉ s → format (s ++ "{}".toList) [.int id] = ok (s ++ Nat.toDigits 10 id) := by
    intro s hs
    have := format_calm [s, []] [.int id] (by simp) (fun p hp => by
      simp only [List.mem_cons, List.not_mem_nil, or_false] at hp
      rcases hp with rfl | rfl
      · exact calm_of_no hs
      · exact calm_of_no (by simp)) (fun a ha => by
      simp only [List.mem_cons, List.not_mem_nil, or_false] at ha
      subst ha
      exact calm_int _)
    simp only [List.map_cons, List.map_nil, nat_text, fill] at this
    simpa using this
  refine ⟨?_, ?_, ?_, ?_, ?_⟩
  · show format _ _ = ok ("tensor_".toList ++ Nat.toDigits 10 id)
    simpa using key "tensor_".toList (by simp)
  · show format _ _ = ok ("place_holder_".toList ++ Nat.toDigits 10 id)
    simpa using key "place_holder_".toList (by simp)
  · show format _ _ = ok ("value_".toList ++ Nat.toDigits 10 id)
    simpa using key "value_".toList (by simp)
  · show format _ _ = ok ("constant_".toList ++ Nat.toDigits 10 id)
    simpa using key "constant_".toList (by simp)
  · show format _ _ = ok ("variable_".toList ++ Nat.toDigits 10 id)
    simpa using key "variable_".toList (by simp)

/-- **C124** (operators without arguments). include/utils/enable_serializer.hpp lines 19, 38. -/
theorem default_lines (self x y : Nm) (name : String) (hs : Clean self) (hx : Clean x) (hy : Clean y) (hn : '{' ∉ name.toList) :
    format "auto {} = {}({});".toList [.str self.render, .str name.toList, .str x.render] = ok (lineText (unaryLine self name x .plain)) ∧
    format "auto {} = {}( {}, {} );".toList [.str self.render, .str name.toList, .str x.render, .str y.render] =
      ok (lineText [.lit "auto ", .name self, .lit " = ", .lit name, .lit "( ", .name x, .lit ", ", .name y, .lit " );"]) := by
  constructor
  · have := format_calm ["auto ".toList, " = ".toList, "(".toList, ");".toList] [.str self.render, .str name.toList, .str x.render] (by simp)
      (fun p hp => calm_of_no (by revert p; simp)) (fun a ha => by
        simp only [List.mem_cons, List.not_mem_nil, or_false] at ha
        rcases ha with rfl | rfl | rfl
        · exact calm_str hs
        · exact calm_str hn
        · exact calm_str hx)
    simp only [List.map_cons, List.map_nil, str_text, fill] at this
    simpa [lineText, unaryLine] using this
  · have := format_calm ["auto ".toList, " = ".toList, "( ".toList, ", ".toList, " );".toList] [.str self.render, .str name.toList, .str x.render, .str y.render] (by simp)
      (fun p hp => calm_of_no (by revert p; simp)) (fun a ha => by
        simp only [List.mem_cons, List.not_mem_nil, or_false] at ha
        rcases ha with rfl | rfl | rfl | rfl
        · exact calm_str hs
        · exact calm_str hn
        · exact calm_str hx
        · exact calm_str hy)
    simp only [List.map_cons, List.map_nil, str_text, fill] at this
    simpa [lineText] using this

/-- **C124** (sums and products with a number, powers). include/operation.hpp lines 717, 773, 4928. -/
theorem number_lines (self x : Nm) (name : String) (a : Arg) (hs : Clean self) (hx : Clean x) (hn : '{' ∉ name.toList) (ha : Calm a.text) :
    format "auto {} = {} + {};".toList [.str self.render, .str x.render, a] = ok (lineText (unaryLine self name x (.infixed " + " (String.ofList a.text)))) ∧
    format "auto {} = {} * {};".toList [.str self.render, .str x.render, a] = ok (lineText (unaryLine self name x (.infixed " * " (String.ofList a.text)))) ∧
    format "auto {} = {}( {}, {} );".toList [.str self.render, .str name.toList, .str x.render, a] = ok (lineText (unaryLine self name x (.post (String.ofList a.text)))) := by
  refine ⟨?_, ?_, ?_⟩
  · have := format_calm ["auto ".toList, " = ".toList, " + ".toList, ";".toList] [.str self.render, .str x.render, a] (by simp)
      (fun p hp => calm_of_no (by revert p; simp)) (fun b hb => by
        simp only [List.mem_cons, List.not_mem_nil, or_false] at hb
        rcases hb with rfl | rfl | rfl
        · exact calm_str hs
        · exact calm_str hx
        · exact ha)
    simp only [List.map_cons, List.map_nil, str_text, fill] at this
    simpa [lineText, unaryLine] using this
  · have := format_calm ["auto ".toList, " = ".toList, " * ".toList, ";".toList] [.str self.render, .str x.render, a] (by simp)
      (fun p hp => calm_of_no (by revert p; simp)) (fun b hb => by
        simp only [List.mem_cons, List.not_mem_nil, or_false] at hb
        rcases hb with rfl | rfl | rfl
        · exact calm_str hs
        · exact calm_str hx
        · exact ha)
    simp only [List.map_cons, List.map_nil, str_text, fill] at this
    simpa [lineText, unaryLine] using this
  · have := format_calm ["auto ".toList, " = ".toList, "( ".toList, ", ".toList, " );".toList] [.str self.render, .str name.toList, .str x.render, a] (by simp)
      (fun p hp => calm_of_no (by revert p; simp)) (fun b hb => by
        simp only [List.mem_cons, List.not_mem_nil, or_false] at hb
        rcases hb with rfl | rfl | rfl | rfl
        · exact calm_str hs
        · exact calm_str hn
        · exact calm_str hx
        · exact ha)
    simp only [List.map_cons, List.map_nil, str_text, fill] at this
    simpa [lineText, unaryLine] using this

/-! ### operators with arguments -/

/-- The arguments, separated by commas. -/
def commas : List Str → Str
  | [] => []
  | [a] => a
  | a :: b :: l => a ++ ", ".toList ++ commas (b :: l)

theorem argFormat_succ (n : Nat) : argFormat (n + 1) = "{}".toList ++ (List.replicate n ", {}".toList).flatten := by
  have key : ∀ (n k : Nat) (s : Str), (List.range' k n).foldl (fun s _ => s ++ ", {}".toList) s = s ++ (List.replicate n ", {}".toList).flatten := by
    intro n
    induction n with
    | zero => intro k s; simp
    | succ n ih =>
      intro k s
      rw [List.range'_succ, List.foldl_cons, ih, List.replicate_succ, List.flatten_cons, List.append_assoc]
  exact key n 1 "{}".toList

theorem fill_holes (p r : Str) (rs : List Str) (n : Nat) :
    fill (p :: (List.replicate n ", ".toList ++ r :: rs)) [] = p ++ "{}".toList ++ (List.replicate n ", {}".toList).flatten ++ fill (r :: rs) [] := by
  induction n generalizing p with
  | zero => simp [fill]
  | succ n ih =>
    rw [List.replicate_succ, List.cons_append, fill, ih ", ".toList, List.replicate_succ, List.flatten_cons]
    simp

theorem fill_args (p r : Str) (rs : List Str) (a : Str) (as bs : List Str) :
    fill (p :: (List.replicate as.length ", ".toList ++ r :: rs)) (a :: (as ++ bs)) = p ++ commas (a :: as) ++ fill (r :: rs) bs := by
  induction as generalizing p a with
  | nil => simp [fill, commas]
  | cons b as ih =>
    rw [List.length_cons, List.replicate_succ, List.cons_append, List.cons_append, fill, ih ", ".toList b]
    simp [commas]

/-- **C124** (operators with arguments). The lines of `make_argumented_operator_serializer`, for any number of arguments (at least one) whose texts have no hole - so
for shapes, numbers and flags. -/
theorem argument_lines (self x y : Nm) (name : String) (a : Arg) (as : List Arg) (hs : Clean self) (hx : Clean x) (hy : Clean y) (hn : '{' ∉ name.toList)
    (ha : ∀ b ∈ a :: as, Calm b.text) :
    format (codeFormat1 (as.length + 1)) ([.str self.render, .str name.toList] ++ (a :: as) ++ [.str x.render]) =
      ok (lineText (unaryLine self name x (.args (String.ofList (commas ((a :: as).map Arg.text)))))) ∧
    format (codeFormat2 (as.length + 1)) ([.str self.render, .str name.toList] ++ (a :: as) ++ [.str x.render, .str y.render]) =
      ok (lineText [.lit "auto ", .name self, .lit " = ", .lit name, .lit "( ", .lit (String.ofList (commas ((a :: as).map Arg.text))), .lit " )( ", .name x, .lit ", ",
        .name y, .lit " );"]) := by
  have hcomma : ∀ (n : Nat) (rs : List Str), (∀ r ∈ rs, Calm r) → ∀ p ∈ "auto ".toList :: " = ".toList :: "( ".toList :: (List.replicate n ", ".toList ++ rs), Calm p := by
    intro n rs hr p hp
    simp only [List.mem_cons, List.mem_append, List.mem_replicate] at hp
    rcases hp with rfl | rfl | rfl | ⟨-, rfl⟩ | hp
    · exact calm_of_no (by decide)
    · exact calm_of_no (by decide)
    · exact calm_of_no (by decide)
    · exact calm_of_no (by decide)
    · exact hr p hp
  have hargs : ∀ (ns : List Nm), (∀ m ∈ ns, Clean m) → ∀ b ∈ [.str self.render, .str name.toList] ++ (a :: as) ++ ns.map (fun m => Arg.str m.render), Calm b.text := by
    intro ns hns b hb
    simp only [List.cons_append, List.nil_append] at hb
    rcases List.mem_cons.mp hb with rfl | hb
    · exact calm_str hs
    rcases List.mem_cons.mp hb with rfl | hb
    · exact calm_str hn
    rw [← List.cons_append] at hb
    rcases List.mem_append.mp hb with hb | hb
    · exact ha b hb
    · obtain ⟨m, hm, rfl⟩ := List.mem_map.mp hb
      exact calm_str (hns m hm)
  constructor
  · have h1 := format_calm ("auto ".toList :: " = ".toList :: "( ".toList :: (List.replicate as.length ", ".toList ++ [" )( ".toList, " );".toList]))
      ([.str self.render, .str name.toList] ++ (a :: as) ++ [x].map (fun m => Arg.str m.render)) (by simp)
      (hcomma _ _ (fun r hr => calm_of_no (by revert r; simp))) (hargs [x] (by simpa using hx))
    have e1 : fill ("auto ".toList :: " = ".toList :: "( ".toList :: (List.replicate as.length ", ".toList ++ [" )( ".toList, " );".toList])) [] = codeFormat1 (as.length + 1) := by
      unfold codeFormat1
      rw [fill, fill, fill_holes, argFormat_succ]
      simp [fill]
    have e2 := fill_args "( ".toList " )( ".toList [" );".toList] a.text (as.map Arg.text) [x.render]
    rw [List.length_map] at e2
    rw [e1] at h1
    refine h1.trans (congrArg ok ?_)
    simp only [List.map_append, List.map_cons, List.map_nil, str_text, List.cons_append, List.nil_append]
    rw [fill, fill, e2]
    simp [lineText, unaryLine, fill]
  · have h1 := format_calm ("auto ".toList :: " = ".toList :: "( ".toList :: (List.replicate as.length ", ".toList ++ [" )( ".toList, ", ".toList, " );".toList]))
      ([.str self.render, .str name.toList] ++ (a :: as) ++ [x, y].map (fun m => Arg.str m.render)) (by simp)
      (hcomma _ _ (fun r hr => calm_of_no (by revert r; simp))) (hargs [x, y] (by simpa using ⟨hx, hy⟩))
    have e1 : fill ("auto ".toList :: " = ".toList :: "( ".toList :: (List.replicate as.length ", ".toList ++ [" )( ".toList, ", ".toList, " );".toList])) [] =
        codeFormat2 (as.length + 1) := by
      unfold codeFormat2
      rw [fill, fill, fill_holes, argFormat_succ]
      simp [fill]
    have e2 := fill_args "( ".toList " )( ".toList [", ".toList, " );".toList] a.text (as.map Arg.text) [x.render, y.render]
    rw [List.length_map] at e2
    rw [e1] at h1
    refine h1.trans (congrArg ok ?_)
    simp only [List.map_append, List.map_cons, List.map_nil, str_text, List.cons_append, List.nil_append]
    rw [fill, fill, e2]
    simp [lineText, fill]

/-! ### leaves -/

/-- **C124** (leaves). include/tensor.tcc lines 1311, 1318, 1319, include/place_holder.hpp line 142, include/value.hpp line 95, include/constant.hpp line 74,
include/variable.hpp line 216: the lines of tensors, place holders, values, constants and variables. -/
theorem leaf_lines (ty : String) (ht : '{' ∉ ty.toList) (n t : Nm) (hn : Clean n) (hc : Clean t) (d l1 l2 : ℚ) (trainable : Bool) :
    format "{}.txt".toList [.str t.render] = ok (t.render ++ ".txt".toList) ∧
    format "ceras::tensor<{}> {};".toList [.str ty.toList, .str t.render] = ok (lineText [.lit "ceras::tensor<", .lit ty, .lit "> ", .name t, .lit ";"]) ∧
    format "{}.load_tensor( \"{}\" );".toList [.str t.render, .str (t.render ++ ".txt".toList)] = ok (lineText [.name t, .lit ".load_tensor( \"", .name t, .lit ".txt\" );"]) ∧
    format "ceras::place_holder<ceras::tensor<{}>> {};\n".toList [.str ty.toList, .str n.render] =
      ok (lineText [.lit "ceras::place_holder<ceras::tensor<", .lit ty, .lit ">> ", .name n, .lit ";\n"]) ∧
    format "ceras::value<{}> {}( {} );".toList [.str ty.toList, .str n.render, .num d] =
      ok (lineText [.lit "ceras::value<", .lit ty, .lit "> ", .name n, .lit "( ", .lit (String.ofList (Arg.num d).text), .lit " );"]) ∧
    format "ceras::constant<ceras::tensor<{}>> {} ( {} );".toList [.str ty.toList, .str n.render, .str t.render] =
      ok (lineText [.lit "ceras::constant<ceras::tensor<", .lit ty, .lit ">> ", .name n, .lit " ( ", .name t, .lit " );"]) ∧
    format "ceras::variable<ceras::tensor<{}>> {}( {}/*tensor*/, {}/*l1 regularizer*/, {}/*l2 regularizer*/, {}/*trainable*/ );".toList
        [.str ty.toList, .str n.render, .str t.render, .num l1, .num l2, .bool trainable] =
      ok (lineText [.lit "ceras::variable<ceras::tensor<", .lit ty, .lit ">> ", .name n, .lit "( ", .name t, .lit "/*tensor*/, ",
        .lit (String.ofList ((Arg.num l1).text ++ "/*l1 regularizer*/, ".toList ++ (Arg.num l2).text ++ "/*l2 regularizer*/, ".toList ++ (Arg.bool trainable).text ++
          "/*trainable*/".toList)), .lit " );"]) := by
  refine ⟨?_, ?_, ?_, ?_, ?_, ?_, ?_⟩
  · have := format_calm [[], ".txt".toList] [.str t.render] (by simp) (fun p hp => calm_of_no (by revert p; simp)) (fun a ha => by
      simp only [List.mem_cons, List.not_mem_nil, or_false] at ha
      subst ha
      exact calm_str hc)
    simp only [List.map_cons, List.map_nil, str_text, fill] at this
    simpa using this
  · have := format_calm ["ceras::tensor<".toList, "> ".toList, ";".toList] [.str ty.toList, .str t.render] (by simp) (fun p hp => calm_of_no (by revert p; simp)) (fun a ha => by
      simp only [List.mem_cons, List.not_mem_nil, or_false] at ha
      rcases ha with rfl | rfl
      · exact calm_str ht
      · exact calm_str hc)
    simp only [List.map_cons, List.map_nil, str_text, fill] at this
    simpa [lineText] using this
  · have := format_calm [[], ".load_tensor( \"".toList, "\" );".toList] [.str t.render, .str (t.render ++ ".txt".toList)] (by simp)
      (fun p hp => calm_of_no (by revert p; simp)) (fun a ha => by
      simp only [List.mem_cons, List.not_mem_nil, or_false] at ha
      rcases ha with rfl | rfl
      · exact calm_str hc
      · refine calm_str (fun h => ?_)
        rcases List.mem_append.mp h with h | h
        · exact hc h
        · simp at h)
    simp only [List.map_cons, List.map_nil, str_text, fill] at this
    simpa [lineText] using this
  · have := format_calm ["ceras::place_holder<ceras::tensor<".toList, ">> ".toList, ";\n".toList] [.str ty.toList, .str n.render] (by simp)
      (fun p hp => calm_of_no (by revert p; simp)) (fun a ha => by
      simp only [List.mem_cons, List.not_mem_nil, or_false] at ha
      rcases ha with rfl | rfl
      · exact calm_str ht
      · exact calm_str hn)
    simp only [List.map_cons, List.map_nil, str_text, fill] at this
    simpa [lineText] using this
  · have := format_calm ["ceras::value<".toList, "> ".toList, "( ".toList, " );".toList] [.str ty.toList, .str n.render, .num d] (by simp)
      (fun p hp => calm_of_no (by revert p; simp)) (fun a ha => by
      simp only [List.mem_cons, List.not_mem_nil, or_false] at ha
      rcases ha with rfl | rfl | rfl
      · exact calm_str ht
      · exact calm_str hn
      · exact calm_num d)
    simp only [List.map_cons, List.map_nil, str_text, fill] at this
    simpa [lineText] using this
  · have := format_calm ["ceras::constant<ceras::tensor<".toList, ">> ".toList, " ( ".toList, " );".toList] [.str ty.toList, .str n.render, .str t.render] (by simp)
      (fun p hp => calm_of_no (by revert p; simp)) (fun a ha => by
      simp only [List.mem_cons, List.not_mem_nil, or_false] at ha
      rcases ha with rfl | rfl | rfl
      · exact calm_str ht
      · exact calm_str hn
      · exact calm_str hc)
    simp only [List.map_cons, List.map_nil, str_text, fill] at this
    simpa [lineText] using this
  · have := format_calm ["ceras::variable<ceras::tensor<".toList, ">> ".toList, "( ".toList, "/*tensor*/, ".toList, "/*l1 regularizer*/, ".toList,
      "/*l2 regularizer*/, ".toList, "/*trainable*/ );".toList] [.str ty.toList, .str n.render, .str t.render, .num l1, .num l2, .bool trainable] (by simp)
      (fun p hp => calm_of_no (by revert p; simp)) (fun a ha => by
      simp only [List.mem_cons, List.not_mem_nil, or_false] at ha
      rcases ha with rfl | rfl | rfl | rfl | rfl | rfl
      · exact calm_str ht
      · exact calm_str hn
      · exact calm_str hc
      · exact calm_num l1
      · exact calm_num l2
      · exact calm_bool trainable)
    simp only [List.map_cons, List.map_nil, str_text, fill] at this
    simpa [lineText] using this

end Verif.Fmt
