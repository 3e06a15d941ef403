import Verif.Fmt.Spec
import Mathlib.Tactic.Common
/-!
# Property C124: substitution
-/
namespace Verif.Fmt
open Verif Res

theorem quiet_infix {s t : Str} (h : Quiet t) (hs : s <:+: t) : Quiet s := fun h' => h (h'.trans hs)

theorem holes : "{}".toList = ['{', '}'] := rfl

theorem find_first (v : Str) : ∀ (u : Str) (k : Nat), Quiet u → findFrom ['{', '}'] (u ++ (['{', '}'] ++ v)) k = some (k + u.length) := by
  intro u
  induction u with
  | nil => intro k _; rfl
  | cons c u ih =>
    intro k h
    have hn : ¬ (['{', '}'].isPrefixOf (c :: (u ++ (['{', '}'] ++ v))) = true) := by
      intro hp
      have hp := List.isPrefixOf_iff_prefix.mp hp
      obtain ⟨w, hw⟩ := hp
      cases u with
      | nil =>
        simp only [List.cons_append, List.nil_append, List.cons.injEq] at hw
        exact absurd hw.2.1 (by decide)
      | cons e u =>
        simp only [List.cons_append, List.nil_append, List.cons.injEq] at hw
        exact h ⟨[], u, by rw [← hw.1, ← hw.2.1]; rfl⟩
    show (if ['{', '}'].isPrefixOf (c :: (u ++ (['{', '}'] ++ v))) = true then some k else findFrom ['{', '}'] (u ++ (['{', '}'] ++ v)) (k + 1)) = _
    rw [if_neg hn, ih (k + 1) (quiet_infix h (List.suffix_cons c u).isInfix)]
    simp only [List.length_cons]
    congr 1
    omega

theorem find_none : ∀ (u : Str) (k : Nat), Quiet u → findFrom ['{', '}'] u k = none := by
  intro u
  induction u with
  | nil => intro k _; rfl
  | cons c u ih =>
    intro k h
    show (if ['{', '}'].isPrefixOf (c :: u) = true then some k else findFrom ['{', '}'] u (k + 1)) = _
    rw [if_neg (fun hp => h (List.isPrefixOf_iff_prefix.mp hp).isInfix), ih _ (quiet_infix h (List.suffix_cons c u).isInfix)]

theorem once_first {u v a : Str} (h : Quiet u) : replaceOnce (u ++ (['{', '}'] ++ v)) "{}".toList a = u ++ a ++ v := by
  unfold replaceOnce find
  rw [List.drop_zero, holes, find_first v u 0 h]
  simp only [replaceAt, Nat.zero_add, List.length_cons, List.length_nil]
  rw [List.take_left, ← List.append_assoc u, List.drop_left' (by simp)]

theorem once_none {u a : Str} (h : Quiet u) : replaceOnce u "{}".toList a = u := by
  unfold replaceOnce find
  rw [List.drop_zero, holes, find_none u 0 h]

theorem plain_fill (as : List Str) : ∀ (ps : List Str) (pre : Str), Quiet (pre ++ filled ps as) → plainFormat (pre ++ fill ps []) as = pre ++ fill ps as := by
  induction as with
  | nil => intro ps pre _; rfl
  | cons a as ih =>
    intro ps pre h
    match ps with
    | [] =>
      show plainFormat (replaceOnce (pre ++ []) "{}".toList a) as = _
      have h0 : Quiet (pre ++ []) := h
      rw [once_none h0]
      exact ih [] pre h
    | [p] =>
      show plainFormat (replaceOnce (pre ++ p) "{}".toList a) as = _
      have h0 : Quiet (pre ++ p) := h
      rw [once_none h0]
      exact ih [p] pre h
    | p :: q :: ps =>
      show plainFormat (replaceOnce (pre ++ (p ++ ['{', '}'] ++ fill (q :: ps) [])) "{}".toList a) as = pre ++ (p ++ a ++ fill (q :: ps) as)
      have h' : Quiet ((pre ++ p ++ a) ++ filled (q :: ps) as) := by
        have e : pre ++ p ++ a ++ filled (q :: ps) as = pre ++ filled (p :: q :: ps) (a :: as) := by simp [filled]
        rw [e]
        exact h
      have e : pre ++ (p ++ ['{', '}'] ++ fill (q :: ps) []) = (pre ++ p) ++ (['{', '}'] ++ fill (q :: ps) []) := by simp
      rw [e, once_first (quiet_infix h' ⟨[], a ++ filled (q :: ps) as, by simp⟩), ih (q :: ps) (pre ++ p ++ a) h']
      simp

theorem find_some_of {ps : List Str} (h : 2 ≤ ps.length) (hq : ∀ p ∈ ps.head?, Quiet p) : (find (fill ps []) "{}".toList 0).isSome = true := by
  match ps, h with
  | p :: q :: ps, _ =>
    unfold find
    rw [List.drop_zero, holes]
    show (findFrom ['{', '}'] (p ++ ['{', '}'] ++ fill (q :: ps) []) 0).isSome = true
    rw [List.append_assoc, find_first _ _ _ (hq p rfl)]
    rfl

theorem filled_head {p q : Str} {ps as : List Str} : p <:+: filled (p :: q :: ps) as := by
  cases as with
  | nil => exact List.infix_rfl
  | cons a as => exact ⟨[], a ++ filled (q :: ps) as, by simp [filled]⟩

/-- **C124** (holes in order). If the text has a hole `{}`, and what the arguments make of it up to the first hole left over does not contain `{}` itself, `format` puts
the arguments into the holes from left to right. -/
theorem format_in_order (ps : List Str) (as : List Arg) (h2 : 2 ≤ ps.length) (h : Quiet (filled ps (Arg.texts as))) :
    format (fill ps []) as = ok (fill ps (Arg.texts as)) := by
  unfold format formatText
  rw [if_pos (find_some_of h2 (fun p hp => ?_))]
  · exact congrArg ok (plain_fill (Arg.texts as) ps [] h)
  · match ps, h2 with
    | p' :: q :: ps, _ =>
      cases hp
      exact quiet_infix h filled_head

/-! ### numbered holes -/

/-- Replacing from left to right. -/
def repl (what by' : Str) : Str → Str
  | [] => []
  | c :: s => if _h : what.isPrefixOf (c :: s) = true ∧ what ≠ [] then by' ++ repl what by' ((c :: s).drop what.length) else c :: repl what by' s
termination_by s => s.length
decreasing_by
  · have : 0 < what.length := List.length_pos_iff.mpr _h.2
    simp only [List.length_drop, List.length_cons]
    omega
  · simp

theorem repl_find {what by' : Str} (hw : what ≠ []) : ∀ (s : Str) (k : Nat),
    (findFrom what s k = none ∧ repl what by' s = s) ∨
    (∃ u v, s = u ++ what ++ v ∧ findFrom what s k = some (k + u.length) ∧ repl what by' s = u ++ by' ++ repl what by' v) := by
  intro s
  induction s with
  | nil => intro k; left; exact ⟨by simp [findFrom, hw], by simp [repl]⟩
  | cons c s ih =>
    intro k
    by_cases hp : what.isPrefixOf (c :: s) = true
    · right
      obtain ⟨v, hv⟩ := List.isPrefixOf_iff_prefix.mp hp
      refine ⟨[], v, by simpa using hv.symm, ?_, ?_⟩
      · show (if what.isPrefixOf (c :: s) = true then some k else _) = _
        rw [if_pos hp]; rfl
      · rw [repl, dif_pos ⟨hp, hw⟩, ← hv, List.drop_left]; rfl
    · have e1 : findFrom what (c :: s) k = findFrom what s (k + 1) := by
        show (if what.isPrefixOf (c :: s) = true then some k else _) = _
        rw [if_neg hp]
      have e2 : repl what by' (c :: s) = c :: repl what by' s := by rw [repl, dif_neg (fun h => hp h.1)]
      rw [e1, e2]
      rcases ih (k + 1) with ⟨h1, h2⟩ | ⟨u, v, h1, h2, h3⟩
      · left; exact ⟨h1, by rw [h2]⟩
      · right
        refine ⟨c :: u, v, by rw [h1]; rfl, ?_, by rw [h3]; rfl⟩
        rw [h2, List.length_cons]
        congr 1
        omega

theorem all_go {what by' : Str} (hw : what ≠ []) : ∀ (fuel : Nat) (pre s : Str), s.length < fuel →
    replaceAllGo what by' fuel (pre ++ s) pre.length = ok (pre ++ repl what by' s) := by
  intro fuel
  induction fuel with
  | zero => intro pre s h; omega
  | succ fuel ih =>
    intro pre s h
    unfold replaceAllGo find
    rw [List.drop_left]
    rcases repl_find (by' := by') hw s pre.length with ⟨h1, h2⟩ | ⟨u, v, h1, h2, h3⟩
    · rw [h1, h2]
    · rw [h2]
      simp only
      have hl : 0 < what.length := List.length_pos_iff.mpr hw
      have e : replaceAt (pre ++ s) (pre.length + u.length) what.length by' = (pre ++ u ++ by') ++ v := by
        unfold replaceAt
        rw [h1]
        have t : List.take (pre.length + u.length) (pre ++ (u ++ what ++ v)) = pre ++ u := by
          rw [show pre ++ (u ++ what ++ v) = (pre ++ u) ++ (what ++ v) by simp, List.take_left' (by simp)]
        have d : List.drop (pre.length + u.length + what.length) (pre ++ (u ++ what ++ v)) = v := by
          rw [show pre ++ (u ++ what ++ v) = (pre ++ u ++ what) ++ v by simp, List.drop_left' (by simp [Nat.add_assoc])]
        rw [t, d]
      rw [e, show pre.length + u.length + by'.length = (pre ++ u ++ by').length by simp [Nat.add_assoc], ih _ v (by rw [h1] at h; simp at h; omega), h3]
      simp

theorem all_repl {what by' : Str} (hw : what ≠ []) (s : Str) : replaceAll s what by' = ok (repl what by' s) := by
  have := all_go (by' := by') hw (s.length + 1) [] s (by omega)
  simpa [replaceAll] using this

theorem hole_ne (i : Nat) : hole i ≠ [] := by simp [hole]

theorem digits_no {i : Nat} {c : Char} (h : c ∈ Nat.toDigits 10 i) : c.isDigit = true := Nat.isDigit_of_mem_toDigits (by omega) (by omega) h

theorem hole_inj {i k : Nat} {s : Str} (h : hole k <+: hole i ++ s) : k = i := by
  obtain ⟨w, hw⟩ := h
  unfold hole at hw
  simp only [List.cons_append, List.cons.injEq, true_and, List.append_assoc, List.nil_append] at hw
  have key : ∀ (i : Nat) (s : Str), (Nat.toDigits 10 i ++ '}' :: s).takeWhile Char.isDigit = Nat.toDigits 10 i := by
    intro i s
    rw [List.takeWhile_append_of_pos (fun c hc => digits_no hc), List.takeWhile_cons_of_neg (by decide)]
    simp
  have h1 := key k w
  rw [hw, key i s] at h1
  have := congrArg (fun t => Nat.ofDigitChars 10 t 0) h1
  simpa [Nat.ofDigitChars_toDigits] using this.symm

theorem repl_skip {what by' : Str} (hw : what.head? = some '{') : ∀ (l s : Str), '{' ∉ l → repl what by' (l ++ s) = l ++ repl what by' s := by
  intro l s
  induction l with
  | nil => intro _; rfl
  | cons c l ih =>
    intro h
    have hc : c ≠ '{' := fun e => h (by rw [e]; exact List.mem_cons_self)
    rw [List.cons_append, repl, dif_neg, ih (fun hm => h (List.mem_cons_of_mem _ hm))]
    · rfl
    · rintro ⟨hp, -⟩
      obtain ⟨w, hw'⟩ := List.isPrefixOf_iff_prefix.mp hp
      cases what with
      | nil => cases hw
      | cons d what =>
        cases hw
        simp only [List.cons_append, List.cons.injEq] at hw'
        exact hc hw'.1.symm

theorem repl_hole_eq {k : Nat} {by' s : Str} : repl (hole k) by' (hole k ++ s) = by' ++ repl (hole k) by' s := by
  have hp : (hole k).isPrefixOf (hole k ++ s) = true := List.isPrefixOf_iff_prefix.mpr (List.prefix_append _ _)
  have : ∃ c t, hole k ++ s = c :: t := ⟨_, _, rfl⟩
  obtain ⟨c, t, e⟩ := this
  rw [e] at hp
  rw [e, repl, dif_pos ⟨hp, hole_ne k⟩, ← e, List.drop_left]

theorem repl_hole_ne {i k : Nat} (h : i ≠ k) {by' s : Str} : repl (hole k) by' (hole i ++ s) = hole i ++ repl (hole k) by' s := by
  have hp : ¬ ((hole k).isPrefixOf (hole i ++ s) = true) := fun hp => h (hole_inj (List.isPrefixOf_iff_prefix.mp hp)).symm
  have e : hole i ++ s = '{' :: ((Nat.toDigits 10 i ++ ['}']) ++ s) := rfl
  rw [e] at hp
  rw [e, repl, dif_neg (fun h => hp h.1), repl_skip rfl]
  · rfl
  · intro hm
    rcases List.mem_append.mp hm with hm | hm
    · exact absurd (digits_no hm) (by decide)
    · exact absurd hm (by decide)

/-- The pieces, when the arguments before `k` are in their holes. -/
def stage (as : List Str) (k : Nat) (ps : List Piece) : Str := fillAt ps (as.take k)

theorem stage_cons_lit (as : List Str) (k : Nat) (l : Str) (ps : List Piece) : stage as k (.lit l :: ps) = l ++ stage as k ps := rfl

theorem stage_cons_hole (as : List Str) (k i : Nat) (ps : List Piece) :
    stage as k (.hole i :: ps) = (match (as.take k)[i]? with | some a => a | none => hole i) ++ stage as k ps := rfl

theorem stage_step {as : List Str} {k : Nat} {a : Str} (hk : as[k]? = some a) {ps : List Piece} (hl : ∀ l, Piece.lit l ∈ ps → '{' ∉ l) (ha : ∀ a ∈ as, '{' ∉ a) :
    repl (hole k) a (stage as k ps) = stage as (k + 1) ps := by
  have hlt : k < as.length := (List.getElem?_eq_some_iff.mp hk).1
  induction ps with
  | nil => simp [stage, fillAt, repl]
  | cons p ps ih =>
    have ih := ih (fun l h => hl l (List.mem_cons_of_mem _ h))
    cases p with
    | lit l => rw [stage_cons_lit, stage_cons_lit, repl_skip rfl _ _ (hl l List.mem_cons_self), ih]
    | hole i =>
      rw [stage_cons_hole, stage_cons_hole]
      rcases Nat.lt_trichotomy i k with h | h | h
      · rw [List.getElem?_take_of_lt h, List.getElem?_take_of_lt (by omega : i < k + 1), List.getElem?_eq_getElem (by omega)]
        simp only
        rw [repl_skip rfl _ _ (ha _ (List.getElem_mem _)), ih]
      · subst h
        rw [List.getElem?_eq_none (by simp), List.getElem?_take_of_lt (by omega), hk]
        simp only
        rw [repl_hole_eq, ih]
      · rw [List.getElem?_eq_none (by simp; omega), List.getElem?_eq_none (by simp; omega)]
        simp only
        rw [repl_hole_ne (by omega), ih]

theorem indexed_stage {as : List Str} {ps : List Piece} (hl : ∀ l, Piece.lit l ∈ ps → '{' ∉ l) (ha : ∀ a ∈ as, '{' ∉ a) :
    ∀ (r k : Nat), k + r = as.length → indexedFormat k (stage as k ps) (as.drop k) = ok (stage as as.length ps) := by
  intro r
  induction r with
  | zero =>
    intro k hk
    rw [List.drop_eq_nil_of_le (by omega), show k = as.length by omega]
    rfl
  | succ r ih =>
    intro k hk
    have hlt : k < as.length := by omega
    rw [List.drop_eq_getElem_cons hlt]
    unfold indexedFormat
    rw [all_repl (hole_ne k), bind_ok, stage_step (List.getElem?_eq_getElem hlt) hl ha]
    exact ih (k + 1) (by omega)

theorem fillAt_quiet {ps : List Piece} (hl : ∀ l, Piece.lit l ∈ ps → '{' ∉ l) : ∀ k, findFrom ['{', '}'] (fillAt ps []) k = none := by
  have skip : ∀ (l s : Str), '{' ∉ l → ∀ k, findFrom ['{', '}'] (l ++ s) k = findFrom ['{', '}'] s (k + l.length) := by
    intro l s
    induction l with
    | nil => intro _ k; rfl
    | cons c l ih =>
      intro h k
      show (if ['{', '}'].isPrefixOf (c :: (l ++ s)) = true then some k else findFrom ['{', '}'] (l ++ s) (k + 1)) = _
      rw [if_neg, ih (fun hm => h (List.mem_cons_of_mem _ hm)), List.length_cons, Nat.add_assoc, Nat.add_comm 1]
      intro hp
      obtain ⟨w, hw⟩ := List.isPrefixOf_iff_prefix.mp hp
      simp only [List.cons_append, List.cons.injEq] at hw
      exact h (by rw [← hw.1]; exact List.mem_cons_self)
  induction ps with
  | nil => intro k; rfl
  | cons p ps ih =>
    have ih := ih (fun l h => hl l (List.mem_cons_of_mem _ h))
    intro k
    cases p with
    | lit l =>
      show findFrom ['{', '}'] (l ++ fillAt ps []) k = none
      rw [skip _ _ (hl l List.mem_cons_self), ih]
    | hole i =>
      show findFrom ['{', '}'] ('{' :: ((Nat.toDigits 10 i ++ ['}']) ++ fillAt ps [])) k = none
      have hd : Nat.toDigits 10 i ≠ [] := Nat.toDigits_ne_nil
      show (if ['{', '}'].isPrefixOf _ = true then some k else findFrom ['{', '}'] ((Nat.toDigits 10 i ++ ['}']) ++ fillAt ps []) (k + 1)) = none
      rw [if_neg, skip, ih]
      · intro hm
        rcases List.mem_append.mp hm with hm | hm
        · exact absurd (digits_no hm) (by decide)
        · exact absurd hm (by decide)
      · intro hp
        obtain ⟨w, hw⟩ := List.isPrefixOf_iff_prefix.mp hp
        obtain ⟨d, t, e⟩ := List.exists_cons_of_ne_nil hd
        rw [e] at hw
        simp only [List.cons_append, List.nil_append, List.cons.injEq, true_and] at hw
        have := digits_no (i := i) (c := d) (by rw [e]; exact List.mem_cons_self)
        rw [← hw.1] at this
        exact absurd this (by decide)

/-- **C124** (numbered holes). If the holes have numbers, and there is no other `{` in the text or in the arguments, `format` puts the `i`-th argument into every hole
`{i}`, and leaves the others. -/
theorem format_by_number (ps : List Piece) (as : List Arg) (hl : ∀ l, Piece.lit l ∈ ps → '{' ∉ l) (ha : ∀ a ∈ Arg.texts as, '{' ∉ a) :
    format (fillAt ps []) as = ok (fillAt ps (Arg.texts as)) := by
  unfold format formatText find
  rw [List.drop_zero, holes, fillAt_quiet hl]
  rw [if_neg (by decide)]
  have := indexed_stage hl ha (Arg.texts as).length 0 (by omega)
  rw [List.drop_zero] at this
  simpa [stage] using this

/-- **C124** (violated: arguments are searched). A hole in the text of an argument takes the next argument, which is then missing further on. -/
theorem format_again_violated (p q r x y b : Str) (h : Quiet (p ++ x)) (hb : '{' ∉ b) (hb0 : b ≠ []) :
    format (fill [p, q, r] []) [.str (x ++ ['{', '}'] ++ y), .str b] = ok (p ++ x ++ b ++ y ++ q ++ ['{', '}'] ++ r) ∧
    p ++ x ++ b ++ y ++ q ++ ['{', '}'] ++ r ≠ fill [p, q, r] [x ++ ['{', '}'] ++ y, b] := by
  constructor
  · have hp : Quiet p := quiet_infix h (List.prefix_append _ _).isInfix
    unfold format formatText
    rw [if_pos (find_some_of (by simp) (fun p' h' => by cases h'; exact hp))]
    simp only [Arg.texts, Arg.text]
    show ok (replaceOnce (replaceOnce (p ++ ['{', '}'] ++ (q ++ ['{', '}'] ++ r)) "{}".toList (x ++ ['{', '}'] ++ y)) "{}".toList b) = _
    rw [List.append_assoc p, once_first hp]
    have e : p ++ (x ++ ['{', '}'] ++ y) ++ (q ++ ['{', '}'] ++ r) = (p ++ x) ++ (['{', '}'] ++ (y ++ (q ++ ['{', '}'] ++ r))) := by simp
    rw [e, once_first h]
    simp
  · intro e
    simp only [fill, List.append_assoc] at e
    have e := List.append_cancel_left (List.append_cancel_left e)
    obtain ⟨d, t, hd⟩ := List.exists_cons_of_ne_nil hb0
    rw [hd] at e
    simp only [List.cons_append, List.cons.injEq] at e
    exact hb (by rw [hd, e.1]; exact List.mem_cons_self)

/-- **C124** (violated: numbered holes are searched again). -/
theorem format_number_again_violated (x y b : Str) (hx : '{' ∉ x) (hy : '{' ∉ y) :
    format (hole 0) [.str (x ++ hole 1 ++ y), .str b] = ok (x ++ b ++ y) := by
  have f : (find (hole 0) "{}".toList 0).isSome = false := by decide
  unfold format formatText
  rw [f]
  simp only [Bool.false_eq_true, if_false, Arg.texts, Arg.text, indexedFormat]
  rw [all_repl (hole_ne 0), bind_ok, all_repl (hole_ne 1), bind_ok]
  have e := repl_hole_eq (k := 0) (by' := x ++ hole 1 ++ y) (s := [])
  rw [List.append_nil] at e
  rw [e]
  have e0 : repl (hole 0) (x ++ hole 1 ++ y) [] = [] := by simp [repl]
  rw [e0, List.append_nil, List.append_assoc, repl_skip rfl _ _ hx, repl_hole_eq]
  have := repl_skip (what := hole 1) (by' := b) rfl y [] hy
  rw [List.append_nil] at this
  rw [this]
  simp [repl]

/-- **C124** (violated: both kinds of holes). Next to a hole `{}`, a numbered hole is not replaced. -/
theorem format_mixed_violated (p q r : Str) (i : Nat) (a : Str) (h : Quiet (p ++ hole i ++ q ++ a ++ r)) :
    format (p ++ hole i ++ q ++ ['{', '}'] ++ r) [.str a] = ok (p ++ hole i ++ q ++ a ++ r) := by
  have := format_in_order [p ++ hole i ++ q, r] [.str a] (by simp) (by simpa [Arg.texts, Arg.text, filled] using h)
  simpa [Arg.texts, Arg.text, fill] using this

end Verif.Fmt
