import Verif.Glob.Match
/-!
# Brackets that are not plain
-/
namespace Verif.Glob
open Verif Res

/-- A pattern whose items are followed by an opening bracket that is closed: what the loop does first. -/
theorem translateLoop_then (s : Str) : ∀ (l : List Item), (∀ i ∈ l, i.Ok) → ∀ n, (pattern l).length + s.length ≤ n →
    ∃ k, s.length ≤ k ∧ translateLoop n (pattern l ++ s) = (do let t ← translateLoop k s; pure (l.flatMap Item.rxText ++ t))
  | [], _, n, hn => ⟨n, by simpa [pattern] using hn, by
      show translateLoop n s = _
      cases translateLoop n s <;> rfl⟩
  | i :: l, hl, n, hn => by
    have hi := hl i (by simp)
    have hp : pattern (i :: l) = i.text ++ pattern l := rfl
    have hlen : 1 ≤ i.text.length := by cases i <;> simp [Item.text]
    obtain _ | n := n
    · rw [hp, List.length_append] at hn; omega
    obtain ⟨k, hk, ih⟩ := translateLoop_then s l (fun j hj => hl j (by simp [hj])) n (by rw [hp, List.length_append] at hn; omega)
    refine ⟨k, hk, ?_⟩
    rw [hp, List.flatMap_cons, List.append_assoc]
    have fin : ∀ (u v : Str), (do let t ← (do let t ← translateLoop k s; pure (v ++ t)); pure (u ++ t) : Res Str) = (do let t ← translateLoop k s; pure (u ++ v ++ t)) := by
      intro u v
      cases translateLoop k s <;> simp
    cases i with
    | any =>
      show translateLoop (n + 1) ('*' :: (pattern l ++ s)) = _
      rw [translateLoop, if_pos rfl, ih]
      exact fin ['.', '*'] _
    | one =>
      show translateLoop (n + 1) ('?' :: (pattern l ++ s)) = _
      rw [translateLoop, if_neg (by decide), if_pos rfl, ih]
      exact fin ['.'] _
    | lit c =>
      show translateLoop (n + 1) (c :: (pattern l ++ s)) = _
      rw [translateLoop, if_neg hi.1, if_neg hi.2.1, if_neg hi.2.2, ih]
      exact fin _ _
    | set neg m =>
      obtain ⟨hne, hm⟩ := hi
      have hc := closing_text neg hne hm (pattern l ++ s)
      have e : (Item.set neg m).text ++ (pattern l ++ s) = '[' :: ((if neg then ['!'] else []) ++ m.flatMap CI.text ++ ']' :: (pattern l ++ s)) := by simp [Item.text]
      rw [e, translateLoop, if_neg (by decide), if_neg (by decide), if_pos rfl, hc, if_neg (by simp)]
      have e1 : ((if neg then ['!'] else []) ++ m.flatMap CI.text ++ ']' :: (pattern l ++ s)).take ((if neg then ['!'] else []) ++ m.flatMap CI.text).length = (if neg then ['!'] else []) ++ m.flatMap CI.text := List.take_left
      have e2 : ((if neg then ['!'] else []) ++ m.flatMap CI.text ++ ']' :: (pattern l ++ s)).drop (((if neg then ['!'] else []) ++ m.flatMap CI.text).length + 1) = pattern l ++ s := by
        rw [← List.drop_drop, List.drop_left]
        rfl
      rw [e1, e2, bracket_text neg hne hm, bind_ok, ih]
      exact fin _ _

/-- Any text in brackets: without `]`, and not beginning with `!`. -/
structure Inside (x : Str) : Prop where
  ne : x ≠ []
  open' : ∀ c ∈ x, c ≠ ']'
  first : x[0]? ≠ some '!'

theorem closing_inside {x : Str} (hx : Inside x) (s : Str) : closing (x ++ ']' :: s) = x.length := by
  obtain ⟨ne, h, f⟩ := hx
  have ht := takeWhile_to x s h
  obtain _ | ⟨c, x⟩ := x
  · exact absurd rfl ne
  simp only [List.getElem?_cons_zero, ne_eq, Option.some.injEq] at f
  have := h c (by simp)
  simp only [closing]
  simp only [List.cons_append, List.getElem?_cons_zero, Option.some.injEq, f, if_false, this, List.drop_zero, Nat.zero_add]
  rw [← List.cons_append, ht]

/-- The loop at a bracket. -/
theorem translateLoop_bracket {x : Str} (hx : Inside x) (s : Str) (k : Nat) (hk : ('[' :: (x ++ ']' :: s)).length ≤ k) : ∃ k', s.length ≤ k' ∧
    translateLoop k ('[' :: (x ++ ']' :: s)) = (do let b ← bracket x; let t ← translateLoop k' s; pure (b ++ t)) := by
  obtain _ | k := k
  · simp at hk
  refine ⟨k, by simp at hk; omega, ?_⟩
  rw [translateLoop, if_neg (by decide), if_neg (by decide), if_pos rfl, closing_inside hx, if_neg (by simp)]
  have e1 : (x ++ ']' :: s).take x.length = x := List.take_left
  have e2 : (x ++ ']' :: s).drop (x.length + 1) = s := by
    rw [← List.drop_drop, List.drop_left]
    rfl
  rw [e1, e2]

/-- C132 is false of brackets with two dashes in a row, behind whatever items: the code reads beyond a string of one dash. -/
theorem dashes_violated (l : List Item) (hl : ∀ i ∈ l, i.Ok) (x s : Str) (hx : Inside x) (hd : hasDashes x = true) (name : Str) :
    fnmatch name (pattern l ++ '[' :: (x ++ ']' :: s)) = ub := by
  obtain ⟨k, hk, e⟩ := translateLoop_then ('[' :: (x ++ ']' :: s)) l hl _ (Nat.le_of_eq List.length_append.symm)
  obtain ⟨k', _, e'⟩ := translateLoop_bracket hx s k hk
  unfold fnmatch compile translate
  rw [e, e', bracket, if_pos hd]
  rfl

/-- The tokens of a text that stops the parser. -/
def Stops (s : Str) : Prop := ∀ n, s.length ≤ n → tokens n s = abort

theorem Stops.lit {s} (h : Stops s) (c : Char) : Stops ((if c ∈ specials then ['\\', c] else [c]) ++ s) := by
  intro n hn
  obtain _ | n := n
  · split at hn <;> simp at hn
  split
  · rename_i hc
    rw [if_pos hc] at hn
    have := h n (by simp at hn; omega)
    simp [tokens, specials_alnum c hc, this]
  · rename_i hc
    rw [if_neg hc] at hn
    have := h n (by simpa using hn)
    simp only [specials, List.mem_cons, not_or] at hc
    simp [tokens, hc, this]

theorem Stops.dot {s} (h : Stops s) : Stops ('.' :: s) := by
  intro n hn
  obtain _ | n := n
  · simp at hn
  have := h n (by simpa using hn)
  simp [tokens, this]

theorem Stops.star {s} (h : Stops s) : Stops ('*' :: s) := by
  intro n hn
  obtain _ | n := n
  · simp at hn
  have := h n (by simpa using hn)
  simp [tokens, this]

theorem Stops.lpar {s} (h : Stops s) : Stops ('(' :: s) := by
  intro n hn
  obtain _ | n := n
  · simp at hn
  have := h n (by simpa using hn)
  simp [tokens, this]

theorem Stops.cls {s} (h : Stops s) (neg : Bool) {m : List CI} (hne : m ≠ []) (hm : ∀ i ∈ m, i.Ok) :
    Stops ('[' :: (if neg then ['^'] else []) ++ m.flatMap CI.text ++ [']'] ++ s) := by
  obtain ⟨c, t, e, hc⟩ := text_head hne hm
  intro n hn
  obtain _ | n := n
  · simp at hn
  have hs := h n (by simp at hn; omega)
  cases neg with
  | true =>
    simp only [↓reduceIte, List.cons_append, List.nil_append, List.append_assoc]
    have := classBody_text m s ('^' :: (m.flatMap CI.text ++ ']' :: s)).length (by simp only [List.length_cons, List.length_append]; omega) hm
    simp [tokens] at this ⊢
    simp [this, hs]
  | false =>
    simp only [Bool.false_eq_true, ↓reduceIte, List.cons_append, List.nil_append, List.append_assoc]
    have := classBody_text m s (m.flatMap CI.text ++ ']' :: s).length (by simp only [List.length_cons, List.length_append]; omega) hm
    have hz : (m.flatMap CI.text ++ ']' :: s)[0]? ≠ some '^' := by rw [e]; simp; exact hc.2.2.2.2.1
    simp only [tokens]
    simp only [hz, decide_false, Bool.false_eq_true, if_false]
    simp only [this, hs, bind_ok]
    simp

theorem stops_items {s : Str} (h : Stops s) : ∀ (l : List Item), (∀ i ∈ l, i.Ok) → Stops (l.flatMap Item.rxText ++ s)
  | [], _ => h
  | i :: l, hl => by
    have hi := hl i (by simp)
    have ih := stops_items h l (fun j hj => hl j (by simp [hj]))
    rw [List.flatMap_cons, List.append_assoc]
    cases i with
    | any => exact Stops.dot (Stops.star ih)
    | one => exact Stops.dot ih
    | lit c => exact Stops.lit ih c
    | set neg m => exact Stops.cls ih neg hi.1 hi.2

/-- Plain characters in front of the escape that is none. -/
theorem classBody_op (s : Str) : ∀ (m : Str), (∀ c ∈ m, Plain c) → ∀ n, m.length + 2 ≤ n → classBody n (m ++ '\\' :: '\\' :: '\\' :: '1' :: s) = abort
  | [], _, n, hn => by
    obtain _ | _ | n := n
    · simp at hn
    · simp at hn
    simp [classBody, unit]
  | c :: m, hm, n, hn => by
    obtain _ | n := n
    · simp at hn
    have hc := hm c (by simp)
    have ih := classBody_op s m (fun d hd => hm d (by simp [hd])) n (by simp at hn; omega)
    have hd : (m ++ '\\' :: '\\' :: '\\' :: '1' :: s)[0]? ≠ some '-' := by
      cases m with
      | nil => simp
      | cons d m => simp; exact (hm d (by simp)).2.2.2.1
    rw [List.cons_append, classBody, if_neg hc.1, unit_plain hc]
    simp only [bind_ok]
    rw [if_neg (fun h => hd h.1), ih]
    rfl

/-- C132 is false of brackets that list `&`, `~` or `|`: comparing with any name ends in an exception. -/
theorem operators_violated (l l2 : List Item) (hl : ∀ i ∈ l, i.Ok) (hl2 : ∀ i ∈ l2, i.Ok) (m m2 : Str) (hm : ∀ c ∈ m, Plain c) (hm2 : ∀ c ∈ m2, Plain c) (o : Char) (ho : isOp o = true) (name : Str) :
    fnmatch name (pattern l ++ '[' :: ((m ++ o :: m2) ++ ']' :: pattern l2)) = abort := by
  have hoc : o = '&' ∨ o = '~' ∨ o = '|' := by simpa [isOp, or_assoc] using ho
  have pl : ∀ c ∈ m ++ o :: m2, c ≠ ']' ∧ c ≠ '\\' ∧ c ≠ '-' ∧ c ≠ '!' ∧ c ≠ '^' ∧ c ≠ '[' := by
    intro c hc
    rcases List.mem_append.mp hc with h | h
    · obtain ⟨a, b, d, e, f, g, _⟩ := hm c h; exact ⟨a, b, e, g, f, d⟩
    · rcases List.mem_cons.mp h with rfl | h
      · rcases hoc with rfl | rfl | rfl <;> decide
      · obtain ⟨a, b, d, e, f, g, _⟩ := hm2 c h; exact ⟨a, b, e, g, f, d⟩
  have head : ∃ c t, m ++ o :: m2 = c :: t ∧ c ≠ '!' ∧ c ≠ '^' ∧ c ≠ '[' := by
    cases h : m ++ o :: m2 with
    | nil => simp at h
    | cons c t => exact ⟨c, t, rfl, (pl c (by simp [h])).2.2.2.1, (pl c (by simp [h])).2.2.2.2.1, (pl c (by simp [h])).2.2.2.2.2⟩
  obtain ⟨hc0, ht0, he0, hq1, hq2, hq3⟩ := head
  have hx : Inside (m ++ o :: m2) := ⟨by simp, fun c hc => (pl c hc).1, by rw [he0]; simpa using hq1⟩
  obtain ⟨k, hk, e⟩ := translateLoop_then ('[' :: ((m ++ o :: m2) ++ ']' :: pattern l2)) l hl _ (Nat.le_of_eq List.length_append.symm)
  obtain ⟨k', hk', e'⟩ := translateLoop_bracket hx (pattern l2) k hk
  have hd : hasDashes (m ++ o :: m2) = false := by
    have : ∀ s : Str, (∀ c ∈ s, c ≠ '-') → hasDashes s = false := by
      intro s
      induction s with
      | nil => intro _; rfl
      | cons c s ih => intro h; rw [hasDashes_cons (h c (by simp)), ih (fun d hd => h d (by simp [hd]))]
    exact this _ (fun c hc => (pl c hc).2.2.1)
  have hes : escapeOps (m ++ o :: m2) = m ++ '\\' :: '\\' :: '\\' :: '1' :: escapeOps m2 := by
    have a : escapeOps m = m := escapeOps_id (fun c hc => plain_not_op (Or.inl (hm c hc)))
    unfold escapeOps at a ⊢
    rw [List.flatMap_append, a, List.flatMap_cons, ho]
    rfl
  have hbr : bracket (m ++ o :: m2) = ok ('[' :: (m ++ '\\' :: '\\' :: '\\' :: '1' :: escapeOps m2) ++ [']']) := by
    rw [bracket, hd, doubleFirst_id (fun c hc => (pl c hc).2.1), hes]
    have : bracketStart (m ++ '\\' :: '\\' :: '\\' :: '1' :: escapeOps m2) = m ++ '\\' :: '\\' :: '\\' :: '1' :: escapeOps m2 := by
      cases m with
      | nil => simp [bracketStart]
      | cons c m =>
        obtain ⟨_, _, a, _, b, d, _⟩ := hm c (by simp)
        simp [bracketStart, a, b, d]
    rw [this]
    rfl
  -- the parser stops at this bracket
  have hst : ∀ s, Stops ('[' :: (m ++ '\\' :: '\\' :: '\\' :: '1' :: escapeOps m2) ++ [']'] ++ s) := by
    intro s n hn
    obtain _ | n := n
    · simp at hn
    have hz : (m ++ '\\' :: '\\' :: '\\' :: '1' :: (escapeOps m2 ++ ']' :: s))[0]? ≠ some '^' := by
      cases m with
      | nil => simp
      | cons c m => simp; exact (hm c (by simp)).2.2.2.2.1
    have := classBody_op (escapeOps m2 ++ ']' :: s) m hm (m ++ '\\' :: '\\' :: '\\' :: '1' :: (escapeOps m2 ++ ']' :: s)).length (by simp only [List.length_append, List.length_cons]; omega)
    simp only [List.cons_append, List.append_assoc, List.nil_append]
    simp only [tokens]
    simp only [hz, decide_false, Bool.false_eq_true, if_false]
    simp only [this]
    simp
  unfold fnmatch compile translate
  rw [e, e', hbr, bind_ok, translateLoop_text l2 hl2 k' hk', bind_ok, pure_eq, bind_ok, pure_eq, bind_ok]
  simp only [pure_eq, bind_ok]
  have := ((stops_items (hst (l2.flatMap Item.rxText ++ [')', '|', '[', '\\', 'r', '\\', 'n', ']', ')', '$'])) l hl).lpar).lpar
  have h2 := this _ (Nat.le_refl _)
  unfold parse
  simp only [List.cons_append, List.append_assoc, List.nil_append] at h2 ⊢
  rw [h2]
  rfl

/-- C132 is false of brackets that begin with `^` (or `[`): they also match the backslash. -/
theorem caret_violated (m : List CI) (hm : ∀ i ∈ m, i.Ok) : fnmatch ['\\'] ('[' :: '^' :: m.flatMap CI.text ++ [']']) = ok true := by
  have hx : Inside ('^' :: m.flatMap CI.text) := ⟨by simp, by
    intro c hc
    rcases List.mem_cons.mp hc with rfl | hc
    · decide
    · exact plain_not_close (text_chars hm c hc), by simp⟩
  obtain ⟨k', hk', e'⟩ := translateLoop_bracket hx [] ('[' :: ('^' :: m.flatMap CI.text ++ [']'])).length (Nat.le_refl _)
  have h1 : ∀ d ∈ '^' :: m.flatMap CI.text, d ≠ '\\' := by
    intro d hc
    rcases List.mem_cons.mp hc with rfl | hc
    · decide
    · exact plain_not_backslash (text_chars hm d hc)
  have h2 : ∀ d ∈ '^' :: m.flatMap CI.text, isOp d = false := by
    intro d hc
    rcases List.mem_cons.mp hc with rfl | hc
    · decide
    · exact plain_not_op (text_chars hm d hc)
  have hbr : bracket ('^' :: m.flatMap CI.text) = ok ('[' :: '\\' :: '\\' :: '^' :: m.flatMap CI.text ++ [']']) := by
    rw [bracket, hasDashes_cons (by decide), hasDashes_text hm, doubleFirst_id h1, escapeOps_id h2]
    simp [bracketStart]
  have htl : translateLoop k' ([] : Str) = ok [] := by cases k' <;> rfl
  have hlex : Lex ('[' :: '\\' :: '\\' :: '^' :: (m.flatMap CI.text ++ [']'] ++ [')', '|', '[', '\\', 'r', '\\', 'n', ']', ')', '$'])) ([.cls false (.one '\\' :: .one '^' :: m)] ++ [.rpar, .bar, .cls false [.one '\r', .one '\n'], .rpar, .dollar]) := by
    intro n hn
    obtain _ | n := n
    · simp at hn
    have hs := lex_tail n (by simp at hn ⊢; omega)
    have hb := classBody_text m [')', '|', '[', '\\', 'r', '\\', 'n', ']', ')', '$'] ((m.flatMap CI.text).length + 12) (by omega) hm
    have hdash : (m.flatMap CI.text ++ ']' :: [')', '|', '[', '\\', 'r', '\\', 'n', ']', ')', '$'])[0]? ≠ some '-' := by
      cases m with
      | nil => simp
      | cons j l =>
        have hj := hm j (by simp)
        cases j with
        | one c => simp [CI.text]; exact hj.2.2.2.1
        | range a b => simp [CI.text]; exact hj.1.2.2.2.1
    have hcb : classBody ('\\' :: '\\' :: '^' :: (m.flatMap CI.text ++ ']' :: [')', '|', '[', '\\', 'r', '\\', 'n', ']', ')', '$'])).length
        ('\\' :: '\\' :: '^' :: (m.flatMap CI.text ++ ']' :: [')', '|', '[', '\\', 'r', '\\', 'n', ']', ')', '$'])) = ok (.one '\\' :: .one '^' :: m, [')', '|', '[', '\\', 'r', '\\', 'n', ']', ')', '$']) := by
      have el : ('\\' :: '\\' :: '^' :: (m.flatMap CI.text ++ ']' :: [')', '|', '[', '\\', 'r', '\\', 'n', ']', ')', '$'])).length = (m.flatMap CI.text).length + 12 + 1 + 1 := by
        simp only [List.length_cons, List.length_append, List.length_nil]
      rw [el, classBody, if_neg (by decide)]
      have u1 : unit ('\\' :: '\\' :: '^' :: (m.flatMap CI.text ++ ']' :: [')', '|', '[', '\\', 'r', '\\', 'n', ']', ')', '$'])) = ok ('\\', '^' :: (m.flatMap CI.text ++ ']' :: [')', '|', '[', '\\', 'r', '\\', 'n', ']', ')', '$'])) := by
        simp [unit]
      have u2 : unit ('^' :: (m.flatMap CI.text ++ ']' :: [')', '|', '[', '\\', 'r', '\\', 'n', ']', ')', '$'])) = ok ('^', m.flatMap CI.text ++ ']' :: [')', '|', '[', '\\', 'r', '\\', 'n', ']', ')', '$']) := by
        simp [unit]
      rw [u1]
      simp only [bind_ok]
      rw [if_neg (by simp), classBody, if_neg (by decide), u2]
      simp only [bind_ok]
      rw [if_neg (fun h => hdash h.1), hb]
      rfl
    simp only [List.append_assoc, List.cons_append, List.nil_append] at hcb hs ⊢
    simp only [tokens]
    simp only [List.getElem?_cons_zero, Option.some.injEq, show ('\\' : Char) ≠ '^' by decide, decide_false, Bool.false_eq_true, if_false]
    simp only [hcb, hs, bind_ok, pure_eq]
    simp
  unfold fnmatch compile translate
  have el : ('[' :: '^' :: m.flatMap CI.text ++ [']'] : Str) = '[' :: ('^' :: m.flatMap CI.text ++ [']']) := rfl
  rw [el, e', hbr, bind_ok, htl]
  simp only [bind_ok, pure_eq]
  unfold parse
  have hl := (hlex.lpar).lpar _ (Nat.le_refl _)
  simp only [List.cons_append, List.append_assoc, List.nil_append, List.append_nil] at hl ⊢
  rw [hl, bind_ok]
  show (ok (@decide _ (Classical.propDecidable _)) : Res Bool) = _
  congr 1
  rw [@decide_eq_true_iff _ (Classical.propDecidable _)]
  exact .cat (.cat .eps (.left (.cat .eps (.cat .eps (.cls (by simp [CI.Has])))))) .dollar

end Verif.Glob
