import Verif.Glob.Model
/-!
# What patterns match

The wildcards as the table at the head of include/utils/3rd_party/glob.hpp (lines 2-7) documents them, and the theorem that `fnmatch_case` decides
them.
-/
namespace Verif.Glob
open Verif Res

/-! ## Documentation -/

/-- What a pattern is made of. -/
inductive Item where
  /-- `*`: any characters. -/
  | any
  /-- `?`: any one character. -/
  | one
  /-- Itself. -/
  | lit (c : Char)
  /-- `[…]`: any character listed or in a range listed; `[!…]`: any other. -/
  | set (neg : Bool) (members : List CI)

/-- The name is what the items say, one after the other. -/
inductive Says : List Item → Str → Prop
  | nil : Says [] []
  | any {is s} (t) : Says is s → Says (.any :: is) (t ++ s)
  | one {is s} (c) : Says is s → Says (.one :: is) (c :: s)
  | lit {is s} (c) : Says is s → Says (.lit c :: is) (c :: s)
  | set {is s neg l} (c) : (neg = true ↔ ¬ ∃ i ∈ l, CI.Has c i) → Says is s → Says (.set neg l :: is) (c :: s)

/-- How a member is written. -/
def CI.text : CI → Str
  | .one c => [c]
  | .range a b => [a, '-', b]

/-- How an item is written. -/
def Item.text : Item → Str
  | .any => ['*']
  | .one => ['?']
  | .lit c => [c]
  | .set neg l => '[' :: (if neg then ['!'] else []) ++ l.flatMap CI.text ++ [']']

/-- The pattern. -/
def pattern (l : List Item) : Str := l.flatMap Item.text

/-- Characters without a meaning of their own in brackets. -/
def Plain (c : Char) : Prop := c ≠ ']' ∧ c ≠ '\\' ∧ c ≠ '[' ∧ c ≠ '-' ∧ c ≠ '^' ∧ c ≠ '!' ∧ c ≠ '&' ∧ c ≠ '~' ∧ c ≠ '|'

def CI.Ok : CI → Prop
  | .one c => Plain c
  | .range a b => Plain a ∧ Plain b ∧ a ≤ b

/-- Literals are not wildcards; brackets are not empty and list plain characters and ranges in order. -/
def Item.Ok : Item → Prop
  | .any => True
  | .one => True
  | .lit c => c ≠ '*' ∧ c ≠ '?' ∧ c ≠ '['
  | .set _ l => l ≠ [] ∧ ∀ i ∈ l, i.Ok

/-- No end of line. -/
def OneLine (s : Str) : Prop := ∀ c ∈ s, c ≠ '\n' ∧ c ≠ '\r'

/-! ## Texts and their tokens -/

/-- The text has these tokens. -/
def Lex (s : Str) (l : List Tok) : Prop := ∀ n, s.length ≤ n → tokens n s = ok l

theorem lex_nil : Lex [] [] := fun n _ => by cases n <;> rfl

theorem Lex.step {c : Char} {s : Str} {l : List Tok} {t : Tok} (h : Lex s l)
    (e : ∀ n, tokens (n + 1) (c :: s) = (do let l ← tokens n s; pure (t :: l))) : Lex (c :: s) (t :: l) := by
  intro n hn
  obtain _ | n := n
  · simp at hn
  · rw [e, h n (by simpa using hn)]
    rfl

theorem Lex.lpar {s l} (h : Lex s l) : Lex ('(' :: s) (.lpar :: l) := h.step (fun n => by simp [tokens])
theorem Lex.rpar {s l} (h : Lex s l) : Lex (')' :: s) (.rpar :: l) := h.step (fun n => by simp [tokens])
theorem Lex.bar {s l} (h : Lex s l) : Lex ('|' :: s) (.bar :: l) := h.step (fun n => by simp [tokens])
theorem Lex.star {s l} (h : Lex s l) : Lex ('*' :: s) (.star :: l) := h.step (fun n => by simp [tokens])
theorem Lex.dot {s l} (h : Lex s l) : Lex ('.' :: s) (.dot :: l) := h.step (fun n => by simp [tokens])
theorem Lex.dollar {s l} (h : Lex s l) : Lex ('$' :: s) (.dollar :: l) := h.step (fun n => by simp [tokens])

theorem Lex.escaped {s l} (h : Lex s l) {c : Char} (hc : c.isAlphanum = false) : Lex ('\\' :: c :: s) (.chr c :: l) := by
  intro n hn
  obtain _ | n := n
  · simp at hn
  · have := h n (by simp only [List.length_cons] at hn; omega)
    simp [tokens, hc, this]

theorem specials_alnum : ∀ c ∈ specials, c.isAlphanum = false := by decide

/-- A character outside brackets, escaped if it is special. -/
theorem Lex.lit {s l} (h : Lex s l) (c : Char) : Lex ((if c ∈ specials then ['\\', c] else [c]) ++ s) (.chr c :: l) := by
  split
  · rename_i hc
    exact h.escaped (specials_alnum c hc)
  · rename_i hc
    refine h.step (fun n => ?_)
    simp only [specials, List.mem_cons, not_or] at hc
    simp [tokens, hc]

theorem unit_plain {c : Char} (h : Plain c) (s : Str) : unit (c :: s) = ok (c, s) := by
  obtain ⟨h1, h2, h3, _⟩ := h
  simp [unit, h2, h3]

/-- The members of a bracket are read back. -/
theorem classBody_text (l : List CI) (s : Str) : ∀ n, (l.flatMap CI.text).length + 1 ≤ n → (∀ i ∈ l, i.Ok) → classBody n (l.flatMap CI.text ++ ']' :: s) = ok (l, s) := by
  induction l with
  | nil =>
    intro n hn _
    obtain _ | n := n
    · simp at hn
    · simp [classBody]
  | cons i l ih =>
    intro n hn hl
    obtain _ | n := n
    · simp at hn
    have hi := hl i (by simp)
    have hl' : ∀ i ∈ l, i.Ok := fun j hj => hl j (by simp [hj])
    -- the text behind a single character does not begin with a dash
    have hd : (l.flatMap CI.text ++ ']' :: s)[0]? ≠ some '-' := by
      cases l with
      | nil => simp
      | cons j l =>
        have hj := hl' j (by simp)
        cases j with
        | one c => simp [CI.text]; exact hj.2.2.2.1
        | range a b => simp [CI.text]; exact hj.1.2.2.2.1
    cases i with
    | one c =>
      have hn' : (l.flatMap CI.text).length + 1 ≤ n := by rw [List.flatMap_cons, List.length_append] at hn; simp only [CI.text, List.length_cons, List.length_nil] at hn; omega
      simp only [List.flatMap_cons, CI.text, List.cons_append, List.nil_append]
      rw [classBody, if_neg hi.1, unit_plain hi]
      simp only [bind_ok]
      rw [if_neg (by intro h; exact hd h.1), ih n hn' hl']
      rfl
    | range a b =>
      have hn' : (l.flatMap CI.text).length + 1 ≤ n := by rw [List.flatMap_cons, List.length_append] at hn; simp only [CI.text, List.length_cons, List.length_nil] at hn; omega
      simp only [List.flatMap_cons, CI.text, List.cons_append, List.nil_append]
      rw [classBody, if_neg hi.1.1, unit_plain hi.1]
      simp only [bind_ok]
      rw [if_pos (by simpa using hi.2.1.1)]
      simp only [List.drop_succ_cons, List.drop_zero, unit_plain hi.2.1, bind_ok, if_pos hi.2.2]
      rw [ih n hn' hl']
      rfl

/-- The first character of a list of members. -/
theorem text_head {l : List CI} (hne : l ≠ []) (hl : ∀ i ∈ l, i.Ok) : ∃ c t, l.flatMap CI.text = c :: t ∧ Plain c := by
  obtain _ | ⟨i, l⟩ := l
  · exact absurd rfl hne
  have hi := hl i (by simp)
  cases i with
  | one c => exact ⟨c, _, rfl, hi⟩
  | range a b => exact ⟨a, _, rfl, hi.1⟩

theorem Lex.cls {s l} (h : Lex s l) (neg : Bool) {m : List CI} (hne : m ≠ []) (hm : ∀ i ∈ m, i.Ok) :
    Lex ('[' :: (if neg then ['^'] else []) ++ m.flatMap CI.text ++ [']'] ++ s) (.cls neg m :: l) := by
  obtain ⟨c, t, e, hc⟩ := text_head hne hm
  intro n hn
  obtain _ | n := n
  · simp at hn
  have hs := h n (by simp at hn; omega)
  cases neg with
  | true =>
    simp only [↓reduceIte, List.cons_append, List.nil_append, List.append_assoc]
    have := classBody_text m s ('^' :: (m.flatMap CI.text ++ ']' :: s)).length (by simp only [List.length_cons, List.length_append]; omega) hm
    simp [tokens] at this ⊢
    simp [this, hs]
  | false =>
    simp only [Bool.false_eq_true, ↓reduceIte, List.cons_append, List.nil_append, List.append_assoc]
    have := classBody_text m s (m.flatMap CI.text ++ ']' :: s).length (by simp only [List.length_cons, List.length_append]; omega) hm
    have hz : (m.flatMap CI.text ++ ']' :: s)[0]? ≠ some '^' := by rw [e]; simp; exact hc.2.2.2.2.1
    simp only [tokens]
    simp only [hz, decide_false, Bool.false_eq_true, if_false]
    simp only [this, hs, bind_ok, pure_eq]
    simp

/-! ## translate -/

/-- Every character of the members' text is plain or the dash of a range. -/
theorem text_chars {l : List CI} (hl : ∀ i ∈ l, i.Ok) : ∀ c ∈ l.flatMap CI.text, Plain c ∨ c = '-' := by
  intro c hc
  obtain ⟨i, hi, h⟩ := List.mem_flatMap.mp hc
  have := hl i hi
  cases i with
  | one d => simp [CI.text] at h; subst h; exact Or.inl this
  | range a b =>
    simp [CI.text] at h
    obtain rfl | rfl | rfl := h
    · exact Or.inl this.1
    · exact Or.inr rfl
    · exact Or.inl this.2.1

theorem plain_not_close {c : Char} (h : Plain c ∨ c = '-') : c ≠ ']' := by
  rcases h with h | rfl
  · exact h.1
  · decide

theorem plain_not_backslash {c : Char} (h : Plain c ∨ c = '-') : c ≠ '\\' := by
  rcases h with h | rfl
  · exact h.2.1
  · decide

theorem plain_not_op {c : Char} (h : Plain c ∨ c = '-') : isOp c = false := by
  rcases h with h | rfl
  · obtain ⟨_, _, _, _, _, _, a, b, d⟩ := h
    simp [isOp, a, b, d]
  · decide

theorem doubleFirst_id : ∀ {s : Str}, (∀ c ∈ s, c ≠ '\\') → doubleFirst s = s
  | [], _ => rfl
  | c :: s, h => by rw [doubleFirst, if_neg (h c (by simp)), doubleFirst_id (fun d hd => h d (by simp [hd]))]

theorem escapeOps_id {s : Str} (h : ∀ c ∈ s, isOp c = false) : escapeOps s = s := by
  induction s with
  | nil => rfl
  | cons c s ih =>
    have := ih (fun d hd => h d (by simp [hd]))
    simp only [escapeOps] at this ⊢
    rw [List.flatMap_cons, this, h c (by simp)]
    rfl

theorem hasDashes_cons {c : Char} (h : c ≠ '-') (s : Str) : hasDashes (c :: s) = hasDashes s := by
  cases s with
  | nil => rfl
  | cons d s => simp [hasDashes, h]

theorem hasDashes_text {l : List CI} (hl : ∀ i ∈ l, i.Ok) : hasDashes (l.flatMap CI.text) = false := by
  induction l with
  | nil => rfl
  | cons i l ih =>
    have hi := hl i (by simp)
    have := ih (fun j hj => hl j (by simp [hj]))
    cases i with
    | one c =>
      show hasDashes (c :: l.flatMap CI.text) = false
      rw [hasDashes_cons hi.2.2.2.1, this]
    | range a b =>
      show hasDashes (a :: '-' :: b :: l.flatMap CI.text) = false
      rw [hasDashes_cons hi.1.2.2.2.1]
      have hb := hi.2.1.2.2.2.1
      rw [hasDashes]
      simp [hb, hasDashes_cons hb, this]

/-- A bracket as documented becomes a bracket of the regular expression. -/
theorem bracket_text (neg : Bool) {m : List CI} (hne : m ≠ []) (hm : ∀ i ∈ m, i.Ok) :
    bracket ((if neg then ['!'] else []) ++ m.flatMap CI.text) = ok ('[' :: (if neg then ['^'] else []) ++ m.flatMap CI.text ++ [']']) := by
  obtain ⟨c, t, e, hc⟩ := text_head hne hm
  have ht := text_chars hm
  have hd := hasDashes_text hm
  have h1 : ∀ d ∈ (if neg then ['!'] else []) ++ m.flatMap CI.text, d ≠ '\\' := by
    intro d h
    rcases List.mem_append.mp h with h | h
    · cases neg <;> simp at h; subst h; decide
    · exact plain_not_backslash (ht d h)
  have h2 : ∀ d ∈ (if neg then ['!'] else []) ++ m.flatMap CI.text, isOp d = false := by
    intro d h
    rcases List.mem_append.mp h with h | h
    · cases neg <;> simp at h; subst h; decide
    · exact plain_not_op (ht d h)
  have h3 : hasDashes ((if neg then ['!'] else []) ++ m.flatMap CI.text) = false := by
    cases neg
    · exact hd
    · show hasDashes ('!' :: m.flatMap CI.text) = false
      rw [hasDashes_cons (by decide), hd]
  rw [bracket, h3, doubleFirst_id h1, escapeOps_id h2]
  cases neg with
  | true => simp [bracketStart]
  | false =>
    simp only [Bool.false_eq_true, if_false, List.nil_append, e]
    obtain ⟨_, _, a, _, b, d, _⟩ := hc
    simp [bracketStart, a, b, d]

theorem takeWhile_to (s t : Str) (h : ∀ c ∈ s, c ≠ ']') : (s ++ ']' :: t).takeWhile (fun c => c ≠ ']') = s := by
  induction s with
  | nil => simp
  | cons c s ih =>
    rw [List.cons_append, List.takeWhile_cons_of_pos (by simpa using h c (by simp)), ih (fun d hd => h d (by simp [hd]))]

theorem closing_text (neg : Bool) {m : List CI} (hne : m ≠ []) (hm : ∀ i ∈ m, i.Ok) (s : Str) :
    closing ((if neg then ['!'] else []) ++ m.flatMap CI.text ++ ']' :: s) = ((if neg then ['!'] else []) ++ m.flatMap CI.text).length := by
  obtain ⟨c, t, e, hc⟩ := text_head hne hm
  have ht := takeWhile_to (m.flatMap CI.text) s (fun d hd => plain_not_close (text_chars hm d hd))
  rw [e] at ht ⊢
  obtain ⟨h1, _, _, _, _, h2, _⟩ := hc
  cases neg with
  | true =>
    simp only [closing]
    simp only [↓reduceIte, List.cons_append, List.nil_append, List.getElem?_cons_zero, List.getElem?_cons_succ, Option.some.injEq, h1, List.drop_succ_cons, List.drop_zero] at ht ⊢
    rw [ht]
    simp; omega
  | false =>
    simp only [closing]
    simp only [Bool.false_eq_true, if_false, List.cons_append, List.nil_append, List.getElem?_cons_zero, Option.some.injEq, h1, h2, List.drop_zero] at ht ⊢
    rw [ht]
    simp

/-- The text of the loop for one item. -/
def Item.rxText : Item → Str
  | .any => ['.', '*']
  | .one => ['.']
  | .lit c => if c ∈ specials then ['\\', c] else [c]
  | .set neg l => '[' :: (if neg then ['^'] else []) ++ l.flatMap CI.text ++ [']']

theorem translateLoop_text : ∀ (l : List Item), (∀ i ∈ l, i.Ok) → ∀ n, (pattern l).length ≤ n → translateLoop n (pattern l) = ok (l.flatMap Item.rxText)
  | [], _, n, _ => by cases n <;> rfl
  | i :: l, hl, n, hn => by
    have hi := hl i (by simp)
    have ih := translateLoop_text l (fun j hj => hl j (by simp [hj]))
    have hp : pattern (i :: l) = i.text ++ pattern l := rfl
    have hlen : 1 ≤ i.text.length := by cases i <;> simp [Item.text]
    obtain _ | n := n
    · rw [hp, List.length_append] at hn; omega
    have hn' : (pattern l).length ≤ n := by rw [hp, List.length_append] at hn; omega
    rw [hp, List.flatMap_cons]
    cases i with
    | any =>
      show translateLoop (n + 1) ('*' :: pattern l) = _
      simp [translateLoop, ih n hn', Item.rxText]
    | one =>
      show translateLoop (n + 1) ('?' :: pattern l) = _
      simp [translateLoop, ih n hn', Item.rxText]
    | lit c =>
      show translateLoop (n + 1) (c :: pattern l) = _
      simp [translateLoop, ih n hn', Item.rxText, hi.1, hi.2.1, hi.2.2]
    | set neg m =>
      obtain ⟨hne, hm⟩ := hi
      have hc := closing_text neg hne hm (pattern l)
      have e : (Item.set neg m).text ++ pattern l = '[' :: ((if neg then ['!'] else []) ++ m.flatMap CI.text ++ ']' :: pattern l) := by simp [Item.text]
      rw [e, translateLoop, if_neg (by decide), if_neg (by decide), if_pos rfl, hc, if_neg (by simp)]
      have e1 : ((if neg then ['!'] else []) ++ m.flatMap CI.text ++ ']' :: pattern l).take ((if neg then ['!'] else []) ++ m.flatMap CI.text).length = (if neg then ['!'] else []) ++ m.flatMap CI.text := List.take_left
      have e2 : ((if neg then ['!'] else []) ++ m.flatMap CI.text ++ ']' :: pattern l).drop (((if neg then ['!'] else []) ++ m.flatMap CI.text).length + 1) = pattern l := by
        rw [← List.drop_drop, List.drop_left]
        rfl
      rw [e1, e2, bracket_text neg hne hm, bind_ok, ih n hn']
      rfl

/-- The tokens of one item. -/
def Item.toks : Item → List Tok
  | .any => [.dot, .star]
  | .one => [.dot]
  | .lit c => [.chr c]
  | .set neg l => [.cls neg l]

theorem lex_items {s : Str} {t : List Tok} (h : Lex s t) : ∀ (l : List Item), (∀ i ∈ l, i.Ok) → Lex (l.flatMap Item.rxText ++ s) (l.flatMap Item.toks ++ t)
  | [], _ => h
  | i :: l, hl => by
    have hi := hl i (by simp)
    have ih := lex_items h l (fun j hj => hl j (by simp [hj]))
    rw [List.flatMap_cons, List.flatMap_cons, List.append_assoc, List.append_assoc]
    cases i with
    | any => exact Lex.dot (Lex.star ih)
    | one => exact Lex.dot ih
    | lit c => exact Lex.lit ih c
    | set neg m => exact Lex.cls ih neg hi.1 hi.2

/-- The end of the text. -/
theorem lex_tail : Lex [')', '|', '[', '\\', 'r', '\\', 'n', ']', ')', '$'] [.rpar, .bar, .cls false [.one '\r', .one '\n'], .rpar, .dollar] := by
  refine Lex.rpar (Lex.bar ?_)
  have h : Lex [')', '$'] [.rpar, .dollar] := Lex.rpar (Lex.dollar lex_nil)
  intro n hn
  obtain _ | n := n
  · simp at hn
  have := h n (by simp at hn ⊢; omega)
  simp [tokens, classBody, unit, this]

theorem lex_all (l : List Item) (hl : ∀ i ∈ l, i.Ok) :
    Lex (['(', '('] ++ l.flatMap Item.rxText ++ [')', '|', '[', '\\', 'r', '\\', 'n', ']', ')', '$'])
      ([.lpar, .lpar] ++ l.flatMap Item.toks ++ [.rpar, .bar, .cls false [.one '\r', .one '\n'], .rpar, .dollar]) := by
  have := Lex.lpar (Lex.lpar (lex_items lex_tail l hl))
  simpa using this

/-! ## The expression -/

/-- The expression of one item. -/
def Item.rx : Item → Rx
  | .any => .star .dot
  | .one => .dot
  | .lit c => .chr c
  | .set neg l => .cls neg l

theorem shifts_cons (t : Tok) (l : List Tok) (fs : List Frame) : shifts (t :: l) fs = (shift t fs >>= shifts l) := rfl

theorem shifts_items (t : List Tok) (fs : List Frame) : ∀ (l : List Item) (f : Frame),
    shifts (l.flatMap Item.toks ++ t) (f :: fs) = shifts t (l.foldl (fun f i => f.push i.rx) f :: fs)
  | [], f => rfl
  | i :: l, f => by
    have ih := shifts_items t fs l (f.push i.rx)
    rw [List.foldl_cons, ← ih, List.flatMap_cons, List.append_assoc]
    cases i <;> rfl

/-- The expression between the inner parentheses. -/
def itemsRx (l : List Item) : Rx := (l.foldl (fun f i => f.push i.rx) Frame.empty).rx

/-- C132: a pattern as documented becomes the expression of its items, or one end of a line. -/
theorem compile_pattern (l : List Item) (hl : ∀ i ∈ l, i.Ok) :
    compile (pattern l) = ok (.cat (.cat .eps (.alt (.cat .eps (itemsRx l)) (.cat .eps (.cls false [.one '\r', .one '\n'])))) .dollar) := by
  unfold compile translate
  rw [translateLoop_text l hl _ (Nat.le_refl _), bind_ok, pure_eq, bind_ok]
  unfold parse
  rw [lex_all l hl _ (Nat.le_refl _), bind_ok, List.append_assoc, List.cons_append, List.cons_append, List.nil_append, shifts_cons]
  show ((shifts _ _) >>= _) = _
  rw [shifts_cons]
  show ((shifts _ _) >>= _) = _
  rw [shifts_items]
  rfl

/-- The items take from `s` what is before `t`. -/
inductive Takes : List Item → Str → Str → Prop
  | nil {s} : Takes [] s s
  | cons {i is s t u} : Mt i.rx s t → Takes is t u → Takes (i :: is) s u

theorem push_body (f : Frame) (r : Rx) (s u : Str) : Mt (f.push r).body s u ↔ ∃ t, Mt f.body s t ∧ Mt r t u := by
  constructor
  · intro h
    cases h with
    | cat a b => exact ⟨_, a, b⟩
  · rintro ⟨t, a, b⟩
    exact Mt.cat a b

theorem items_body (l : List Item) : ∀ (f : Frame) (s u : Str), Mt (l.foldl (fun f i => f.push i.rx) f).body s u ↔ ∃ t, Mt f.body s t ∧ Takes l t u := by
  induction l with
  | nil =>
    intro f s u
    constructor
    · intro h; exact ⟨u, h, .nil⟩
    · rintro ⟨t, h, a⟩; cases a; exact h
  | cons i l ih =>
    intro f s u
    rw [List.foldl_cons, ih]
    constructor
    · rintro ⟨t, h, a⟩
      obtain ⟨t', b, c⟩ := (push_body _ _ _ _).mp h
      exact ⟨t', b, .cons c a⟩
    · rintro ⟨t, h, a⟩
      cases a with
      | cons b c => exact ⟨_, (push_body _ _ _ _).mpr ⟨t, h, b⟩, c⟩

theorem foldl_alts (l : List Item) : ∀ f : Frame, (l.foldl (fun f i => f.push i.rx) f).alts = f.alts := by
  induction l with
  | nil => intro f; rfl
  | cons i l ih => intro f; rw [List.foldl_cons, ih]; rfl

theorem mt_items (l : List Item) (s u : Str) : Mt (itemsRx l) s u ↔ Takes l s u := by
  have h1 := foldl_alts l Frame.empty
  have e : itemsRx l = (l.foldl (fun f i => f.push i.rx) Frame.empty).body := by
    unfold itemsRx Frame.rx
    rw [h1]
    rfl
  rw [e, items_body]
  constructor
  · rintro ⟨t, h, a⟩
    cases h
    exact a
  · intro h
    exact ⟨s, .eps, h⟩

theorem star_dot_mt {s u : Str} : Mt (.star .dot) s u ↔ ∃ t, s = t ++ u ∧ OneLine t := by
  constructor
  · intro h
    generalize hr : Rx.star .dot = r at h
    induction h with
    | none => exact ⟨[], rfl, by simp [OneLine]⟩
    | more a b _ ih =>
      cases hr
      obtain ⟨t, rfl, ht⟩ := ih rfl
      cases a with
      | dot h1 h2 =>
        exact ⟨_ :: t, rfl, by
          intro d hd
          rcases List.mem_cons.mp hd with rfl | hd
          · exact ⟨h1, h2⟩
          · exact ht d hd⟩
    | _ => cases hr
  · rintro ⟨t, rfl, ht⟩
    induction t with
    | nil => exact .none
    | cons c t ih =>
      exact .more (.dot (ht c (by simp)).1 (ht c (by simp)).2) (ih (fun d hd => ht d (by simp [hd])))

/-- On one line, taking everything is what the items say. -/
theorem takes_says (l : List Item) : ∀ s, OneLine s → (Takes l s [] ↔ Says l s) := by
  induction l with
  | nil =>
    intro s _
    constructor
    · intro h; cases h; exact .nil
    · intro h; cases h; exact .nil
  | cons i l ih =>
    intro s hs
    constructor
    · intro h
      cases h with
      | cons a b =>
        cases i with
        | any =>
          obtain ⟨t, rfl, _⟩ := star_dot_mt.mp a
          exact .any t ((ih _ (fun c hc => hs c (by simp [hc]))).mp b)
        | one =>
          cases a
          exact .one _ ((ih _ (fun c hc => hs c (by simp [hc]))).mp b)
        | lit c =>
          cases a
          exact .lit _ ((ih _ (fun c hc => hs c (by simp [hc]))).mp b)
        | set neg m =>
          cases a with
          | cls hc => exact .set _ hc ((ih _ (fun c hc => hs c (by simp [hc]))).mp b)
    · intro h
      cases h with
      | any t h =>
        exact .cons (star_dot_mt.mpr ⟨t, rfl, fun c hc => hs c (by simp [hc])⟩) ((ih _ (fun c hc => hs c (by simp [hc]))).mpr h)
      | one c h => exact .cons (.dot (hs c (by simp)).1 (hs c (by simp)).2) ((ih _ (fun c hc => hs c (by simp [hc]))).mpr h)
      | lit c h => exact .cons .chr ((ih _ (fun c hc => hs c (by simp [hc]))).mpr h)
      | set c hc h => exact .cons (.cls hc) ((ih _ (fun c hc => hs c (by simp [hc]))).mpr h)

/-- What the whole expression takes. -/
theorem whole_mt (l : List Item) (s : Str) :
    Mt (.cat (.cat .eps (.alt (.cat .eps (itemsRx l)) (.cat .eps (.cls false [.one '\r', .one '\n'])))) .dollar) s [] ↔ Takes l s [] ∨ s = ['\r'] ∨ s = ['\n'] := by
  constructor
  · intro h
    cases h with
    | cat a b =>
      cases b
      cases a with
      | cat a b =>
        cases a
        cases b with
        | left a =>
          cases a with
          | cat a b => cases a; exact Or.inl ((mt_items l _ _).mp b)
        | right a =>
          cases a with
          | cat a b =>
            cases a
            cases b with
            | cls h =>
              have := Classical.not_not.mp (fun hh => absurd (h.mpr hh) (by simp))
              simpa [CI.Has] using Or.inr (a := Takes l _ []) this
  · intro h
    refine .cat (.cat .eps ?_) .dollar
    rcases h with h | rfl | rfl
    · exact .left (.cat .eps ((mt_items l _ _).mpr h))
    · exact .right (.cat .eps (.cls (by simp [CI.Has])))
    · exact .right (.cat .eps (.cls (by simp [CI.Has])))

/-- C132: names on one line match a pattern exactly if they are what the documentation says. -/
theorem fnmatch_partial (l : List Item) (hl : ∀ i ∈ l, i.Ok) (name : Str) (hn : OneLine name) :
    ∃ b, fnmatch name (pattern l) = ok b ∧ (b = true ↔ Says l name) := by
  unfold fnmatch
  rw [compile_pattern l hl, bind_ok]
  refine ⟨_, rfl, ?_⟩
  rw [@decide_eq_true_iff _ (Classical.propDecidable _), whole_mt, takes_says l name hn]
  constructor
  · rintro (h | rfl | rfl)
    · exact h
    · exact absurd rfl (hn '\r' (by simp)).2
    · exact absurd rfl (hn '\n' (by simp)).1
  · exact Or.inl

/-- C132 is false of a file whose name is a line feed (or a carriage return): it matches every pattern. -/
theorem newline_violated (l : List Item) (hl : ∀ i ∈ l, i.Ok) : fnmatch ['\n'] (pattern l) = ok true ∧ fnmatch ['\r'] (pattern l) = ok true := by
  unfold fnmatch
  rw [compile_pattern l hl]
  simp [whole_mt]

/-- C132 is false of names of several lines: `*` does not match them. -/
theorem lines_violated (name : Str) (h : ¬ OneLine name) (h2 : 2 ≤ name.length) : Says [.any] name ∧ fnmatch name (pattern [.any]) = ok false := by
  refine ⟨by simpa using Says.any name .nil, ?_⟩
  unfold fnmatch
  rw [compile_pattern _ (by simp [Item.Ok]), bind_ok, pure_eq]
  congr 1
  rw [@decide_eq_false_iff_not _ (Classical.propDecidable _), whole_mt]
  rintro (h' | rfl | rfl)
  · cases h' with
    | cons a b =>
      cases b
      obtain ⟨t, rfl, ht⟩ := star_dot_mt.mp a
      rw [List.append_nil] at h
      exact h ht
  · simp at h2
  · simp at h2

end Verif.Glob
