import Verif.Decimal.Model
import Verif.Decimal.Spec
import Mathlib.Tactic.Ring
import Mathlib.Tactic.Linarith
import Mathlib.Tactic.NormNum
import Mathlib.Algebra.CharZero.Defs
import Mathlib.Algebra.Field.Rat
/-!
# Decimal literals (properties)
-/
namespace Verif.Decimal
open Verif Res

theorem dchar_digit (d : Fin 10) : isDigit (dchar d) := by revert d; decide
theorem dchar_val (d : Fin 10) : digitVal (dchar d) = d.val := by revert d; decide
theorem dchar_nul (d : Fin 10) : dchar d ≠ nul := by revert d; decide

theorem dchar_ne (d : Fin 10) : dchar d ≠ '+' ∧ dchar d ≠ '-' ∧ dchar d ≠ ' ' ∧ dchar d ≠ '.' := by
  revert d; decide

theorem digit_dchar {c : Char} (h : isDigit c) : ∃ d, c = dchar d := by
  obtain ⟨h1, h2⟩ := h
  have h1' : 48 ≤ c.toNat := h1
  have h2' : c.toNat ≤ 57 := h2
  refine ⟨⟨c.toNat - 48, by omega⟩, ?_⟩
  show c = Char.ofNat (48 + (c.toNat - 48))
  rw [Nat.add_sub_cancel' h1', Char.ofNat_toNat]

theorem not_digit {c : Char} : (∀ d, c ≠ dchar d) ↔ ¬ isDigit c :=
  ⟨fun h hc => by obtain ⟨d, e⟩ := digit_dchar hc; exact h d e,
   fun h d e => h (e ▸ dchar_digit d)⟩

theorem int_ok {i : ℤ} (h : -2 ^ 31 ≤ i ∧ i < 2 ^ 31) : int i = ok i := by
  unfold int; rw [require_true h]; rfl

theorem int_ub {i : ℤ} (h : ¬ (-2 ^ 31 ≤ i ∧ i < 2 ^ 31)) : int i = ub := by
  unfold int; rw [require_false h]; rfl

theorem skip_eq (n : Nat) {c : Char} (h : c ≠ ' ') (s : List Char) :
    skipSpaces (List.replicate n ' ' ++ c :: s) = ok (c :: s) := by
  induction n with
  | zero => simp [skipSpaces, h]
  | succ n ih =>
    rw [List.replicate_succ, List.cons_append, skipSpaces, if_pos ⟨by decide, rfl⟩, ih]

variable {α : Type} [Field α]

theorem whole_eq (ds : List (Fin 10)) {c : Char} (h : ¬ isDigit c) (s : List Char) (a : α) :
    whole a (ds.map dchar ++ c :: s) = ok (a * 10 ^ ds.length + (natOf ds : α), c, s) := by
  induction ds generalizing a with
  | nil => simp [whole, h, natOf]
  | cons d ds ih =>
    rw [List.map_cons, List.cons_append, whole, if_pos ⟨dchar_nul d, dchar_digit d⟩, ih, dchar_val]
    congr 2
    simp only [natOf, List.length_cons]; push_cast; ring

theorem fraction_eq (ds : List (Fin 10)) {c : Char} (h : ¬ isDigit c) (s : List Char) (a : α) (e : ℤ)
    (he : e ≤ 0) :
    fraction a e (ds.map dchar ++ c :: s) =
      if -2 ^ 31 ≤ e - ds.length ∨ ds = [] then
        ok (a * 10 ^ ds.length + (natOf ds : α), e - ds.length, c, s) else ub := by
  induction ds generalizing a e with
  | nil => simp [fraction, h, natOf]
  | cons d ds ih =>
    rw [List.map_cons, List.cons_append, fraction, if_pos ⟨dchar_nul d, dchar_digit d⟩]
    by_cases hr : -2 ^ 31 ≤ e - 1
    · rw [int_ok ⟨hr, by omega⟩, bind_ok, ih _ _ (by omega), dchar_val]
      have hc : (-2 ^ 31 ≤ e - 1 - (ds.length : ℤ) ∨ ds = []) ↔
          (-2 ^ 31 ≤ e - ((d :: ds).length : ℤ) ∨ d :: ds = []) := by
        rw [List.length_cons]; push_cast
        constructor
        · rintro (h | h)
          · left; omega
          · subst h; left; simp; omega
        · rintro (h | h)
          · left; omega
          · cases h
      by_cases hq : -2 ^ 31 ≤ e - 1 - (ds.length : ℤ) ∨ ds = []
      · rw [if_pos hq, if_pos (hc.mp hq)]
        congr 2
        · simp only [natOf, List.length_cons]; push_cast; ring
        · simp only [List.length_cons]; push_cast
          congr 1; ring
      · rw [if_neg hq, if_neg (fun x => hq (hc.mpr x))]
    · rw [int_ub (fun x => hr x.1), if_neg]
      · rfl
      · rintro (x | x)
        · rw [List.length_cons] at x; push_cast at x; omega
        · cases x

theorem expDigits_eq (ds : List (Fin 10)) {c : Char} (h : ¬ isDigit c) (s : List Char) (i : Nat)
    (hi : i < 2 ^ 31) :
    expDigits i (ds.map dchar ++ c :: s) =
      if i * 10 ^ ds.length + natOf ds < 2 ^ 31 then
        ok ((i * 10 ^ ds.length + natOf ds : ℕ) : ℤ) else ub := by
  induction ds generalizing i with
  | nil => simp [expDigits, h, natOf]; omega
  | cons d ds ih =>
    rw [List.map_cons, List.cons_append, expDigits, if_pos (dchar_digit d), dchar_val]
    have e1 : i * 10 ^ (d :: ds).length + natOf (d :: ds) =
        (i * 10 + d.val) * 10 ^ ds.length + natOf ds := by
      simp only [natOf, List.length_cons]; ring
    rw [e1]
    by_cases hr : i * 10 + d.val < 2 ^ 31
    · rw [int_ok ⟨by omega, by exact_mod_cast hr⟩, bind_ok]
      have := ih (i * 10 + d.val) hr
      push_cast at this ⊢
      exact this
    · rw [int_ub (by push_cast; omega), if_neg]
      · rfl
      · have : 1 ≤ 10 ^ ds.length := Nat.one_le_pow _ _ (by norm_num)
        have := Nat.le_mul_of_pos_right (i * 10 + d.val) this
        omega

theorem up (n : Nat) (a : α) : loop n (fun _ a => ok (a * 10)) a = ok (a * 10 ^ n) := by
  induction n with
  | zero => simp
  | succ n ih => rw [loop_succ, ih, bind_ok, pow_succ, mul_assoc]

theorem down (n : Nat) (a : α) :
    loop n (fun _ a => ok (a * (1 / 10))) a = ok (a * (1 / 10) ^ n) := by
  induction n with
  | zero => simp
  | succ n ih => rw [loop_succ, ih, bind_ok, pow_succ, mul_assoc]

/-- The scaling loops. -/
theorem scaling [CharZero α] (e : ℤ) (a : α) :
    (loop e.toNat (fun _ a => ok (a * 10)) a >>= fun a =>
      loop (-e).toNat (fun _ a => ok (a * (1 / 10))) a) = ok (a * 10 ^ e) := by
  rw [up, bind_ok, down]
  rcases le_total 0 e with h | h
  · obtain ⟨n, rfl⟩ := Int.eq_ofNat_of_zero_le h
    simp
  · obtain ⟨n, hn⟩ := Int.eq_ofNat_of_zero_le (neg_nonneg.mpr h)
    have : e = -(n : ℤ) := by omega
    subst this
    simp

/-- What is read behind the digits of the number. -/
theorem exponent_some (x : Expo) (e : ℤ) {c : Char} (h : ¬ isDigit c)
    (h2 : x.sgn = .none → x.ds = [] → c ≠ '+' ∧ c ≠ '-') (s : List Char) :
    exponent e (if x.upper then 'E' else 'e') (x.sgn.text ++ (x.ds.map dchar ++ c :: s)) =
      if natOf x.ds < 2 ^ 31 ∧ -2 ^ 31 ≤ e + x.val ∧ e + x.val < 2 ^ 31 then ok (e + x.val) else ub := by
  obtain ⟨up, sg, ds⟩ := x
  have hE : (if up then 'E' else 'e') = 'e' ∨ (if up then 'E' else 'e') = 'E' := by cases up <;> simp
  have hd := expDigits_eq ds h s 0 (by norm_num)
  simp only [Nat.zero_mul, Nat.zero_add, Nat.cast_zero] at hd
  have fin : ∀ sg : Sgn, ((if natOf ds < 2 ^ 31 then ok ((natOf ds : ℕ) : ℤ) else ub) >>=
      fun i => int (e + i * sg.val)) =
      if natOf ds < 2 ^ 31 ∧ -2 ^ 31 ≤ e + sg.val * natOf ds ∧ e + sg.val * natOf ds < 2 ^ 31 then
        ok (e + sg.val * natOf ds) else ub := by
    intro sg
    by_cases h1 : natOf ds < 2 ^ 31
    · rw [if_pos h1, bind_ok, mul_comm]
      by_cases h2 : -2 ^ 31 ≤ e + sg.val * natOf ds ∧ e + sg.val * natOf ds < 2 ^ 31
      · rw [int_ok h2, if_pos ⟨h1, h2⟩]
      · rw [int_ub h2, if_neg (fun x => h2 x.2)]
    · rw [if_neg h1, if_neg (fun x => h1 x.1)]; rfl
  unfold exponent
  rw [if_pos hE]
  cases sg with
  | plus => exact (by simpa [Sgn.text, peek, hd, Expo.val, Sgn.val] using fin .plus)
  | minus => exact (by simpa [Sgn.text, peek, hd, Expo.val, Sgn.val] using fin .minus)
  | none =>
    have hp : ∃ c' s', ds.map dchar ++ c :: s = c' :: s' ∧ c' ≠ '+' ∧ c' ≠ '-' := by
      cases ds with
      | nil => exact ⟨c, s, rfl, h2 rfl rfl⟩
      | cons d ds => exact ⟨dchar d, _, rfl, (dchar_ne d).1, (dchar_ne d).2.1⟩
    obtain ⟨c', s', e1, e2, e3⟩ := hp
    have := fin .none
    simp only [Sgn.text, List.nil_append]
    rw [e1] at hd ⊢
    simp only [peek, bind_ok, e2, e3, or_self, if_false, hd]
    simpa [Expo.val, Sgn.val] using this

theorem exponent_none (e : ℤ) {c : Char} (h : c ≠ 'e' ∧ c ≠ 'E') (s : List Char) :
    exponent e c s = ok e := by
  unfold exponent; rw [if_neg (by simp [h.1, h.2])]

theorem natOf_append (a b : List (Fin 10)) : natOf (a ++ b) = natOf a * 10 ^ b.length + natOf b := by
  induction a with
  | nil => simp [natOf]
  | cons d a ih => simp only [List.cons_append, natOf, ih, List.length_append, pow_add]; ring

/-- What `string2float` does behind the signs. -/
def body (positive : Bool) (s : List Char) : Res α := do
  let (a, c, s) ← whole (0 : α) s
  let (a, e, c, s) ← if c = '.' then fraction a 0 s else pure (a, 0, c, s)
  let e ← exponent e c s
  let a ← loop e.toNat (fun _ a => ok (a * 10)) a
  let a ← loop (-e).toNat (fun _ a => ok (a * (1 / 10))) a
  pure (if positive then a else -a)

/-- The last part of `body`. -/
theorem body_end [CharZero α] (m : Bool) (a : α) (e : ℤ) :
    (do
      let a ← loop e.toNat (fun _ a => ok (a * 10)) a
      let a ← loop (-e).toNat (fun _ a => ok (a * (1 / 10))) a
      pure (if !m then a else -a) : Res α) = ok ((if m then -1 else 1) * a * 10 ^ e) := by
  have h := scaling e a
  rw [up, bind_ok] at h ⊢
  rw [h, bind_ok]
  cases m <;> simp [pure_eq]

/-- The exponent and the last part of `body`. -/
theorem exponent_end [CharZero α] (l : Lit) {c : Char} (hs : l.Stops c) (s : List Char) (a : α)
    (hf : l.frac.length ≤ 2 ^ 31) (c' : Char) (s' : List Char)
    (hc : Lit.exText l.ex ++ c :: s = c' :: s') :
    (do
      let e ← exponent (-(l.frac.length : ℤ)) c' s'
      let a ← loop e.toNat (fun _ a => ok (a * 10)) a
      let a ← loop (-e).toNat (fun _ a => ok (a * (1 / 10))) a
      pure (if !l.minus then a else -a) : Res α) =
    if l.exNat < 2 ^ 31 ∧ -2 ^ 31 ≤ l.scale ∧ l.scale < 2 ^ 31 then
      ok ((if l.minus then -1 else 1) * a * 10 ^ l.scale) else ub := by
  obtain ⟨n, pl, m, ip, fp, ex⟩ := l
  cases ex with
  | none =>
    simp only [Lit.exText, List.nil_append, List.cons.injEq] at hc
    obtain ⟨rfl, rfl⟩ := hc
    simp only [Lit.Stops] at hs
    rw [exponent_none _ ⟨hs.2.1, hs.2.2.1⟩, bind_ok, body_end]
    have e1 : Lit.scale ⟨n, pl, m, ip, fp, none⟩ =
        -((Lit.frac ⟨n, pl, m, ip, fp, none⟩).length : ℤ) := by
      simp [Lit.scale, Lit.exVal]
    have e2 : Lit.exNat ⟨n, pl, m, ip, fp, none⟩ = 0 := rfl
    rw [e1, e2, if_pos (c := _ ∧ _ ∧ _) ⟨by norm_num, by omega, by omega⟩]
  | some x =>
    simp only [Lit.Stops] at hs
    simp only [Lit.exText, Expo.text, List.cons_append, List.append_assoc, List.cons.injEq] at hc
    obtain ⟨rfl, rfl⟩ := hc
    rw [exponent_some x _ (not_digit.mp hs.1) hs.2]
    have e1 : Lit.scale ⟨n, pl, m, ip, fp, some x⟩ =
        -((Lit.frac ⟨n, pl, m, ip, fp, some x⟩).length : ℤ) + x.val := by
      simp [Lit.scale, Lit.exVal]; ring
    have e2 : Lit.exNat ⟨n, pl, m, ip, fp, some x⟩ = natOf x.ds := rfl
    rw [e1, e2]
    split
    · rw [bind_ok, body_end]
    · rfl

theorem exText_head (l : Lit) {c : Char} (hs : l.Stops c) (s : List Char) :
    ∃ c' s', Lit.exText l.ex ++ c :: s = c' :: s' ∧ ¬ isDigit c' ∧ (l.fp = none → c' ≠ '.') := by
  obtain ⟨n, pl, m, ip, fp, ex⟩ := l
  cases ex with
  | none => exact ⟨c, s, rfl, not_digit.mp hs.1, fun h => (hs.2.2.2 h).1⟩
  | some x => exact ⟨_, _, rfl, by cases x.upper <;> decide, fun _ => by cases x.upper <;> decide⟩

/-- What is read behind the signs. -/
theorem body_eq [CharZero α] (l : Lit) {c : Char} (hs : l.Stops c) (s : List Char) :
    body (α := α) (!l.minus) (l.ip.map dchar ++ (Lit.fpText l.fp ++ (Lit.exText l.ex ++ c :: s))) =
      if l.Fits then ok l.value else ub := by
  obtain ⟨c', s', hc, hd, hp⟩ := exText_head l hs s
  have key := fun (a : α) hf => exponent_end l hs s a hf c' s' hc
  rw [hc]
  unfold body
  cases hfp : l.fp with
  | none =>
    have hfr : l.frac = [] := by simp [Lit.frac, hfp]
    rw [show Lit.fpText none ++ c' :: s' = c' :: s' from rfl, whole_eq _ hd, bind_ok]
    simp only [if_neg (hp hfp), pure_eq, bind_ok]
    have k := key (0 * 10 ^ l.ip.length + (natOf l.ip : α)) (by rw [hfr]; simp)
    rw [hfr] at k
    simp only [List.length_nil, Nat.cast_zero, neg_zero, pure_eq] at k
    rw [k]
    simp only [Lit.Fits, Lit.value, hfr, List.append_nil, List.length_nil, zero_mul, zero_add,
      Nat.zero_le, true_and]
  | some fs =>
    have hfr : l.frac = fs := by simp [Lit.frac, hfp]
    rw [show Lit.fpText (some fs) ++ c' :: s' = '.' :: (fs.map dchar ++ c' :: s') from rfl,
      whole_eq _ (by decide), bind_ok]
    simp only [if_true]
    rw [fraction_eq _ hd _ _ _ le_rfl]
    by_cases hf : fs.length ≤ 2 ^ 31
    · rw [if_pos (Or.inl (by omega)), bind_ok]
      have k := key ((0 * 10 ^ l.ip.length + (natOf l.ip : α)) * 10 ^ fs.length + natOf fs)
        (by rw [hfr]; exact hf)
      rw [hfr] at k
      simp only [zero_sub]
      rw [k]
      simp only [Lit.Fits, Lit.value, hfr, natOf_append, hf, true_and]
      push_cast
      simp only [zero_mul, zero_add]
    · rw [if_neg, if_neg]
      · rfl
      · rintro ⟨h, -⟩; rw [hfr] at h; exact hf h
      · rintro (h | h)
        · omega
        · subst h; simp at hf

/-- The first character behind the signs. -/
theorem number_head (l : Lit) {c : Char} (hs : l.Stops c) (s : List Char) :
    ∃ c' s', l.ip.map dchar ++ (Lit.fpText l.fp ++ (Lit.exText l.ex ++ c :: s)) = c' :: s' ∧
      (l.minus = false → c' ≠ '-' ∧ (l.plus = false → c' ≠ '+' ∧ c' ≠ ' ')) := by
  obtain ⟨n, pl, m, ip, fp, ex⟩ := l
  cases ip with
  | cons d ds =>
    exact ⟨_, _, rfl, fun _ => ⟨(dchar_ne d).2.1, fun _ => ⟨(dchar_ne d).1, (dchar_ne d).2.2.1⟩⟩⟩
  | nil =>
    cases fp with
    | some fs => exact ⟨_, _, rfl, fun _ => ⟨by decide, fun _ => by decide⟩⟩
    | none =>
      cases ex with
      | some x =>
        exact ⟨_, _, rfl, fun _ => ⟨by cases x.upper <;> decide, fun _ => by cases x.upper <;> decide⟩⟩
      | none => exact ⟨_, _, rfl, fun h => (hs.2.2.2 rfl).2 rfl h⟩

/-- Every literal is read as the number it stands for, unless a number counted on the way does not
fit into an `int`: then the behaviour is undefined. -/
theorem string2float_reads [CharZero α] (l : Lit) {c : Char} (hs : l.Stops c) (s : List Char) :
    string2float (α := α) (l.text ++ c :: s) = if l.Fits then ok l.value else ub := by
  rw [← body_eq l hs s]
  obtain ⟨c', s', hc, hh⟩ := number_head l hs s
  unfold Lit.text string2float
  simp only [List.append_assoc]
  rw [hc]
  cases hp : l.plus <;> cases hm : l.minus <;> simp only [hp, hm] at hh ⊢
  · have := hh trivial
    simp only [Bool.false_eq_true, if_false, List.nil_append]
    rw [skip_eq _ (this.2 trivial).2]
    simp only [bind_ok, peek, (this.2 trivial).1, this.1, if_false, body]
    simp [this.1]
  · simp only [Bool.false_eq_true, if_false, if_true, List.nil_append, List.cons_append]
    rw [skip_eq _ (by decide)]
    simp [peek, body]
  · have := (hh trivial).1
    simp only [Bool.false_eq_true, if_false, if_true, List.nil_append, List.cons_append]
    rw [skip_eq _ (by decide)]
    simp [peek, body, this]
  · simp only [if_true, List.nil_append, List.cons_append]
    rw [skip_eq _ (by decide)]
    simp [peek, body]

/-- A zero is in the memory. -/
theorem digits_of (T : List Char) (h : nul ∈ T) :
    ∃ ds c s, T = List.map dchar ds ++ c :: s ∧ (∀ d, c ≠ dchar d) ∧ (c ≠ nul → nul ∈ s) := by
  induction T with
  | nil => cases h
  | cons c T ih =>
    by_cases hd : isDigit c
    · obtain ⟨d, rfl⟩ := digit_dchar hd
      obtain ⟨ds, c, s, e, h1, h2⟩ := ih ((List.mem_cons.mp h).resolve_left (dchar_nul d).symm)
      exact ⟨d :: ds, c, s, by rw [e]; rfl, h1, h2⟩
    · exact ⟨[], c, T, rfl, not_digit.mpr hd,
        fun hc => (List.mem_cons.mp h).resolve_left (Ne.symm hc)⟩

theorem spaces_of (T : List Char) (h : nul ∈ T) :
    ∃ n T', T = List.replicate n ' ' ++ T' ∧ nul ∈ T' ∧ T'.head? ≠ some ' ' := by
  induction T with
  | nil => cases h
  | cons c T ih =>
    by_cases hd : c = ' '
    · subst hd
      obtain ⟨n, T', e, h1, h2⟩ := ih ((List.mem_cons.mp h).resolve_left (by decide))
      exact ⟨n + 1, T', by rw [e, List.replicate_succ]; rfl, h1, h2⟩
    · exact ⟨0, c :: T, rfl, h, by simpa using hd⟩

/-- One character that is there or not. -/
theorem char_of (x : Char) (hx : x ≠ nul) (T : List Char) (h : nul ∈ T) :
    ∃ (b : Bool) (T' : List Char), T = (if b then [x] else []) ++ T' ∧ nul ∈ T' ∧
      (b = false → T'.head? ≠ some x ∧ T' = T) := by
  cases T with
  | nil => cases h
  | cons c T =>
    by_cases hd : c = x
    · subst hd
      exact ⟨true, T, rfl, (List.mem_cons.mp h).resolve_left (Ne.symm hx), by simp⟩
    · exact ⟨false, c :: T, rfl, h, fun _ => ⟨by simpa using hd, rfl⟩⟩

/-- The sign and the digits of an exponent. -/
theorem expo_of (T : List Char) (h : nul ∈ T) :
    ∃ (sg : Sgn) (ds : List (Fin 10)) (c : Char) (s : List Char),
      T = sg.text ++ (ds.map dchar ++ c :: s) ∧ (∀ d, c ≠ dchar d) ∧
      (sg = .none → ds = [] → c ≠ '+' ∧ c ≠ '-') := by
  obtain ⟨p, T1, e1, h1, n1⟩ := char_of '+' (by decide) T h
  cases p with
  | true =>
    obtain ⟨ds, c, s, e, hc, -⟩ := digits_of T1 h1
    exact ⟨.plus, ds, c, s, by rw [e1, e]; rfl, hc, by intro x; cases x⟩
  | false =>
    obtain ⟨m, T2, e2, h2, n2⟩ := char_of '-' (by decide) T h
    obtain ⟨ds, c, s, e, hc, -⟩ := digits_of T2 h2
    cases m with
    | true => exact ⟨.minus, ds, c, s, by rw [e2, e]; rfl, hc, by intro x; cases x⟩
    | false =>
      have a1 := (n1 rfl).1
      have a2 := (n2 rfl).1
      rw [(n1 rfl).2] at a1
      refine ⟨.none, ds, c, s, by rw [e2, e]; rfl, hc, ?_⟩
      rintro - rfl
      rw [e2] at a1
      rw [e] at a1 a2
      simpa using And.intro a1 a2

/-- Every string that ends begins with a literal which the next character does not continue. -/
theorem literal_of (T : List Char) (h : nul ∈ T) :
    ∃ (l : Lit) (c : Char) (s : List Char), T = l.text ++ c :: s ∧ l.Stops c := by
  obtain ⟨n, T1, e1, h1, n1⟩ := spaces_of T h
  obtain ⟨p, T2, e2, h2, n2⟩ := char_of '+' (by decide) T1 h1
  obtain ⟨m, T3, e3, h3, n3⟩ := char_of '-' (by decide) T2 h2
  obtain ⟨ip, c, s, e4, h4, t4⟩ := digits_of T3 h3
  -- the point
  have hp : ∃ fp c' s', c :: s = Lit.fpText fp ++ c' :: s' ∧ (∀ d, c' ≠ dchar d) ∧
      (c' ≠ nul → nul ∈ s') ∧ (fp = none → c' = c ∧ c ≠ '.') := by
    by_cases hc : c = '.'
    · subst hc
      obtain ⟨fs, c', s', e5, h5, t5⟩ := digits_of s (t4 (by decide))
      exact ⟨some fs, c', s', by rw [e5]; rfl, h5, t5, by simp⟩
    · exact ⟨none, c, s, rfl, h4, t4, fun _ => ⟨rfl, hc⟩⟩
  obtain ⟨fp, c', s', e5, h5, t5, n5⟩ := hp
  by_cases hx : c' = 'e' ∨ c' = 'E'
  · have hn : c' ≠ nul := by rcases hx with rfl | rfl <;> decide
    obtain ⟨sg, ds, c'', s'', e6, h6, n6⟩ := expo_of s' (t5 hn)
    refine ⟨⟨n, p, m, ip, fp, some ⟨c' == 'E', sg, ds⟩⟩, c'', s'', ?_, h6, n6⟩
    have : (if (c' == 'E') then 'E' else 'e') = c' := by rcases hx with rfl | rfl <;> rfl
    rw [e1, e2, e3, e4, e5, e6]
    simp only [Lit.text, Lit.exText, Expo.text, this, List.append_assoc, List.cons_append]
  · push Not at hx
    refine ⟨⟨n, p, m, ip, fp, none⟩, c', s', ?_, h5, hx.1, hx.2, fun hf => ?_⟩
    · rw [e1, e2, e3, e4, e5]
      simp only [Lit.text, Lit.exText, List.append_assoc, List.nil_append]
    · obtain ⟨rfl, hd⟩ := n5 hf
      refine ⟨hd, fun hi hm => ?_⟩
      simp only at hi hm
      subst hi hm
      have b1 := n3 rfl
      rw [e4] at b1
      refine ⟨by simpa using b1.1, fun hp => ?_⟩
      simp only at hp
      subst hp
      have b2 := n2 rfl
      rw [← b2.2, ← b1.2] at n1
      rw [← b1.2] at b2
      exact ⟨by simpa using b2.1, by simpa using n1⟩

/-- `string2float32` never reads behind the zero that ends the string. -/
theorem string2float_stays [CharZero α] (T junk : List Char) (h : nul ∈ T) :
    string2float (α := α) (T ++ junk) = string2float T := by
  obtain ⟨l, c, s, e, hs⟩ := literal_of T h
  rw [e, List.append_assoc, List.cons_append, string2float_reads l hs, string2float_reads l hs]

/-- On every string that ends `string2float32` gives the number of the literal at its front, or it
counted too far. -/
theorem string2float_total [CharZero α] (T : List Char) (h : nul ∈ T) :
    ∃ (l : Lit) (c : Char) (s : List Char), T = l.text ++ c :: s ∧ l.Stops c ∧
      ((l.Fits ∧ string2float (α := α) T = ok l.value) ∨
       (¬ l.Fits ∧ string2float (α := α) T = ub)) := by
  obtain ⟨l, c, s, e, hs⟩ := literal_of T h
  refine ⟨l, c, s, e, hs, ?_⟩
  rw [e, string2float_reads l hs]
  by_cases hf : l.Fits
  · exact Or.inl ⟨hf, if_pos hf⟩
  · exact Or.inr ⟨hf, if_neg hf⟩

/-- The zero ends every literal. -/
theorem stops_nul (l : Lit) : l.Stops nul := by
  have h : ∀ d, nul ≠ dchar d := fun d => (dchar_nul d).symm
  unfold Lit.Stops
  cases l.ex with
  | none =>
    exact ⟨h, by decide, by decide, fun _ => ⟨by decide, fun _ _ => ⟨by decide, fun _ => by decide⟩⟩⟩
  | some x => exact ⟨h, fun _ _ => by decide⟩

/-- Full statement: for every literal.  Missing: literals whose exponent or whose number of digits
behind the point leaves the range of `int`. -/
theorem string2float_literal_partial [CharZero α] (l : Lit) (hf : l.Fits) :
    string2float (α := α) (l.text ++ [nul]) = ok l.value := by
  rw [string2float_reads l (stops_nul l), if_pos hf]

/-- Every literal whose exponent has digits that stand for `2 ^ 31` or more makes the behaviour
undefined, whatever number it stands for. -/
theorem string2float_exponent_violated [CharZero α] (l : Lit) (h : 2 ^ 31 ≤ l.exNat) :
    string2float (α := α) (l.text ++ [nul]) = ub := by
  rw [string2float_reads l (stops_nul l), if_neg]
  rintro ⟨-, h2, -⟩
  omega

/-- `float32` reads the `N` characters it was given and nothing else. -/
theorem float32_reads [CharZero α] (l : Lit) (s : List Char) :
    float32 (α := α) l.text.length (l.text ++ s) = if l.Fits then ok l.value else ub := by
  unfold float32
  rw [require_true (by simp), bind_ok, List.take_left', string2float_reads l (stops_nul l)]
  rfl

/-! ## Examples -/

/-- `  -12.50e+2x`. -/
def lit1 : Lit := ⟨2, false, true, [1, 2], some [5, 0], some ⟨false, .plus, [2]⟩⟩

theorem lit1_text : lit1.text = [' ', ' ', '-', '1', '2', '.', '5', '0', 'e', '+', '2'] := by decide
theorem lit1_fits : lit1.Fits := by
  norm_num [Lit.Fits, lit1, Lit.frac, natOf, Lit.scale, Lit.exVal, Lit.exNat, Expo.val, Sgn.val]
theorem lit1_stops : lit1.Stops 'x' := ⟨by decide, fun h => by cases h⟩
theorem lit1_value : (lit1.value : ℚ) = -1250 := by
  rw [Lit.value, show natOf (lit1.ip ++ lit1.frac) = 1250 from rfl, show lit1.scale = 0 from rfl,
    show lit1.minus = true from rfl]
  norm_num
example (s : List Char) :
    string2float (α := ℚ) ([' ', ' ', '-', '1', '2', '.', '5', '0', 'e', '+', '2'] ++ 'x' :: s) =
      ok (-1250) := by
  rw [← lit1_text, string2float_reads lit1 lit1_stops s, if_pos lit1_fits, lit1_value]
example : string2float (α := ℚ) (lit1.text ++ [nul]) = ok lit1.value :=
  string2float_literal_partial lit1 lit1_fits
example (s : List Char) : float32 (α := ℚ) lit1.text.length (lit1.text ++ s) = ok lit1.value := by
  rw [float32_reads, if_pos lit1_fits]
example (junk : List Char) :
    string2float (α := ℚ) (['-', '.', '5', 'e', nul] ++ junk) =
      string2float ['-', '.', '5', 'e', nul] :=
  string2float_stays _ _ (by decide)

/-- `0e2147483648` stands for `0`. -/
def lit2 : Lit := ⟨0, false, false, [0], none, some ⟨false, .none, [2, 1, 4, 7, 4, 8, 3, 6, 4, 8]⟩⟩

theorem lit2_text : lit2.text = ['0', 'e', '2', '1', '4', '7', '4', '8', '3', '6', '4', '8'] := by
  decide
example : (lit2.value : ℚ) = 0 := by
  rw [Lit.value, show natOf (lit2.ip ++ lit2.frac) = 0 from rfl, Nat.cast_zero, mul_zero, zero_mul]
example : string2float (α := ℚ)
    (['0', 'e', '2', '1', '4', '7', '4', '8', '3', '6', '4', '8'] ++ [nul]) = ub := by
  rw [← lit2_text, string2float_exponent_violated lit2 (by
    rw [show lit2.exNat = 2147483648 from rfl]; norm_num)]

end Verif.Decimal
