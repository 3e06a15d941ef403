import Verif.Compose.Model
import Verif.Graph.Forward
import Verif.Graph.Once
import Verif.Graph.Frame
import Verif.Serial.Props
/-!
# Using a model as a layer (C74, C96)
-/
namespace Verif.Compose
open Verif Res Graph

variable {α : Type}

/-! ## Specification -/

/-- The leaves of an expression. -/
def leaves : Ex α → List Nat
  | .leaf k => [k]
  | .var _ _ => []
  | .un _ _ e => leaves e
  | .bin _ _ l r => leaves l ++ leaves r

/-! ## Values -/

theorem eval_congr {L M D : Nat → Ten α} (e : Ex α) (h : ∀ k ∈ leaves e, L k = M k) : eval L D e = eval M D e := by
  induction e with
  | leaf k => unfold eval; rw [h k (by simp [leaves])]
  | var v c => rfl
  | un i op e ih => unfold eval; rw [ih h]
  | bin i op l r ihl ihr =>
    unfold eval
    rw [ihl fun k hk => h k (by simp [leaves, hk]), ihr fun k hk => h k (by simp [leaves, hk])]

/-- What `replace` denotes: all place holders have the value of the new expression. -/
theorem replace_value (ph : Nat → Bool) (new e : Ex α) (n : Nat) (L D : Nat → Ten α) (v : Ten α) (hv : eval L D new = ok v) (hne : v.data ≠ []) :
    eval L D (replace ph new e n).1 = eval (fun k => if ph k then v else L k) D e := by
  induction e generalizing n with
  | leaf k =>
    unfold replace
    cases hk : ph k with
    | true =>
      rw [if_pos rfl, hv]
      simp only [eval, hk, if_true]
      rw [assert_true hne]
      rfl
    | false =>
      simp only [eval, hk, Bool.false_eq_true, if_false]
  | var v c => rfl
  | un i op e ih =>
    simp only [replace, eval]
    rw [ih]
  | bin i op l r ihl ihr =>
    simp only [replace, eval]
    rw [ihl, ihr]

/-! ## Identities -/

theorem replace_counter (ph : Nat → Bool) (new e : Ex α) (n : Nat) : n ≤ (replace ph new e n).2 := by
  induction e generalizing n with
  | leaf k => exact le_refl _
  | var v c => exact le_refl _
  | un i op e ih => exact Nat.le_succ_of_le (ih n)
  | bin i op l r ihl ihr => exact Nat.le_succ_of_le (le_trans (ihl n) (ihr _))

/-- An operator in the result is one of the new expression, or has an identity from the counter. -/
theorem replace_occs (ph : Nat → Bool) (new e : Ex α) : ∀ (n : Nat) (sl : Slot), ∀ p ∈ occs (replace ph new e n).1 sl, ∀ i, p.2.id? = some i →
    (∃ sl', ∃ q ∈ occs new sl', q.2 = p.2) ∨ (n ≤ i ∧ i < (replace ph new e n).2) := by
  induction e with
  | leaf k =>
    intro n sl p hp i hi
    unfold replace at hp
    dsimp only at hp
    split at hp
    · exact .inl ⟨sl, p, hp, rfl⟩
    · simp only [occs, List.mem_singleton] at hp
      rw [hp] at hi
      cases hi
  | var v c =>
    intro n sl p hp i hi
    simp only [replace, occs, List.mem_singleton] at hp
    rw [hp] at hi
    cases hi
  | un j op e ih =>
    intro n sl p hp i hi
    simp only [replace, occs, List.mem_cons] at hp
    rcases hp with rfl | hp
    · have : (replace ph new e n).2 = i := Option.some.inj hi
      refine .inr ⟨this ▸ replace_counter ph new e n, ?_⟩
      simp only [replace]
      omega
    · rcases ih n _ p hp i hi with h | h
      · exact .inl h
      · refine .inr ⟨h.1, ?_⟩
        simp only [replace]
        omega
  | bin j op l r ihl ihr =>
    intro n sl p hp i hi
    have h1 := replace_counter ph new l n
    have h2 := replace_counter ph new r (replace ph new l n).2
    simp only [replace, occs, List.mem_cons, List.mem_append] at hp
    simp only [replace]
    rcases hp with rfl | hp | hp
    · have : (replace ph new r (replace ph new l n).2).2 = i := Option.some.inj hi
      exact .inr ⟨by omega, by omega⟩
    · rcases ihl n _ p hp i hi with h | h
      · exact .inl h
      · exact .inr ⟨by omega, by omega⟩
    · rcases ihr _ _ p hp i hi with h | h
      · exact .inl h
      · exact .inr ⟨by omega, by omega⟩

/-- Whether an occurrence is there does not depend on the object of the root. -/
theorem occs_slot (e : Ex α) (a b : Slot) {p : Slot × Ex α} (h : p ∈ occs e a) : ∃ q ∈ occs e b, q.2 = p.2 := by
  cases e with
  | leaf k => simp only [occs, List.mem_singleton] at h; exact ⟨(b, .leaf k), by simp [occs], by rw [h]⟩
  | var v c => simp only [occs, List.mem_singleton] at h; exact ⟨(b, .var v c), by simp [occs], by rw [h]⟩
  | un i op e =>
    simp only [occs, List.mem_cons] at h
    rcases h with rfl | h
    · exact ⟨(b, .un i op e), by simp [occs], rfl⟩
    · exact ⟨p, by simp [occs, h], rfl⟩
  | bin i op l r =>
    simp only [occs, List.mem_cons] at h
    rcases h with rfl | h
    · exact ⟨(b, .bin i op l r), by simp [occs], rfl⟩
    · exact ⟨p, by simp only [occs, List.mem_cons]; exact .inr h, rfl⟩

/-- Two operators of the result with one identity are one operator. -/
theorem replace_same (ph : Nat → Bool) (new e : Ex α) (hn : Consistent new) : ∀ (n : Nat), (∀ q ∈ occs new none, ∀ i, q.2.id? = some i → i < n) →
    ∀ (s t : Slot), ∀ p ∈ occs (replace ph new e n).1 s, ∀ q ∈ occs (replace ph new e n).1 t, ∀ i, p.2.id? = some i → q.2.id? = some i → p.2 = q.2 := by
  -- both in the new expression
  have both : ∀ (s t : Slot) (p q : Slot × Ex α), p ∈ occs new s → q ∈ occs new t → ∀ i, p.2.id? = some i → q.2.id? = some i → p.2 = q.2 := by
    intro s t p q hp hq i h1 h2
    obtain ⟨p', hp', e1⟩ := occs_slot new s none hp
    obtain ⟨q', hq', e2⟩ := occs_slot new t none hq
    rw [← e1, ← e2]
    exact hn p' hp' q' hq' i (by rw [e1]; exact h1) (by rw [e2]; exact h2)
  -- an identity from the counter, against one of another part
  have cross : ∀ (n m : Nat) (a b : Ex α), (∀ q ∈ occs new none, ∀ i, q.2.id? = some i → i < n) → (replace ph new a n).2 ≤ m → ∀ (s t : Slot),
      ∀ p ∈ occs (replace ph new a n).1 s, ∀ q ∈ occs (replace ph new b m).1 t, ∀ i, p.2.id? = some i → q.2.id? = some i → p.2 = q.2 := by
    intro n m a b hb hm s t p hp q hq i h1 h2
    have hc := replace_counter ph new a n
    rcases replace_occs ph new a n s p hp i h1 with ⟨s', p', hp', e1⟩ | ha <;> rcases replace_occs ph new b m t q hq i h2 with ⟨t', q', hq', e2⟩ | hb'
    · rw [← e1, ← e2]
      exact both s' t' p' q' hp' hq' i (by rw [e1]; exact h1) (by rw [e2]; exact h2)
    · obtain ⟨p'', hp'', e3⟩ := occs_slot new s' none hp'
      have := hb p'' hp'' i (by rw [e3, e1]; exact h1)
      omega
    · obtain ⟨q'', hq'', e3⟩ := occs_slot new t' none hq'
      have := hb q'' hq'' i (by rw [e3, e2]; exact h2)
      omega
    · omega
  -- the operator built last is none of those below it
  have top : ∀ (n k : Nat) (a : Ex α), (∀ q ∈ occs new none, ∀ i, q.2.id? = some i → i < n) → (replace ph new a n).2 ≤ k → ∀ (s : Slot),
      ∀ p ∈ occs (replace ph new a n).1 s, p.2.id? ≠ some k := by
    intro n k a hb hm s p hp h1
    have hc := replace_counter ph new a n
    rcases replace_occs ph new a n s p hp k h1 with ⟨s', p', hp', e1⟩ | ha
    · obtain ⟨p'', hp'', e3⟩ := occs_slot new s' none hp'
      have := hb p'' hp'' k (by rw [e3, e1]; exact h1)
      omega
    · omega
  induction e with
  | leaf k =>
    intro n hb s t p hp q hq i h1 h2
    unfold replace at hp hq
    dsimp only at hp hq
    split at hp
    · next h => rw [if_pos h] at hq; exact both s t p q hp hq i h1 h2
    · simp only [occs, List.mem_singleton] at hp
      rw [hp] at h1
      cases h1
  | var v c =>
    intro n hb s t p hp q hq i h1 h2
    simp only [replace, occs, List.mem_singleton] at hp
    rw [hp] at h1
    cases h1
  | un j op e ih =>
    intro n hb s t p hp q hq i h1 h2
    simp only [replace, occs, List.mem_cons] at hp hq
    rcases hp with rfl | hp <;> rcases hq with rfl | hq
    · rfl
    · have : (replace ph new e n).2 = i := Option.some.inj h1
      exact absurd (this ▸ h2) (top n _ e hb (le_refl _) _ q hq)
    · have : (replace ph new e n).2 = i := Option.some.inj h2
      exact absurd (this ▸ h1) (top n _ e hb (le_refl _) _ p hp)
    · exact ih n hb _ _ p hp q hq i h1 h2
  | bin j op l r ihl ihr =>
    intro n hb s t p hp q hq i h1 h2
    have hc1 := replace_counter ph new l n
    have hc2 := replace_counter ph new r (replace ph new l n).2
    have hb2 : ∀ q ∈ occs new none, ∀ i, q.2.id? = some i → i < (replace ph new l n).2 := fun q hq i hi => lt_of_lt_of_le (hb q hq i hi) hc1
    simp only [replace, occs, List.mem_cons, List.mem_append] at hp hq
    rcases hp with rfl | hp | hp <;> rcases hq with rfl | hq | hq
    · rfl
    · have : (replace ph new r (replace ph new l n).2).2 = i := Option.some.inj h1
      exact absurd (this ▸ h2) (top n _ l hb hc2 _ q hq)
    · have : (replace ph new r (replace ph new l n).2).2 = i := Option.some.inj h1
      exact absurd (this ▸ h2) (top _ _ r hb2 (le_refl _) _ q hq)
    · have : (replace ph new r (replace ph new l n).2).2 = i := Option.some.inj h2
      exact absurd (this ▸ h1) (top n _ l hb hc2 _ p hp)
    · exact ihl n hb _ _ p hp q hq i h1 h2
    · exact cross n _ l r hb (le_refl _) _ _ p hp q hq i h1 h2
    · have : (replace ph new r (replace ph new l n).2).2 = i := Option.some.inj h2
      exact absurd (this ▸ h1) (top _ _ r hb2 (le_refl _) _ p hp)
    · exact (cross n _ l r hb (le_refl _) _ _ q hq p hp i h2 h1).symm
    · exact ihr _ hb2 _ _ p hp q hq i h1 h2

/-! ## C74 -/

/-- Partial (C74): if the input is the only place holder of the model's expression, the composed expression has the value of the model's expression with the input bound
to the value of the new expression.  Missing: other place holders in the expression, see `compose_second_place_holder_violated`. -/
theorem compose_value_partial (ph : Nat → Bool) (new e : Ex α) (n input : Nat) (L D : Nat → Ten α) (v : Ten α) (hin : ph input = true)
    (honly : ∀ k ∈ leaves e, ph k = true → k = input) (hv : eval L D new = ok v) (hne : v.data ≠ []) :
    eval L D (replace ph new e n).1 = eval (upd L input v) D e := by
  rw [replace_value ph new e n L D v hv hne]
  refine eval_congr e fun k hk => ?_
  unfold upd
  cases h : ph k with
  | true => rw [if_pos (honly k hk h)]; rfl
  | false =>
    have : k ≠ input := by rintro rfl; rw [hin] at h; cases h
    rw [if_neg this]; rfl

/-- Partial (C74): running the composed expression returns that value, whatever was run before; the identities taken from the counter are those of no other operator. -/
theorem compose_run_partial [Zero α] (ph : Nat → Bool) (new e : Ex α) (n input : Nat) (s : St α) (v y : Ten α) (hc : Consistent new)
    (hcount : ∀ p ∈ occs new none, ∀ i, p.2.id? = some i → i < n) (hin : ph input = true)
    (honly : ∀ k ∈ leaves e, ph k = true → k = input) (hv : eval s.leaf s.data new = ok v) (hne : v.data ≠ []) (hy : eval (upd s.leaf input v) s.data e = ok y) :
    ∃ s', run (replace ph new e n).1 s = ok (y, s') := by
  refine (run_fresh_partial _ ?_ s).1 y ?_
  · exact fun p hp q hq i h1 h2 => replace_same ph new e hc n hcount none none p hp q hq i h1 h2
  · rw [compose_value_partial ph new e n input s.leaf s.data v hin honly hv hne]
    exact hy

/-- The full statement of C74 fails: the data bound to another place holder of the model's expression has no influence on the composed expression, every place holder is
replaced. -/
theorem compose_second_place_holder_violated (ph : Nat → Bool) (new e : Ex α) (n q : Nat) (L D : Nat → Ten α) (w : Ten α) (hq : ph q = true) (hnew : q ∉ leaves new) :
    eval (upd L q w) D (replace ph new e n).1 = eval L D (replace ph new e n).1 := by
  refine eval_congr _ fun k hk => ?_
  have key : ∀ (e : Ex α) (n : Nat), q ∉ leaves (replace ph new e n).1 := by
    intro e
    induction e with
    | leaf k =>
      intro n
      unfold replace
      dsimp only
      split
      · exact hnew
      · next h =>
        simp only [leaves, List.mem_singleton]
        rintro rfl
        exact h hq
    | var v c => intro n h; cases h
    | un i op e ih => intro n; exact ih n
    | bin i op l r ihl ihr =>
      intro n
      simp only [replace, leaves, List.mem_append]
      rintro (h | h)
      · exact ihl n h
      · exact ihr _ h
  unfold upd
  rw [if_neg]
  rintro rfl
  exact key e n hk

/-- A model with two place holders whose value does depend on the second one: `forward` returns the right operand. -/
def second : Ex Nat := .bin 0 ⟨fun _ y => ok y, fun _ _ _ g => ok (g, g)⟩ (.leaf 0) (.leaf 1)

/-- The model's expression, with the input bound to the new tensor, is 7 in place 1; the composed expression is 5. -/
theorem compose_wrong_value_violated :
    eval (fun k => ⟨[1], [if k = 1 then 7 else 5]⟩) (fun _ => noTensor) (replace (fun k => decide (k < 2)) (.leaf 2) second 9).1 = ok ⟨[1], [5]⟩ ∧
    eval (upd (fun k => (⟨[1], [if k = 1 then 7 else 5]⟩ : Ten Nat)) 0 ⟨[1], [5]⟩) (fun _ => noTensor) second = ok ⟨[1], [7]⟩ := ⟨rfl, rfl⟩

/-- The hypotheses of `compose_run_partial` hold for a model `f( g( x ) )` with `x` the leaf 0, applied to `h( u )`. -/
example (f g h : UOp Nat) : Consistent (Ex.un 3 h (.leaf 1)) ∧ (∀ p ∈ occs (Ex.un 3 h (.leaf 1)) none, ∀ i, p.2.id? = some i → i < 7) ∧
    (∀ k ∈ leaves (Ex.un 5 f (.un 4 g (.leaf 0))), (fun _ => true) k = true → k = 0) := by
  refine ⟨?_, ?_, ?_⟩
  · intro p hp q hq i h1 h2
    simp only [occs, List.mem_cons, List.not_mem_nil, or_false] at hp hq
    rcases hp with rfl | rfl <;> rcases hq with rfl | rfl <;> first | rfl | (cases h1; done) | (cases h2; done)
  · intro p hp i hi
    simp only [occs, List.mem_cons, List.not_mem_nil, or_false] at hp
    rcases hp with rfl | rfl
    · have : 3 = i := Option.some.inj hi
      omega
    · cases hi
  · intro k hk _
    simpa [leaves] using hk

/-- The operators and operands of an expression as it is serialised, without identities and arguments. -/
inductive Sketch where
  | input
  | val (data : String)
  | con (tid : Nat)
  | var (tid : Nat)
  | un (name : String) (x : Sketch)
  | bin (name : String) (l r : Sketch)

def sketch : Serial.SEx → Sketch
  | .ph _ _ => .input
  | .val _ _ d => .val d
  | .con _ tid _ => .con tid
  | .var _ tid _ _ => .var tid
  | .un _ name _ x => .un name (sketch x)
  | .bin _ name _ l r => .bin name (sketch l) (sketch r)

/-- Puts `f` in the place of the input. -/
def Sketch.feed (f : Sketch) : Sketch → Sketch
  | .input => f
  | .val d => .val d
  | .con t => .con t
  | .var t => .var t
  | .un name x => .un name (feed f x)
  | .bin name l r => .bin name (feed f l) (feed f r)

/-- The code of the composed model applies the operators of the model in their order, to the operands in their order, with the new expression in the place of the
input; the numbers it takes for the operators are at least those left. -/
theorem compose_sketch (new e : Serial.SEx) (n : Nat) : sketch (replaceS new e n).1 = (sketch new).feed (sketch e) ∧ n ≤ (replaceS new e n).2 := by
  induction e generalizing n with
  | ph _ _ => exact ⟨rfl, le_rfl⟩
  | val _ _ _ => exact ⟨rfl, le_rfl⟩
  | con _ _ _ => exact ⟨rfl, le_rfl⟩
  | var _ _ _ _ => exact ⟨rfl, le_rfl⟩
  | un _ name _ x ih =>
    simp only [replaceS, sketch, Sketch.feed, (ih n).1, true_and]
    exact Nat.le_succ_of_le (ih n).2
  | bin _ name _ l r ihl ihr =>
    simp only [replaceS, sketch, Sketch.feed, (ihl n).1, (ihr _).1, true_and]
    exact Nat.le_succ_of_le (le_trans (ihl n).2 (ihr _).2)

/-- C74 fails on the text too: an operator with arguments (say `leaky_relu( 0.2 )`, `reshape( ... )`, `conv2d( ... )`) loses them in the composed expression, as the serializer is not handed on. -/
theorem compose_arguments_violated (new x : Serial.SEx) (id n : Nat) (name text : String) :
    ∃ m nx, (Serial.serialize (replaceS new (.un id name (.args text) x) n).1).2.getLast? =
      some [.lit "auto ", .name ⟨.unary name, m⟩, .lit " = ", .lit name, .lit "(", .name nx, .lit ");"] := by
  refine ⟨(replaceS new x n).2, (Serial.serialize (replaceS new x n).1).1, ?_⟩
  simp only [replaceS, Serial.serialize]
  exact List.getLast?_concat

/-! ## C96 -/

/-- The variables of a frozen expression get no gradient: `backward` changes nothing. -/
theorem frozen_backward [Zero α] [One α] [Add α] [Mul α] [Neg α] [LE α] [DecidableLE α] (eps : α) (e : Ex α) : ∀ (sl : Slot) (g : Ten α) (s s' : St α),
    backward eps (makeTrainable false e) sl g s = ok s' → s' = s := by
  induction e with
  | leaf k => intro sl g s s' h; exact (Res.ok.inj h).symm
  | var v c => intro sl g s s' h; exact (Res.ok.inj h).symm
  | un i op e ih =>
    intro sl g s s' h
    simp only [makeTrainable, backward] at h
    obtain ⟨d, _, h⟩ := bind_eq_ok.mp h
    exact ih _ _ _ _ h
  | bin i op l r ihl ihr =>
    intro sl g s s' h
    simp only [makeTrainable, backward] at h
    obtain ⟨d, _, h⟩ := bind_eq_ok.mp h
    obtain ⟨s1, h1, h⟩ := bind_eq_ok.mp h
    rw [← ihl _ _ _ _ h1]
    exact ihr _ _ _ _ h

/-- Freezing and unfreezing keep the values. -/
theorem makeTrainable_value (t : Bool) (e : Ex α) (L D : Nat → Ten α) : eval L D (makeTrainable t e) = eval L D e := by
  induction e with
  | leaf k => rfl
  | var v c => rfl
  | un i op e ih => simp only [makeTrainable, eval]; rw [ih]
  | bin i op l r ihl ihr => simp only [makeTrainable, eval]; rw [ihl, ihr]

end Verif.Compose
