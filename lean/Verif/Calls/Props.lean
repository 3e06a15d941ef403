import Verif.Calls.Spec
import Verif.Serial.Props

/-!
# Serialised calls are the calls that were made (C126)
-/
namespace Verif.Calls
open Serial

/-! ## Comments -/

/-- Text without a slash has no comments. -/
theorem strip_plain (cs : List Char) (h : '/' ∉ cs) : strip false cs = cs := by
  induction cs with
  | nil => rfl
  | cons c cs ih =>
    simp only [List.mem_cons, not_or] at h
    have hc : c ≠ '/' := fun e => h.1 e.symm
    rw [strip]
    · rw [ih h.2]
    · intro cs' e
      exact absurd e hc

/-- A comment after text without a slash is removed. -/
theorem strip_axis (cs : List Char) (h : '/' ∉ cs) : strip false (cs ++ "/*axis*/".toList) = cs := by
  induction cs with
  | nil => simp [strip]
  | cons c cs ih =>
    simp only [List.mem_cons, not_or] at h
    have hc : c ≠ '/' := fun e => h.1 e.symm
    rw [List.cons_append, strip]
    · rw [ih h.2]
    · intro cs' e
      exact absurd e hc

theorem arguments_plain (t : String) (h : '/' ∉ t.toList) : arguments t = t := by
  unfold arguments
  rw [strip_plain _ h, String.ofList_toList]

theorem arguments_axis (t : String) (h : '/' ∉ t.toList) : arguments (t ++ "/*axis*/") = t := by
  unfold arguments
  rw [String.toList_append, strip_axis _ h, String.ofList_toList]

/-! ## One call -/

/-- The text of arguments of a call with one operand has no comment. -/
def Fn1.Texts : Fn1 → Prop
  | .curried _ args => '/' ∉ args.toList
  | _ => True

def Fn2.Texts : Fn2 → Prop
  | .concatenate axe => '/' ∉ axe.toList
  | _ => True

theorem call1_fine (f : Fn1) (h : f.Fine) (ht : f.Texts) : call1 f.op.1 f.op.2 = some f := by
  cases f with
  | direct f => cases f <;> first | rfl | exact absurd rfl h.1 | exact absurd rfl h.2
  | curried f args =>
    have h1 := arguments_plain args ht
    have h2 := arguments_axis args ht
    have key : ∀ (n : String), curried1 n = some f → f.op = n → f.fmt args = .args args → call1 (Fn1.op (.curried f args)).1 (Fn1.op (.curried f args)).2 = some (.curried f args) := by
      intro n hn ho hf
      show call1 f.op (f.fmt args) = _
      rw [hf, ho]
      show (curried1 n).map (fun g => Fn1.curried g (arguments args)) = _
      rw [hn, h1]
      rfl
    cases f <;> first
      | exact absurd rfl h.1
      | exact absurd rfl h.2.1
      | exact absurd rfl h.2.2
      | exact key _ rfl rfl rfl
      | skip
    show some (Fn1.curried .expand_dims (arguments (args ++ "/*axis*/"))) = _
    rw [h2]
  | plusScalar a => rfl
  | timesScalar a => rfl

/-- The other calls do not compile. -/
theorem call1_not_fine (f : Fn1) (h : ¬ f.Fine) : call1 f.op.1 f.op.2 = none := by
  cases f with
  | direct f => cases f <;> first | rfl | exact absurd ⟨by decide, by decide⟩ h
  | curried f args => cases f <;> first | rfl | exact absurd ⟨by decide, by decide, by decide⟩ h
  | plusScalar a => exact absurd trivial h
  | timesScalar a => exact absurd trivial h

theorem call2_fine (f : Fn2) (h : f.Fine) (ht : f.Texts) : call2 f.op.1 f.op.2 = some f := by
  cases f with
  | direct f => cases f <;> first | rfl | exact absurd rfl h
  | concatenate axe =>
    show some (Fn2.concatenate (arguments axe)) = _
    rw [arguments_plain axe ht]
  | equal t => exact absurd h id
  | crossEntropy t => exact absurd h id

theorem call2_not_fine (f : Fn2) (h : ¬ f.Fine) : call2 f.op.1 f.op.2 = none := by
  cases f with
  | direct f => cases f <;> first | rfl | exact absurd (fun e => by cases e) h
  | concatenate axe => exact absurd trivial h
  | equal t => rfl
  | crossEntropy t => rfl

/-! ## Expressions -/

theorem Ap.Texts.un {id : Nat} {f : Fn1} {x : Ap} (h : (Ap.un id f x).Texts) : f.Texts ∧ x.Texts := by
  cases f <;> first | exact ⟨trivial, h⟩ | exact h

theorem Ap.Texts.bin {id : Nat} {f : Fn2} {l r : Ap} (h : (Ap.bin id f l r).Texts) : f.Texts ∧ l.Texts ∧ r.Texts := by
  cases f <;> first | exact ⟨trivial, h⟩ | exact h

/-- Partial (C126): expressions made by the calls listed in `Fine`, on place holders without a shape hint, are made again by their serialised code: the same calls,
with the same arguments, on the same operands. -/
theorem compile_made_partial (a : Ap) (ht : a.Texts) (h : a.Fine) : compile a.made = some a := by
  induction a with
  | ph id ty hint => rw [show hint = noHint from h]; rfl
  | val id ty d => rfl
  | con id tid ty => rfl
  | var id tid ty r => rfl
  | un id f x ih =>
    simp only [Ap.made, compile, call1_fine f h.1 ht.un.1, ih ht.un.2 h.2, Option.bind_some, Option.map_some]
  | bin id f l r ihl ihr =>
    simp only [Ap.made, compile, call2_fine f h.1 ht.bin.1, ihl ht.bin.2.1 h.2.1, ihr ht.bin.2.2 h.2.2, Option.bind_some, Option.map_some]

/-- Nothing else is made again: with one call that is not `Fine`, or one place holder with a shape hint, the code does not compile or makes something else. -/
theorem compile_made_iff (a : Ap) (ht : a.Texts) : compile a.made = some a ↔ a.Fine := by
  refine ⟨?_, compile_made_partial a ht⟩
  induction a with
  | ph id ty hint =>
    intro h
    simp only [Ap.made, compile, Option.some.injEq, Ap.ph.injEq, true_and] at h
    exact h.symm
  | val id ty d => exact fun _ => trivial
  | con id tid ty => exact fun _ => trivial
  | var id tid ty r => exact fun _ => trivial
  | un id f x ih =>
    intro h
    by_cases hf : f.Fine
    · refine ⟨hf, ih ht.un.2 ?_⟩
      simp only [Ap.made, compile, call1_fine f hf ht.un.1, Option.bind_some, Option.map_eq_some_iff] at h
      obtain ⟨b, hb, e⟩ := h
      rw [hb, (Ap.un.inj e).2.2]
    · simp only [Ap.made, compile, call1_not_fine f hf, Option.bind_none, reduceCtorEq] at h
  | bin id f l r ihl ihr =>
    intro h
    by_cases hf : f.Fine
    · simp only [Ap.made, compile, call2_fine f hf ht.bin.1, Option.bind_some, Option.bind_eq_some_iff, Option.map_eq_some_iff] at h
      obtain ⟨b, hb, c, hc, e⟩ := h
      obtain ⟨_, _, e1, e2⟩ := Ap.bin.inj e
      exact ⟨hf, ihl ht.bin.2.1 (by rw [hb, e1]), ihr ht.bin.2.2 (by rw [hc, e2])⟩
    · simp only [Ap.made, compile, call2_not_fine f hf, Option.bind_none, reduceCtorEq] at h

/-- The text, line by line: executing it and resolving its calls makes the calls again. -/
theorem text_makes_calls_partial (a : Ap) (hc : Consistent a.made) (ht : a.Texts) (h : a.Fine) :
    ∃ env e, exec (serialize a.made).2 (fun _ => none) = some env ∧ env (serialize a.made).1 = some (.ex e) ∧ compile e = some a := by
  obtain ⟨env, h1, h2⟩ := serialize_rebuilds a.made hc
  exact ⟨env, _, h1, h2, compile_made_partial a ht h⟩

/-! ## Where the calls are lost -/

/-- The full statement, `compile a.made = some a` for every `a`, fails.  The names of the operators of `cbrt`, `exponential` and `minimum` and of the enlarging step
of `conv2d_transpose` are misspelt (`cbert`, `exponentional`, `minmum`, `conv2d_transpose_intermediate`), the bounds of `clip`, the threshold of `equal` and the
smoothing factor of `cross_entropy_loss` are not written, the latter calls `CrossEntropyLoss`, which does not exist, and `sliding_2d` calls
`detailed_sliding_2d( x )`: none of these lines compiles. -/
theorem compile_made_violated (id : Nat) (x y : Ap) (t : String) :
    compile (Ap.un id (.direct .cbrt) x).made = none ∧
    compile (Ap.un id (.direct .exponential) x).made = none ∧
    compile (Ap.un id (.curried .clip t) x).made = none ∧
    compile (Ap.un id (.curried .conv2d_tranpose_intermediate t) x).made = none ∧
    compile (Ap.un id (.curried .detailed_sliding_2d t) x).made = none ∧
    compile (Ap.bin id (.direct .minimum) x y).made = none ∧
    compile (Ap.bin id (.equal t) x y).made = none ∧
    compile (Ap.bin id (.crossEntropy t) x y).made = none :=
  ⟨rfl, rfl, rfl, rfl, rfl, rfl, rfl, rfl⟩

/-- The shape hint of a place holder is not written: an expression differs from what its code makes as soon as it has one, whatever the rest of it is. -/
theorem hint_lost_violated (id : Nat) (ty : String) (hint : List Nat) (h : hint ≠ noHint) : compile (Ap.ph id ty hint).made ≠ some (Ap.ph id ty hint) := by
  intro e
  exact h ((compile_made_iff (Ap.ph id ty hint) trivial).1 e)

/-- Two clippings with different bounds have the same code. -/
theorem clip_code_same (id : Nat) (s t : String) (x : Ap) : serialize (Ap.un id (.curried .clip s) x).made = serialize (Ap.un id (.curried .clip t) x).made := rfl

/-- The other names of functions make the calls of the functions they stand for. -/
theorem other_names :
    (∀ n ∈ ["elementwise_multiply", "hadamard_product"], direct2 n = direct2 "elementwise_product") ∧ direct1 "fabs" = direct1 "abs" ∧
    direct1 "reduce_sum" = direct1 "sum_reduce" ∧ (∀ n ∈ ["reduce_mean", "mean"], direct1 n = direct1 "mean_reduce") ∧
    curried1 "dropout" = curried1 "drop_out" ∧ curried1 "upsampling_2d" = curried1 "up_sampling_2d" := by
  refine ⟨?_, rfl, rfl, ?_, rfl, rfl⟩ <;> intro n hn <;> simp only [List.mem_cons, List.not_mem_nil, or_false] at hn <;> rcases hn with rfl | rfl <;> rfl

/-! ## Composed models -/

/-- Partial (C126): an expression made by calls without arguments keeps its calls when its input is replaced by another expression. -/
theorem replace_made_partial (fresh : Nat → Nat) (new a : Ap) (hd : a.Direct) :
    replace fresh new.made a.made = (substitute fresh new a).made := by
  induction a with
  | ph id ty hint => rfl
  | val id ty d => rfl
  | con id tid ty => rfl
  | var id tid ty r => rfl
  | un id f x ih =>
    cases f with
    | direct f => simp only [Ap.made, replace, substitute, ih hd, Fn1.op]
    | _ => exact hd.elim
  | bin id f l r ihl ihr =>
    cases f with
    | direct f => simp only [Ap.made, replace, substitute, ihl hd.1, ihr hd.2, Fn2.op]
    | _ => exact hd.elim

/-- So the code of the composed model makes the calls of the composed model. -/
theorem replace_compile_partial (fresh : Nat → Nat) (new a : Ap) (hd : a.Direct) (ht : (substitute fresh new a).Texts) (hf : (substitute fresh new a).Fine) :
    compile (replace fresh new.made a.made) = some (substitute fresh new a) := by
  rw [replace_made_partial fresh new a hd]
  exact compile_made_partial _ ht hf

/-- With arguments the calls are lost: the code of a composed model calls the function without them.  It does not compile, except for the sum over an axis, whose
code becomes the sum over everything. -/
theorem replace_made_violated (fresh : Nat → Nat) (new x : Ap) (id : Nat) (f : C1) (args : String) :
    compile (replace fresh new.made (Ap.un id (.curried f args) x).made) =
      if f = .reduce_sum then (compile (replace fresh new.made x.made)).map (.un (fresh id) (.direct .sum_reduce)) else none := by
  have key : call1 f.op .plain = if f = .reduce_sum then some (.direct .sum_reduce) else none := by
    cases f <;> rfl
  show (call1 f.op .plain).bind _ = _
  rw [key]
  split
  · rfl
  · rfl

/-- Adding or multiplying by a number and concatenating are lost as well. -/
theorem replace_scalar_violated (fresh : Nat → Nat) (new x y : Ap) (id : Nat) (a : String) :
    compile (replace fresh new.made (Ap.un id (.plusScalar a) x).made) = none ∧
    compile (replace fresh new.made (Ap.un id (.timesScalar a) x).made) = none ∧
    compile (replace fresh new.made (Ap.bin id (.concatenate a) x y).made) = none := ⟨rfl, rfl, rfl⟩

/-! ## Examples -/

/-- `expand_dims( 1 )( relu( reshape( {2, 3}, true )( x ) + w ) )`. -/
def sample : Ap :=
  .un 9 (.curried .expand_dims "1") (.un 8 (.direct .relu) (.bin 7 (.direct .plus) (.un 6 (.curried .reshape "{2, 3}, true") (.ph 1 "float" noHint)) (.var 3 2 "float" "0")))

example : sample.Texts := by simp [sample, Ap.Texts]
example : sample.Fine := ⟨⟨by decide, by decide, by decide⟩, ⟨by decide, by decide⟩, (fun e => by cases e), ⟨⟨by decide, by decide, by decide⟩, rfl⟩, trivial⟩

example : Consistent sample.made := by
  intro a ha b hb h
  simp only [sample, Ap.made, Fn1.op, Fn2.op, C1.op, C1.fn, C1.fmt, D1.op, D1.fn, D2.op, D2.fn, subs, List.cons_append, List.nil_append, List.mem_cons, List.not_mem_nil, or_false] at ha hb
  rcases ha with rfl | rfl | rfl | rfl | rfl | rfl <;> rcases hb with rfl | rfl | rfl | rfl | rfl | rfl <;> first | rfl | (simp [SEx.id] at h)

example : compile sample.made = some sample :=
  compile_made_partial _ (by simp [sample, Ap.Texts]) ⟨⟨by decide, by decide, by decide⟩, ⟨by decide, by decide⟩, (fun e => by cases e), ⟨⟨by decide, by decide, by decide⟩, rfl⟩, trivial⟩

/-- The hint of `Input( {28, 28, 1} )` is not the default one. -/
example : ([1, 28, 28, 1] : List Nat) ≠ noHint := by decide

example : (Ap.un 5 (.direct .sigmoid) (.bin 4 (.direct .multiply) (.ph 1 "float" [1, 784]) (.var 3 2 "float" "0"))).Direct := ⟨trivial, trivial⟩

end Verif.Calls
