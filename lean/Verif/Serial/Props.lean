import Verif.Serial.Model
import Mathlib.Tactic.Common
import Mathlib.Data.List.Basic
import Mathlib.Data.List.Nodup

/-!
# What the serialised text says (C75, C94, C95)

The specification reads the lines without looking at the expression: which name a line declares, which names it uses, and (`readLine`, `exec`) a small reader that
executes the lines from top to bottom and rebuilds an expression from them.
-/
namespace Verif.Serial

/-! ## Specification -/

/-- The names in a line, in order. -/
def names : List Tok → List Nm
  | [] => []
  | .lit _ :: ts => names ts
  | .name n :: ts => n :: names ts

/-- The name a line declares: the first one, if the line begins with a type (`auto`, or one of `ceras::`). -/
def declares : List Tok → Option Nm
  | .lit s :: ts => if s.toList.take 5 = "auto ".toList ∨ s.toList.take 7 = "ceras::".toList then (names ts).head? else none
  | _ => none

/-- The names a line uses: all but the one it declares. -/
def uses (line : List Tok) : List Nm := if (declares line).isSome then (names line).tail else names line

/-- Each name that a line uses is declared by a line above it. -/
def DeclaredBefore (code : List (List Tok)) : Prop :=
  ∀ above line below, code = above ++ line :: below → ∀ n ∈ uses line, ∃ l ∈ above, declares l = some n

/-- The names declared by a program. -/
def declared (code : List (List Tok)) : List Nm := code.filterMap declares

/-- The occurrences of sub-expressions, operands first. -/
def subs : SEx → List SEx
  | .un id name fmt x => subs x ++ [.un id name fmt x]
  | .bin id name args l r => subs l ++ subs r ++ [.bin id name args l r]
  | e => [e]

/-- The operands of an expression. -/
def operands : SEx → List SEx
  | .un _ _ _ x => [x]
  | .bin _ _ _ l r => [l, r]
  | _ => []

/-- Two occurrences with one identity are the same expression (include/utils/id.hpp hands out each identity once). -/
def Consistent (e : SEx) : Prop := ∀ a ∈ subs e, ∀ b ∈ subs e, a.id = b.id → a = b

/-- The identities of all occurrences, with those of the tensors of constants and variables. -/
def allIds : SEx → List Nat
  | .ph id _ => [id]
  | .val id _ _ => [id]
  | .con id tid _ => [tid, id]
  | .var id tid _ _ => [tid, id]
  | .un id _ _ x => allIds x ++ [id]
  | .bin id _ _ l r => allIds l ++ allIds r ++ [id]

/-- What a name stands for while the lines are executed: an expression, or a tensor that is (not yet) loaded from its file. -/
inductive Val where
  | ex (e : SEx)
  | tsor (file : Option Nat) (ty : String)
deriving DecidableEq

/-- The expression a name stands for. -/
def exprOf (env : Nm → Option Val) (n : Nm) : Option SEx :=
  match env n with
  | some (.ex e) => some e
  | _ => none

/-- The tensor a name stands for, if it is loaded. -/
def tsorOf (env : Nm → Option Val) (n : Nm) : Option (Nat × String) :=
  match env n with
  | some (.tsor (some t) ty) => some (t, ty)
  | _ => none

/-- Reads a line: which name gets which value. -/
def readLine (env : Nm → Option Val) : List Tok → Option (Nm × Val)
  | [.lit "ceras::tensor<", .lit ty, .lit "> ", .name n, .lit ";"] => some (n, .tsor none ty)
  | [.name n, .lit ".load_tensor( \"", .name f, .lit ".txt\" );"] =>
    match env n with
    | some (.tsor _ ty) => some (n, .tsor (some f.id) ty)
    | _ => none
  | [.lit "ceras::place_holder<ceras::tensor<", .lit ty, .lit ">> ", .name n, .lit ";\n"] => some (n, .ex (.ph n.id ty))
  | [.lit "ceras::value<", .lit ty, .lit "> ", .name n, .lit "( ", .lit data, .lit " );"] => some (n, .ex (.val n.id ty data))
  | [.lit "ceras::constant<ceras::tensor<", .lit ty, .lit ">> ", .name n, .lit " ( ", .name t, .lit " );"] =>
    (tsorOf env t).bind fun p => if p.2 = ty then some (n, .ex (.con n.id p.1 ty)) else none
  | [.lit "ceras::variable<ceras::tensor<", .lit ty, .lit ">> ", .name n, .lit "( ", .name t, .lit "/*tensor*/, ", .lit regs, .lit " );"] =>
    (tsorOf env t).bind fun p => if p.2 = ty then some (n, .ex (.var n.id p.1 ty regs)) else none
  | [.lit "auto ", .name n, .lit " = ", .lit f, .lit "(", .name x, .lit ");"] =>
    (exprOf env x).map fun e => (n, .ex (.un n.id f .plain e))
  | [.lit "auto ", .name n, .lit " = ", .lit f, .lit "( ", .lit text, .lit " )( ", .name x, .lit " );"] =>
    (exprOf env x).map fun e => (n, .ex (.un n.id f (.args text) e))
  | [.lit "auto ", .name n, .lit " = ", .name x, .lit op, .lit arg, .lit ";"] =>
    match n.kind with
    | .unary f => (exprOf env x).map fun e => (n, .ex (.un n.id f (.infixed op arg) e))
    | _ => none
  | [.lit "auto ", .name n, .lit " = ", .lit f, .lit "( ", .name x, .lit ", ", .lit arg, .lit " );"] =>
    (exprOf env x).map fun e => (n, .ex (.un n.id f (.post arg) e))
  | [.lit "auto ", .name n, .lit " = ", .lit f, .lit "( ", .name x, .lit ", ", .name y, .lit " );"] =>
    (exprOf env x).bind fun l => (exprOf env y).map fun r => (n, .ex (.bin n.id f none l r))
  | [.lit "auto ", .name n, .lit " = ", .lit f, .lit "( ", .lit text, .lit " )( ", .name x, .lit ", ", .name y, .lit " );"] =>
    (exprOf env x).bind fun l => (exprOf env y).map fun r => (n, .ex (.bin n.id f (some text) l r))
  | _ => none

/-- Executes the lines from top to bottom. -/
def exec : List (List Tok) → (Nm → Option Val) → Option (Nm → Option Val)
  | [], env => some env
  | l :: ls, env => (readLine env l).bind fun p => exec ls (fun m => if m = p.1 then some p.2 else env m)
theorem text_underscore (k : Kind) : ∃ p, k.text = p ++ ['_'] := by
  cases k with
  | unary s => exact ⟨_, rfl⟩
  | binary s => exact ⟨_, rfl⟩
  | tensor => exact ⟨"tensor".toList, rfl⟩
  | placeHolder => exact ⟨"place_holder".toList, rfl⟩
  | value => exact ⟨"value".toList, rfl⟩
  | constant => exact ⟨"constant".toList, rfl⟩
  | var => exact ⟨"variable".toList, rfl⟩

theorem text_inj {k l : Kind} (h : k.text = l.text) : k = l := by
  have h2 := congrArg (fun t => t.take 3) h
  cases k <;> cases l <;> first
    | rfl
    | exact absurd h2 (by decide)
    | (rw [String.toList_inj.mp (List.append_cancel_left (List.append_cancel_right h))])
    | (exfalso; revert h2; unfold Kind.text; dsimp only; simp only [List.append_assoc]; rw [List.take_append_of_le_length (by decide)]; decide)
    | (exfalso; revert h2; unfold Kind.text; dsimp only; simp only [List.append_assoc]; rw [List.take_append_of_le_length (by decide), List.take_append_of_le_length (by decide)]; decide)

theorem split_underscore {p q d e : List Char} (hd : '_' ∉ d) (he : '_' ∉ e) (h : p ++ ['_'] ++ d = q ++ ['_'] ++ e) : p = q ∧ d = e := by
  have key : ∀ (p d : List Char), '_' ∉ d → (p ++ ['_'] ++ d).reverse.takeWhile (fun c => c ≠ '_') = d.reverse := by
    intro p d hd
    rw [List.reverse_append, List.takeWhile_append_of_pos]
    · simp
    · intro a ha
      have := List.mem_reverse.mp ha
      simp
      rintro rfl
      exact hd this
  have h1 := key p d hd
  rw [h, key q e he] at h1
  have h2 : d = e := (List.reverse_inj.mp h1).symm
  subst h2
  exact ⟨by simpa using h, rfl⟩

theorem render_inj {m n : Nm} (h : m.render = n.render) : m = n := by
  obtain ⟨p, hp⟩ := text_underscore m.kind
  obtain ⟨q, hq⟩ := text_underscore n.kind
  unfold Nm.render at h
  rw [hp, hq] at h
  obtain ⟨h1, h2⟩ := split_underscore Nat.underscore_not_in_toDigits Nat.underscore_not_in_toDigits h
  have h3 : m.kind = n.kind := text_inj (by rw [hp, hq, h1])
  have h4 : m.id = n.id := by
    have := congrArg (fun l => Nat.ofDigitChars 10 l 0) h2
    simpa [Nat.ofDigitChars_ten_toDigits] using this
  cases m; cases n; simp_all

/-! ## Declared before use -/

/-- `DeclaredBefore`, line by line. -/
def Ok (D : List Nm) : List (List Tok) → Prop
  | [] => True
  | l :: ls => (∀ n ∈ uses l, n ∈ D) ∧ Ok (D ++ (declares l).toList) ls

theorem Ok.mono {c : List (List Tok)} : ∀ {D E : List Nm}, (∀ n ∈ D, n ∈ E) → Ok D c → Ok E c := by
  induction c with
  | nil => intro _ _ _ _; trivial
  | cons l ls ih =>
    intro D E h ho
    refine ⟨fun n hn => h n (ho.1 n hn), ih (fun n hn => ?_) ho.2⟩
    rcases List.mem_append.mp hn with h1 | h1
    · exact List.mem_append.mpr (.inl (h n h1))
    · exact List.mem_append.mpr (.inr h1)

theorem Ok.append {c d : List (List Tok)} : ∀ {D : List Nm}, Ok D c → Ok (D ++ declared c) d → Ok D (c ++ d) := by
  induction c with
  | nil => intro D _ h; simpa [declared] using h
  | cons l ls ih =>
    intro D h1 h2
    refine ⟨h1.1, ih h1.2 (h2.mono fun n hn => ?_)⟩
    simp only [declared, List.filterMap_cons, List.mem_append] at hn ⊢
    cases hl : declares l with
    | none => rw [hl] at hn; simpa using hn
    | some m => rw [hl] at hn; simpa [or_assoc] using hn

theorem Ok.spec {c : List (List Tok)} : ∀ {D : List Nm}, Ok D c → ∀ above line below, c = above ++ line :: below →
    ∀ n ∈ uses line, n ∈ D ∨ ∃ l ∈ above, declares l = some n := by
  induction c with
  | nil => intro D _ above line below h; simp at h
  | cons l ls ih =>
    intro D h above line below he n hn
    cases above with
    | nil =>
      simp only [List.nil_append, List.cons.injEq] at he
      exact .inl (h.1 n (he.1 ▸ hn))
    | cons a as =>
      simp only [List.cons_append, List.cons.injEq] at he
      rcases ih h.2 as line below he.2 n hn with h1 | ⟨l', h1, h2⟩
      · rcases List.mem_append.mp h1 with h1 | h1
        · exact .inl h1
        · exact .inr ⟨a, by simp, by rw [← he.1]; simpa using h1⟩
      · exact .inr ⟨l', by simp [h1], h2⟩

theorem declared_append (c d : List (List Tok)) : declared (c ++ d) = declared c ++ declared d := List.filterMap_append

theorem declares_unary (n : Nm) (f : String) (x : Nm) (fmt : UFmt) : declares (unaryLine n f x fmt) = some n := by
  cases fmt <;> rfl

theorem uses_unary (n : Nm) (f : String) (x : Nm) (fmt : UFmt) : uses (unaryLine n f x fmt) = [x] := by
  cases fmt <;> rfl

theorem declared_serialize (e : SEx) : ((declared (serialize e).2).map Nm.id = allIds e) ∧ (declared (serialize e).2).getLast? = some (serialize e).1 := by
  induction e with
  | ph id ty => exact ⟨rfl, rfl⟩
  | val id ty d => exact ⟨rfl, rfl⟩
  | con id tid ty => exact ⟨rfl, rfl⟩
  | var id tid ty r => exact ⟨rfl, rfl⟩
  | un id name fmt x ih =>
    simp only [serialize, declared_append]
    have : declared [unaryLine ⟨.unary name, id⟩ name (serialize x).1 fmt] = [⟨.unary name, id⟩] := by
      simp [declared, declares_unary]
    rw [this]
    refine ⟨by simp [ih.1, allIds], by simp⟩
  | bin id name args l r ihl ihr =>
    cases args with
    | none =>
      simp only [serialize, declared_append]
      refine ⟨?_, ?_⟩
      · rw [List.map_append, List.map_append, ihl.1, ihr.1]; rfl
      · show (_ ++ [(⟨.binary name, id⟩ : Nm)]).getLast? = _; simp
    | some a =>
      simp only [serialize, declared_append]
      refine ⟨?_, ?_⟩
      · rw [List.map_append, List.map_append, ihl.1, ihr.1]; rfl
      · show (_ ++ [(⟨.unary name, id⟩ : Nm)]).getLast? = _; simp

theorem root_mem (e : SEx) : (serialize e).1 ∈ declared (serialize e).2 := List.mem_of_getLast? (declared_serialize e).2

theorem ok_serialize (e : SEx) (D : List Nm) : Ok D (serialize e).2 := by
  induction e generalizing D with
  | ph id ty => exact ⟨fun n (hn : n ∈ ([] : List Nm)) => (by cases hn), trivial⟩
  | val id ty d => exact ⟨fun n (hn : n ∈ ([] : List Nm)) => (by cases hn), trivial⟩
  | con id tid ty =>
    refine ⟨fun n (hn : n ∈ ([] : List Nm)) => (by cases hn), ?_, ?_, trivial⟩
    · intro n hn
      have h : n ∈ [(⟨.tensor, tid⟩ : Nm), ⟨.tensor, tid⟩] := hn
      show n ∈ D ++ [(⟨.tensor, tid⟩ : Nm)]
      simp_all
    · intro n hn
      have h : n ∈ [(⟨.tensor, tid⟩ : Nm)] := hn
      show n ∈ D ++ [(⟨.tensor, tid⟩ : Nm)] ++ []
      simp_all
  | var id tid ty r =>
    refine ⟨fun n (hn : n ∈ ([] : List Nm)) => (by cases hn), ?_, ?_, trivial⟩
    · intro n hn
      have h : n ∈ [(⟨.tensor, tid⟩ : Nm), ⟨.tensor, tid⟩] := hn
      show n ∈ D ++ [(⟨.tensor, tid⟩ : Nm)]
      simp_all
    · intro n hn
      have h : n ∈ [(⟨.tensor, tid⟩ : Nm)] := hn
      show n ∈ D ++ [(⟨.tensor, tid⟩ : Nm)] ++ []
      simp_all
  | un id name fmt x ih =>
    simp only [serialize]
    refine (ih D).append ⟨fun n hn => ?_, trivial⟩
    rw [uses_unary, List.mem_singleton] at hn
    rw [hn]
    exact List.mem_append.mpr (.inr (root_mem x))
  | bin id name args l r ihl ihr =>
    have key : ∀ line : List Tok, uses line = [(serialize l).1, (serialize r).1] → Ok D ((serialize l).2 ++ (serialize r).2 ++ [line]) := by
      intro line hu
      refine ((ihl D).append (ihr _)).append ⟨fun n hn => ?_, trivial⟩
      rw [hu] at hn
      rw [declared_append]
      simp only [List.mem_cons, List.not_mem_nil, or_false] at hn
      rcases hn with rfl | rfl
      · simp [root_mem l]
      · simp [root_mem r]
    cases args with
    | none => exact key _ rfl
    | some a => exact key _ rfl

/-! ## C75 -/

/-- C75: every name used by a line of the generated code is declared by a line above it, for any expression. -/
theorem serialize_declared_before (e : SEx) : DeclaredBefore (serialize e).2 := by
  intro above line below h n hn
  rcases (ok_serialize e []).spec above line below h n hn with h1 | h1
  · cases h1
  · exact h1

/-- C75: the last line declares the name that is returned. -/
theorem serialize_root_last (e : SEx) : ∃ above line, (serialize e).2 = above ++ [line] ∧ declares line = some (serialize e).1 := by
  cases e with
  | ph id ty => exact ⟨[], _, rfl, rfl⟩
  | val id ty d => exact ⟨[], _, rfl, rfl⟩
  | con id tid ty => exact ⟨_, _, rfl, rfl⟩
  | var id tid ty r => exact ⟨_, _, rfl, rfl⟩
  | un id name fmt x => exact ⟨_, _, rfl, declares_unary _ _ _ _⟩
  | bin id name args l r =>
    cases args with
    | none => exact ⟨_, _, rfl, rfl⟩
    | some a => exact ⟨_, _, rfl, rfl⟩

/-- Different names have different texts. -/
example : (⟨.unary "relu", 12⟩ : Nm).render ≠ (⟨.unary "relu", 1⟩ : Nm).render := fun h => by have := render_inj h; simp at this

/-- The code of `relu( x ) + w`, and the name it returns. -/
example : (serialize (.bin 5 "plus" none (.un 4 "relu" .plain (.ph 1 "float")) (.var 3 2 "float" "0/*l1 regularizer*/, 0/*l2 regularizer*/, true/*trainable*/"))).1 =
    ⟨.binary "plus", 5⟩ := rfl

/-! ## Reading the text back -/

theorem subs_self (e : SEx) : e ∈ subs e := by cases e <;> simp [subs]

/-- The name of an expression carries its identity, and is no name of a tensor. -/
theorem root_name (e : SEx) : (serialize e).1.id = e.id ∧ (serialize e).1.kind ≠ .tensor := by
  cases e with
  | bin id name args l r => cases args <;> exact ⟨rfl, by intro h; cases h⟩
  | _ => exact ⟨rfl, by intro h; cases h⟩

/-- An environment in which the names of the sub-expressions of `e₀` mean nothing else. -/
def Good (e₀ : SEx) (env : Nm → Option Val) : Prop := ∀ s ∈ subs e₀, ∀ v, env (serialize s).1 = some v → v = .ex s

theorem exec_append (c d : List (List Tok)) (env : Nm → Option Val) : exec (c ++ d) env = (exec c env).bind (exec d) := by
  induction c generalizing env with
  | nil => rfl
  | cons l ls ih =>
    simp only [List.cons_append, exec]
    cases readLine env l with
    | none => rfl
    | some p => exact ih _

/-- What executing the code of `s` does, for `s` inside `e₀`. -/
def Rebuilds (e₀ s : SEx) : Prop := ∀ env, Good e₀ env → ∃ env', exec (serialize s).2 env = some env' ∧ Good e₀ env' ∧
  env' (serialize s).1 = some (.ex s) ∧ ∀ t ∈ subs e₀, env (serialize t).1 = some (.ex t) → env' (serialize t).1 = some (.ex t)

theorem Good.set {e₀ s : SEx} (hc : Consistent e₀) (hs : s ∈ subs e₀) {env : Nm → Option Val} (h : Good e₀ env) :
    Good e₀ (fun m => if m = (serialize s).1 then some (.ex s) else env m) ∧
    ∀ t ∈ subs e₀, env (serialize t).1 = some (.ex t) → (if (serialize t).1 = (serialize s).1 then some (.ex s) else env (serialize t).1) = some (.ex t) := by
  have same : ∀ t ∈ subs e₀, (serialize t).1 = (serialize s).1 → t = s := by
    intro t ht h
    refine hc t ht s hs ?_
    rw [← (root_name t).1, ← (root_name s).1, h]
  constructor
  · intro t ht v hv
    dsimp only at hv
    split at hv
    · next h1 => rw [same t ht h1, ← Option.some.inj hv]
    · exact h t ht v hv
  · intro t ht hv
    split
    · next h1 => rw [same t ht h1]
    · exact hv

theorem exprOf_some {env : Nm → Option Val} {n : Nm} {e : SEx} (h : env n = some (.ex e)) : exprOf env n = some e := by
  unfold exprOf
  rw [h]

theorem read_unary {env : Nm → Option Val} {id : Nat} {name : String} {x : Nm} {e : SEx} (fmt : UFmt) (h : env x = some (.ex e)) :
    readLine env (unaryLine ⟨.unary name, id⟩ name x fmt) = some (⟨.unary name, id⟩, .ex (.un id name fmt e)) := by
  have h := exprOf_some h
  cases fmt with
  | plain => simp [unaryLine, readLine, h]
  | args t => simp [unaryLine, readLine, h]
  | infixed o a => simp [unaryLine, readLine, h]
  | post a => simp [unaryLine, readLine, h]

theorem rebuilds_tensor {e₀ : SEx} (tid : Nat) (ty : String) (env : Nm → Option Val) (h : Good e₀ env) :
    ∃ env', exec (serializeT tid ty).2 env = some env' ∧ Good e₀ env' ∧ tsorOf env' ⟨.tensor, tid⟩ = some (tid, ty) ∧
      ∀ t : SEx, env' (serialize t).1 = env (serialize t).1 := by
  have keep : ∀ t : SEx, (serialize t).1 ≠ ⟨.tensor, tid⟩ := by
    intro t ht
    exact (root_name t).2 (by rw [ht])
  refine ⟨fun m => if m = ⟨.tensor, tid⟩ then some (.tsor (some tid) ty) else env m, ?_, ?_, ?_, ?_⟩
  · simp only [serializeT, exec, readLine, Option.bind_some, if_true]
    congr 1
    funext m
    split <;> rfl
  · intro t ht v hv
    dsimp only at hv
    rw [if_neg (keep t)] at hv
    exact h t ht v hv
  · simp [tsorOf]
  · intro t
    exact if_neg (keep t)

theorem rebuilds {e₀ : SEx} (hc : Consistent e₀) (s : SEx) (hs : ∀ t ∈ subs s, t ∈ subs e₀) : Rebuilds e₀ s := by
  -- the last line
  have last : ∀ (s : SEx), s ∈ subs e₀ → ∀ (pre : List (List Tok)) (line : List Tok) (env env₁ : Nm → Option Val), (serialize s).2 = pre ++ [line] →
      exec pre env = some env₁ → Good e₀ env₁ → (∀ t ∈ subs e₀, env (serialize t).1 = some (.ex t) → env₁ (serialize t).1 = some (.ex t)) →
      readLine env₁ line = some ((serialize s).1, .ex s) →
      ∃ env', exec (serialize s).2 env = some env' ∧ Good e₀ env' ∧
        env' (serialize s).1 = some (.ex s) ∧ ∀ t ∈ subs e₀, env (serialize t).1 = some (.ex t) → env' (serialize t).1 = some (.ex t) := by
    intro s hs pre line env env₁ h1 h2 h3 h4 h5
    refine ⟨fun m => if m = (serialize s).1 then some (.ex s) else env₁ m, ?_, (h3.set hc hs).1, by simp, fun t ht h => (h3.set hc hs).2 t ht (h4 t ht h)⟩
    rw [h1, exec_append, h2]
    simp [exec, h5]
  induction s with
  | ph id ty =>
    intro env hg
    exact last _ (hs _ (subs_self _)) [] _ env env rfl rfl hg (fun _ _ h => h) (by simp [readLine, serialize])
  | val id ty d =>
    intro env hg
    exact last _ (hs _ (subs_self _)) [] _ env env rfl rfl hg (fun _ _ h => h) (by simp [readLine, serialize])
  | con id tid ty =>
    intro env hg
    obtain ⟨env₁, h1, h2, h3, h4⟩ := rebuilds_tensor (e₀ := e₀) tid ty env hg
    exact last _ (hs _ (subs_self _)) _ _ env env₁ rfl h1 h2 (fun t _ h => by rw [h4]; exact h) (by simp [readLine, serialize, h3])
  | var id tid ty r =>
    intro env hg
    obtain ⟨env₁, h1, h2, h3, h4⟩ := rebuilds_tensor (e₀ := e₀) tid ty env hg
    exact last _ (hs _ (subs_self _)) _ _ env env₁ rfl h1 h2 (fun t _ h => by rw [h4]; exact h) (by simp [readLine, serialize, h3])
  | un id name fmt x ih =>
    intro env hg
    obtain ⟨env₁, h1, h2, h3, h4⟩ := ih (fun t ht => hs t (by simp [subs, ht])) env hg
    exact last _ (hs _ (subs_self _)) _ _ env env₁ rfl h1 h2 h4 (read_unary fmt h3)
  | bin id name args l r ihl ihr =>
    intro env hg
    have hsl : ∀ t ∈ subs l, t ∈ subs e₀ := fun t ht => hs t (by simp [subs, ht])
    have hsr : ∀ t ∈ subs r, t ∈ subs e₀ := fun t ht => hs t (by simp [subs, ht])
    obtain ⟨env₁, h1, h2, h3, h4⟩ := ihl hsl env hg
    obtain ⟨env₂, k1, k2, k3, k4⟩ := ihr hsr env₁ h2
    have k0 : exec ((serialize l).2 ++ (serialize r).2) env = some env₂ := by rw [exec_append, h1]; exact k1
    have k5 := exprOf_some (k4 l (hsl l (subs_self l)) h3)
    have k6 := exprOf_some k3
    cases args with
    | none => exact last _ (hs _ (subs_self _)) _ _ env env₂ rfl k0 k2 (fun t ht h => k4 t ht (h4 t ht h)) (by simp [readLine, k5, k6]; rfl)
    | some a => exact last _ (hs _ (subs_self _)) _ _ env env₂ rfl k0 k2 (fun t ht h => k4 t ht (h4 t ht h)) (by simp [readLine, k5, k6]; rfl)

/-- C75: executing the generated lines from top to bottom, each from the values of the names above it, rebuilds the serialised expression under the returned name:
the same operators with the same texts of arguments, the same operands in the same order, the same leaves and tensor files. -/
theorem serialize_rebuilds (e : SEx) (hc : Consistent e) : ∃ env, exec (serialize e).2 (fun _ => none) = some env ∧ env (serialize e).1 = some (.ex e) := by
  obtain ⟨env, h1, _, h3, _⟩ := rebuilds hc e (fun _ h => h) (fun _ => none) (fun s _ v h => by cases h)
  exact ⟨env, h1, h3⟩

/-- The expression `relu( x ) + relu( x )`, whose operand is shared, meets the hypothesis. -/
example : Consistent (.bin 5 "plus" none (.un 4 "relu" .plain (.ph 1 "float")) (.un 4 "relu" .plain (.ph 1 "float"))) := by
  intro a ha b hb h
  simp only [subs, List.cons_append, List.nil_append, List.mem_cons, List.not_mem_nil, or_false] at ha hb
  rcases ha with rfl | rfl | rfl | rfl | rfl <;> rcases hb with rfl | rfl | rfl | rfl | rfl <;> first | rfl | (simp [SEx.id] at h)

/-- Two expressions with the same code are the same expression. -/
theorem serialize_injective (a b : SEx) (ha : Consistent a) (hb : Consistent b) (h : serialize a = serialize b) : a = b := by
  obtain ⟨env, h1, h2⟩ := serialize_rebuilds a ha
  obtain ⟨env', k1, k2⟩ := serialize_rebuilds b hb
  rw [h, k1] at h1
  rw [h, ← Option.some.inj h1, k2] at h2
  exact (Val.ex.inj (Option.some.inj h2)).symm

/-! ## C94: a name declared once -/

/-- The full statement, `(declared (serialize e).2).Nodup` for every `e`, fails as soon as an expression has an operand twice: all lines of the operand are there
twice, and a C++ compiler rejects the second declaration. -/
theorem serialize_declared_once_violated (id : Nat) (name : String) (args : Option String) (x : SEx) :
    ¬ (declared (serialize (.bin id name args x x)).2).Nodup := by
  have h : ∃ t, declared (serialize (.bin id name args x x)).2 = declared (serialize x).2 ++ declared (serialize x).2 ++ t := by
    cases args <;> exact ⟨_, by simp only [serialize, declared_append]; rfl⟩
  obtain ⟨t, h⟩ := h
  rw [h, List.nodup_append, List.nodup_append]
  rintro ⟨⟨_, _, h1⟩, _⟩
  exact h1 _ (root_mem x) _ (root_mem x) rfl

/-- Partial (C94): with no identity twice (no expression and no tensor shared), every name is declared once. -/
theorem serialize_declared_once_partial (e : SEx) (h : (allIds e).Nodup) : (declared (serialize e).2).Nodup := by
  rw [← (declared_serialize e).1] at h
  exact h.of_map _

/-- The texts of the declared names are then different too. -/
theorem serialize_texts_once_partial (e : SEx) (h : (allIds e).Nodup) : ((declared (serialize e).2).map Nm.render).Nodup :=
  (serialize_declared_once_partial e h).map fun _ _ h => render_inj h

example : (allIds (.bin 5 "plus" none (.un 4 "relu" .plain (.ph 1 "float")) (.var 3 2 "float" "0"))).Nodup := by decide

/-! ## C95: the description of the graph -/

/-- C95: the nodes of the graph are the identities of the occurrences. -/
theorem dot_nodes (e : SEx) (i : Nat) : Dot.node i ∈ dot e ↔ ∃ s ∈ subs e, s.id = i := by
  induction e with
  | un id name fmt x ih =>
    simp only [dot, subs, List.mem_append, List.mem_cons, List.not_mem_nil, or_false, Dot.node.injEq, reduceCtorEq, or_false, ih]
    constructor
    · rintro (rfl | ⟨s, h1, h2⟩)
      · exact ⟨_, .inr rfl, rfl⟩
      · exact ⟨s, .inl h1, h2⟩
    · rintro ⟨s, h1 | rfl, h2⟩
      · exact .inr ⟨s, h1, h2⟩
      · exact .inl h2.symm
  | bin id name args l r ihl ihr =>
    simp only [dot, subs, List.mem_append, List.mem_cons, List.not_mem_nil, or_false, Dot.node.injEq, reduceCtorEq, or_false, ihl, ihr]
    constructor
    · rintro ((rfl | ⟨s, h1, h2⟩) | ⟨s, h1, h2⟩)
      · exact ⟨_, .inr rfl, rfl⟩
      · exact ⟨s, .inl (.inl h1), h2⟩
      · exact ⟨s, .inl (.inr h1), h2⟩
    · rintro ⟨s, (h1 | h1) | rfl, h2⟩
      · exact .inl (.inr ⟨s, h1, h2⟩)
      · exact .inr ⟨s, h1, h2⟩
      · exact .inl (.inl h2.symm)
  | _ => simp [dot, subs, SEx.id, eq_comm]

/-- C95: there is an arrow from `a` to `b` exactly if an occurrence with identity `b` has an operand with identity `a`. -/
theorem dot_arrows (e : SEx) (a b : Nat) : Dot.arrow a b ∈ dot e ↔ ∃ s ∈ subs e, s.id = b ∧ ∃ o ∈ operands s, o.id = a := by
  induction e with
  | un id name fmt x ih =>
    simp only [dot, subs, List.mem_append, List.mem_cons, List.not_mem_nil, or_false, Dot.arrow.injEq, reduceCtorEq, false_or, ih]
    constructor
    · rintro (⟨rfl, rfl⟩ | ⟨s, h1, h2⟩)
      · exact ⟨_, .inr rfl, rfl, x, by simp [operands], rfl⟩
      · exact ⟨s, .inl h1, h2⟩
    · rintro ⟨s, h1 | rfl, h2⟩
      · exact .inr ⟨s, h1, h2⟩
      · obtain ⟨h2, o, ho, h3⟩ := h2
        simp only [operands, List.mem_singleton] at ho
        subst ho
        exact .inl ⟨h3.symm, h2.symm⟩
  | bin id name args l r ihl ihr =>
    simp only [dot, subs, List.mem_append, List.mem_cons, List.not_mem_nil, or_false, Dot.arrow.injEq, reduceCtorEq, false_or, ihl, ihr]
    constructor
    · rintro (((⟨rfl, rfl⟩ | ⟨rfl, rfl⟩) | ⟨s, h1, h2⟩) | ⟨s, h1, h2⟩)
      · exact ⟨_, .inr rfl, rfl, l, by simp [operands], rfl⟩
      · exact ⟨_, .inr rfl, rfl, r, by simp [operands], rfl⟩
      · exact ⟨s, .inl (.inl h1), h2⟩
      · exact ⟨s, .inl (.inr h1), h2⟩
    · rintro ⟨s, (h1 | h1) | rfl, h2⟩
      · exact .inl (.inr ⟨s, h1, h2⟩)
      · exact .inr ⟨s, h1, h2⟩
      · obtain ⟨h2, o, ho, h3⟩ := h2
        simp only [operands, List.mem_cons, List.not_mem_nil, or_false] at ho
        rcases ho with rfl | rfl
        · exact .inl (.inl (.inl ⟨h3.symm, h2.symm⟩))
        · exact .inl (.inl (.inr ⟨h3.symm, h2.symm⟩))
  | _ => simp [dot, subs, operands]

/-- Each occurrence gives one node line, so that a shared expression is described several times. -/
theorem dot_node_count (e : SEx) (i : Nat) : (dot e).count (.node i) = ((subs e).map SEx.id).count i := by
  induction e with
  | un id name fmt x ih => simp [dot, subs, ih, List.count_cons, SEx.id]
  | bin id name args l r ihl ihr => simp [dot, subs, ihl, ihr, List.count_cons, SEx.id]; omega
  | _ => simp [dot, subs, SEx.id, List.count_cons]

end Verif.Serial
