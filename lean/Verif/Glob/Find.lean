import Verif.Glob.Dir
import Mathlib.Data.List.Forall2
/-!
# Which files are found
-/
namespace Verif.Glob
open Verif Res

/-! ## Documentation -/

/-- A part of a pathname between slashes: a name, or one with wildcards. -/
inductive Comp where
  | name (s : Str)
  | wild (l : List Item)

def Comp.text : Comp → Str
  | .name s => s
  | .wild l => pattern l

/-- A name without wildcards. -/
def PlainName (s : Str) : Prop := s ≠ [] ∧ ∀ c ∈ s, c ≠ '*' ∧ c ≠ '?' ∧ c ≠ '['

/-- Some item is not a literal. -/
def HasWild (l : List Item) : Prop := ∃ i ∈ l, ∀ c, i ≠ .lit c

def Comp.Ok : Comp → Prop
  | .name s => PlainName s
  | .wild l => (∀ i ∈ l, i.Ok) ∧ HasWild l

theorem PlainName.magic {s : Str} (h : PlainName s) : hasMagic s = false := by
  unfold hasMagic
  rw [List.any_eq_false]
  intro c hc
  have := h.2 c hc
  simp [this]

theorem HasWild.magic {l : List Item} (h : HasWild l) : hasMagic (pattern l) = true := by
  obtain ⟨i, hi, hn⟩ := h
  unfold hasMagic
  rw [List.any_eq_true]
  have key : ∃ c ∈ i.text, (decide (c = '*') || decide (c = '?') || decide (c = '[')) = true := by
    cases i with
    | any => exact ⟨'*', by simp [Item.text], rfl⟩
    | one => exact ⟨'?', by simp [Item.text], rfl⟩
    | lit c => exact absurd rfl (hn c)
    | set neg m => exact ⟨'[', by simp [Item.text], rfl⟩
  obtain ⟨c, hc, h⟩ := key
  exact ⟨c, List.mem_flatMap.mpr ⟨i, hi, hc⟩, h⟩

/-- A name stands for itself, wildcards for the names they match (`.` and `..` are not among them). -/
def Comp.Fits : Comp → Str → Prop
  | .name s, x => x = s
  | .wild l, x => Says l x ∧ x ≠ [] ∧ x ≠ dot ∧ x ≠ dotdot

/-- A file system: the names in a directory differ, are on one line and none is empty, `.` or `..`; the current directory is one of its directories. -/
structure Fs.Wf (fs : Fs) : Prop where
  names : ∀ pos es, nodeAt fs.root pos = some (.dir es) → (es.map (·.1)).Nodup ∧ ∀ n ∈ es.map (·.1), OneLine n ∧ n ≠ [] ∧ n ≠ dot ∧ n ≠ dotdot
  cwd : resolve fs ⟨true, fs.cwd⟩ = some fs.cwd ∧ ∃ es, nodeAt fs.root fs.cwd = some (.dir es)

/-- Seen from the current directory, the path does not begin with a dot. -/
def Shown (fs : Fs) (abs : Bool) (xs : List Str) : Prop := abs = true ∨ ∀ pos, resolve fs ⟨abs, xs⟩ = some pos → isHidden (relative fs pos) = false

/-- `xs` is a path of the file system that fits the pathname part by part, and the paths up to each wildcard are shown. -/
structure Found (fs : Fs) (abs : Bool) (cs : List Comp) (xs : List Str) : Prop where
  fits : List.Forall₂ Comp.Fits cs xs
  there : (resolve fs ⟨abs, xs⟩).isSome
  shown : ∀ i l, cs[i]? = some (.wild l) → Shown fs abs (xs.take (i + 1))

/-! ## Places -/

theorem resolve_snoc (fs : Fs) (abs : Bool) (xs : List Str) (x : Str) : resolve fs ⟨abs, xs ++ [x]⟩ = (resolve fs ⟨abs, xs⟩).bind (fun pos => go fs pos x) := by
  simp only [resolve, List.foldlM_append]
  cases h : List.foldlM (go fs) (if abs = true then [] else fs.cwd) xs with
  | none => rfl
  | some pos =>
    simp

theorem nodeAt_snoc (x : Str) : ∀ (p : List Str) (t : Node), nodeAt t (p ++ [x]) = match nodeAt t p with
    | some (.dir es) => entry es x
    | _ => none
  | [], .file => rfl
  | [], .dir es => by
    show (match entry es x with | some t => nodeAt t [] | none => none) = entry es x
    cases entry es x <;> rfl
  | n :: p, .file => rfl
  | n :: p, .dir es => by
    show (match entry es n with | some t => nodeAt t (p ++ [x]) | none => none) = match (match entry es n with | some t => nodeAt t p | none => none) with
      | some (.dir es) => entry es x
      | _ => none
    cases entry es n with
    | none => rfl
    | some t => exact nodeAt_snoc x p t

theorem entry_some {es : List (Str × Node)} {n : Str} {t : Node} (hn : (es.map (·.1)).Nodup) : entry es n = some t ↔ (n, t) ∈ es := by
  induction es with
  | nil => simp [entry]
  | cons e es ih =>
    rw [List.map_cons, List.nodup_cons] at hn
    have ih := ih hn.2
    obtain ⟨m, u⟩ := e
    by_cases hm : m = n
    · subst hm
      simp only [entry, List.find?_cons, decide_true, Option.map_some, Option.some.injEq, List.mem_cons, Prod.mk.injEq, true_and]
      constructor
      · rintro rfl; exact Or.inl rfl
      · rintro (h | h)
        · exact h.symm
        · exact absurd (List.mem_map.mpr ⟨_, h, rfl⟩) hn.1
    · simp only [entry, List.find?_cons, decide_false, hm] at ih ⊢
      rw [ih]
      simp [Ne.symm hm]

theorem entry_isSome {es : List (Str × Node)} {n : Str} : (entry es n).isSome ↔ n ∈ es.map (·.1) := by
  simp only [entry, Option.isSome_map, List.find?_isSome, List.mem_map, decide_eq_true_eq]

/-- A step to a name that is none of the special ones. -/
theorem go_plain {fs : Fs} {pos : List Str} {es : List (Str × Node)} (he : nodeAt fs.root pos = some (.dir es)) {y : Str} (h1 : y ≠ []) (h2 : y ≠ dot) (h3 : y ≠ dotdot) :
    go fs pos y = if (entry es y).isSome then some (pos ++ [y]) else none := by
  simp [go, he, h1, h2, h3]

theorem go_dir {fs : Fs} {pos : List Str} {y : Str} (h : (go fs pos y).isSome) : ∃ es, nodeAt fs.root pos = some (.dir es) := by
  unfold go at h
  split at h
  · exact ⟨_, by assumption⟩
  · cases h

/-! ## Hidden names -/

theorem relTo_last (y : Str) : ∀ (p b : List Str), relTo (p ++ [y]) b = [] ∨ (relTo (p ++ [y]) b).head? = some dotdot ∨ (relTo (p ++ [y]) b).getLast? = some y
  | p, [] => by
    right; right
    have : relTo (p ++ [y]) [] = p ++ [y] := by cases p <;> rfl
    rw [this, List.getLast?_append]
    rfl
  | [], z :: b => by
    show (if y = z then relTo [] b else _) = [] ∨ (if y = z then relTo [] b else _ : List Str).head? = _ ∨ _
    by_cases h : y = z
    · rw [if_pos h]
      cases b with
      | nil => left; rfl
      | cons w b => right; left; rfl
    · rw [if_neg h]; right; left; rfl
  | x :: p, z :: b => by
    have e : relTo ((x :: p) ++ [y]) (z :: b) = if x = z then relTo (p ++ [y]) b else (z :: b).map (fun _ => dotdot) ++ (x :: (p ++ [y])) := rfl
    rw [e]
    by_cases h : x = z
    · rw [if_pos h]; exact relTo_last y p b
    · rw [if_neg h]; right; left; rfl

/-- The last name of a path that is shown is that of the entry. -/
theorem filename_relative {fs : Fs} {pos : List Str} {y : Str} (h : isHidden (relative fs (pos ++ [y])) = false) : filename (relative fs (pos ++ [y])) = y := by
  rcases relTo_last y pos fs.cwd with e | e | e
  · simp [isHidden, relative, e, dot] at h
  · have hne : relTo (pos ++ [y]) fs.cwd ≠ [] := by intro hh; rw [hh] at e; cases e
    obtain ⟨z, t, hz⟩ := List.exists_cons_of_ne_nil hne
    rw [hz] at e
    simp at e
    subst e
    simp [isHidden, relative, hz, dotdot] at h
  · have hne : relTo (pos ++ [y]) fs.cwd ≠ [] := by intro hh; rw [hh] at e; cases e
    simp [filename, relative, hne, List.getLastD_eq_getLast?, e]

/-! ## One directory -/

theorem filter_ok (l : List Item) (hl : ∀ i ∈ l, i.Ok) : ∀ (names acc : List Str), (∀ n ∈ names, OneLine n) →
    ∃ L, names.foldlM (fun acc n => do
      let b ← fnmatch n (pattern l)
      pure (if b then acc ++ [n] else acc)) acc = ok L ∧ ∀ y, y ∈ L ↔ y ∈ acc ∨ (y ∈ names ∧ Says l y)
  | [], acc, _ => ⟨acc, rfl, by simp⟩
  | n :: names, acc, h => by
    obtain ⟨b, e, hb⟩ := fnmatch_partial l hl n (h n (by simp))
    obtain ⟨L, e2, h2⟩ := filter_ok l hl names (if b then acc ++ [n] else acc) (fun m hm => h m (by simp [hm]))
    refine ⟨L, ?_, fun y => ?_⟩
    · rw [List.foldlM_cons, e]
      exact e2
    · rw [h2]
      cases b with
      | false =>
        have : ¬ Says l n := fun hh => absurd (hb.mpr hh) (by simp)
        simp only [Bool.false_eq_true, if_false, List.mem_cons]
        constructor
        · rintro (h | h)
          · exact Or.inl h
          · exact Or.inr ⟨Or.inr h.1, h.2⟩
        · rintro (h | ⟨rfl | h, hs⟩)
          · exact Or.inl h
          · exact absurd hs this
          · exact Or.inr ⟨h, hs⟩
      | true =>
        have : Says l n := hb.mp rfl
        simp only [if_true, List.mem_append, List.mem_cons, List.not_mem_nil, or_false]
        constructor
        · rintro ((h | rfl) | h)
          · exact Or.inl h
          · exact Or.inr ⟨Or.inl rfl, this⟩
          · exact Or.inr ⟨Or.inr h.1, h.2⟩
        · rintro (h | ⟨rfl | h, hs⟩)
          · exact Or.inl (Or.inl h)
          · exact Or.inl (Or.inr rfl)
          · exact Or.inr ⟨h, hs⟩

/-- The entries of a directory that are shown. -/
theorem iter_names {fs : Fs} (hw : fs.Wf) (d : Path) (dironly : Bool) (y : Str) :
    y ∈ ((iterDirectory fs d dironly).filter (fun n => !isHidden n)).map filename ↔
      (y ≠ [] ∧ y ≠ dot ∧ y ≠ dotdot) ∧ (resolve fs ⟨d.abs, d.names ++ [y]⟩).isSome ∧ Shown fs d.abs (d.names ++ [y]) ∧ (dironly = true → isDir fs ⟨d.abs, d.names ++ [y]⟩ = true) := by
  have hres : resolve fs (if d.abs = false ∧ d.names = [] then ⟨true, fs.cwd⟩ else d) = resolve fs ⟨d.abs, d.names⟩ := by
    split
    · rename_i h
      rw [hw.cwd.1, h.1, h.2]
      rfl
    · rfl
  rw [resolve_snoc]
  unfold iterDirectory Shown isDir
  simp only [hres, resolve_snoc]
  cases hp : resolve fs ⟨d.abs, d.names⟩ with
  | none => simp
  | some pos =>
    simp only [Option.bind_some]
    by_cases hd : ∃ es, nodeAt fs.root pos = some (.dir es)
    · obtain ⟨es, he⟩ := hd
      obtain ⟨hnd, hnm⟩ := hw.names pos es he
      simp only [he]
      constructor
      · intro h
        obtain ⟨q, hq, rfl⟩ := List.mem_map.mp h
        obtain ⟨hq1, hq2⟩ := List.mem_filter.mp hq
        obtain ⟨⟨n, t⟩, hn, rfl⟩ := List.mem_map.mp hq1
        obtain ⟨hn1, hn2⟩ := List.mem_filter.mp hn
        have hmem : n ∈ es.map (·.1) := List.mem_map.mpr ⟨_, hn1, rfl⟩
        obtain ⟨o1, o2, o3, o4⟩ := hnm n hmem
        have hgo : go fs pos n = some (pos ++ [n]) := by rw [go_plain he o2 o3 o4, if_pos (entry_isSome.mpr hmem)]
        have hnode : nodeAt fs.root (pos ++ [n]) = some t := by rw [nodeAt_snoc, he]; exact (entry_some hnd).mpr hn1
        have hfn : filename (if d.abs = true then ⟨true, (if d.abs = false ∧ d.names = [] then ⟨true, fs.cwd⟩ else d : Path).names ++ [n]⟩ else relative fs (pos ++ [n])) = n := by
          split
          · simp [filename, List.getLastD_eq_getLast?]
          · rename_i hab
            simp only [hab] at hq2
            exact filename_relative (by simpa using hq2)
        rw [hfn, hgo]
        refine ⟨⟨o2, o3, o4⟩, rfl, ?_, ?_⟩
        · by_cases hab : d.abs = true
          · exact Or.inl hab
          · refine Or.inr (fun p hp => ?_)
            cases hp
            simp only [hab] at hq2
            simpa using hq2
        · intro hdo
          simp only [hnode]
          rw [hdo] at hn2
          cases t with
          | file => simp [Node.isDir] at hn2
          | dir _ => rfl
      · rintro ⟨⟨o2, o3, o4⟩, hs, hsh, hdo⟩
        rw [go_plain he o2 o3 o4] at hs hsh hdo
        have hmem : (entry es y).isSome := by
          by_contra hh
          rw [if_neg hh] at hs
          cases hs
        simp only [hmem, if_true] at hsh hdo
        obtain ⟨t, ht⟩ := Option.isSome_iff_exists.mp hmem
        have hin := (entry_some hnd).mp ht
        have hnode : nodeAt fs.root (pos ++ [y]) = some t := by rw [nodeAt_snoc, he]; exact ht
        refine List.mem_map.mpr ⟨if d.abs = true then ⟨true, (if d.abs = false ∧ d.names = [] then ⟨true, fs.cwd⟩ else d : Path).names ++ [y]⟩ else relative fs (pos ++ [y]), List.mem_filter.mpr ⟨List.mem_map.mpr ⟨(y, t), List.mem_filter.mpr ⟨hin, ?_⟩, rfl⟩, ?_⟩, ?_⟩
        · cases hdv : dironly with
          | false => rfl
          | true =>
            have := hdo hdv
            simp only [hnode] at this
            cases t with
            | file => simp at this
            | dir _ => rfl
        · split
          · rfl
          · rename_i hab
            rcases hsh with h | h
            · exact absurd h hab
            · simpa using h _ rfl
        · split
          · simp [filename, List.getLastD_eq_getLast?]
          · rename_i hab
            rcases hsh with h | h
            · exact absurd h hab
            · exact filename_relative (h _ rfl)
    · have h1 : ∀ y, go fs pos y = none := by
        intro y
        cases hg : go fs pos y with
        | none => rfl
        | some p => exact absurd (go_dir (by rw [hg]; rfl)) hd
      cases hn : nodeAt fs.root pos with
      | none => simp [h1]
      | some t =>
        cases t with
        | file => simp [h1]
        | dir es => exact absurd ⟨es, hn⟩ hd

/-- `glob1` finds the entries that fit and are shown. -/
theorem glob1_ok {fs : Fs} (hw : fs.Wf) (d : Path) (l : List Item) (hl : ∀ i ∈ l, i.Ok) (dironly : Bool) :
    ∃ L, glob1 fs d (pattern l) dironly = ok L ∧ ∀ y, y ∈ L ↔ (Comp.wild l).Fits y ∧ (resolve fs ⟨d.abs, d.names ++ [y]⟩).isSome ∧ Shown fs d.abs (d.names ++ [y]) ∧
      (dironly = true → isDir fs ⟨d.abs, d.names ++ [y]⟩ = true) := by
  obtain ⟨L, e, h⟩ := filter_ok l hl (((iterDirectory fs d dironly).filter (fun n => !isHidden n)).map filename) [] (by
    intro n hn
    obtain ⟨⟨o2, o3, o4⟩, hs, -⟩ := (iter_names hw d dironly n).mp hn
    rw [resolve_snoc] at hs
    cases hp : resolve fs ⟨d.abs, d.names⟩ with
    | none => rw [hp] at hs; cases hs
    | some pos =>
      rw [hp, Option.bind_some] at hs
      obtain ⟨es, he⟩ := go_dir hs
      rw [go_plain he o2 o3 o4] at hs
      have hmem : (entry es n).isSome := by
        by_contra hh
        rw [if_neg hh] at hs
        cases hs
      exact ((hw.names pos es he).2 n (entry_isSome.mp hmem)).1)
  refine ⟨L, e, fun y => ?_⟩
  rw [h, iter_names hw]
  simp only [List.not_mem_nil, false_or, Comp.Fits]
  tauto

/-- `glob0` finds a name that is there. -/
theorem glob0_mem (fs : Fs) (d : Path) (s : Str) (hs : s ≠ []) (y : Str) : y ∈ glob0 fs d s ↔ y = s ∧ (resolve fs ⟨d.abs, d.names ++ [y]⟩).isSome := by
  unfold glob0
  rw [if_neg hs]
  split
  · rename_i h
    simp only [List.mem_cons, List.not_mem_nil, or_false]
    constructor
    · rintro rfl; exact ⟨rfl, h⟩
    · exact fun h => h.1
  · rename_i h
    simp only [List.not_mem_nil, false_iff]
    rintro ⟨rfl, hh⟩
    exact h hh

def Comp.Wild : Comp → Prop
  | .wild _ => True
  | .name _ => False

/-- What one part adds to a directory. -/
theorem part_ok {fs : Fs} (hw : fs.Wf) (d : Path) (c : Comp) (hc : c.Ok) (dironly : Bool) :
    ∃ L, (if hasMagic c.text then glob1 fs d c.text dironly else pure (glob0 fs d c.text)) = ok L ∧
      ∀ y, y ∈ L ↔ c.Fits y ∧ (resolve fs ⟨d.abs, d.names ++ [y]⟩).isSome ∧ (c.Wild → Shown fs d.abs (d.names ++ [y]) ∧ (dironly = true → isDir fs ⟨d.abs, d.names ++ [y]⟩ = true)) := by
  cases c with
  | name s =>
    have h1 : hasMagic (Comp.name s).text = false := PlainName.magic hc
    rw [h1]
    exact ⟨_, rfl, fun y => by rw [show (Comp.name s).text = s from rfl, glob0_mem fs d s hc.1]; simp [Comp.Fits, Comp.Wild]⟩
  | wild l =>
    have h1 : hasMagic (Comp.wild l).text = true := HasWild.magic hc.2
    rw [h1]
    obtain ⟨L, e, h⟩ := glob1_ok hw d l hc.1 dironly
    exact ⟨L, e, fun y => by rw [h]; simp [Comp.Wild]⟩

theorem inDirs_ok {fs : Fs} (hw : fs.Wf) (c : Comp) (hc : c.Ok) (dironly : Bool) : ∀ (dirs acc : List Path),
    ∃ L, dirs.foldlM (fun acc d => do
      let ns ← (if hasMagic c.text then glob1 fs d c.text dironly else pure (glob0 fs d c.text))
      pure (acc ++ ns.map (fun n => (⟨d.abs, d.names ++ [n]⟩ : Path)))) acc = ok L ∧
    ∀ p, p ∈ L ↔ p ∈ acc ∨ ∃ d ∈ dirs, ∃ y, p = ⟨d.abs, d.names ++ [y]⟩ ∧ c.Fits y ∧ (resolve fs p).isSome ∧ (c.Wild → Shown fs d.abs (d.names ++ [y]) ∧ (dironly = true → isDir fs p = true))
  | [], acc => ⟨acc, rfl, by simp⟩
  | d :: dirs, acc => by
    obtain ⟨ns, e, h⟩ := part_ok hw d c hc dironly
    obtain ⟨L, e2, h2⟩ := inDirs_ok hw c hc dironly dirs (acc ++ ns.map (fun n => (⟨d.abs, d.names ++ [n]⟩ : Path)))
    refine ⟨L, ?_, fun p => ?_⟩
    · rw [List.foldlM_cons, e]
      exact e2
    · rw [h2]
      simp only [List.mem_append, List.mem_map, List.mem_cons]
      constructor
      · rintro ((h' | ⟨y, hy, rfl⟩) | ⟨d', hd', y, r⟩)
        · exact Or.inl h'
        · exact Or.inr ⟨d, Or.inl rfl, y, rfl, (h y).mp hy⟩
        · exact Or.inr ⟨d', Or.inr hd', y, r⟩
      · rintro (h' | ⟨d', rfl | hd', y, r⟩)
        · exact Or.inl (Or.inl h')
        · obtain ⟨rfl, r⟩ := r
          exact Or.inl (Or.inr ⟨y, (h y).mpr r, rfl⟩)
        · exact Or.inr ⟨d', hd', y, r⟩

/-! ## All parts -/

theorem found_snoc {fs : Fs} {abs : Bool} {cs : List Comp} {c : Comp} {xs : List Str} {x : Str} :
    Found fs abs (cs ++ [c]) (xs ++ [x]) ↔ Found fs abs cs xs ∧ c.Fits x ∧ (resolve fs ⟨abs, xs ++ [x]⟩).isSome ∧ (c.Wild → Shown fs abs (xs ++ [x])) := by
  constructor
  · rintro ⟨f, t, s⟩
    have hlen : cs.length = xs.length := by simpa using f.length_eq
    have f1 : List.Forall₂ Comp.Fits cs xs := by
      have := List.forall₂_take cs.length f
      rwa [List.take_left, hlen, List.take_left] at this
    have f2 : c.Fits x := by
      have := List.forall₂_drop cs.length f
      rw [List.drop_left, hlen, List.drop_left] at this
      cases this
      assumption
    refine ⟨⟨f1, ?_, ?_⟩, f2, t, ?_⟩
    · rw [resolve_snoc] at t
      cases h : resolve fs ⟨abs, xs⟩ with
      | none => rw [h] at t; cases t
      | some _ => rfl
    · intro i l hi
      have hlt : i < cs.length := (List.getElem?_eq_some_iff.mp hi).1
      have := s i l (by rw [List.getElem?_append_left hlt]; exact hi)
      rwa [List.take_append_of_le_length (by omega)] at this
    · intro hwl
      cases c with
      | name _ => exact absurd hwl id
      | wild l =>
        have := s cs.length l (by simp)
        rwa [List.take_of_length_le (by simp; omega)] at this
  · rintro ⟨⟨f, t, s⟩, f2, t2, s2⟩
    have hlen : cs.length = xs.length := f.length_eq
    refine ⟨List.rel_append f (.cons f2 .nil), t2, ?_⟩
    intro i l hi
    by_cases hlt : i < cs.length
    · rw [List.getElem?_append_left hlt] at hi
      rw [List.take_append_of_le_length (by omega)]
      exact s i l hi
    · have : i = cs.length := by
        have := (List.getElem?_eq_some_iff.mp hi).1
        simp at this
        omega
      subst this
      rw [List.take_of_length_le (by simp; omega)]
      simp at hi
      subst hi
      exact s2 trivial

theorem found_nil {fs : Fs} {abs : Bool} {xs : List Str} : Found fs abs [] xs ↔ xs = [] := by
  constructor
  · intro h; cases h.fits; rfl
  · rintro rfl
    exact ⟨.nil, by cases abs <;> rfl, by simp⟩

/-- Names alone: the path itself, if it is there. -/
theorem found_names {fs : Fs} {abs : Bool} : ∀ (rcs : List Comp), (∀ c ∈ rcs, c.Ok) → (rcs.map Comp.text).any hasMagic = false → ∀ xs,
    (Found fs abs rcs.reverse xs ↔ xs = (rcs.map Comp.text).reverse ∧ (resolve fs ⟨abs, xs⟩).isSome) := by
  intro rcs
  induction rcs with
  | nil =>
    intro _ _ xs
    rw [List.reverse_nil, found_nil]
    constructor
    · rintro rfl; exact ⟨rfl, by cases abs <;> rfl⟩
    · exact fun h => h.1
  | cons c rcs ih =>
    intro hok hm xs
    rw [List.map_cons, List.any_cons, Bool.or_eq_false_iff] at hm
    have ih := ih (fun d hd => hok d (by simp [hd])) hm.2
    have hc := hok c (by simp)
    cases c with
    | wild l => exact absurd (HasWild.magic hc.2) (by have : hasMagic (Comp.wild l).text = false := hm.1; exact fun h => by rw [show (Comp.wild l).text = pattern l from rfl, h] at this; cases this)
    | name s =>
      rw [List.reverse_cons, List.map_cons, List.reverse_cons]
      rcases List.eq_nil_or_concat xs with rfl | ⟨ys, y, rfl⟩
      · constructor
        · intro h; have := h.fits.length_eq; simp at this
        · rintro ⟨h, -⟩; simp at h
      · rw [List.concat_eq_append, found_snoc, ih]
        simp only [Comp.Fits, Comp.Wild, false_implies, and_true, Comp.text]
        constructor
        · rintro ⟨⟨rfl, h1⟩, rfl, h2⟩; exact ⟨rfl, h2⟩
        · rintro ⟨h, h2⟩
          obtain ⟨h', h''⟩ := List.append_inj' h rfl
          simp only [List.cons.injEq, and_true] at h''
          subst h' h''
          refine ⟨⟨rfl, ?_⟩, rfl, h2⟩
          rw [resolve_snoc] at h2
          cases hh : resolve fs ⟨abs, (rcs.map Comp.text).reverse⟩ with
          | none => rw [hh] at h2; cases h2
          | some _ => rfl

/-- A path that goes on is a directory. -/
theorem isDir_of_snoc {fs : Fs} {abs : Bool} {xs : List Str} {x : Str} (h : (resolve fs ⟨abs, xs ++ [x]⟩).isSome) : isDir fs ⟨abs, xs⟩ = true := by
  rw [resolve_snoc] at h
  cases hp : resolve fs ⟨abs, xs⟩ with
  | none => rw [hp] at h; cases h
  | some pos =>
    rw [hp, Option.bind_some] at h
    obtain ⟨es, he⟩ := go_dir h
    simp [isDir, hp, he]

theorem globR_ok {fs : Fs} (hw : fs.Wf) (abs : Bool) : ∀ (rcs : List Comp), (∀ c ∈ rcs, c.Ok) → (rcs.map Comp.text).any hasMagic = true → ∀ dironly,
    ∃ L, globR fs abs (rcs.map Comp.text) dironly = ok L ∧
      ∀ p, p ∈ L ↔ p.abs = abs ∧ Found fs abs rcs.reverse p.names ∧ (dironly = true → (∃ c ∈ rcs.head?, c.Wild) → isDir fs p = true) := by
  intro rcs
  induction rcs with
  | nil => intro _ h; simp at h
  | cons c rcs ih =>
    intro hok hm dironly
    have hc := hok c (by simp)
    have hok' : ∀ d ∈ rcs, d.Ok := fun d hd => hok d (by simp [hd])
    rw [List.map_cons] at hm ⊢
    rw [globR]
    simp only [hm, Bool.true_eq_false, if_false]
    -- the directories the last part is looked for in
    by_cases h0 : abs = false ∧ rcs.map Comp.text = []
    · rw [if_pos h0]
      obtain ⟨rfl, hr⟩ := h0
      have hr : rcs = [] := List.map_eq_nil_iff.mp hr
      subst hr
      cases c with
      | name s => simp [Comp.text, PlainName.magic hc] at hm
      | wild l =>
        obtain ⟨L, e, h⟩ := glob1_ok hw ⟨false, []⟩ l hc.1 dironly
        refine ⟨L.map (fun n => ⟨false, [n]⟩), ?_, fun p => ?_⟩
        · show (glob1 fs ⟨false, []⟩ (pattern l) dironly >>= _) = _
          rw [e]
          rfl
        · rw [List.mem_map]
          constructor
          · rintro ⟨y, hy, rfl⟩
            obtain ⟨h1, h2, h3, h4⟩ := (h y).mp hy
            exact ⟨rfl, (found_snoc (cs := []) (xs := [])).mpr ⟨found_nil.mpr rfl, h1, h2, fun _ => h3⟩, fun hd _ => h4 hd⟩
          · rintro ⟨h1, h2, h3⟩
            obtain ⟨pa, xs⟩ := p
            cases h1
            have hf := h2.fits
            rw [List.reverse_cons, List.reverse_nil, List.nil_append] at hf
            cases hf with
            | cons hfy hn =>
              cases hn
              rename_i y
              obtain ⟨-, g1, g2, g3⟩ := (found_snoc (cs := []) (c := Comp.wild l) (xs := []) (x := y)).mp h2
              exact ⟨y, (h y).mpr ⟨g1, g2, g3 trivial, fun hd => h3 hd ⟨_, rfl, trivial⟩⟩, rfl⟩
    · rw [if_neg h0]
      have hdirs : ∃ D, (if (rcs.map Comp.text).any hasMagic then globR fs abs (rcs.map Comp.text) true else pure [⟨abs, (rcs.map Comp.text).reverse⟩]) = ok D ∧
          (∀ d ∈ D, d.abs = abs) ∧ ∀ xs x, (resolve fs ⟨abs, xs ++ [x]⟩).isSome → ((⟨abs, xs⟩ : Path) ∈ D ↔ Found fs abs rcs.reverse xs) := by
        by_cases hm' : (rcs.map Comp.text).any hasMagic = true
        · rw [if_pos hm']
          obtain ⟨D, e, h⟩ := ih hok' hm' true
          refine ⟨D, e, fun d hd => ((h d).mp hd).1, fun xs x hx => ?_⟩
          rw [h]
          constructor
          · exact fun h => h.2.1
          · exact fun h => ⟨rfl, h, fun _ _ => isDir_of_snoc hx⟩
        · rw [if_neg hm']
          refine ⟨_, rfl, by simp, fun xs x hx => ?_⟩
          rw [found_names rcs hok' (by simpa using hm')]
          have : (resolve fs ⟨abs, xs⟩).isSome := by
            rw [resolve_snoc] at hx
            cases hh : resolve fs ⟨abs, xs⟩ with
            | none => rw [hh] at hx; cases hx
            | some _ => rfl
          simp [this]
      obtain ⟨D, e, ha, hD⟩ := hdirs
      obtain ⟨L, e2, h2⟩ := inDirs_ok hw c hc dironly D []
      refine ⟨L, ?_, fun p => ?_⟩
      · rw [e, bind_ok]
        exact e2
      · rw [h2]
        simp only [List.not_mem_nil, false_or]
        constructor
        · rintro ⟨d, hd, y, rfl, g1, g2, g3⟩
          have hda := ha d hd
          obtain ⟨da, dn⟩ := d
          cases hda
          refine ⟨rfl, ?_, fun hdo hwl => (g3 ?_).2 hdo⟩
          · rw [List.reverse_cons]
            exact found_snoc.mpr ⟨(hD dn y g2).mp hd, g1, g2, fun hwl => (g3 hwl).1⟩
          · obtain ⟨c', hc', hwl⟩ := hwl
            cases hc'
            exact hwl
        · rintro ⟨h1, h2, h3⟩
          obtain ⟨pa, xs⟩ := p
          cases h1
          rw [List.reverse_cons] at h2
          rcases List.eq_nil_or_concat xs with rfl | ⟨ys, y, rfl⟩
          · have := h2.fits.length_eq; simp at this
          · rw [List.concat_eq_append] at h2 h3 ⊢
            obtain ⟨g0, g1, g2, g3⟩ := found_snoc.mp h2
            exact ⟨⟨pa, ys⟩, (hD ys y g2).mpr g0, y, rfl, g1, g2, fun hwl => ⟨g3 hwl, fun hdo => h3 hdo ⟨c, rfl, hwl⟩⟩⟩

/-- C132: glob finds exactly the paths of the file system that fit part by part, as far as they are shown. -/
theorem glob_finds {fs : Fs} (hw : fs.Wf) (abs : Bool) (cs : List Comp) (hne : cs ≠ []) (hok : ∀ c ∈ cs, c.Ok) :
    ∃ L, glob fs ⟨abs, cs.map Comp.text⟩ = ok L ∧ ∀ p, p ∈ L ↔ p.abs = abs ∧ Found fs abs cs p.names := by
  have hr : (cs.map Comp.text).reverse = cs.reverse.map Comp.text := List.map_reverse.symm
  have hok' : ∀ c ∈ cs.reverse, c.Ok := fun c hc => hok c (List.mem_reverse.mp hc)
  unfold glob
  simp only
  rw [hr]
  by_cases hm : (cs.reverse.map Comp.text).any hasMagic = true
  · obtain ⟨L, e, h⟩ := globR_ok hw abs cs.reverse hok' hm false
    exact ⟨L, e, fun p => by rw [h]; simp⟩
  · have hm : (cs.reverse.map Comp.text).any hasMagic = false := by simpa using hm
    have hf := found_names (fs := fs) (abs := abs) cs.reverse hok' hm
    rw [List.reverse_reverse] at hf
    cases hcs : cs.reverse with
    | nil => exact absurd (List.reverse_eq_nil_iff.mp hcs) hne
    | cons c rcs =>
      rw [hcs] at hm hf hok'
      have hc := hok' c (by simp)
      have hct : c.text ≠ [] := by
        cases c with
        | name s => exact hc.1
        | wild l =>
          intro h
          have : hasMagic (pattern l) = true := HasWild.magic hc.2
          rw [show pattern l = (Comp.wild l).text from rfl, h] at this
          cases this
      rw [List.map_cons] at hm hf ⊢
      rw [globR]
      simp only [hm, if_true, Res.assert_true, bind_ok, hct, ne_eq, not_false_eq_true]
      refine ⟨_, rfl, fun p => ?_⟩
      obtain ⟨pa, xs⟩ := p
      simp only [hf]
      split
      · rename_i h
        simp only [List.mem_cons, List.not_mem_nil, or_false, Path.mk.injEq]
        constructor
        · rintro ⟨rfl, rfl⟩; exact ⟨rfl, rfl, h⟩
        · rintro ⟨rfl, rfl, -⟩; exact ⟨rfl, rfl⟩
      · rename_i h
        simp only [List.not_mem_nil, false_iff]
        rintro ⟨rfl, rfl, h'⟩
        exact h h'

end Verif.Glob
