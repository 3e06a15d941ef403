import Verif.Glob.Find
/-!
# Files in a directory

C132 for pathnames `d/w` with wildcards in the last part.
-/
namespace Verif.Glob
open Verif Res

theorem relTo_below : ∀ b a : List Str, relTo (b ++ a) b = a
  | [], a => by cases a <;> rfl
  | x :: b, a => by
    show (if x = x then relTo (b ++ a) b else _) = a
    rw [if_pos rfl]
    exact relTo_below b a

theorem relTo_outside : ∀ a b : List Str, ¬ b <+: a → (relTo a b).head? = some dotdot
  | a, [], h => absurd List.nil_prefix h
  | [], y :: b, _ => rfl
  | x :: a, y :: b, h => by
    show (if x = y then relTo a b else _ : List Str).head? = _
    by_cases e : x = y
    · subst e
      rw [if_pos rfl]
      exact relTo_outside a b (fun h' => h (List.cons_prefix_cons.mpr ⟨rfl, h'⟩))
    · rw [if_neg e]; rfl

/-- Directory `d` (names only) and wildcards: what is found, given where `d` is. -/
theorem in_directory {fs : Fs} (hw : fs.Wf) (abs : Bool) (ds : List Str) (hds : ∀ s ∈ ds, PlainName s) (l : List Item) (hl : ∀ i ∈ l, i.Ok) (hm : HasWild l)
    {pos : List Str} {es : List (Str × Node)} (hp : resolve fs ⟨abs, ds⟩ = some pos) (he : nodeAt fs.root pos = some (.dir es)) :
    ∃ L, glob fs ⟨abs, ds ++ [pattern l]⟩ = ok L ∧
      ∀ p, p ∈ L ↔ ∃ y ∈ es.map (·.1), p = ⟨abs, ds ++ [y]⟩ ∧ Says l y ∧ (abs = false → isHidden (relative fs (pos ++ [y])) = false) := by
  have hok : ∀ c ∈ ds.map Comp.name ++ [Comp.wild l], c.Ok := by
    intro c hc
    rcases List.mem_append.mp hc with hc | hc
    · obtain ⟨s, hs, rfl⟩ := List.mem_map.mp hc; exact hds s hs
    · simp at hc; subst hc; exact ⟨hl, hm⟩
  obtain ⟨L, e, h⟩ := glob_finds hw abs (ds.map Comp.name ++ [Comp.wild l]) (by simp) hok
  have ht : (ds.map Comp.name ++ [Comp.wild l]).map Comp.text = ds ++ [pattern l] := by
    rw [List.map_append, List.map_map]
    have : (Comp.text ∘ Comp.name) = id := by funext s; rfl
    rw [this]
    simp [Comp.text]
  rw [ht] at e
  refine ⟨L, e, fun p => ?_⟩
  rw [h]
  have hn := found_names (fs := fs) (abs := abs) (ds.map Comp.name).reverse (fun c hc => by
    obtain ⟨s, hs, rfl⟩ := List.mem_map.mp (List.mem_reverse.mp hc); exact hds s hs) (by
      rw [List.any_eq_false]
      intro s hs
      obtain ⟨c, hc, rfl⟩ := List.mem_map.mp hs
      obtain ⟨s, hs', rfl⟩ := List.mem_map.mp (List.mem_reverse.mp hc)
      simpa [Comp.text] using (hds s hs').magic)
  have hid : ((ds.map Comp.name).reverse.map Comp.text).reverse = ds := by
    rw [List.map_reverse, List.reverse_reverse, List.map_map]
    have : (Comp.text ∘ Comp.name) = id := by funext s; rfl
    rw [this, List.map_id]
  rw [List.reverse_reverse, hid] at hn
  have hstep : ∀ y, (y ≠ [] ∧ y ≠ dot ∧ y ≠ dotdot) → resolve fs ⟨abs, ds ++ [y]⟩ = if (entry es y).isSome then some (pos ++ [y]) else none := by
    rintro y ⟨h1, h2, h3⟩
    rw [resolve_snoc, hp, Option.bind_some, go_plain he h1 h2 h3]
  obtain ⟨pa, xs⟩ := p
  constructor
  · rintro ⟨hpa, hf⟩
    cases hpa
    rcases List.eq_nil_or_concat xs with rfl | ⟨ys, y, rfl⟩
    · have := hf.fits.length_eq; simp at this
    · rw [List.concat_eq_append] at hf ⊢
      obtain ⟨g0, ⟨g1, g1'⟩, g2, g3⟩ := found_snoc.mp hf
      obtain ⟨rfl, -⟩ := (hn _).mp g0
      have hs := hstep y g1'
      rw [hs] at g2
      have hin : (entry es y).isSome := by
        by_contra hh
        rw [if_neg hh] at g2
        cases g2
      refine ⟨y, entry_isSome.mp hin, rfl, g1, fun ha => ?_⟩
      rcases g3 trivial with h' | h'
      · rw [ha] at h'; cases h'
      · exact h' _ (by rw [hs, if_pos hin])
  · rintro ⟨y, hy, hpe, hs, hsh⟩
    cases hpe
    have hsp := ((hw.names pos es he).2 y hy).2
    have hst := hstep y hsp
    rw [if_pos (entry_isSome.mpr hy)] at hst
    refine ⟨rfl, found_snoc.mpr ⟨(hn _).mpr ⟨rfl, by rw [hp]; rfl⟩, ⟨hs, hsp⟩, by rw [hst]; rfl, fun _ => ?_⟩⟩
    cases abs with
    | true => exact Or.inl rfl
    | false =>
      refine Or.inr (fun q hq => ?_)
      rw [hst] at hq
      cases hq
      exact hsh rfl

/-- C132 in the current directory: exactly the entries that match and do not begin with a dot. -/
theorem here_partial {fs : Fs} (hw : fs.Wf) (l : List Item) (hl : ∀ i ∈ l, i.Ok) (hm : HasWild l) {es : List (Str × Node)} (he : nodeAt fs.root fs.cwd = some (.dir es)) :
    ∃ L, glob fs ⟨false, [pattern l]⟩ = ok L ∧ ∀ p, p ∈ L ↔ ∃ y ∈ es.map (·.1), p = ⟨false, [y]⟩ ∧ Says l y ∧ y[0]? ≠ some '.' := by
  obtain ⟨L, e, h⟩ := in_directory hw false [] (by simp) l hl hm (show resolve fs ⟨false, []⟩ = some fs.cwd from rfl) he
  refine ⟨L, e, fun p => ?_⟩
  rw [h]
  have hr : ∀ y, isHidden (relative fs (fs.cwd ++ [y])) = false ↔ y[0]? ≠ some '.' := by
    intro y
    simp [isHidden, relative, relTo_below]
  simp only [hr, forall_const, List.nil_append]

/-- C132 in a directory further down whose path does not begin with a dot, or given from the root: exactly the entries that match, if none of them begins with a dot. -/
theorem below_partial {fs : Fs} (hw : fs.Wf) (abs : Bool) (ds : List Str) (hds : ∀ s ∈ ds, PlainName s) (l : List Item) (hl : ∀ i ∈ l, i.Ok) (hm : HasWild l)
    {pos : List Str} {es : List (Str × Node)} (hp : resolve fs ⟨abs, ds⟩ = some pos) (he : nodeAt fs.root pos = some (.dir es))
    (hb : abs = true ∨ ∃ d ps, pos = fs.cwd ++ d :: ps ∧ d[0]? ≠ some '.') :
    ∃ L, glob fs ⟨abs, ds ++ [pattern l]⟩ = ok L ∧ ∀ p, p ∈ L ↔ ∃ y ∈ es.map (·.1), p = ⟨abs, ds ++ [y]⟩ ∧ Says l y := by
  obtain ⟨L, e, h⟩ := in_directory hw abs ds hds l hl hm hp he
  refine ⟨L, e, fun p => ?_⟩
  rw [h]
  have hr : ∀ y, abs = false → isHidden (relative fs (pos ++ [y])) = false := by
    intro y ha
    rcases hb with hb | ⟨d, ps, rfl, hd⟩
    · rw [ha] at hb; cases hb
    · simp [isHidden, relative, List.append_assoc, relTo_below]
      exact hd
  constructor
  · rintro ⟨y, h1, h2, h3, -⟩; exact ⟨y, h1, h2, h3⟩
  · rintro ⟨y, h1, h2, h3⟩; exact ⟨y, h1, h2, h3, hr y⟩

/-- C132 is false of hidden files in other directories: `*` finds them there, though not in the current one. -/
theorem hidden_violated {fs : Fs} (hw : fs.Wf) (abs : Bool) (ds : List Str) (hds : ∀ s ∈ ds, PlainName s)
    {pos : List Str} {es : List (Str × Node)} (hp : resolve fs ⟨abs, ds⟩ = some pos) (he : nodeAt fs.root pos = some (.dir es))
    (hb : abs = true ∨ ∃ d ps, pos = fs.cwd ++ d :: ps ∧ d[0]? ≠ some '.') (n : Str) (hn : n ∈ es.map (·.1)) (_hdot : n[0]? = some '.') :
    ∃ L, glob fs ⟨abs, ds ++ [['*']]⟩ = ok L ∧ ⟨abs, ds ++ [n]⟩ ∈ L := by
  obtain ⟨L, e, h⟩ := below_partial hw abs ds hds [.any] (by simp [Item.Ok]) ⟨.any, by simp, by simp⟩ hp he hb
  exact ⟨L, e, (h _).mpr ⟨n, hn, rfl, by simpa using Says.any n .nil⟩⟩

/-- C132 is false of directories outside the current one that are given as `..` (or by another path from it), and of directories whose path begins with a dot:
nothing in them is ever found. -/
theorem outside_violated {fs : Fs} (hw : fs.Wf) (ds : List Str) (hds : ∀ s ∈ ds, PlainName s) (l : List Item) (hl : ∀ i ∈ l, i.Ok) (hm : HasWild l)
    {pos : List Str} {es : List (Str × Node)} (hp : resolve fs ⟨false, ds⟩ = some pos) (he : nodeAt fs.root pos = some (.dir es))
    (ho : ¬ fs.cwd <+: pos ∨ ∃ d ps, pos = fs.cwd ++ d :: ps ∧ d[0]? = some '.') :
    glob fs ⟨false, ds ++ [pattern l]⟩ = ok [] := by
  obtain ⟨L, e, h⟩ := in_directory hw false ds hds l hl hm hp he
  have : L = [] := by
    refine List.eq_nil_iff_forall_not_mem.mpr (fun p hp => ?_)
    obtain ⟨y, -, -, -, hh⟩ := (h p).mp hp
    have hh := hh rfl
    rcases ho with ho | ⟨d, ps, rfl, hd⟩
    · by_cases hc : fs.cwd <+: pos ++ [y]
      · have hcw : fs.cwd = pos ++ [y] := by
          rcases List.prefix_concat_iff.mp (by simpa using hc) with h' | h'
          · simpa using h'
          · exact absurd h' ho
        have := relTo_below (pos ++ [y]) []
        rw [List.append_nil] at this
        simp [isHidden, relative, hcw, this, dot] at hh
      · have hr := relTo_outside _ _ hc
        obtain ⟨t, ht⟩ : ∃ t, relTo (pos ++ [y]) fs.cwd = dotdot :: t := by
          cases hx : relTo (pos ++ [y]) fs.cwd with
          | nil => rw [hx] at hr; cases hr
          | cons a t => rw [hx] at hr; simp at hr; exact ⟨t, by rw [hr]⟩
        simp [isHidden, relative, ht, dotdot] at hh
    · rw [List.append_assoc, List.cons_append] at hh
      simp [isHidden, relative, relTo_below, hd] at hh
  rw [e, this]

/-! ## Examples -/

/-- `/a` with `x.cc`, `.y.cc` and a directory `b` that has `.z.cc`; we are in `/a`. -/
def exFs : Fs := ⟨.dir [(['a'], .dir [(['x', '.', 'c', 'c'], .file), (['.', 'y', '.', 'c', 'c'], .file), (['b'], .dir [(['.', 'z', '.', 'c', 'c'], .file)])])], [['a']]⟩

theorem nodeAt_file {p : List Str} {t : Node} (h : nodeAt .file p = some t) : t = .file := by
  cases p with
  | nil => cases h; rfl
  | cons => cases h

theorem nodeAt_dir {es : List (Str × Node)} {p : List Str} {t : Node} (h : nodeAt (.dir es) p = some t) : t = .dir es ∨ ∃ e ∈ es, ∃ q, nodeAt e.2 q = some t := by
  cases p with
  | nil => cases h; exact Or.inl rfl
  | cons n p =>
    unfold nodeAt at h
    cases he : entry es n with
    | none => rw [he] at h; cases h
    | some u =>
      rw [he] at h
      obtain ⟨e, h1, h2⟩ := Option.map_eq_some_iff.mp he
      exact Or.inr ⟨e, List.mem_of_find?_eq_some h1, p, by rw [h2]; exact h⟩

theorem exFs_names (pos : List Str) (es : List (Str × Node)) (h : nodeAt exFs.root pos = some (.dir es)) :
    es = [(['a'], .dir [(['x', '.', 'c', 'c'], .file), (['.', 'y', '.', 'c', 'c'], .file), (['b'], .dir [(['.', 'z', '.', 'c', 'c'], .file)])])] ∨
    es = [(['x', '.', 'c', 'c'], .file), (['.', 'y', '.', 'c', 'c'], .file), (['b'], .dir [(['.', 'z', '.', 'c', 'c'], .file)])] ∨ es = [(['.', 'z', '.', 'c', 'c'], .file)] := by
  rcases nodeAt_dir h with h | ⟨e, he, q, h⟩
  · cases h; exact Or.inl rfl
  simp only [List.mem_cons, List.not_mem_nil, or_false] at he
  subst he
  rcases nodeAt_dir h with h | ⟨e, he, q, h⟩
  · cases h; exact Or.inr (Or.inl rfl)
  simp only [List.mem_cons, List.not_mem_nil, or_false] at he
  rcases he with rfl | rfl | rfl
  · cases nodeAt_file h
  · cases nodeAt_file h
  rcases nodeAt_dir h with h | ⟨e, he, q, h⟩
  · cases h; exact Or.inr (Or.inr rfl)
  simp only [List.mem_cons, List.not_mem_nil, or_false] at he
  subst he
  cases nodeAt_file h

theorem exFs_wf : exFs.Wf := by
  refine ⟨fun pos es h => ?_, by decide, _, rfl⟩
  rcases exFs_names pos es h with rfl | rfl | rfl <;> exact ⟨by decide, by simp [OneLine, dot, dotdot]⟩

/-- `*.cc` in `/a` finds `x.cc` and not `.y.cc`. -/
example : ∃ L, glob exFs ⟨false, [['*', '.', 'c', 'c']]⟩ = ok L ∧ ⟨false, [['x', '.', 'c', 'c']]⟩ ∈ L ∧ ⟨false, [['.', 'y', '.', 'c', 'c']]⟩ ∉ L := by
  obtain ⟨L, e, h⟩ := here_partial exFs_wf [.any, .lit '.', .lit 'c', .lit 'c'] (by simp [Item.Ok]) ⟨.any, by simp, by simp⟩ (show nodeAt exFs.root exFs.cwd = some _ from rfl)
  refine ⟨L, e, (h _).mpr ⟨_, List.mem_cons_self, rfl, ?_, by simp⟩, fun hh => ?_⟩
  · exact Says.any ['x'] (.lit _ (.lit _ (.lit _ .nil)))
  · obtain ⟨y, -, hy, -, hd⟩ := (h _).mp hh
    cases hy
    simp at hd

/-- `b/*` finds `.z.cc`. -/
example : ∃ L, glob exFs ⟨false, [['b'], ['*']]⟩ = ok L ∧ ⟨false, [['b'], ['.', 'z', '.', 'c', 'c']]⟩ ∈ L :=
  hidden_violated exFs_wf false [['b']] (by simp [PlainName]) (show resolve exFs ⟨false, [['b']]⟩ = some [['a'], ['b']] by decide) (show nodeAt exFs.root [['a'], ['b']] = some _ from rfl)
    (Or.inr ⟨['b'], [], rfl, by simp⟩) _ List.mem_cons_self rfl

/-- `../?` from `/a` does not find the directory `a`. -/
example : glob exFs ⟨false, [['.', '.'], ['?']]⟩ = ok [] :=
  outside_violated exFs_wf [['.', '.']] (by simp [PlainName]) [.one] (by simp [Item.Ok]) ⟨.one, by simp, by simp⟩ (show resolve exFs ⟨false, [['.', '.']]⟩ = some [] by decide) (show nodeAt exFs.root [] = some _ from rfl)
    (Or.inl (by decide))

/-- `*/.z.cc`: wildcards in the middle. -/
example : ∃ L, glob exFs ⟨false, [['*'], ['.', 'z', '.', 'c', 'c']]⟩ = ok L ∧ ∀ p, p ∈ L ↔ p.abs = false ∧ Found exFs false [.wild [.any], .name ['.', 'z', '.', 'c', 'c']] p.names :=
  glob_finds exFs_wf false [.wild [.any], .name ['.', 'z', '.', 'c', 'c']] (by simp) (by
    intro c hc
    simp only [List.mem_cons, List.not_mem_nil, or_false] at hc
    rcases hc with rfl | rfl
    · exact ⟨by simp [Item.Ok], ⟨.any, by simp, by simp⟩⟩
    · exact ⟨by simp, by decide⟩)

/-- `[A-C]?` matches `B1`, by the documentation and by the code; not `b1`. -/
example : fnmatch ['B', '1'] ['[', 'A', '-', 'C', ']', '?'] = ok true ∧ fnmatch ['b', '1'] ['[', 'A', '-', 'C', ']', '?'] = ok false := by
  have hok : ∀ i ∈ [Item.set false [.range 'A' 'C'], Item.one], i.Ok := by simp [Item.Ok, CI.Ok, Plain]
  obtain ⟨b, e, h⟩ := fnmatch_partial [.set false [.range 'A' 'C'], .one] hok ['B', '1'] (by simp [OneLine])
  obtain ⟨b2, e2, h2⟩ := fnmatch_partial [.set false [.range 'A' 'C'], .one] hok ['b', '1'] (by simp [OneLine])
  have t1 : Says [.set false [.range 'A' 'C'], .one] ['B', '1'] := .set _ (by simp [CI.Has]) (.one _ .nil)
  have t2 : ¬ Says [.set false [.range 'A' 'C'], .one] ['b', '1'] := by
    intro h
    cases h with
    | set _ hc _ =>
      have := hc.mpr
      simp [CI.Has] at this
  constructor
  · rw [show (['[', 'A', '-', 'C', ']', '?'] : Str) = pattern [.set false [.range 'A' 'C'], .one] from rfl, e]
    simp [h.mpr t1]
  · rw [show (['[', 'A', '-', 'C', ']', '?'] : Str) = pattern [.set false [.range 'A' 'C'], .one] from rfl, e2]
    cases b2
    · rfl
    · exact absurd (h2.mp rfl) t2

/-- `x[+--]y`, `[a&b]*`, `[^a]`. -/
example (name : Str) : fnmatch name ['x', '[', '+', '-', '-', ']', 'y'] = ub := dashes_violated [.lit 'x'] (by simp [Item.Ok]) ['+', '-', '-'] ['y'] ⟨by simp, by simp, by simp⟩ rfl name
example (name : Str) : fnmatch name ['[', 'a', '&', 'b', ']', '*'] = abort :=
  operators_violated [] [.any] (by simp) (by simp [Item.Ok]) ['a'] ['b'] (by simp [Plain]) (by simp [Plain]) '&' rfl name
example : fnmatch ['\\'] ['[', '^', 'a', ']'] = ok true := caret_violated [.one 'a'] (by simp [CI.Ok, Plain])
example : fnmatch ['\n'] ['a', '?', '*'] = ok true := (newline_violated [.lit 'a', .one, .any] (by simp [Item.Ok])).1
example : fnmatch ['a', '\n'] ['*'] = ok false := (lines_violated ['a', '\n'] (by simp [OneLine]) (by simp)).2

end Verif.Glob
