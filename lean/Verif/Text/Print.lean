import Verif.Text.NumberProps
import Verif.Basic.Axis
/-!
# Printing tensors (model, and C139)

`operator <<` for tensors, `include/tensor.tcc` lines 264-299.  An element is printed by `pr` (`operator <<` for numbers, with the flags, the locale and the
precision of the stream, lines 269-271).  The width of the stream is 0, as it is by default: a width would fill up the text as a whole.  The product of the
extents before the last (line 288) is not taken modulo 2^64, which only matters for tensors without elements.
-/
namespace Verif.Text
open Verif Res

variable {α : Type}

/-- `std::copy( tsor.data()+first, tsor.data()+first+n, std::ostream_iterator<value_type>{os, "\t"} )` (include/tensor.tcc lines 281, 291). -/
def printRange (pr : α → List Char) (d : List α) (first n : Nat) (os : List Char) : Res (List Char) :=
  loop n (fun j os => do
    let x ← rd d (first + j)
    pure (os ++ (pr x ++ ['\t']))) os

/-- `operator <<` (include/tensor.tcc lines 264-299). -/
def printTensor (pr : α → List Char) (t : Ten α) : Res (List Char) := do
  let os := "shape: [ ".toList
  let os := os ++ t.shape.flatMap (fun n => printNat n ++ [' '])
  let os := os ++ "]\n".toList
  let os := os ++ "data:\n{\n".toList
  let os ← if t.shape.length < 2 then do
      let os ← printRange pr t.data 0 t.data.length os
      pure (os ++ ['\n'])
    else
      let last := t.shape.getLastD 0
      loop (size t.shape.dropLast) (fun idx os => do
        let os ← printRange pr t.data (idx * last) last os
        pure (os ++ ['\n'])) os
  pure (os ++ "}\n".toList)

/-! ## Specification -/

/-- The lines of a text, each ended by a newline. -/
def lines : List Char → List (List Char)
  | [] => []
  | c :: cs => if c = '\n' then [] :: lines cs else match lines cs with
    | [] => [[c]]
    | l :: ls => (c :: l) :: ls

/-- The words of the lines of a text. -/
def page (text : List Char) : List (List (List Char)) := (lines text).map (words [])

/-! ## Proofs -/

theorem lines_line {l : List Char} (h : ∀ c ∈ l, c ≠ '\n') (rest : List Char) : lines (l ++ '\n' :: rest) = l :: lines rest := by
  induction l with
  | nil => simp [lines]
  | cons c l ih =>
    rw [List.cons_append, lines, if_neg (h c (by simp)), ih (fun c hc => h c (by simp [hc]))]

theorem words_tab {w : List Char} (hw : Word w) (cs : List Char) : words [] (w ++ ['\t'] ++ cs) = w :: words [] cs := by
  rw [List.append_assoc, words_word hw.2]
  have : w.reverse ≠ [] := by simpa using hw.1
  simp [words, isSpace, this]

theorem words_tabs (f : α → List Char) (l : List α) (h : ∀ x ∈ l, Word (f x)) : words [] (l.flatMap (fun x => f x ++ ['\t'])) = l.map f := by
  induction l with
  | nil => rfl
  | cons x l ih =>
    rw [List.flatMap_cons, words_tab (h x (by simp)), ih (fun y hy => h y (by simp [hy])), List.map_cons]

theorem tabs_line (f : α → List Char) (l : List α) (h : ∀ x ∈ l, Word (f x)) : ∀ c ∈ l.flatMap (fun x => f x ++ ['\t']), c ≠ '\n' := by
  intro c hc
  obtain ⟨x, hx, hc⟩ := List.mem_flatMap.1 hc
  rcases List.mem_append.1 hc with hc | hc
  · exact space_newline ((h x hx).2 c hc)
  · simp only [List.mem_singleton] at hc; subst hc; decide

theorem printRange_ok (pr : α → List Char) (d : List α) (first n : Nat) (os : List Char) (h : first + n ≤ d.length) :
    printRange pr d first n os = ok (os ++ ((d.drop first).take n).flatMap (fun x => pr x ++ ['\t'])) := by
  unfold printRange
  induction n with
  | zero => simp
  | succ n ih =>
    rw [loop_succ, ih (by omega), bind_ok]
    have hx : d[first + n]? = some d[first + n] := List.getElem?_eq_getElem (by omega)
    rw [rd_ok hx, bind_ok, List.take_add_one, List.getElem?_drop, hx]
    simp [Res.pure_eq]

/-- The elements of row `i`, of `n` elements. -/
def row (d : List α) (n i : Nat) : List α := (d.drop (i * n)).take n

theorem printRows_ok (pr : α → List Char) (d : List α) (rows n : Nat) (os : List Char) (h : rows * n ≤ d.length) :
    loop rows (fun idx os => do
      let os ← printRange pr d (idx * n) n os
      pure (os ++ ['\n'])) os = ok (os ++ (List.range rows).flatMap (fun i => (row d n i).flatMap (fun x => pr x ++ ['\t']) ++ ['\n'])) := by
  induction rows with
  | zero => simp
  | succ r ih =>
    have hr : r * n + n ≤ d.length := by rw [← Nat.succ_mul]; exact h
    rw [loop_succ, ih (by omega), bind_ok, printRange_ok pr d _ _ _ hr, bind_ok, List.range_succ, List.flatMap_append]
    simp [row, Res.pure_eq]

theorem lines_rows (f : Nat → List Char) (n : Nat) (hf : ∀ i < n, ∀ c ∈ f i, c ≠ '\n') (rest : List Char) :
    lines ((List.range n).flatMap (fun i => f i ++ ['\n']) ++ rest) = (List.range n).map f ++ lines rest := by
  induction n generalizing rest with
  | zero => simp
  | succ n ih =>
    rw [List.range_succ, List.flatMap_append, List.append_assoc, ih (fun i hi => hf i (by omega)), List.map_append, List.append_assoc]
    congr 1
    simp only [List.flatMap_cons, List.flatMap_nil, List.append_nil, List.append_assoc, List.singleton_append, List.map_cons, List.map_nil]
    exact lines_line (hf n (by omega)) rest

/-- What the lines of a printed tensor hold. -/
def rowsOf (t : Ten α) : List (List α) :=
  if t.shape.length < 2 then [t.data] else (List.range (size t.shape.dropLast)).map (row t.data (t.shape.getLastD 0))

theorem size_last (s : List Nat) (h : s ≠ []) : size s.dropLast * s.getLastD 0 = size s := by
  obtain ⟨pre, n, rfl⟩ : ∃ pre n, s = pre ++ [n] := ⟨s.dropLast, s.getLast h, (List.dropLast_append_getLast h).symm⟩
  simp [size_append]

/-- C139: a printed tensor is a heading with its shape, then its elements, a line for every index of all dimensions but the last; these lines are followed by a
closing brace. -/
theorem printed_page (pr : α → List Char) (t : Ten α) (hw : t.data.length = size t.shape ∨ t.shape.length < 2) (hp : ∀ x ∈ t.data, Word (pr x)) :
    ∃ text, printTensor pr t = ok text ∧
      page text = (["shape:".toList, "[".toList] ++ t.shape.map printNat ++ ["]".toList]) :: ["data:".toList] :: ["{".toList] ::
        ((rowsOf t).map (List.map pr) ++ [["}".toList]]) := by
  have hshape : ∀ c ∈ "shape: [ ".toList ++ (t.shape.flatMap (fun n => printNat n ++ [' ']) ++ [']']), c ≠ '\n' := by
    intro c hc
    rcases List.mem_append.1 hc with hc | hc
    · have : ∀ c ∈ "shape: [ ".toList, c ≠ '\n' := by decide
      exact this c hc
    · rcases List.mem_append.1 hc with hc | hc
      · exact line_of_words printNat t.shape (fun n _ => printNat_word n) c hc
      · simp only [List.mem_singleton] at hc; subst hc; decide
  have head : words [] ("shape: [ ".toList ++ (t.shape.flatMap (fun n => printNat n ++ [' ']) ++ [']'])) =
      ["shape:".toList, "[".toList] ++ t.shape.map printNat ++ ["]".toList] := by
    have e1 : "shape: [ ".toList = ("shape:".toList ++ [' '] ++ ("[".toList ++ [' '] ++ [])) := rfl
    have w1 : Word "shape:".toList := ⟨by decide, by decide⟩
    have w2 : Word "[".toList := ⟨by decide, by decide⟩
    rw [e1, List.append_nil, List.append_assoc _ ("[".toList ++ [' ']), words_cons w1, words_cons w2]
    have key : ∀ l : List Nat, words [] (l.flatMap (fun n => printNat n ++ [' ']) ++ [']']) = l.map printNat ++ ["]".toList] := by
      intro l
      induction l with
      | nil => rfl
      | cons n l ih => rw [List.flatMap_cons, List.append_assoc, words_cons (printNat_word n), ih]; rfl
    rw [key]
    rfl
  have rest : ∀ (body : List Char) (R : List (List α)), (∀ tail, lines (body ++ tail) = R.map (fun r => r.flatMap (fun x => pr x ++ ['\t'])) ++ lines tail) →
      (∀ r ∈ R, ∀ x ∈ r, Word (pr x)) →
      page ("shape: [ ".toList ++ t.shape.flatMap (fun n => printNat n ++ [' ']) ++ "]\n".toList ++ "data:\n{\n".toList ++ body ++ "}\n".toList) =
        (["shape:".toList, "[".toList] ++ t.shape.map printNat ++ ["]".toList]) :: ["data:".toList] :: ["{".toList] :: (R.map (List.map pr) ++ [["}".toList]]) := by
    intro body R hb hR
    have e : "shape: [ ".toList ++ t.shape.flatMap (fun n => printNat n ++ [' ']) ++ "]\n".toList ++ "data:\n{\n".toList ++ body ++ "}\n".toList =
        ("shape: [ ".toList ++ (t.shape.flatMap (fun n => printNat n ++ [' ']) ++ [']'])) ++ '\n' :: ("data:".toList ++ '\n' :: ("{".toList ++ '\n' ::
          (body ++ ("}".toList ++ '\n' :: [])))) := by
      simp
    unfold page
    rw [e, lines_line hshape, lines_line (by decide), lines_line (by decide), hb, lines_line (by decide)]
    simp only [List.map_cons, List.map_append, head, List.map_map, lines, List.map_nil]
    have : List.map (words [] ∘ fun r => List.flatMap (fun x => pr x ++ ['\t']) r) R = R.map (List.map pr) := by
      refine List.map_congr_left fun r hr => ?_
      exact words_tabs pr r (hR r hr)
    rw [this]
    rfl
  unfold printTensor rowsOf
  by_cases h2 : t.shape.length < 2
  · simp only [if_pos h2]
    rw [printRange_ok pr t.data 0 t.data.length _ (by omega)]
    refine ⟨_, rfl, ?_⟩
    simp only [List.drop_zero, List.take_length]
    rw [List.append_assoc _ (List.flatMap _ t.data)]
    refine rest _ [t.data] (fun tail => ?_) (fun r hr x hx => ?_)
    · rw [List.append_assoc, List.singleton_append]
      exact lines_line (tabs_line pr _ hp) tail
    · simp only [List.mem_singleton] at hr; subst hr; exact hp x hx
  · simp only [if_neg h2]
    have hne : t.shape ≠ [] := fun e => h2 (by simp [e])
    have hlen := hw.resolve_right h2
    rw [printRows_ok pr t.data _ _ _ (by rw [size_last t.shape hne, hlen])]
    refine ⟨_, rfl, ?_⟩
    refine rest _ ((List.range _).map (row t.data (t.shape.getLastD 0))) (fun tail => ?_) (fun r hr x hx => ?_)
    · rw [lines_rows (fun i => (row t.data (t.shape.getLastD 0) i).flatMap (fun x => pr x ++ ['\t'])) _ (fun i _ => tabs_line pr _ (fun x hx => hp x (List.mem_of_mem_drop (List.mem_of_mem_take hx)))), List.map_map]
      rfl
    · obtain ⟨i, _, rfl⟩ := List.mem_map.1 hr
      exact hp x (List.mem_of_mem_drop (List.mem_of_mem_take hx))

/-- C139: the element at an index of two or more dimensions is the word at its last number, in the line at the others. -/
theorem printed_element (pr : α → List Char) (t : Ten α) (pre : List Nat) (n : Nat) (a : List Nat → α) (ht : t.Has (pre ++ [n]) a) (hpre : pre ≠ [])
    (hp : ∀ x ∈ t.data, Word (pr x)) (ip : List Nat) (j : Nat) (hi : ValidIdx pre ip) (hj : j < n) :
    ∃ text l, printTensor pr t = ok text ∧ (page text)[3 + flat pre ip]? = some l ∧ l.length = n ∧ l[j]? = some (pr (a (ip ++ [j]))) := by
  obtain ⟨hs, hd⟩ := ht
  obtain ⟨text, e, hpage⟩ := printed_page pr t (.inl (by rw [hd.1, hs])) hp
  have h2 : ¬ t.shape.length < 2 := by
    rw [hs]
    have := List.length_pos_iff.2 hpre
    simp; omega
  have hr := flat_lt hi
  have hdl : size t.shape.dropLast = size pre := by rw [hs]; simp
  have hll : t.shape.getLastD 0 = n := by rw [hs]; simp
  have hlen : flat pre ip * n + n ≤ t.data.length := by
    rw [hd.1, size_append]
    have : (flat pre ip + 1) * n ≤ size pre * n := Nat.mul_le_mul_right n hr
    simpa [Nat.succ_mul] using this
  refine ⟨text, (row t.data n (flat pre ip)).map pr, e, ?_, ?_, ?_⟩
  · rw [hpage, Nat.add_comm 3]
    show (((rowsOf t).map (List.map pr) ++ [["}".toList]]))[flat pre ip]? = _
    unfold rowsOf
    rw [if_neg h2, hdl, hll, List.getElem?_append_left (by simpa using hr)]
    simp [hr]
  · simp [row]; omega
  · have hv : ValidIdx (pre ++ [n]) (ip ++ [j]) := (validIdx_append hi.length_eq).2 ⟨hi, by simp [hj]⟩
    have := hd.2 _ hv
    rw [flat_append hi.length_eq] at this
    simp only [size_cons, size_nil, mul_one, flat_cons, flat_nil, add_zero] at this
    rw [List.getElem?_map, row, List.getElem?_take_of_lt hj, List.getElem?_drop, this]
    rfl

/-- C139: the printed elements of a tensor, one after the other, are its elements. -/
theorem rowsOf_all (t : Ten α) (hw : t.data.length = size t.shape ∨ t.shape.length < 2) : (rowsOf t).flatten = t.data := by
  unfold rowsOf
  by_cases h2 : t.shape.length < 2
  · simp [h2]
  · rw [if_neg h2]
    have hne : t.shape ≠ [] := fun e => h2 (by simp [e])
    have hlen := hw.resolve_right h2
    have key : ∀ r, ((List.range r).map (row t.data (t.shape.getLastD 0))).flatten = t.data.take (r * t.shape.getLastD 0) := by
      intro r
      induction r with
      | zero => simp
      | succ r ih => rw [List.range_succ, List.map_append, List.flatten_append, ih, Nat.succ_mul, List.take_add]; simp [row]
    rw [key, size_last t.shape hne, ← hlen, List.take_length]

theorem printNat_inj {m n : Nat} (h : printNat m = printNat n) : m = n := by
  have h1 := parseNat_printNat (limit := max m n + 1) (n := m) (by omega)
  have h2 := parseNat_printNat (limit := max m n + 1) (n := n) (by omega)
  rw [h, h2] at h1
  exact (Option.some.inj h1).symm

/-- C139: two tensors that print alike have the same shape and elements that print alike. -/
theorem printed_determines (pr : α → List Char) (t u : Ten α) (ht : t.data.length = size t.shape ∨ t.shape.length < 2)
    (hu : u.data.length = size u.shape ∨ u.shape.length < 2) (hpt : ∀ x ∈ t.data, Word (pr x)) (hpu : ∀ x ∈ u.data, Word (pr x))
    (h : printTensor pr t = printTensor pr u) : t.shape = u.shape ∧ t.data.map pr = u.data.map pr := by
  obtain ⟨text, e1, p1⟩ := printed_page pr t ht hpt
  obtain ⟨text', e2, p2⟩ := printed_page pr u hu hpu
  rw [e1, e2] at h
  cases h
  rw [p1] at p2
  simp only [List.cons.injEq, true_and, List.cons_append, List.nil_append] at p2
  obtain ⟨q1, q2⟩ := p2
  have hs : t.shape = u.shape := by
    have := List.append_cancel_right q1
    exact List.map_injective_iff.2 (fun _ _ => printNat_inj) this
  have hr : (rowsOf t).map (List.map pr) = (rowsOf u).map (List.map pr) := List.append_cancel_right q2
  refine ⟨hs, ?_⟩
  have := congrArg List.flatten hr
  rwa [← List.map_flatten, ← List.map_flatten, rowsOf_all t ht, rowsOf_all u hu] at this

/-- C139: with the default precision a printed number is read as the number up to one part in 200000. -/
theorem printed_close (x : ℚ) : ∃ y, parseDec (printG 6 x) = some y ∧ |y - x| ≤ |x| / 200000 := by
  refine ⟨_, parse_printG (by norm_num) x, ?_⟩
  have := sig_error (p := 6) (by norm_num) x
  norm_num at this ⊢
  exact this

/-! ## Examples -/

example : printTensor printNat ⟨[2, 3], [1, 2, 3, 40, 5, 6]⟩ = ok "shape: [ 2 3 ]\ndata:\n{\n1\t2\t3\t\n40\t5\t6\t\n}\n".toList := by decide +kernel
example : printTensor printNat ⟨[3], [1, 2, 3]⟩ = ok "shape: [ 3 ]\ndata:\n{\n1\t2\t3\t\n}\n".toList := by decide +kernel

/-- The hypotheses of `printed_element` hold of the second element of the second row. -/
example : ∃ text l, printTensor printNat ⟨[2, 3], [1, 2, 3, 40, 5, 6]⟩ = ok text ∧ (page text)[3 + flat [2] [1]]? = some l ∧ l.length = 3 ∧ l[1]? = some "5".toList := by
  refine printed_element printNat ⟨[2, 3], [1, 2, 3, 40, 5, 6]⟩ [2] 3 (fun is => [1, 2, 3, 40, 5, 6].getD (flat [2, 3] is) 0) ⟨rfl, rfl, fun is h => ?_⟩ (by simp) (fun x _ => printNat_word x) [1] 1
    (by simp) (by omega)
  have hl : flat [2, 3] is < 6 := flat_lt h
  have : ∀ k < 6, [1, 2, 3, 40, 5, 6][k]? = some ([1, 2, 3, 40, 5, 6].getD k 0) := by decide
  exact this _ hl

end Verif.Text
