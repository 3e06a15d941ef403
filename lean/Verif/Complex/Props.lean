import Verif.Complex.Model
import Verif.Alias.Props
import Mathlib.Analysis.Complex.Norm
import Mathlib.Analysis.Complex.Trigonometric
/-!
# C69: complex expressions

`Denotes` says which array of complex numbers a complex expression stands for, by the values of its two parts.
-/
namespace Verif.Complex
open Verif Res Graph Data
open Verif.Tensor (Compatible bcIdx broadcastShape)

noncomputable section

variable {L D : Nat → Ten ℝ} {red : List ℝ → ℝ} {fuel : Nat} {o : Ten ℝ}

/-- The expression has a value, the array `a` of shape `s`. -/
def Value (L D : Nat → Ten ℝ) (e : Ex ℝ) (s : List Nat) (a : List Nat → ℝ) : Prop := ∃ t, eval L D e = ok t ∧ t.Has s a

/-- The complex expression stands for the array `z` of complex numbers. -/
def Denotes (L D : Nat → Ten ℝ) (c : Cx ℝ) (s : List Nat) (z : List Nat → ℂ) : Prop :=
  Value L D c.re s (fun is => (z is).re) ∧ Value L D c.im s (fun is => (z is).im)

/-- The product of an `m × k` and a `k × n` matrix. -/
def matProd {R : Type} [Semiring R] (k : Nat) (a b : List Nat → R) (is : List Nat) : R := ∑ p ∈ Finset.range k, a [is[0]?.getD 0, p] * b [p, is[1]?.getD 0]

theorem Value.congr {e : Ex ℝ} {s : List Nat} {a b : List Nat → ℝ} (h : Value L D e s a) (hab : ∀ is, ValidIdx s is → a is = b is) : Value L D e s b := by
  obtain ⟨t, h1, h2⟩ := h
  exact ⟨t, h1, h2.congr hab⟩

theorem value_un {e : Ex ℝ} {s : List Nat} {a : List Nat → ℝ} (h : Value L D e s a) (i : Nat) (op : Ops.EOp) (c c' : Ten ℝ) :
    Value L D (.un i (opElem op c c') e) s (fun is => op.fwd (a is)) := by
  obtain ⟨t, h1, h2⟩ := h
  obtain ⟨u, h3, h4⟩ := Ops.mapT_ok op.fwd c t h2
  exact ⟨u, by simp only [eval, h1, bind_ok, opElem, h3], h4⟩

theorem value_plus {l r : Ex ℝ} {ls rs : List Nat} {a b : List Nat → ℝ} (hl : Value L D l ls a) (hr : Value L D r rs b) (hc : Compatible ls rs)
    (ml : ls.getLast? ≠ some minusOne) (mr : rs.getLast? ≠ some minusOne) (i : Nat) :
    ∃ c, broadcastShape ls rs = ok c ∧ Value L D (.bin i (opPlus red fuel) l r) c (fun is => a (bcIdx ls is) + b (bcIdx rs is)) := by
  obtain ⟨t, h1, h2⟩ := hl
  obtain ⟨u, h3, h4⟩ := hr
  obtain ⟨c, v, h5, h6, h7⟩ := plusT_ok h2 h4 hc ml mr
  exact ⟨c, h5, v, by simp only [eval, h1, h3, bind_ok, opPlus, h6], h7⟩

theorem value_plus_same {l r : Ex ℝ} {s : List Nat} {a b : List Nat → ℝ} (hl : Value L D l s a) (hr : Value L D r s b)
    (hm : s.getLast? ≠ some minusOne) (i : Nat) : Value L D (.bin i (opPlus red fuel) l r) s (fun is => a is + b is) := by
  obtain ⟨c, h1, h2⟩ := value_plus (red := red) (fuel := fuel) hl hr (fun k => Or.inl rfl) hm hm i
  have : c = s := by
    unfold broadcastShape at h1
    rw [if_pos rfl] at h1
    cases h1; rfl
  subst this
  refine h2.congr (fun is hv => ?_)
  have : bcIdx c is = is := Ops.bcIdx_suffix (pre := []) (t := c) hv
  rw [this]

theorem value_mul {l r : Ex ℝ} {m k n : Nat} {a b : List Nat → ℝ} (hl : Value L D l [m, k] a) (hr : Value L D r [k, n] b) (hm : 0 < m) (hk : 0 < k) (hn : 0 < n) (i : Nat) :
    Value L D (.bin i (opMatmul o o o) l r) [m, n] (matProd k a b) := by
  obtain ⟨t, h1, h2⟩ := hl
  obtain ⟨u, h3, h4⟩ := hr
  obtain ⟨v, h5, h6⟩ := Ops.matmul_forward o t u m k n a b h2 h4 hm hk hn
  exact ⟨v, by simp only [eval, h1, h3, bind_ok, opMatmul, h5], h6⟩

theorem value_had {l r : Ex ℝ} {s : List Nat} {a b : List Nat → ℝ} (hl : Value L D l s a) (hr : Value L D r s b) (hs : size s ≠ 0) (i : Nat) :
    Value L D (.bin i (opEwp red fuel) l r) s (fun is => a is * b is) := by
  obtain ⟨t, h1, h2⟩ := hl
  obtain ⟨u, h3, h4⟩ := hr
  obtain ⟨v, h5, h6⟩ := Ops.ewp_same h2 h4 hs
  exact ⟨v, by simp only [eval, h1, h3, bind_ok, opEwp, h5], h6⟩

theorem value_minus {l r : Ex ℝ} {ls rs : List Nat} {a b : List Nat → ℝ} (hl : Value L D l ls a) (hr : Value L D r rs b) (hc : Compatible ls rs)
    (ml : ls.getLast? ≠ some minusOne) (mr : rs.getLast? ≠ some minusOne) (i : Nat) :
    ∃ c, broadcastShape ls rs = ok c ∧ Value L D (minusE (realKit red fuel o) i l r) c (fun is => a (bcIdx ls is) - b (bcIdx rs is)) := by
  obtain ⟨c, h1, h2⟩ := value_plus (red := red) (fuel := fuel) hl (value_un hr i .negative o o) hc ml mr (i + 1)
  exact ⟨c, h1, h2.congr (fun is _ => by simp only [Ops.EOp.fwd]; ring)⟩

theorem value_minus_same {l r : Ex ℝ} {s : List Nat} {a b : List Nat → ℝ} (hl : Value L D l s a) (hr : Value L D r s b)
    (hm : s.getLast? ≠ some minusOne) (i : Nat) : Value L D (minusE (realKit red fuel o) i l r) s (fun is => a is - b is) :=
  (value_plus_same (red := red) (fuel := fuel) hl (value_un hr i .negative o o) hm (i + 1)).congr (fun is _ => by simp only [Ops.EOp.fwd]; ring)

/-! ## What holds (tensors by value) -/

/-- C69, sums and differences, with broadcasting. -/
theorem sum_difference_partial {c d : Cx ℝ} {cs ds : List Nat} {z w : List Nat → ℂ} (hc : Denotes L D c cs z) (hd : Denotes L D d ds w) (hs : Compatible cs ds)
    (mc : cs.getLast? ≠ some minusOne) (md : ds.getLast? ≠ some minusOne) (i : Nat) :
    ∃ s, broadcastShape cs ds = ok s ∧ Denotes L D (c.add (realKit red fuel o) i d) s (fun is => z (bcIdx cs is) + w (bcIdx ds is)) ∧
      Denotes L D (c.sub (realKit red fuel o) i d) s (fun is => z (bcIdx cs is) - w (bcIdx ds is)) := by
  obtain ⟨s, h1, h2⟩ := value_plus (red := red) (fuel := fuel) hc.1 hd.1 hs mc md i
  obtain ⟨s', h1', h3⟩ := value_plus (red := red) (fuel := fuel) hc.2 hd.2 hs mc md (i + 1)
  obtain ⟨s2, h12, h4⟩ := value_minus (red := red) (fuel := fuel) (o := o) hc.1 hd.1 hs mc md i
  obtain ⟨s3, h13, h5⟩ := value_minus (red := red) (fuel := fuel) (o := o) hc.2 hd.2 hs mc md (i + 2)
  obtain rfl : s = s' := by rw [h1] at h1'; simpa using h1'
  obtain rfl : s = s2 := by rw [h1] at h12; simpa using h12
  obtain rfl : s = s3 := by rw [h1] at h13; simpa using h13
  exact ⟨s, h1, ⟨h2.congr (by simp), h3.congr (by simp)⟩, ⟨h4.congr (by simp), h5.congr (by simp)⟩⟩

/-- C69, matrix products (with three real products for the one complex product). -/
theorem product_partial {c d : Cx ℝ} {m k n : Nat} {z w : List Nat → ℂ} (hc : Denotes L D c [m, k] z) (hd : Denotes L D d [k, n] w) (hm : 0 < m) (hk : 0 < k) (hn : 0 < n)
    (mk : k ≠ minusOne) (mn : n ≠ minusOne) (i : Nat) :
    Denotes L D (c.mul (realKit red fuel o) i d) [m, n] (matProd k z w) := by
  have mk' : [m, k].getLast? ≠ some minusOne := by simpa using mk
  have mn' : [k, n].getLast? ≠ some minusOne := by simpa using mn
  have mn2 : [m, n].getLast? ≠ some minusOne := by simpa using mn
  have ac := value_mul (o := o) hc.1 hd.1 hm hk hn i
  have bd := value_mul (o := o) hc.2 hd.2 hm hk hn (i + 1)
  have a_b := value_plus_same (red := red) (fuel := fuel) hc.1 hc.2 mk' (i + 2)
  have c_d := value_plus_same (red := red) (fuel := fuel) hd.1 hd.2 mn' (i + 3)
  have abcd := value_mul (o := o) a_b c_d hm hk hn (i + 4)
  refine ⟨(value_minus_same (red := red) (fuel := fuel) (o := o) ac bd mn2 (i + 5)).congr (fun is _ => ?_),
    (value_minus_same (red := red) (fuel := fuel) (o := o) (value_minus_same (red := red) (fuel := fuel) (o := o) abcd ac mn2 (i + 7)) bd mn2 (i + 9)).congr (fun is _ => ?_)⟩
  · simp only [matProd, Complex.re_sum, Complex.mul_re, Finset.sum_sub_distrib]
  · simp only [matProd, Complex.im_sum, Complex.mul_im, ← Finset.sum_sub_distrib]
    exact Finset.sum_congr rfl (fun p _ => by ring)

/-- C69, conjugates and negatives. -/
theorem conj_neg_partial {c : Cx ℝ} {s : List Nat} {z : List Nat → ℂ} (hc : Denotes L D c s z) (i : Nat) :
    Denotes L D (c.conj (realKit red fuel o) i) s (fun is => (starRingEnd ℂ) (z is)) ∧ Denotes L D (c.neg (realKit red fuel o) i) s (fun is => -z is) :=
  ⟨⟨hc.1.congr (by simp), (value_un hc.2 i .negative o o).congr (by simp [Ops.EOp.fwd])⟩,
    ⟨(value_un hc.1 i .negative o o).congr (by simp [Ops.EOp.fwd]), (value_un hc.2 (i + 1) .negative o o).congr (by simp [Ops.EOp.fwd])⟩⟩

/-- C69, absolute values and their squares. -/
theorem abs_norm_partial {c : Cx ℝ} {s : List Nat} {z : List Nat → ℂ} (hc : Denotes L D c s z) (hm : s.getLast? ≠ some minusOne) (hs : size s ≠ 0) (i : Nat) :
    Value L D (c.abs (realKit red fuel o) i) s (fun is => ‖z is‖) ∧ Value L D (c.norm (realKit red fuel o) i) s (fun is => ‖z is‖ ^ 2) := by
  constructor
  · have h1 := value_un hc.1 i .square o o
    have h2 := value_un hc.2 (i + 1) .square o o
    have h3 := value_plus_same (red := red) (fuel := fuel) h1 h2 hm (i + 2)
    exact (value_un h3 (i + 3) .sqrt o o).congr (fun is _ => by simp only [Ops.EOp.fwd]; rw [Complex.norm_def, Complex.normSq_apply])
  · have h1 := value_had (red := red) (fuel := fuel) hc.1 hc.1 hs i
    have h2 := value_had (red := red) (fuel := fuel) hc.2 hc.2 hs (i + 1)
    exact (value_plus_same (red := red) (fuel := fuel) h1 h2 hm (i + 2)).congr (fun is _ => by rw [← Complex.normSq_eq_norm_sq, Complex.normSq_apply])

/-- C69, numbers given by magnitude and phase. -/
theorem polar_partial {em ep : Ex ℝ} {s : List Nat} {r θ : List Nat → ℝ} (hr : Value L D em s r) (hθ : Value L D ep s θ) (hs : size s ≠ 0) (i : Nat) :
    Denotes L D (polar (realKit red fuel o) i em ep) s (fun is => r is * Complex.exp (θ is * Complex.I)) :=
  ⟨(value_had (red := red) (fuel := fuel) hr (value_un hθ i .cos o o) hs (i + 1)).congr (fun is _ => by
      dsimp only; rw [Complex.exp_mul_I]; simp [Ops.EOp.fwd, ← Complex.ofReal_cos, ← Complex.ofReal_sin]),
    (value_had (red := red) (fuel := fuel) hr (value_un hθ (i + 2) .sin o o) hs (i + 3)).congr (fun is _ => by
      dsimp only; rw [Complex.exp_mul_I]; simp [Ops.EOp.fwd, ← Complex.ofReal_cos, ← Complex.ofReal_sin])⟩

/-- C69, with a real expression on one side: `c + e`, `e + c` and `c - e`, of one shape, and `c * e`. -/
theorem mixed_partial {c : Cx ℝ} {e : Ex ℝ} {s : List Nat} {z : List Nat → ℂ} {f : List Nat → ℝ} (hc : Denotes L D c s z) (he : Value L D e s f)
    (hm : s.getLast? ≠ some minusOne) (i : Nat) :
    Denotes L D (c.addE (realKit red fuel o) i e) s (fun is => z is + f is) ∧ Denotes L D (eAdd (realKit red fuel o) i e c) s (fun is => f is + z is) ∧
      Denotes L D (c.subE (realKit red fuel o) i e) s (fun is => z is - f is) := by
  have h1 := value_plus_same (red := red) (fuel := fuel) hc.1 he hm i
  have h2 := value_minus_same (red := red) (fuel := fuel) (o := o) hc.1 he hm i
  exact ⟨⟨h1.congr (by simp), hc.2.congr (by simp)⟩, ⟨h1.congr (fun is _ => by simp; ring), hc.2.congr (by simp)⟩, ⟨h2.congr (by simp), hc.2.congr (by simp)⟩⟩

theorem mixed_product_partial {c : Cx ℝ} {e : Ex ℝ} {m k n : Nat} {z : List Nat → ℂ} {f : List Nat → ℝ} (hc : Denotes L D c [m, k] z) (he : Value L D e [k, n] f)
    (hm : 0 < m) (hk : 0 < k) (hn : 0 < n) (i : Nat) : Denotes L D (c.mulE (realKit red fuel o) i e) [m, n] (matProd k z (fun is => (f is : ℂ))) :=
  ⟨(value_mul (o := o) hc.1 he hm hk hn i).congr (fun is _ => by simp [matProd, Complex.re_sum]),
    (value_mul (o := o) hc.2 he hm hk hn (i + 1)).congr (fun is _ => by simp [matProd, Complex.im_sum])⟩

/-! ## What does not -/

/-- C69 is false of the code for `e - c`: it is `e + c`, which differs wherever `c` is not 0. -/
theorem expression_minus_complex_violated {c : Cx ℝ} {e : Ex ℝ} {s : List Nat} {z : List Nat → ℂ} {f : List Nat → ℝ} (hc : Denotes L D c s z) (he : Value L D e s f)
    (hm : s.getLast? ≠ some minusOne) (i : Nat) :
    Denotes L D (eSub (realKit red fuel o) i e c) s (fun is => f is + z is) ∧ ∀ is, z is ≠ 0 → (f is : ℂ) + z is ≠ f is - z is := by
  refine ⟨(mixed_partial (red := red) (fuel := fuel) (o := o) hc he hm i).2.1, fun is hz h => hz ?_⟩
  have : z is + z is = 0 := by linear_combination h
  exact add_self_eq_zero.mp this

/-- C69 is false of the code for `e * c` with matrices: it is `c * e`.  It has no value where `c * e` is no product of matrices, and is `c * e`
elsewhere. -/
theorem expression_times_complex_violated {c : Cx ℝ} {e : Ex ℝ} {m k n : Nat} {z : List Nat → ℂ} {f : List Nat → ℝ} (he : Value L D e [m, k] f) (hc : Denotes L D c [k, n] z)
    (hm : 0 < m) (hk : 0 < k) (hn : 0 < n) (i : Nat) :
    (n ≠ m → ¬ ∃ s w, Denotes L D (eMul (realKit red fuel o) i e c) s w) ∧
      (n = m → Denotes L D (eMul (realKit red fuel o) i e c) [k, k] (matProd n z (fun is => (f is : ℂ)))) := by
  constructor
  · rintro hnm ⟨s, w, ⟨t, h1, _⟩, _⟩
    obtain ⟨u, h2, h3⟩ := hc.1
    obtain ⟨v, h4, h5⟩ := he
    simp only [eMul, Cx.mulE, realKit, eval, h2, h4, bind_ok, opMatmul, Ops.matmul, h3.1, h5.1] at h1
    rw [assert_true (by rw [h3.2.1]; simp [size]; omega), bind_ok, assert_true (by rw [h5.2.1]; simp [size]; omega), bind_ok] at h1
    unfold Gemm.gemmView at h1
    rw [assert_false hnm] at h1
    simp at h1
  · rintro rfl
    exact mixed_product_partial hc he hk hm hk i

/-- The operators over the integers, forward only, for programs one can run. -/
def intKit : Kit Int where
  plus := ⟨plusT, fun _ _ _ _ => ub⟩
  mul := ⟨Ops.matmul ⟨[], []⟩, fun _ _ _ _ => ub⟩
  had := ⟨elementwiseProduct, fun _ _ _ _ => ub⟩
  neg := ⟨Ops.mapT (fun x => -x) ⟨[], []⟩, fun _ _ _ => ub⟩
  square := ⟨fun _ => ub, fun _ _ _ => ub⟩
  sqrt := ⟨fun _ => ub, fun _ _ _ => ub⟩
  cos := ⟨fun _ => ub, fun _ _ _ => ub⟩
  sin := ⟨fun _ => ub, fun _ _ _ => ub⟩

/-- The product of the complex expressions made of the place holders 0, 1 and 2, 3. -/
def prod4 : Cx Int := Cx.mul intKit 0 ⟨.leaf 0, .leaf 1⟩ ⟨.leaf 2, .leaf 3⟩

/-- A state in which the four place holders are bound to the matrices `(a)`, `(b)`, `(c)`, `(d)` with storages of their own. -/
def st4 (a b c d : Int) : Alias.HSt Int where
  heap := [[a], [b], [c], [d], [], [], []]
  leafT := fun k => ⟨[1, 1], k⟩
  varT := fun _ => ⟨[1, 1], 0⟩
  opc := fun i => if i = 0 then 4 else if i = 1 then 5 else 6
  cache := fun _ => none

/-- Where the operators of `prod4` leave their results: products in caches of their own, negatives in new tensors. -/
def kind4 (i : Nat) : Alias.Kind := if i = 0 ∨ i = 1 ∨ i = 4 then .own else if i = 5 ∨ i = 7 ∨ i = 9 then .fresh else .plus

/-- Both parts of `prod4`, computed in one run of a session, and then the tensors bound to the place holders. -/
def runBoth (s : Alias.HSt Int) : Res (List (Ten Int) × Alias.HSt Int) := do
  let (x, s) ← Alias.hrun kind4 prod4.re s
  let (y, s) ← Alias.hforward kind4 prod4.im s
  let xv ← Alias.readT s.heap x
  let yv ← Alias.readT s.heap y
  let av ← Alias.readT s.heap (s.leafT 0)
  let cv ← Alias.readT s.heap (s.leafT 2)
  pure ([xv, yv, av, cv], s)

/-- C69 is false of the code on shared storages, already for 1 × 1 matrices: the imaginary part of the product comes out too
large by `b d`, because `ac - bd` was left in the storage of `ac`; and the tensors bound to `a` and `c` are overwritten by `a + b` and `c + d`,
so that the next run starts from other numbers. -/
theorem product_shared_violated (a b c d : Int) : ∃ v s, runBoth (st4 a b c d) = ok (v, s) ∧
    v = [⟨[1, 1], [a * c - b * d]⟩, ⟨[1, 1], [a * d + b * c + b * d]⟩, ⟨[1, 1], [a + b]⟩, ⟨[1, 1], [c + d]⟩] := by
  refine ⟨_, _, rfl, ?_⟩
  simp only [Int.zero_add]
  ring_nf
  rfl

/-- `(1 + 2i) (3 + 4i) = -5 + 10i`, with matrices bound to place holders: by value, and on storages (where the 10 becomes 18). -/
example : (∃ c d : Cx ℝ, Denotes (fun k => ⟨[1, 1], [(k : ℝ) + 1]⟩) (fun _ => ⟨[], []⟩) c [1, 1] (fun _ => ⟨1, 2⟩) ∧
      Denotes (fun k => ⟨[1, 1], [(k : ℝ) + 1]⟩) (fun _ => ⟨[], []⟩) d [1, 1] (fun _ => ⟨3, 4⟩) ∧
      Denotes (fun k => ⟨[1, 1], [(k : ℝ) + 1]⟩) (fun _ => ⟨[], []⟩) (c.mul (realKit List.sum 2 ⟨[], []⟩) 0 d) [1, 1] (fun _ => ⟨-5, 10⟩)) ∧
    ∃ v s, runBoth (st4 1 2 3 4) = ok (v, s) ∧ v.map Ten.data = [[-5], [18], [3], [7]] := by
  constructor
  · have hv : ∀ (k : Nat) (x : ℝ), (k : ℝ) + 1 = x → Value (fun k => ⟨[1, 1], [(k : ℝ) + 1]⟩) (fun _ => ⟨[], []⟩) (.leaf k) [1, 1] (fun _ => x) := by
      intro k x h
      refine ⟨⟨[1, 1], [(k : ℝ) + 1]⟩, by simp [eval, assert_true, bind_ok, pure_eq], rfl, rfl, fun is hv => ?_⟩
      match is, hv with
      | [0, 0], _ => simp [flat, h]
    have h1 : Denotes (fun k => ⟨[1, 1], [(k : ℝ) + 1]⟩) (fun _ => ⟨[], []⟩) ⟨.leaf 0, .leaf 1⟩ [1, 1] (fun _ => ⟨1, 2⟩) := ⟨hv 0 1 (by norm_num), hv 1 2 (by norm_num)⟩
    have h2 : Denotes (fun k => ⟨[1, 1], [(k : ℝ) + 1]⟩) (fun _ => ⟨[], []⟩) ⟨.leaf 2, .leaf 3⟩ [1, 1] (fun _ => ⟨3, 4⟩) := ⟨hv 2 3 (by norm_num), hv 3 4 (by norm_num)⟩
    have h3 := product_partial (red := List.sum) (fuel := 2) (o := ⟨[], []⟩) h1 h2 one_pos one_pos one_pos (by decide) (by decide) 0
    refine ⟨_, _, h1, h2, h3.1.congr (fun is _ => ?_), h3.2.congr (fun is _ => ?_)⟩
    · simp [matProd]; norm_num
    · simp [matProd]; norm_num
  · obtain ⟨v, s, h1, h2⟩ := product_shared_violated 1 2 3 4
    exact ⟨v, s, h1, by rw [h2]; rfl⟩

end
end Verif.Complex
