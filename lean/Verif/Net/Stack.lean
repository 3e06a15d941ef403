import Verif.Net.Conv
import Verif.Net.MaxPool
/-!
# Property C105: networks of layers

A network that applies dense, convolution, pooling, sampling, padding, reshaping and activation layers one after the other computes the composition of what
the layers are specified to do, and training it with a loss stores the derivatives of the loss in every variable of every layer.
-/
namespace Verif.Net
open Verif Res View Data Ops Graph Loss Pool Optim
open Verif.Conv (spreadDim spreadOff spreadPix)

noncomputable section

/-! ### specification of the layers -/

/-- The shape of a layer's output. -/
def outShape (s : List Nat) : Kind → List Nat
  | .act _ => s
  | .dense _ _ units _ _ => [s.getD 0 0, units]
  | .conv2D p => [s.getD 0 0, p.rows (s.getD 1 0), p.columns (s.getD 2 0), p.NC]
  | .conv1D p => [s.getD 0 0, p.flatKernel.rows (s.getD 1 0), p.NC]
  | .convTranspose p => [s.getD 0 0, p.rows (spreadDim (s.getD 1 0) p.kr p.sr p.same), p.columns (spreadDim (s.getD 2 0) p.kc p.sc p.same), p.NC]
  | .flatten => [s.getD 0 0, size s.tail]
  | .reshape shape => size s / size shape :: shape
  | .avgPool n => [s.getD 0 0, s.getD 1 0 / n, s.getD 2 0 / n, s.getD 3 0]
  | .maxPool n _ _ => [s.getD 0 0, s.getD 1 0 / n, s.getD 2 0 / n, s.getD 3 0]
  | .upSample n => [s.getD 0 0, s.getD 1 0 * n, s.getD 2 0 * n, s.getD 3 0]
  | .zeroPad p _ => [s.getD 0 0, p.top + s.getD 1 0 + p.bottom, p.left + s.getD 2 0 + p.right, s.getD 3 0]
  | .crop p => [s.getD 0 0, s.getD 1 0 - p.top - p.bottom, s.getD 2 0 - p.left - p.right, s.getD 3 0]

/-- The elements of a layer's output, for an operand of shape `s` with elements `a`, and variables with the contents `D`. -/
def val (D : Nat → Ten ℝ) (s : List Nat) (a : List Nat → ℝ) : Kind → List Nat → ℝ
  | .act op => fun is => op.fwd (a is)
  | .dense w b _ _ _ => affine (s.getD 1 0) (D w).at (D b).at a
  | .conv2D p => convBias p.geo (s.getD 1 0) (s.getD 2 0) (s.getD 3 0) (asStored p.NC p.kr p.kc (s.getD 3 0) (D p.w).at) (D p.b).at a
  | .conv1D p => conv1Bias p.kr p.sr p.dr (s.getD 2 0) (fun n t ch => asStored p.NC p.kr 1 (s.getD 2 0) (D p.w).at n t 0 ch) (D p.b).at a
  | .convTranspose p => convBias p.geo (spreadDim (s.getD 1 0) p.kr p.sr p.same) (spreadDim (s.getD 2 0) p.kc p.sc p.same) (s.getD 3 0)
      (asStored p.NC p.kr p.kc (s.getD 3 0) (reversed p.kr p.kc (D p.w).at)) (D p.b).at
      (spreadPix (spreadOff p.kr p.same) (spreadOff p.kc p.same) p.sr p.sc (s.getD 1 0) (s.getD 2 0) a)
  | .flatten => reidx s [s.getD 0 0, size s.tail] a
  | .reshape shape => reidx s (size s / size shape :: shape) a
  | .avgPool n => windowMean n a
  | .maxPool n _ _ => windowMax n a
  | .upSample n => repeated n a
  | .zeroPad p _ => padded p (s.getD 1 0) (s.getD 2 0) a
  | .crop p => cropped p a

/-- Where a layer can be applied to an operand of shape `s`: the shapes are as the layer wants them, the variables have the shapes the layer gives them, the
caches of max pooling and zero padding are as an operator holds them that is new or was applied to other shapes (C41, C44), and extents neither vanish where they
must not nor stand for -1. -/
def Ok (K : Kit) (D : Nat → Ten ℝ) (s : List Nat) : Kind → Prop
  | .act _ => True
  | .dense w b units _ _ => ∃ m k, s = [m, k] ∧ DenseFits K m k units ∧ ((D w).WF ∧ (D w).shape = [k, units]) ∧ (D b).WF ∧ (D b).shape = [1, units]
  | .conv2D p => ∃ BS R C CH, s = [BS, R, C, CH] ∧ ConvOk K D p BS R C CH
  | .conv1D p => ∃ BS n CH, s = [BS, n, CH] ∧ n ≠ minusOne ∧ ConvOk K D p.flatKernel BS n 1 CH
  | .convTranspose p => ∃ BS R C CH, s = [BS, R, C, CH] ∧ ConvOk K D p BS (spreadDim R p.kr p.sr p.same) (spreadDim C p.kc p.sc p.same) CH
  | .flatten => ∃ b s', s = b :: s' ∧ s' ≠ [] ∧ s'.getLast? ≠ some minusOne ∧ b ≠ 0 ∧ size s' ≠ minusOne
  | .reshape shape => s ≠ [] ∧ s.getLast? ≠ some minusOne ∧ size shape ≠ 0 ∧ shape ≠ [] ∧ shape.getLast? ≠ some minusOne ∧ size shape ∣ size s
  | .avgPool n => ∃ BS R C CH, s = [BS, R, C, CH] ∧ 1 < n ∧ n ∣ R ∧ n ∣ C
  | .maxPool n mask gcache => ∃ BS R C CH, s = [BS, R, C, CH] ∧ 1 < n ∧ Blank mask s ∧ Blank gcache s
  | .upSample n => ∃ BS R C CH, s = [BS, R, C, CH] ∧ 1 < n
  | .zeroPad p cache => ∃ BS R C CH, s = [BS, R, C, CH] ∧ BorderZero p BS R C CH cache
  | .crop p => ∃ BS R C CH, s = [BS, R, C, CH] ∧ p.top + p.bottom < R ∧ p.left + p.right < C

/-- Where a layer can be differentiated: its activation can, every window has one largest element. -/
def Dom (s : List Nat) (a : List Nat → ℝ) : Kind → Prop
  | .act op => ∀ is, ValidIdx s is → op.Dom (a is)
  | .maxPool n _ _ => Peaks n (s.getD 0 0) (s.getD 1 0) (s.getD 2 0) (s.getD 3 0) a
  | _ => True

/-- The variables of a layer, and what they are made with. -/
def params : Kind → List (Nat × Cfg ℝ)
  | .dense w b _ cw cb => [(w, cw), (b, cb)]
  | .conv2D p => [(p.w, p.cw), (p.b, p.cb)]
  | .conv1D p => [(p.w, p.cw), (p.b, p.cb)]
  | .convTranspose p => [(p.w, p.cw), (p.b, p.cb)]
  | _ => []

section
variable {K : Kit} {L D : Nat → Ten ℝ} {s : List Nat} {a : List Nat → ℝ} {e : Ex ℝ}

/-- One layer: its value, and that its gradients are right where those of its operand are. -/
theorem build_ok (k : Kind) (hk : Ok K D s k) (he : Ev L D e s a) (i : Nat) :
    Ev L D (build K i s e k) (outShape s k) (val D s a k) ∧ (Smooth L D e → Dom s a k → Smooth L D (build K i s e k)) := by
  cases k with
  | act op => exact ⟨he.el i op, fun hs hd => smooth_el he hs i op hd⟩
  | dense w b units cw cb =>
    obtain ⟨m, k, rfl, hf, hw, hb⟩ := hk
    have hwh := hw.1.has
    rw [hw.2] at hwh
    have hbh := hb.1.has
    rw [hb.2] at hbh
    refine ⟨(dense_value he hwh hbh hf cw cb i).congr (fun is hv => ?_), fun hs _ => smooth_dense he hs hwh hbh hf cw cb i⟩
    match is, hv with
    | [r, j], _ => rfl
  | conv2D p =>
    obtain ⟨BS, R, C, CH, rfl, h⟩ := hk
    obtain ⟨h1, h2⟩ := ev_conv2D h he i
    exact ⟨h1, fun hs _ => h2 hs⟩
  | conv1D p =>
    obtain ⟨BS, n, CH, rfl, hn, h⟩ := hk
    obtain ⟨h1, h2⟩ := ev_conv1D h hn he i
    exact ⟨h1, fun hs _ => h2 hs⟩
  | convTranspose p =>
    obtain ⟨BS, R, C, CH, rfl, h⟩ := hk
    obtain ⟨h1, h2⟩ := ev_convTranspose h he i
    exact ⟨h1, fun hs _ => h2 hs⟩
  | flatten =>
    obtain ⟨b, s', rfl, h1, h2, h3, h4⟩ := hk
    have A := adj_flatten h1 h2 h3 h4
    exact ⟨A.ev he i, fun hs _ => A.smooth he hs i⟩
  | reshape shape =>
    obtain ⟨h1, h2, h3, h4, h5, h6⟩ := hk
    have A := adj_reshape h1 h2 h3 h4 h5 (n := size s / size shape) (Nat.div_mul_cancel h6).symm
    exact ⟨A.ev he i, fun hs _ => A.smooth he hs i⟩
  | avgPool n =>
    obtain ⟨BS, R, C, CH, rfl, h1, h2, h3⟩ := hk
    have A := adj_avgPool K (BS := BS) (CH := CH) h1 h2 h3
    exact ⟨A.ev he i, fun hs _ => A.smooth he hs i⟩
  | maxPool n mask gcache =>
    obtain ⟨BS, R, C, CH, rfl, h1, h2, h3⟩ := hk
    exact ⟨ev_maxPool he h1 i, fun hs hd => smooth_maxPool he hs h1 hd h2 h3 i⟩
  | upSample n =>
    obtain ⟨BS, R, C, CH, rfl, h1⟩ := hk
    have A := adj_upSample K (BS := BS) (R := R) (C := C) (CH := CH) h1
    exact ⟨A.ev he i, fun hs _ => A.smooth he hs i⟩
  | zeroPad p cache =>
    obtain ⟨BS, R, C, CH, rfl, h1⟩ := hk
    have A := adj_zeroPad K h1
    exact ⟨A.ev he i, fun hs _ => A.smooth he hs i⟩
  | crop p =>
    obtain ⟨BS, R, C, CH, rfl, h1, h2⟩ := hk
    have A := adj_crop K (BS := BS) (CH := CH) h1 h2
    exact ⟨A.ev he i, fun hs _ => A.smooth he hs i⟩

/-- A layer uses different identities, from `i` to `i + 8`. -/
theorem build_ids (k : Kind) (i : Nat) (s : List Nat) (e : Ex ℝ) :
    ∃ new : List Nat, ids (build K i s e k) = new ++ ids e ∧ new.Nodup ∧ ∀ j ∈ new, i ≤ j ∧ j < i + 9 := by
  have one : ∀ {e' : Ex ℝ}, ids e' = i :: ids e → ∃ new : List Nat, ids e' = new ++ ids e ∧ new.Nodup ∧ ∀ j ∈ new, i ≤ j ∧ j < i + 9 :=
    fun h => ⟨[i], h, by simp, by simp⟩
  have conv : ∀ i' (p : ConvP) R C CH, i ≤ i' → i' + 6 ≤ i + 9 → ∃ new : List Nat, ids (conv2DLayer K i' p R C CH e) = new ++ ids e ∧ new.Nodup ∧
      ∀ j ∈ new, i' ≤ j ∧ j < i' + 6 := by
    intro i' p R C CH h1 h2
    refine ⟨[i' + 5, i' + 4, i' + 3, i' + 2, i', i' + 1], by simp [conv2DLayer, convE, plusE, ids], by simp, ?_⟩
    intro j hj
    simp only [List.mem_cons, List.not_mem_nil, or_false] at hj
    omega
  cases k with
  | act op => exact one rfl
  | dense w b units cw cb =>
    exact ⟨[i + 1, i], by simp [build, dense, plusE, ids], by simp, fun j hj => by
      simp only [List.mem_cons, List.not_mem_nil, or_false] at hj; omega⟩
  | conv2D p =>
    obtain ⟨new, h1, h2, h3⟩ := conv i p (s.getD 1 0) (s.getD 2 0) (s.getD 3 0) (by omega) (by omega)
    exact ⟨new, h1, h2, fun j hj => by have := h3 j hj; omega⟩
  | conv1D p =>
    refine ⟨[i + 7, i + 6, i + 5, i + 4, i + 3, i + 1, i + 2, i], by simp [build, conv1DLayer, conv2DLayer, convE, plusE, ids], by simp, fun j hj => ?_⟩
    simp only [List.mem_cons, List.not_mem_nil, or_false] at hj
    omega
  | convTranspose p =>
    refine ⟨[i + 8, i + 7, i + 6, i + 5, i + 3, i + 2, i + 1, i + 4, i], by simp [build, convTransposeLayer, convE, plusE, ids], by simp, fun j hj => ?_⟩
    simp only [List.mem_cons, List.not_mem_nil, or_false] at hj
    omega
  | flatten => exact one rfl
  | reshape shape => exact one rfl
  | avgPool n => exact one rfl
  | maxPool n mask gcache => exact one rfl
  | upSample n => exact one rfl
  | zeroPad p cache => exact one rfl
  | crop p => exact one rfl

/-- The variables of a layer over an expression. -/
theorem build_vars (k : Kind) (i : Nat) (s : List Nat) (e : Ex ℝ) : ∀ v ∈ vars (build K i s e k), v ∈ vars e ∨ ∃ c, (v, c) ∈ params k := by
  intro v hv
  cases k <;> simp only [build, el, dense, conv1DLayer, conv2DLayer, convTransposeLayer, convE, plusE, vars, List.mem_append, List.mem_singleton] at hv
  case dense w b units cw cb =>
    rcases hv with (hv | rfl) | rfl
    · exact Or.inl hv
    · exact Or.inr ⟨cw, by simp [params]⟩
    · exact Or.inr ⟨cb, by simp [params]⟩
  case conv2D p =>
    rcases hv with (rfl | hv) | rfl
    · exact Or.inr ⟨p.cw, by simp [params]⟩
    · exact Or.inl hv
    · exact Or.inr ⟨p.cb, by simp [params]⟩
  case conv1D p =>
    rcases hv with (rfl | hv) | rfl
    · exact Or.inr ⟨p.cw, by simp [params]⟩
    · exact Or.inl hv
    · exact Or.inr ⟨p.cb, by simp [params]⟩
  case convTranspose p =>
    rcases hv with (rfl | hv) | rfl
    · exact Or.inr ⟨p.cw, by simp [params]⟩
    · exact Or.inl hv
    · exact Or.inr ⟨p.cb, by simp [params]⟩
  all_goals exact Or.inl hv

/-- What they are made with. -/
theorem build_cfgs (k : Kind) (i : Nat) (s : List Nat) (e : Ex ℝ) (sl : Slot) : ∀ q ∈ occs (build K i s e k) sl, ∀ v c, q.2 = .var v c →
    (∃ sl', ∃ q' ∈ occs e sl', q'.2 = .var v c) ∨ (v, c) ∈ params k := by
  intro q hq v c hqv
  have unary : ∀ (op : UOp ℝ), q ∈ occs (.un i op e) sl → (∃ sl', ∃ q' ∈ occs e sl', q'.2 = .var v c) := by
    intro op hq
    simp only [occs, List.mem_cons] at hq
    rcases hq with rfl | hq
    · simp at hqv
    · exact ⟨_, q, hq, hqv⟩
  cases k with
  | dense w b units cw cb =>
    simp only [build, dense, plusE, occs, List.mem_cons, List.mem_append, List.not_mem_nil, or_false] at hq
    rcases hq with rfl | (rfl | hq | rfl) | rfl
    · simp at hqv
    · simp at hqv
    · exact Or.inl ⟨_, q, hq, hqv⟩
    · simp only [Ex.var.injEq] at hqv
      exact Or.inr (by simp [params, hqv.1, hqv.2])
    · simp only [Ex.var.injEq] at hqv
      exact Or.inr (by simp [params, hqv.1, hqv.2])
  | conv2D p =>
    simp only [build, conv2DLayer, convE, plusE, occs, List.mem_cons, List.mem_append, List.not_mem_nil, or_false] at hq
    rcases hq with rfl | (rfl | rfl | rfl | (rfl | rfl) | rfl | hq) | rfl
    all_goals first
      | (simp at hqv; done)
      | exact Or.inl ⟨_, q, hq, hqv⟩
      | (simp only [Ex.var.injEq] at hqv; exact Or.inr (by simp [params, hqv.1, hqv.2]))
  | conv1D p =>
    simp only [build, conv1DLayer, conv2DLayer, convE, plusE, occs, List.mem_cons, List.mem_append, List.not_mem_nil, or_false] at hq
    rcases hq with rfl | rfl | (rfl | rfl | rfl | (rfl | rfl) | rfl | rfl | hq) | rfl
    all_goals first
      | (simp at hqv; done)
      | exact Or.inl ⟨_, q, hq, hqv⟩
      | (simp only [Ex.var.injEq] at hqv; exact Or.inr (by simp [params, hqv.1, hqv.2]))
  | convTranspose p =>
    simp only [build, convTransposeLayer, convE, plusE, occs, List.mem_cons, List.mem_append, List.not_mem_nil, or_false] at hq
    rcases hq with rfl | (rfl | rfl | rfl | (rfl | rfl | rfl | rfl) | rfl | rfl | hq) | rfl
    all_goals first
      | (simp at hqv; done)
      | exact Or.inl ⟨_, q, hq, hqv⟩
      | (simp only [Ex.var.injEq] at hqv; exact Or.inr (by simp [params, hqv.1, hqv.2]))
  | act op => exact Or.inl (unary _ hq)
  | flatten => exact Or.inl (unary _ hq)
  | reshape shape => exact Or.inl (unary _ hq)
  | avgPool n => exact Or.inl (unary _ hq)
  | maxPool n mask gcache => exact Or.inl (unary _ hq)
  | upSample n => exact Or.inl (unary _ hq)
  | zeroPad p cache => exact Or.inl (unary _ hq)
  | crop p => exact Or.inl (unary _ hq)

end
end
end Verif.Net
