import Verif.Train.Net
import Verif.Train.Violated
import Verif.Net.Examples
/-!
# Property C106: examples
-/
namespace Verif.Train
open Verif Res Data Graph Ops Loss Net
open Verif.Net (Kind)

noncomputable section

/-- Where the operators of a network under `squared_loss` leave their results in the code. -/
def codeFk (ks : List Kind) (i : Nat) : FKind :=
  match ks[i / 9]? with
  | some k => if i % 9 ∈ shareAt k then .share else if i % 9 ∈ plusAt k then .plus else .own
  | none => if i % 9 = 1 then .plus else .own

theorem codeFk_tail (ks : List Kind) : ∀ (n : Nat) (pre : List Kind), pre.length = n → NetKinds (codeFk (pre ++ ks)) ks (9 * n) := by
  induction ks with
  | nil => intros; trivial
  | cons k ks ih =>
    intro n pre hn
    refine ⟨fun o ho => ?_, ?_⟩
    · have h1 : (9 * n + o) / 9 = n := by omega
      have h2 : (9 * n + o) % 9 = o := by omega
      have h3 : (pre ++ k :: ks)[n]? = some k := by rw [← hn]; simp
      unfold codeFk
      rw [h1, h2, h3]
      dsimp only
      split <;> rename_i ha
      · exact ⟨fun _ => ha, fun h => by simp at h⟩
      · split <;> rename_i hb
        · exact ⟨fun h => by simp at h, fun _ => hb⟩
        · exact ⟨fun h => by simp at h, fun h => by simp at h⟩
    · have := ih (n + 1) (pre ++ [k]) (by simp [hn])
      rw [List.append_assoc, List.singleton_append] at this
      exact this

theorem codeFk_kinds (ks : List Kind) : NetKinds (codeFk ks) ks 0 := by simpa using codeFk_tail ks 0 [] rfl

theorem codeFk_loss (ks : List Kind) (o : Nat) (ho : o < 9) : codeFk ks (9 * ks.length + o) ≠ .share := by
  have h1 : (9 * ks.length + o) / 9 = ks.length := by omega
  unfold codeFk
  rw [h1, List.getElem?_eq_none (le_refl _)]
  dsimp only
  split <;> simp

/-- The storages of the convolutional network of `Verif.Net.Examples`: the image, the label, four variables, four gradients, caches for 49 operators. -/
def tConv : TSt ℝ where
  heap := [(stConv.leaf 0).data, (stConv.leaf 1).data, (stConv.data 0).data, (stConv.data 1).data, (stConv.data 2).data, (stConv.data 3).data,
    (stConv.grad 0).data, (stConv.grad 1).data, (stConv.grad 2).data, (stConv.grad 3).data] ++ List.replicate 147 []
  leafT k := ⟨(stConv.leaf k).shape, k⟩
  varT v := ⟨(stConv.data v).shape, 2 + v⟩
  opc i := 10 + 3 * i
  cache _ := none
  gradT v := ⟨(stConv.grad v).shape, 6 + v⟩
  bopc i b := if b = true then 12 + 3 * i else 11 + 3 * i
  obj _ := ⟨⟨[], 0⟩, ⟨[], 0⟩, ⟨[], 0⟩⟩
  sync _ := false
  training := stConv.training

/-- The loss of that network. -/
def lossConv : Ex ℝ := squaredLoss kit1 (9 * convNet.length) (.leaf 1) (stack kit1 convNet 0 [1, 3, 3, 1] (.leaf 0))

theorem lossConv_leaves : ∀ k ∈ leaves lossConv, k < 2 := by
  intro k hk
  have : k ∈ leaves (.leaf 1 : Ex ℝ) ++ leaves (stack kit1 convNet 0 [1, 3, 3, 1] (.leaf 0)) := hk
  rw [network_leaves] at this
  simp [leaves] at this
  omega

theorem lossConv_vars : ∀ v ∈ vars lossConv, v < 4 := by
  intro v hv
  have : v ∈ [0, 1, 2, 3] := by
    simpa [lossConv, squaredLoss, minusE, plusE, el, vars, stack, convNet, build, conv2DLayer, convE, Loss.dense, outShape] using hv
  simp at this
  omega

theorem lossConv_ids : ∀ i ∈ ids lossConv, i < 49 := by
  intro i hi
  have hn := (network_ids (K := kit1) convNet 0 [1, 3, 3, 1] (.leaf 0) (by simp [ids]) (by simp [ids])).2
  have : i ∈ [48, 47, 46, 45] ++ ids (stack kit1 convNet 0 [1, 3, 3, 1] (.leaf 0)) := by
    simpa [lossConv, squaredLoss, minusE, plusE, el, ids, convNet] using hi
  rcases List.mem_append.mp this with h | h
  · simp at h; omega
  · have := hn i h
    simp [convNet] at this
    omega

theorem layConv : Lay lossConv tConv.heap.length tConv := by
  have hlen : tConv.heap.length = 157 := by simp [tConv]
  have hb : ∀ τ, InE lossConv τ → match τ with | .leaf k => k < 2 | .var v => v < 4 | .grad v => v < 4 | .opc i => i < 49 | .bopc i _ => i < 49 := by
    intro τ h
    cases τ with
    | leaf k => exact lossConv_leaves k h
    | var v => exact lossConv_vars v h
    | grad v => exact lossConv_vars v h
    | opc i => exact lossConv_ids i h
    | bopc i b => exact lossConv_ids i h
  refine ⟨fun τ h => ?_, fun τ τ' h h' he => ?_⟩
  · rw [hlen]
    have := hb τ h
    cases τ <;> simp only [TSt.loc, tConv] at this ⊢ <;> (try split) <;> omega
  · have h1 := hb τ h
    have h2 := hb τ' h'
    cases τ <;> cases τ' <;> simp only [TSt.loc, tConv, Tag.leaf.injEq, Tag.var.injEq, Tag.grad.injEq, Tag.opc.injEq, Tag.bopc.injEq, reduceCtorEq] at h1 h2 he ⊢ <;>
      (try split at he) <;> (try split at he) <;> first | omega | (constructor <;> first | omega | simp_all)

theorem simConv : Sim lossConv tConv stConv := by
  refine ⟨fun v hv => ?_, fun v hv => ?_, rfl, rfl⟩
  · have := lossConv_vars v hv
    have : v = 0 ∨ v = 1 ∨ v = 2 ∨ v = 3 := by omega
    rcases this with rfl | rfl | rfl | rfl <;> rfl
  · have := lossConv_vars v hv
    have : v = 0 ∨ v = 1 ∨ v = 2 ∨ v = 3 := by omega
    rcases this with rfl | rfl | rfl | rfl <;> rfl

/-- A convolutional network meets the hypotheses of the theorem about networks. -/
example (eps : ℝ) (bk : Nat → Bool → BKind) : HStores eps (codeFk convNet) bk lossConv tConv stConv.leaf stConv.data (fun _ => cfgL) 1 :=
  network_training_partial eps bk ready0 (by decide) (codeFk_kinds convNet) (codeFk_loss convNet 0 (by decide)) (codeFk_loss convNet 2 (by decide))
    (codeFk_loss convNet 3 (by decide)) layConv rfl rfl simConv

end

/-! ### an autoencoder with one weight -/

/-- `plus`, the matrix product, negation and the square, over the rationals. -/
def plusQ : BOp ℚ := ⟨plusT, fun l r _ g => plusBack (fun l => l.foldr (· + ·) 0) 4 l.shape r.shape g⟩
def mulQ : BOp ℚ := ⟨matmul ⟨[], []⟩, fun l r _ g => matmulBack ⟨[], []⟩ ⟨[], []⟩ l r g⟩
def negQ : UOp ℚ := ⟨fun x => ok ⟨x.shape, x.data.map (- ·)⟩, fun x _ g => ok ⟨x.shape, g.data.map (- ·)⟩⟩
def squareQ : UOp ℚ := ⟨fun x => ok ⟨x.shape, x.data.map (fun a => a * a)⟩, fun x _ g => ok ⟨x.shape, List.zipWith (fun a d => 2 * a * d) x.data g.data⟩⟩

def cfgQ : Cfg ℚ := ⟨0, 0, true⟩

/-- `(p - q w)²`, operator 1 being the `plus`. -/
def autoQ : Ex ℚ := .un 3 squareQ (.bin 1 plusQ (.leaf 0) (.un 2 negQ (.bin 0 mulQ (.leaf 1) (.var 0 cfgQ))))

def kindsQ : Nat → FKind := fun i => if i = 1 then .plus else .own

/-- The labels 2 in storage 0, the inputs 2 in storage `q`, the weight 3. -/
def startQ (q : Nat) : TSt ℚ where
  heap := [[2], [2], [3], [0]] ++ List.replicate 12 []
  leafT k := ⟨[1, 1], if k = 0 then 0 else q⟩
  varT _ := ⟨[1, 1], 2⟩
  opc i := 4 + 3 * i
  cache _ := none
  gradT _ := ⟨[1, 1], 3⟩
  bopc i b := if b = true then 6 + 3 * i else 5 + 3 * i
  obj _ := ⟨⟨[], 0⟩, ⟨[], 0⟩, ⟨[], 0⟩⟩
  sync _ := false
  training := true

def storedQ (q : Nat) : Res (List ℚ) := do
  let (_, s) ← hpass 0 kindsQ (fun _ _ => .own) autoQ ⟨[1, 1], [1]⟩ (startQ q)
  rd s.heap 3

/-- In storages of their own: the derivative 16 of `(2 - 2 w)²` at `w = 3`. -/
example : storedQ 1 = ok [16] := by decide +kernel
/-- In one storage, as `test/mnist_autoencoder.cc` lines 72-73 bind them: not even the sign is right. -/
example : storedQ 0 = ok [-32] := by decide +kernel

/-- The hypotheses of `shared_labels_violated` can be met: `p + q w` with 2 in `p` and `q`, 3 in `w`; the gradient stored is 8, the derivative is 2. -/
example : ∃ x s', hpass 0 kindsQ (fun _ _ => .own) (.bin 1 plusQ (.leaf 0) (.bin 0 mulQ (.leaf 1) (.var 0 cfgQ))) ⟨[1, 1], [1]⟩ (startQ 0) = ok (x, s') ∧
    denote s'.heap x = some ⟨[1, 1], [8]⟩ ∧ denote s'.heap (s'.gradT 0) = some ⟨[1, 1], [8]⟩ := by
  refine shared_labels_violated (α := ℚ) (X := ⟨[1, 1], [2]⟩) (W := ⟨[1, 1], [3]⟩) (G := ⟨[1, 1], [0]⟩) (Y := ⟨[1, 1], [6]⟩) (Z := ⟨[1, 1], [8]⟩) (d1 := ⟨[1, 1], [1]⟩) (d2 := ⟨[1, 1], [1]⟩)
    (dl := ⟨[1, 1], [3]⟩) (dr := ⟨[1, 1], [8]⟩) (G1 := ⟨[1, 1], [8]⟩) (G2 := ⟨[1, 1], [8]⟩) 0 kindsQ (fun _ _ => .own) 0 1 0 1 0 cfgQ mulQ plusQ rfl rfl
    ⟨rfl, fun x x' y y' z z' g h h' => by simp only [plusQ, h, h']⟩ (startQ 0) ?_ rfl rfl rfl rfl rfl rfl ⟨by simp, rfl, by decide⟩ ⟨by simp, rfl, by decide⟩ rfl (by decide +kernel)
    ⟨rfl, rfl, ?_⟩ (by decide +kernel) (by decide +kernel) (by decide +kernel) (by decide +kernel)
  · have hb : ∀ τ, InE (.bin 1 plusQ (.leaf 0) (.bin 0 mulQ (.leaf 0) (.var 0 cfgQ))) τ → match τ with | .leaf k => k = 0 | .var v => v = 0 | .grad v => v = 0 | .opc i => i < 2 | .bopc i _ => i < 2 := by
      intro τ h
      cases τ <;> simp [InE, leaves, vars, ids] at h ⊢ <;> omega
    refine ⟨fun τ h => ?_, fun τ τ' h h' he => ?_⟩
    · have := hb τ h
      cases τ <;> simp [TSt.loc, startQ] at this ⊢ <;> (try split) <;> omega
    · have h1 := hb τ h
      have h2 := hb τ' h'
      cases τ <;> cases τ' <;> simp only [TSt.loc, startQ, Tag.leaf.injEq, Tag.var.injEq, Tag.grad.injEq, Tag.opc.injEq, Tag.bopc.injEq, reduceCtorEq] at h1 h2 he ⊢ <;>
        (try split at he) <;> (try split at he) <;> first | omega | (constructor <;> first | omega | simp_all)
  · intro is hv
    match is, hv with
    | [a, b], hv =>
      obtain ⟨ha, hb⟩ : a < 1 ∧ b < 1 := by simpa [ValidIdx] using hv
      obtain rfl : a = 0 := by omega
      obtain rfl : b = 0 := by omega
      simp [Ten.at, flat, size]
      norm_num

end Verif.Train
