import Verif.Train.Props
import Verif.Alias.Props
/-!
# Property C106: labels in the storage of the inputs

`test/mnist_autoencoder.cc` lines 72-73 bind one tensor to the place holder of the inputs and to that of the labels.  Forward of the loss then writes the
difference of labels and outputs over the inputs, and backward of the first layer reads the difference where it should read the inputs.
-/
namespace Verif.Train
open Verif Res Tensor Graph
open Verif.Data (denote)
open Verif.Alias (denote_some denote_congr readT readT_ok plus_same)

variable {α : Type} [Zero α] [One α] [Add α] [Mul α] [Neg α] [LE α] [DecidableLE α]

/-- C106 is false of labels `p` and inputs `q` bound to one tensor: for `p + f(q, v)` - any operator `f` with a variable `v`, e.g. a matrix product, its result of
the labels' shape - the gradient stored in the variable is computed from the value of the whole expression in place of the inputs. -/
theorem shared_labels_violated (eps : α) (fk : Nat → FKind) (bk : Nat → Bool → BKind) (i j p q v : Nat) (c : Cfg α) (op opP : BOp α) (hfi : fk i = .own) (hfj : fk j = .plus)
    (hP : Pluses opP) (s : TSt α) (hl : Lay (.bin j opP (.leaf p) (.bin i op (.leaf p) (.var v c))) s.heap.length s) (hpq : s.leafT q = s.leafT p) (htr : s.training = true)
    (hc : c.trainable = true) {X W G Y Z g d1 d2 dl dr G1 G2 : Ten α} (hX : denote s.heap (s.leafT p) = some X) (hW : denote s.heap (s.varT v) = some W)
    (hG : denote s.heap (s.gradT v) = some G) (hXs : Alias.Sound X) (hYs : Alias.Sound Y) (hsh : X.shape = Y.shape) (hY : op.fwd X W = ok Y)
    (hZ : Z.Has X.shape (fun is => X.at is + Y.at is)) (hb1 : opP.bwd X Y Z g = ok (d1, d2)) (hb2 : op.bwd Z W Y d2 = ok (dl, dr))
    (hg1 : addGrad ⟨G.shape, G.data.map (fun _ => 0)⟩ W dr = ok G1) (hg2 : regularise eps c W G1 = ok G2) :
    ∃ x s', hpass eps fk bk (.bin j opP (.leaf p) (.bin i op (.leaf q) (.var v c))) g s = ok (x, s') ∧ denote s'.heap x = some Z ∧ denote s'.heap (s'.gradT v) = some G2 := by
  let e : Ex α := .bin j opP (.leaf p) (.bin i op (.leaf p) (.var v c))
  have iL : InE e (.leaf p) := by simp [e, InE, leaves]
  have iV : InE e (.var v) := by simp [e, InE, vars]
  have iG : InE e (.grad v) := by simp [e, InE, vars]
  have iO : InE e (.opc i) := by simp [e, InE, ids]
  have iBi : ∀ b, InE e (.bopc i b) := fun b => by simp [e, InE, ids]
  have iBj : ∀ b, InE e (.bopc j b) := fun b => by simp [e, InE, ids]
  -- forward
  let h1 := s.heap.set (s.gradT v).loc (G.data.map (fun _ => 0))
  have len1 : h1.length = s.heap.length := by simp [h1]
  have hgl : (s.gradT v).loc < s.heap.length := denote_lt hG
  have hol : s.opc i < s.heap.length := hl.lt (.opc i) iO
  let h2 := h1.set (s.opc i) Y.data
  have len2 : h2.length = s.heap.length := by simp [h2, len1]
  have k2 : ∀ k, k ≠ (s.gradT v).loc → k ≠ s.opc i → h2[k]? = s.heap[k]? := fun k n1 n2 => by
    rw [show h2[k]? = h1[k]? from List.getElem?_set_ne (Ne.symm n2), show h1[k]? = s.heap[k]? from List.getElem?_set_ne (Ne.symm n1)]
  have k1 : ∀ k, k ≠ (s.gradT v).loc → h1[k]? = s.heap[k]? := fun k n1 => List.getElem?_set_ne (Ne.symm n1)
  have nLG : (s.leafT p).loc ≠ (s.gradT v).loc := hl.ne (τ := .leaf p) (τ' := .grad v) iL iG (by simp)
  have nLO : (s.leafT p).loc ≠ s.opc i := hl.ne (τ := .leaf p) (τ' := .opc i) iL iO (by simp)
  have nVG : (s.varT v).loc ≠ (s.gradT v).loc := hl.ne (τ := .var v) (τ' := .grad v) iV iG (by simp)
  have nVO : (s.varT v).loc ≠ s.opc i := hl.ne (τ := .var v) (τ' := .opc i) iV iO (by simp)
  have nGO : (s.gradT v).loc ≠ s.opc i := hl.ne (τ := .grad v) (τ' := .opc i) iG iO (by simp)
  have nVL : (s.varT v).loc ≠ (s.leafT p).loc := hl.ne (τ := .var v) (τ' := .leaf p) iV iL (by simp)
  have hX1 : denote h1 (s.leafT p) = some X := by rw [denote_congr (k1 _ nLG)]; exact hX
  have hW1 : denote h1 (s.varT v) = some W := by rw [denote_congr (k1 _ nVG)]; exact hW
  have hX2 : denote h2 (s.leafT p) = some X := by rw [denote_congr (k2 _ nLG nLO)]; exact hX
  have hY2 : denote h2 ⟨Y.shape, s.opc i⟩ = some Y := by simp [denote, h2, len1, hol]
  obtain ⟨h3, z, a1, a2, a3, a4, a5⟩ := plus_same hX2 hY2 hsh hXs hYs
  have hz : z = Z := a3.ext hZ
  subst hz
  have len3 : s.heap.length ≤ h3.length := len2 ▸ a4
  let s3 : TSt α := { s with
    heap := h3, sync := upd s.sync (some (i, true)) false,
    cache := upd (upd (fun _ => none) i (some ⟨Y.shape, s.opc i⟩)) j (some (s.leafT p)),
    obj := upd (upd s.obj (some (j, true)) ⟨s.leafT q, s.varT v, ⟨Y.shape, s.opc i⟩⟩) none ⟨s.leafT p, ⟨Y.shape, s.opc i⟩, s.leafT p⟩ }
  have hrun' : hrun fk (.bin j opP (.leaf p) (.bin i op (.leaf q) (.var v c))) s = ok (s.leafT p, s3) := by
    unfold hrun
    rw [hforward, hquery_none rfl, bind_ok]
    dsimp only
    rw [hforward, rd_ok (denote_some hX).1, bind_ok, assert_true hXs.1, bind_ok, pure_eq, bind_ok]
    dsimp only
    rw [hforward, hquery_none rfl, bind_ok]
    dsimp only
    rw [hforward, hpq, rd_ok (denote_some hX).1, bind_ok, assert_true hXs.1, bind_ok, pure_eq, bind_ok]
    dsimp only
    rw [hforward]
    unfold hvarForward
    rw [if_pos (show _ = true from htr), rd_ok (denote_some hG).1, bind_ok, wr_ok hgl, bind_ok, pure_eq, bind_ok]
    dsimp only
    unfold apply2
    rw [if_neg (by rw [hfi]; simp), readT_ok hX1, bind_ok, readT_ok hW1, bind_ok, hY, bind_ok]
    unfold put2 leaveAt
    rw [hfi]
    dsimp only
    rw [show wr (s.heap.set (s.gradT v).loc (G.data.map (fun _ => 0))) (s.opc i) Y.data = ok h2 from wr_ok (by rw [len1]; exact hol), bind_ok, pure_eq, bind_ok, pure_eq, bind_ok]
    dsimp only
    rw [if_pos hfj, a1, bind_ok]
    simp only [s3, hpq, pure_eq]
  -- backward
  have hY3 : denote h3 ⟨Y.shape, s.opc i⟩ = some Y := by
    rw [denote_congr (h := h2) (a5 _ (by rw [len2]; exact hol) nLO.symm)]; exact hY2
  have hW3 : denote h3 (s.varT v) = some W := by
    rw [denote_congr (h := h2) (a5 _ (by rw [len2]; exact hl.lt (.var v) iV) nVL), denote_congr (k2 _ nVG nVO)]; exact hW
  have hG3 : denote h3 (s.gradT v) = some ⟨G.shape, G.data.map (fun _ => 0)⟩ := by
    rw [denote_congr (h := h2) (a5 _ (by rw [len2]; exact hgl) nLG.symm), denote_congr (h := h1) (List.getElem?_set_ne nGO.symm)]
    simp [denote, h1, hgl, (denote_some hG).2]
  obtain ⟨n1, n2, n3, n4⟩ := leaveNew_ok h3 g
  let h4 := (leaveNew h3 g).2
  have len4 : s.heap.length ≤ h4.length := by show _ ≤ (leaveNew h3 g).2.length; omega
  have lBj : ∀ b, s.bopc j b < s.heap.length := fun b => hl.lt (.bopc j b) (iBj b)
  have lBi : ∀ b, s.bopc i b < s.heap.length := fun b => hl.lt (.bopc i b) (iBi b)
  obtain ⟨tl, h5, p1, p2, p3, p4, p5⟩ := give2_ok (k := bk j false) (d := d1) (h := h4) (lt_of_lt_of_le (lBj false) len4)
  obtain ⟨tr, h6, r1, r2, r3, r4, r5⟩ := give2_ok (k := bk j true) (d := d2) (h := h5) (lt_of_lt_of_le (lBj true) (len4.trans p3))
  -- what the storages hold when backward of the second operator starts
  have keep6 : ∀ k, k < s.heap.length → (∀ b, k ≠ s.bopc j b) → h6[k]? = h3[k]? := fun k hk hb => by
    rw [r4 k (by omega) (hb true), p4 k (by omega) (hb false)]; exact n4 k (by omega)
  have nB : ∀ (τ : Tag) (m : Nat) (b : Bool), InE e τ → m ∈ ids e → (∀ m' b', τ ≠ .bopc m' b') → s.loc τ ≠ s.bopc m b :=
    fun τ m b h1 h2 h3 => hl.ne (τ := τ) (τ' := .bopc m b) h1 h2 (h3 m b)
  have ji : j ∈ ids e := by simp [e, ids]
  have ii : i ∈ ids e := by simp [e, ids]
  have hZ6 : denote h6 (s.leafT q) = some z := by
    rw [hpq, denote_congr (h := h3) (keep6 _ (hl.lt (.leaf p) iL) (fun b => nB (.leaf p) j b iL ji (by simp)))]; exact a2
  have hW6 : denote h6 (s.varT v) = some W := by
    rw [denote_congr (h := h3) (keep6 _ (hl.lt (.var v) iV) (fun b => nB (.var v) j b iV ji (by simp)))]; exact hW3
  have hY6 : denote h6 ⟨Y.shape, s.opc i⟩ = some Y := by
    rw [denote_congr (h := h3) (keep6 _ hol (fun b => nB (.opc i) j b iO ji (by simp)))]; exact hY3
  have hG6 : denote h6 (s.gradT v) = some ⟨G.shape, G.data.map (fun _ => 0)⟩ := by
    rw [denote_congr (h := h3) (keep6 _ hgl (fun b => nB (.grad v) j b iG ji (by simp)))]; exact hG3
  obtain ⟨ul, h7, q1, q2, q3, q4, q5⟩ := give2_ok (k := bk i false) (d := dl) (h := h6) (lt_of_lt_of_le (lBi false) (len4.trans (p3.trans r3)))
  obtain ⟨ur, h8, w1, w2, w3, w4, w5⟩ := give2_ok (k := bk i true) (d := dr) (h := h7) (lt_of_lt_of_le (lBi true) (len4.trans (p3.trans (r3.trans q3))))
  have keep8 : ∀ k, k < s.heap.length → (∀ b, k ≠ s.bopc i b) → h8[k]? = h6[k]? := fun k hk hb => by
    rw [w4 k (by omega) (hb true), q4 k (by omega) (hb false)]
  have hW8 : denote h8 (s.varT v) = some W := by
    rw [denote_congr (h := h6) (keep8 _ (hl.lt (.var v) iV) (fun b => nB (.var v) i b iV ii (by simp)))]; exact hW6
  have hG8 : denote h8 (s.gradT v) = some ⟨G.shape, G.data.map (fun _ => 0)⟩ := by
    rw [denote_congr (h := h6) (keep8 _ hgl (fun b => nB (.grad v) i b iG ii (by simp)))]; exact hG6
  have hZ8 : denote h8 (s.leafT p) = some z := by
    rw [denote_congr (h := h6) (keep8 _ (hl.lt (.leaf p) iL) (fun b => nB (.leaf p) i b iL ii (by simp))), ← hpq]; exact hZ6
  have hlast : (s.gradT v).loc < h8.length := denote_lt hG8
  let s4 : TSt α := { s3 with
    heap := h8.set (s.gradT v).loc G2.data, gradT := upd s.gradT v ⟨G2.shape, (s.gradT v).loc⟩, sync := upd s3.sync (some (i, true)) true }
  refine ⟨s.leafT p, s4, ?_, ?_, ?_⟩
  · unfold hpass
    rw [hrun', bind_ok]
    dsimp only
    have o1 : s3.obj none = ⟨s.leafT p, ⟨Y.shape, s.opc i⟩, s.leafT p⟩ := by simp [s3, upd]
    have o2 : s3.obj (some (j, true)) = ⟨s.leafT q, s.varT v, ⟨Y.shape, s.opc i⟩⟩ := by simp [s3, upd]
    have hin : ∀ k : Nat, k < h3.length → (leaveNew s3.heap g).2[k]? = h3[k]? := n4
    have hZ4 : denote h4 (s.leafT p) = some z := by rw [denote_congr (hin _ (denote_lt a2))]; exact a2
    have hY4 : denote h4 ⟨Y.shape, s.opc i⟩ = some Y := by rw [denote_congr (hin _ (denote_lt hY3))]; exact hY3
    have hb1' : opP.bwd z Y z g = ok (d1, d2) := by rw [← hb1]; exact hP.2 _ _ _ _ _ _ _ hZ.1 rfl
    rw [hbackward]
    dsimp only
    rw [o1]
    dsimp only
    rw [show (leaveNew s3.heap g).2 = h4 from rfl, show (leaveNew s3.heap g).1 = (leaveNew h3 g).1 from rfl, readT_ok hZ4, bind_ok, readT_ok hY4, bind_ok, bind_ok, readT_ok n1, bind_ok, hb1', bind_ok]
    dsimp only
    rw [show give2 (bk j false) (s3.bopc j false) d1 h4 = ok (tl, h5) from p1, bind_ok]
    dsimp only
    rw [show give2 (bk j true) (s3.bopc j true) d2 h5 = ok (tr, h6) from r1, bind_ok]
    dsimp only
    rw [hbackward, bind_ok, hbackward]
    dsimp only
    rw [o2]
    dsimp only
    rw [readT_ok hZ6, bind_ok, readT_ok hW6, bind_ok, readT_ok hY6, bind_ok, readT_ok r2, bind_ok, hb2, bind_ok]
    dsimp only
    rw [show give2 (bk i false) (s3.bopc i false) dl h6 = ok (ul, h7) from q1, bind_ok]
    dsimp only
    rw [show give2 (bk i true) (s3.bopc i true) dr h7 = ok (ur, h8) from w1, bind_ok]
    dsimp only
    rw [hbackward, bind_ok, hbackward]
    unfold hvarBackward
    rw [if_neg (by rw [hc]; simp)]
    dsimp only
    rw [show s3.gradT v = s.gradT v from rfl, show s3.varT v = s.varT v from rfl, readT_ok hG8, bind_ok, readT_ok hW8, bind_ok, readT_ok w2, bind_ok, hg1, bind_ok,
      if_pos (show s3.sync (some (i, true)) = false from upd_same _ _ _), hg2, bind_ok, wr_ok hlast, bind_ok, pure_eq, bind_ok]
    rfl
  · rw [denote_congr (h := h8) (List.getElem?_set_ne nLG.symm)]; exact hZ8
  · show denote (h8.set (s.gradT v).loc G2.data) (upd s.gradT v ⟨G2.shape, (s.gradT v).loc⟩ v) = some G2
    rw [upd_same]
    simp [denote, hlast]

end Verif.Train
