import Verif.Loss.Model
import Verif.Conv.TransModel
import Verif.Shapes.Model
import Verif.Pool.Model
/-!
# Layers (model)

`include/layer.hpp`: `Conv2D` in both forms, `Conv1D`, `Conv2DTranspose`, `Flatten`, `Reshape`, `MaxPooling2D`, `AveragePooling2D`, `UpSampling2D`, and the
operators of `include/operation.hpp` they are made of, as nodes of expressions; networks that apply layers one after the other.  (`Dense` and the
element-wise activations are in `Verif.Loss`.)

Simplified: tensors are by value, so the storages that `reshape`, `flatten`, `expand_dims` and `squeeze` share with their operands are copies here (what
sharing does to gradients is in `Verif.Graph.Shared`).  The record `img2col` leaves for its backward action and the mask `max_pooling_2d` leaves are made
again in backward, from the same operand and the same contents.  The shape an expression announces is the shape of its value.  The unsigned differences
in the paddings of `"same"` do not wrap (the properties ask for it).  Elements are real numbers.
-/
namespace Verif.Net
open Verif Res View Data Ops Graph Loss

noncomputable section

/-! ### operators -/

/-- The operator `reshape( new_shape )` (include/operation.hpp lines 1115-1180): backward gives the gradient the operand's shape (lines 1148-1153). -/
def opReshape (shape : List Nat) : UOp ℝ := ⟨Conv.reshapeOp shape, fun x _ g => reshapeV g x.shape⟩

/-- The operator `flatten` (include/operation.hpp lines 1193-1220). -/
def opFlatten : UOp ℝ := ⟨Shapes.flattenFwd, fun x _ g => reshapeV g x.shape⟩

/-- The operator `expand_dims( axis )` (include/operation.hpp lines 1231-1272). -/
def opExpand (axis : Int) : UOp ℝ := ⟨fun x => expandDims x axis, fun x _ g => reshapeV g x.shape⟩

/-- The operator `squeeze( axis )` (include/operation.hpp lines 1274-1283). -/
def opSqueeze (axis : Int) : UOp ℝ := ⟨fun x => squeezeAxis x axis, fun x _ g => reshapeV g x.shape⟩

/-- The operator `transpose` (include/operation.hpp lines 1470-1523). -/
def opTranspose (K : Kit) : UOp ℝ := ⟨transposeInto K.cacheF, fun _ _ g => transposeInto K.cacheB g⟩

/-- The operator `flip( axis )` (include/operation.hpp lines 1432-1466). -/
def opFlip (K : Kit) (axis : Int) : UOp ℝ := ⟨fun x => flipInto x axis K.cacheF, fun _ _ g => flipInto g axis K.cacheB⟩

/-- The operator `img2col` (include/operation.hpp lines 1525-1657); `rec` is the record it holds when forward starts. -/
def opImg2col (K : Kit) (g : Conv.Geo) (rec : List Nat) : UOp ℝ where
  fwd x := do
    let r ← Conv.img2col g x K.cacheF rec
    pure r.1
  bwd x _ y := do
    let r ← Conv.img2col g x K.cacheF rec
    Conv.img2colBack x y K.cacheB r.2

/-- The operator `conv2d_tranpose_intermediate` (include/operation.hpp lines 1764-1853). -/
def opSpread (K : Kit) (kr kc sr sc : Nat) (same : Bool) : UOp ℝ :=
  ⟨fun x => Conv.spread kr kc sr sc same x K.cacheF, fun x _ g => Conv.spreadBack kr kc sr sc same x g K.cacheB⟩

/-- The operator `max_pooling_2d( stride )` (include/operation.hpp lines 1955-2070); `mask` and `gcache` are what it holds when the actions start. -/
def opMaxPool (K : Kit) (s : Nat) (mask gcache : Ten ℝ) : UOp ℝ where
  fwd x := do
    let um ← Pool.maxPool s x mask K.cacheF
    pure um.1
  bwd x _ g := do
    let um ← Pool.maxPool s x mask K.cacheF
    Pool.maxPoolBack s x um.2 g gcache

/-- The operator `average_pooling_2d( stride )` (include/operation.hpp lines 2075-2140). -/
def opAvgPool (K : Kit) (s : Nat) : UOp ℝ := ⟨fun x => Pool.avgPool s x K.cacheF, fun x _ g => Pool.avgPoolBack s x g K.cacheB⟩

/-- The operator `up_sampling_2d( stride )` (include/operation.hpp lines 2142-2235). -/
def opUpSample (K : Kit) (s : Nat) : UOp ℝ := ⟨fun x => Pool.upSample s x K.cacheF, fun x _ g => Pool.upSampleBack s x g K.cacheB⟩

/-- The operator `zero_padding_2d( padding )` (include/operation.hpp lines 2745-2865); `cache` is what it holds when forward starts. -/
def opZeroPad (K : Kit) (p : Pool.Pads) (cache : Ten ℝ) : UOp ℝ := ⟨fun x => Pool.zeroPad p x cache, fun x _ g => Pool.zeroPadBack p x g K.cacheB⟩

/-- The operator `cropping_2d( padding )` (include/operation.hpp lines 2866-2990). -/
def opCrop (K : Kit) (p : Pool.Pads) : UOp ℝ := ⟨fun x => Pool.crop p x K.cacheF, fun x _ g => Pool.cropBack p x g K.cacheB⟩

/-! ### convolutions -/

/-- The paddings of `conv2d` and `general_conv2d` (include/operation.hpp lines 1680-1690, 1734-1742). -/
def geo (kr kc sr sc dr dc : Nat) (same : Bool) : Conv.Geo :=
  if same = true then ⟨kr, kc, Conv.samePad kr (kr + (kr - 1) * (dr - 1) - sr), Conv.samePad kc (kc + (kc - 1) * (dc - 1) - sc), sr, sc, dr, dc⟩
  else ⟨kr, kc, 0, 0, sr, sc, dr, dc⟩

/-- The expression `conv2d` and `general_conv2d` make of an image and a filter (include/operation.hpp lines 1692-1705, 1744-1757), for a filter of shape
`[NC, kernel rows, kernel columns, CH]`.  `rowIn`, `colIn` are given to `conv2d`, and taken from the image's shape by `general_conv2d`; the columns of the
output are computed with the padding of the rows. -/
def convE (K : Kit) (i : Nat) (g : Conv.Geo) (rowIn colIn NC CH : Nat) (rec : List Nat) (x f : Ex ℝ) : Ex ℝ :=
  .un (i + 4) (opReshape [Conv.outDim rowIn g.kr g.pr g.sr g.dr, Conv.outDim colIn g.kc g.pr g.sc g.dc, NC])
    (.un (i + 3) (opTranspose K)
      (.bin (i + 2) (opMatmul K.cacheF K.cacheB K.cacheB') (.un i (opReshape [g.kr * g.kc * CH]) f) (.un (i + 1) (opImg2col K g rec) x)))

/-- What a convolution layer is made with: the numbers of its two variables and what they are made with, `output_channels`, `kernel_size`, `strides`,
`dilations`, whether `padding` is `"same"`, and the record its `img2col` holds. -/
structure ConvP where
  w : Nat
  b : Nat
  cw : Cfg ℝ
  cb : Cfg ℝ
  NC : Nat
  kr : Nat
  kc : Nat
  sr : Nat
  sc : Nat
  dr : Nat
  dc : Nat
  same : Bool
  record : List Nat

/-- `ConvP.geo`: the geometry of the layer. -/
def ConvP.geo (p : ConvP) : Conv.Geo := Net.geo p.kr p.kc p.sr p.sc p.dr p.dc p.same

/-- `Conv2D` applied to an expression of shape `[_, R, C, CH]` (include/layer.hpp lines 99-122; lines 47-74 if the `input_shape` given is `[R, C, CH]` and, with `"same"`, the paddings are whole): a
filter `[NC, kr, kc, CH]` and a bias `[1, 1, NC]`. -/
def conv2DLayer (K : Kit) (i : Nat) (p : ConvP) (R C CH : Nat) (e : Ex ℝ) : Ex ℝ :=
  plusE K (i + 5) (convE K i p.geo R C p.NC CH p.record e (.var p.w p.cw)) (.var p.b p.cb)

/-- `Conv1D` applied to an expression of shape `[_, n, CH]` (include/layer.hpp lines 124-135): kernel, stride and dilation 1 along the columns. -/
def conv1DLayer (K : Kit) (i : Nat) (p : ConvP) (n CH : Nat) (e : Ex ℝ) : Ex ℝ :=
  .un (i + 7) (opSqueeze 2) (conv2DLayer K (i + 1) { p with kc := 1, sc := 1, dc := 1 } n 1 CH (.un i (opExpand 2) e))

/-- `Conv2DTranspose` applied to an expression of shape `[_, R, C, CH]` (include/layer.hpp lines 161-183, include/operation.hpp lines 1857-1876). -/
def convTransposeLayer (K : Kit) (i : Nat) (p : ConvP) (R C CH : Nat) (e : Ex ℝ) : Ex ℝ :=
  plusE K (i + 8) (convE K (i + 3) p.geo (Conv.spreadDim R p.kr p.sr p.same) (Conv.spreadDim C p.kc p.sc p.same) p.NC CH p.record
    (.un i (opSpread K p.kr p.kc p.sr p.sc p.same) e)
    (.un (i + 2) (opFlip K 1) (.un (i + 1) (opFlip K 2) (.var p.w p.cw)))) (.var p.b p.cb)

/-! ### networks -/

/-- The layers: an activation, `Dense`, `Conv2D`, `Conv1D`, `Conv2DTranspose`, `Flatten`, `Reshape`, `AveragePooling2D`, `MaxPooling2D`, `UpSampling2D`
(include/layer.hpp lines 99-122, 124-135, 161-183, 235-245, 402-490), and the operators `zero_padding_2d` and `cropping_2d`. -/
inductive Kind where
  | act (op : EOp)
  | dense (w b units : Nat) (cw cb : Cfg ℝ)
  | conv2D (p : ConvP)
  | conv1D (p : ConvP)
  | convTranspose (p : ConvP)
  | flatten
  | reshape (shape : List Nat)
  | avgPool (s : Nat)
  | maxPool (s : Nat) (mask gcache : Ten ℝ)
  | upSample (s : Nat)
  | zeroPad (p : Pool.Pads) (cache : Ten ℝ)
  | crop (p : Pool.Pads)

/-- A layer applied to an expression of shape `s`; its operators have the identities from `i` on, at most nine. -/
def build (K : Kit) (i : Nat) (s : List Nat) (e : Ex ℝ) : Kind → Ex ℝ
  | .act op => el K i op e
  | .dense w b _ cw cb => dense K i w b cw cb e
  | .conv2D p => conv2DLayer K i p (s.getD 1 0) (s.getD 2 0) (s.getD 3 0) e
  | .conv1D p => conv1DLayer K i p (s.getD 1 0) (s.getD 2 0) e
  | .convTranspose p => convTransposeLayer K i p (s.getD 1 0) (s.getD 2 0) (s.getD 3 0) e
  | .flatten => .un i opFlatten e
  | .reshape shape => .un i (opReshape shape) e
  | .avgPool n => .un i (opAvgPool K n) e
  | .maxPool n mask gcache => .un i (opMaxPool K n mask gcache) e
  | .upSample n => .un i (opUpSample K n) e
  | .zeroPad p cache => .un i (opZeroPad K p cache) e
  | .crop p => .un i (opCrop K p) e

end
end Verif.Net
