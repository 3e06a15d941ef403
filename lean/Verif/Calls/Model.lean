import Verif.Serial.Model

/-!
# The functions that make operators, and the names their serialisers write (model)

`make_unary_operator` and `make_binary_operator` take the name of the operator as a string (include/operation.hpp lines 122-137, 242-256), and the serialisers write
that string as the name of the function to call (include/utils/enable_serializer.hpp lines 17-19, 33-38, include/operation.hpp lines 338-370).  Whether it is the
name of the function that made the operator, called with the same arguments, is up to each call of `make_unary_operator`.  This file transcribes them one by one:
for each function, its name, the name of its operator and its serialiser.

Functions made of others (`minus`, `hypot`, `conv2d`, `swish`, the losses of means, ...) have no operator of their own: they are expressions in the functions below.
`pow` (include/operation.hpp line 4904), `leaky_relu` and `elu` (include/activation.hpp lines 400, 455) are not here: they pass their serialiser where the shape
calculator is expected, which the `static_assert` of line 130 rejects, so that they cannot be instantiated.

The arguments of a function are kept as the text fmt writes for them (C124, C125), separated by commas.
-/
namespace Verif.Calls
open Serial

/-- Functions that are called `f( x )`.  The line of the function and of the name of its operator, in include/operation.hpp or (marked a) in
include/activation.hpp: negative 673, 685, inverse 813, 832, sum_reduce 922, 937, mean_reduce 961, 978, square 1037, 1054, flatten 1195, 1212, transpose 1471, 1516, ones_like 2631, 2637, zeros_like 2651, 2657, sign 2717, 2739, abs 3610, 3628, acos 3647, 3665, acosh 3684, 3702, asin 3721, 3739, asinh 3758, 3776, atan 3795, 3813, atanh 3832, 3850, cbrt 3869, 3887, ceil 3906, 3921, cos 3940, 3958, cosh 3977, 3995, erf 4014, 4032, erfc 4051, 4070, exp 4089, 4107, exp2 4126, 4144, expm1 4163, 4181, floor 4220, 4234, llrint 4257, 4271, llround 4290, 4304, log 4323, 4341, log10 4360, 4378, log1p 4397, 4415, log2 4434, 4452, lrint 4468, 4483, lround 4502, 4516, nearbyint 4535, 4549, rint 4568, 4582, round 4601, 4615, sin 4634, 4652, sinh 4671, 4689, sqrt 4708, 4726, tan 4745, 4763, tanh 4782, 4800, trunc 4815, 4829, poisson 4878, 4890, softmax 90, 115 a, selu 131, 161 a, softplus 177, 197 a, softsign 214, 234 a, sigmoid 250, 271 a, relu 328, 331 a, relu6 381, 384 a, exponential 493, 513 a, hard_sigmoid 529, 549 a, gelu 570, 607 a. -/
inductive D1 where
  | negative | inverse | sum_reduce | mean_reduce | square | flatten | transpose | ones_like
  | zeros_like | sign | abs | acos | acosh | asin | asinh | atan
  | atanh | cbrt | ceil | cos | cosh | erf | erfc | exp
  | exp2 | expm1 | floor | llrint | llround | log | log10 | log1p
  | log2 | lrint | lround | nearbyint | rint | round | sin | sinh
  | sqrt | tan | tanh | trunc | poisson | softmax | selu | softplus
  | softsign | sigmoid | relu | relu6 | exponential | hard_sigmoid | gelu
deriving DecidableEq

/-- Functions that are called `f( arguments )( x )`.  The lines in include/operation.hpp: broadcast 464, 515, clip 1080, 1102, reshape 1115, 1154, expand_dims 1231, 1252, squeeze 1274, 1289, argmax 1329, 1381, flip 1432, 1450, img2col 1525, 1643, conv2d_tranpose_intermediate 1765, 1844, drop_out 1883, 1938, max_pooling_2d 2047, 2061, average_pooling_2d 2072, 2131, up_sampling_2d 2212, 2225, normalization_batch 2245, 2365, random_normal_like 2600, 2614, zero_padding_2d 2824, 2857, cropping_2d 2949, 2982, detailed_sliding_2d 2996, 3081, repeat 3185, 3198, reduce_min 3319, 3331, reduce_max 3454, 3466, reduce_sum 3571, 3582. -/
inductive C1 where
  | broadcast | clip | reshape | expand_dims | squeeze | argmax
  | flip | img2col | conv2d_tranpose_intermediate | drop_out | max_pooling_2d | average_pooling_2d
  | up_sampling_2d | normalization_batch | random_normal_like | zero_padding_2d | cropping_2d | detailed_sliding_2d
  | «repeat» | reduce_min | reduce_max | reduce_sum
deriving DecidableEq

/-- Functions that are called `f( x, y )`: `plus` (include/operation.hpp lines 562, 570), `multiply` (lines 655, 660), `elementwise_product` (lines 848, 869),
`maximum` (lines 2477, 2511), `minimum` (lines 2516, 2550), `atan2` (lines 2558, 2582), `assign` (lines 4848, 4860). -/
inductive D2 where
  | plus | multiply | elementwise_product | maximum | minimum | atan2 | assign
deriving DecidableEq

/-- A call with one operand. -/
inductive Fn1 where
  | direct (f : D1)
  | curried (f : C1) (args : String)
  /-- `x + a` (include/operation.hpp lines 690-722) -/
  | plusScalar (a : String)
  /-- `x * a` (include/operation.hpp lines 741-777) -/
  | timesScalar (a : String)
deriving DecidableEq

/-- A call with two operands. -/
inductive Fn2 where
  | direct (f : D2)
  /-- `concatenate( axe )( x, y )` (include/operation.hpp lines 2392-2462) -/
  | concatenate (axe : String)
  /-- `equal( x, y, threshold )` (include/operation.hpp lines 2675-2702) -/
  | equal (threshold : String)
  /-- `cross_entropy_loss( x, y, factor )` (include/loss.hpp lines 129-133) -/
  | crossEntropy (factor : String)
deriving DecidableEq

/-- An expression, by the calls that make it.  A place holder has its shape hint (include/place_holder.hpp lines 34-50, 77-80). -/
inductive Ap where
  | ph (id : Nat) (ty : String) (hint : List Nat)
  | val (id : Nat) (ty data : String)
  | con (id tid : Nat) (ty : String)
  | var (id tid : Nat) (ty regs : String)
  | un (id : Nat) (f : Fn1) (x : Ap)
  | bin (id : Nat) (f : Fn2) (l r : Ap)
deriving DecidableEq

/-- The name of the function. -/
def D1.fn : D1 → String
  | .negative => "negative"
  | .inverse => "inverse"
  | .sum_reduce => "sum_reduce"
  | .mean_reduce => "mean_reduce"
  | .square => "square"
  | .flatten => "flatten"
  | .transpose => "transpose"
  | .ones_like => "ones_like"
  | .zeros_like => "zeros_like"
  | .sign => "sign"
  | .abs => "abs"
  | .acos => "acos"
  | .acosh => "acosh"
  | .asin => "asin"
  | .asinh => "asinh"
  | .atan => "atan"
  | .atanh => "atanh"
  | .cbrt => "cbrt"
  | .ceil => "ceil"
  | .cos => "cos"
  | .cosh => "cosh"
  | .erf => "erf"
  | .erfc => "erfc"
  | .exp => "exp"
  | .exp2 => "exp2"
  | .expm1 => "expm1"
  | .floor => "floor"
  | .llrint => "llrint"
  | .llround => "llround"
  | .log => "log"
  | .log10 => "log10"
  | .log1p => "log1p"
  | .log2 => "log2"
  | .lrint => "lrint"
  | .lround => "lround"
  | .nearbyint => "nearbyint"
  | .rint => "rint"
  | .round => "round"
  | .sin => "sin"
  | .sinh => "sinh"
  | .sqrt => "sqrt"
  | .tan => "tan"
  | .tanh => "tanh"
  | .trunc => "trunc"
  | .poisson => "poisson"
  | .softmax => "softmax"
  | .selu => "selu"
  | .softplus => "softplus"
  | .softsign => "softsign"
  | .sigmoid => "sigmoid"
  | .relu => "relu"
  | .relu6 => "relu6"
  | .exponential => "exponential"
  | .hard_sigmoid => "hard_sigmoid"
  | .gelu => "gelu"

/-- The name given to the operator. -/
def D1.op : D1 → String
  | .cbrt => "cbert"
  | .exponential => "exponentional"
  | f => f.fn

/-- The name of the function. -/
def C1.fn : C1 → String
  | .broadcast => "broadcast"
  | .clip => "clip"
  | .reshape => "reshape"
  | .expand_dims => "expand_dims"
  | .squeeze => "squeeze"
  | .argmax => "argmax"
  | .flip => "flip"
  | .img2col => "img2col"
  | .conv2d_tranpose_intermediate => "conv2d_tranpose_intermediate"
  | .drop_out => "drop_out"
  | .max_pooling_2d => "max_pooling_2d"
  | .average_pooling_2d => "average_pooling_2d"
  | .up_sampling_2d => "up_sampling_2d"
  | .normalization_batch => "normalization_batch"
  | .random_normal_like => "random_normal_like"
  | .zero_padding_2d => "zero_padding_2d"
  | .cropping_2d => "cropping_2d"
  | .detailed_sliding_2d => "detailed_sliding_2d"
  | .«repeat» => "repeat"
  | .reduce_min => "reduce_min"
  | .reduce_max => "reduce_max"
  | .reduce_sum => "reduce_sum"

/-- The name given to the operator. -/
def C1.op : C1 → String
  | .conv2d_tranpose_intermediate => "conv2d_transpose_intermediate"
  | .drop_out => "dropout"
  | f => f.fn

/-- The serialiser given to the operator: the argumented one, except for `clip` (include/operation.hpp line 1102) and `detailed_sliding_2d` (line 3081), which leave
it at the default, and `expand_dims` (lines 1264-1271), which writes a comment after its argument. -/
def C1.fmt (args : String) : C1 → UFmt
  | .clip => .plain
  | .detailed_sliding_2d => .plain
  | .expand_dims => .args (args ++ "/*axis*/")
  | _ => .args args

/-- The name of the function. -/
def D2.fn : D2 → String
  | .plus => "plus"
  | .multiply => "multiply"
  | .elementwise_product => "elementwise_product"
  | .maximum => "maximum"
  | .minimum => "minimum"
  | .atan2 => "atan2"
  | .assign => "assign"

/-- The name given to the operator. -/
def D2.op : D2 → String
  | .minimum => "minmum"
  | f => f.fn

/-- The name and the serialiser of the operator that a call makes. -/
def Fn1.op : Fn1 → String × UFmt
  | .direct f => (f.op, .plain)
  | .curried f args => (f.op, f.fmt args)
  | .plusScalar a => ("arithmetic_plus", .infixed " + " a)
  | .timesScalar a => ("arithmetic_multiply", .infixed " * " a)

/-- The name of the operator that a call makes, and the text of its arguments if its serialiser is the argumented one. -/
def Fn2.op : Fn2 → String × Option String
  | .direct f => (f.op, none)
  | .concatenate axe => ("concatenate", some axe)
  | .equal _ => ("equal", none)
  | .crossEntropy _ => ("CrossEntropyLoss", none)

/-- The expression made by the calls, as far as it is serialised. -/
def Ap.made : Ap → SEx
  | .ph id ty _ => .ph id ty
  | .val id ty data => .val id ty data
  | .con id tid ty => .con id tid ty
  | .var id tid ty regs => .var id tid ty regs
  | .un id f x => .un id f.op.1 f.op.2 x.made
  | .bin id f l r => .bin id f.op.1 f.op.2 l.made r.made

/-- `replace_placeholder_with_expression( ex, old_place_holder, new_expression )` (include/model.hpp lines 43-72), as far as the result is serialised: place holders
become the new expression, and operators are made again with their actions, their name and their shape calculator, but with the default serialiser.  `fresh` says
which identity the operator gets that is made for an old one.  (As in C74, the members the code reads are those in `state_`.) -/
def replace (fresh : Nat → Nat) (new : SEx) : SEx → SEx
  | .ph _ _ => new
  | .un id name _ x => .un (fresh id) name .plain (replace fresh new x)
  | .bin id name _ l r => .bin (fresh id) name none (replace fresh new l) (replace fresh new r)
  | e => e

end Verif.Calls
