import Verif.Calls.Model

/-!
# What a C++ compiler makes of the serialised calls (specification)

The functions of the library that are declared, by name and by the way they are called, and what calls they stand for; and `compile`, which replaces each call in
an expression read from the text (`Serial.exec`, C75) by the call it resolves to, or fails if no declared function fits.  The generated lines are taken to be
compiled where the names of namespace `ceras` are visible.
-/
namespace Verif.Calls
open Serial

/-- The functions that are called `f( x )`.  Besides the ones that make an operator: `fabs` (include/operation.hpp line 4200), `reduce_sum`, `reduce_mean` and `mean`
(lines 943, 987, 996) are other names. -/
def direct1 : String → Option D1
  | "negative" => some .negative
  | "inverse" => some .inverse
  | "sum_reduce" => some .sum_reduce
  | "mean_reduce" => some .mean_reduce
  | "square" => some .square
  | "flatten" => some .flatten
  | "transpose" => some .transpose
  | "ones_like" => some .ones_like
  | "zeros_like" => some .zeros_like
  | "sign" => some .sign
  | "abs" => some .abs
  | "acos" => some .acos
  | "acosh" => some .acosh
  | "asin" => some .asin
  | "asinh" => some .asinh
  | "atan" => some .atan
  | "atanh" => some .atanh
  | "cbrt" => some .cbrt
  | "ceil" => some .ceil
  | "cos" => some .cos
  | "cosh" => some .cosh
  | "erf" => some .erf
  | "erfc" => some .erfc
  | "exp" => some .exp
  | "exp2" => some .exp2
  | "expm1" => some .expm1
  | "floor" => some .floor
  | "llrint" => some .llrint
  | "llround" => some .llround
  | "log" => some .log
  | "log10" => some .log10
  | "log1p" => some .log1p
  | "log2" => some .log2
  | "lrint" => some .lrint
  | "lround" => some .lround
  | "nearbyint" => some .nearbyint
  | "rint" => some .rint
  | "round" => some .round
  | "sin" => some .sin
  | "sinh" => some .sinh
  | "sqrt" => some .sqrt
  | "tan" => some .tan
  | "tanh" => some .tanh
  | "trunc" => some .trunc
  | "poisson" => some .poisson
  | "softmax" => some .softmax
  | "selu" => some .selu
  | "softplus" => some .softplus
  | "softsign" => some .softsign
  | "sigmoid" => some .sigmoid
  | "relu" => some .relu
  | "relu6" => some .relu6
  | "exponential" => some .exponential
  | "hard_sigmoid" => some .hard_sigmoid
  | "gelu" => some .gelu
  | "fabs" => some .abs
  | "reduce_sum" => some .sum_reduce
  | "reduce_mean" => some .mean_reduce
  | "mean" => some .mean_reduce
  | _ => none

/-- The functions that are called `f( arguments )( x )`, with arguments that can be written as text: not `detailed_sliding_2d`, which is given three pointers to
storage.  `dropout` (include/operation.hpp line 1949) and `upsampling_2d` (line 2237) are other names. -/
def curried1 : String → Option C1
  | "broadcast" => some .broadcast
  | "clip" => some .clip
  | "reshape" => some .reshape
  | "expand_dims" => some .expand_dims
  | "squeeze" => some .squeeze
  | "argmax" => some .argmax
  | "flip" => some .flip
  | "img2col" => some .img2col
  | "conv2d_tranpose_intermediate" => some .conv2d_tranpose_intermediate
  | "drop_out" => some .drop_out
  | "max_pooling_2d" => some .max_pooling_2d
  | "average_pooling_2d" => some .average_pooling_2d
  | "up_sampling_2d" => some .up_sampling_2d
  | "normalization_batch" => some .normalization_batch
  | "random_normal_like" => some .random_normal_like
  | "zero_padding_2d" => some .zero_padding_2d
  | "cropping_2d" => some .cropping_2d
  | "repeat" => some .«repeat»
  | "reduce_min" => some .reduce_min
  | "reduce_max" => some .reduce_max
  | "reduce_sum" => some .reduce_sum
  | "dropout" => some .drop_out
  | "upsampling_2d" => some .up_sampling_2d
  | _ => none

/-- The functions that are called `f( x, y )` and return an expression: not `concatenate( x, y )` (include/operation.hpp line 2393), which returns a function, nor
`equal( x, y )`, whose template parameter `FP` cannot be deduced without the threshold (line 2675).  `elementwise_multiply` and `hadamard_product` (lines 874, 880)
are other names. -/
def direct2 : String → Option Fn2
  | "plus" => some (.direct .plus)
  | "multiply" => some (.direct .multiply)
  | "elementwise_product" => some (.direct .elementwise_product)
  | "elementwise_multiply" => some (.direct .elementwise_product)
  | "hadamard_product" => some (.direct .elementwise_product)
  | "maximum" => some (.direct .maximum)
  | "minimum" => some (.direct .minimum)
  | "atan2" => some (.direct .atan2)
  | "assign" => some (.direct .assign)
  | "cross_entropy_loss" => some (.crossEntropy "0")
  | _ => none

/-- Removes the comments `/* ... */`. -/
def strip : Bool → List Char → List Char
  | false, '/' :: '*' :: cs => strip true cs
  | false, c :: cs => c :: strip false cs
  | true, '*' :: '/' :: cs => strip false cs
  | true, _ :: cs => strip true cs
  | _, [] => []

/-- The arguments in a text. -/
def arguments (text : String) : String := String.ofList (strip false text.toList)

/-- The call a line with one operand stands for. -/
def call1 (name : String) : UFmt → Option Fn1
  | .plain => (direct1 name).map .direct
  | .args text => (curried1 name).map fun f => .curried f (arguments text)
  | .infixed " + " a => some (.plusScalar a)
  | .infixed " * " a => some (.timesScalar a)
  | _ => none

/-- The call a line with two operands stands for. -/
def call2 (name : String) : Option String → Option Fn2
  | none => direct2 name
  | some text => if name = "concatenate" ∨ name = "concat" then some (.concatenate (arguments text)) else none

/-- The shape hint of a place holder that is declared without one (include/place_holder.hpp lines 34-38). -/
def noHint : List Nat := [2 ^ 64 - 1]

/-- The calls that an expression, as read from the text, stands for. -/
def compile : SEx → Option Ap
  | .ph id ty => some (.ph id ty noHint)
  | .val id ty data => some (.val id ty data)
  | .con id tid ty => some (.con id tid ty)
  | .var id tid ty regs => some (.var id tid ty regs)
  | .un id name fmt x => (call1 name fmt).bind fun f => (compile x).map fun a => .un id f a
  | .bin id name args l r => (call2 name args).bind fun f => (compile l).bind fun a => (compile r).map fun b => .bin id f a b

/-- What model composition means: the input is replaced by the new expression, and the calls are made again (C74). -/
def substitute (fresh : Nat → Nat) (new : Ap) : Ap → Ap
  | .ph _ _ _ => new
  | .un id f x => .un (fresh id) f (substitute fresh new x)
  | .bin id f l r => .bin (fresh id) f (substitute fresh new l) (substitute fresh new r)
  | e => e

/-- The calls with one operand that can be read back. -/
def Fn1.Fine : Fn1 → Prop
  | .direct f => f ≠ .cbrt ∧ f ≠ .exponential
  | .curried f _ => f ≠ .clip ∧ f ≠ .conv2d_tranpose_intermediate ∧ f ≠ .detailed_sliding_2d
  | _ => True

/-- The calls with two operands that can be read back. -/
def Fn2.Fine : Fn2 → Prop
  | .direct f => f ≠ .minimum
  | .concatenate _ => True
  | .equal _ => False
  | .crossEntropy _ => False

/-- Expressions all of whose calls can be read back, and whose place holders have no shape hint. -/
def Ap.Fine : Ap → Prop
  | .ph _ _ hint => hint = noHint
  | .un _ f x => f.Fine ∧ x.Fine
  | .bin _ f l r => f.Fine ∧ l.Fine ∧ r.Fine
  | _ => True

/-- The texts of arguments are numbers and lists of numbers: there is no comment in them. -/
def Ap.Texts : Ap → Prop
  | .un _ (.curried _ args) x => '/' ∉ args.toList ∧ x.Texts
  | .un _ _ x => x.Texts
  | .bin _ (.concatenate axe) l r => '/' ∉ axe.toList ∧ l.Texts ∧ r.Texts
  | .bin _ _ l r => l.Texts ∧ r.Texts
  | _ => True

/-- Expressions made by calls without arguments only. -/
def Ap.Direct : Ap → Prop
  | .un _ (.direct _) x => x.Direct
  | .bin _ (.direct _) l r => l.Direct ∧ r.Direct
  | .un _ _ _ => False
  | .bin _ _ _ _ => False
  | _ => True

end Verif.Calls
