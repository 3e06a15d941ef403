/-!
# Serialising expressions to C++ text (model)

`include/utils/enable_serializer.hpp`, `serialize` of `include/tensor.tcc` lines 1307-1322, `include/place_holder.hpp` lines 136-144, `include/variable.hpp`
lines 207-219, `include/constant.hpp` lines 66-77, `include/value.hpp` lines 90-97, `include/operation.hpp` lines 312-371, 711-719, 767-775, 4923-4930, and
`computation_graph` of `include/operation.hpp` lines 380-453.

A line of code is kept as a list of pieces: names, and the text between them.  How numbers and shapes are printed (fmt) is left open: they are text already.
The side effect of serialising a tensor (writing its file) is not modelled.
-/
namespace Verif.Serial

/-- What is before the number in a name. -/
inductive Kind where
  | tensor
  | placeHolder
  | value
  | constant
  | var
  | unary (name : String)
  | binary (name : String)
deriving DecidableEq

/-- A name in the program, for instance `unary_expression_relu_17`. -/
structure Nm where
  kind : Kind
  id : Nat
deriving DecidableEq

/-- The text before the number (include/utils/enable_serializer.hpp lines 17, 33, include/tensor.tcc line 1310, include/place_holder.hpp line 140,
include/value.hpp line 93, include/constant.hpp line 69, include/variable.hpp line 213). -/
def Kind.text : Kind → List Char
  | .tensor => "tensor_".toList
  | .placeHolder => "place_holder_".toList
  | .value => "value_".toList
  | .constant => "constant_".toList
  | .var => "variable_".toList
  | .unary s => "unary_expression_".toList ++ s.toList ++ ['_']
  | .binary s => "binary_expression_".toList ++ s.toList ++ ['_']

/-- The name as text. -/
def Nm.render (n : Nm) : List Char := n.kind.text ++ Nat.toDigits 10 n.id

/-- A piece of a line. -/
inductive Tok where
  | lit (s : String)
  | name (n : Nm)
deriving DecidableEq

/-- How the line of a unary operator is written. -/
inductive UFmt where
  /-- `auto n = f(x);` (`default_unary_expression_serializer`) -/
  | plain
  /-- `auto n = f( args )( x );` (`make_argumented_operator_serializer`) -/
  | args (text : String)
  /-- `auto n = x + a;` and `auto n = x * a;` (include/operation.hpp lines 711-719, 767-775) -/
  | infixed (op arg : String)
  /-- `auto n = pow( x, a );` (include/operation.hpp lines 4923-4930) -/
  | post (arg : String)
deriving DecidableEq

/-- An expression, as far as it is serialised. -/
inductive SEx where
  | ph (id : Nat) (ty : String)
  | val (id : Nat) (ty data : String)
  | con (id tid : Nat) (ty : String)
  | var (id tid : Nat) (ty regs : String)
  | un (id : Nat) (name : String) (fmt : UFmt) (x : SEx)
  | bin (id : Nat) (name : String) (args : Option String) (l r : SEx)
deriving DecidableEq

/-- `serialize( tensor )` (include/tensor.tcc lines 1307-1322). -/
def serializeT (tid : Nat) (ty : String) : Nm × List (List Tok) :=
  (⟨.tensor, tid⟩,
    [[.lit "ceras::tensor<", .lit ty, .lit "> ", .name ⟨.tensor, tid⟩, .lit ";"],
     [.name ⟨.tensor, tid⟩, .lit ".load_tensor( \"", .name ⟨.tensor, tid⟩, .lit ".txt\" );"]])

/-- The line of a unary operator. -/
def unaryLine (self : Nm) (name : String) (x : Nm) : UFmt → List Tok
  | .plain => [.lit "auto ", .name self, .lit " = ", .lit name, .lit "(", .name x, .lit ");"]
  | .args text => [.lit "auto ", .name self, .lit " = ", .lit name, .lit "( ", .lit text, .lit " )( ", .name x, .lit " );"]
  | .infixed op arg => [.lit "auto ", .name self, .lit " = ", .name x, .lit op, .lit arg, .lit ";"]
  | .post arg => [.lit "auto ", .name self, .lit " = ", .lit name, .lit "( ", .name x, .lit ", ", .lit arg, .lit " );"]

/-- `serialize( expression )`: the name and the code. -/
def serialize : SEx → Nm × List (List Tok)
  | .ph id ty => (⟨.placeHolder, id⟩, [[.lit "ceras::place_holder<ceras::tensor<", .lit ty, .lit ">> ", .name ⟨.placeHolder, id⟩, .lit ";\n"]])
  | .val id ty data => (⟨.value, id⟩, [[.lit "ceras::value<", .lit ty, .lit "> ", .name ⟨.value, id⟩, .lit "( ", .lit data, .lit " );"]])
  | .con id tid ty =>
    let (t, code) := serializeT tid ty
    (⟨.constant, id⟩, code ++ [[.lit "ceras::constant<ceras::tensor<", .lit ty, .lit ">> ", .name ⟨.constant, id⟩, .lit " ( ", .name t, .lit " );"]])
  | .var id tid ty regs =>
    let (t, code) := serializeT tid ty
    (⟨.var, id⟩, code ++ [[.lit "ceras::variable<ceras::tensor<", .lit ty, .lit ">> ", .name ⟨.var, id⟩, .lit "( ", .name t, .lit "/*tensor*/, ", .lit regs, .lit " );"]])
  | .un id name fmt x =>
    let (n, code) := serialize x
    (⟨.unary name, id⟩, code ++ [unaryLine ⟨.unary name, id⟩ name n fmt])
  | .bin id name none l r =>
    let (nl, cl) := serialize l
    let (nr, cr) := serialize r
    (⟨.binary name, id⟩, cl ++ cr ++ [[.lit "auto ", .name ⟨.binary name, id⟩, .lit " = ", .lit name, .lit "( ", .name nl, .lit ", ", .name nr, .lit " );"]])
  | .bin id name (some args) l r =>
    let (nl, cl) := serialize l
    let (nr, cr) := serialize r
    (⟨.unary name, id⟩, cl ++ cr ++ [[.lit "auto ", .name ⟨.unary name, id⟩, .lit " = ", .lit name, .lit "( ", .lit args, .lit " )( ", .name nl, .lit ", ", .name nr, .lit " );"]])

/-- The identity of an expression. -/
def SEx.id : SEx → Nat
  | .ph id _ => id
  | .val id _ _ => id
  | .con id _ _ => id
  | .var id _ _ _ => id
  | .un id _ _ _ => id
  | .bin id _ _ _ _ => id

/-- A line of the graph description: a node, or an arrow. -/
inductive Dot where
  | node (id : Nat)
  | arrow (src dst : Nat)
deriving DecidableEq

/-- `computation_graph` (include/operation.hpp lines 380-453), without the labels. -/
def dot : SEx → List Dot
  | .un id _ _ x => [.node id, .arrow x.id id] ++ dot x
  | .bin id _ _ l r => [.node id, .arrow l.id id, .arrow r.id id] ++ dot l ++ dot r
  | e => [.node e.id]

end Verif.Serial
