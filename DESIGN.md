# Formal model of ceras — design

Subject: `fengwang/ceras` (header-only C++ deep learning library), source read as text from `/repo`.
Nothing of it is compiled or run.  The Lean project in `lean/` re-states the code function by function as
total Lean functions (each definition cites file and lines) and proves the properties of `properties.jsonl`.

## Trusted base

* Lean 4.33.0's kernel; the axioms `propext`, `Classical.choice`, `Quot.sound` (and nothing else; no axiom of
  our own, no `sorry`, no `native_decide`, no `bv_decide`).  Mathlib is used for lemmas (sums, reals, derivatives).
* The hand translation from C++ to Lean.  Every definition names the lines it models; simplifications are said
  at the definition and summarised here:
  - **Outcomes.** A computation yields `Res α = ok a | abort | ub`.  `abort` is a failed `better_assert`
    (active in debug builds), `ub` is undefined behaviour (out-of-bounds access, `front()` of an empty vector,
    a loop that does not end, use of a released block).  A theorem concluding `= .ok …` therefore also says
    that no assertion fails and no undefined behaviour happens.
  - **Integers.** `unsigned long` sizes and indices are `Nat`; wrap-around at 2^64 is not modelled except where
    the code relies on it (`-1UL` as "last axis", unsigned wrap-around comparisons), where it is written out.
  - **Numbers.** `float`/`double` elements are an abstract commutative ring, a linear order, or `ℝ`; rounding, NaN
    and infinities are modelled in `Verif/Fp` (C118) and `Verif/Nan` (C119) only.  Statements that need only data movement use an arbitrary type.
  - **Buffers** are lists with checked reads and writes; pointer arithmetic becomes an index, and leaving the buffer is `ub`.
  - **Aliasing** is modelled where it matters (heap of buffers, tensors = shape + location); pure kernels take
    separate input and output buffers.
  - **Randomness** (masks, shifts, initial weights) is a universally quantified argument.
  - **Template meta-programming** (overload choice) is resolved by hand.
  - Streams, `std::reduce` (fixed left-to-right order), `std::unordered_map` (iteration order = an arbitrary list order)
    are modelled by their specification.
  - **Text.** Characters are `Char`, files are lists; opening and writing files always succeeds.  Finite floating point numbers in files are
    rationals, printed as `%.pg` and rounded to nearest (`Verif/Text`); there the rounding is modelled, but not the limits of the exponent.
* Axioms per theorem: every theorem named in `MANIFEST.json` depends on a subset of `propext`, `Classical.choice`, `Quot.sound`
  (`#print axioms`); data-movement theorems over an arbitrary element type mostly need `propext` and `Quot.sound` only.
* Not modelled: the CUDA backend but for matrix products (C123), plotting/debug printing, the encoding of image files, structures in `fmt`,
  `recurrent.hpp`, `extra/` (do not compile against the current headers), `xmodel.hpp`, random number quality,
  speed, memory consumption, exceptions other than `bad_alloc` in the allocator.
* Code that does not compile as it stands and is modelled as intended: `replace_placeholder_with_expression` and `make_trainable` of model.hpp
  for operators (their members have moved into `state_`), `pow` (operation.hpp 4904-4930), `leaky_relu` and `elu` (activation.hpp 400, 455: the
  serialiser is passed where the shape calculator belongs), `equal` without threshold (its type cannot be deduced), a number divided by an expression, `session::tap` (const).

## Layout

`lean/Verif/Basic/*` outcome monad, loops, buffers, index arithmetic.
`lean/Verif/<Area>/Model.lean` the code; `Spec.lean` independent specification; `Lemmas.lean` helpers;
`Props.lean` the property theorems, each with a concrete instance beside it.

## When the code does not have the property

The negation is proved on a concrete witness (`…_violated`), and the part that does hold is proved as a
theorem named `…_partial`.  These are status `partial` in `MANIFEST.json`.  The list of disagreements found is at the end.

## Plan per property

| id | what is modelled | how it is proved |
|----|------------------|------------------|
| C01 | whole of lzw.hpp: BST dictionary, bit writer/reader, both loops | simulation relation between encoder and lagging decoder, induction over input; bit-level refinement to bit lists |
| C02 | same | invariant: BST indices in range, size <= dms, code < 2^bits |
| C03 | decoder on arbitrary bytes | negation by witness (first code 257) and in general; the streams with undefined behaviour characterised exactly (`Dangling`, from the codes of the stream), rank function along dictionary chains; partial: all other streams |
| C04 | decoder on a byte prefix of the encoder's output | induction over emitted codes with a truncated bit stream |
| C05, C06 | slicing arithmetic of parallel() | permutation of the call multiset; C06 negated by witness, partial for first=0 or the serial/one-thread-per-index regimes |
| C07 | workers as sequences of load/store micro-steps, arbitrary interleavings | invariant over interleavings: each cell is old, loaded or final |
| C08–C10 | memory_cache as a state machine | invariants over histories; C09 negated by witness, partial without failures |
| C11–C14 | heap of storages, tensors as (shape, location) | invariants; C11 negated by aliased resize, partial for unshared storage |
| C15 | view subscripts as index functions | arithmetic bijection |
| C16 | broadcast_shape loop | refinement to a right-aligned pointwise spec |
| C17–C19 | broadcast_tensor/add/minus on the heap | induction on the number of dimensions still to expand; C19 negated by witness, partial when the left operand really is expanded |
| C20–C22 | gemm_cpu loops, multiply, cblas argument mapping | loop calculus (per-cell transformer); C21 matrix*vector negated, partial for 2-D and row vector |
| C23–C34 | tensor.tcc / operation.hpp data movement kernels | loop calculus, index decode lemmas; C25, C28 negated + partial |
| C35–C39 | img2col index construction, rearrangement, gather/scatter, conv2d composition | loop calculus with accumulation; adjointness by exchanging sums; C38, C39 negated + partial |
| C40–C48 | pooling, sampling, padding, cropping, repeat, reduce ops, maximum/minimum | loop calculus; C41, C42, C44, C48 negated + partial |
| C49, C50 | backward of + and * | adjointness from the forward specs |
| C51 | each element-wise forward/backward pair over the reals | `HasDerivAt`; negations for log1p, atan2, softplus, elu, gelu, … |
| C52 | mean_reduce | negation + partial (1-D with … see theorem) |
| C53–C56 | object graph with node copies, session cache, input/output members | induction over expressions; C54, C56 negated + partial |
| C57 | variable state machine | invariant; double regularisation negated + partial |
| C58–C61 | optimizer step functions | step equations and closed forms; negations for the momentum flag, decay, adadelta, freezing |
| C62, C63 | fit/evaluate loops as event traces | trace equality; C62 negated + partial |
| C64 | dataset label loop | loop calculus; precondition label < 10 explicit |
| C65, C66 | write/read tensor on character streams with abstract element printer | round trip by induction over tokens/lines |
| C67 | uid counter | invariant |
| C68 | operators on place holders | negation + partial |
| C69 | complex_operator.hpp as ring expressions | ring identities; negation of E - C |
| C70–C73 | dropout, batch norm, softmax, cross entropy over ℝ | algebra/analysis; negations where backward disagrees |
| C74 | expression substitution | semantic substitution lemma; negation with two place holders |
| C75 | serialiser as list of definitions | induction over expressions |
| C76 | concatenate's backward copies | loop calculus; undefined as written (two temporaries), adjoint with the intended reading |
| C77 | operators made by one factory share cache locations | heap of caches; negation + partial for separate factories |
| C78 | conv2d's filter index | negation + the condition under which the layouts agree |
| C79 | shape calculators of 26 operators | induction over expressions against the forward models; negations per operator |
| C80 | sliding_2d forward/backward with recorded shifts | loop calculus, reindexing sums; negation outside training |
| C81, C82 | elementwise_product, broadcast backward | adjointness; cyclic stretching negated |
| C83 | results on the heap over several runs | negation by witness |
| C84, C85, C89 | optimizer contexts in the session's registry | state machine; negations + partial |
| C86 | loss along a step of sgd | derivative of the loss along the step, from C53 |
| C87 | evaluate/predict as state transformers | frame conditions; negation for the learning phase |
| C88 | MNIST image loop | loop calculus |
| C90, C91 | dropout's mask over runs; expectation as an integral | state machine; measure of an interval |
| C92, C93 | backward of batch normalisation and softmax | `HasDerivAt` of the forward action against the backward action |
| C94, C95 | serialiser/computation graph as lists of declarations | induction over expressions |
| C96 | freezing a model through the registry | state machine with copies |
| C97 | save_tensor/load_tensor with decimal and binary rounding | reading undoes printing digit by digit; Matula's theorem for the positive part |
| C98 | loss.hpp as expressions over the modelled operators, by value and on the heap | composition of operator specs; step-by-step run on the heap for binary cross entropy |
| C99 | the same, training pass and backward | `gradient_is_derivative_partial` on the composed expressions; negation for means |
| C100 | the same on the heap | frame conditions; negation through the storage of the labels |
| C101 | Dense, lists of layers | induction over the layers: value, derivability, identities |
| C102 | fit and train_on_batch | loop invariant relating the two states |
| C103 | spreading, flips, general_conv2d | direct convolution of the spread image re-indexed to the transposed convolution; adjointness by exchanging sums; negation for two channels |
| C104 | the same with strides | general negation on the extents; the values are the subsampled transposed convolution |
| C105 | layer.hpp as expressions: convolutions, pooling, reshaping, padding; lists of layers | every linear operator is a matrix and its transpose (`Adjoint`); max pooling by its largest element; induction over the layers |
| C106 | whole training passes on tensors that are a shape and a storage | simulation of the pass by value: forward keeps what backward will read, induction over the expression; negation for inputs and labels in one storage |
| C107 | mean, variance, standard_deviation, var, std, norm, linspace (any field) | broadcasting along one axis, the sums of C27; general negations for var, std, norm |
| C108 | random, randn, truncated_normal over a sequence of numbers | the elements are the next acceptable numbers of the sequence |
| C109 | glorot_uniform and its uses in layer.hpp | exact elements; comparison of the bounds, general negation for convolutions |
| C110 | heaviside_step, swish, mish, lisht, tank_shrink, crelu, division | values from C98's rules; derivatives from C99's; general negations: matrix products, operators used twice |
| C111 | whole runs of fit: loss, optimizer and operators that hold records and caches, over epochs | one-step lemma (stored gradients are the partial derivatives, optimizers as rules), loop invariant along the path; networks by C105, with what the operators hold after a pass |
| C112 | Add, Subtract, Multiply, Concatenate of layer.hpp; programs that use values any number of times | programs as lists of statements, induction over them; order of visits of the forward pass (`Log`) shows that one of two objects stays without operands; general negations |
| C113 | fit, evaluate, train_on_batch of model.hpp and the optimizers on storages that may be shared | simulation by the by-value run (`Rel`), frame theorem for a pass (`Train.Frame`), descent from C111; general negation for repeated calls |
| C114 | string2float32, float32 of utils/float32.hpp (a pointer is the rest of the memory, reading at its end is undefined, `int` of 32 bits, `float` a field without rounding) | grammar of literals as an inductive structure; structural induction on the digits; every terminated string begins with a maximal literal |
| C115 | all constructors, assignments, resize, clear and destructor of utils/vector.hpp on the allocator model of C08 (byte addressed memory, elements of any size) | simulation of programs by lists of values; ownership as a permutation: blocks held = blocks of the vectors ++ lost blocks, exact for every program; general negations |
| C116 | the rounding operators, sign, equal, ones_like, zeros_like of operation.hpp over the reals (unspecified conversions to 64-bit integers are an arbitrary function) | characterisation of the integer by bounds, proved unique; functions constant near every point off the jumps; general negation for the rounding operators |
| C117 | buffered_allocator.hpp and the operations tensor.hpp does on `shape_`, with the pointers of std::vector (libstdc++), objects with the cache inside, blocks of the heap with the count they were asked for | simulation by lists with capacities, exact (runs or is undefined); bound 16 on the rank from the growth rule; general negations |
| C118 | the models of gemm_cpu, the matrix product operator, sum and reduce (which assume no laws) on IEEE 754 numbers of any binary format, with fma | a class of arithmetics with rounding; forward error by induction over arbitrary trees of additions; the formats shown to be instances (nearest even by floor arithmetic on the last bit) |
| C119 | has_nan, has_inf, is_valid, the activations and inverse for numbers with NaN; the models of clip, max, min, softmax, cross entropy, maximum, minimum, equal, reduce_max/min, max pooling, gemm and sum (stated for any order and no laws) on them | a class of numbers with NaN (comparisons false, arithmetic strict), floating point numbers shown to be such; loop invariants that follow the picked element; general negations |
| C120 | stride_iterator, col_begin/col_end, view_3d, the loops of std::reduce (libstdc++), accumulate, fill, max_element; reduce, reduce_sum (both passes), reduce_min/max written with them; pointers as integers, with and without the rule that they stay in their block | index laws; a range loop is a counted loop; bridges to the models with computed positions; refinement between the two pointer rules; the offending end iterator in general |
| C121 | compiled_model as an object with an address: its own root fields, an optimizer with a reference to the loss of the object it was made in; construction, the compiler's copy and move constructors, destruction; running the loss and the optimizer of an object; every optimizer of Verif.Optim | bridge to Fit.compiled; a frame relation (states that differ in one place holder and the root) kept by both passes and the update; the root's fields do not matter below it; general negations |
| C122 | the regularizer of variable.hpp as in C53/C86, with the training step of sgd and fit of C111; the documented meaning of the coefficients (layer.hpp) as a penalty in the specification | derivative of the penalty along curves; the objective's partial derivatives are what is stored; the path of C111 for any stored derivatives (fit_follows); general negations |
| C123 | cuda_memory_cache, cuda_gemm, update_cuda_gemm_threshold and gemm with cuda_mode 1; the device as blocks of bytes in which elements are written and read; cudaMalloc and the clock as oracles, cuBLAS by its documentation | layout of the three matrices in the block; exchange of operands against the column-major specification; invariant of the cache over programs; fuel for the search; general negations |
| C124, C125 | format, plain_format, indexed_format, replace_all, replace_once, to_string and iterator_to_string with the write position of the stream; the format strings of all serialisers | first occurrence and left-to-right replacement; stages of substitution; texts closed under joining; a small reader of C++ lists as specification; bridge to the lines of Verif.Serial and to the printed numbers of Verif.Text; general negations |
| C126 | the name and arguments each make_unary/make_binary operator writes and each replacement passes on, as tables; compilation as look-up of names in the library | look-up against writing, operator by operator, then induction over expressions; with `serialize_rebuilds` (C94) for the text; equivalence; general negations |
| C127 | place_holder with its shared state, bind/rebind/end of session; states in a list, copies share a place | effect of each command on one place; induction over programs against the last binding; general negations |
| C128 | the checked functions of the tensor models with the build as an argument, including the code behind checks that stop; better_assert | outcome of one build against that of the other through all sequencings (equal or aborted); success of a copying loop implies its last write is inside; general negations |
| C129 | imread, direct_imwrite, imwrite, imresize; files as a table of names, the picture library through its documentation (png without loss, layout and size of buffers), scaling in exact arithmetic | copying loop; extension by recursion against 'from the last dot'; floor against the two bounds; general negations |
| C130 | the six optimizers of the graph stack with losses of C53, over the reals | derivative of the loss along a step that scales the gradient element by element by positive factors; the opposite sign for the memories that point uphill |
| C131 | the loops of the six optimizers over one variable, for numbers with NaN (the class `Floats` of Verif/Nan) and for the rounded formats of the float model | each element by itself; NaN through every operation of a step; induction over later rounds; overflow of the square against the largest number |
| C132 | translate, compile_pattern, fnmatch_case, filter, iter_directory, glob0, glob1, glob; std::regex as tokens, shift-reduce parser and matching relation for the expressions that are written; directories as a tree without links | text of a pattern through its tokens to its expression by induction on the items; matching against the documented relation; membership by induction on the parts of the path; general negations |
| C133 | the formulas of the activations and their backward passes over the rounded formats of Verif/Fp, with exp, log and tanh as any functions rounded faithfully (`Maths`); the loops of softmax | an interval calculus: rounding is monotone and keeps numbers of the format, so bounds on the exact results carry over; overflow shown from a bound on the exponential |
| C134 | the fused loss of loss.hpp with softmax, forward and backward; the graphs of binary_cross_entropy_loss and cross_entropy over stored tensors, with the NaN check of operator - as written | invariant of the sum: below 2^(p+6) or stuck there because the terms round away; NaN of a product of 0 and an infinity through the reductions |
| C135 | the graphs of dense layers of C101 with the operators over any arithmetic that rounds (`Arith` of C118); activations over the rounded formats, exp and tanh as functions with a stated error | induction on the layers with the error as a function of the output; Lipschitz bounds of relu, leaky_relu, tanh and the logistic function by the mean value theorem |
| C136 | the graphs of C135 with their backward actions, session run, backward pass and storing of gradients (the graph model of C55 to C58 over any arithmetic that rounds); backward actions of relu, sigmoid and tanh over the rounded formats, tanh in one format | arrivals at the variables by induction on the layers; sums with a number of roundings composed; the specification shown to be the chain rule along curves of inputs and weights |
| C137 | conv2d and general_conv2d of C37 over any arithmetic that rounds | the products of a row of the filter matrix and a column of the gathered image are those of the direct convolution, in one order; the bound of C118 |
| C138 | the expression of conv2d (C105) over any arithmetic that rounds, with the backward actions of reshape, transpose, matrix product and img2col | scattering with additions from the left as a list of places; at most one place per tap of the kernel; sums of sums of products with one bound; exchange of sums for the specification |
| C139 | `operator <<` of tensors (tensor.tcc 264-299) as a function to characters; `ostream_iterator` as a loop with checked reads; printing an element is any function to a word | lines and words of the text read back; division of the place in memory into line and column |
| C140 | `poisson`, `randn_like` and the operators made of them; the generator is an unknown function of mean and state | loop invariant over the numbers drawn; the expected value is constant between whole numbers |
| C141 | the rules of gradient_descent and sgd and the loop over the registered variables over any arithmetic, shown equal to those of `Verif.Optim` for the reals; session run, backward pass and storing as in C136; the loss enters as what it sends to the outputs | the gradients of C136 for a graph with a loss on top, layer by layer; errors of products and differences composed |
| C142 | squared_loss and mean_squared_error as graphs over the rounded formats: minus (place holder of labels plus negative), square, sum_reduce, mean_reduce and their backward actions | the errors of difference, products and reduction composed; derivative of the loss by the chain rule of C136 |
| C143 | softmax and cross_entropy_loss (forward and backward) over the rounded formats, the functions of `Verif.Softmax` with the operations of the format; the exponential and the logarithm enter with a relative error only | the relative errors of shift, exponential, sum and quotient composed; derivative of the logarithm of the sum of exponentials, and the chain rule of C136 |
| C144 | `tq::trange` with its bar (utils/tqdm.hpp), doubles of the format of `Verif.Fp`, bytes of the text, and `fit` and `evaluate` with it; the clock and the text of times and percentages are arbitrary | the loop reduced to the plain one by an invariant of the bar; counting to a negative number by induction up to the largest `int` |
| C145 | `color::rize` and its tables (utils/color.hpp) | lookup after fallback; the table gone through |
| C146 | `assign` on the heap of `Verif.Alias` (storages shared, shapes not) | the forward theorem of C55 followed by the effect of `reshape` and `std::copy` on one storage; induction over runs |
| C147 | nothing new: fit, optimizers and layers of C111 | C111 gives the path; the partial derivatives of the sum of squares; one step pays for its excess by the distance it gains (least squares is convex and its slope bounded), summed over the steps; lower bound of one step for the negation |
| C148 | nothing new: the encoder of C01 | invariant: the search finds every entry of the tree (reachability of nodes, kept by insertions), hence no entry twice, hence different codes have different strings; then the encoder and the textbook program go in step |
| C149 | nothing new: average_pooling_2d is stated for any arithmetic | the loops of a window add to one cell, so the cell holds the dot product of C118 with the constant factor; the factor is rounded once; comparisons of finite numbers are those of the reals |
| C150 | session objects besides the default one: caches, run, clear_forward_cache | C55 for a cache that is empty; results in the cache are never replaced by a forward pass |

## Partial claims and disagreements between the code and the properties

For each the full statement is the one in `properties.jsonl`; what is missing is said here and at the theorem named `..._partial`.

* **C03** LZW decoder total on arbitrary bytes. The code violates the property (first code 257; codes from before a reset). The streams on which it does are characterised exactly, from the codes in the stream alone: undefined behaviour if and only if the codes dangle; a status is returned on every other stream. A simple sufficient condition is proved too (streams too short to fill the dictionary whose first code is not 257).
* **C06** parallel(f,first,last) runs every index of the range exactly once. The code violates the property: the last slice misses the offset. Exact condition under which it holds is proved.
* **C09** Allocator stays safe when memory runs out. The code violates the property: gc() keeps the released blocks in reserved_memory. Proved when failures happen with an empty reserve only.
* **C11** Tensor size equals product of shape. The code violates the property: resizing one copy changes the storage of all copies but only its own shape, and tensor() has empty shape with no elements. Proved for histories whose size-changing operations hit unshared storage.
* **C19** a + b and a - b leave their operands unchanged. The code violates the property: the sum is written into the left operand when it needs no expansion. Proved exactly when it holds.
* **C21** Tensor * tensor is the matrix product. The code violates the property for a matrix with two or more rows times a 1-D vector (it always stops in an assertion). Proved for 2-D times 2-D, 1-D times 2-D and 1-D times 1-D.
* **C25** concatenate keeps operand order. The code violates the property for different ranks: undefined (iterators of two temporaries), and with the intended reading the operands are exchanged when the left one has the lower rank. Proved for equal ranks, and with the intended reading for a right operand of lower rank.
* **C26** repeat and repmat. repeat is undefined for every tensor of rank 1 or more (iterators of two temporaries); proved with the intended reading. repmat is proved in full.
* **C27** reduce along an axis. The code violates the property for 1-D tensors without keepdims (reshape to the empty shape). Proved with keepdims and, for rank two or more, without.
* **C28** max(t) is the largest element. The code violates the property: the fold starts from the smallest positive number, so tensors of negative numbers give it. Proved when some element is at least that number.
* **C31** squeeze and expand_dims only drop/insert unit dimensions. The code violates the inverse law for axis -1 and for squeeze(0) of shape [1]. Everything else is proved.
* **C37** conv2d is the direct convolution. 'valid' padding proved in full; 'same' is violated when rows and columns need different padding (only the row padding reaches the final reshape), proved when they need the same padding and it is even.
* **C38** conv2d 'same' padding keeps the spatial size. The code violates the property when rows and columns need different padding; proved when they need the same, even, padding at stride 1.
* **C39** img2col may be reused with another input shape. The code violates the property: the index record is rebuilt only on a change of its size. Proved when equal record sizes come from equal geometries.
* **C41** max_pooling_2d gradient is independent of history. The code violates the property: the mask is never cleared, so a second run on the same size also sends gradient to the earlier maxima. Proved for operators whose mask and gradient caches are unused or of another size.
* **C42** average_pooling_2d and its gradient. Forward proved; backward is undefined for every non-empty input whose sizes the stride does not divide, and the adjoint of forward otherwise.
* **C44** zero_padding_2d is zero on the border. The code violates the property on reuse with another shape of the same padded size; proved for all other histories.
* **C48** maximum and minimum route the gradient to the selected operand. maximum proved in full; minimum sends the gradient to the operand that was not selected, for every pair of tensors.
* **C49** plus backward is the adjoint of broadcasting addition. The code violates the property for operands of rank 0 and for operands without elements; proved for all others.
* **C51** Element-wise operators: backward is the derivative. Real arithmetic. Proved for 37 of 42 unary operators wherever their function is differentiable (elu for x > 0, inverse for x^2 >= eps); the code violates the property for log1p, softplus, elu (x < 0), gelu, inverse (0 < x^2 < eps) and atan2, each shown for all points stated in the theorem.
* **C52** mean_reduce backward is the gradient of the mean. sum_reduce is proved; the code violates the property for mean_reduce (it divides by the batch size only); mean_reduce is proved when the batch size is the size.
* **C53** Reverse-mode gradients of expressions. Tensors by value, for expressions in which no operator that looks at its operands lives in two objects and every operator's backward action is the transpose of its derivative at the point (proved for the element-wise operators, plus, matrix product, element-wise product, sum_reduce). The code violates the general statement (C54, C57), and on shared storages even sigmoid(x) + c (the sum overwrites the result the sigmoid differentiates by).
* **C54** Shared sub-expressions get correct gradients. The code violates the property: the operand object visited second keeps its old input; with an element-wise operator on a variable backward does not even finish. Proved for shared operators whose backward action looks only at the result and the gradient.
* **C55** session.run evaluates fresh and once. The code violates the property when the left operand of a sum is used elsewhere, as the sum overwrites it. Proved with tensors passed by value, and on shared storages when the left operand of every sum is an operator used nowhere else; evaluation once requires non-empty values.
* **C56** Evaluating an expression does not change variables. The code violates the property: v + c adds c to the variable (or bound tensor) v. Proved for expressions in which no sum has a variable or place holder as its left operand.
* **C57** Variables accumulate gradients and regularisers once. The code violates the property: the regulariser's synchronised flag is per copy, so the term is added once per object the variable lives in. Proved for variables living in one object, and the exact count in general.
* **C58** Optimizers apply their documented update. What each step does is proved exactly (over the reals). The code violates the documentation: sgd applies Nesterov's rule exactly when told not to, the first step of rmsprop and adam differ from their rules, and gradient_descent ignores its momentum. adagrad, sgd without momentum, and later steps of rmsprop and adam follow their rules.
* **C59** Learning-rate decay. The code violates the property: the decay factors multiply up, so that from the third step on the rate is lower. Proved for the first two steps and for decay 0.
* **C60** adadelta keeps separate accumulators. The code violates the property: contexts[0] serves as both averages, so that a step is one of plain gradient descent (adadelta_step_partial); every first step with a gradient is longer than documented.
* **C61** Freezing a variable. The code violates the property: the session holds a copy made at construction, whose trainable flag the user's handle does not reach. Proved for variables not trainable in the session's registry.
* **C62** fit uses the validation part only for validation. The code violates the property whenever there is a batch to validate on: the optimizer is also run on the first validation batch, and the errors are divided by counts one off. Proved without a validation part. The split is an exact number (no floating-point rounding).
* **C64** MNIST one-hot labels. The code violates the property for files with a byte above 9 in the last place: it writes past the row and past the end. Proved for files whose bytes are all digits 0 to 9.
* **C65** Tensor text round trip. Proved for every tensor with as many elements as its shape says. The code violates the property for the default constructed tensor, which has no extents and no elements: reading expects one element. Elements that print as words that cannot be read (nan, inf) make reading fail.
* **C66** session save/restore. Proved, through the LZW coder, for elements of at most six significant digits. The code violates the property for others: save_original writes with the default precision, so seven digit whole numbers are changed; the relative error is at most 5e-6.
* **C68** place_holder comparison operators are consistent. The code violates the property for every pair of different place holders: operator > is operator <. The other operators are proved consistent.
* **C69** Complex expressions. Proved over the reals with tensors by value, with broadcasting for sums and differences, for matrices of every size for products. The code violates the property: e - c is e + c, e * c is c * e, and on shared storages the imaginary part of a product is too large by b*d when both parts are used in one run.
* **C70** dropout scales forward and backward alike. The code violates the property: backward does not divide by 1-rate, and inputs larger than the first one read past the mask. Forward and prediction are proved.
* **C71** batch normalisation normalises. The code violates the property after a prediction before the first training run: the cache of the running mean is then an empty tensor for ever, and every later prediction is the identity. Otherwise proved, over the reals.
* **C73** cross_entropy_loss gradient. The code violates the property for batches of two or more: backward does not divide by the number of samples. The labels' gradient is wrong too. Proved for one sample, one-hot labels and probabilities above eps: exact below the maximum of a row, within eps at the only maximum.
* **C74** Model composition substitutes the input. The code violates the property: every place holder is replaced, not only the input, and serializers are dropped. Proved for expressions whose only place holder is the input. (As it stands replace_placeholder_with_expression does not compile for operators, whose members have moved to state_; modelled as intended.)
* **C76** Backward of concatenate. The code violates the property for every input: line 2414 takes begin and end from two different temporaries. The rest is proved with the two calls read as one object.
* **C77** Operators made by one factory are independent. The code violates the property: the caches are made with the factory, so operators made by one factory overwrite each other's results and masks. Proved for operators of different factory calls.
* **C78** conv2d filter layout as documented. The code violates the documentation: the filter is read in another layout. Proved when the two layouts coincide.
* **C79** Shape calculators predict the shape of the result. The code violates the property for reductions along the last axis by default, products of tensors of equal rank, flatten of large samples (int), squeeze/flip of empty tensors, repeat of scalars and reshape of an unknown batch. Proved for expressions of all other uses of the 26 modelled operators.
* **C80** sliding_2d shifts and shifts back. Proved in training and for the forward action outside training. The backward action does not look at the learning phase: outside training it reads shifts that do not exist, or moves the gradient by the shifts of the last training pass.
* **C81** Backward of elementwise_product. The code violates the property when a dimension of extent one is stretched: forward repeats cyclically, backward sums the axis. Proved when the shape of one operand is a suffix of the other's.
* **C83** A result stays what it is. The code violates the property: operators with a cache of their own overwrite the tensor an earlier run returned. Proved only until the next run.
* **C84** Optimizers can be exchanged. The code violates the property: all optimizers share one list of contexts per variable; adam after sgd reads past its end. sgd after adam runs but starts with adam's first moment as its momentum.
* **C85** A training step leaves other variables alone. The code violates the property: every trainable variable of the session is stepped, so momentum keeps moving variables the loss does not mention. Proved for optimizers without memory of the variable.
* **C86** A training step goes down the loss. For sgd without momentum (with regularisers: loss plus penalty is descended, under the conditions of C122) and the expressions of C53 (tensors by value). With an l1 regulariser at a weight of zero the step goes up (l1_at_zero_violated). The other optimizers are in C130.
* **C87** Evaluating does not train. The code violates the property for the learning phase: it is 1 afterwards, whatever it was. The rest is proved, for the expressions of Verif.Graph (tensors by value, operators without memory: no batch normalisation).
* **C88** MNIST images. The code violates the property for files whose last image is incomplete: the copy goes past the end of the tensor. Proved for files with whole images.
* **C89** The first step of a new optimizer. The code violates the last part: gradient_descent does not refuse a batch of no samples; its learning rate is divided by zero and the first step leaves no finite number in any variable.
* **C90** dropout draws a new mask. The code violates the property: the mask drawn in the first run is used for ever. The first draw is proved.
* **C92** Backward of batch normalisation. The code violates the property for every batch: with the gradient 1 the derivative is 0, the result positive. Later batches of another size are written out of bounds or get the wrong shape. backward_partial says what is computed.
* **C93** Backward of the softmax operator. The code violates the property for every input: only the diagonal of the derivative is used. operator_backward_partial says by how much the result is off.
* **C94** Serialised code declares each name once. The code violates the property: an expression used twice is written out twice. Proved for expressions without shared parts.
* **C96** Freezing a model. The code violates the property: the session's copies of the variables stay trainable, and momentum or adam move them on. Proved for sgd without momentum, adagrad, rmsprop and gradient_descent. (make_trainable does not compile for operators as it stands; modelled as intended.)
* **C97** Tensors in files. Proved for long double. The code violates the property for float and double: 8 and 15 digits are too few, 9 and 17 would do.
* **C98** Losses have their documented value. By value all are as documented except mean_squared_logarithmic_error, which is the sum and not the mean. On shared storages binary_cross_entropy_loss is wrong: ones - t is left in the tensor of ones, which is used again, and the mean of -(t log p + (1-t-p) log(1-t-p)) comes out.
* **C99** Training on a loss stores its derivative. The code violates the property for the means: backward of mean_reduce divides by the first extent, so mse, mae, hinge and binary cross entropy store size/(first extent) times the derivative. Proved for the sums, and for means of operands of one column, where operands can be differentiated and no operator is shared (by value).
* **C100** Computing a loss leaves the labels alone. The code violates the property: mean_squared_error( label, prediction ) leaves the differences in the tensor bound to the label, and the next run of the same loss returns another value. Proved for expressions without a place holder or variable left of a plus and without shared operators.
* **C103** conv2d_transpose is the transpose of conv2d. Holds with stride 1 for one input channel (or a kernel of one tap), "valid" or "same" with an odd square kernel. For several input channels the code violates it: the flips act on the documented filter layout, the convolution reads another one (C78).
* **C104** conv2d_transpose enlarges by its strides. The code violates the property for every stride of at least 2: the convolution after spreading is run with the stride instead of 1. Proved instead: for one channel the result is every s-th row and column of the transposed convolution.
* **C106** Training on shared storages. The code violates the property when a plus overwrites a tensor that backward reads: inputs and labels bound to one tensor, as test/mnist_autoencoder.cc lines 72-73 do, give gradients computed from the differences instead of the inputs (for one weight even of the wrong sign); see also C53 for a sigmoid left of a plus. Proved for expressions without shared operators in which each plus has on its left the result of an operator whose backward does not read it, or a place holder used once; every network of C105 with its squared loss is one, if inputs and labels have different storages.
* **C107** Statistics. The code violates the property for var and std, which do not divide by the number of elements, and for norm, which is the Euclidean norm over the number of elements. Along an axis everything is proved, except dropping the only axis (undefined, C27).
* **C109** Initial weights. Proved for Dense. The code violates the property for every convolution layer except 1x1 kernels on one channel: the bound is computed from the number of filters and the rows of the kernel. A shape of one extent (extra/applications/svm.hpp line 31) is read past its end.
* **C110** Composite activations. Values are right except for mish and lisht, which multiply their operand with the matrix product: matrices that are not square are rejected, square ones of equal elements come out wrong, only 1x1 is right. Gradients are right for heaviside_step and division (where epsilon does not interfere) and for swish and tank_shrink of a variable; swish, tank_shrink, mish and lisht of a dense layer use the layer's operator twice, the second forward leaves it without inputs and backward is undefined or stops; backward of crelu never returns (C76).
* **C111** Training is descent. Proved, over the reals and by value, for fit without validation batches, networks of any layers but max pooling (whose mask is not cleared, C41) without regularisers, where the layers can be differentiated along the path: sgd without momentum, gradient_descent and adagrad follow the documented rule with the learning rates of C59. The code violates the property otherwise: the two kinds of momentum are exchanged, the first step of rmsprop and the first two of adam are others (C58; the theorems state the rule that is followed), and with mean_squared_error the derivatives carry a factor (C99).
* **C112** Networks that branch. Values are right for every program, and derivatives for programs without Concatenate that use every value but the input at most once. Otherwise the code violates the property: a value used twice lives in two objects of one operator, the second of which finds the cached result and keeps no operands; the first backward then does not finish, whatever the loss, if the value is a layer with a bias, a product, a reshaping, pooling, sampling or padding layer, an activation of a layer with a bias, or a sum of one (values of other kinds, such as cropping, are not decided). Backward through Concatenate never finishes (C76).
* **C113** Training runs on shared storages. Proved for fit and evaluate (samples unchanged, weights on the descent path, mean loss) and for one call of train_on_batch, for networks of any layers but max pooling and squared_loss, mean_squared_error and cross_entropy. The code violates the rest: train_on_batch binds the caller's tensors, and squared_loss and mean_squared_error leave labels - outputs in the caller's labels, so that a second call with the same tensors is a step on another loss; proved for every network. cross_entropy keeps the labels.
* **C114** Decimal literals. Proved exactly: every literal gives its number if the exponent and the number of digits behind the point stay in the range of int, else the behaviour is undefined; every terminated string starts with such a literal; nothing behind the zero is read. The code violates the rest: the digits of the exponent are added up in an int that overflows (0e2147483648). Float is a field; rounding is not modelled.
* **C115** Vectors are values that give back their memory. Proved for all programs that do not move a vector to itself (contents, separation) and do not move into a vector that has elements (blocks given back). The code violates the rest: move assignment overwrites data_ without giving back the block, which stays held for the rest of every program, and moving a vector to itself loses its contents; proved for every program. Tensors hold vectors by shared_ptr and never move-assign them, so the library itself does not reach this.
* **C116** Step functions. Proved: all values (the four operators through a 64-bit integer: below 2^63-1 in absolute value), and the gradients of sign, equal, ones_like, zeros_like. The code violates the rest: the ten rounding operators hand on the gradient unchanged, although their derivative is zero off the jumps; proved for every operator, input off the jumps and non-zero gradient.
* **C117** Shapes are values. Proved for all programs on shapes of rank at most 16 (sharp), and exactly, with the capacities of libstdc++'s vector, for all ranks. The code violates the rest: above 256 bytes allocate asks std::allocator for 8 n elements and deallocate gives back n, which is undefined; reached by every tensor of rank above 32, and by one of rank 17 to 32 that reshape or resize gives a higher rank. std::vector is modelled from its libstdc++ implementation.
* **C119** Not-a-number stays visible. Proved for has_nan, has_inf, is_valid, sums, matrix products, softmax, the activations but relu6, and the operator clip (it asserts). The code violates it elsewhere, each time shown in general: relu6 turns NaN into 6, inverse into 1/-eps, the tensor function clip into the upper bound; maximum drops a NaN on its left and minimum one on its right; equal says NaN equals everything; max and min forget everything up to the last NaN; reduce_max, reduce_min and max_pooling_2d ignore NaN unless it comes first; the cross entropy loss counts a row with NaN as probabilities eps, so that a network that has diverged keeps a finite loss. Said of the text; -ffast-math (Makefile) lets the compiler assume there is no NaN.
* **C120** Stride iterators walk columns. Moving, indexing, distance and equality are proved for every step but zero, and the four functions are proved equal to the models with computed positions (Verif.Data, Verif.Pool), so all that is proved there holds of the iterators; std::reduce is that of libstdc++, four elements at a time, shown to be one of the sums the standard allows. The code violates the rest: with a negative step a < a+1 is false (the order compares pointers), with step zero the difference divides by zero, and whenever more than one element follows the reduced axis the end iterator of the second column of the last block points behind the end of the data, which C++ does not define although it is never dereferenced. It is proved that this is the only effect: along the last axis all pointers stay inside.
* **C121** Compiled models are values. Proved: the compiled model that was constructed trains as Fit.compiled (the machine the other training properties are about); a copy's loss can be evaluated and gives the value of the expression, whatever happened to the original; with a loss that is a mean, a copy trains as a model of its own if the original is there, has been run, and its last batch had the same shape. Violated, for all inputs: the copy's optimizer refers to the loss of the original, so with a root operator on labels and prediction (CategoricalCrossentropy) training a copy does not depend on the labels; if the original was destroyed or moved from, training never finishes (in particular a moved compiled model can no longer be trained); if the original has not run and the loss is a mean, training never finishes.
* **C122** Regularised training is descent on loss plus penalty. Proved, over the reals and by value, for variables that live in one object, coefficients that are zero or at least eps, and elements under an L1 penalty that are not zero: single steps of sgd without momentum for the expressions of C53, and fit of networks under the conditions of C111 with any of the optimizers (for L2 penalties, squared_loss and activations with derivatives everywhere there is no condition on the path). The code violates the property otherwise: an L1 coefficient moves elements that are zero (as all new biases) away from zero and the objective grows, also where zero is the minimum; a variable in n objects is penalised n times; coefficients below eps are ignored; and with mean_squared_error the factor of C99 is on the loss only, so that all penalties count as if divided by it (path_weakened).
* **C123** Matrix products on the device. Proved for sizes below 2^31, as long as the device grants the memory and some square is slower on the processor: cuda_gemm and gemm leave what gemm_cpu computes, for any sequence of products, and no block is left. The code violates it otherwise, each time shown in general: the result of cudaMalloc is not looked at, so a product that does not fit is made at an indeterminate address; 2^31 or more rows do not fit the int they are passed as, and the product is not made; and if the processor is never slower than the device, the search for the threshold never ends, so the first product of the program does not return.
* **C124** Formatted text. Proved for holes {} whenever the intended result (up to the first hole left over) does not contain {} - all that is needed - and for numbered holes without further opening brackets; the lines of all serialisers are shown to be those of Verif.Serial (C75, C94, C95), for any number of arguments. The code violates it otherwise: the text of an argument is searched for holes again, so that {} or {1} in it takes the next argument; and a format string with {} has its numbered holes left as they are.
* **C125** Values in serialised code. Proved for integers, for lists of at most eight integers, for tuples that are not empty, and for numbers of six decimal digits. The code violates it otherwise: numbers are written with six digits, so in every format of 19 bits or more some read back as others (1 + 2^-23 as 1); of longer containers eight elements and dots are written, which is no C++ and the same text for different containers; a character is written as the two characters 1 and itself (std::string{1, ch}), a pointer to text as its first character; the empty tuple loses its bracket.
* **C126** Serialised calls are the calls that were made. Every operator of the library is in the table; it is proved for which of them the code makes the call again, and for no others (compile_made_iff). The code violates it for the others: the names of cbrt (cbert), exponential (exponentional), minimum (minmum), the intermediate of conv2d_transpose and sliding_2d are written wrongly, clip, equal and cross_entropy_loss lose their arguments, a place holder loses its shape hint; and replacing the place holder of a model loses the arguments of all operators that have any (reduce_sum along an axis becomes the sum of everything) and their scalars.
* **C127** Place holders hold the tensor bound last. Proved for programs in which no session ends that ever bound the place holder, and for hints that are not empty. The code violates it otherwise: the end of a session takes away what was bound later and elsewhere; an empty hint is read beyond its end; shape and reset of a place holder that was moved read through a null pointer; and a session keeps one more copy of the place holder for every bind.
* **C128** Checks stop wrong calls in every build. Proved: a call that is accepted does the same in both builds, and the debug build is the one of the other models. The code violates the rest: with NDEBUG no check stops anything. What then happens is shown in general: a + b with shapes that do not fit always writes beyond its storage; a += b and a / b read beyond the shorter operand or use the first elements of the longer; a * b with unequal inner extents reads beyond b or silently uses its first rows, and with a of another rank returns an empty tensor; the product element by element leaves a remainder unmultiplied; concatenate writes beyond its result; squeeze and the operator reshape overwrite the contents of their own argument with zeros. Reductions of an empty tensor return 0.
* **C129** Pictures survive files. Proved: png files of 1, 3 and 4 channels survive reading and writing, tensors of bytes survive writing and reading, elements of square pictures are the pixels they should be, numbers are scaled monotonically between the extremes within one step, and endings select formats. The code violates the rest: pictures of two channels are read but not written; the shape is width by height while the elements are in lines, so for every picture that is not square some pixel is neither element [x][y] nor [y][x]; no byte ever becomes 255; pictures of negative numbers come out dark because amax starts at the smallest positive number; contrast below 1e-10/254 vanishes; names without a dot end in an exception (the code that would add .png cannot be reached); .hdr reads four times the storage; imresize of a matrix takes two bytes per pixel and reads beyond it.
* **C130** Every optimizer's step goes down the loss. Proved for every step of adagrad, rmsprop, gradient_descent and adadelta whatever their memory, for sgd when its memory is zero (the first step) and for the first two steps of adam (tensors by value, expressions of C53, real numbers, no regularisers). The code violates it for adam from its third step on and for sgd with momentum: in every state whose memory points uphill the loss rises for all small learning rates.
* **C131** A bad gradient does not outlive its step. Proved: a NaN is visible after the step and stays in its element; gradient_descent recovers completely. The code violates the rest: all other optimizers keep the NaN in their memory, so every later step makes the element NaN again whatever weights are loaded (sgd also with momentum 0); a finite gradient whose square overflows makes the memory of adagrad, rmsprop and adam infinite and the element never moves again.
* **C132** glob finds the files that match. Proved: names on one line match a pattern of the documented wildcards (brackets with plain characters) exactly if the documentation says so; glob finds exactly the paths that fit part by part, as far as the code shows them; in the current directory that is what the property says. The code violates the rest: a file named with a single line end matches every pattern, * matches no name of several lines; a bracket with -- reads beyond a string, one with &, ~ or | ends in an exception, one that begins with ^ also matches the backslash; hidden files are listed in every other directory, and nothing is ever found by a relative path that leads out of the current directory (../*) or begins with a dot. rglob, ~ and symbolic links are not modelled.
* **C133** Activations of finite numbers are finite. Proved for softmax (any number of classes), relu, relu6, leaky_relu, elu, hard_sigmoid, softsign, sigmoid, negative, tanh, gaussian, swish and gelu, and for the backward passes of softmax, softsign, sigmoid and tanh. The code violates the property for softplus, which is infinite at every float of 90 or more though its value is about the number itself, for the backward pass of softplus at 0 (division by 0), and for selu near the largest number; the partial theorems say where these are finite.
* **C134** Losses of finite predictions are finite numbers. Proved for the loss fused with softmax, forward and backward, with any labels. The code violates the property for binary_cross_entropy_loss, which is NaN (or stops, in a build with checks) as soon as one label is 1 and its prediction positive, and for cross_entropy as soon as a label and its prediction are both 0.
* **C140** Noise operators. The code violates the property for poisson: the mean is converted to long, so an element below 1 gives a mean for which the distribution is undefined, and the fraction of a mean is lost; the gradient is passed on although what is drawn does not depend on the fraction.  Proved for elements from 1 up, with the whole part as mean; random_normal_like with a positive deviation.
* **C142** Squared losses computed with rounding. The code violates the property for mean_squared_error with more than one column: the factor is one divided by the number of rows, not of elements.  Proved for squared_loss, and for mean_squared_error with the factor the code uses.
* **C144** The progress bar never changes or stops training. Holds on terminals at least 40 columns wide.  On narrower ones (also those that report no size) every loop has undefined behaviour: the cells are counted up to a negative number.  When standard input is no terminal the width is read without having been written.
* **C145** color::rize keeps its text and knows its colours. The background Magenta is misspelled Megenta in its table, so asking for it gives the default background; everything else holds.
* **C146** assign stores the value of an expression in a variable. Holds for values of the shape of the variable that are not stored in the variable itself (expressions of C55, C56 on shared storages).  The code violates the rest, each time shown in general: a value of another shape leaves the variable with its old shape and the new elements, no tensor at all if their numbers differ, and the next backward pass stops; assign( v, v ) and the counter assign( v + c, v ) call std::copy on overlapping ranges, which is undefined.
* **C147** Fitting a linear model converges to least squares. Over the reals and by value, under the conditions of C111, for rates with rate * ( sum of the squares of all features and of a one per sample ) at most 1/2 (one batch) or 1/4 (several).  linear_fit is for any rates, with the bound (distance to the other model)^2 / ( 2 * sum of the rates ) on the excess over any other model; with a constant rate it tends to zero.  With decay the code violates the property: the learning rate is divided again by every factor (C59), the sum of the rates stays bounded, and the error stays above a share of the initial error that does not depend on the number of epochs (shown for all data, decays and small rates), also if a model without error exists.
* **C149** Pooling and sampling computed with rounding. Formats of C118 (any precision and exponent range), without infinities among the operands where a bound is claimed; stride squared below 2^p, so that it converts exactly.  Backward of average_pooling_2d is for strides that divide the sizes: with others the code reads the gradient out of bounds (avg_pool_backward_violated, for any arithmetic), so the property as stated does not hold for every shape.
* **C150** Sessions of one's own evaluate fresh. By value, as C55.  The code violates the property: operators use the cache of the default session, which run of another session does not clear, so that session returns the result of the first run for ever (shown for every expression with an operator at its root, every result that is not empty and every history without a run in the default session; a loop of such runs reports its first result each time).  Proved for programs that run in sessions of their own only while the cache of the default session is empty, and for the default session after any program.
