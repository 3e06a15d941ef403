{"id": "C01", "title": "LZW round trip", "statement": "lzw::decompress applied to the bytes written by lzw::compress for an input stream writes back exactly that input stream.", "quantifier": "every finite byte string, including those long enough to make the dictionary fill up and reset any number of times", "why_tests_cant": "the dictionary reset and the code-width changes happen only on inputs of megabytes with particular repetition structure; tests sample a handful of strings", "anchors": ["include/utils/lzw.hpp:compress", "include/utils/lzw.hpp:decompress", "include/utils/lzw.hpp:CodeWriter", "include/utils/lzw.hpp:CodeReader", "include/utils/lzw.hpp:EncoderDictionary::search_and_insert"]}
{"id": "C02", "title": "LZW encoder safety", "statement": "While compressing, every dictionary access is in range, every code written fits in the number of bits used for it, and no data code equals the end-of-file metacode.", "quantifier": "every finite byte string and every dictionary capacity >= 258", "why_tests_cant": "an out-of-range access or a truncated code shows only at the exact dictionary size where it happens", "anchors": ["include/utils/lzw.hpp:EncoderDictionary", "include/utils/lzw.hpp:CodeWriter::write", "include/utils/lzw.hpp:CodeWriter::increase_bits"]}
{"id": "C03", "title": "LZW decoder total on arbitrary bytes", "statement": "lzw::decompress on any byte stream either finishes or reports an error; it never reads outside its dictionary or takes the front of an empty string.", "quantifier": "every finite byte stream, not only streams made by lzw::compress", "why_tests_cant": "corrupt files form an unbounded set; fuzzing samples it", "anchors": ["include/utils/lzw.hpp:decompress", "include/utils/lzw.hpp:CodeReader::read"]}
{"id": "C04", "title": "LZW truncated stream yields a prefix", "statement": "If a compressed file is cut at any byte, decompressing what is left writes a prefix of the original data (never different bytes).", "quantifier": "every byte string and every cut position of its compressed form (crash point while saving)", "why_tests_cant": "there are as many crash points as bytes, times all inputs", "anchors": ["include/utils/lzw.hpp:compress", "include/utils/lzw.hpp:decompress", "include/utils/lzw.hpp:CodeReader::read"]}
{"id": "C05", "title": "parallel(f,n) runs every index exactly once", "statement": "parallel(f, n) calls f(i) exactly once for each 0 <= i < n and for no other i.", "quantifier": "all n, all hardware core counts, all thresholds, both parallel modes", "why_tests_cant": "depends on the machine's core count, which a test machine fixes", "anchors": ["include/utils/parallel.hpp:parallel"]}
{"id": "C06", "title": "parallel(f,first,last) runs every index of the range exactly once", "statement": "parallel(f, first, last) calls f(i) exactly once for each first <= i < last and for no other i.", "quantifier": "all first <= last, all core counts, all thresholds", "why_tests_cant": "the failing cases need first > 0 together with more indices than cores", "anchors": ["include/utils/parallel.hpp:parallel"]}
{"id": "C07", "title": "for_each is schedule independent", "statement": "for_each over tensors with an element-wise function produces the same buffers as the sequential loop, whatever order the worker threads' individual loads and stores interleave in.", "quantifier": "all data, all element functions that touch only their own elements, all interleavings of the workers", "why_tests_cant": "schedules cannot be enumerated by a test run", "anchors": ["include/utils/for_each.hpp:for_each", "include/utils/parallel.hpp:parallel"]}
{"id": "C08", "title": "Allocator hands out disjoint zeroed blocks", "statement": "Every block returned by cached_allocator::allocate is not simultaneously in use by another owner, has the requested size, and is all zero; while it is held, each byte keeps what was written there last.", "quantifier": "every history of allocate/deallocate calls by any number of owners that never exhausts memory", "why_tests_cant": "histories are unbounded", "anchors": ["include/utils/cached_allocator.hpp:memory_cache::allocate", "include/utils/cached_allocator.hpp:memory_cache::deallocate", "include/utils/cached_allocator.hpp:cached_allocator::allocate"]}
{"id": "C09", "title": "Allocator stays safe when memory runs out", "statement": "After an allocation fails and the cache garbage-collects its reserve, no block that was returned to the system is handed out again or released twice.", "quantifier": "every history of allocate/deallocate with arbitrary allocation failures", "why_tests_cant": "out-of-memory cannot be provoked at every point by tests", "anchors": ["include/utils/cached_allocator.hpp:memory_cache::gc", "include/utils/cached_allocator.hpp:memory_cache::allocate"]}
{"id": "C10", "title": "Allocator releases everything once", "statement": "At shutdown each block ever obtained from the system is returned to it exactly once.", "quantifier": "every history of allocate/deallocate that never exhausts memory", "why_tests_cant": "leaks and double frees depend on the whole history", "anchors": ["include/utils/cached_allocator.hpp:memory_cache::~memory_cache", "include/utils/cached_allocator.hpp:memory_cache::deallocate"]}
{"id": "C11", "title": "Tensor size equals product of shape", "statement": "For every live tensor, size() equals the product of shape().", "quantifier": "every history of constructing, copying, resizing, reshaping, deep-copying and in-place arithmetic on any number of tensors", "why_tests_cant": "an invariant over unbounded histories with aliasing", "anchors": ["include/tensor.hpp:tensor::resize", "include/tensor.hpp:tensor::reshape", "include/tensor.hpp:tensor::size", "include/tensor.hpp:tensor::shape"]}
{"id": "C12", "title": "resize keeps or zero-fills", "statement": "resize(shape) sets the shape; when the number of elements does not change the elements are kept, otherwise the tensor holds the new number of zeros.", "quantifier": "all tensors and all new shapes", "why_tests_cant": "all shapes and contents", "anchors": ["include/tensor.hpp:tensor::resize", "include/utils/vector.hpp:vector::resize"]}
{"id": "C13", "title": "deep_copy is independent, plain copy is an alias", "statement": "After b = a.deep_copy(), no write through one of a, b is visible through the other; after b = a every element write through one is visible through the other.", "quantifier": "all tensors and all later sequences of element writes", "why_tests_cant": "aliasing is a property of all later histories", "anchors": ["include/tensor.hpp:tensor::deep_copy", "include/tensor.hpp:tensor::tensor"]}
{"id": "C14", "title": "reshape keeps elements in order and infers -1", "statement": "reshape to a shape with the same number of elements keeps the elements in row-major order, a trailing -1 is replaced by the unique size that fits, and reshaping back restores the tensor.", "quantifier": "all tensors and all shapes", "why_tests_cant": "all shapes", "anchors": ["include/tensor.hpp:tensor::reshape"]}
{"id": "C15", "title": "Views address each element once", "statement": "view_2d/3d/4d subscripts v[i][j].. inside the view's dimensions address distinct elements that together are exactly the underlying range, in row-major order.", "quantifier": "all dimensions and all subscripts", "why_tests_cant": "all dimensions", "anchors": ["include/utils/view.hpp:view_2d", "include/utils/view.hpp:view_3d", "include/utils/view.hpp:view_4d"]}
{"id": "C16", "title": "broadcast_shape is the NumPy rule", "statement": "broadcast_shape(a,b) gives the right-aligned per-dimension result (the other one where one is 1 or missing, the common one where equal) and rejects exactly the incompatible pairs; it is commutative.", "quantifier": "all pairs of shapes of any rank", "why_tests_cant": "ranks and extents are unbounded", "anchors": ["include/tensor.tcc:broadcast_shape"]}
{"id": "C17", "title": "broadcast_tensor repeats along expanded dimensions", "statement": "broadcast_tensor(t,s) has shape s and its element at each index equals the element of t at that index with expanded dimensions dropped to 0.", "quantifier": "all tensors and all shapes the tensor's shape broadcasts to", "why_tests_cant": "all ranks and shapes", "anchors": ["include/tensor.tcc:broadcast_tensor"]}
{"id": "C18", "title": "a + b and a - b compute the broadcast sum and difference", "statement": "Each element of a+b (a-b) is the sum (difference) of the elements of a and b at the broadcast index.", "quantifier": "all pairs of tensors with compatible shapes", "why_tests_cant": "all ranks and shapes", "anchors": ["include/tensor.tcc:add", "include/tensor.tcc:minus"]}
{"id": "C19", "title": "a + b and a - b leave their operands unchanged", "statement": "Evaluating a+b or a-b (operands are const&) does not change the contents of a or b.", "quantifier": "all pairs of tensors with compatible shapes", "why_tests_cant": "a test that looks only at the result never sees the change", "anchors": ["include/tensor.tcc:add", "include/tensor.tcc:minus", "include/tensor.tcc:broadcast_tensor"]}
{"id": "C20", "title": "gemm computes the matrix product in all four transpose modes", "statement": "gemm_cpu writes into every cell of C the dot product of the corresponding row of op(A) and column of op(B), reads only inside A and B and overwrites whatever C contained.", "quantifier": "all sizes m,n,k, all matrices, all four transpose flags, any previous contents of C", "why_tests_cant": "all sizes and contents", "anchors": ["include/tensor.tcc:gemm_cpu", "include/tensor.tcc:gemm"]}
{"id": "C21", "title": "Tensor * tensor is the matrix product", "statement": "multiply(a,b) for 2-D a (m x n) and b (n x k) returns the m x k product; a 1-D a is a row vector and a 1-D b is a column vector.", "quantifier": "all operand shapes and values", "why_tests_cant": "all shapes", "anchors": ["include/tensor.tcc:multiply"]}
{"id": "C22", "title": "The CBLAS path computes the same product", "statement": "cblas_gemm called with row-major operands and transpose flags computes the same C as the plain loop.", "quantifier": "all sizes, matrices and transpose flags, assuming BLAS gemm meets its column-major specification", "why_tests_cant": "all sizes and flag combinations", "anchors": ["include/backend/cblas.hpp:cblas_gemm", "include/tensor.tcc:gemm_cpu"]}
{"id": "C23", "title": "elementwise_product repeats the smaller operand", "statement": "elementwise_product(a,b) has the shape of the larger operand and element i is a[i mod |a|]*b[i mod |b|]; sizes that do not divide are rejected; operands are unchanged.", "quantifier": "all operands with at least one element, all sizes and values", "why_tests_cant": "all sizes", "anchors": ["include/tensor.tcc:elementwise_product"]}
{"id": "C24", "title": "concatenate along an axis", "statement": "concatenate(a,b,axis) has the two extents added along axis; at each index it holds a's element when the axis coordinate is below a's extent, else b's element at the shifted coordinate.", "quantifier": "all tensors of equal rank agreeing off the axis, not both empty, and all axes", "why_tests_cant": "all ranks, shapes, axes", "anchors": ["include/tensor.tcc:concatenate"]}
{"id": "C25", "title": "concatenate keeps operand order", "statement": "In concatenate(a,b,axis) a's elements come before b's, also when the ranks differ and the lower-rank operand is repeated.", "quantifier": "all pairs of tensors of possibly different rank", "why_tests_cant": "the failing case needs a lower-rank left operand", "anchors": ["include/tensor.tcc:concatenate"]}
{"id": "C26", "title": "repeat and repmat", "statement": "repeat(t,n) is n stacked copies of t; repmat(t,r,c) holds t[i mod rows][j mod cols] at (i,j).", "quantifier": "all tensors and repetition counts", "why_tests_cant": "all counts", "anchors": ["include/tensor.tcc:repeat", "include/tensor.tcc:repmat"]}
{"id": "C27", "title": "reduce along an axis", "statement": "sum(t,axis,keepdims) holds at each remaining index the sum over the axis coordinate, drops (or keeps as 1) the axis; summing the result's elements gives the total sum of t.", "quantifier": "all non-empty tensors, all axes including -1, both keepdims values", "why_tests_cant": "all ranks and axes", "anchors": ["include/tensor.tcc:reduce", "include/tensor.tcc:sum"]}
{"id": "C28", "title": "max(t) is the largest element", "statement": "max(t) (and max along an axis) of a non-empty tensor is an element of it (of the slice) and no element is larger.", "quantifier": "all non-empty tensors", "why_tests_cant": "needs tensors of only negative values", "anchors": ["include/tensor.tcc:max", "include/tensor.tcc:reduce"]}
{"id": "C29", "title": "min(t) is the smallest element", "statement": "min(t) (and min along an axis) of a non-empty tensor is an element of it (of the slice) and no element is smaller.", "quantifier": "all non-empty tensors of finite values", "why_tests_cant": "all tensors", "anchors": ["include/tensor.tcc:min", "include/tensor.tcc:reduce"]}
{"id": "C30", "title": "clip bounds and is idempotent", "statement": "After clip(t,lo,hi) with lo <= hi every element is in [lo,hi], elements already inside are unchanged, and clipping again changes nothing.", "quantifier": "all tensors and all bounds", "why_tests_cant": "all values", "anchors": ["include/tensor.tcc:clip"]}
{"id": "C31", "title": "squeeze and expand_dims only drop/insert unit dimensions", "statement": "squeeze removes exactly the dimensions of extent 1 (keeping one if all are 1) and squeeze(axis)/expand_dims(axis) are inverse; the elements and their order are unchanged.", "quantifier": "all non-empty tensors and all axes including -1", "why_tests_cant": "all ranks", "anchors": ["include/tensor.tcc:squeeze", "include/operation.hpp:expand_dims", "include/operation.hpp:squeeze"]}
{"id": "C32", "title": "flip reverses one axis and is an involution", "statement": "flip(t,axis) holds t's element with the axis coordinate i replaced by n-1-i; flipping twice restores t.", "quantifier": "all non-empty tensors of rank 1 to 4 and all axes including -1", "why_tests_cant": "all shapes", "anchors": ["include/tensor.tcc:flip", "include/tensor.tcc:flip_3D", "include/tensor.tcc:flip_4D"]}
{"id": "C33", "title": "transpose", "statement": "transpose(t)[c][r] = t[r][c] for 2-D t, its gradient is the transposed gradient, and transposing twice restores t.", "quantifier": "all matrices", "why_tests_cant": "all sizes", "anchors": ["include/operation.hpp:transpose"]}
{"id": "C34", "title": "argmax", "statement": "argmax(axis) returns at each remaining index the smallest coordinate along the axis at which the maximum is attained.", "quantifier": "all non-empty tensors and axes", "why_tests_cant": "ties and all shapes", "anchors": ["include/operation.hpp:argmax"]}
{"id": "C35", "title": "img2col gathers the receptive fields", "statement": "img2col's output matrix has at row (channel, kernel row, kernel col) and column (batch, out row, out col) the padded image pixel that the kernel tap covers, zero outside the image.", "quantifier": "all batch sizes, image sizes, kernels, paddings, strides and dilations for which the output is non-empty, on first use of the operator", "why_tests_cant": "six independent geometry parameters", "anchors": ["include/operation.hpp:img2col"]}
{"id": "C36", "title": "img2col backward is the adjoint", "statement": "For every image x and gradient g, <img2col(x), g> = <x, img2col_backward(g)>.", "quantifier": "all geometries, images and gradients", "why_tests_cant": "all geometries", "anchors": ["include/operation.hpp:img2col"]}
{"id": "C37", "title": "conv2d is the direct convolution", "statement": "conv2d's output at (batch,i,j,n) is the sum over kernel taps and channels of the padded image times filter n.", "quantifier": "all geometries, images and filters with matching channel layout", "why_tests_cant": "all geometries", "anchors": ["include/operation.hpp:conv2d", "include/operation.hpp:general_conv2d", "include/operation.hpp:img2col"]}
{"id": "C38", "title": "conv2d 'same' padding keeps the spatial size", "statement": "With stride 1 and padding \"same\" the output has the input's rows and columns.", "quantifier": "all accepted kernel shapes and dilations, square or not", "why_tests_cant": "tests use square kernels", "anchors": ["include/operation.hpp:conv2d", "include/operation.hpp:general_conv2d"]}
{"id": "C39", "title": "img2col may be reused with another input shape", "statement": "Running the same img2col/conv2d expression on inputs of different shapes gives the same results as fresh operators would.", "quantifier": "all sequences of input shapes", "why_tests_cant": "needs two shapes with the same column-matrix size", "anchors": ["include/operation.hpp:img2col"]}
{"id": "C40", "title": "max_pooling_2d takes window maxima", "statement": "Each output element is the largest element of its stride x stride window.", "quantifier": "all 4-D inputs and strides", "why_tests_cant": "all shapes", "anchors": ["include/operation.hpp:max_pooling_2d_context"]}
{"id": "C41", "title": "max_pooling_2d gradient is independent of history", "statement": "The gradient of max_pooling_2d puts each output gradient on that window's (first) maximum and zero elsewhere, also when the operator has been run before on other data.", "quantifier": "all histories of runs", "why_tests_cant": "needs two runs with different maxima", "anchors": ["include/operation.hpp:max_pooling_2d_context"]}
{"id": "C42", "title": "average_pooling_2d and its gradient", "statement": "Each output is the mean of its window and backward is the adjoint of forward, staying inside the gradient tensor.", "quantifier": "all input sizes and strides, divisible or not", "why_tests_cant": "sizes not divisible by the stride", "anchors": ["include/operation.hpp:average_pooling_2d"]}
{"id": "C43", "title": "up_sampling_2d and its gradient", "statement": "Output (r,c) is input (r/s,c/s) and the gradient sums each s x s block (adjoint).", "quantifier": "all inputs and strides", "why_tests_cant": "all shapes", "anchors": ["include/operation.hpp:up_sampling_2d"]}
{"id": "C44", "title": "zero_padding_2d is zero on the border", "statement": "The output is the input shifted by the top/left padding and zero elsewhere, on every run.", "quantifier": "all inputs, paddings and histories of previous runs", "why_tests_cant": "needs reuse of the operator with another shape of equal size", "anchors": ["include/operation.hpp:zero_padding_2d"]}
{"id": "C45", "title": "cropping_2d and zero_padding_2d are adjoint", "statement": "cropping undoes padding; backward of padding is cropping of the gradient and backward of cropping is zero padding of the gradient.", "quantifier": "all inputs and paddings", "why_tests_cant": "all shapes", "anchors": ["include/operation.hpp:zero_padding_2d", "include/operation.hpp:cropping_2d"]}
{"id": "C46", "title": "repeat(n,axis) operator", "statement": "Each slice along the axis occurs n times in a row in the output and the gradient sums those copies (adjoint).", "quantifier": "all inputs, axes and repeat counts", "why_tests_cant": "all shapes", "anchors": ["include/operation.hpp:repeat"]}
{"id": "C47", "title": "reduce_min/reduce_max/reduce_sum operators", "statement": "The output is the min/max/sum along the axis, and backward routes the gradient to the first extremal element (to every element for sum).", "quantifier": "all inputs and axes", "why_tests_cant": "ties and all shapes", "anchors": ["include/operation.hpp:reduce_min", "include/operation.hpp:reduce_max", "include/operation.hpp:reduce_sum"]}
{"id": "C48", "title": "maximum and minimum route the gradient to the selected operand", "statement": "Backward of maximum/minimum gives each element's gradient to the operand whose value was selected and zero to the other.", "quantifier": "all pairs of tensors", "why_tests_cant": "all values incl. ties", "anchors": ["include/operation.hpp:maximum", "include/operation.hpp:minimum"]}
{"id": "C49", "title": "plus backward is the adjoint of broadcasting addition", "statement": "The gradients of a+b have the operands' shapes and pair with any operand perturbations to the same value as the output gradient pairs with the output perturbation.", "quantifier": "all broadcast-compatible shapes and gradients", "why_tests_cant": "all ranks and shapes", "anchors": ["include/operation.hpp:plus_context"]}
{"id": "C50", "title": "matrix product backward is the adjoint", "statement": "Backward of a*b returns g*b^T and a^T*g.", "quantifier": "all sizes, matrices and gradients, any previous content of the gradient caches", "why_tests_cant": "all sizes", "anchors": ["include/operation.hpp:multiplication_context"]}
{"id": "C51", "title": "Element-wise operators: backward is the derivative", "statement": "For each smooth element-wise operator the backward action multiplies the gradient with the derivative of the forward function.", "quantifier": "all real inputs in the operator's domain and all gradients", "why_tests_cant": "a numeric test checks finitely many points", "anchors": ["include/operation.hpp:sin", "include/operation.hpp:log1p", "include/operation.hpp:atan2", "include/operation.hpp:sqrt", "include/activation.hpp:softplus", "include/activation.hpp:elu", "include/activation.hpp:gelu", "include/activation.hpp:sigmoid"]}
{"id": "C52", "title": "mean_reduce backward is the gradient of the mean", "statement": "Backward of mean_reduce gives each element grad/size.", "quantifier": "all input shapes", "why_tests_cant": "needs inputs with more than one column", "anchors": ["include/operation.hpp:mean_reduce"]}
{"id": "C53", "title": "Reverse-mode gradients of expressions", "statement": "After a forward and a backward pass the gradient stored in each variable equals the derivative of the loss with respect to it, summed over all its occurrences.", "quantifier": "all expression trees over the operators, any number of occurrences of each variable, all values", "why_tests_cant": "expressions are unbounded", "anchors": ["include/operation.hpp:unary_operator", "include/operation.hpp:binary_operator", "include/variable.hpp:variable::backward"]}
{"id": "C54", "title": "Shared sub-expressions get correct gradients", "statement": "An expression object used twice (auto y = f(x); auto z = y + y) has the same gradient as the expression with y written out twice.", "quantifier": "all expressions with shared operator nodes", "why_tests_cant": "needs a shared non-leaf node in a gradient test", "anchors": ["include/operation.hpp:unary_operator::forward", "include/operation.hpp:binary_operator::forward"]}
{"id": "C55", "title": "session.run evaluates fresh and once", "statement": "session.run(e) computes e from the values currently bound and stored, never from an earlier run, and performs each operator's forward action at most once per run.", "quantifier": "all expression DAGs and all histories of bind/run/parameter updates", "why_tests_cant": "histories and graphs are unbounded", "anchors": ["include/session.hpp:session::run", "include/session.hpp:session::query_forward_cache", "include/operation.hpp:binary_operator::forward"]}
{"id": "C56", "title": "Evaluating an expression does not change variables", "statement": "A forward pass leaves the data of every variable and the tensors bound to place holders unchanged.", "quantifier": "all expressions and values", "why_tests_cant": "tests look at the result, not at the operands", "anchors": ["include/operation.hpp:plus_context", "include/tensor.tcc:add", "include/variable.hpp:variable::forward"]}
{"id": "C57", "title": "Variables accumulate gradients and regularisers once", "statement": "Within one pass a variable's gradient is the sum of the incoming gradients plus the L1/L2 term once, however often the variable occurs.", "quantifier": "all sequences of forward/backward calls, all coefficients", "why_tests_cant": "needs a regularised variable that occurs twice", "anchors": ["include/variable.hpp:variable::backward", "include/variable.hpp:variable::forward"]}
{"id": "C58", "title": "Optimizers apply their documented update", "statement": "One step of sgd, adagrad, rmsprop, adam, gradient_descent changes each trainable variable by the documented rule (momentum without Nesterov: v := mu v - lr g, w := w + v), clears the gradient, and changes nothing else.", "quantifier": "all parameter states, gradients, hyper-parameters and step counts", "why_tests_cant": "state accumulates over unbounded histories", "anchors": ["include/optimizer.hpp:sgd", "include/optimizer.hpp:adagrad", "include/optimizer.hpp:rmsprop", "include/optimizer.hpp:adam", "include/optimizer.hpp:gradient_descent"]}
{"id": "C59", "title": "Learning-rate decay", "statement": "Step number t of sgd/adagrad/rmsprop, counted from 0, uses the learning rate lr0/(1+decay*t).", "quantifier": "all step counts and decay factors", "why_tests_cant": "tests run few steps with decay 0", "anchors": ["include/optimizer.hpp:sgd", "include/optimizer.hpp:adagrad", "include/optimizer.hpp:rmsprop"]}
{"id": "C60", "title": "adadelta keeps separate accumulators", "statement": "adadelta uses one running average for squared gradients and another for squared updates.", "quantifier": "all histories", "why_tests_cant": "both accumulators look plausible numerically", "anchors": ["include/optimizer.hpp:adadelta"]}
{"id": "C61", "title": "Freezing a variable", "statement": "A variable made non-trainable through the handle the user holds keeps its value under every optimizer step.", "quantifier": "all histories of trainable(false) calls and steps", "why_tests_cant": "depends on when handles were copied", "anchors": ["include/variable.hpp:variable::trainable", "include/session.hpp:session::remember", "include/optimizer.hpp:sgd"]}
{"id": "C62", "title": "fit uses the validation part only for validation", "statement": "fit(...,validation_split) runs the optimizer exactly on the first floor((1-split)*loops) batches of each epoch and averages errors over the batches they come from.", "quantifier": "all sample counts, batch sizes and splits", "why_tests_cant": "the extra batch changes results only slightly", "anchors": ["include/model.hpp:compiled_model::fit"]}
{"id": "C63", "title": "Batches partition the data", "statement": "fit and evaluate feed batch l the samples l*bs .. (l+1)*bs-1, read inside the data, each sample at most once per epoch, dropping only the incomplete last batch.", "quantifier": "all sample counts, batch sizes and sample sizes", "why_tests_cant": "all counts", "anchors": ["include/model.hpp:compiled_model::evaluate", "include/model.hpp:compiled_model::fit"]}
{"id": "C64", "title": "MNIST one-hot labels", "statement": "Labels read from an MNIST label file become one-hot rows: entry (i,j) is 1 exactly when label i is j.", "quantifier": "all label files", "why_tests_cant": "corrupt labels are unbounded", "anchors": ["include/dataset.hpp:mnist"]}
{"id": "C65", "title": "Tensor text round trip", "statement": "A tensor written with write_tensor and read with read_tensor has the same shape and elements, whatever the target tensor held before.", "quantifier": "all tensors whose elements print and parse back exactly, any rank and size, followed by any other data", "why_tests_cant": "all shapes", "anchors": ["include/tensor.tcc:write_tensor", "include/tensor.tcc:read_tensor"]}
{"id": "C66", "title": "session save/restore", "statement": "restore of a file written by save gives every variable of the session the value it had at save time.", "quantifier": "all sets of variables and all values changed in between", "why_tests_cant": "all sets of variables", "anchors": ["include/session.hpp:session::save", "include/session.hpp:session::restore", "include/session.hpp:session::save_original", "include/session.hpp:session::restore_original"]}
{"id": "C67", "title": "Identities are unique and copies keep them", "statement": "Two separately created expressions never have the same id; copies have the id of the original.", "quantifier": "all histories of creations and copies", "why_tests_cant": "histories are unbounded", "anchors": ["include/utils/id.hpp:generate_uid"]}
{"id": "C68", "title": "place_holder comparison operators are consistent", "statement": "p > q holds exactly when q < p, and <=, >=, == agree with them.", "quantifier": "all pairs of place holders", "why_tests_cant": "all pairs", "anchors": ["include/place_holder.hpp:operator >"]}
{"id": "C69", "title": "Complex expressions", "statement": "Products, sums, differences and conjugates of complex expressions compute the complex results.", "quantifier": "all complex values", "why_tests_cant": "a test has to choose the mixed real/complex overload", "anchors": ["include/complex_operator.hpp:operator *", "include/complex_operator.hpp:operator -"]}
{"id": "C70", "title": "dropout scales forward and backward alike", "statement": "In training, forward multiplies by mask/(1-rate) and backward multiplies the gradient by the same factor; in prediction both are the identity.", "quantifier": "all inputs, masks and rates", "why_tests_cant": "all values", "anchors": ["include/operation.hpp:drop_out"]}
{"id": "C71", "title": "batch normalisation normalises", "statement": "In training each channel of the output has mean 0 and variance var/(var+eps); in prediction the running averages are used.", "quantifier": "all inputs and batch sizes", "why_tests_cant": "all values", "anchors": ["include/operation.hpp:normalization_batch"]}
{"id": "C72", "title": "softmax rows are (sub-)distributions", "statement": "Each softmax row is positive, sums to at most 1 and at least 1-eps, and is invariant under adding a constant to the row.", "quantifier": "all real inputs and shapes", "why_tests_cant": "all values", "anchors": ["include/tensor.tcc:softmax"]}
{"id": "C73", "title": "cross_entropy_loss gradient", "statement": "Backward of cross_entropy_loss is the gradient of its forward value.", "quantifier": "all logits, labels and batch sizes", "why_tests_cant": "needs batch size above 1", "anchors": ["include/loss.hpp:cross_entropy_loss"]}
{"id": "C74", "title": "Model composition substitutes the input", "statement": "model(ex) denotes the model's expression with the input place holder replaced by ex and nothing else changed.", "quantifier": "all model expressions and arguments", "why_tests_cant": "needs a model with another place holder", "anchors": ["include/model.hpp:replace_placeholder_with_expression"]}
{"id": "C75", "title": "Serialised code defines names before use", "statement": "The program text produced by serialising an expression defines each name before using it and its last line defines the root.", "quantifier": "all expressions", "why_tests_cant": "expressions are unbounded", "anchors": ["include/utils/enable_serializer.hpp:enable_unary_serializer", "include/operation.hpp:make_argumented_operator_serializer"]}
{"id": "C76", "title": "Backward of concatenate", "statement": "Backward of concatenate(axis) cuts the gradient at the boundary between the operands: each operand gets the part of the gradient belonging to it.", "quantifier": "all shapes equal but on the axis, all axes, all gradients", "why_tests_cant": "undefined behaviour may appear to work", "anchors": ["include/operation.hpp:concatenate"]}
{"id": "C77", "title": "Operators made by one factory are independent", "statement": "Applying the same operator object (the result of max_pooling_2d(s), img2col(...), reduce_max(axis), argmax(axis), zero_padding_2d(...), ...) to two expressions gives two operators that do not influence each other.", "quantifier": "all inputs and all interleavings of uses", "why_tests_cant": "depends on the history of both uses", "anchors": ["include/operation.hpp:max_pooling_2d", "include/operation.hpp:zero_padding_2d", "include/operation.hpp:img2col"]}
{"id": "C78", "title": "conv2d filter layout as documented", "statement": "conv2d with the filter tensor in the documented layout [NC, r, c, CH] computes the convolution with that filter.", "quantifier": "all filter shapes and values", "why_tests_cant": "a test with symmetric sizes does not see the difference", "anchors": ["include/operation.hpp:conv2d"]}
{"id": "C79", "title": "Shape calculators predict the shape of the result", "statement": "shape() of an operator equals the shape of what forward() then returns.", "quantifier": "all operators, shapes and axes", "why_tests_cant": "all combinations of operators", "anchors": ["include/operation.hpp:make_unary_operator", "include/operation.hpp:reduce_max"]}
{"id": "C80", "title": "sliding_2d shifts and shifts back", "statement": "In training sliding_2d( n ) moves every channel of the images by a random shift of at most n pixels, with zeros moving in, and backward moves the gradient back (it is the adjoint); outside training both are the identity.", "quantifier": "all inputs, shifts and phases", "why_tests_cant": "randomised and dependent on the phase", "anchors": ["include/operation.hpp:sliding_2d"]}
{"id": "C81", "title": "Backward of elementwise_product", "statement": "Backward of the operator elementwise_product returns for each operand a tensor of its shape which pairs with a perturbation of the operand to the first-order change of the broadcast product.", "quantifier": "all pairs of operand shapes the operator accepts, all values and gradients", "why_tests_cant": "a test has to choose shapes that only broadcast", "anchors": ["include/operation.hpp:elementwise_product"]}
{"id": "C82", "title": "The broadcast operator", "statement": "broadcast(new_shape) repeats an operand of shape (n...) or (1,..,1,n...) along the leading dimensions of new_shape, and its backward action is the adjoint, whatever the two caches hold.", "quantifier": "all shapes, values, gradients and cache contents", "why_tests_cant": "caches depend on the history", "anchors": ["include/operation.hpp:broadcast"]}
{"id": "C83", "title": "A result stays what it is", "statement": "A tensor returned by session.run keeps its value when the expression is run again.", "quantifier": "all expressions, values and later runs", "why_tests_cant": "needs the earlier tensor to be looked at after a later run", "anchors": ["include/session.hpp:session::run", "include/operation.hpp:unary_operator::forward"]}
{"id": "C84", "title": "Optimizers can be exchanged", "statement": "After any number of steps of one optimizer a step of another one on the same variables succeeds and applies its own rule with fresh memory.", "quantifier": "all pairs of optimizers, losses and states", "why_tests_cant": "a matter of what one optimizer leaves behind for another", "anchors": ["include/optimizer.hpp:sgd::forward", "include/optimizer.hpp:adam::forward", "include/variable.hpp:contexts"]}
{"id": "C85", "title": "A training step leaves other variables alone", "statement": "A step of an optimizer on a loss leaves the variables the loss does not mention unchanged.", "quantifier": "all losses, variables, optimizers and states", "why_tests_cant": "depends on gradients and memory left from earlier steps", "anchors": ["include/optimizer.hpp:sgd::forward", "include/session.hpp:session"]}
{"id": "C86", "title": "A training step goes down the loss", "statement": "Running a loss and then sgd moves every variable of the loss against the derivative of the loss by the learning rate; if the derivative is not zero and the learning rate small enough, the loss is smaller afterwards.", "quantifier": "all losses, variables and values, all small enough learning rates", "why_tests_cant": "all losses at once; the bound on the learning rate depends on the point", "anchors": ["include/optimizer.hpp:sgd::forward", "include/operation.hpp:binary_operator::backward", "include/session.hpp:session::run"]}
{"id": "C87", "title": "Evaluating does not train", "statement": "evaluate and predict leave the values and gradients of the variables, the optimizer and its memory, and the learning phase as they were.", "quantifier": "all models, losses, optimizers, data and states", "why_tests_cant": "needs every part of the state to be compared", "anchors": ["include/model.hpp:compiled_model::evaluate", "include/model.hpp:model::predict"]}
{"id": "C88", "title": "MNIST images", "statement": "Images read from an MNIST image file keep every pixel in place: pixel (r,c) of image i is byte 16+784i+28r+c of the file.", "quantifier": "all image files", "why_tests_cant": "files of every length", "anchors": ["include/dataset.hpp:mnist"]}
{"id": "C89", "title": "The first step of a new optimizer", "statement": "The first step of a new optimizer uses the learning rate divided by the batch size; a negative momentum counts as none; a batch of no samples is refused.", "quantifier": "all optimizers, batch sizes, rates, losses and values", "why_tests_cant": "rates, batch sizes and gradients range over all numbers", "anchors": ["include/optimizer.hpp:sgd", "include/optimizer.hpp:adam", "include/optimizer.hpp:adadelta", "include/optimizer.hpp:gradient_descent"]}
{"id": "C90", "title": "dropout draws a new mask", "statement": "Every training run of dropout draws the elements to drop anew, each element being dropped exactly if its random number is at most the rate.", "quantifier": "all inputs, rates, runs and random numbers", "why_tests_cant": "random; needs the histories of runs", "anchors": ["include/operation.hpp:drop_out"]}
{"id": "C91", "title": "dropout keeps the expected value", "statement": "With random numbers uniform on [0,1], the expected value of each element of a training run of dropout is the element.", "quantifier": "all inputs and rates", "why_tests_cant": "a test sees samples, not the expected value", "anchors": ["include/operation.hpp:drop_out"]}
{"id": "C92", "title": "Backward of batch normalisation", "statement": "Backward of normalization_batch after a training run returns the derivative of the training run's result, in the shape of the input.", "quantifier": "all batches, gradients and earlier runs", "why_tests_cant": "needs comparing with the derivative, and batches of several sizes", "anchors": ["include/operation.hpp:normalization_batch"]}
{"id": "C93", "title": "Backward of the softmax operator", "statement": "Backward of the operator softmax returns the derivative of the rows it computes, applied to the incoming gradient.", "quantifier": "all inputs, shapes and gradients", "why_tests_cant": "needs comparing with the derivative", "anchors": ["include/activation.hpp:softmax"]}
{"id": "C94", "title": "Serialised code declares each name once", "statement": "No name is declared twice in the program text produced by serialising an expression.", "quantifier": "all expressions", "why_tests_cant": "expressions with shared parts are rarely serialised and the text compiled", "anchors": ["include/utils/enable_serializer.hpp:default_binary_expression_serializer"]}
{"id": "C95", "title": "The computation graph describes the expression", "statement": "computation_graph has a node for every part of the expression and an arrow from each operand to its operator, and nothing else.", "quantifier": "all expressions", "why_tests_cant": "expressions have any size", "anchors": ["include/operation.hpp:computation_graph"]}
{"id": "C96", "title": "Freezing a model", "statement": "After model.trainable( false ) a training run and a step of an optimizer leave the variables of the model unchanged.", "quantifier": "all models, losses, optimizers and states", "why_tests_cant": "depends on memory from earlier steps", "anchors": ["include/model.hpp:make_trainable", "include/model.hpp:model::trainable"]}
{"id": "C97", "title": "Tensors in files", "statement": "load_tensor of a file written by save_tensor gives the tensor that was saved, bit for bit.", "quantifier": "all tensors of float, double and long double", "why_tests_cant": "numbers of every size; which ones are lost depends on where powers of two and of ten fall", "anchors": ["include/tensor.tcc:save_tensor", "include/tensor.tcc:load_tensor"]}
{"id": "C98", "title": "Losses have their documented value", "statement": "squared_loss, abs_loss, mse, mae, mean_squared_logarithmic_error, cross_entropy, binary_cross_entropy_loss and hinge_loss compute the sum or mean over all elements their name and documentation say.", "quantifier": "all labels and predictions of all shapes", "why_tests_cant": "all values; sums and means agree on single elements, and the shared tensor of ones shows only when the whole loss is run", "anchors": ["include/loss.hpp:mean_squared_error", "include/loss.hpp:binary_cross_entropy_loss"]}
{"id": "C99", "title": "Training on a loss stores its derivative", "statement": "After a training run of a loss and backward from ones, every variable of the loss holds the partial derivatives of the value of the loss (plus its regularisation).", "quantifier": "all losses, operand expressions, values and variables", "why_tests_cant": "needs comparing with the derivative everywhere", "anchors": ["include/loss.hpp", "include/operation.hpp:mean_reduce", "include/optimizer.hpp"]}
{"id": "C100", "title": "Computing a loss leaves the labels alone", "statement": "Running a loss leaves the tensors bound to the place holders and the variables as they were.", "quantifier": "all losses, labels, predictions and states", "why_tests_cant": "the first value is right, the damage shows in the next run with the same tensors", "anchors": ["include/loss.hpp:mean_squared_error", "include/operation.hpp:plus", "include/tensor.hpp:add"]}
{"id": "C101", "title": "Dense layers", "statement": "Dense( n )( x ) is x W + b in every row, a network of dense layers and activations computes the composition of its layers, and training it with squared_loss stores the derivatives in every weight and bias.", "quantifier": "all numbers of layers, sizes, activations, weights and batches", "why_tests_cant": "networks of any depth", "anchors": ["include/layer.hpp:Dense"]}
{"id": "C102", "title": "fit is train_on_batch on every batch", "statement": "fit without a validation split leaves the program as calling train_on_batch with its batches in order, epochs times, would; train_on_batch runs the loss in the learning phase, then the optimizer once, and returns the loss.", "quantifier": "all data, batch sizes, numbers of epochs, losses and optimizers", "why_tests_cant": "all data and numbers of batches", "anchors": ["include/model.hpp:fit", "include/model.hpp:train_on_batch"]}
{"id": "C103", "title": "conv2d_transpose is the transpose of conv2d", "statement": "With stride 1, conv2d_transpose( kr, kc )( y, w ) is the transposed convolution: pixel (r, c) of y adds w[n,tr,tc,:] . y[b,r,c,:] to output (r + tr, c + tc) - all of it for padding valid, the middle of the image's size for same - so <conv2d(x), y> = <x, conv2d_transpose(y)>; the backward pass of its spreading step is the transpose of the step.", "quantifier": "all images, kernels, numbers of channels, contents of the caches", "why_tests_cant": "The tests never run conv2d_transpose against a reference; a wrong flip or layout still trains", "anchors": ["include/operation.hpp:conv2d_transpose", "include/operation.hpp:conv2d_tranpose_intermediate"]}
{"id": "C104", "title": "conv2d_transpose enlarges by its strides", "statement": "conv2d_transpose with strides s gives (n - 1) s + k rows (valid) or n s rows (same) from n, as the transposed convolution does.", "quantifier": "all images, kernels and strides", "why_tests_cant": "Only a run with a stride shows it, and the shapes still fit together", "anchors": ["include/operation.hpp:conv2d_transpose", "include/layer.hpp:Conv2DTranspose"]}
{"id": "C105", "title": "Networks of layers", "statement": "A network that applies Dense, Conv2D, Conv1D, Conv2DTranspose, pooling, up-sampling, padding, cropping, Reshape, Flatten and activation layers one after the other computes the composition of what the layers are specified to do, and training it with squared_loss or cross_entropy stores the derivative of the loss in every weight and bias of every layer.", "quantifier": "all lists of layers, shapes, weights, inputs and labels where the layers apply and can be differentiated", "why_tests_cant": "networks of any depth and any mixture of layers", "anchors": ["include/layer.hpp:Conv2D", "include/layer.hpp:Conv1D", "include/layer.hpp:Flatten", "include/layer.hpp:MaxPooling2D", "include/operation.hpp:general_conv2d"]}
{"id": "C106", "title": "Training on shared storages", "statement": "A training pass on tensors that share storages - forward leaves results in caches, in operands or in new tensors, objects keep tensors that share those storages, backward reads them again - stores in every variable the gradient that the same pass computes when every tensor has a storage of its own.", "quantifier": "all expressions, kinds of operators, states and storages", "why_tests_cant": "a storage overwritten too early changes only the gradients, and only for some shapes and orders of operators", "anchors": ["include/operation.hpp:unary_operator", "include/operation.hpp:binary_operator", "include/operation.hpp:plus", "include/operation.hpp:reshape", "include/place_holder.hpp:bind", "test/mnist_autoencoder.cc"]}
{"id": "C107", "title": "Statistics", "statement": "mean, variance and standard_deviation along an axis, var, std and norm of a tensor are the mean, the mean squared deviation from it, its root and the Euclidean norm; linspace( a, b, n ) are n equally spaced numbers from a to b (or the first n of n + 1 without the end point).", "quantifier": "all tensors, axes, numbers and orders of summation", "why_tests_cant": "a factor depends on the number of elements; equal elements and single elements hide it", "anchors": ["include/tensor.tcc:variance", "include/tensor.tcc:standard_deviation", "include/tensor.tcc:var", "include/tensor.tcc:norm", "include/tensor.tcc:linspace"]}
{"id": "C108", "title": "Random tensors", "statement": "random, randn and truncated_normal give tensors of the shape asked for; each element uses its own numbers of the generator; random's are spread evenly between its bounds, randn's shifted and scaled, truncated_normal's the next numbers between its bounds, and it returns as long as such numbers come.", "quantifier": "all shapes, bounds and sequences of random numbers", "why_tests_cant": "tests see a few sequences", "anchors": ["include/tensor.tcc:random", "include/tensor.tcc:randn", "include/tensor.tcc:truncated_normal"]}
{"id": "C109", "title": "Initial weights", "statement": "The weights of new Dense and convolution layers are uniform between the bounds of Glorot and Bengio for their numbers of inputs and outputs.", "quantifier": "all sizes of layers and sequences of random numbers", "why_tests_cant": "weights too large still train on small problems", "anchors": ["include/tensor.tcc:glorot_uniform", "include/layer.hpp:Dense", "include/layer.hpp:Conv2D"]}
{"id": "C110", "title": "Composite activations", "statement": "heaviside_step, unit_step, swish, mish, lisht, tank_shrink, crelu and division are the functions of their name in every element, and training through them stores the derivatives.", "quantifier": "all operands, values and shapes", "why_tests_cant": "whether * is the matrix product, and whether an operator used twice keeps what backward reads, depends on the operand", "anchors": ["include/activation.hpp:swish", "include/activation.hpp:mish", "include/activation.hpp:lisht", "include/activation.hpp:crelu", "include/activation.hpp:heaviside_step", "include/operation.hpp:divide"]}
{"id": "C111", "title": "Training is descent", "statement": "Fitting a network runs, epoch after epoch and batch after batch, one step of the optimizer's rule on the derivatives of the loss of that batch: afterwards the weights are those of the mathematical descent path from the initial weights, and each epoch reports the mean of the losses along it.", "quantifier": "all networks, optimizers, data, batch sizes and numbers of epochs", "why_tests_cant": "a gradient or cache left over from the pass before changes only later steps, by amounts that look like noise", "anchors": ["include/model.hpp:fit", "include/optimizer.hpp:sgd", "include/optimizer.hpp:adagrad", "include/operation.hpp:img2col", "include/operation.hpp:zero_padding_2d"]}
{"id": "C112", "title": "Networks that branch", "statement": "A network whose values are named and used any number of times (skip connections, Add, Subtract, Multiply, Concatenate) computes in each value the function written, and training it stores the derivatives of the loss in every variable.", "quantifier": "all programs of layers, shapes, inputs, weights and labels", "why_tests_cant": "whether backward finds the operands of a value used twice depends on the order in which the forward pass visits it", "anchors": ["include/layer.hpp:Add", "include/layer.hpp:Subtract", "include/layer.hpp:Multiply", "include/layer.hpp:Concatenate", "include/operation.hpp:binary_operator", "include/operation.hpp:unary_operator"]}
{"id": "C113", "title": "Training runs on shared storages", "statement": "fit, evaluate and train_on_batch, with tensors that are pointers to storages others may share, do what they do when every tensor has a storage of its own: fit and train_on_batch are steps of the optimizer's rule on the losses of the batches, evaluate returns the mean loss, and the tensors of the caller (samples and labels) keep their contents, so that calling again with the same tensors trains on the same samples.", "quantifier": "all networks, losses, optimizers, storages, data, batch sizes, numbers of epochs and of calls", "why_tests_cant": "the first call returns the right loss; only later calls with the same tensors are wrong", "anchors": ["include/model.hpp:fit", "include/model.hpp:evaluate", "include/model.hpp:train_on_batch", "include/place_holder.hpp:bind", "include/optimizer.hpp", "include/tensor.hpp:add"]}
{"id": "C114", "title": "Decimal literals", "statement": "string2float32 and float32 give, for every decimal literal (spaces, sign, digits, point, exponent), the number it stands for; they give an answer for every string and never read behind the zero that ends it.", "quantifier": "all strings and literals", "why_tests_cant": "the behaviour on a long exponent or a string that ends inside a literal depends on the memory behind it and on overflow", "anchors": ["include/utils/float32.hpp:string2float32", "include/utils/float32.hpp:float32"]}
{"id": "C115", "title": "Vectors are values that give back their memory", "statement": "ceras::vector on the caching allocator behaves like a list of elements: construction, copy, move, assignment, resize and clear of any vectors in any order give each vector the contents the operations mean and change no other; no two vectors share memory; every block is held by exactly one vector, so that none is held when no vector is left.", "quantifier": "all programs of operations on any number of vectors, all element sizes and all answers of the system", "why_tests_cant": "a lost block shows only as memory that is never used again", "anchors": ["include/utils/vector.hpp:vector", "include/utils/vector.hpp:operator=", "include/utils/vector.hpp:resize", "include/utils/cached_allocator.hpp:cached_allocator"]}
{"id": "C116", "title": "Step functions", "statement": "ceil, floor, trunc, round, rint, nearbyint, lrint, llrint, lround, llround and sign return at every index the number their name stands for (ties of round away from zero, of rint to even), equal is one where the operands differ by at most the threshold, ones_like and zeros_like are constant; and wherever these functions have a derivative, backward returns the gradient times that derivative.", "quantifier": "all tensors, thresholds, gradients and contents of the caches", "why_tests_cant": "whether a gradient is right where every difference quotient is zero is not seen in the loss", "anchors": ["include/operation.hpp:ceil", "include/operation.hpp:floor", "include/operation.hpp:trunc", "include/operation.hpp:round", "include/operation.hpp:rint", "include/operation.hpp:nearbyint", "include/operation.hpp:lrint", "include/operation.hpp:llrint", "include/operation.hpp:lround", "include/operation.hpp:llround", "include/operation.hpp:sign", "include/operation.hpp:equal", "include/operation.hpp:ones_like", "include/operation.hpp:zeros_like"]}
{"id": "C117", "title": "Shapes are values", "statement": "The shape of a tensor (a std::vector on buffered_allocator, whose elements lie in the tensor object) behaves like a list: making, copying, moving, assigning, reshaping, resizing and destroying any tensors in any order gives each the shape the operations mean, changes no other's, and every block is given back as it was asked for.", "quantifier": "all programs of such operations on any number of tensors, all ranks", "why_tests_cant": "a pointer into an object that has moved, and a wrong size given to deallocate, are seen by no assertion", "anchors": ["include/utils/buffered_allocator.hpp:allocate", "include/utils/buffered_allocator.hpp:deallocate", "include/tensor.hpp:tensor", "include/tensor.hpp:resize", "include/tensor.hpp:reshape", "include/tensor.hpp:shape"]}
{"id": "C118", "title": "Matrix products and sums with rounding", "statement": "With floating point elements, every entry of a matrix product (and of its gradients) and every sum is within the forward error bound of its number of terms, however the terms are ordered, bracketed or fused; a finite entry means that all its operands were finite; far enough from overflow it is finite; and whole numbers are computed exactly as long as they stay below 2^24 (float).", "quantifier": "all matrices, tensors, shapes, transpose flags, axes, orders of summation and binary formats", "why_tests_cant": "tests compare a few small products with a tolerance picked by hand", "anchors": ["include/tensor.tcc:gemm_cpu", "include/tensor.tcc:sum", "include/tensor.tcc:reduce", "include/operation.hpp:operator*", "Makefile"]}
{"id": "C119", "title": "Not-a-number stays visible", "statement": "has_nan, has_inf and is_valid tell exactly whether an element is NaN or infinite; and a result computed from a NaN is NaN or stops the program: sums, matrix products, softmax, the activations, inverse, clip, maximum, minimum, equal, max, min, reduce_max, reduce_min, max_pooling_2d and the cross entropy loss.", "quantifier": "all tensors of numbers with NaN (in particular of every binary floating point format), all shapes, axes, strides and contents of the caches", "why_tests_cant": "which operand of a comparison is NaN, and where in the tensor it stands, decides; a finite loss is taken for a sound one", "anchors": ["include/tensor.tcc:has_nan", "include/tensor.tcc:has_inf", "include/tensor.tcc:is_valid", "include/tensor.tcc:clip", "include/tensor.tcc:max", "include/tensor.tcc:min", "include/tensor.tcc:softmax", "include/tensor.tcc:sum", "include/tensor.tcc:gemm_cpu", "include/activation.hpp:relu", "include/activation.hpp:relu6", "include/activation.hpp:leaky_relu", "include/activation.hpp:elu", "include/activation.hpp:selu", "include/activation.hpp:hard_sigmoid", "include/operation.hpp:inverse", "include/operation.hpp:maximum", "include/operation.hpp:minimum", "include/operation.hpp:equal", "include/operation.hpp:reduce_max", "include/operation.hpp:reduce_min", "include/operation.hpp:max_pooling_2d", "include/operation.hpp:clip", "include/loss.hpp:cross_entropy_loss"]}
{"id": "C120", "title": "Stride iterators walk columns", "statement": "A stride iterator is a random access iterator over one column: adding, subtracting, stepping and indexing move by elements of the column, differences count them, the order is theirs, and every pointer it makes stays inside the tensor or at its end; reduce, reduce_sum, reduce_min and reduce_max, written with these iterators and the standard algorithms, visit exactly the elements of each column.", "quantifier": "all steps and positions; all tensors, axes and element types, any operation for reduce, any irreflexive comparison for the extremes", "why_tests_cant": "the end iterator of a column is never dereferenced, so a pointer behind the block is invisible to tests; negative and zero steps are never tried", "anchors": ["include/utils/stride_iterator.hpp:stride_iterator", "include/utils/view.hpp:col_begin", "include/utils/view.hpp:col_end", "include/utils/view.hpp:view_3d", "include/tensor.tcc:reduce", "include/operation.hpp:reduce_sum", "include/operation.hpp:reduce_min", "include/operation.hpp:reduce_max"]}
{"id": "C121", "title": "Compiled models are values", "statement": "A compiled_model can be copied and moved like any value: training a copy on a batch uses that batch, gives the error and the variables the original would have given, and does not depend on whether the original still exists, was moved, or was ever run; evaluating a copy gives the value of the loss.", "quantifier": "for all loss expressions, optimizers, batches, program states and sequences of construction, copy, move and destruction of compiled models", "why_tests_cant": "Tests compile a model and use it in place, in the scope where it was made. The optimizer holds a reference to the loss inside the compiled model; only a model that is copied or moved, and then trained, shows where the reference points, and then as a gradient that is quietly wrong, or as memory that is gone.", "anchors": ["include/model.hpp:compiled_model", "include/model.hpp:train_on_batch", "include/model.hpp:make_compiled_model", "include/optimizer.hpp:sgd", "include/operation.hpp:unary_operator", "include/operation.hpp:binary_operator"]}
{"id": "C122", "title": "Regularised training is descent on loss plus penalty", "statement": "The L1 and L2 coefficients of a variable add l1*|w| + l2*w^2 of each of its elements to what is minimised: a training step goes against the derivatives of loss plus penalty, makes their sum smaller if the step is small and they are not at rest, and leaves it at rest at a minimum; fitting a network with regularised layers is the descent path of loss plus penalty, whatever the loss, the coefficients and the sharing of variables.", "quantifier": "for all networks, losses, coefficients, weights, optimizers, batches and numbers of epochs; for single steps all expressions of C53", "why_tests_cant": "The reported loss does not contain the penalty, and the penalty term is small beside the gradient: a term counted twice, left out, or with the wrong sign at zero only shifts where training ends.", "anchors": ["include/variable.hpp:backward", "include/variable.hpp:regularizer", "include/layer.hpp:Dense", "include/layer.hpp:Conv2D", "include/model.hpp:fit", "include/optimizer.hpp:sgd"]}
{"id": "C123", "title": "Matrix products on the device", "statement": "In a program built for CUDA, every matrix product is the one the processor computes: gemm leaves in C the product of the operands as flagged, whether it is made by cuda_gemm or on the processor, whatever the clock measured when the threshold was set, for any sequence of products in float and double; the block of device memory the products share is large enough for each of them, is released before it is replaced, and none is held when the cache is destroyed.", "quantifier": "for all matrices, sizes, transpose flags, element widths, sequences of products, thresholds and measurements, and every cuBLAS meeting its documentation", "why_tests_cant": "The tests need a device and are not run without one; the operands are exchanged and share one cached block, so a wrong leading dimension or a block that is too small shows only for some shapes after some histories.", "anchors": ["include/backend/cuda.hpp:cuda_gemm", "include/backend/cuda.hpp:cuda_memory_cache", "include/backend/cuda.hpp:reserve", "include/backend/cuda.hpp:allocate", "include/backend/cuda.hpp:deallocate", "include/tensor.tcc:update_cuda_gemm_threshold", "include/tensor.tcc:gemm"]}
{"id": "C124", "title": "Formatted text", "statement": "fmt::format puts the texts of its arguments into the holes of the format string: into the holes {} from left to right, or into each hole {i} the i-th argument, whatever the arguments contain; holes without argument stay, arguments without hole are ignored. In particular the lines the serialisers write are the pieces and names they are composed of.", "quantifier": "for all format strings, numbers of arguments and texts", "why_tests_cant": "The arguments in tests are short numbers and words; substitution is done one argument after the other on the text produced so far, so only arguments that look like holes show the difference.", "anchors": ["include/utils/fmt.hpp:format", "include/utils/fmt.hpp:plain_format", "include/utils/fmt.hpp:indexed_format", "include/utils/fmt.hpp:replace_all", "include/utils/fmt.hpp:replace_once", "include/operation.hpp:make_argumented_operator_serializer", "include/utils/enable_serializer.hpp:default_unary_expression_serializer", "include/variable.hpp:serialize", "include/value.hpp:serialize", "include/constant.hpp:serialize", "include/place_holder.hpp:serialize", "include/tensor.tcc:serialize"]}
{"id": "C125", "title": "Values in serialised code", "statement": "The text fmt::format writes for a value reads back as the value: numbers, flags, characters, tuples and containers; so that the program a serialiser writes has the numbers and shapes of the expression.", "quantifier": "for all values: integers and numbers of every binary format, texts, containers and tuples of every length", "why_tests_cant": "The numbers in tests have few digits and the containers few elements; that the text of a number is a neighbour of it is not seen by looking at it.", "anchors": ["include/utils/fmt.hpp:to_string", "include/utils/fmt.hpp:iterator_to_string", "include/utils/fmt.hpp:max_element_to_format", "include/utils/fmt.hpp:cast_to_string", "include/value.hpp:serialize", "include/variable.hpp:serialize"]}
{"id": "C126", "title": "Serialised calls are the calls that were made", "statement": "The code a serialiser writes for an expression, compiled, makes the same calls with the same arguments on the same operands, for every operator of the library; so does the code of a model in which the place holder has been replaced by another expression.", "quantifier": "for all expressions over all unary and binary operators, all arguments and all replacements", "why_tests_cant": "Tests serialise a few models; the name and the arguments of each operator are typed again in its serialiser, so each operator is right or wrong by itself, and most are never serialised by a test.", "anchors": ["include/operation.hpp:make_unary_operator", "include/operation.hpp:make_argumented_operator_serializer", "include/utils/enable_serializer.hpp:default_unary_expression_serializer", "include/loss.hpp:cross_entropy_loss", "include/activation.hpp:exponential", "include/model.hpp:replace_placeholder_with_expression", "include/place_holder.hpp:serialize"]}
{"id": "C127", "title": "Place holders hold the tensor bound last", "statement": "A place holder evaluates to the tensor bound to it last, through whichever copy and in whichever session, and has its shape; without a tensor evaluating it stops with a message and its shape is the hint it was given.", "quantifier": "for all programs of bindings, resets, shape hints and ends of sessions over any number of place holders, copies and sessions", "why_tests_cant": "Tests bind each place holder in one session; copies share their state and sessions reset what they bound when they end, so wrong sharing shows only when several sessions or copies meet.", "anchors": ["include/place_holder.hpp:place_holder", "include/place_holder.hpp:bind", "include/place_holder.hpp:reset", "include/place_holder.hpp:shape", "include/place_holder.hpp:forward", "include/session.hpp:bind", "include/session.hpp:rebind", "include/session.hpp:~session"]}
{"id": "C128", "title": "Checks stop wrong calls in every build", "statement": "A call the library rejects with a message - operands whose shapes do not fit, a new shape with another number of elements, an empty tensor where there must be elements - has no effect and gives no result in any build; a call it accepts does the same in every build.", "quantifier": "for all tensors, shapes and storages, in builds with and without NDEBUG", "why_tests_cant": "Tests run in one build; that the checks of a release build stop nothing, and what the code behind them then reads and overwrites, shows only for wrong arguments in the other build.", "anchors": ["include/utils/better_assert.hpp:better_assert", "include/utils/better_assert.hpp:print_assertion", "include/config.hpp:debug_mode", "include/tensor.hpp:operator +=", "include/tensor.hpp:as_scalar", "include/tensor.tcc:broadcast_shape", "include/tensor.tcc:broadcast_tensor", "include/tensor.tcc:add", "include/tensor.tcc:multiply", "include/tensor.tcc:elementwise_product", "include/tensor.tcc:elementwise_divide", "include/tensor.tcc:concatenate", "include/tensor.tcc:squeeze", "include/operation.hpp:reshape"]}
{"id": "C129", "title": "Pictures survive files", "statement": "A picture file that is read with imread and written with imwrite is the same picture; a tensor of bytes that is written and read again is the same tensor; element [y][x] of the tensor is the pixel in line y and column x; a tensor of numbers becomes a picture in which the smallest number is black, the largest white and those between proportional; the name given is the name of the file, in the format its ending says; imresize gives a picture of the requested shape.", "quantifier": "for all pictures of any size and number of channels, all tensors of numbers, all file names, and every library of formats that stores png without loss", "why_tests_cant": "Tests look at a few square or symmetric pictures; the exchanged axes, negative and low-contrast pictures, names without a dot and formats with other sample types each need their own input.", "anchors": ["include/utils/imageio.hpp:imread", "include/utils/imageio.hpp:direct_imwrite", "include/utils/imageio.hpp:imwrite", "include/utils/imageio.hpp:imresize", "include/tensor.tcc:amax", "include/tensor.tcc:amin"]}
{"id": "C130", "title": "Every optimizer's step goes down the loss", "statement": "Running a loss and then a step of any optimizer, at any point of training and with whatever the steps before have left in its memory, makes the loss smaller if the derivative of the loss is not zero and the learning rate small enough.", "quantifier": "for all losses, variables, values, optimizers, hyperparameters and contents of the optimizer's memory, all small enough learning rates", "why_tests_cant": "A test follows one training run and one loss; which optimizers can go uphill, and from which states, is a statement about all states of their memories.", "anchors": ["include/optimizer.hpp:sgd::forward", "include/optimizer.hpp:adagrad::forward", "include/optimizer.hpp:rmsprop::forward", "include/optimizer.hpp:adadelta::forward", "include/optimizer.hpp:adam::forward", "include/optimizer.hpp:gradient_descent::forward"]}
{"id": "C131", "title": "A bad gradient does not outlive its step", "statement": "If the gradient of one element is NaN or too large in one step, the element is NaN after the step (nothing hides it) and no other element is affected; after setting the weights to good numbers again, steps with good gradients give numbers again and move the weights.", "quantifier": "for all optimizers, tensors and elements, all later weights, gradients and learning rates, and every number format with NaN", "why_tests_cant": "Tests train on data without NaN; what the memory of an optimizer keeps for ever shows only after a bad batch and a restart from saved weights.", "anchors": ["include/optimizer.hpp:sgd::forward", "include/optimizer.hpp:adagrad::forward", "include/optimizer.hpp:rmsprop::forward", "include/optimizer.hpp:adadelta::forward", "include/optimizer.hpp:adam::forward", "include/optimizer.hpp:gradient_descent::forward", "include/variable.hpp:contexts"]}
{"id": "C132", "title": "glob finds the files that match", "statement": "glob( pattern ) lists exactly the files whose paths match the pattern part by part: * any characters, ? one character, [..] a character listed or in a listed range, [!..] any other, everything else itself; names that begin with a dot are left out; other files are found in whichever directory they are.", "quantifier": "for all patterns of these wildcards, all names, all trees of directories and all current directories", "why_tests_cant": "Tests look into one directory with ordinary names; names with line ends, unusual characters in brackets, hidden files and directories outside the current one each need their own case.", "anchors": ["include/utils/3rd_party/glob.hpp:translate", "include/utils/3rd_party/glob.hpp:compile_pattern", "include/utils/3rd_party/glob.hpp:fnmatch_case", "include/utils/3rd_party/glob.hpp:filter", "include/utils/3rd_party/glob.hpp:iter_directory", "include/utils/3rd_party/glob.hpp:is_hidden", "include/utils/3rd_party/glob.hpp:glob1", "include/utils/3rd_party/glob.hpp:glob0", "include/utils/3rd_party/glob.hpp:glob"]}
{"id": "C133", "title": "Activations of finite numbers are finite", "statement": "Where every element of the input is a finite number of the format, so is every element of the output of each activation, in its range (0 to 1 for softmax, sigmoid, hard_sigmoid and gaussian, -1 to 1 for tanh and softsign); and a finite gradient that comes in gives a finite gradient that goes out.", "quantifier": "for all tensors of finite numbers of any size, all shapes with elements, every binary format with 6 or more digits (float and double among them) and every exp, log and tanh rounded faithfully", "why_tests_cant": "Tests evaluate activations at moderate numbers; overflow of an intermediate result needs numbers near the ends of the range, and that it happens nowhere is a statement about all numbers of the format.", "anchors": ["include/activation.hpp:softmax", "include/activation.hpp:selu", "include/activation.hpp:softplus", "include/activation.hpp:softsign", "include/activation.hpp:sigmoid", "include/activation.hpp:relu6", "include/activation.hpp:leaky_relu", "include/activation.hpp:elu", "include/activation.hpp:hard_sigmoid", "include/activation.hpp:gelu", "include/activation.hpp:swish", "include/activation.hpp:gaussian", "include/operation.hpp:tanh"]}
{"id": "C134", "title": "Losses of finite predictions are finite numbers", "statement": "For labels and predictions that are finite numbers the cross-entropy losses are finite numbers, and so are the gradients they pass on.", "quantifier": "for all numbers of rows and classes, all finite predictions, every binary format with the exponents of float or more and every exp and log rounded faithfully", "why_tests_cant": "Tests use predictions of trained or fresh networks; a class of probability 0 or an exact label of 1 turns the loss into NaN only for particular numbers, and that the fused loss stays finite concerns all of them.", "anchors": ["include/loss.hpp:cross_entropy_loss", "include/loss.hpp:binary_cross_entropy_loss", "include/loss.hpp:cross_entropy", "include/operation.hpp:negative", "include/operation.hpp:log", "include/tensor.hpp:operator -"]}
{"id": "C135", "title": "Networks of dense layers computed with rounding", "statement": "A network of dense layers with activations, evaluated with operations that round, gives for each output a finite number whose distance from the network over the reals is at most a bound computed layer by layer from the weights, the error of the input, the unit roundoff and the error of the activation; with whole weights and inputs whose sums stay exact, relu networks are exact. The bound of a layer is at most the largest column sum of its weights times the error that comes in plus a multiple of the unit roundoff.", "quantifier": "for all numbers of layers, all widths and batch sizes, all finite weights and inputs that stay away from overflow, every accurate arithmetic, every accurate matrix product, and relu, leaky_relu, tanh, sigmoid or no activation in every binary format", "why_tests_cant": "Tests compare one network with a stored result up to a tolerance that is guessed; that the error of every network stays below a bound computed from its weights is a statement about all weights, inputs and depths.", "anchors": ["include/layer.hpp:Dense", "include/tensor.tcc:gemm_cpu", "include/operation.hpp:operator *", "include/operation.hpp:operator +", "include/operation.hpp:tanh", "include/activation.hpp:relu", "include/activation.hpp:leaky_relu", "include/activation.hpp:sigmoid"]}
{"id": "C136", "title": "Gradients of networks of dense layers computed with rounding", "statement": "After a training run of a network of dense layers and a backward pass from a gradient for its output, both computed with operations that round, the gradient stored for every weight and bias, and the one passed on to the input, is finite and within a bound, computed layer by layer, of the derivative of the weighted sum of the outputs of the network over the reals, whatever the gradients held before.", "quantifier": "for all numbers of layers, widths, batch sizes, weights, inputs and gradients that stay away from overflow (and, for relu, from the kink by more than the error), every accurate arithmetic and matrix product, every order of the sums over rows, and relu, tanh, sigmoid or no activation in every binary format", "why_tests_cant": "Tests compare gradients with difference quotients up to a guessed tolerance at a few points; a bound for every weight of every network, with all roundings of the two passes, is a statement about all of them.", "anchors": ["include/layer.hpp:Dense", "include/operation.hpp:operator *", "include/operation.hpp:operator +", "include/operation.hpp:binary_operator::backward", "include/operation.hpp:unary_operator::backward", "include/variable.hpp:backward", "include/tensor.tcc:gemm_cpu", "include/activation.hpp:relu", "include/activation.hpp:sigmoid", "include/operation.hpp:tanh"]}
{"id": "C137", "title": "Convolutions computed with rounding", "statement": "Each output of conv2d and general_conv2d, computed with operations that round, is within a bound for as many products as the filter has weights (kernel rows times kernel columns times channels) of the exact convolution of the padded image; it is finite only if all the weights and pixels under the filter are, and is finite if they are and the sum of absolute values stays away from overflow; with whole numbers that stay small it is exact.", "quantifier": "for all images below 2^32 elements, batch sizes, channels, kernels, strides and dilations that fit, padding valid or same (with equal paddings in both directions), filters stored channel by channel, any contents of the caches, every arithmetic that rounds", "why_tests_cant": "Tests compare one picture with a stored result up to a guessed tolerance; that padding, gathering and summing add no error beyond the bound is a statement about all geometries and numbers.", "anchors": ["include/operation.hpp:img2col", "include/operation.hpp:conv2d", "include/operation.hpp:general_conv2d", "include/tensor.tcc:gemm_cpu", "include/operation.hpp:transpose", "include/operation.hpp:reshape"]}
{"id": "C138", "title": "Gradients of convolutions computed with rounding", "statement": "What a convolution sends back, computed with operations that round, is accurate: the gradient of each weight of the filter is within the bound for one product per place of the output, and the gradient of each pixel within the bound for a sum of at most kernel rows times kernel columns sums of as many products as there are filters; they are finite if the numbers they are made of are and stay away from overflow, and exact with small whole numbers. The exact gradients are the coefficients of the weighted output, which is linear in the image and in the filter.", "quantifier": "for all images below 2^32 elements, batch sizes, channels, kernels, strides and dilations that fit, paddings equal in both directions, gradients of the output, contents of the caches, every accurate arithmetic and every accurate matrix product", "why_tests_cant": "Tests take difference quotients at a few weights; overlapping windows make the number of roundings depend on stride, dilation and place, and a bound for every pixel and weight is a statement about all geometries.", "anchors": ["include/operation.hpp:img2col", "include/operation.hpp:conv2d", "include/operation.hpp:general_conv2d", "include/operation.hpp:transpose", "include/operation.hpp:reshape", "include/operation.hpp:operator *", "include/operation.hpp:binary_operator::backward", "include/operation.hpp:unary_operator::backward", "include/tensor.tcc:gemm_cpu"]}
{"id": "C139", "title": "Printed tensors show every element in its place", "statement": "Printing a tensor writes its shape and then its elements: one line for every index of all dimensions but the last, one word for every element of that row, a single line for tensors of fewer than two dimensions. Reading the words of the lines back gives every element at its index, no element is missing or written twice, and two tensors that print alike have the same shape and elements that print alike.", "quantifier": "for all tensors of any shape and rank, including rank 0 and extents 0, and every way of printing an element as a word without blanks", "why_tests_cant": "Tests print one matrix and look at it; that line and column of every element are those of its index, for every rank and extent, is a statement about all tensors.", "anchors": ["include/tensor.tcc:operator <<"]}
{"id": "C140", "title": "Noise operators", "statement": "poisson gives, for every element, a number drawn from the Poisson distribution whose mean is the element, in the shape of its operand; random_normal_like gives numbers of the normal distribution in the shape of its operand, new ones for every run, and sends back no gradient. Both are defined for all operands, and the gradient that poisson sends back is the derivative of what is expected of a draw.", "quantifier": "for all tensors, generators of random numbers and their states, means and deviations, gradients", "why_tests_cant": "Tests of random operators draw a few numbers of means well above 1; that an element below 1 makes the distribution undefined, or that the fraction of a mean is lost, does not show in them.", "anchors": ["include/tensor.tcc:poisson", "include/tensor.tcc:randn_like", "include/operation.hpp:poisson", "include/operation.hpp:random_normal_like"]}
{"id": "C141", "title": "Training steps computed with rounding", "statement": "A step of gradient_descent or sgd on a network of dense layers, with the forward pass, the loss, the backward pass, the storing of gradients and the change of the variables computed with operations that round, ends, and leaves every weight, every bias and every momentum finite and within a bound, computed layer by layer, of what the same step over the reals makes of them; the gradients are zero afterwards, and what does not belong to the network is untouched.", "quantifier": "for all numbers of layers, widths, batch sizes, weights, remembered momenta, inputs, learning rates and momentum factors that stay away from overflow (and, for relu, from the kink by more than the error), every loss that sends the outputs a gradient within a known error, every accurate arithmetic and matrix product, with nesterov and without", "why_tests_cant": "Tests train a small network and look whether the loss falls; an error in one of the many steps that makes the weights drift shows only in some networks, and a bound for every weight of every network is a statement about all of them.", "anchors": ["include/optimizer.hpp:gradient_descent::forward", "include/optimizer.hpp:sgd::forward", "include/layer.hpp:Dense", "include/session.hpp:run", "include/variable.hpp:backward", "include/utils/for_each.hpp:for_each"]}
{"id": "C142", "title": "Squared losses computed with rounding", "statement": "squared_loss and mean_squared_error, computed with operations that round on predictions that carry errors, send every prediction a finite number within a bound of the derivative of the loss over the reals, twice the difference of prediction and label times the factor of the reduction; the value of squared_loss is finite and within a bound of the sum of the squared differences. With them a training step moves along the derivative of the loss of the network.", "quantifier": "for all numbers of rows and columns, labels, predictions and errors of predictions that stay away from overflow, all orders of the sum over rows in the backward pass of the difference, every binary format", "why_tests_cant": "Tests compare the loss of a few numbers with a stored value; that the difference, the two products, the reduction and the unbroadcasting of the gradient together stay within one bound is a statement about all predictions and labels.", "anchors": ["include/loss.hpp:squared_loss", "include/loss.hpp:mean_squared_error", "include/operation.hpp:square", "include/operation.hpp:negative", "include/operation.hpp:minus", "include/operation.hpp:sum_reduce", "include/operation.hpp:mean_reduce", "include/operation.hpp:operator +"]}
{"id": "C143", "title": "softmax and cross_entropy_loss computed with rounding", "statement": "softmax, computed with operations that round and with the largest score subtracted, gives every element a finite number within a bound of its probability over the reals; cross_entropy_loss sends every score a finite number within a bound of the probability minus the weight of the label, which without smoothing is exactly one or zero and is the derivative of the sum over the rows of the cross entropy of the scores, also through a network; its value is finite and within a bound of the mean over the rows of the cross entropy of the probabilities, cut at eps.", "quantifier": "for all ranks, numbers of rows and classes, scores with errors, labels, smoothing factors, exponentials and logarithms of known relative error, and every binary format, as long as the spread of the scores and the number of classes stay away from overflow", "why_tests_cant": "Tests look at a few rows of scores of moderate size; that the shift by the largest score, the exponentials, their sum, the eps added to it and the quotient together keep the error small for every row is a statement about all scores, and it is where an implementation that does not shift, or sums in another way, goes wrong.", "anchors": ["include/tensor.tcc:softmax", "include/loss.hpp:cross_entropy_loss", "include/loss.hpp:cross_entropy_loss_context::make_forward", "include/loss.hpp:cross_entropy_loss_context::make_backward"]}
{"id": "C144", "title": "The progress bar never changes or stops training", "statement": "A loop over tq::trange, in which fit and evaluate run their batches, does exactly what the plain loop over the same numbers does, whatever the terminal and the clock do; every frame it shows has all cells of the bar, filled cells never become fewer, are within a cell of the share that is done, are all cells at the end, and no frame is shorter than one before it.", "quantifier": "for all widths of the terminal including none, numbers of iterations, clocks, loop bodies and states, all models, inputs, batch sizes and epochs", "why_tests_cant": "Tests run in the one terminal of the developer; the bar subtracts 40 from the width of the terminal, counts cells with an int until it meets a number that may be negative, and reads the width from memory that is not written when standard input is redirected, so the loop that trains depends on where the program is started.", "anchors": ["include/utils/tqdm.hpp:trange", "include/utils/tqdm.hpp:progress_bar::update", "include/utils/tqdm.hpp:progress_bar::display", "include/utils/tqdm.hpp:progress_bar::print_bar", "include/utils/tqdm.hpp:get_terminal_width", "include/utils/tqdm.hpp:dm_for_lvalues::calc_progress", "include/model.hpp:compiled_model::fit", "include/model.hpp:compiled_model::evaluate"]}
{"id": "C145", "title": "color::rize keeps its text and knows its colours", "statement": "color::rize never fails, whatever names of colours and formats it is given; it puts the text unchanged between two escape sequences that do not depend on the text; and every colour there is for the foreground is there for the background, with the code ten above it; every format but the default can be taken back under its name, with the code twenty above.", "quantifier": "for all texts, names of colours and names of formats", "why_tests_cant": "The tables are looked up with at, which throws for a name that is missing, after a check against another lookup; that no name leads to an exception is a statement about all strings, and a name misspelled in one table goes unnoticed because it silently becomes the default.", "anchors": ["include/utils/color.hpp:rize", "include/utils/color.hpp:color_foreground", "include/utils/color.hpp:color_background"]}
{"id": "C146", "title": "assign stores the value of an expression in a variable", "statement": "Running assign( x, v ) returns the value of the expression x and leaves that value, with its shape, in the variable v; every other variable and every input keeps its value; run again and again it takes v through the values x has for the values of v before; and nothing flows back through it: the expression is given a gradient of zeros and what v has collected stays.", "quantifier": "for all expressions, variables, values and shapes, all states of the caches, any number of runs", "why_tests_cant": "The operator writes to the variable through a copy of its tensor that shares the storage but not the shape, so what happens depends on which tensors share storages and which shapes they have; the comment in the code says the implementation is wrong without saying when.", "anchors": ["include/operation.hpp:assign", "include/operation.hpp:binary_operator::forward", "include/tensor.hpp:reshape", "include/variable.hpp:variable::forward"]}
{"id": "C147", "title": "Fitting a linear model converges to least squares", "statement": "A network whose last layer is Dense and the only one with variables, fitted with squared_loss by gradient_descent or by sgd without momentum, and rates (documented: lr / ( 1 + decay * t )) that are not too large for the data: on one batch the error does not grow from epoch to epoch and comes as near as one likes to the least squares error; on several batches the mean of the errors reported comes to not more than twice the mean error of any linear model over the batches.", "quantifier": "for all data, layers without variables before the last, numbers of features, labels, batches and epochs, initial weights, rates and decays", "why_tests_cant": "Tests fit a few epochs on one data set and check that the error is small at the end; whether it would become as small as possible, and for which rates, is a statement about all numbers of epochs and all data.", "anchors": ["include/model.hpp:fit", "include/optimizer.hpp:sgd", "include/optimizer.hpp:gradient_descent", "include/layer.hpp:Dense", "include/loss.hpp:squared_loss"]}
{"id": "C148", "title": "compress writes the textbook LZW codes", "statement": "lzw::compress writes the codes of LZW as in textbooks, in the order in which they come and with the number of bits of the largest code in use: the current string is extended while it is in the dictionary, otherwise its code is written, the extended string gets the next free code and the last byte becomes the current string; a full dictionary is emptied before the next byte; no string has two codes. The output is these bits, filled up to a whole byte with zeros, so its size is bounded by the size of the input.", "quantifier": "every byte sequence of any length and every dictionary capacity of at least 258", "why_tests_cant": "Tests compare the output for a few files with another program, or only decompress what was compressed; a tree search that misses a string it holds still round-trips and only compresses less.", "anchors": ["include/utils/lzw.hpp:compress", "include/utils/lzw.hpp:search_and_insert", "include/utils/lzw.hpp:required_bits", "include/utils/lzw.hpp:CodeWriter"]}
{"id": "C149", "title": "Pooling and sampling computed with rounding", "statement": "Computed with rounding: every element of average_pooling_2d is within a stated bound of the mean of its window and finite if the window is finite and far from overflow; backward sends every element its part of the gradient of its window within a stated bound; max_pooling_2d of finite numbers returns an element of each window than which none is larger, without rounding; backward of up_sampling_2d returns the sums of the gradients of the copies within the error of a sum.", "quantifier": "for all finite formats, all shapes, strides whose square is a number of the format, contents and previous contents of the caches", "why_tests_cant": "Tests compare a few windows with a tolerance that was chosen by looking at the results; a bound holds for every content, and tells when overflow makes the result useless.", "anchors": ["include/operation.hpp:average_pooling_2d", "include/operation.hpp:max_pooling_2d", "include/operation.hpp:up_sampling_2d"]}
{"id": "C150", "title": "Sessions of one's own evaluate fresh", "statement": "run of a session object, the default one or one that the program made, returns the value of the expression for what is bound and stored at that time, in whatever order the sessions are used.", "quantifier": "for all expressions, all programs of binding, storing, clearing and running in any number of sessions", "why_tests_cant": "Tests use the default session, or one session and one run; that a second run in another session returns the first result again shows only in histories with several runs.", "anchors": ["include/session.hpp:session::run", "include/session.hpp:session::clear_forward_cache", "include/session.hpp:get_default_session", "include/operation.hpp:unary_operator::forward"]}
