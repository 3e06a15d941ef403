{
 "claims": [
  {
   "property": "C49",
   "status": "partial",
   "theorems": [
    "Verif.Ops.plus_backward_partial",
    "Verif.Ops.plus_backward_rank0_violated",
    "Verif.Ops.plus_backward_empty_violated"
   ],
   "note": "The code violates the property for operands of rank 0 and for operands without elements; proved for all others."
  },
  {
   "property": "C50",
   "status": "proved",
   "theorems": [
    "Verif.Ops.matmul_forward",
    "Verif.Ops.matmul_backward",
    "Verif.Ops.matmul_adjoint"
   ],
   "note": ""
  },
  {
   "property": "C51",
   "status": "partial",
   "theorems": [
    "Verif.Ops.elementwise_backward_partial",
    "Verif.Ops.elementwise_tensor_partial",
    "Verif.Ops.log1p_backward_violated",
    "Verif.Ops.softplus_backward_violated",
    "Verif.Ops.elu_backward_violated",
    "Verif.Ops.gelu_backward_violated",
    "Verif.Ops.dgelu_symmetric",
    "Verif.Ops.dgelu_not_derivative_violated",
    "Verif.Ops.inverse_backward_violated",
    "Verif.Ops.atan2_backward_violated"
   ],
   "note": "Real arithmetic. Proved for 37 of 42 unary operators wherever their function is differentiable (elu for x > 0, inverse for x^2 >= eps); the code violates the property for log1p, softplus, elu (x < 0), gelu, inverse (0 < x^2 < eps) and atan2, each shown for all points stated in the theorem."
  },
  {
   "property": "C52",
   "status": "partial",
   "theorems": [
    "Verif.Ops.sum_reduce_adjoint",
    "Verif.Ops.mean_reduce_backward_violated",
    "Verif.Ops.mean_reduce_backward_partial"
   ],
   "note": "sum_reduce is proved; the code violates the property for mean_reduce (it divides by the batch size only); mean_reduce is proved when the batch size is the size."
  },
  {
   "property": "C81",
   "status": "partial",
   "theorems": [
    "Verif.Ops.elementwise_product_backward_partial",
    "Verif.Ops.elementwise_product_backward_violated"
   ],
   "note": "The code violates the property when a dimension of extent one is stretched: forward repeats cyclically, backward sums the axis. Proved when the shape of one operand is a suffix of the other's."
  },
  {
   "property": "C82",
   "status": "proved",
   "theorems": [
    "Verif.Ops.broadcast_op_values",
    "Verif.Ops.broadcast_op_adjoint"
   ],
   "note": ""
  },
  {
   "property": "C01",
   "status": "proved",
   "theorems": [
    "Verif.Lzw.lzw_round_trip",
    "Verif.Lzw.lzw_round_trip_capacity"
   ],
   "note": ""
  },
  {
   "property": "C02",
   "status": "proved",
   "theorems": [
    "Verif.Lzw.lzw_encoder_safe",
    "Verif.Lzw.lzw_encoder_stream"
   ],
   "note": ""
  },
  {
   "property": "C03",
   "status": "partial",
   "theorems": [
    "Verif.Lzw.lzw_decoder_total_violated",
    "Verif.Lzw.lzw_decoder_reset_violated",
    "Verif.Lzw.lzw_decoder_total_partial",
    "Verif.Lzw.lzw_decoder_dangling_violated",
    "Verif.Lzw.lzw_decoder_exact_partial",
    "Verif.Lzw.lzw_decoder_undefined_iff_partial"
   ],
   "note": "The code violates the property (first code 257; codes from before a reset). The streams on which it does are characterised exactly, from the codes in the stream alone: undefined behaviour if and only if the codes dangle; a status is returned on every other stream. A simple sufficient condition is proved too (streams too short to fill the dictionary whose first code is not 257)."
  },
  {
   "property": "C04",
   "status": "proved",
   "theorems": [
    "Verif.Lzw.lzw_truncated_prefix"
   ],
   "note": ""
  },
  {
   "property": "C05",
   "status": "proved",
   "theorems": [
    "Verif.Parallel.parallel_each_once",
    "Verif.Parallel.parallel_from_zero"
   ],
   "note": ""
  },
  {
   "property": "C06",
   "status": "partial",
   "theorems": [
    "Verif.Parallel.parallel_range_violated",
    "Verif.Parallel.parallel_range_iff",
    "Verif.Parallel.parallel_range_partial"
   ],
   "note": "The code violates the property: the last slice misses the offset. Exact condition under which it holds is proved."
  },
  {
   "property": "C07",
   "status": "proved",
   "theorems": [
    "Verif.Parallel.for_each_schedule_independent",
    "Verif.Parallel.for_each_progress"
   ],
   "note": "Memory model: loads and stores interleave sequentially consistently; workers touch disjoint cells, so no weaker behaviour is possible for race-free programs."
  },
  {
   "property": "C08",
   "status": "proved",
   "theorems": [
    "Verif.Alloc.alloc_disjoint_zeroed",
    "Verif.Alloc.alloc_owned_disjoint",
    "Verif.Alloc.alloc_contents"
   ],
   "note": ""
  },
  {
   "property": "C09",
   "status": "partial",
   "theorems": [
    "Verif.Alloc.alloc_oom_violated",
    "Verif.Alloc.alloc_oom_double_free_violated",
    "Verif.Alloc.alloc_oom_partial"
   ],
   "note": "The code violates the property: gc() keeps the released blocks in reserved_memory. Proved when failures happen with an empty reserve only."
  },
  {
   "property": "C10",
   "status": "proved",
   "theorems": [
    "Verif.Alloc.alloc_release_once"
   ],
   "note": ""
  },
  {
   "property": "C11",
   "status": "partial",
   "theorems": [
    "Verif.Tensor.tensor_size_violated",
    "Verif.Tensor.tensor_default_size_violated",
    "Verif.Tensor.tensor_size_partial"
   ],
   "note": "The code violates the property: resizing one copy changes the storage of all copies but only its own shape, and tensor() has empty shape with no elements. Proved for histories whose size-changing operations hit unshared storage."
  },
  {
   "property": "C12",
   "status": "proved",
   "theorems": [
    "Verif.Tensor.resize_keeps_or_zero_fills"
   ],
   "note": ""
  },
  {
   "property": "C13",
   "status": "proved",
   "theorems": [
    "Verif.Tensor.deep_copy_independent",
    "Verif.Tensor.copy_is_alias",
    "Verif.Tensor.scalar_operators"
   ],
   "note": ""
  },
  {
   "property": "C14",
   "status": "proved",
   "theorems": [
    "Verif.Tensor.reshape_keeps_order",
    "Verif.Tensor.reshape_infers_last"
   ],
   "note": ""
  },
  {
   "property": "C16",
   "status": "proved",
   "theorems": [
    "Verif.Tensor.broadcast_shape_numpy",
    "Verif.Tensor.broadcast_shape_rejects",
    "Verif.Tensor.broadcast_shape_comm"
   ],
   "note": ""
  },
  {
   "property": "C17",
   "status": "proved",
   "theorems": [
    "Verif.Tensor.broadcast_tensor_repeats",
    "Verif.Tensor.broadcast_tensor_lower_rank_ub",
    "Verif.Tensor.broadcast_tensor_rejects"
   ],
   "note": "Other shapes are never accepted. Assumes the last extent is not 2^64-1 (the -1 marker of reshape)."
  },
  {
   "property": "C18",
   "status": "proved",
   "theorems": [
    "Verif.Tensor.add_minus_values"
   ],
   "note": ""
  },
  {
   "property": "C19",
   "status": "partial",
   "theorems": [
    "Verif.Tensor.add_operands_violated",
    "Verif.Tensor.add_operands_partial"
   ],
   "note": "The code violates the property: the sum is written into the left operand when it needs no expansion. Proved exactly when it holds."
  },
  {
   "property": "C15",
   "status": "proved",
   "theorems": [
    "Verif.View.view_2d_row_major",
    "Verif.View.view_2d_transposed_row_major",
    "Verif.View.view_3d_row_major",
    "Verif.View.view_4d_row_major",
    "Verif.View.view_n_row_major",
    "Verif.View.view_row_iterators",
    "Verif.View.view_col_iterators"
   ],
   "note": ""
  },
  {
   "property": "C20",
   "status": "proved",
   "theorems": [
    "Verif.Gemm.gemm_is_matrix_product"
   ],
   "note": ""
  },
  {
   "property": "C21",
   "status": "partial",
   "theorems": [
    "Verif.Gemm.multiply_matrix_vector_violated",
    "Verif.Gemm.multiply_matrices",
    "Verif.Gemm.multiply_row_vector",
    "Verif.Gemm.multiply_vector_partial",
    "Verif.Gemm.multiply_rejects"
   ],
   "note": "The code violates the property for a matrix with two or more rows times a 1-D vector (it always stops in an assertion). Proved for 2-D times 2-D, 1-D times 2-D and 1-D times 1-D."
  },
  {
   "property": "C22",
   "status": "proved",
   "theorems": [
    "Verif.Gemm.cblas_same_product",
    "Verif.Gemm.blas_spec_satisfiable"
   ],
   "note": "BLAS itself is not modelled; any implementation meeting its documented column-major specification is quantified over."
  },
  {
   "property": "C23",
   "status": "proved",
   "theorems": [
    "Verif.Data.elementwise_product_values",
    "Verif.Data.elementwise_product_rejects",
    "Verif.Data.elementwise_divide_values",
    "Verif.Data.elementwise_product_empty_ub"
   ],
   "note": "An operand without elements divides by zero (elementwise_product_empty_ub)."
  },
  {
   "property": "C24",
   "status": "proved",
   "theorems": [
    "Verif.Data.concatenate_values",
    "Verif.Data.concatenate_rejects",
    "Verif.Data.concatenate_violated"
   ],
   "note": "Outside the quantifier: two empty operands with a zero extent before the axis read out of bounds (concatenate_violated)."
  },
  {
   "property": "C25",
   "status": "partial",
   "theorems": [
    "Verif.Data.concatenate_ranks_violated",
    "Verif.Data.concatenate_order_violated",
    "Verif.Data.concatenate_order_partial",
    "Verif.Data.concatenate_ranks_partial"
   ],
   "note": "The code violates the property for different ranks: undefined (iterators of two temporaries), and with the intended reading the operands are exchanged when the left one has the lower rank. Proved for equal ranks, and with the intended reading for a right operand of lower rank."
  },
  {
   "property": "C26",
   "status": "partial",
   "theorems": [
    "Verif.Data.repeat_violated",
    "Verif.Data.repeat_partial",
    "Verif.Data.repmat_values"
   ],
   "note": "repeat is undefined for every tensor of rank 1 or more (iterators of two temporaries); proved with the intended reading. repmat is proved in full."
  },
  {
   "property": "C27",
   "status": "partial",
   "theorems": [
    "Verif.Data.sum_axis_violated",
    "Verif.Data.sum_axis_keepdims",
    "Verif.Data.sum_axis_partial",
    "Verif.Data.sum_all",
    "Verif.Data.mean_all",
    "Verif.Data.reduce_rejects"
   ],
   "note": "The code violates the property for 1-D tensors without keepdims (reshape to the empty shape). Proved with keepdims and, for rank two or more, without."
  },
  {
   "property": "C28",
   "status": "partial",
   "theorems": [
    "Verif.Data.max_violated",
    "Verif.Data.max_partial",
    "Verif.Data.max_axis_partial",
    "Verif.Data.max_min_axis_dropped"
   ],
   "note": "The code violates the property: the fold starts from the smallest positive number, so tensors of negative numbers give it. Proved when some element is at least that number."
  },
  {
   "property": "C29",
   "status": "proved",
   "theorems": [
    "Verif.Data.min_smallest",
    "Verif.Data.min_axis_smallest",
    "Verif.Data.max_min_axis_dropped"
   ],
   "note": ""
  },
  {
   "property": "C30",
   "status": "proved",
   "theorems": [
    "Verif.Data.clip_bounds_idempotent"
   ],
   "note": ""
  },
  {
   "property": "C31",
   "status": "partial",
   "theorems": [
    "Verif.Data.squeeze_removes_ones",
    "Verif.Data.expand_dims_inserts_one",
    "Verif.Data.squeeze_expand_violated",
    "Verif.Data.squeeze_expand_partial",
    "Verif.Data.expand_squeeze_partial",
    "Verif.Data.squeeze_rejects"
   ],
   "note": "The code violates the inverse law for axis -1 and for squeeze(0) of shape [1]. Everything else is proved."
  },
  {
   "property": "C32",
   "status": "proved",
   "theorems": [
    "Verif.Data.flip_reverses_axis",
    "Verif.Data.flip_involution",
    "Verif.Data.flip_rejects"
   ],
   "note": ""
  },
  {
   "property": "C33",
   "status": "proved",
   "theorems": [
    "Verif.Data.transpose_values",
    "Verif.Data.transpose_involution",
    "Verif.Data.transpose_rejects"
   ],
   "note": ""
  },
  {
   "property": "C34",
   "status": "proved",
   "theorems": [
    "Verif.Data.argmax_first_max",
    "Verif.Data.argmax_backward_zero",
    "Verif.Data.argmax_rejects",
    "Verif.Data.argmin_first_min"
   ],
   "note": ""
  },
  {
   "property": "C35",
   "status": "proved",
   "theorems": [
    "Verif.Conv.img2col_gathers"
   ],
   "note": "Index matrix entries are 32-bit: inputs of fewer than 2^32-1 elements (img2col_large_violated shows the limit is real)."
  },
  {
   "property": "C36",
   "status": "proved",
   "theorems": [
    "Verif.Conv.img2col_adjoint"
   ],
   "note": ""
  },
  {
   "property": "C37",
   "status": "partial",
   "theorems": [
    "Verif.Conv.conv2d_valid_direct",
    "Verif.Conv.general_conv2d_valid_direct",
    "Verif.Conv.general_conv2d_same_direct_partial",
    "Verif.Conv.conv2d_same_direct_partial",
    "Verif.Conv.conv2d_same_columns_violated"
   ],
   "note": "'valid' padding proved in full; 'same' is violated when rows and columns need different padding (only the row padding reaches the final reshape), proved when they need the same padding and it is even."
  },
  {
   "property": "C38",
   "status": "partial",
   "theorems": [
    "Verif.Conv.conv2d_same_keeps_size_partial",
    "Verif.Conv.conv2d_same_columns_violated",
    "Verif.Conv.conv2d_same_batch_violated",
    "Verif.Conv.conv2d_same_even_rejects",
    "Verif.Conv.general_conv2d_same_even_violated"
   ],
   "note": "The code violates the property when rows and columns need different padding; proved when they need the same, even, padding at stride 1."
  },
  {
   "property": "C39",
   "status": "partial",
   "theorems": [
    "Verif.Conv.img2col_reuse_violated",
    "Verif.Conv.img2col_reuse_partial"
   ],
   "note": "The code violates the property: the index record is rebuilt only on a change of its size. Proved when equal record sizes come from equal geometries."
  },
  {
   "property": "C78",
   "status": "partial",
   "theorems": [
    "Verif.Conv.conv2d_documented_layout_violated",
    "Verif.Conv.conv2d_documented_layout_partial"
   ],
   "note": "The code violates the documentation: the filter is read in another layout. Proved when the two layouts coincide."
  },
  {
   "property": "C40",
   "status": "proved",
   "theorems": [
    "Verif.Pool.max_pool_window_max",
    "Verif.Pool.max_pool_rejects"
   ],
   "note": "Comparisons are those of a linear order (no NaN)."
  },
  {
   "property": "C41",
   "status": "partial",
   "theorems": [
    "Verif.Pool.max_pool_backward_violated",
    "Verif.Pool.max_pool_backward_partial"
   ],
   "note": "The code violates the property: the mask is never cleared, so a second run on the same size also sends gradient to the earlier maxima. Proved for operators whose mask and gradient caches are unused or of another size."
  },
  {
   "property": "C42",
   "status": "partial",
   "theorems": [
    "Verif.Pool.avg_pool_mean",
    "Verif.Pool.avg_pool_adjoint_partial",
    "Verif.Pool.avg_pool_backward_violated"
   ],
   "note": "Forward proved; backward is undefined for every non-empty input whose sizes the stride does not divide, and the adjoint of forward otherwise."
  },
  {
   "property": "C43",
   "status": "proved",
   "theorems": [
    "Verif.Pool.up_sampling_values",
    "Verif.Pool.up_sampling_adjoint"
   ],
   "note": ""
  },
  {
   "property": "C44",
   "status": "partial",
   "theorems": [
    "Verif.Pool.zero_padding_border_violated",
    "Verif.Pool.zero_padding_border_partial"
   ],
   "note": "The code violates the property on reuse with another shape of the same padded size; proved for all other histories."
  },
  {
   "property": "C45",
   "status": "proved",
   "theorems": [
    "Verif.Pool.cropping_values",
    "Verif.Pool.zero_padding_backward_crops",
    "Verif.Pool.cropping_backward_pads",
    "Verif.Pool.zero_padding_adjoint",
    "Verif.Pool.cropping_adjoint",
    "Verif.Pool.cropping_undoes_padding",
    "Verif.Pool.pads_of"
   ],
   "note": ""
  },
  {
   "property": "C46",
   "status": "proved",
   "theorems": [
    "Verif.Pool.repeat_op_values",
    "Verif.Pool.repeat_op_adjoint"
   ],
   "note": ""
  },
  {
   "property": "C47",
   "status": "proved",
   "theorems": [
    "Verif.Pool.reduce_min_routes",
    "Verif.Pool.reduce_max_routes",
    "Verif.Pool.reduce_sum_routes",
    "Verif.Pool.reduce_ext_empty_ub"
   ],
   "note": "The reduced extent must not be zero for min and max (reduce_ext_empty_ub)."
  },
  {
   "property": "C48",
   "status": "partial",
   "theorems": [
    "Verif.Pool.maximum_routes",
    "Verif.Pool.minimum_routes_violated",
    "Verif.Pool.minimum_routes_partial"
   ],
   "note": "maximum proved in full; minimum sends the gradient to the operand that was not selected, for every pair of tensors."
  },
  {
   "property": "C53",
   "status": "partial",
   "theorems": [
    "Verif.Graph.gradient_is_derivative_partial",
    "Verif.Graph.gradient_directional_partial",
    "Verif.Graph.opElem_good",
    "Verif.Graph.opPlus_good",
    "Verif.Graph.opMatmul_good",
    "Verif.Graph.opSum_good",
    "Verif.Graph.opEwp_good",
    "Verif.Graph.opSigmoid_good",
    "Verif.Graph.regulariser_per_copy_violated",
    "Verif.Alias.sigmoid_plus_gradient_violated"
   ],
   "note": "Tensors by value, for expressions in which no operator that looks at its operands lives in two objects and every operator's backward action is the transpose of its derivative at the point (proved for the element-wise operators, plus, matrix product, element-wise product, sum_reduce). The code violates the general statement (C54, C57), and on shared storages even sigmoid(x) + c (the sum overwrites the result the sigmoid differentiates by)."
  },
  {
   "property": "C54",
   "status": "partial",
   "theorems": [
    "Verif.Graph.shared_operand_stale",
    "Verif.Graph.shared_elementwise_violated",
    "Verif.Graph.backward_arrivals_partial"
   ],
   "note": "The code violates the property: the operand object visited second keeps its old input; with an element-wise operator on a variable backward does not even finish. Proved for shared operators whose backward action looks only at the result and the gradient."
  },
  {
   "property": "C55",
   "status": "partial",
   "theorems": [
    "Verif.Graph.run_fresh_partial",
    "Verif.Graph.run_once_partial",
    "Verif.Alias.run_shared_storage_partial",
    "Verif.Alias.shared_left_operand_violated"
   ],
   "note": "The code violates the property when the left operand of a sum is used elsewhere, as the sum overwrites it. Proved with tensors passed by value, and on shared storages when the left operand of every sum is an operator used nowhere else; evaluation once requires non-empty values."
  },
  {
   "property": "C57",
   "status": "partial",
   "theorems": [
    "Verif.Graph.gradient_accumulated",
    "Verif.Graph.variable_accumulates_partial",
    "Verif.Graph.regulariser_per_copy_violated"
   ],
   "note": "The code violates the property: the regulariser's synchronised flag is per copy, so the term is added once per object the variable lives in. Proved for variables living in one object, and the exact count in general."
  },
  {
   "property": "C56",
   "status": "partial",
   "theorems": [
    "Verif.Alias.forward_changes_variable_violated",
    "Verif.Alias.forward_changes_input_violated",
    "Verif.Alias.forward_keeps_variables_partial",
    "Verif.Alias.run_shared_storage_partial"
   ],
   "note": "The code violates the property: v + c adds c to the variable (or bound tensor) v. Proved for expressions in which no sum has a variable or place holder as its left operand."
  },
  {
   "property": "C83",
   "status": "partial",
   "theorems": [
    "Verif.Alias.run_result_overwritten_violated",
    "Verif.Alias.run_shared_storage_partial"
   ],
   "note": "The code violates the property: operators with a cache of their own overwrite the tensor an earlier run returned. Proved only until the next run."
  },
  {
   "property": "C58",
   "status": "partial",
   "theorems": [
    "Verif.Optim.sgd_step",
    "Verif.Optim.sgd_step_partial",
    "Verif.Optim.sgd_momentum_violated",
    "Verif.Optim.adagrad_step",
    "Verif.Optim.rmsprop_step",
    "Verif.Optim.rmsprop_step_partial",
    "Verif.Optim.rmsprop_first_violated",
    "Verif.Optim.adam_step",
    "Verif.Optim.adam_step_partial",
    "Verif.Optim.adam_first_violated",
    "Verif.Optim.gradient_descent_step",
    "Verif.Optim.gradient_descent_momentum_violated"
   ],
   "note": "What each step does is proved exactly (over the reals). The code violates the documentation: sgd applies Nesterov's rule exactly when told not to, the first step of rmsprop and adam differ from their rules, and gradient_descent ignores its momentum. adagrad, sgd without momentum, and later steps of rmsprop and adam follow their rules."
  },
  {
   "property": "C59",
   "status": "partial",
   "theorems": [
    "Verif.Optim.learning_rate_decay_partial",
    "Verif.Optim.learning_rate_decay_violated"
   ],
   "note": "The code violates the property: the decay factors multiply up, so that from the third step on the rate is lower. Proved for the first two steps and for decay 0."
  },
  {
   "property": "C60",
   "status": "partial",
   "theorems": [
    "Verif.Optim.adadelta_violated",
    "Verif.Optim.adadelta_step_partial"
   ],
   "note": "The code violates the property: contexts[0] serves as both averages, so that a step is one of plain gradient descent (adadelta_step_partial); every first step with a gradient is longer than documented."
  },
  {
   "property": "C61",
   "status": "partial",
   "theorems": [
    "Verif.Optim.frozen_handle_violated",
    "Verif.Optim.frozen_variable_partial"
   ],
   "note": "The code violates the property: the session holds a copy made at construction, whose trainable flag the user's handle does not reach. Proved for variables not trainable in the session's registry."
  },
  {
   "property": "C84",
   "status": "partial",
   "theorems": [
    "Verif.Optim.adam_after_sgd_violated",
    "Verif.Optim.sgd_after_adam_partial"
   ],
   "note": "The code violates the property: all optimizers share one list of contexts per variable; adam after sgd reads past its end. sgd after adam runs but starts with adam's first moment as its momentum."
  },
  {
   "property": "C85",
   "status": "partial",
   "theorems": [
    "Verif.Optim.unmentioned_moves_violated",
    "Verif.Optim.unmentioned_kept_partial"
   ],
   "note": "The code violates the property: every trainable variable of the session is stepped, so momentum keeps moving variables the loss does not mention. Proved for optimizers without memory of the variable."
  },
  {
   "property": "C86",
   "status": "partial",
   "theorems": [
    "Verif.Optim.sgd_descends_partial",
    "Verif.Regular.sgd_descends_regularised_partial",
    "Verif.Regular.l1_at_zero_violated"
   ],
   "note": "For sgd without momentum (with regularisers: loss plus penalty is descended, under the conditions of C122) and the expressions of C53 (tensors by value). With an l1 regulariser at a weight of zero the step goes up (l1_at_zero_violated). The other optimizers are in C130."
  },
  {
   "property": "C62",
   "status": "partial",
   "theorems": [
    "Verif.Fit.fit_trains_validation_violated",
    "Verif.Fit.fit_errors_violated",
    "Verif.Fit.fit_without_validation_partial"
   ],
   "note": "The code violates the property whenever there is a batch to validate on: the optimizer is also run on the first validation batch, and the errors are divided by counts one off. Proved without a validation part. The split is an exact number (no floating-point rounding)."
  },
  {
   "property": "C63",
   "status": "proved",
   "theorems": [
    "Verif.Fit.batches_partition",
    "Verif.Fit.fit_batches",
    "Verif.Fit.evaluate_batches",
    "Verif.Fit.fit_returns",
    "Verif.Fit.evaluate_returns"
   ],
   "note": "The outputs must have at least as many samples as the inputs; what the loss and the optimizer do is arbitrary."
  },
  {
   "property": "C87",
   "status": "partial",
   "theorems": [
    "Verif.Fit.evaluate_learned_partial",
    "Verif.Fit.predict_learned_partial",
    "Verif.Fit.predict_phase_violated",
    "Verif.Fit.evaluate_phase_violated"
   ],
   "note": "The code violates the property for the learning phase: it is 1 afterwards, whatever it was. The rest is proved, for the expressions of Verif.Graph (tensors by value, operators without memory: no batch normalisation)."
  },
  {
   "property": "C64",
   "status": "partial",
   "theorems": [
    "Verif.Dataset.labels_one_hot_partial",
    "Verif.Dataset.labels_range_violated"
   ],
   "note": "The code violates the property for files with a byte above 9 in the last place: it writes past the row and past the end. Proved for files whose bytes are all digits 0 to 9."
  },
  {
   "property": "C88",
   "status": "partial",
   "theorems": [
    "Verif.Dataset.images_values_partial",
    "Verif.Dataset.images_incomplete_violated"
   ],
   "note": "The code violates the property for files whose last image is incomplete: the copy goes past the end of the tensor. Proved for files with whole images."
  },
  {
   "property": "C67",
   "status": "proved",
   "theorems": [
    "Verif.Ids.ids_unique",
    "Verif.Ids.ids_total"
   ],
   "note": "For fewer than 2^31 creations (the counter is an int). One thread."
  },
  {
   "property": "C68",
   "status": "partial",
   "theorems": [
    "Verif.Ids.place_holder_gt_violated",
    "Verif.Ids.place_holder_order_partial"
   ],
   "note": "The code violates the property for every pair of different place holders: operator > is operator <. The other operators are proved consistent."
  },
  {
   "property": "C89",
   "status": "partial",
   "theorems": [
    "Verif.Optim.sgd_first_step",
    "Verif.Optim.sgd_first_step_momentum",
    "Verif.Optim.adagrad_first_step",
    "Verif.Optim.rmsprop_first_step",
    "Verif.Optim.adam_first_step",
    "Verif.Optim.adadelta_first_step",
    "Verif.Optim.gradient_descent_first_step",
    "Verif.Optim.empty_batch_rejected",
    "Verif.Poison.empty_batch_violated"
   ],
   "note": "The code violates the last part: gradient_descent does not refuse a batch of no samples; its learning rate is divided by zero and the first step leaves no finite number in any variable."
  },
  {
   "property": "C69",
   "status": "partial",
   "theorems": [
    "Verif.Complex.sum_difference_partial",
    "Verif.Complex.product_partial",
    "Verif.Complex.conj_neg_partial",
    "Verif.Complex.abs_norm_partial",
    "Verif.Complex.polar_partial",
    "Verif.Complex.mixed_partial",
    "Verif.Complex.mixed_product_partial",
    "Verif.Complex.expression_minus_complex_violated",
    "Verif.Complex.expression_times_complex_violated",
    "Verif.Complex.product_shared_violated"
   ],
   "note": "Proved over the reals with tensors by value, with broadcasting for sums and differences, for matrices of every size for products. The code violates the property: e - c is e + c, e * c is c * e, and on shared storages the imaginary part of a product is too large by b*d when both parts are used in one run."
  },
  {
   "property": "C70",
   "status": "partial",
   "theorems": [
    "Verif.Dropout.prediction_identity_partial",
    "Verif.Dropout.forward_first_partial",
    "Verif.Dropout.forward_later_partial",
    "Verif.Dropout.forward_larger_violated",
    "Verif.Dropout.backward_masks_partial",
    "Verif.Dropout.dropout_backward_violated",
    "Verif.Dropout.rate_checked"
   ],
   "note": "The code violates the property: backward does not divide by 1-rate, and inputs larger than the first one read past the mask. Forward and prediction are proved."
  },
  {
   "property": "C90",
   "status": "partial",
   "theorems": [
    "Verif.Dropout.mask_drawn_partial",
    "Verif.Dropout.mask_never_redrawn_violated"
   ],
   "note": "The code violates the property: the mask drawn in the first run is used for ever. The first draw is proved."
  },
  {
   "property": "C91",
   "status": "proved",
   "theorems": [
    "Verif.Dropout.expected_value"
   ],
   "note": "For the first training run (later runs reuse the mask, see C90); numbers are reals."
  },
  {
   "property": "C71",
   "status": "partial",
   "theorems": [
    "Verif.Norm.training_step_partial",
    "Verif.Norm.training_moments",
    "Verif.Norm.running_averages_partial",
    "Verif.Norm.prediction_partial",
    "Verif.Norm.prediction_first_violated",
    "Verif.Norm.nothing_extracted"
   ],
   "note": "The code violates the property after a prediction before the first training run: the cache of the running mean is then an empty tensor for ever, and every later prediction is the identity. Otherwise proved, over the reals."
  },
  {
   "property": "C92",
   "status": "partial",
   "theorems": [
    "Verif.Norm.backward_violated",
    "Verif.Norm.backward_larger_violated",
    "Verif.Norm.backward_smaller_violated",
    "Verif.Norm.backward_partial"
   ],
   "note": "The code violates the property for every batch: with the gradient 1 the derivative is 0, the result positive. Later batches of another size are written out of bounds or get the wrong shape. backward_partial says what is computed."
  },
  {
   "property": "C72",
   "status": "proved",
   "theorems": [
    "Verif.Softmax.softmax_rows",
    "Verif.Softmax.softmax_shift",
    "Verif.Softmax.operator_rows"
   ],
   "note": "Over the reals, for tensors with at least one element. The operator softmax (activation.hpp) sums to exactly 1."
  },
  {
   "property": "C73",
   "status": "partial",
   "theorems": [
    "Verif.Softmax.crossForward_ok",
    "Verif.Softmax.cross_entropy_partial",
    "Verif.Softmax.cross_entropy_maximum_partial",
    "Verif.Softmax.cross_entropy_batch_violated",
    "Verif.Softmax.label_gradient_violated"
   ],
   "note": "The code violates the property for batches of two or more: backward does not divide by the number of samples. The labels' gradient is wrong too. Proved for one sample, one-hot labels and probabilities above eps: exact below the maximum of a row, within eps at the only maximum."
  },
  {
   "property": "C93",
   "status": "partial",
   "theorems": [
    "Verif.Softmax.operator_backward_violated",
    "Verif.Softmax.operator_backward_partial"
   ],
   "note": "The code violates the property for every input: only the diagonal of the derivative is used. operator_backward_partial says by how much the result is off."
  },
  {
   "property": "C75",
   "status": "proved",
   "theorems": [
    "Verif.Serial.serialize_declared_before",
    "Verif.Serial.serialize_root_last",
    "Verif.Serial.serialize_rebuilds",
    "Verif.Serial.serialize_injective",
    "Verif.Serial.render_inj"
   ],
   "note": "Lines are lists of names and text; printing of numbers and the tensor files are not modelled. A reader executing the lines from top to bottom rebuilds the expression. The text of tensors (name.load_tensor( ... )) would not compile, as load_tensor is no member."
  },
  {
   "property": "C94",
   "status": "partial",
   "theorems": [
    "Verif.Serial.serialize_declared_once_violated",
    "Verif.Serial.serialize_declared_once_partial",
    "Verif.Serial.serialize_texts_once_partial"
   ],
   "note": "The code violates the property: an expression used twice is written out twice. Proved for expressions without shared parts."
  },
  {
   "property": "C95",
   "status": "proved",
   "theorems": [
    "Verif.Serial.dot_nodes",
    "Verif.Serial.dot_arrows",
    "Verif.Serial.dot_node_count"
   ],
   "note": "Labels are not modelled. An expression used twice is described twice (dot_node_count)."
  },
  {
   "property": "C74",
   "status": "partial",
   "theorems": [
    "Verif.Compose.compose_value_partial",
    "Verif.Compose.compose_run_partial",
    "Verif.Compose.compose_second_place_holder_violated",
    "Verif.Compose.compose_wrong_value_violated",
    "Verif.Compose.compose_arguments_violated",
    "Verif.Compose.compose_sketch"
   ],
   "note": "The code violates the property: every place holder is replaced, not only the input, and serializers are dropped. Proved for expressions whose only place holder is the input. (As it stands replace_placeholder_with_expression does not compile for operators, whose members have moved to state_; modelled as intended.)"
  },
  {
   "property": "C96",
   "status": "partial",
   "theorems": [
    "Verif.Compose.freeze_model_partial",
    "Verif.Compose.freeze_model_violated",
    "Verif.Compose.frozen_makeTrainable",
    "Verif.Compose.makeTrainable_value"
   ],
   "note": "The code violates the property: the session's copies of the variables stay trainable, and momentum or adam move them on. Proved for sgd without momentum, adagrad, rmsprop and gradient_descent. (make_trainable does not compile for operators as it stands; modelled as intended.)"
  },
  {
   "property": "C76",
   "status": "partial",
   "theorems": [
    "Verif.Concat.concatenate_backward_violated",
    "Verif.Concat.concatenate_backward_partial",
    "Verif.Concat.concatenate_adjoint_partial"
   ],
   "note": "The code violates the property for every input: line 2414 takes begin and end from two different temporaries. The rest is proved with the two calls read as one object."
  },
  {
   "property": "C77",
   "status": "partial",
   "theorems": [
    "Verif.Alias.factory_shared_cache_violated",
    "Verif.Alias.factory_shared_mask_violated",
    "Verif.Alias.factory_separate_partial"
   ],
   "note": "The code violates the property: the caches are made with the factory, so operators made by one factory overwrite each other's results and masks. Proved for operators of different factory calls."
  },
  {
   "property": "C79",
   "status": "partial",
   "theorems": [
    "Verif.Shapes.shape_of_value_partial",
    "Verif.Shapes.shape_reduce_violated",
    "Verif.Shapes.shape_product_violated",
    "Verif.Shapes.shape_flatten_violated",
    "Verif.Shapes.shape_squeeze_violated",
    "Verif.Shapes.shape_flip_violated",
    "Verif.Shapes.shape_repeat_violated",
    "Verif.Shapes.shape_reshape_unknown_violated"
   ],
   "note": "The code violates the property for reductions along the last axis by default, products of tensors of equal rank, flatten of large samples (int), squeeze/flip of empty tensors, repeat of scalars and reshape of an unknown batch. Proved for expressions of all other uses of the 26 modelled operators."
  },
  {
   "property": "C80",
   "status": "partial",
   "theorems": [
    "Verif.Sliding.sliding_training_forward",
    "Verif.Sliding.sliding_backward",
    "Verif.Sliding.sliding_adjoint_partial",
    "Verif.Sliding.sliding_inference_forward",
    "Verif.Sliding.sliding_untrained_violated",
    "Verif.Sliding.sliding_stale_violated"
   ],
   "note": "Proved in training and for the forward action outside training. The backward action does not look at the learning phase: outside training it reads shifts that do not exist, or moves the gradient by the shifts of the last training pass."
  },
  {
   "property": "C65",
   "status": "partial",
   "theorems": [
    "Verif.Text.text_round_trip_partial",
    "Verif.Text.text_default_violated",
    "Verif.Text.text_unreadable"
   ],
   "note": "Proved for every tensor with as many elements as its shape says. The code violates the property for the default constructed tensor, which has no extents and no elements: reading expects one element. Elements that print as words that cannot be read (nan, inf) make reading fail."
  },
  {
   "property": "C66",
   "status": "partial",
   "theorems": [
    "Verif.Text.session_round_trip_partial",
    "Verif.Text.session_digits_violated",
    "Verif.Text.session_restored",
    "Verif.Text.session_error",
    "Verif.Text.session_unknown"
   ],
   "note": "Proved, through the LZW coder, for elements of at most six significant digits. The code violates the property for others: save_original writes with the default precision, so seven digit whole numbers are changed; the relative error is at most 5e-6."
  },
  {
   "property": "C97",
   "status": "partial",
   "theorems": [
    "Verif.Text.long_double_file_round_trip",
    "Verif.Text.file_round_trip_partial",
    "Verif.Text.float_file_violated",
    "Verif.Text.double_file_violated",
    "Verif.Text.digits_suffice"
   ],
   "note": "Proved for long double. The code violates the property for float and double: 8 and 15 digits are too few, 9 and 17 would do."
  },
  {
   "property": "C98",
   "status": "partial",
   "theorems": [
    "Verif.Loss.squared_loss_value",
    "Verif.Loss.mse_value",
    "Verif.Loss.abs_loss_value",
    "Verif.Loss.mae_value",
    "Verif.Loss.cross_entropy_value",
    "Verif.Loss.hinge_value",
    "Verif.Loss.bce_value",
    "Verif.Loss.msle_value",
    "Verif.Loss.msle_not_mean_violated",
    "Verif.Loss.bce_shared_violated"
   ],
   "note": "By value all are as documented except mean_squared_logarithmic_error, which is the sum and not the mean. On shared storages binary_cross_entropy_loss is wrong: ones - t is left in the tensor of ones, which is used again, and the mean of -(t log p + (1-t-p) log(1-t-p)) comes out."
  },
  {
   "property": "C99",
   "status": "partial",
   "theorems": [
    "Verif.Loss.squared_loss_gradient_partial",
    "Verif.Loss.abs_loss_gradient_partial",
    "Verif.Loss.cross_entropy_gradient_partial",
    "Verif.Loss.msle_gradient_partial",
    "Verif.Loss.mse_gradient",
    "Verif.Loss.mae_gradient",
    "Verif.Loss.hinge_gradient",
    "Verif.Loss.bce_gradient",
    "Verif.Loss.mse_gradient_violated",
    "Verif.Loss.mean_losses_gradient_partial",
    "Verif.Loss.mse_variable_derivative"
   ],
   "note": "The code violates the property for the means: backward of mean_reduce divides by the first extent, so mse, mae, hinge and binary cross entropy store size/(first extent) times the derivative. Proved for the sums, and for means of operands of one column, where operands can be differentiated and no operator is shared (by value)."
  },
  {
   "property": "C100",
   "status": "partial",
   "theorems": [
    "Verif.Loss.mse_overwrites_labels_violated",
    "Verif.Loss.mse_twice_violated",
    "Verif.Loss.distinct_keeps_partial",
    "Verif.Loss.cross_entropy_keeps_partial",
    "Verif.Loss.hinge_keeps_partial",
    "Verif.Loss.msle_keeps_partial",
    "Verif.Loss.difference_keeps_partial"
   ],
   "note": "The code violates the property: mean_squared_error( label, prediction ) leaves the differences in the tensor bound to the label, and the next run of the same loss returns another value. Proved for expressions without a place holder or variable left of a plus and without shared operators."
  },
  {
   "property": "C101",
   "status": "proved",
   "theorems": [
    "Verif.Loss.dense_value",
    "Verif.Loss.smooth_dense",
    "Verif.Loss.mlp_value",
    "Verif.Loss.mlp_squared_value",
    "Verif.Loss.mlp_squared_gradient",
    "Verif.Loss.mlp_mse_gradient_partial",
    "Verif.Loss.mlp_run"
   ],
   "note": "Over the reals. Activations are the element-wise operators of C51 where their derivative is right. With mean_squared_error the gradients are the number of outputs times the derivatives (C99)."
  },
  {
   "property": "C102",
   "status": "proved",
   "theorems": [
    "Verif.Fit.fit_is_train_on_batch",
    "Verif.Fit.train_on_batch_once",
    "Verif.Fit.compiled_phased"
   ],
   "note": "If fit returns, there is at least one batch and one epoch, and the optimizer leaves the learning phase alone."
  },
  {
   "property": "C103",
   "status": "partial",
   "theorems": [
    "Verif.Conv.conv2d_transpose_valid_partial",
    "Verif.Conv.conv2d_transpose_same_partial",
    "Verif.Conv.conv2d_transpose_is_transpose_partial",
    "Verif.Conv.spread_adjoint",
    "Verif.Conv.conv2d_transpose_channels_violated"
   ],
   "note": "Holds with stride 1 for one input channel (or a kernel of one tap), \"valid\" or \"same\" with an odd square kernel. For several input channels the code violates it: the flips act on the documented filter layout, the convolution reads another one (C78)."
  },
  {
   "property": "C104",
   "status": "partial",
   "theorems": [
    "Verif.Conv.conv2d_transpose_stride_violated",
    "Verif.Conv.conv2d_transpose_same_stride_violated",
    "Verif.Conv.conv2d_transpose_subsampled_partial"
   ],
   "note": "The code violates the property for every stride of at least 2: the convolution after spreading is run with the stride instead of 1. Proved instead: for one channel the result is every s-th row and column of the transposed convolution."
  },
  {
   "property": "C105",
   "status": "proved",
   "theorems": [
    "Verif.Net.network_value",
    "Verif.Net.network_smooth",
    "Verif.Net.network_squared_value",
    "Verif.Net.network_squared_gradient",
    "Verif.Net.network_cross_entropy_gradient",
    "Verif.Net.network_mse_gradient_partial",
    "Verif.Net.conv_extents_valid",
    "Verif.Net.conv_extents_same"
   ],
   "note": "Over the reals, by value, without shared layers. Filters are read as the code reads them (C78), transposed convolution is as in C103 and C104; Softmax, BatchNormalization and Dropout, whose backward actions are wrong (C70, C92, C93), are no layers of these networks. With mean_squared_error the gradients are multiples of the derivatives (C99)."
  },
  {
   "property": "C106",
   "status": "partial",
   "theorems": [
    "Verif.Train.training_pass_partial",
    "Verif.Train.network_training_partial",
    "Verif.Train.shared_labels_violated"
   ],
   "note": "The code violates the property when a plus overwrites a tensor that backward reads: inputs and labels bound to one tensor, as test/mnist_autoencoder.cc lines 72-73 do, give gradients computed from the differences instead of the inputs (for one weight even of the wrong sign); see also C53 for a sigmoid left of a plus. Proved for expressions without shared operators in which each plus has on its left the result of an operator whose backward does not read it, or a place holder used once; every network of C105 with its squared loss is one, if inputs and labels have different storages."
  },
  {
   "property": "C107",
   "status": "partial",
   "theorems": [
    "Verif.Stats.mean_axis_keepdims",
    "Verif.Stats.mean_axis_partial",
    "Verif.Stats.variance_keepdims",
    "Verif.Stats.variance_partial",
    "Verif.Stats.standard_deviation_keepdims",
    "Verif.Stats.standard_deviation_partial",
    "Verif.Stats.reduce_mean_value",
    "Verif.Stats.var_violated",
    "Verif.Stats.var_differs_violated",
    "Verif.Stats.var_partial",
    "Verif.Stats.std_violated",
    "Verif.Stats.norm_violated",
    "Verif.Stats.norm_partial",
    "Verif.Stats.linspace_endpoint",
    "Verif.Stats.linspace_open"
   ],
   "note": "The code violates the property for var and std, which do not divide by the number of elements, and for norm, which is the Euclidean norm over the number of elements. Along an axis everything is proved, except dropping the only axis (undefined, C27)."
  },
  {
   "property": "C108",
   "status": "proved",
   "theorems": [
    "Verif.Random.random_uniform",
    "Verif.Random.randn_normal",
    "Verif.Random.truncated_normal_range",
    "Verif.Random.truncated_normal_returns",
    "Verif.Random.truncated_normal_hangs"
   ],
   "note": "For any sequence of numbers of the generator; the distributions of libstdc++ are modelled as affine maps of canonical and standard normal numbers. With no acceptable numbers truncated_normal does not return."
  },
  {
   "property": "C109",
   "status": "partial",
   "theorems": [
    "Verif.Random.glorot_value",
    "Verif.Random.glorot_dense_partial",
    "Verif.Random.glorot_conv_violated",
    "Verif.Random.glorot_vector_violated"
   ],
   "note": "Proved for Dense. The code violates the property for every convolution layer except 1x1 kernels on one channel: the bound is computed from the number of filters and the rows of the kernel. A shape of one extent (extra/applications/svm.hpp line 31) is read past its end."
  },
  {
   "property": "C110",
   "status": "partial",
   "theorems": [
    "Verif.Act.heaviside_value",
    "Verif.Act.unit_step_value",
    "Verif.Act.swish_value",
    "Verif.Act.tank_shrink_value",
    "Verif.Act.crelu_value",
    "Verif.Act.divide_value",
    "Verif.Act.divide_number_value",
    "Verif.Act.mish_lisht_violated",
    "Verif.Act.mish_lisht_rejects_violated",
    "Verif.Act.mish_lisht_partial",
    "Verif.Act.heaviside_gradient",
    "Verif.Act.divide_gradient",
    "Verif.Act.swish_gradient_partial",
    "Verif.Act.tank_shrink_gradient_partial",
    "Verif.Act.activation_of_dense_violated",
    "Verif.Act.gate_dense_violated",
    "Verif.Act.crelu_backward_violated"
   ],
   "note": "Values are right except for mish and lisht, which multiply their operand with the matrix product: matrices that are not square are rejected, square ones of equal elements come out wrong, only 1x1 is right. Gradients are right for heaviside_step and division (where epsilon does not interfere) and for swish and tank_shrink of a variable; swish, tank_shrink, mish and lisht of a dense layer use the layer's operator twice, the second forward leaves it without inputs and backward is undefined or stops; backward of crelu never returns (C76)."
  },
  {
   "property": "C111",
   "status": "partial",
   "theorems": [
    "Verif.Descent.fit_descends",
    "Verif.Descent.network_fit_descends",
    "Verif.Descent.squared_fit_descends",
    "Verif.Descent.network_learns",
    "Verif.Descent.sgd_moves",
    "Verif.Descent.sgd_plain_moves",
    "Verif.Descent.gd_moves",
    "Verif.Descent.adagrad_moves",
    "Verif.Descent.rmsprop_moves",
    "Verif.Descent.adam_moves",
    "Verif.Descent.squared_netLoss",
    "Verif.Descent.cross_entropy_netLoss",
    "Verif.Descent.mse_netLoss",
    "Verif.Descent.path_scaled",
    "Verif.Descent.scaled_path_violated",
    "Verif.Descent.netLeaves_ok",
    "Verif.Descent.compiledWith_unit"
   ],
   "note": "Proved, over the reals and by value, for fit without validation batches, networks of any layers but max pooling (whose mask is not cleared, C41) without regularisers, where the layers can be differentiated along the path: sgd without momentum, gradient_descent and adagrad follow the documented rule with the learning rates of C59. The code violates the property otherwise: the two kinds of momentum are exchanged, the first step of rmsprop and the first two of adam are others (C58; the theorems state the rule that is followed), and with mean_squared_error the derivatives carry a factor (C99)."
  },
  {
   "property": "C112",
   "status": "partial",
   "theorems": [
    "Verif.Branch.branch_value",
    "Verif.Branch.branch_run",
    "Verif.Branch.branch_consistent",
    "Verif.Branch.branch_squared_value",
    "Verif.Branch.branch_squared_gradient_partial",
    "Verif.Branch.branch_cross_entropy_gradient_partial",
    "Verif.Branch.branch_mse_gradient_partial",
    "Verif.Branch.shared_stale",
    "Verif.Branch.shared_backward",
    "Verif.Branch.branch_shared_violated",
    "Verif.Branch.branch_squared_violated",
    "Verif.Branch.branch_concat_violated"
   ],
   "note": "Values are right for every program, and derivatives for programs without Concatenate that use every value but the input at most once. Otherwise the code violates the property: a value used twice lives in two objects of one operator, the second of which finds the cached result and keeps no operands; the first backward then does not finish, whatever the loss, if the value is a layer with a bias, a product, a reshaping, pooling, sampling or padding layer, an activation of a layer with a bias, or a sum of one (values of other kinds, such as cropping, are not decided). Backward through Concatenate never finishes (C76)."
  },
  {
   "property": "C113",
   "status": "partial",
   "theorems": [
    "Verif.Runs.fit_shared",
    "Verif.Runs.evaluate_shared",
    "Verif.Runs.fit_shared_descends",
    "Verif.Runs.network_fit_shared",
    "Verif.Runs.network_evaluate_shared",
    "Verif.Runs.train_on_batch_shared",
    "Verif.Runs.network_train_on_batch_shared",
    "Verif.Runs.squared_shares",
    "Verif.Runs.mse_shares",
    "Verif.Runs.cross_entropy_shares",
    "Verif.Runs.cross_entropy_keeps",
    "Verif.Runs.train_on_batch_labels_violated",
    "Verif.Runs.network_labels_violated",
    "Verif.Runs.network_train_twice_violated"
   ],
   "note": "Proved for fit and evaluate (samples unchanged, weights on the descent path, mean loss) and for one call of train_on_batch, for networks of any layers but max pooling and squared_loss, mean_squared_error and cross_entropy. The code violates the rest: train_on_batch binds the caller's tensors, and squared_loss and mean_squared_error leave labels - outputs in the caller's labels, so that a second call with the same tensors is a step on another loss; proved for every network. cross_entropy keeps the labels."
  },
  {
   "property": "C114",
   "status": "partial",
   "theorems": [
    "Verif.Decimal.string2float_reads",
    "Verif.Decimal.string2float_total",
    "Verif.Decimal.string2float_stays",
    "Verif.Decimal.float32_reads",
    "Verif.Decimal.string2float_literal_partial",
    "Verif.Decimal.string2float_exponent_violated"
   ],
   "note": "Proved exactly: every literal gives its number if the exponent and the number of digits behind the point stay in the range of int, else the behaviour is undefined; every terminated string starts with such a literal; nothing behind the zero is read. The code violates the rest: the digits of the exponent are added up in an int that overflows (0e2147483648). Float is a field; rounding is not modelled."
  },
  {
   "property": "C115",
   "status": "partial",
   "theorems": [
    "Verif.Vector.vectors_are_values_partial",
    "Verif.Vector.vectors_give_back_partial",
    "Verif.Vector.move_assign_violated",
    "Verif.Vector.self_move_violated"
   ],
   "note": "Proved for all programs that do not move a vector to itself (contents, separation) and do not move into a vector that has elements (blocks given back). The code violates the rest: move assignment overwrites data_ without giving back the block, which stays held for the rest of every program, and moving a vector to itself loses its contents; proved for every program. Tensors hold vectors by shared_ptr and never move-assign them, so the library itself does not reach this."
  },
  {
   "property": "C116",
   "status": "partial",
   "theorems": [
    "Verif.Step.step_forward",
    "Verif.Step.step_backward_partial",
    "Verif.Step.step_backward_violated",
    "Verif.Step.sign_gradient",
    "Verif.Step.const_gradient",
    "Verif.Step.equal_gradient",
    "Verif.Step.equal_integers",
    "Verif.Step.equal_mismatch"
   ],
   "note": "Proved: all values (the four operators through a 64-bit integer: below 2^63-1 in absolute value), and the gradients of sign, equal, ones_like, zeros_like. The code violates the rest: the ten rounding operators hand on the gradient unchanged, although their derivative is zero off the jumps; proved for every operator, input off the jumps and non-zero gradient."
  },
  {
   "property": "C117",
   "status": "partial",
   "theorems": [
    "Verif.ShapeVec.shapes_are_values_partial",
    "Verif.ShapeVec.shape_program",
    "Verif.ShapeVec.big_shape_violated",
    "Verif.ShapeVec.growth_violated"
   ],
   "note": "Proved for all programs on shapes of rank at most 16 (sharp), and exactly, with the capacities of libstdc++'s vector, for all ranks. The code violates the rest: above 256 bytes allocate asks std::allocator for 8 n elements and deallocate gives back n, which is undefined; reached by every tensor of rank above 32, and by one of rank 17 to 32 that reshape or resize gives a higher rank. std::vector is modelled from its libstdc++ implementation."
  },
  {
   "property": "C118",
   "status": "proved",
   "theorems": [
    "Verif.Fp.gemm_accurate",
    "Verif.Fp.any_order_accurate",
    "Verif.Fp.any_order_fused_accurate",
    "Verif.Fp.matmul_accurate",
    "Verif.Fp.matmul_back_accurate",
    "Verif.Fp.sum_accurate",
    "Verif.Fp.reduce_accurate",
    "Verif.Fp.any_sum_accurate",
    "Verif.Fp.rnd_nearest",
    "Verif.Fp.float32_constants",
    "Verif.Fp.dotBound_le",
    "Verif.Fp.sum_ones_stuck"
   ],
   "note": "For every arithmetic with the rounding errors of IEEE 754, and the binary formats shown to be such (rounding to nearest even, gradual underflow, infinities, NaN; signs of zeros left out). The bounds are sharp in kind: sum( t ) of more than 2^24 ones in float is 2^24 (sum_ones_stuck)."
  },
  {
   "property": "C119",
   "status": "partial",
   "theorems": [
    "Verif.Nan.has_nan_iff",
    "Verif.Nan.unary_keeps_nan_partial",
    "Verif.Nan.sum_keeps_nan",
    "Verif.Nan.gemm_keeps_nan",
    "Verif.Nan.softmax_keeps_nan",
    "Verif.Nan.relu6_hides_nan_violated",
    "Verif.Nan.inverse_hides_nan_violated",
    "Verif.Nan.clip_hides_nan_violated",
    "Verif.Nan.binary_hides_nan_violated",
    "Verif.Nan.extremes_hide_nan_violated",
    "Verif.Nan.reduce_hides_nan_violated",
    "Verif.Nan.max_pool_hides_nan_violated",
    "Verif.Nan.cross_entropy_hides_nan_violated"
   ],
   "note": "Proved for has_nan, has_inf, is_valid, sums, matrix products, softmax, the activations but relu6, and the operator clip (it asserts). The code violates it elsewhere, each time shown in general: relu6 turns NaN into 6, inverse into 1/-eps, the tensor function clip into the upper bound; maximum drops a NaN on its left and minimum one on its right; equal says NaN equals everything; max and min forget everything up to the last NaN; reduce_max, reduce_min and max_pooling_2d ignore NaN unless it comes first; the cross entropy loss counts a row with NaN as probabilities eps, so that a network that has diverged keeps a finite loss. Said of the text; -ffast-math (Makefile) lets the compiler assume there is no NaN."
  },
  {
   "property": "C120",
   "status": "partial",
   "theorems": [
    "Verif.Stride.stride_moves",
    "Verif.Stride.stride_distance_partial",
    "Verif.Stride.stride_order_violated",
    "Verif.Stride.stride_mixed",
    "Verif.Stride.foldFour_reduces",
    "Verif.Stride.reduce_on_strides",
    "Verif.Stride.reduce_sum_on_strides",
    "Verif.Stride.reduce_sum_back_on_strides",
    "Verif.Stride.reduce_ext_on_strides",
    "Verif.Stride.strict_refines",
    "Verif.Stride.reduce_end_violated",
    "Verif.Stride.reduce_ops_end_violated",
    "Verif.Stride.last_axis_in_block_partial"
   ],
   "note": "Moving, indexing, distance and equality are proved for every step but zero, and the four functions are proved equal to the models with computed positions (Verif.Data, Verif.Pool), so all that is proved there holds of the iterators; std::reduce is that of libstdc++, four elements at a time, shown to be one of the sums the standard allows. The code violates the rest: with a negative step a < a+1 is false (the order compares pointers), with step zero the difference divides by zero, and whenever more than one element follows the reduced axis the end iterator of the second column of the last block points behind the end of the data, which C++ does not define although it is never dereferenced. It is proved that this is the only effect: along the last axis all pointers stay inside."
  },
  {
   "property": "C121",
   "status": "partial",
   "theorems": [
    "Verif.Copies.original_trains_partial",
    "Verif.Copies.copy_evaluates",
    "Verif.Copies.copy_step",
    "Verif.Copies.dangling_copy_violated",
    "Verif.Copies.dangling_copy_undefined",
    "Verif.Copies.copy_evaluate_keeps",
    "Verif.Copies.moved_violated",
    "Verif.Copies.copy_ignores_labels_violated",
    "Verif.Copies.fresh_copy_violated",
    "Verif.Copies.copy_trains_partial"
   ],
   "note": "Proved: the compiled model that was constructed trains as Fit.compiled (the machine the other training properties are about); a copy's loss can be evaluated and gives the value of the expression, whatever happened to the original; with a loss that is a mean, a copy trains as a model of its own if the original is there, has been run, and its last batch had the same shape. Violated, for all inputs: the copy's optimizer refers to the loss of the original, so with a root operator on labels and prediction (CategoricalCrossentropy) training a copy does not depend on the labels; if the original was destroyed or moved from, training never finishes (in particular a moved compiled model can no longer be trained); if the original has not run and the loss is a mean, training never finishes."
  },
  {
   "property": "C122",
   "status": "partial",
   "theorems": [
    "Verif.Regular.sgd_regularised",
    "Verif.Regular.sgd_descends_regularised_partial",
    "Verif.Regular.network_fit_regularised_partial",
    "Verif.Regular.squared_fit_l2",
    "Verif.Regular.path_weakened",
    "Verif.Regular.network_copies",
    "Verif.Regular.l1_at_zero_violated",
    "Verif.Regular.shared_penalty_violated",
    "Verif.Regular.small_coefficient_violated"
   ],
   "note": "Proved, over the reals and by value, for variables that live in one object, coefficients that are zero or at least eps, and elements under an L1 penalty that are not zero: single steps of sgd without momentum for the expressions of C53, and fit of networks under the conditions of C111 with any of the optimizers (for L2 penalties, squared_loss and activations with derivatives everywhere there is no condition on the path). The code violates the property otherwise: an L1 coefficient moves elements that are zero (as all new biases) away from zero and the objective grows, also where zero is the minimum; a variable in n objects is penalised n times; coefficients below eps are ignored; and with mean_squared_error the factor of C99 is on the loss only, so that all penalties count as if divided by it (path_weakened)."
  },
  {
   "property": "C123",
   "status": "partial",
   "theorems": [
    "Verif.Cuda.cuda_same_product",
    "Verif.Cuda.cuda_programs",
    "Verif.Cuda.gemm_any_backend",
    "Verif.Cuda.cublas_satisfiable",
    "Verif.Cuda.cuda_no_memory_violated",
    "Verif.Cuda.cuda_rows_violated",
    "Verif.Cuda.gemm_threshold_violated"
   ],
   "note": "Proved for sizes below 2^31, as long as the device grants the memory and some square is slower on the processor: cuda_gemm and gemm leave what gemm_cpu computes, for any sequence of products, and no block is left. The code violates it otherwise, each time shown in general: the result of cudaMalloc is not looked at, so a product that does not fit is made at an indeterminate address; 2^31 or more rows do not fit the int they are passed as, and the product is not made; and if the processor is never slower than the device, the search for the threshold never ends, so the first product of the program does not return."
  },
  {
   "property": "C124",
   "status": "partial",
   "theorems": [
    "Verif.Fmt.format_in_order",
    "Verif.Fmt.format_by_number",
    "Verif.Fmt.identity_text",
    "Verif.Fmt.leaf_names",
    "Verif.Fmt.default_lines",
    "Verif.Fmt.number_lines",
    "Verif.Fmt.argument_lines",
    "Verif.Fmt.leaf_lines",
    "Verif.Fmt.format_again_violated",
    "Verif.Fmt.format_number_again_violated",
    "Verif.Fmt.format_mixed_violated"
   ],
   "note": "Proved for holes {} whenever the intended result (up to the first hole left over) does not contain {} - all that is needed - and for numbered holes without further opening brackets; the lines of all serialisers are shown to be those of Verif.Serial (C75, C94, C95), for any number of arguments. The code violates it otherwise: the text of an argument is searched for holes again, so that {} or {1} in it takes the next argument; and a format string with {} has its numbered holes left as they are."
  },
  {
   "property": "C125",
   "status": "partial",
   "theorems": [
    "Verif.Fmt.list_text",
    "Verif.Fmt.ints_read_back",
    "Verif.Fmt.tuple_text",
    "Verif.Fmt.num_reads_back_partial",
    "Verif.Fmt.long_list_violated",
    "Verif.Fmt.long_lists_same_violated",
    "Verif.Fmt.num_violated",
    "Verif.Fmt.char_violated",
    "Verif.Fmt.c_string_violated",
    "Verif.Fmt.empty_tuple_violated"
   ],
   "note": "Proved for integers, for lists of at most eight integers, for tuples that are not empty, and for numbers of six decimal digits. The code violates it otherwise: numbers are written with six digits, so in every format of 19 bits or more some read back as others (1 + 2^-23 as 1); of longer containers eight elements and dots are written, which is no C++ and the same text for different containers; a character is written as the two characters 1 and itself (std::string{1, ch}), a pointer to text as its first character; the empty tuple loses its bracket."
  },
  {
   "property": "C126",
   "status": "partial",
   "theorems": [
    "Verif.Calls.compile_made_partial",
    "Verif.Calls.compile_made_iff",
    "Verif.Calls.other_names",
    "Verif.Calls.text_makes_calls_partial",
    "Verif.Calls.clip_code_same",
    "Verif.Calls.replace_made_partial",
    "Verif.Calls.replace_compile_partial",
    "Verif.Calls.compile_made_violated",
    "Verif.Calls.hint_lost_violated",
    "Verif.Calls.replace_made_violated",
    "Verif.Calls.replace_scalar_violated"
   ],
   "note": "Every operator of the library is in the table; it is proved for which of them the code makes the call again, and for no others (compile_made_iff). The code violates it for the others: the names of cbrt (cbert), exponential (exponentional), minimum (minmum), the intermediate of conv2d_transpose and sliding_2d are written wrongly, clip, equal and cross_entropy_loss lose their arguments, a place holder loses its shape hint; and replacing the place holder of a model loses the arguments of all operators that have any (reduce_sum along an axis becomes the sum of everything) and their scalars."
  },
  {
   "property": "C127",
   "status": "partial",
   "theorems": [
    "Verif.Holder.forward_bind",
    "Verif.Holder.copy_same",
    "Verif.Holder.make_fresh",
    "Verif.Holder.makeHint_shape_partial",
    "Verif.Holder.forward_last_partial",
    "Verif.Holder.shape_last_partial",
    "Verif.Holder.close_resets",
    "Verif.Holder.rebind_outlives",
    "Verif.Holder.makeHint_empty_violated",
    "Verif.Holder.moved_violated",
    "Verif.Holder.close_takes_violated",
    "Verif.Holder.bound_grows_violated"
   ],
   "note": "Proved for programs in which no session ends that ever bound the place holder, and for hints that are not empty. The code violates it otherwise: the end of a session takes away what was bound later and elsewhere; an empty hint is read beyond its end; shape and reset of a place holder that was moved read through a null pointer; and a session keeps one more copy of the place holder for every bind."
  },
  {
   "property": "C128",
   "status": "partial",
   "theorems": [
    "Verif.Release.debug_is_model",
    "Verif.Release.debug_is_model_div",
    "Verif.Release.debug_is_model_mean",
    "Verif.Release.debug_is_model_max",
    "Verif.Release.accepted_same_partial",
    "Verif.Release.empty_reductions_release",
    "Verif.Release.concat_release_iff",
    "Verif.Release.release_never_stops_violated",
    "Verif.Release.add_release_violated",
    "Verif.Release.opAssign_silent_violated",
    "Verif.Release.opAssign_short_violated",
    "Verif.Release.multiply_release_violated",
    "Verif.Release.multiply_silent_violated",
    "Verif.Release.multiply_rank_violated",
    "Verif.Release.product_silent_violated",
    "Verif.Release.divide_short_violated",
    "Verif.Release.divide_silent_violated",
    "Verif.Release.concat_release_violated",
    "Verif.Release.squeeze_wipes_violated",
    "Verif.Release.reshape_wipes_violated",
    "Verif.Release.init_short_violated",
    "Verif.Release.asScalar_violated"
   ],
   "note": "Proved: a call that is accepted does the same in both builds, and the debug build is the one of the other models. The code violates the rest: with NDEBUG no check stops anything. What then happens is shown in general: a + b with shapes that do not fit always writes beyond its storage; a += b and a / b read beyond the shorter operand or use the first elements of the longer; a * b with unequal inner extents reads beyond b or silently uses its first rows, and with a of another rank returns an empty tensor; the product element by element leaves a remainder unmultiplied; concatenate writes beyond its result; squeeze and the operator reshape overwrite the contents of their own argument with zeros. Reductions of an empty tensor return 0."
  },
  {
   "property": "C129",
   "status": "partial",
   "theorems": [
    "Verif.Image.read_write_partial",
    "Verif.Image.write_read",
    "Verif.Image.write_reported",
    "Verif.Image.square_pixels_partial",
    "Verif.Image.scaled_partial",
    "Verif.Image.target_format",
    "Verif.Image.resize_partial",
    "Verif.Image.two_channels_violated",
    "Verif.Image.pixel_order_violated",
    "Verif.Image.matrix_order_violated",
    "Verif.Image.no_white_violated",
    "Verif.Image.negative_dark_violated",
    "Verif.Image.low_contrast_violated",
    "Verif.Image.no_dot_violated",
    "Verif.Image.hdr_violated",
    "Verif.Image.resize_gray_violated"
   ],
   "note": "Proved: png files of 1, 3 and 4 channels survive reading and writing, tensors of bytes survive writing and reading, elements of square pictures are the pixels they should be, numbers are scaled monotonically between the extremes within one step, and endings select formats. The code violates the rest: pictures of two channels are read but not written; the shape is width by height while the elements are in lines, so for every picture that is not square some pixel is neither element [x][y] nor [y][x]; no byte ever becomes 255; pictures of negative numbers come out dark because amax starts at the smallest positive number; contrast below 1e-10/254 vanishes; names without a dot end in an exception (the code that would add .png cannot be reached); .hdr reads four times the storage; imresize of a matrix takes two bytes per pixel and reads beyond it."
  },
  {
   "property": "C130",
   "status": "partial",
   "theorems": [
    "Verif.Optim.slopes",
    "Verif.Optim.factor_descends",
    "Verif.Optim.adagrad_descends",
    "Verif.Optim.rmsprop_descends",
    "Verif.Optim.gradient_descent_descends",
    "Verif.Optim.adadelta_descends",
    "Verif.Optim.sgd_first_descends_partial",
    "Verif.Optim.adam_first_descends_partial",
    "Verif.Optim.adam_uphill_violated",
    "Verif.Optim.sgd_overshoots_violated"
   ],
   "note": "Proved for every step of adagrad, rmsprop, gradient_descent and adadelta whatever their memory, for sgd when its memory is zero (the first step) and for the first two steps of adam (tensors by value, expressions of C53, real numbers, no regularisers). The code violates it for adam from its third step on and for sgd with momentum: in every state whose memory points uphill the loss rises for all small learning rates."
  },
  {
   "property": "C131",
   "status": "partial",
   "theorems": [
    "Verif.Poison.step_elem",
    "Verif.Poison.step_local",
    "Verif.Poison.nan_visible",
    "Verif.Poison.gd_checks",
    "Verif.Poison.gd_recovers",
    "Verif.Poison.nan_recalled",
    "Verif.Poison.nan_forever_violated",
    "Verif.Poison.overflow_freezes_violated",
    "Verif.Poison.overflow_freezes_averages_violated"
   ],
   "note": "Proved: a NaN is visible after the step and stays in its element; gradient_descent recovers completely. The code violates the rest: all other optimizers keep the NaN in their memory, so every later step makes the element NaN again whatever weights are loaded (sgd also with momentum 0); a finite gradient whose square overflows makes the memory of adagrad, rmsprop and adam infinite and the element never moves again."
  },
  {
   "property": "C132",
   "status": "partial",
   "theorems": [
    "Verif.Glob.compile_pattern",
    "Verif.Glob.fnmatch_partial",
    "Verif.Glob.glob_finds",
    "Verif.Glob.in_directory",
    "Verif.Glob.here_partial",
    "Verif.Glob.below_partial",
    "Verif.Glob.newline_violated",
    "Verif.Glob.lines_violated",
    "Verif.Glob.dashes_violated",
    "Verif.Glob.operators_violated",
    "Verif.Glob.caret_violated",
    "Verif.Glob.hidden_violated",
    "Verif.Glob.outside_violated"
   ],
   "note": "Proved: names on one line match a pattern of the documented wildcards (brackets with plain characters) exactly if the documentation says so; glob finds exactly the paths that fit part by part, as far as the code shows them; in the current directory that is what the property says. The code violates the rest: a file named with a single line end matches every pattern, * matches no name of several lines; a bracket with -- reads beyond a string, one with &, ~ or | ends in an exception, one that begins with ^ also matches the backslash; hidden files are listed in every other directory, and nothing is ever found by a relative path that leads out of the current directory (../*) or begins with a dot. rglob, ~ and symbolic links are not modelled."
  },
  {
   "property": "C133",
   "status": "partial",
   "theorems": [
    "Verif.Finite.softmax_finite",
    "Verif.Finite.softmax_operator_finite",
    "Verif.Finite.activation_finite",
    "Verif.Finite.smooth_finite",
    "Verif.Finite.backward_finite",
    "Verif.Finite.softplus_violated",
    "Verif.Finite.softplus_backward_violated",
    "Verif.Finite.selu_violated",
    "Verif.Finite.softplus_finite_partial",
    "Verif.Finite.selu_finite_partial"
   ],
   "note": "Proved for softmax (any number of classes), relu, relu6, leaky_relu, elu, hard_sigmoid, softsign, sigmoid, negative, tanh, gaussian, swish and gelu, and for the backward passes of softmax, softsign, sigmoid and tanh. The code violates the property for softplus, which is infinite at every float of 90 or more though its value is about the number itself, for the backward pass of softplus at 0 (division by 0), and for selu near the largest number; the partial theorems say where these are finite."
  },
  {
   "property": "C134",
   "status": "partial",
   "theorems": [
    "Verif.Finite.cross_entropy_loss_finite",
    "Verif.Finite.cross_entropy_backward_finite",
    "Verif.Finite.bce_nan_violated",
    "Verif.Finite.cross_entropy_nan_violated"
   ],
   "note": "Proved for the loss fused with softmax, forward and backward, with any labels. The code violates the property for binary_cross_entropy_loss, which is NaN (or stops, in a build with checks) as soon as one label is 1 and its prediction positive, and for cross_entropy as soon as a label and its prediction are both 0."
  },
  {
   "property": "C135",
   "status": "proved",
   "theorems": [
    "Verif.Fp.network_accurate",
    "Verif.Fp.whole_network_exact",
    "Verif.Fp.layer_error_le",
    "Verif.Fp.matmul_product",
    "Verif.Fp.mlpOf_real",
    "Verif.Fp.near_id",
    "Verif.Fp.near_relu",
    "Verif.Fp.exact_relu",
    "Verif.Fp.near_leaky",
    "Verif.Fp.near_tanh",
    "Verif.Fp.near_sigmoid",
    "Verif.Fp.exists_exp"
   ],
   "note": ""
  },
  {
   "property": "C136",
   "status": "proved",
   "theorems": [
    "Verif.Fp.training_gradients",
    "Verif.Fp.network_back",
    "Verif.Fp.gradIn_derivative",
    "Verif.Fp.gradW_derivative",
    "Verif.Fp.plus_left",
    "Verif.Fp.plus_right",
    "Verif.Fp.matmul_back",
    "Verif.Fp.near_back_id",
    "Verif.Fp.near_back_relu",
    "Verif.Fp.relu_kink",
    "Verif.Fp.near_back_sigmoid",
    "Verif.Fp.near_back_tanh"
   ],
   "note": "For tanh with float the code computes part of the backward action in double; the model uses one format."
  },
  {
   "property": "C137",
   "status": "proved",
   "theorems": [
    "Verif.Fp.conv2d_valid_accurate",
    "Verif.Fp.conv2d_same_accurate",
    "Verif.Fp.general_conv2d_valid_accurate",
    "Verif.Fp.general_conv2d_same_accurate",
    "Verif.Fp.convWith_accurate"
   ],
   "note": "With padding same and unequal paddings the code computes something else already without rounding (C37)."
  },
  {
   "property": "C138",
   "status": "proved",
   "theorems": [
    "Verif.Fp.conv_back",
    "Verif.Fp.weighted_filter",
    "Verif.Fp.weighted_image",
    "Verif.Fp.convG_real",
    "Verif.Fp.img2colBack_any",
    "Verif.Fp.accurate_two",
    "Verif.Fp.places_length"
   ],
   "note": ""
  },
  {
   "property": "C139",
   "status": "proved",
   "theorems": [
    "Verif.Text.printed_page",
    "Verif.Text.printed_element",
    "Verif.Text.rowsOf_all",
    "Verif.Text.printed_determines",
    "Verif.Text.printed_close"
   ],
   "note": ""
  },
  {
   "property": "C140",
   "status": "partial",
   "theorems": [
    "Verif.Random.poisson_partial",
    "Verif.Random.poisson_small_violated",
    "Verif.Random.poisson_fraction_violated",
    "Verif.Random.poisson_gradient_violated",
    "Verif.Random.normalLike_noise",
    "Verif.Random.normalLike_deviation_violated"
   ],
   "note": "The code violates the property for poisson: the mean is converted to long, so an element below 1 gives a mean for which the distribution is undefined, and the fraction of a mean is lost; the gradient is passed on although what is drawn does not depend on the fraction.  Proved for elements from 1 up, with the whole part as mean; random_normal_like with a positive deviation."
  },
  {
   "property": "C141",
   "status": "proved",
   "theorems": [
    "Verif.Fp.gd_step",
    "Verif.Fp.sgd_step",
    "Verif.Fp.nesterov_step",
    "Verif.Fp.train_step",
    "Verif.Fp.loss_gradients",
    "Verif.Fp.gdRuleF_real",
    "Verif.Fp.sgdRuleF_real",
    "Verif.Fp.updateAllF_real"
   ],
   "note": "The arithmetic of sgd is taken in the format of the tensor; the decay of the rate (a division in double) is part of the error allowed for the rate."
  },
  {
   "property": "C142",
   "status": "partial",
   "theorems": [
    "Verif.Fp.squared_head",
    "Verif.Fp.sum_spreads",
    "Verif.Fp.mean_spreads_partial",
    "Verif.Fp.mean_spreads_violated",
    "Verif.Fp.squared_value",
    "Verif.Fp.squared_derivative",
    "Verif.Fp.squaredOf_real"
   ],
   "note": "The code violates the property for mean_squared_error with more than one column: the factor is one divided by the number of rows, not of elements.  Proved for squared_loss, and for mean_squared_error with the factor the code uses."
  },
  {
   "property": "C143",
   "status": "proved",
   "theorems": [
    "Verif.Fp.soft_row_near",
    "Verif.Fp.softmax_near",
    "Verif.Fp.cross_head",
    "Verif.Fp.weight_exact",
    "Verif.Fp.row_derivative",
    "Verif.Fp.cross_derivative",
    "Verif.Fp.cross_value"
   ],
   "note": "The gradient is bounded against the derivative of the sum over the rows, which is what the code sends; that the value is divided by the number of rows and the gradient is not is the violation already stated for the loss over the reals (cross_entropy_batch_violated)."
  },
  {
   "property": "C144",
   "status": "partial",
   "theorems": [
    "Verif.Bar.trange_loop_partial",
    "Verif.Bar.trange_frames_partial",
    "Verif.Bar.fit_shown_partial",
    "Verif.Bar.evaluate_shown_partial",
    "Verif.Bar.trange_narrow_violated",
    "Verif.Bar.trange_no_terminal_violated",
    "Verif.Bar.fit_narrow_violated",
    "Verif.Bar.evaluate_narrow_violated"
   ],
   "note": "Holds on terminals at least 40 columns wide.  On narrower ones (also those that report no size) every loop has undefined behaviour: the cells are counted up to a negative number.  When standard input is no terminal the width is read without having been written."
  },
  {
   "property": "C145",
   "status": "partial",
   "theorems": [
    "Verif.Bar.rize_keeps",
    "Verif.Bar.rize_names_partial",
    "Verif.Bar.rize_formats",
    "Verif.Bar.rize_magenta_violated"
   ],
   "note": "The background Magenta is misspelled Megenta in its table, so asking for it gives the default background; everything else holds."
  },
  {
   "property": "C146",
   "status": "partial",
   "theorems": [
    "Verif.Alias.assign_stores_partial",
    "Verif.Alias.assign_iterates_partial",
    "Verif.Alias.assign_backward_partial",
    "Verif.Alias.assign_shape_violated",
    "Verif.Alias.assign_self_violated",
    "Verif.Alias.assign_increment_violated",
    "Verif.Alias.assign_backward_violated"
   ],
   "note": "Holds for values of the shape of the variable that are not stored in the variable itself (expressions of C55, C56 on shared storages).  The code violates the rest, each time shown in general: a value of another shape leaves the variable with its old shape and the new elements, no tensor at all if their numbers differ, and the next backward pass stops; assign( v, v ) and the counter assign( v + c, v ) call std::copy on overlapping ranges, which is undefined."
  },
  {
   "property": "C147",
   "status": "partial",
   "theorems": [
    "Verif.Descent.linear_fit",
    "Verif.Descent.linear_fit_converges_partial",
    "Verif.Descent.linear_fit_mean",
    "Verif.Descent.linear_fit_floor",
    "Verif.Descent.rates_bounded",
    "Verif.Descent.linear_fit_decay_violated",
    "Verif.Descent.linear_fit_path"
   ],
   "note": "Over the reals and by value, under the conditions of C111, for rates with rate * ( sum of the squares of all features and of a one per sample ) at most 1/2 (one batch) or 1/4 (several).  linear_fit is for any rates, with the bound (distance to the other model)^2 / ( 2 * sum of the rates ) on the excess over any other model; with a constant rate it tends to zero.  With decay the code violates the property: the learning rate is divided again by every factor (C59), the sum of the rates stays bounded, and the error stays above a share of the initial error that does not depend on the number of epochs (shown for all data, decays and small rates), also if a model without error exists."
  },
  {
   "property": "C148",
   "status": "proved",
   "theorems": [
    "Verif.Lzw.lzw_textbook",
    "Verif.Lzw.lzw_size",
    "Verif.Lzw.lzw_size_repo"
   ],
   "note": "For every capacity of at least 258, the repository having 2^20.  textbook is a separate program on strings, without tree, nodes or codes of parents.  Every code fits the bits it is written with, so the bytes determine the codes.  With the capacity of the repository the output has at most 5/2 of the bytes of the input and three more."
  },
  {
   "property": "C149",
   "status": "partial",
   "theorems": [
    "Verif.Fp.avg_pool_accurate",
    "Verif.Fp.avg_pool_near",
    "Verif.Fp.avg_pool_back_near_partial",
    "Verif.Fp.max_pool_exact",
    "Verif.Fp.up_sample_back_accurate",
    "Verif.Pool.avg_pool_backward_violated"
   ],
   "note": "Formats of C118 (any precision and exponent range), without infinities among the operands where a bound is claimed; stride squared below 2^p, so that it converts exactly.  Backward of average_pooling_2d is for strides that divide the sizes: with others the code reads the gradient out of bounds (avg_pool_backward_violated, for any arithmetic), so the property as stated does not hold for every shape."
  },
  {
   "property": "C150",
   "status": "partial",
   "theorems": [
    "Verif.Graph.sessions_fresh_partial",
    "Verif.Graph.session_stale_violated",
    "Verif.Graph.session_loop_violated",
    "Verif.Graph.default_after_own"
   ],
   "note": "By value, as C55.  The code violates the property: operators use the cache of the default session, which run of another session does not clear, so that session returns the result of the first run for ever (shown for every expression with an operator at its root, every result that is not empty and every history without a run in the default session; a loop of such runs reports its first result each time).  Proved for programs that run in sessions of their own only while the cache of the default session is empty, and for the default session after any program."
  }
 ]
}