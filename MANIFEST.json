{
 "claims": [
  {
   "property": "C01",
   "status": "proved",
   "theorems": [
    "CoolDiff.C01_eval",
    "CoolDiff.C01_eval_formula"
   ],
   "note": "Eval returns the value the definitions ask for, for all trees, all heaps of definitions and any construction history."
  },
  {
   "property": "C02",
   "status": "partial",
   "theorems": [
    "CoolDiff.C02_current_partial",
    "CoolDiff.C02_single_root",
    "CoolDiff.C02_stale",
    "CoolDiff.C02_stale_redefinition",
    "CoolDiff.C02_exact_eval",
    "CoolDiff.C02_exact_devalF",
    "CoolDiff.C02_exact_preComp",
    "CoolDiff.C02_exact_devalR",
    "CoolDiff.C02_exact_devalR_ordered",
    "CoolDiff.C02_wrong_only_from_stale_devalR",
    "CoolDiff.C02_reversed_dependence",
    "CoolDiff.C02_wrong_only_from_stale",
    "CoolDiff.C02_fine_eval",
    "CoolDiff.C02_fine_devalF",
    "CoolDiff.C02_fine_preComp",
    "CoolDiff.C02_values_stay",
    "CoolDiff.C02_reuse",
    "CoolDiff.C02_apart"
   ],
   "note": "False as stated: stale visited flags (C02_stale, C02_stale_redefinition are concrete counterexamples). Proved for every history whose queries never reach an Expression already queried through one never queried (C02_current_partial). For every history without exception: exactly what Eval, DevalF and PreComp compute and store (C02_exact_*), a wrong value always comes from a stale stored result (C02_wrong_only_from_stale); the same for the derivatives of reverse mode (C02_exact_devalR, C02_wrong_only_from_stale_devalR), after every history in which no redefinition reverses the dependence of two Expressions (Ordered), and a counterexample when one does (C02_reversed_dependence), right answers whenever the stored results come across are current (C02_fine_*) and which calls keep results current (C02_values_stay, C02_apart)."
  },
  {
   "property": "C03",
   "status": "partial",
   "theorems": [
    "CoolDiff.C03_derivative_partial",
    "CoolDiff.C03_hist_partial",
    "CoolDiff.C03_session"
   ],
   "note": "Over the reals, after every history in which no stale stored result is relied on, and for sessions with SymDiff (flags safe for the root). Missing: stale histories (C02_stale), where the property is false."
  },
  {
   "property": "C04",
   "status": "partial",
   "theorems": [
    "CoolDiff.C04_reverse_eq_forward_partial",
    "CoolDiff.C04_variables_partial",
    "CoolDiff.C04_bare_reference",
    "CoolDiff.C04_self_recursive",
    "CoolDiff.C04_stale",
    "CoolDiff.C04_any_history"
   ],
   "note": "Proved for Variables after every history in which no stale stored result is relied on; counterexamples for derivatives with respect to Expressions used as bare references or self-recursive ones, and for stale histories; C04_any_history: after every history that reverses no dependence the two modes agree for Variables whenever the stored derivatives they rely on agree, however stale."
  },
  {
   "property": "C05",
   "status": "proved",
   "theorems": [
    "CoolDiff.C05_any_order",
    "CoolDiff.C05_one_precomp_partial"
   ],
   "note": "DevalR inserts into the cache map; any sequence of DevalR calls returns the same answers in any order."
  },
  {
   "property": "C06",
   "status": "partial",
   "theorems": [
    "CoolDiff.C06_unrelated_partial",
    "CoolDiff.C06_symbolic_partial",
    "CoolDiff.C06_stale"
   ],
   "note": "Proved in forward and reverse mode after every history in which no stale stored result is relied on, and for SymDiff sessions; stale histories give a non-zero derivative (C06_stale)."
  },
  {
   "property": "C07",
   "status": "partial",
   "theorems": [
    "CoolDiff.C07_parameter_live_partial",
    "CoolDiff.C07_any_history",
    "CoolDiff.C07_parameter_constant"
   ],
   "note": "Every history in which no stale stored result is relied on; C07_any_history: after every history Eval applies the written formula, with the new Parameter value, to what the operands hold. Missing: operands that are stale Expressions (C02_stale)."
  },
  {
   "property": "C08",
   "status": "partial",
   "theorems": [
    "CoolDiff.C08_sequential_partial"
   ],
   "note": "Every history in which no stale stored result is relied on (missing: stale ones, C02_stale)."
  },
  {
   "property": "C09",
   "status": "proved",
   "theorems": [
    "CoolDiff.C09_discard",
    "CoolDiff.C09_keep",
    "CoolDiff.C09_iff"
   ],
   "note": ""
  },
  {
   "property": "C10",
   "status": "partial",
   "theorems": [
    "CoolDiff.C10_naming_partial"
   ],
   "note": "Every history in which no stale stored result is relied on (missing: stale ones, C02_stale)."
  },
  {
   "property": "C11",
   "status": "proved",
   "theorems": [
    "CoolDiff.C11_clone",
    "CoolDiff.C11_fresh"
   ],
   "note": ""
  },
  {
   "property": "C12",
   "status": "proved",
   "theorems": [
    "CoolDiff.C12_terminates",
    "CoolDiff.C12_bound_irrelevant"
   ],
   "note": "Arbitrary, also circular, definitions."
  },
  {
   "property": "C13",
   "status": "partial",
   "theorems": [
    "CoolDiff.C13_sugar_partial",
    "CoolDiff.C13_any_history",
    "CoolDiff.C13_any_history_devalR"
   ],
   "note": "Every history in which no stale stored result is relied on; C13_any_history(_devalR): all three modes after every history, in terms of what the operands hold (reverse mode: after every history that reverses no dependence between Expressions; after others the formula is not respected, C02_reversed_dependence)."
  },
  {
   "property": "C16",
   "status": "proved",
   "theorems": [
    "CoolDiff.C16_functions",
    "CoolDiff.C16_pow_const_base",
    "CoolDiff.C16_pow_const_exponent",
    "CoolDiff.C16_pow",
    "CoolDiff.C16_symbolic_functions",
    "CoolDiff.C16_symbolic_pow_const_base",
    "CoolDiff.C16_symbolic_pow_const_exponent",
    "CoolDiff.C16_symbolic_pow"
   ],
   "note": "Forward, reverse and symbolic formulas."
  },
  {
   "property": "C17",
   "status": "partial",
   "theorems": [
    "CoolDiff.C17_order_irrelevant_partial",
    "CoolDiff.C17_reverse_survives",
    "CoolDiff.C17_self_recursive_loses"
   ],
   "note": "Every history in which no stale stored result is relied on. A self-recursive root loses its reverse cache after Eval (C17_self_recursive_loses)."
  },
  {
   "property": "C18",
   "status": "partial",
   "theorems": [
    "CoolDiff.C18_unary_partial",
    "CoolDiff.C18_binary_partial",
    "CoolDiff.C18_any_history",
    "CoolDiff.C18_any_history_devalR"
   ],
   "note": "Every history in which no stale stored result is relied on; C18_any_history(_devalR): all three modes after every history, in terms of what the operands hold (reverse mode: after every history that reverses no dependence between Expressions; after others the formula is not respected, C02_reversed_dependence)."
  },
  {
   "property": "C21",
   "status": "partial",
   "theorems": [
    "CoolDiff.C21_differ"
   ],
   "note": "False: DevalF(y,y)=1 and DevalR(y,y)=0 are both proved."
  },
  {
   "property": "C19",
   "status": "proved",
   "theorems": [
    "CoolDiff.C19_same",
    "CoolDiff.C19_copy",
    "CoolDiff.C19_setNum",
    "CoolDiff.C19_new",
    "CoolDiff.C19_queries",
    "CoolDiff.C19_query_keeps",
    "CoolDiff.C19_interchange"
   ],
   "note": "Handle/cell model of Variable objects; all histories of construction, copy, number assignment and Variable assignment. For the queries the formula is any operator tree (not a bare reference) over Variables and Parameters."
  },
  {
   "property": "C20",
   "status": "partial",
   "theorems": [
    "CoolDiff.C20_assign_keeps_value",
    "CoolDiff.C20_counterexample",
    "CoolDiff.C20_copy_partial"
   ],
   "note": "False as stated: Parameter copy assignment swaps a temporary and leaves the value (C20_assign_keeps_value holds for every heap). Copy construction is proved."
  },
  {
   "property": "C22",
   "status": "partial",
   "theorems": [
    "CoolDiff.C22_jacobianR_partial",
    "CoolDiff.C22_jacobianR_real_partial",
    "CoolDiff.C22_devalR_matrix_partial",
    "CoolDiff.C22_devalF_matrix_partial",
    "CoolDiff.C22_hessianR_partial",
    "CoolDiff.C22_symGradient_partial",
    "CoolDiff.C22_symHessian_partial",
    "CoolDiff.Ex.hessian_off_diagonal",
    "CoolDiff.Ex.devalF_matrix_stale",
    "CoolDiff.Ex.gradient_answers"
   ],
   "note": "JacobianR, DevalR/DevalF(exp, Matrix), SymGradient for every length and every history of calls; diagonals of HessianR and SymHessian. Off the diagonal the property is false of the code: proved that those entries are always 0, with a counterexample. Sequential builds; parallel builds are C55."
  },
  {
   "property": "C23",
   "status": "proved",
   "theorems": [
    "CoolDiff.C23_addressing",
    "CoolDiff.C23_write"
   ],
   "note": ""
  },
  {
   "property": "C24",
   "status": "proved",
   "theorems": [
    "CoolDiff.C24_elementwise",
    "CoolDiff.C24_mismatch"
   ],
   "note": "Both CPU handlers, every loop order, every live buffer."
  },
  {
   "property": "C25",
   "status": "proved",
   "theorems": [
    "CoolDiff.C25_product",
    "CoolDiff.C25_mismatch"
   ],
   "note": ""
  },
  {
   "property": "C26",
   "status": "partial",
   "theorems": [
    "CoolDiff.C26_kron_eigen",
    "CoolDiff.C26_kron_naive_partial",
    "CoolDiff.C26_kron_naive_stale_counterexample"
   ],
   "note": "Eigen handler proved; the naive handler skips the blocks of zero entries and therefore keeps stale contents of a reused buffer (counterexample); it is proved for fresh buffers or where no entry of the left operand is zero."
  },
  {
   "property": "C27",
   "status": "proved",
   "theorems": [
    "CoolDiff.C27_transpose",
    "CoolDiff.C27_dervTranspose"
   ],
   "note": ""
  },
  {
   "property": "C28",
   "status": "partial",
   "theorems": [
    "CoolDiff.C28_conv_eigen",
    "CoolDiff.C28_conv_naive_partial",
    "CoolDiff.C28_conv_history_partial",
    "CoolDiff.C28_conv_naive_stale_counterexample"
   ],
   "note": "The Eigen convolution is proved; the naive one keeps a stale border in the reused pad buffer (counterexample), proved when the pad buffer is fresh or there is no padding, and for whole sequences of calls in which different paddings have different sizes."
  },
  {
   "property": "C31",
   "status": "partial",
   "theorems": [
    "CoolDiff.C31_pool_shape",
    "CoolDiff.C31_pool_zero",
    "CoolDiff.C31_no_stale",
    "CoolDiff.C31_no_stale_eigen",
    "CoolDiff.C31_naive_kron_counterexample"
   ],
   "note": "Shape part proved; contents part proved for all kernels except the naive Kronecker and padding kernels (counterexample)."
  },
  {
   "property": "C32",
   "status": "partial",
   "theorems": [
    "CoolDiff.C32_basics_partial",
    "CoolDiff.C32_repeated",
    "CoolDiff.C32_gpu_counterexample"
   ],
   "note": "CPU memory: proved for every call history. In GPU memory Zeros and the off-diagonal of Eye are whatever the allocation held, with counterexample; Ones and the diagonal are right."
  },
  {
   "property": "C43",
   "status": "partial",
   "theorems": [
    "CoolDiff.C43_dispatch",
    "CoolDiff.C43_elementwise_partial",
    "CoolDiff.C43_elementwise_mismatch",
    "CoolDiff.C43_product_partial",
    "CoolDiff.C43_product_mismatch",
    "CoolDiff.C43_kron_partial",
    "CoolDiff.C43_transpose_partial",
    "CoolDiff.C43_agree_partial",
    "CoolDiff.C43_unary_library_partial",
    "CoolDiff.C43_user_function_is_sin",
    "CoolDiff.C43_too_many_rows_counterexample"
   ],
   "note": "All CUDA kernels proved for every thread interleaving, shared and fresh memory contents, result buffer and shape within the launch limits (65535*32 rows). Missing: larger shapes, where the launch fails unnoticed (counterexample), and user-supplied unary functions, which are replaced by sin (proved)."
  },
  {
   "property": "C33",
   "status": "partial",
   "theorems": [
    "CoolDiff.C33_setBlock",
    "CoolDiff.C33_roundtrip",
    "CoolDiff.C33_getBlock",
    "CoolDiff.C33_pad",
    "CoolDiff.C33_pad_stale_counterexample",
    "CoolDiff.C33_getRow",
    "CoolDiff.C33_getColumn_ignores_argument",
    "CoolDiff.C33_getColumn_counterexample",
    "CoolDiff.C33_getColumn_counterexample_wide"
   ],
   "note": "getColumn(j) ignores j (counterexample); pad into a reused buffer keeps a stale border (counterexample). The rest is proved."
  },
  {
   "property": "C34",
   "status": "partial",
   "theorems": [
    "CoolDiff.C34_sigma",
    "CoolDiff.C34_trace",
    "CoolDiff.C34_trace_square",
    "CoolDiff.C34_broadcast",
    "CoolDiff.C34_concat_vertical",
    "CoolDiff.C34_concat_horizontal",
    "CoolDiff.C34_pow",
    "CoolDiff.C34_matrix_exp_partial",
    "CoolDiff.C34_matrix_exp_counterexample",
    "CoolDiff.C34_matrix_log",
    "CoolDiff.C34_frobenius",
    "CoolDiff.C34_elementwise_division_partial",
    "CoolDiff.C34_division_counterexample",
    "CoolDiff.C34_softmax",
    "CoolDiff.C34_div_number",
    "CoolDiff.C34_sub_number",
    "CoolDiff.C34_mod",
    "CoolDiff.C34_eval_partial"
   ],
   "note": "All functions at every size; MatrixExp<N> only for N <= 20: from 21 on Factorial overflows size_t (counterexample). Element-wise division for positive entries (as stated). C34_eval_partial links the formula meaning to TensorR2::Eval."
  },
  {
   "property": "C36",
   "status": "partial",
   "theorems": [
    "CoolDiff.C36_vec_value",
    "CoolDiff.C36_view_lost_counterexample",
    "CoolDiff.C36_product_counterexample",
    "CoolDiff.C36_vec_derivative",
    "CoolDiff.C36_vec_adjoint"
   ],
   "note": "Value and derivative layout proved; purity is false: vec reshapes the stored result of its operand in place (general counterexample for every X with more than one column, and a product that is refused). Heap model for operands that are named matrices; of reverse mode the step of the vec node is proved (C36_vec_adjoint), the rest of the pass is C30 (without vec nodes)."
  },
  {
   "property": "C37",
   "status": "partial",
   "theorems": [
    "CoolDiff.C37_copy_unevaluated_partial",
    "CoolDiff.C37_copy_evaluated_counterexample",
    "CoolDiff.C37_copy_expression_eval",
    "CoolDiff.C37_copy_visited",
    "CoolDiff.C37_copy_eval_partial",
    "CoolDiff.C37_copy_new",
    "CoolDiff.C37_copy_unchanged",
    "CoolDiff.C37_copy_devalF_partial",
    "CoolDiff.C37_copy_devalR_partial",
    "CoolDiff.C37_copy_stale",
    "CoolDiff.C37_copy_stale_counterexample",
    "CoolDiff.C37_copy_devalF_after_eval_counterexample"
   ],
   "note": "Number/parameter/variable matrices: copies of unevaluated ones evaluate like the original; copies of evaluated ones evaluate to zero (general counterexample). Matrix<Expression>: a copy forwards to the original; once it was queried (or if it was assigned to a queried matrix) Eval is exactly the query on the original, and Eval/DevalF/DevalR give the current values and derivatives after any run; so does the first query of a new copy if nothing changed since the original was evaluated, or if the original was never used. The first query of a new copy of an evaluated formula returns the stored value (general theorem and counterexamples), so the property as stated is false. Not modelled: copies used as operands, lifetime of the original."
  },
  {
   "property": "C35",
   "status": "proved",
   "theorems": [
    "CoolDiff.C35_table",
    "CoolDiff.C35_at_zero"
   ],
   "note": ""
  },
  {
   "property": "C39",
   "status": "partial",
   "theorems": [
    "CoolDiff.C39_mixed_partial",
    "CoolDiff.C39_sub_wrong",
    "CoolDiff.C39_div_wrong",
    "CoolDiff.C39_eq_wrong"
   ],
   "note": "Real-minus-complex, real-over-complex and == are wrong, with an exact description of when."
  },
  {
   "property": "C41",
   "status": "partial",
   "theorems": [
    "CoolDiff.C41_dispatch",
    "CoolDiff.C41_total",
    "CoolDiff.C41_naive_inverse_counterexample",
    "CoolDiff.C41_dispatch_gpu",
    "CoolDiff.C41_agree",
    "CoolDiff.C41_agree_kron_partial",
    "CoolDiff.C41_agree_conv_partial",
    "CoolDiff.C41_agree_conv_history_partial",
    "CoolDiff.C41_complex_transpose_disagrees",
    "CoolDiff.C41_trace_atomic",
    "CoolDiff.C41_trace_race"
   ],
   "note": "CPU chains; Eigen results are taken as the mathematical ones. Inverse/determinant have no naive handler, complex transpose differs, parallel trace accumulates without synchronisation (counterexamples)."
  },
  {
   "property": "C42",
   "status": "proved",
   "theorems": [
    "CoolDiff.C42_factorial",
    "CoolDiff.C42_fits"
   ],
   "note": ""
  },
  {
   "property": "C29",
   "status": "partial",
   "theorems": [
    "CoolDiff.C29_forward_real_partial",
    "CoolDiff.C29_expression_real_partial"
   ],
   "note": "DevalF of a named matrix formula or of an operator expression (sums, differences, products, Hadamard products, convolutions, scaling, transpose, elementwise functions, inverse, determinant) is the entrywise partial derivative over the reals, for all shapes and all query histories of C38. Not covered: vec nodes (C36), convolutions whose kept pad buffers disturb each other (C44), recursive definitions, reserved Kronecker stale-buffer case of the naive handler (C26)."
  },
  {
   "property": "C38",
   "status": "partial",
   "theorems": [
    "CoolDiff.C38_eval_current_partial",
    "CoolDiff.C38_devalF_current_partial",
    "CoolDiff.C38_eval_expression_partial",
    "CoolDiff.C38_devalF_expression_partial",
    "CoolDiff.C38_new_formula_stale_counterexample",
    "CoolDiff.C38_devalF_after_eval_counterexample",
    "CoolDiff.C38_other_variable_stale_counterexample",
    "CoolDiff.C38_exact_eval",
    "CoolDiff.C38_exact_devalF",
    "CoolDiff.C38_used_right",
    "CoolDiff.C38_used_right_devalF",
    "CoolDiff.C38_wrong_only_from_stale",
    "CoolDiff.C38_wrong_only_from_stale_devalF",
    "CoolDiff.C38_fine_eval",
    "CoolDiff.C38_fine_devalF",
    "CoolDiff.C38_exact_preComp",
    "CoolDiff.C38_eval_after_preComp",
    "CoolDiff.C38_exact_eval_pointers",
    "CoolDiff.C38_exact_devalF_pointers",
    "CoolDiff.C38_exact_preComp_pointers",
    "CoolDiff.C38_devalF_answers_iff",
    "CoolDiff.C38_devalF_stops",
    "CoolDiff.C38_devalF_new_formula_stops"
   ],
   "note": "False in general (three counterexamples of stale memoised results); proved for histories in which a formula is queried only when it was queried before or nothing it uses was, and for queries on operator expressions without a name, in which case only the named formulas inside it are subject to that condition. For every history of Eval and DevalF queries on expressions and named matrices, without a condition on which were used before: exactly what the next query answers, from a record of the values and derivatives that are stored (C38_exact_eval, C38_exact_devalF; a derivative query needs that formulas that count as used have a stored derivative and that stored derivatives found have the dimensions of X); if the matrices the expression mentions directly were all used before, the answer is computed from the current scalars (C38_used_right*); a wrong answer always comes from a stored value or derivative that is stale (C38_wrong_only_from_stale*). These histories may contain PreComp calls on 1x1 formulas without gaps (C38_exact_preComp), and every history of this kind may come before the runs of the other matrix theorems (constructor any of MHist). The *_pointers theorems say the same of the model with objects, shared buffers and reused m_cloned vectors, with warm PreComp calls (see C30). A derivative query stops exactly when a named formula that it comes across counts as used and has no stored derivative (C38_devalF_answers_iff; C38_devalF_new_formula_stops: a new formula directly over one that was only evaluated)."
  },
  {
   "property": "C30",
   "status": "partial",
   "theorems": [
    "CoolDiff.C30_reverse_value_partial",
    "CoolDiff.C30_reverse_eq_forward_partial",
    "CoolDiff.C30_reverse_real_partial",
    "CoolDiff.RBad.C30_nested_formula_aborts",
    "CoolDiff.RBad.C30_coefficient_missed_counterexample",
    "CoolDiff.RBad.C30_gap_counterexample",
    "CoolDiff.RBad.C30_view_missed_counterexample",
    "CoolDiff.C30_repeated_value_partial",
    "CoolDiff.C30_repeated_eq_forward_partial",
    "CoolDiff.C30_repeated_real_partial",
    "CoolDiff.PBad.C30_cold_repeat_counterexample",
    "CoolDiff.C30_any_history",
    "CoolDiff.C30_any_history_pointers"
   ],
   "note": "For all 1x1 formulas over sums, differences, products, Hadamard products, scaling, transpose, elementwise functions, inverse, determinant and nested 1x1 named formulas; all shapes; after any Eval/DevalF/PreComp history, also one that left stale values and answered wrong (C30_any_history, C30_any_history_pointers). The C30_repeated theorems are about the model with objects, shared buffers and the reused m_cloned vectors; they need every earlier PreComp(Y) to be warm (named formulas below Y that mention named formulas were used by an earlier query), since a cold PreComp repeated gives a wrong derivative for some map iteration orders (counterexample). False (counterexamples) for nested named formulas that are not 1x1, for scalar coefficients depending on X, for elements of X reached through a view (another Matrix<Variable> over the same Variables), and after a query of an inner part only. Convolutions: strides 1, shape-preserving padding, symmetric kernel unless the input does not depend on X (C44 has counterexamples for the rest). vec nodes not covered."
  },
  {
   "property": "C40",
   "status": "partial",
   "theorems": [
    "CoolDiff.C40_missing_variable_zero_partial",
    "CoolDiff.C40_repeated_zero_partial",
    "CoolDiff.RBad.C40_missing_variable_shape_counterexample"
   ],
   "note": "All elements are zero, but the shape is that of Y (1x1), not of X (counterexample; the is_base_of test in DevalR has its arguments swapped)."
  },
  {
   "property": "C14",
   "status": "partial",
   "theorems": [
    "CoolDiff.C14_symDiff_partial",
    "CoolDiff.C14_rounds_partial",
    "CoolDiff.Ex.two_over_x",
    "CoolDiff.Ex.stale_after_eval",
    "CoolDiff.Ex.stale_temporaries",
    "CoolDiff.Ex.symDiff_custom"
   ],
   "note": "False in general (counterexamples: c/e with c not 1, mixed queries of several roots, redefinition after SymDiff, user operators). Proved in every session otherwise, at every later point, for every operand evaluation order; C14_rounds_partial has no condition on flags."
  },
  {
   "property": "C15",
   "status": "partial",
   "theorems": [
    "CoolDiff.C15_second_derivative_partial",
    "CoolDiff.C15_symDiff_twice_partial",
    "CoolDiff.C15_mixed_symmetric",
    "CoolDiff.C15_symmetric_answers_partial",
    "CoolDiff.C15_nth_derivative_partial",
    "CoolDiff.C15_program_partial",
    "CoolDiff.C15_program_entire",
    "CoolDiff.C15_chain_exists",
    "CoolDiff.C15_symOk_twice",
    "CoolDiff.C15_symOk_forever",
    "CoolDiff.Ex.second_sqrt"
   ],
   "note": "Second and n-th derivatives over the reals by DevalF, DevalR and nested SymDiff, symmetry of mixed derivatives; conditions of C14 and points inside the domain. SymDiff of SymDiff of sqrt, acos, atanh is wrong (counterexample)."
  },
  {
   "property": "C44",
   "status": "partial",
   "theorems": [
    "CoolDiff.C44_kernel_history_partial",
    "CoolDiff.C44_kernel_no_padding",
    "CoolDiff.C44_product_rule",
    "CoolDiff.C44_stale_counterexample",
    "CoolDiff.CBad.C44_asymmetric_kernel_counterexample",
    "CoolDiff.CBad.C44_reverse_shape_counterexample",
    "CoolDiff.CBad.C44_stride_counterexample",
    "CoolDiff.CBad.C44_precomp_aborts_counterexample",
    "CoolDiff.CBad.C44_unrelated_query_counterexample",
    "CoolDiff.C29_forward_real_partial",
    "CoolDiff.C30_reverse_eq_forward_partial"
   ],
   "note": "Forward: proved for every sequence of calls in which different paddings have different sizes (always without padding), at the kernel level and inside programs (C29); false otherwise in every build (kept pad buffers). Reverse: proved for stride 1, shape-preserving padding and a symmetric kernel, or any kernel when only the kernel depends on X (C30); false otherwise (four counterexamples)."
  },
  {
   "property": "C45",
   "status": "partial",
   "theorems": [
    "CoolDiff.C45_stored_gradient_kept_partial",
    "CoolDiff.C45_any_history",
    "CoolDiff.PBad.C45_lost_gradient_counterexample"
   ],
   "note": "For every run with warm PreComp calls (see C30) in the model with shared, reused objects, and after every history, however stale, if Y was used before (C45_any_history). The counterexample shows that queries on Y, or on a used matrix that uses Y, do empty the stored gradient."
  },
  {
   "property": "C46",
   "status": "partial",
   "theorems": [
    "CoolDiff.C46_eval_partial",
    "CoolDiff.C46_devalF_partial",
    "CoolDiff.C46_elements_partial",
    "CoolDiff.C46_real_partial",
    "CoolDiff.C46_single_query_counterexample"
   ],
   "note": "Model in which matrix queries run their scalar queries on the scalar heap. Proved after all histories when the Expressions involved satisfy Orderly (an unused Expression below an element mentions no used one, and every element depending on the latter depends on the former; trivially so once all have been queried) and the matrix was queried before or is new in all parts (C38). False otherwise: one DevalF on a new program answers wrong, the same query again answers right (counterexample)."
  },
  {
   "property": "C47",
   "status": "proved",
   "theorems": [
    "CoolDiff.C47_iterations",
    "CoolDiff.C47_newton",
    "CoolDiff.C47_stationary",
    "CoolDiff.C47_least_squares",
    "CoolDiff.Ex.C47_other_size"
   ],
   "note": "Scalar oracle; Eigen LLT is a parameter assumed to solve positive definite systems. Ex.C47_other_size: a driver used with another number of unknowns before fails."
  },
  {
   "property": "C48",
   "status": "partial",
   "theorems": [
    "CoolDiff.C48_training_partial",
    "CoolDiff.C48_training_real_partial",
    "CoolDiff.C48_same_result",
    "CoolDiff.C48_every_sample",
    "CoolDiff.C48_once",
    "CoolDiff.C48_large_batch",
    "CoolDiff.NNExample.C48_unused_layer_counterexample"
   ],
   "note": "All batches, epochs, task orders, sound backends and histories, for errors without convolutions whose named formulas are 1x1 and that use every layer (counterexample: an unused layer stops training); a batch larger than the data stops it too. That networkLayers and error build such a formula is C54; random numbers are a parameter; tasks of a phase do not interleave."
  },
  {
   "property": "C49",
   "status": "partial",
   "theorems": [
    "CoolDiff.C49_accuracy_partial",
    "CoolDiff.C49_determined",
    "CoolDiff.C49_more_than_100",
    "CoolDiff.C49_zero",
    "CoolDiff.C49_last_batch_not_looked_at",
    "CoolDiff.C49_training_stats_partial",
    "CoolDiff.C49_stats_change_nothing",
    "CoolDiff.AccExample.C49_not_the_share_counterexample"
   ],
   "note": "accuracy is not the share of correct rows: the exact number is proved, and that a perfect network gets more than 100 percent when the batch size does not divide the number of rows and that the last batch is ignored when it does (counterexamples). Training with statistics changes no weight, and what it displays is proved, under the conditions of C48; for the network program these conditions are proved from its construction and the accuracy is that of a plain feed-forward network (C54_program)."
  },
  {
   "property": "C50",
   "status": "partial",
   "theorems": [
    "CoolDiff.C50_same_parameters_partial",
    "CoolDiff.C50_first_parameters",
    "CoolDiff.C50_dropout_mean",
    "CoolDiff.C50_second_layer_counterexample"
   ],
   "note": "False when calls name different parameters: the distribution is a function-local static, so the parameters of the first call are used for ever (proved for all sequences of calls of one instantiation); holds when all calls name the same parameters. The generator and distribution are a parameter; elements are written in order."
  },
  {
   "property": "C51",
   "status": "partial",
   "theorems": [
    "CoolDiff.C51_iterations_partial",
    "CoolDiff.C51_newton_partial",
    "CoolDiff.GNMEx.nonLinear_one",
    "CoolDiff.GNMEx.nonLinear_shape"
   ],
   "note": "All matrix formulas, histories, data and iteration counts, on matrices and scalar heap together, under the conditions of C46 (Orderly Expressions; matrix queried before or new in all parts) and C38 (Matrix<Variable> objects with the same number of elements share no Variables). Eigen LLT is a parameter assumed to solve positive definite systems; parallel update runs element by element in any order. The hypotheses are shown to hold for the GNMatrix example of the repository."
  },
  {
   "property": "C52",
   "status": "partial",
   "theorems": [
    "CoolDiff.C52_hessian_partial",
    "CoolDiff.C52_stops_for_two_unknowns",
    "CoolDiff.Ex.oracle_answers"
   ],
   "note": "One unknown: all Expressions (operators of SymDiff in their domains), histories and sequences of assignments and hessian() calls. For two or more unknowns the property is false of the code: C52_stops_for_two_unknowns proves that the first hessian() of every new oracle stops, whatever the function and the state. Missing: other queries on y between the calls of hessian()."
  },
  {
   "property": "C53",
   "status": "partial",
   "theorems": [
    "CoolDiff.C53_wellformed",
    "CoolDiff.C53_stored",
    "CoolDiff.C53_define_succeeds",
    "CoolDiff.C53_eval_partial",
    "CoolDiff.C53_eval_fresh",
    "CoolDiff.C53_devalF_partial",
    "CoolDiff.C53_devalR_partial",
    "CoolDiff.BldBad.C53_redefine_dims_counterexample",
    "CoolDiff.BldBad.C53_circular_counterexample"
   ],
   "note": "All programs of constructors, definitions and redefinitions (inductive predicate Built), all expressions. Values on any backend, after any history with the condition of C38 (matrix queried before or new in all parts); derivatives over the reals with the Eigen handler, without convolutions; reverse mode under the conditions of C30. Missing: definitions that mention their own target, copies of Matrix<Expression> as operands (see C37), views, queries between definitions that are then changed. Counterexamples show why redefinitions must keep dimensions and not be circular."
  },
  {
   "property": "C54",
   "status": "proved",
   "theorems": [
    "CoolDiff.C54_setup",
    "CoolDiff.C54_error",
    "CoolDiff.C54_training",
    "CoolDiff.C54_program",
    "CoolDiff.NNProgramExample.regular",
    "CoolDiff.NNProgramExample.plainAccuracy_example"
   ],
   "note": "All layer lists (the example has four layers of this form), dimensions, initial numbers, data, rates, epochs, draws, CPU handlers and schedules, over the reals. The matrices the program builds are those of the model of C53, training is the model of C48, and all hypotheses of C48 are proved from the construction. At a kink of LeakyReLU the added numbers are the code's convention (C35_at_zero). Simplifications in Apps/NNBuild.lean: C54_program is the whole program with the default display_stats = true: what is printed per epoch and the accuracy on the test data with the network rebuilt for another batch size. X and Y are new matrices in every call of networkLayers; the regulariser under #if 0 is off."
  },
  {
   "property": "C55",
   "status": "partial",
   "theorems": [
    "CoolDiff.C55_formula",
    "CoolDiff.C55_formula_real",
    "CoolDiff.C55_race_counterexample",
    "CoolDiff.Ex.C55_wrong_counterexample",
    "CoolDiff.C55_merge",
    "CoolDiff.C55_merge_counterexample",
    "CoolDiff.C55_clone_sequential",
    "CoolDiff.C55_clone_counterexample"
   ],
   "note": "Every interleaving of single reads and writes (sequentially consistent memory; the C++ standard gives races no meaning at all). Positive: DevalF(formula, X, false) of a formula over Variables and Parameters, and merges into caches that hold all keys. The rest is false of the code: for an Expression there is a run in which every entry is the derivative with respect to the first Variable (any Expression, any X), concrete instance (37, 37) for (37, 24); a merge can lose a new key; two matrix cache entries can share one buffer. The parallel loops inside matrix kernels are the schedules of C24-C28."
  },
  {
   "property": "C56",
   "status": "proved",
   "theorems": [
    "CoolDiff.C56_direct",
    "CoolDiff.C56_formula",
    "CoolDiff.C56_formula_variables",
    "CoolDiff.C56_atoms"
   ],
   "note": "For every state reached by any history (Run; it includes declarations, formula objects built and dropped, assignments of formulas and references, redefinitions, changed numbers and all queries). The witness is the heap of C02_stale, where another Expression is answered wrongly. SymDiff of formula objects is not modelled here."
  },
  {
   "property": "C57",
   "status": "proved",
   "theorems": [
    "CoolDiff.C57_phases"
   ],
   "note": "All programs of the inductive Phase from every session in which no Expression is flagged. Operators as in C15_symOk_forever (sqrt, asin, acos, asinh, acosh, atanh excluded: their derivative formulas contain c / e, which SymDiff gets wrong, see C14/C15); the point is inside the domain of all operators. Instance: C58."
  },
  {
   "property": "C58",
   "status": "proved",
   "theorems": [
    "CoolDiff.C58_gaussian",
    "CoolDiff.C58_gaussian_values"
   ],
   "note": "The whole program over the reals (PI is a parameter; for sig = 0 the C++ numbers are not finite, C58_gaussian_values excludes it)."
  },
  {
   "property": "C59",
   "status": "proved",
   "theorems": [
    "CoolDiff.C59_scalar",
    "CoolDiff.C59_nonlinear",
    "CoolDiff.C59_nonlinear_upper",
    "CoolDiff.C59_nonlinear_lower",
    "CoolDiff.C59_nonlinear_main",
    "CoolDiff.C59_load",
    "CoolDiff.C59_newline_counterexample",
    "CoolDiff.C59_rotation",
    "CoolDiff.C59_rotation_exact",
    "CoolDiff.C59_rotation_converges",
    "CoolDiff.C59_rotation_fit"
   ],
   "note": "Over the reals, Eigen kernels (the configured handler; the matrix oracle needs the Kronecker kernel), any solver in place of Eigen LLT that solves positive definite systems. No rank or domain hypotheses remain: they are proved from the programs. Beyond the property: a data file whose last line does not end with a newline is refused by an assertion (C59_newline_counterexample). The scale kappa of C59_rotation_fit is 0.9987 for the data in the repository. Starts x0 = 1 and x0 + y0 = 0 have singular normal equations and are excluded."
  },
  {
   "property": "C60",
   "status": "partial",
   "theorems": [
    "CoolDiff.C60_eval",
    "CoolDiff.C60_devalF",
    "CoolDiff.C60_devalF_quadratic",
    "CoolDiff.C60_preComp_partial",
    "CoolDiff.C60_preComp_exponential",
    "CoolDiff.C60_at_least",
    "CoolDiff.C60_preComp_written",
    "CoolDiff.C60_reverse_counterexample",
    "CoolDiff.C60_sines_eval",
    "CoolDiff.C60_shared",
    "CoolDiff.C60_define_alloc",
    "CoolDiff.C60_define_alloc_sines",
    "CoolDiff.C60_queries_keep"
   ],
   "note": "The counted queries are the queries of the model (EvalC_erase, DevalFC_erase, PreCompC_erase). Partial because a polynomial bound for PreComp is false of the code: C60_reverse_counterexample, C60_preComp_exponential (at least 2^d calls); C60_preComp_partial gives the bound (2+2^(d+1))N+1. Counted are member function calls on nodes and objects, not the work on the entries of the unordered maps. Scalar expressions only."
  },
  {
   "property": "C61",
   "status": "proved",
   "theorems": [
    "CoolDiff.C61_eval",
    "CoolDiff.C61_devalF",
    "CoolDiff.C61_preComp",
    "CoolDiff.C61_preComp_built",
    "CoolDiff.C61_at_least",
    "CoolDiff.C61_devalF_quadratic",
    "CoolDiff.MatEvalC_erase",
    "CoolDiff.MatDevalFC_erase",
    "CoolDiff.MatPreCompC_erase"
   ],
   "note": "The counted queries are the queries of the model (the three erasure theorems). The bound for PreComp needs every operator to have its own number and formulas not to be circular, which C53 proves of every program that builds its matrices (C61_preComp_built). Not counted: the work of the kernels, of loops over cache entries, and of scalar queries on the elements (C60). Matrices are not redefined between the queries; copies of Matrix<Expression> and vec nodes are not among the operators."
  },
  {
   "property": "C62",
   "status": "partial",
   "theorems": [
    "CoolDiff.C62_same_answers",
    "CoolDiff.C62_others_untouched",
    "CoolDiff.C62_dead_objects",
    "CoolDiff.C62_other_definitions",
    "CoolDiff.C62_copy_reaches",
    "CoolDiff.C62_copy_of_local",
    "CoolDiff.C62_matrix_same_answers",
    "CoolDiff.C62_matrix_others_untouched",
    "CoolDiff.C62_matrix_other_definitions"
   ],
   "note": "Everything is proved for every state and every sequence of queries except the last sentence, which is false of the code: a copy of an Expression stores the address of the original (C62_copy_reaches), so a returned copy of a local Expression dangles (C62_copy_of_local). Going out of scope is modelled as arbitrary contents of the object. Matrices: the scalar layer below the elements is a parameter (same in both runs); C62_matrix_other_definitions is about programs built by the public operations."
  },
  {
   "property": "C63",
   "status": "partial",
   "theorems": [
    "CoolDiff.Mach.C63_eval",
    "CoolDiff.Mach.C63_devalF",
    "CoolDiff.Mach.C63_formula",
    "CoolDiff.Mach.C63_written_partial",
    "CoolDiff.Mach.C63_same_code",
    "CoolDiff.Mach.C63_same_code_devalF",
    "CoolDiff.Mach.MachEx.C63_division_counterexample",
    "CoolDiff.Mach.MachEx.C63_double_counterexample"
   ],
   "note": "The statements about Eval and DevalF on any operations are proved in full (C63_eval, C63_devalF, no law of arithmetic). The last sentence is proved for formulas without division and is false with one: x/z is computed as x*(1/z) and x/10 as 0.1*x, rounded twice (GenericDiv.hpp:77-83, GenericProduct.hpp:405-409), so 3/10 gives 0.30000000000000004 in double (C63_double_counterexample); C63_formula says what is computed for every formula. The compiler is assumed to keep the written operations. PreComp in rounded arithmetic is not covered."
  },
  {
   "property": "C64",
   "status": "proved",
   "theorems": [
    "CoolDiff.Mach.C64_rounding_error",
    "CoolDiff.Mach.C64_polynomial_error",
    "CoolDiff.Mach.RoundEx.F53_rounded",
    "CoolDiff.Mach.RoundEx.C64_cancellation_counterexample"
   ],
   "note": "Proved as stated, with n = roundings e + 1 (a sum adds one to the larger count of its operands, a product adds the counts). Overflow and underflow are excluded by the hypothesis on the operations (Rounded); F53_rounded shows that 53-bit rounding to nearest, ties to even, satisfies it. The condition on cancellation is needed for the relative error (C64_cancellation_counterexample); C64_polynomial_error is the bound without it. Elementary functions and derivatives are not covered."
  }
 ]
}