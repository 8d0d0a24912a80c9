claim('C01','proved',['C01_eval','C01_eval_formula'],'Eval returns the value the definitions ask for, for all trees, all heaps of definitions and any construction history.')
claim('C02','partial',['C02_current_partial','C02_single_root','C02_stale','C02_stale_redefinition','C02_exact_eval','C02_exact_devalF','C02_exact_preComp','C02_exact_devalR','C02_exact_devalR_ordered','C02_wrong_only_from_stale_devalR','C02_reversed_dependence','C02_wrong_only_from_stale','C02_fine_eval','C02_fine_devalF','C02_fine_preComp','C02_values_stay','C02_reuse','C02_apart'],'False as stated: stale visited flags (C02_stale, C02_stale_redefinition are concrete counterexamples). Proved for every history whose queries never reach an Expression already queried through one never queried (C02_current_partial). For every history without exception: exactly what Eval, DevalF and PreComp compute and store (C02_exact_*), a wrong value always comes from a stale stored result (C02_wrong_only_from_stale); the same for the derivatives of reverse mode (C02_exact_devalR, C02_wrong_only_from_stale_devalR), after every history in which no redefinition reverses the dependence of two Expressions (Ordered), and a counterexample when one does (C02_reversed_dependence), right answers whenever the stored results come across are current (C02_fine_*) and which calls keep results current (C02_values_stay, C02_apart).')
claim('C03','partial',['C03_derivative_partial','C03_hist_partial','C03_session'],'Over the reals, after every history in which no stale stored result is relied on, and for sessions with SymDiff (flags safe for the root). Missing: stale histories (C02_stale), where the property is false.')
claim('C04','partial',['C04_reverse_eq_forward_partial','C04_variables_partial','C04_bare_reference','C04_self_recursive','C04_stale','C04_any_history'],'Proved for Variables after every history in which no stale stored result is relied on; counterexamples for derivatives with respect to Expressions used as bare references or self-recursive ones, and for stale histories; C04_any_history: after every history that reverses no dependence the two modes agree for Variables whenever the stored derivatives they rely on agree, however stale.')
claim('C05','proved',['C05_any_order','C05_one_precomp_partial'],'DevalR inserts into the cache map; any sequence of DevalR calls returns the same answers in any order.')
claim('C06','partial',['C06_unrelated_partial','C06_symbolic_partial','C06_stale'],'Proved in forward and reverse mode after every history in which no stale stored result is relied on, and for SymDiff sessions; stale histories give a non-zero derivative (C06_stale).')
claim('C07','partial',['C07_parameter_live_partial','C07_any_history','C07_parameter_constant'],'Every history in which no stale stored result is relied on; C07_any_history: after every history Eval applies the written formula, with the new Parameter value, to what the operands hold. Missing: operands that are stale Expressions (C02_stale).')
claim('C08','partial',['C08_sequential_partial'],'Every history in which no stale stored result is relied on (missing: stale ones, C02_stale).')
claim('C09','proved',['C09_discard','C09_keep','C09_iff'],'')
claim('C10','partial',['C10_naming_partial'],'Every history in which no stale stored result is relied on (missing: stale ones, C02_stale).')
claim('C11','proved',['C11_clone','C11_fresh'],'')
claim('C12','proved',['C12_terminates','C12_bound_irrelevant'],'Arbitrary, also circular, definitions.')
claim('C13','partial',['C13_sugar_partial','C13_any_history','C13_any_history_devalR'],'Every history in which no stale stored result is relied on; C13_any_history(_devalR): all three modes after every history, in terms of what the operands hold (reverse mode: after every history that reverses no dependence between Expressions; after others the formula is not respected, C02_reversed_dependence).')
claim('C16','proved',['C16_functions','C16_pow_const_base','C16_pow_const_exponent','C16_pow','C16_symbolic_functions','C16_symbolic_pow_const_base','C16_symbolic_pow_const_exponent','C16_symbolic_pow'],'Forward, reverse and symbolic formulas.')
claim('C17','partial',['C17_order_irrelevant_partial','C17_reverse_survives','C17_self_recursive_loses'],'Every history in which no stale stored result is relied on. A self-recursive root loses its reverse cache after Eval (C17_self_recursive_loses).')
claim('C18','partial',['C18_unary_partial','C18_binary_partial','C18_any_history','C18_any_history_devalR'],'Every history in which no stale stored result is relied on; C18_any_history(_devalR): all three modes after every history, in terms of what the operands hold (reverse mode: after every history that reverses no dependence between Expressions; after others the formula is not respected, C02_reversed_dependence).')
claim('C21','partial',['C21_differ'],'False: DevalF(y,y)=1 and DevalR(y,y)=0 are both proved.')
claim('C19','proved',['C19_same','C19_copy','C19_setNum','C19_new','C19_queries','C19_query_keeps','C19_interchange'],'Handle/cell model of Variable objects; all histories of construction, copy, number assignment and Variable assignment. For the queries the formula is any operator tree (not a bare reference) over Variables and Parameters.')
claim('C20','partial',['C20_assign_keeps_value','C20_counterexample','C20_copy_partial'],'False as stated: Parameter copy assignment swaps a temporary and leaves the value (C20_assign_keeps_value holds for every heap). Copy construction is proved.')
claim('C22','partial',['C22_jacobianR_partial','C22_jacobianR_real_partial','C22_devalR_matrix_partial','C22_devalF_matrix_partial','C22_hessianR_partial','C22_symGradient_partial','C22_symHessian_partial','Ex.hessian_off_diagonal','Ex.devalF_matrix_stale','Ex.gradient_answers'],'JacobianR, DevalR/DevalF(exp, Matrix), SymGradient for every length and every history of calls; diagonals of HessianR and SymHessian. Off the diagonal the property is false of the code: proved that those entries are always 0, with a counterexample. Sequential builds; parallel builds are C55.')
claim('C23','proved',['C23_addressing','C23_write'],'')
claim('C24','proved',['C24_elementwise','C24_mismatch'],'Both CPU handlers, every loop order, every live buffer.')
claim('C25','proved',['C25_product','C25_mismatch'],'')
claim('C26','partial',['C26_kron_eigen','C26_kron_naive_partial','C26_kron_naive_stale_counterexample'],'Eigen handler proved; the naive handler skips the blocks of zero entries and therefore keeps stale contents of a reused buffer (counterexample); it is proved for fresh buffers or where no entry of the left operand is zero.')
claim('C27','proved',['C27_transpose','C27_dervTranspose'],'')
claim('C28','partial',['C28_conv_eigen','C28_conv_naive_partial','C28_conv_history_partial','C28_conv_naive_stale_counterexample'],'The Eigen convolution is proved; the naive one keeps a stale border in the reused pad buffer (counterexample), proved when the pad buffer is fresh or there is no padding, and for whole sequences of calls in which different paddings have different sizes.')
claim('C31','partial',['C31_pool_shape','C31_pool_zero','C31_no_stale','C31_no_stale_eigen','C31_naive_kron_counterexample'],'Shape part proved; contents part proved for all kernels except the naive Kronecker and padding kernels (counterexample).')
claim('C32','partial',['C32_basics_partial','C32_repeated','C32_gpu_counterexample'],'CPU memory: proved for every call history. In GPU memory Zeros and the off-diagonal of Eye are whatever the allocation held, with counterexample; Ones and the diagonal are right.')
claim('C43','partial',['C43_dispatch','C43_elementwise_partial','C43_elementwise_mismatch','C43_product_partial','C43_product_mismatch','C43_kron_partial','C43_transpose_partial','C43_agree_partial','C43_unary_library_partial','C43_user_function_is_sin','C43_too_many_rows_counterexample'],'All CUDA kernels proved for every thread interleaving, shared and fresh memory contents, result buffer and shape within the launch limits (65535*32 rows). Missing: larger shapes, where the launch fails unnoticed (counterexample), and user-supplied unary functions, which are replaced by sin (proved).')
claim('C33','partial',['C33_setBlock','C33_roundtrip','C33_getBlock','C33_pad','C33_pad_stale_counterexample','C33_getRow','C33_getColumn_ignores_argument','C33_getColumn_counterexample','C33_getColumn_counterexample_wide'],'getColumn(j) ignores j (counterexample); pad into a reused buffer keeps a stale border (counterexample). The rest is proved.')
claim('C34','partial',['C34_sigma','C34_trace','C34_trace_square','C34_broadcast','C34_concat_vertical','C34_concat_horizontal','C34_pow','C34_matrix_exp_partial','C34_matrix_exp_counterexample','C34_matrix_log','C34_frobenius','C34_elementwise_division_partial','C34_division_counterexample','C34_softmax','C34_div_number','C34_sub_number','C34_mod','C34_eval_partial'],'All functions at every size; MatrixExp<N> only for N <= 20: from 21 on Factorial overflows size_t (counterexample). Element-wise division for positive entries (as stated). C34_eval_partial links the formula meaning to TensorR2::Eval.')
claim('C36','partial',['C36_vec_value','C36_view_lost_counterexample','C36_product_counterexample','C36_vec_derivative','C36_vec_adjoint'],'Value and derivative layout proved; purity is false: vec reshapes the stored result of its operand in place (general counterexample for every X with more than one column, and a product that is refused). Heap model for operands that are named matrices; of reverse mode the step of the vec node is proved (C36_vec_adjoint), the rest of the pass is C30 (without vec nodes).')
claim('C37','partial',['C37_copy_unevaluated_partial','C37_copy_evaluated_counterexample','C37_copy_expression_eval','C37_copy_visited','C37_copy_eval_partial','C37_copy_new','C37_copy_unchanged','C37_copy_devalF_partial','C37_copy_devalR_partial','C37_copy_stale','C37_copy_stale_counterexample','C37_copy_devalF_after_eval_counterexample'],'Number/parameter/variable matrices: copies of unevaluated ones evaluate like the original; copies of evaluated ones evaluate to zero (general counterexample). Matrix<Expression>: a copy forwards to the original; once it was queried (or if it was assigned to a queried matrix) Eval is exactly the query on the original, and Eval/DevalF/DevalR give the current values and derivatives after any run; so does the first query of a new copy if nothing changed since the original was evaluated, or if the original was never used. The first query of a new copy of an evaluated formula returns the stored value (general theorem and counterexamples), so the property as stated is false. Not modelled: copies used as operands, lifetime of the original.')
claim('C35','proved',['C35_table','C35_at_zero'],'')
claim('C39','partial',['C39_mixed_partial','C39_sub_wrong','C39_div_wrong','C39_eq_wrong'],'Real-minus-complex, real-over-complex and == are wrong, with an exact description of when.')
claim('C41','partial',['C41_dispatch','C41_total','C41_naive_inverse_counterexample','C41_dispatch_gpu','C41_agree','C41_agree_kron_partial','C41_agree_conv_partial','C41_agree_conv_history_partial','C41_complex_transpose_disagrees','C41_trace_atomic','C41_trace_race'],'CPU chains; Eigen results are taken as the mathematical ones. Inverse/determinant have no naive handler, complex transpose differs, parallel trace accumulates without synchronisation (counterexamples).')
claim('C42','proved',['C42_factorial','C42_fits'],'')
claim('C29','partial',['C29_forward_real_partial','C29_expression_real_partial'],'DevalF of a named matrix formula or of an operator expression (sums, differences, products, Hadamard products, convolutions, scaling, transpose, elementwise functions, inverse, determinant) is the entrywise partial derivative over the reals, for all shapes and all query histories of C38. Not covered: vec nodes (C36), convolutions whose kept pad buffers disturb each other (C44), recursive definitions, reserved Kronecker stale-buffer case of the naive handler (C26).')
claim('C38','partial',['C38_eval_current_partial','C38_devalF_current_partial','C38_eval_expression_partial','C38_devalF_expression_partial','C38_new_formula_stale_counterexample','C38_devalF_after_eval_counterexample','C38_other_variable_stale_counterexample','C38_exact_eval','C38_exact_devalF','C38_used_right','C38_used_right_devalF','C38_wrong_only_from_stale','C38_wrong_only_from_stale_devalF','C38_fine_eval','C38_fine_devalF','C38_exact_preComp','C38_eval_after_preComp','C38_exact_eval_pointers','C38_exact_devalF_pointers','C38_exact_preComp_pointers','C38_devalF_answers_iff','C38_devalF_stops','C38_devalF_new_formula_stops'],'False in general (three counterexamples of stale memoised results); proved for histories in which a formula is queried only when it was queried before or nothing it uses was, and for queries on operator expressions without a name, in which case only the named formulas inside it are subject to that condition. For every history of Eval and DevalF queries on expressions and named matrices, without a condition on which were used before: exactly what the next query answers, from a record of the values and derivatives that are stored (C38_exact_eval, C38_exact_devalF; a derivative query needs that formulas that count as used have a stored derivative and that stored derivatives found have the dimensions of X); if the matrices the expression mentions directly were all used before, the answer is computed from the current scalars (C38_used_right*); a wrong answer always comes from a stored value or derivative that is stale (C38_wrong_only_from_stale*). These histories may contain PreComp calls on 1x1 formulas without gaps (C38_exact_preComp), and every history of this kind may come before the runs of the other matrix theorems (constructor any of MHist). The *_pointers theorems say the same of the model with objects, shared buffers and reused m_cloned vectors, with warm PreComp calls (see C30). A derivative query stops exactly when a named formula that it comes across counts as used and has no stored derivative (C38_devalF_answers_iff; C38_devalF_new_formula_stops: a new formula directly over one that was only evaluated).')

claim('C30','partial',['C30_reverse_value_partial','C30_reverse_eq_forward_partial','C30_reverse_real_partial','RBad.C30_nested_formula_aborts','RBad.C30_coefficient_missed_counterexample','RBad.C30_gap_counterexample','RBad.C30_view_missed_counterexample','C30_repeated_value_partial','C30_repeated_eq_forward_partial','C30_repeated_real_partial','PBad.C30_cold_repeat_counterexample','C30_any_history','C30_any_history_pointers'],'For all 1x1 formulas over sums, differences, products, Hadamard products, scaling, transpose, elementwise functions, inverse, determinant and nested 1x1 named formulas; all shapes; after any Eval/DevalF/PreComp history, also one that left stale values and answered wrong (C30_any_history, C30_any_history_pointers). The C30_repeated theorems are about the model with objects, shared buffers and the reused m_cloned vectors; they need every earlier PreComp(Y) to be warm (named formulas below Y that mention named formulas were used by an earlier query), since a cold PreComp repeated gives a wrong derivative for some map iteration orders (counterexample). False (counterexamples) for nested named formulas that are not 1x1, for scalar coefficients depending on X, for elements of X reached through a view (another Matrix<Variable> over the same Variables), and after a query of an inner part only. Convolutions: strides 1, shape-preserving padding, symmetric kernel unless the input does not depend on X (C44 has counterexamples for the rest). vec nodes not covered.')
claim('C40','partial',['C40_missing_variable_zero_partial','C40_repeated_zero_partial','RBad.C40_missing_variable_shape_counterexample'],'All elements are zero, but the shape is that of Y (1x1), not of X (counterexample; the is_base_of test in DevalR has its arguments swapped).')

claim('C14','partial',['C14_symDiff_partial','C14_rounds_partial','Ex.two_over_x','Ex.stale_after_eval','Ex.stale_temporaries','Ex.symDiff_custom'],'False in general (counterexamples: c/e with c not 1, mixed queries of several roots, redefinition after SymDiff, user operators). Proved in every session otherwise, at every later point, for every operand evaluation order; C14_rounds_partial has no condition on flags.')
claim('C15','partial',['C15_second_derivative_partial','C15_symDiff_twice_partial','C15_mixed_symmetric','C15_symmetric_answers_partial','C15_nth_derivative_partial','C15_program_partial','C15_program_entire','C15_chain_exists','C15_symOk_twice','C15_symOk_forever','Ex.second_sqrt'],'Second and n-th derivatives over the reals by DevalF, DevalR and nested SymDiff, symmetry of mixed derivatives; conditions of C14 and points inside the domain. SymDiff of SymDiff of sqrt, acos, atanh is wrong (counterexample).')
claim('C44','partial',['C44_kernel_history_partial','C44_kernel_no_padding','C44_product_rule','C44_stale_counterexample','CBad.C44_asymmetric_kernel_counterexample','CBad.C44_reverse_shape_counterexample','CBad.C44_stride_counterexample','CBad.C44_precomp_aborts_counterexample','CBad.C44_unrelated_query_counterexample','C29_forward_real_partial','C30_reverse_eq_forward_partial'],'Forward: proved for every sequence of calls in which different paddings have different sizes (always without padding), at the kernel level and inside programs (C29); false otherwise in every build (kept pad buffers). Reverse: proved for stride 1, shape-preserving padding and a symmetric kernel, or any kernel when only the kernel depends on X (C30); false otherwise (four counterexamples).')
claim('C45','partial',['C45_stored_gradient_kept_partial','C45_any_history','PBad.C45_lost_gradient_counterexample'],'For every run with warm PreComp calls (see C30) in the model with shared, reused objects, and after every history, however stale, if Y was used before (C45_any_history). The counterexample shows that queries on Y, or on a used matrix that uses Y, do empty the stored gradient.')
claim('C46','partial',['C46_eval_partial','C46_devalF_partial','C46_elements_partial','C46_real_partial','C46_single_query_counterexample'],'Model in which matrix queries run their scalar queries on the scalar heap. Proved after all histories when the Expressions involved satisfy Orderly (an unused Expression below an element mentions no used one, and every element depending on the latter depends on the former; trivially so once all have been queried) and the matrix was queried before or is new in all parts (C38). False otherwise: one DevalF on a new program answers wrong, the same query again answers right (counterexample).')
claim('C47','proved',['C47_iterations','C47_newton','C47_stationary','C47_least_squares','Ex.C47_other_size'],'Scalar oracle; Eigen LLT is a parameter assumed to solve positive definite systems. Ex.C47_other_size: a driver used with another number of unknowns before fails.')
claim('C48','partial',['C48_training_partial','C48_training_real_partial','C48_same_result','C48_every_sample','C48_once','C48_large_batch','NNExample.C48_unused_layer_counterexample'],'All batches, epochs, task orders, sound backends and histories, for errors without convolutions whose named formulas are 1x1 and that use every layer (counterexample: an unused layer stops training); a batch larger than the data stops it too. That networkLayers and error build such a formula is C54; random numbers are a parameter; tasks of a phase do not interleave.')
claim('C49','partial',['C49_accuracy_partial','C49_determined','C49_more_than_100','C49_zero','C49_last_batch_not_looked_at','C49_training_stats_partial','C49_stats_change_nothing','AccExample.C49_not_the_share_counterexample'],'accuracy is not the share of correct rows: the exact number is proved, and that a perfect network gets more than 100 percent when the batch size does not divide the number of rows and that the last batch is ignored when it does (counterexamples). Training with statistics changes no weight, and what it displays is proved, under the conditions of C48; for the network program these conditions are proved from its construction and the accuracy is that of a plain feed-forward network (C54_program).')
claim('C50','partial',['C50_same_parameters_partial','C50_first_parameters','C50_dropout_mean','C50_second_layer_counterexample'],'False when calls name different parameters: the distribution is a function-local static, so the parameters of the first call are used for ever (proved for all sequences of calls of one instantiation); holds when all calls name the same parameters. The generator and distribution are a parameter; elements are written in order.')
claim('C51','partial',['C51_iterations_partial','C51_newton_partial','GNMEx.nonLinear_one','GNMEx.nonLinear_shape'],'All matrix formulas, histories, data and iteration counts, on matrices and scalar heap together, under the conditions of C46 (Orderly Expressions; matrix queried before or new in all parts) and C38 (Matrix<Variable> objects with the same number of elements share no Variables). Eigen LLT is a parameter assumed to solve positive definite systems; parallel update runs element by element in any order. The hypotheses are shown to hold for the GNMatrix example of the repository.')
claim('C52','partial',['C52_hessian_partial','C52_stops_for_two_unknowns','Ex.oracle_answers'],'One unknown: all Expressions (operators of SymDiff in their domains), histories and sequences of assignments and hessian() calls. For two or more unknowns the property is false of the code: C52_stops_for_two_unknowns proves that the first hessian() of every new oracle stops, whatever the function and the state. Missing: other queries on y between the calls of hessian().')
claim('C53','partial',['C53_wellformed','C53_stored','C53_define_succeeds','C53_eval_partial','C53_eval_fresh','C53_devalF_partial','C53_devalR_partial','BldBad.C53_redefine_dims_counterexample','BldBad.C53_circular_counterexample'],'All programs of constructors, definitions and redefinitions (inductive predicate Built), all expressions. Values on any backend, after any history with the condition of C38 (matrix queried before or new in all parts); derivatives over the reals with the Eigen handler, without convolutions; reverse mode under the conditions of C30. Missing: definitions that mention their own target, copies of Matrix<Expression> as operands (see C37), views, queries between definitions that are then changed. Counterexamples show why redefinitions must keep dimensions and not be circular.')
claim('C54','proved',['C54_setup','C54_error','C54_training','C54_program','NNProgramExample.regular','NNProgramExample.plainAccuracy_example'],'All layer lists (the example has four layers of this form), dimensions, initial numbers, data, rates, epochs, draws, CPU handlers and schedules, over the reals. The matrices the program builds are those of the model of C53, training is the model of C48, and all hypotheses of C48 are proved from the construction. At a kink of LeakyReLU the added numbers are the code\'s convention (C35_at_zero). Simplifications in Apps/NNBuild.lean: C54_program is the whole program with the default display_stats = true: what is printed per epoch and the accuracy on the test data with the network rebuilt for another batch size. X and Y are new matrices in every call of networkLayers; the regulariser under #if 0 is off.')
claim('C55','partial',['C55_formula','C55_formula_real','C55_race_counterexample','Ex.C55_wrong_counterexample','C55_merge','C55_merge_counterexample','C55_clone_sequential','C55_clone_counterexample'],'Every interleaving of single reads and writes (sequentially consistent memory; the C++ standard gives races no meaning at all). Positive: DevalF(formula, X, false) of a formula over Variables and Parameters, and merges into caches that hold all keys. The rest is false of the code: for an Expression there is a run in which every entry is the derivative with respect to the first Variable (any Expression, any X), concrete instance (37, 37) for (37, 24); a merge can lose a new key; two matrix cache entries can share one buffer. The parallel loops inside matrix kernels are the schedules of C24-C28.')
claim('C56','proved',['C56_direct','C56_formula','C56_formula_variables','C56_atoms'],'For every state reached by any history (Run; it includes declarations, formula objects built and dropped, assignments of formulas and references, redefinitions, changed numbers and all queries). The witness is the heap of C02_stale, where another Expression is answered wrongly. SymDiff of formula objects is not modelled here.')
claim('C57','proved',['C57_phases'],'All programs of the inductive Phase from every session in which no Expression is flagged. Operators as in C15_symOk_forever (sqrt, asin, acos, asinh, acosh, atanh excluded: their derivative formulas contain c / e, which SymDiff gets wrong, see C14/C15); the point is inside the domain of all operators. Instance: C58.')
claim('C58','proved',['C58_gaussian','C58_gaussian_values'],'The whole program over the reals (PI is a parameter; for sig = 0 the C++ numbers are not finite, C58_gaussian_values excludes it).')
claim('C59','proved',['C59_scalar','C59_nonlinear','C59_nonlinear_upper','C59_nonlinear_lower','C59_nonlinear_main','C59_load','C59_newline_counterexample','C59_rotation','C59_rotation_exact','C59_rotation_converges','C59_rotation_fit'],'Over the reals, Eigen kernels (the configured handler; the matrix oracle needs the Kronecker kernel), any solver in place of Eigen LLT that solves positive definite systems. No rank or domain hypotheses remain: they are proved from the programs. Beyond the property: a data file whose last line does not end with a newline is refused by an assertion (C59_newline_counterexample). The scale kappa of C59_rotation_fit is 0.9987 for the data in the repository. Starts x0 = 1 and x0 + y0 = 0 have singular normal equations and are excluded.')
claim('C60','partial',['C60_eval','C60_devalF','C60_devalF_quadratic','C60_preComp_partial','C60_preComp_exponential','C60_at_least','C60_preComp_written','C60_reverse_counterexample','C60_sines_eval','C60_shared','C60_define_alloc','C60_define_alloc_sines','C60_queries_keep'],'The counted queries are the queries of the model (EvalC_erase, DevalFC_erase, PreCompC_erase). Partial because a polynomial bound for PreComp is false of the code: C60_reverse_counterexample, C60_preComp_exponential (at least 2^d calls); C60_preComp_partial gives the bound (2+2^(d+1))N+1. Counted are member function calls on nodes and objects, not the work on the entries of the unordered maps. Scalar expressions only.')
claim('C61','proved',['C61_eval','C61_devalF','C61_preComp','C61_preComp_built','C61_at_least','C61_devalF_quadratic','MatEvalC_erase','MatDevalFC_erase','MatPreCompC_erase'],'The counted queries are the queries of the model (the three erasure theorems). The bound for PreComp needs every operator to have its own number and formulas not to be circular, which C53 proves of every program that builds its matrices (C61_preComp_built). Not counted: the work of the kernels, of loops over cache entries, and of scalar queries on the elements (C60). Matrices are not redefined between the queries; copies of Matrix<Expression> and vec nodes are not among the operators.')
claim('C62','partial',['C62_same_answers','C62_others_untouched','C62_dead_objects','C62_other_definitions','C62_copy_reaches','C62_copy_of_local','C62_matrix_same_answers','C62_matrix_others_untouched','C62_matrix_other_definitions'],'Everything is proved for every state and every sequence of queries except the last sentence, which is false of the code: a copy of an Expression stores the address of the original (C62_copy_reaches), so a returned copy of a local Expression dangles (C62_copy_of_local). Going out of scope is modelled as arbitrary contents of the object. Matrices: the scalar layer below the elements is a parameter (same in both runs); C62_matrix_other_definitions is about programs built by the public operations.')
claim('C63','partial',['Mach.C63_eval','Mach.C63_devalF','Mach.C63_formula','Mach.C63_written_partial','Mach.C63_same_code','Mach.C63_same_code_devalF','Mach.MachEx.C63_division_counterexample','Mach.MachEx.C63_double_counterexample'],'The statements about Eval and DevalF on any operations are proved in full (C63_eval, C63_devalF, no law of arithmetic). The last sentence is proved for formulas without division and is false with one: x/z is computed as x*(1/z) and x/10 as 0.1*x, rounded twice (GenericDiv.hpp:77-83, GenericProduct.hpp:405-409), so 3/10 gives 0.30000000000000004 in double (C63_double_counterexample); C63_formula says what is computed for every formula. The compiler is assumed to keep the written operations. PreComp in rounded arithmetic is not covered.')
claim('C64','proved',['Mach.C64_rounding_error','Mach.C64_polynomial_error','Mach.RoundEx.F53_rounded','Mach.RoundEx.C64_cancellation_counterexample'],'Proved as stated, with n = roundings e + 1 (a sum adds one to the larger count of its operands, a product adds the counts). Overflow and underflow are excluded by the hypothesis on the operations (Rounded); F53_rounded shows that 53-bit rounding to nearest, ties to even, satisfies it. The condition on cancellation is needed for the relative error (C64_cancellation_counterexample); C64_polynomial_error is the bound without it. Elementary functions and derivatives are not covered.')
