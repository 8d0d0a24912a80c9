# Formal model of CoolDiff: design

Everything is in `lean/Verif/` (Lean 4.33, Mathlib modules imported one at a time).

## Trusted base

* Lean's kernel, and the axioms `propext`, `Classical.choice`, `Quot.sound` (checked by `vcheck`; no axiom of our own,
  no `native_decide`, no `bv_decide`).
* The hand translation from C++ to Lean (each model definition cites file and lines).
* Numbers: `Type` (double by default) is modelled by an arbitrary field `K` with decidable equality (ℝ where
  derivatives are taken).  Rounding, overflow, NaN and infinities are **not** modelled.  `<cmath>` functions are parameters
  (`Prim K`) in the field model, and Mathlib's functions over ℝ in the analytic theorems.
* `size_t` counters (`m_idx_count`) are natural numbers: wrap-around is not modelled, except where a size_t computation is
  itself the subject (Factorial, conv dimensions).
* Not modelled: memory allocation/destruction (the library keeps every node in a static vector, so nodes live for ever),
  threads except in C24-C28 (task orders of kernels), C43 (CUDA) and C55 (interleavings of single reads and writes under
  sequentially consistent memory; C++ gives data races no meaning), template dispatch (resolved by hand),
  Eigen's own code and the CUDA runtime (Eigen's results are taken to be the mathematical ones, so the backend comparison is
  about the naive kernels and the dispatch chain only), printing/logging.

## Structure of the model

* `Scalar/Syntax.lean`, `Scalar/Model.lean`: expression trees, the heap of Variable/Expression/Parameter objects
  (definitions + evaluation memory), and the functions `eval`, `devalF`, `traverse`, `reset`, `resetImpl`, `Eval`, `DevalF`,
  `PreComp`, `DevalR`, assignments and `cloneExp` transcribed with an explicit depth bound (`fuel`); a run out of fuel is
  the distinct outcome `none`, shown unreachable by the termination theorem.
* `Scalar/Spec.lean`: independent specification: `Solves` (ρ satisfies every definition, assignments run in order) and
  `Tangent` (derivative seeds pushed through true differentiation rules).
* `Scalar/*`: proofs; property theorems are collected in `Props/*.lean`.
* `Matrix/*`: flat row-major matrices with bounds-checked access, kernels as loops, pooled buffers, matrix expression
  trees with forward and reverse derivatives.

## Per-property plan

| id | what is modelled | how it is proved |
|----|------------------|------------------|
| C01 | `Eval` on the heap model | invariant "visited ⇒ value is the solution", induction on nesting |
| C02 | histories of API calls | invariant on visited flags along histories; counterexample for histories where a never queried Expression sits above an already queried one (real bug), so positive part is `_partial`; besides, exact description of every query after every history (`Scalar/Exact.lean`, `Props/Exact.lean`): which stored results it relies on, what it computes from them, which calls keep results current (`Cur`). The theorems of C03-C08, C10, C13, C17, C18, C21 hold after every history (`Run`) in which the query relies on no stale result (`Fine` per query mode, `Ready` for all; `Fine` asks only that the stored results the query actually relies on be current, see C02_exact); `formula_any_history` has no such condition; `Scalar/ExactRev.lean`, `Props/ExactRev.lean`: exact description of the derivatives reverse mode stores, under `CleanKept` (no cache relied on has an entry for an operator traversed above it), which holds after every history that never reverses a dependence (`Ordered`); `C02_reversed_dependence` shows it is needed |
| C03 | `DevalF`, K = ℝ | forward invariant + `HasDerivAt` of the solution family, induction on rank |
| C04 | `PreComp`/`DevalR` | linear-functional invariant of the reverse pass, equality with tangent |
| C05 | `DevalR` | reads only; follows from C04 model |
| C06 | all modes | tangent is 0 off the reach set |
| C07 | `Parameter` | parameters evaluate to the heap value, tangent 0 |
| C08 | repeated self assignment | solution = sequential fold over the assigned right-hand sides |
| C09 | `assignExp`, `findMe` | structural induction |
| C10 | named sub-expressions | substitution lemma for the specification + C01/C03/C04 |
| C11 | `cloneN` | structural induction, id ranges |
| C12 | all queries on arbitrary (cyclic) heaps | measure: number of unvisited (visited) objects |
| C13 | the operator functions with a number operand | per-operator theorem |
| C14 | `symEval`/`symDeval`, temporaries, resets through temporaries (`Scalar/Sym*.lean`) | invariant of sessions: every temporary holds an Expression whose definition is the value/derivative formula it stands for, for every valuation; then C01 for the result. Counterexamples: c/x, mixed queries, redefinition, user operators (`Props/SymExamples.lean`) |
| C15 | chains of SymDiff, K = ℝ | C14 along the chain + transport of operator domains (`Scalar/SymClass`, `SymDomain`) + `HasDerivAt`; symmetry from `ContDiffAt` of the value and Schwarz' theorem (`Scalar/Smooth`) |
| C16 | derivative table | `HasDerivAt` per function |
| C17 | query order | from C01..C05 post-states |
| C18 | custom operators | instances of C01/C03/C04 plus chain rule |
| C19 | Variable handles | handle/cell model |
| C20 | Parameter assignment | counterexample (real bug) |
| C21 | DevalF(y,y), DevalR(y,y) | counterexample (real bug), both values characterised |
| C22 | CommonMatFunctions.hpp:117-289: DevalF/DevalR(exp, Matrix), JacobianR, HessianR, SymGradient/SymMatDiff, SymHessian (`Scalar/Gradients.lean`) | loop invariants over sessions (`GradLoop`, `GradMain`): the symbolic temporaries created by one iteration leave `y` queryable (`Calm`); C14/C15 for each entry. Off-diagonal counterexample (real bug: `i < j` inside `j <= i`), and stale `DevalF(exp, M)` through copies |
| C23 | row-major addressing | arithmetic |
| C24-C28 | kernels | generic fill-loop lemma |
| C29 | matrix forward mode | Kronecker-layout invariant, `HasDerivAt` over ℝ |
| C30 | `traverse` of all matrix operators but vec, `Matrix::traverse`, `PreComp`, `DevalR` (Matrix/Rev.lean); the same with objects, shared buffers, `m_cloned` and its counter (Matrix/RevPtr.lean) | adjoint pairing identity per operator, cache growth invariant by induction over trees and ranks; pointer model simulates the matrix model for warm histories (`RevHeap`, `RevPush`, `RevSim`, `RevSimMain`, `RevHist`: ownership of buffers by nodes, separate merge slots); counterexamples: cold repeated PreComp, nested non-1x1 formula, coefficient dependence, gap after inner query |
| C31 | MatrixPool | shape theorem, stale-content counterexample |
| C32 | Eye/Zeros/Ones registry with CPU and GPU allocation | history invariant; GPU counterexample (memory not zeroed) |
| C33 | blocks | loop lemma; getRow/getColumn counterexamples |
| C34 | derived functions as builder programs (Matrix/Functions.lean) | value of the built formula = mathematical function, via C38 evaluation |
| C35 | unary function table | `HasDerivAt` |
| C36, C37 | vec/reshape/copy on a heap of shared buffers (Props/Views.lean); copies of `Matrix<Expression>` as an object that forwards reset/eval/devalF/traverse to the original (Props/Copies.lean) | counterexamples + partial theorems after any run (C38/C30 machinery) |
| C38 | matrix queries on histories (MHist), on named matrices and on operator expressions; record of used matrices and their stored values and derivatives (`Memo`, Matrix/ExprMemo.lean; `MRun`, Matrix/ExactPre.lean) for the exact answers of Eval and DevalF, with PreComp calls in between; every such run may precede the runs `MHist` (Matrix/Runs.lean) of the other matrix theorems; `PRun`/`PHist` (Matrix/RevHist.lean) are the same with pointers | when DevalF stops: what a successful run shows, by induction on the fuel (Matrix/DevalFail.lean); reset/evaluation invariants; for the exact answers, invariants in which `V`, `D` satisfy the equations of the matrices that are computed and are what is stored for the others (Matrix/ExprExact.lean, ExprFwdExact.lean) |
| C40 | DevalR without entry | zero theorem + shape counterexample |
| C39 | complex helpers | field-level model; counterexamples |
| C41 | handler chain | list-of-handlers model |
| C42 | Factorial memo | history invariant |
| C43 | CUDA kernels and their launch (`Matrix/Cuda.lean`): grid of threads as single writes in any order, shared tiles phase by phase, fresh memory arbitrary | the grid covers every element once; tile invariant for the product; counterexamples: user functions become sin, too many rows |
| C45 | stored gradient of `PreComp(Y)` under later queries | frame theorem over pointer histories (`PMore`); counterexamples when a query reaches Y |
| C46 | matrix queries on the scalar heap (`Matrix/Joint.lean`): every element evaluation, `PreComp` and `DevalR` runs on the heap of the scalar model | simulation (`Matrix/JointProof.lean`) of the matrix model with a truthful scalar oracle, invariant `HeapInv` (scalar history + `Orderly`), then C38; over the reals with `solves_hasDerivAt` and `V_hasDerivAt` |
| C47 | `Apps/GaussNewton.lean`: `OracleScalar::jacobian` and `GaussNewton::solve`, `computeABScalar`, `updateScalar`, `setDataUnit` with a scalar oracle, on the scalar heap and with the kernels of any sound backend; the LLT solver is a parameter | separate specification `Apps/GNSpec.lean` (normal equations, steps); loop invariants `GNInv`, `GNBuf.Holds` over rows and iterations; over the reals with `deriv`; matrix oracle: C51 |
| C48 | `Apps/NeuralNet.lean`: `NeuralNet::train`, `resetMiniBatch`, `accumulateGradients`, `optimize`, `GDOptimizer`, `randomizeDropout`, `Layer::WBatch/bBatch` on the objects of the pointer-level matrix model; weights are `Matrix<Type>` objects, so `Matrix/Kinds.lean` shows that queries do not depend on which number matrices are called variables | separate specification `Apps/NNSpec.lean` (`batchStarts`, `Loaded`, `Stepped`, `Descent`); invariant `NNInv` over batches and epochs, task lists in any order; over the reals with `HasDerivAt`; construction of the network formula: C54 |
| C49 | `Apps/Accuracy.lean`: `NeuralNet::accuracy`, `train` with `display_stats`, `std::max_element`, `randomizeDropout<false>`, on the model of C48; the final layer is an operator expression or a named matrix | separate specification `Apps/AccSpec.lean` (`FirstMax`, `Right`, `AccuracyIs`, `Epochs`); invariant over the batches; `Epochs` related to `Descent` of C48; executable counterexamples |
| C50 | `Props/RandomFill.lean`: `FillRandomValues` with its static distribution, over an arbitrary sampler | induction over the sequence of calls; mean of a dropout entry; counterexample |
| C51 | `Apps/GNMatrix.lean`: `OracleMatrix::evalMat`, `jacobian` and `GaussNewton::solve`, `computeABMatrix`, `updateMatrix` on matrices and scalar heap together (`Matrix/Joint.lean`) | same specification `Apps/GNSpec.lean` as C47 with `size*R` residuals; invariant `GNMInv` (matrix history, scalar history, `Orderly`) over rows and iterations; `JCtx.point` gives the values at any point; over the reals with `mval_hasDerivAt`. Hypotheses met by the repository's `GNMatrix` (`GNMEx`) |
| C52 | `Apps/OracleHess.lean`: the constructor of `OracleScalar`, `symJacob` and `hessian()` on the scalar heap with symbolic differentiation; a failed `ASSERT` is `none` | one unknown: invariant `OInv` over all sequences of assignments and `hessian()` calls (`OCalls`), using the proof of `SymGradient` for the first call and `Rounds` for later ones; two or more unknowns: the assertion of `operator[]` fails in iteration 1 of `symJacob` |
| C53 | `Matrix/Build.lean`: constructors, `Eye` registry, operators of C++ expressions (`cloneExp`, `m_idx_count`), definition and redefinition of `Matrix<Expression>` as state changes of the program under construction | `Matrix/BuildProof.lean`: invariant `BInv` over all programs (`Built`), a new rank after every acyclic definition; then the hypotheses `WF`, `UniqueNodes`, `VarsApart`, `EyesOk` of C29, C30, C38 hold and their theorems are restated with the definitions the user wrote (`Values`) |
| C54 | `Apps/NNBuild.lean`: `addLayer`, `CreateLayer`, `Ones` registry, `broadcast`, `Sigma`, `SoftMax`, `Dropout` with its pool, `networkLayers`, `error` and `main` as a program on the builder of C53, followed by `train` of C48 | separate specification `Apps/NNLoss.lean` (`forward`, `softmax`, `crossEntropy`, `Trained`, plain functions over the reals); `Apps/NNBuildProof.lean`: invariant of the construction (own elements, ones, pool); `Apps/NNMain.lean`: the conditions `NNOk` and `NNInv` of C48, the value of the error and differentiability of its element-wise functions follow. `Apps/NNWhole.lean`: the program with statistics and the accuracy on the test data by a rebuilt network; specification `Apps/NNWholeSpec.lean` (`plainAccuracy`, `EpochsW`); `Apps/NNWholeProof.lean`: the state between queries is also one of the program with the new matrices |
| C55 | `Scalar/Threads.lean`: the tasks of `DevalF(exp, X)` as sequences of single reads and writes (free monad), pools of tasks with any interleaving; `Scalar/MergeThreads.lean`: the parallel cache merge on one bucket of a hash map; `Matrix/CloneThreads.lean`: `m_cloned[incFunc()]` | a task alone is the sequential `DevalF` (adequacy); every run of every pool ends; invariant `PoolOk`: tasks over Variables own their copy and write only what is already there. Counterexamples: explicit interleavings (all resets first; two inserts; two increments) for every Expression, cache and product |
| C56 | `Scalar/Formula.lean`: `Expression(const T&)`, the copy constructor, `CreateExpression`, `Eval`/`DevalF`/`DevalR` on all argument kinds (temporary Expression for formula objects) | a query relies on a stored result only of Expressions that are reached but not mentioned by the queried one (`Fine`); for `Direct` Expressions there are none. The temporary is a new Expression: definitions below it are unchanged (`SameBelow`), its meaning is that of the written formula |
| C57 | `Props/Phases.lean`: inductive `Phase` on the session model of C14 (change numbers, query the current Expression, `SymDiff` it) | invariant `PhInv`: chain of `SymDiff` calls, flags only below the current Expression and uniform (`Tidy`), `SymDiff` clears all of them (`Full.symDiff_clean`); then `SymChain.nth` and one more derivative |
| C58 | `Apps/Gaussian.lean`: `Gaussian` and `main` of example/Gaussian.cpp with the factory and the copy constructor of C56 | instance of C57; iterated partial derivative = `iteratedDeriv` of the density (separate specification `normalDensity`), closed forms by calculus |
| C59 | `Apps/GNPrograms.lean`: data files as lists of lines of numbers, `CountRows`, `CountCols`, `LoadData`, `setData`, and the three programs of example/GaussNewton/main.cpp on the drivers of C47/C51 | `Apps/GNClosed.lean`, `Apps/GNFit.lean` (mathematics only): normal equations of the three residual systems solved in closed form, regularity from two different points, least-squares optimality by completing the square, contraction of e - k sin e; instances of `C47_newton`, `C51_newton_partial` whose hypotheses are proved; invariant over repeated solve() calls |
| C60 | `Scalar/Cost.lean`: the query functions of `Scalar/Model.lean` with a counter of member function calls on objects and operator nodes | erasure theorems (forgetting the counter gives the model); upper bounds by a potential (total weight of the unmarked objects), induction on formulas and fuel; lower bound 2^depth for `traverse` by induction; allocation by induction on the written formula. A polynomial bound for PreComp is false: `C60_reverse_counterexample` |
| C61 | `Matrix/Cost.lean`: the query functions of `Matrix/Expr.lean` and `Matrix/Rev.lean` with a counter of member function calls on named matrices and operator nodes | erasure theorems; potential argument as for C60 (`Matrix/CostBound.lean`); for reverse mode the invariant that caches mention only operators of the matrix's own formula and of those below (`CachesOk`), so that the first of the two traversals of an operand is a plain walk (`Matrix/CostRev.lean`) |
| C62 | the query functions of `Scalar/Model.lean`; an object that went out of scope is one with arbitrary contents | two runs of the same query from states that agree on a set closed under mentioning keep pace (`Scalar/Locality.lean`: both stop or both answer the same, agree on the set, keep the rest), by induction on formula and depth; counterexample for copies of local Expressions; the same lockstep for the matrix queries (`Matrix/Locality.lean`: named matrices and operator-node buffers) and programs of `Matrix/Build.lean` |
| C63 | `eval`, `devalF`, `reset`, `Eval`, `DevalF`, the operator functions and assignments again over an arbitrary type with arbitrary operations (`Scalar/Machine.lean`, `Scalar/MachineFwd.lean`, `Props/Machine.lean`; C63_same_code, C63_same_code_devalF: with the operations of a field it is the program of the other properties) | the invariants of C01 do not need arithmetic: evaluation computes the fixpoint of the definitions, whatever the operations; induction on formulas for the operator functions, from the laws they need; fixed-point arithmetic as an instance that is not a field, 53-bit rounding for the counterexample |
| C64 | the model of C63 over an ordered field, with the standard model of rounded arithmetic as hypothesis (`Props/Rounding.lean`) | what `Eval` returns is the stored formula in machine arithmetic (C63); induction on the written formula with the relation "equal up to `n` relative errors" (polynomials: error at most `(1+u)^n - 1` times the magnitude), through the operator functions as they build the nodes (`x/z` as `x*(1/z)`, `c-x` as `c+(-1)*x`, `e*1` on assignment); 53-bit rounding to nearest even as instance |
| C44 | `Conv` handlers with the buffers they keep for the whole process (`Slots` 20-52, shared by all nodes, `Matrix/ConvSlots`, `DervConv`), `MBin.fwd`/`MBin.rev` conv cases | invariant: every kept pad buffer has a zero border for every request of the program (needs compatible paddings); block-wise loop invariant; adjoint of convolution; counterexamples: stale borders, asymmetric kernel, shape, stride, abort |

## Simplifications of the symbolic model (`Scalar/Symbolic.lean`)

* The order in which a C++ compiler evaluates the operands of overloaded operators is a parameter `rf` (a different order per
  operator node, per formula position); all theorems hold for every `rf`.
* `Parameter::symEval` returns the Variable that holds the value of the Parameter; it is modelled as a reference to the
  Parameter (same value, derivative zero).
* The iteration order of `unordered_map` (order of resets of derivative temporaries) is the insertion order.
* New objects and operator nodes take fresh numbers in an order that differs from the code; only freshness is used.
* Sessions (`SStep`): an object that took part in a SymDiff is not redefined afterwards (`Ex.stale_temporaries` shows why);
  definitions stay non-circular; every query is on a root for which the flags are `Safe` (`Ex.stale_after_eval` shows why).
  `C14_rounds_partial`, `C15_program_partial` and `C15_program_entire` have no flag condition.
  `SafeS`/`Touch`: every stale flagged object below the root is reached by the reset, which goes through the references and
  temporaries of flagged objects; `Calm`/`Quiet` (`Scalar/SymFrame`, `GradProof`): a set of objects closed under the reset
  inside which one root is queried; used for C22, where one call makes many `SymDiff`s and queries.
* C22: `EXECUTION_PAR` in `std::fill`/`std::transform` runs sequentially (default build); parallel builds are C55. There the
  `std::fill` of the copies is done before the tasks start (each assignment changes its own copy), a read or write of a field
  is one step, and forward mode's only access to `m_cache` is the clearing in `reset`.

## Simplifications of the matrix model

* `size_t` is ℕ (except `Factorial`, mod 2^64); parallel loops run in an arbitrary order chosen by a schedule (`Sched`); Eigen
  results are the mathematical ones; the CUDA kernels are in `Matrix/Cuda.lean` (all thread interleavings, junk memory, launch
  limits) but not part of `backend`, so matrix formulas (C29, C30, C38) are about CPU matrices.
* Buffers are values, except in `Props/Views.lean` (heap of buffers) and `Matrix/Backend.lean` (pool).
* Matrix formulas: acyclic definitions with one right-hand side each; scalar elements and operands come from an oracle `Scal` (for `Eval` and `DevalF` replaced by the scalar heap itself in `Matrix/Joint.lean`, C46); the constant
  matrices Eye/Ones come from a registry; queries are on named matrices; C38 preconditions on histories. In
  `Matrix/Rev.lean` cache entries are matrices; in `Matrix/RevPtr.lean` they are objects with shared buffers that later `PreComp`
  calls reuse through `m_cloned`, and the C30/C40/C45 theorems of `Props/MatRepeat.lean` are about that model. Entries of scalar
  variables (`m_cache_v`) are not modelled.
* Convolutions: the ghost fields `pads`/`dpads` of a program list its padding requests; the code's acceptance test
  `(int)rows > 0 || (int)cols > 0` on wrapped numbers is replaced by `kernel fits into the padded input` (stronger). Negative
  paddings computed by the reverse rule are failures (the handlers assert `(int)pad >= 0`).
