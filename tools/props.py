import json
P=[]
def p(i,title,statement,quant,why,anchors):
    P.append(dict(id=i,title=title,statement=statement,quantifier=quant,why_tests_cant=why,anchors=anchors))
S="include/Scalar/"; M="include/Matrix/"
p("C01","Eval computes the written formula",
 "Evaluating an Expression with Eval returns exactly the value of its defining formula at the current values of the Variables and Parameters it mentions, where every Expression mentioned inside it stands for the value of that Expression's own definition.",
 "every expression tree over every operator, every acyclic graph of named Expressions, every assignment of values",
 "the set of expression graphs and values is infinite; tests fix a handful",
 ["src/Scalar/Variable.cpp:Variable::eval",S+"BinaryOps/*.hpp:eval",S+"UnaryOps/*.hpp:eval","src/Scalar/CommonFunctions.cpp / include/Scalar/CommonFunctions.hpp:Eval"])
p("C02","Queries always reflect the current values and definitions",
 "Between two queries the user may assign new values to Variables, redefine Expressions and run any other queries; the next Eval/DevalF/PreComp+DevalR still answers for the values and definitions in force at that moment, never for older ones.",
 "every history of variable assignments, (re)definitions and queries, on any roots",
 "staleness depends on the whole interleaving of roots and updates; a test sees a single history",
 ["src/Scalar/Variable.cpp:Variable::reset,resetImpl,eval,devalF,traverse"])
p("C03","DevalF is the mathematical partial derivative",
 "DevalF(y,x) is the partial derivative of the value of y with respect to x at the current point, for y built from any of the supported operators and elementary functions, whenever every operator is applied inside its domain of differentiability.",
 "every expression graph, every variable, every real point in the domain",
 "a derivative is a limit; equality with it at all points and all graphs cannot be sampled",
 ["src/Scalar/Variable.cpp:Variable::devalF",S+"BinaryOps/*.hpp:devalF",S+"UnaryOps/*.hpp:devalF"])
p("C04","Reverse mode equals forward mode",
 "After PreComp(y), DevalR(y,x) equals DevalF(y,x) for every Variable x.",
 "every expression graph, every x other than y itself, every point",
 "the two sweeps are different algorithms with a shared accumulator; agreement has to hold for every tree shape and every sharing pattern",
 [S+"BinaryOps/*.hpp:traverse",S+"UnaryOps/*.hpp:traverse","src/Scalar/Variable.cpp:traverse,devalR"])
p("C05","One PreComp serves all variables, in any order",
 "After a single PreComp(y), DevalR(y,.) may be called for any variables in any order and number of times and every call returns the same answer it would have returned first; DevalR changes no later query.",
 "every sequence of DevalR calls after a PreComp",
 "all orders of queries",
 [S+"CommonFunctions.hpp:PreComp,DevalR","src/Scalar/Variable.cpp:devalR"])
p("C06","Unrelated variables have derivative zero",
 "If neither y nor any Expression it is built from mentions x, then DevalF(y,x), DevalR(y,x) and the value of SymDiff(y,x) are all 0, whatever the variables hold.",
 "every expression graph and every variable not reachable in it",
 "all graphs and all values",
 ["src/Scalar/Variable.cpp:devalF,traverse","src/Scalar/Parameter.cpp"])
p("C07","Parameters are constants whose value is live",
 "A Parameter contributes its current value to Eval and derivatives; no derivative is ever taken with respect to it: its own derivative is 0 in every mode.",
 "every graph containing parameters, every value history",
 "all graphs",
 ["src/Scalar/Parameter.cpp","include/Scalar/Parameter.hpp"])
p("C08","Self-referential assignment means sequential update",
 "A loop such as y = x; y = y*z; y = sin(y)+x; builds the program that runs these assignments in order: value, forward derivative and reverse derivative of y are those of the straight-line program in which every right hand side sees the previous y.",
 "every number of self-referential assignments, every right hand side",
 "unbounded number of assignments and arbitrary right hand sides",
 [S+"Expression.hpp:operator=","src/Scalar/Expression.cpp","src/Scalar/Variable.cpp:eval,devalF,traverse"])
p("C09","Assignment replaces unless the right side mentions the target",
 "Assigning an expression to y discards the earlier definition exactly when the right hand side does not mention y; when it does mention y, at any depth of operators, the earlier definition is kept as the previous value.",
 "every right hand side tree",
 "all trees / all depths",
 [S+"Expression.hpp:operator=,setEquation","include/CommonHeader.hpp:BINARY_FIND_ME","src/Scalar/Variable.cpp:findMe"])
p("C10","Naming a sub-expression does not change results",
 "Using a named Expression in place of its formula (once or many times) leaves the value and all derivatives unchanged.",
 "every formula, every sub-expression, every number of uses",
 "all sharing patterns",
 ["src/Scalar/Variable.cpp:eval,devalF,traverse"])
p("C11","Building expressions never changes or shares operator nodes",
 "Using an expression as an operand copies its operator nodes: the copy has the same value and derivatives in all modes, its operator nodes have fresh identities (pairwise distinct and distinct from all earlier ones), and the original is untouched.",
 "every expression tree, every construction history",
 "all construction histories of the global identity counter",
 [S+"BinaryOps/*.hpp:cloneExp,operator*","include/CommonHeader.hpp:m_idx_count"])
p("C12","Every query terminates",
 "Eval, DevalF, PreComp and reset terminate on every finite set of definitions, including mutually recursive ones (z = y+1; y = z*2).",
 "every finite, possibly cyclic, graph of definitions and every visited-flag state",
 "termination over all graphs",
 ["src/Scalar/Variable.cpp:eval,devalF,traverse,reset"])
p("C13","Arithmetic sugar means what it says",
 "x-c, c-x, -x, x/c, c/x, x+c, c+x, x*c, c*x, pow(x,c), pow(c,x) evaluate and differentiate as the written arithmetic.",
 "every number c and every operand expression",
 "all constants and operands",
 [S+"BinaryOps/GenericSub.hpp",S+"BinaryOps/GenericProduct.hpp",S+"UnaryOps/GenericNeg.hpp",S+"BinaryOps/GenericDiv.hpp"])
p("C14","SymDiff evaluates to the derivative",
 "The Expression returned by SymDiff(y,x), evaluated at any point, equals DevalF(y,x) at that point.",
 "every expression graph, every variable, every point",
 "all graphs and points",
 [S+"BinaryOps/*.hpp:symEval,symDeval",S+"UnaryOps/*.hpp:symEval,symDeval","src/Scalar/Variable.cpp:symEval,symDeval,SymDiff"])
p("C15","SymDiff composes to higher derivatives",
 "Applying DevalF, DevalR or SymDiff to the result of SymDiff(y,x) gives the second derivative; for real points in the domain the mixed second derivatives are symmetric.",
 "every expression graph, every pair of variables, every point in the domain",
 "limits, all graphs",
 ["src/Scalar/Variable.cpp:SymDiff","src/Scalar/Expression.cpp:SymDiff"])
p("C16","Elementary derivative table",
 "For each elementary function (sin, cos, tan, sinh, cosh, tanh, asin, acos, atan, asinh, acosh, atanh, sqrt, exp, log, pow in its three forms) the derivative factor used by forward mode, by reverse mode at the root and below the root, and by the symbolic mode is the true derivative at every point of the open domain.",
 "every function in the table, every real point of its domain",
 "limits at every real point",
 [S+"UnaryOps/*.hpp",S+"BinaryOps/GenericPow.hpp"])
p("C17","Query order does not matter",
 "Running any of Eval, DevalF, PreComp, DevalR on y first does not change what the others return afterwards on y (for unchanged variables).",
 "every finite sequence of queries on one root",
 "all sequences",
 [S+"CommonFunctions.hpp","src/Scalar/Variable.cpp:resetImpl"])
p("C18","User-defined operators obey the chain rule",
 "For an operator declared with UNARY_SCALAR_OPERATOR(f,df) or BINARY_SCALAR_OPERATOR(f,fu,fv), Eval applies f and both derivative modes multiply by the supplied derivative functions evaluated at the operands.",
 "every f, df, fu, fv and operands",
 "all user functions",
 [S+"UnaryOps/GenericScalarUnary.hpp",S+"BinaryOps/GenericScalarBinary.hpp"])
p("C19","Copies of a Variable are the same variable",
 "A Variable copied from another denotes the same mathematical variable: assigning through either is seen through both, and derivatives with respect to either are equal; a Variable constructed independently is never identified with it.",
 "every history of construction, copy, move and assignment of Variables",
 "all aliasing histories",
 ["src/Scalar/Variable.cpp:copy/move constructors, operator=, swap"])
p("C20","Assigning one Parameter to another transfers its value",
 "After p = q (Parameters) p evaluates to the value of q.",
 "every pair of parameters and values",
 "claim over all values; falsified in the code",
 ["src/Scalar/Parameter.cpp:swap, operator="])
p("C21","Derivative of an expression with respect to itself",
 "DevalF(y,y) and, after PreComp(y), DevalR(y,y) agree.",
 "every Expression y",
 "all expressions; falsified in the code",
 ["src/Scalar/Variable.cpp:devalF,devalR"])
p("C22","Gradient and Hessian matrices hold the right entries",
 "JacobianR/SymGradient entry i is the derivative with respect to the i-th variable; HessianR/SymHessian entry (i,j) is the second derivative with respect to variables i and j and the matrix is symmetric.",
 "every expression, every variable vector of every length",
 "all dimensions; the off-diagonal part is falsified in the code",
 [M+"CommonMatFunctions.hpp:JacobianR,HessianR,SymGradient,SymHessian"])
p("C23","Element addressing is in bounds and unambiguous",
 "For an r x c matrix, the flat cell used by A(i,j) with i<r, j<c lies inside the buffer, distinct (i,j) use distinct cells, every cell is used, and A(i,j) and A[i*c+j] are the same element.",
 "all shapes and indices",
 "all sizes",
 [M+"MatrixInterface/MatrixAccessors.ipp:operator(),operator[],getRowPtr"])
p("C24","Elementwise kernels",
 "Matrix +, -, Hadamard ^, scalar + and scalar * and unary maps produce at each (i,j) the corresponding scalar operation of the operand elements, touch no other cell and never read or write outside the buffers; the result has the operands' shape.",
 "all shapes, all contents, any prior content/shape of the result buffer",
 "all sizes and all prior buffer states",
 ["src/Matrix/MatrixHandler/NaiveCPU/*.cpp","include/Matrix/MatrixHandler/NaiveCPU"])
p("C25","Matrix product kernel",
 "The product kernel writes at (i,j) the sum over k of A(i,k)*B(k,j), for every shape with matching inner dimension, in bounds, whatever the result buffer held.",
 "all shapes and contents",
 "all sizes",
 ["MatMulNaiveHandler"])
p("C26","Kronecker kernel",
 "The Kronecker kernel yields the matrix whose ((i,p),(j,q)) entry is A(i,j)*B(p,q), whatever the (reused) result buffer held before.",
 "all shapes, contents and prior buffer contents",
 "all sizes and buffer histories; falsified for reused buffers by the naive handler's skip of zero blocks",
 ["MatKronNaiveHandler","include/MemoryManager.hpp:MatrixPool"])
p("C27","Transpose kernels",
 "transpose writes A(j,i) at (i,j); the derivative-transpose kernel moves the derivative block of F(l,k) to block (k,l) unchanged.",
 "all shapes and contents",
 "all sizes",
 ["MatTransposeNaiveHandler","MatDervTransposeNaiveHandler"])
p("C28","Convolution kernel and its shape",
 "conv with strides (sx,sy) and zero padding (px,py) has shape ((R+2px-r)/sx+1) x ((C+2py-c)/sy+1) and entry (i,j) = sum of kernel(u,v)*padded input(i*sx+u, j*sy+v), reading only cells inside the padded input.",
 "all input/kernel shapes with kernel no larger than padded input, strides >0, paddings",
 "all sizes",
 ["MatConvNaiveHandler",M+"BinaryOps/GenericMatConv.hpp"])
p("C29","Matrix forward derivative layout and value",
 "DevalF(F,X) for a matrix formula F is the (rF*rX) x (cF*cX) matrix whose entry (l*rX+i, k*cX+j) is the partial derivative of F(l,k) with respect to X(i,j), for F built from +,-,*,Hadamard, scalar ops, transpose, elementwise functions, inverse, determinant, convolution and trace/sum/concat/power compositions.",
 "all formulas, all shapes, all real points in the domain",
 "limits, all sizes, all formulas",
 [M+"BinaryOps/*.hpp:devalF",M+"UnaryOps/*.hpp:devalF",M+"MatrixInterface/MatrixUtils.ipp:setDevalF"])
p("C30","Matrix reverse derivative equals forward derivative",
 "For a 1x1 matrix formula Y, after PreComp(Y) the matrix DevalR(Y,X) has X's shape and equals DevalF(Y,X).",
 "all 1x1 formulas over all matrix operators, all shapes and points",
 "all tree shapes and sizes; falsified for convolution",
 [M+"BinaryOps/*.hpp:traverse",M+"UnaryOps/*.hpp:traverse",M+"CommonMatFunctions.hpp:PreComp,DevalR"])
p("C31","Work buffers always have the requested shape and are not aliased stale",
 "Whatever buffer an operator reuses, after the request it has exactly the requested rows and columns, and the operator's result does not depend on what the buffer held before.",
 "all request sequences and buffer states",
 "all histories; falsified for padding, Kronecker, derivative seed",
 ["include/MemoryManager.hpp:MatrixPool",M+"MatrixInterface/MatrixUtils.ipp:pad,setDevalF"])
p("C32","Identity, zero and one matrices",
 "Eye(n)(i,j)=1 iff i=j else 0, Zeros and Ones are constant, for each n and shape, on every call, independent of earlier calls (registry).",
 "all n, all call histories",
 "all sizes, all registries",
 ["src/Matrix/MatrixBasics.cpp"])
p("C33","Block read/write round trip",
 "setBlockMat writes exactly the addressed block and nothing else; getBlockMat after setBlockMat returns the block; pad embeds with a zero border; getRow(i) and getColumn(j) return row i and column j.",
 "all shapes, index ranges and contents",
 "all sizes; getColumn and pad-with-reuse falsified",
 [M+"MatrixInterface/MatrixUtils.ipp:getBlockMat,setBlockMat,pad",M+"MatrixInterface/MatrixAccessors.ipp:getRow,getColumn"])
p("C34","Derived matrix functions",
 "Sigma sums rows/columns/all entries; trace is the diagonal sum; broadcast repeats; concat stacks; pow<N> is the N-th power; MatrixExp<N>/MatrixLog<N> are the truncated series; Frobenius norm is sqrt of the sum of squares; elementwise / is the quotient for positive entries; SoftMax entries are positive and sum to 1 along the axis.",
 "all shapes, contents and N",
 "all sizes and N",
 [M+"CommonMatFunctions.hpp"])
p("C35","Element-wise function table for matrices",
 "For SinM, CosM, ExpM, LogM, SqrtM, TanhM, SigmoidM, ReLUM, LeakyReLUM, AbsM the paired derivative function is the derivative at each point of differentiability.",
 "each function, each real point",
 "limits at every point",
 [M+"UnaryFunctions.hpp"])
p("C36","Vectorisation is a pure view",
 "vec(X) evaluates to the row-major stacking of X and leaves X unchanged; its derivative is laid out accordingly.",
 "all shapes",
 "all sizes; purity is falsified (operand reshaped in place)",
 [M+"UnaryOps/GenericMatVec.hpp"])
p("C37","Copies of matrices evaluate like the original",
 "A copy of a matrix evaluates to the same values as the original, whether or not the original was evaluated before copying.",
 "all matrices and evaluation histories",
 "all histories; falsified in the code",
 [M+"MatrixInterface/MatrixConstructors.ipp",M+"MatrixInterface/MatrixVirtuals.ipp:eval"])
p("C38","Matrix queries reflect current values",
 "TensorR2 Eval/DevalF of a matrix formula answer for the current element values, whatever was evaluated before.",
 "all histories of element updates and queries",
 "all histories; falsified for first evaluation of a formula over already evaluated leaves",
 [M+"MatrixInterface/MatrixVirtuals.ipp:eval,reset",M+"CommonMatFunctions.hpp:Eval,DevalF"])
p("C39","Complex helper arithmetic",
 "With USE_COMPLEX_MATH, mixed real/complex +,-,*,/ and comparisons follow complex arithmetic.",
 "all real and complex operands",
 "all values; subtraction, division and comparison falsified",
 ["src/CommonHeader.cpp","include/CommonHeader.hpp"])
p("C40","Missing-variable reverse derivative has the variable's shape",
 "DevalR(Y,X) for a matrix variable X that Y does not involve is the zero matrix of X's shape.",
 "all Y and X",
 "all shapes; falsified in the code",
 [M+"CommonMatFunctions.hpp:DevalR"])
p("C41","Backends agree and dispatch is total",
 "For every matrix operation and every backend selection, exactly one handler of the chain performs the request, and the naive and vector-library handlers return the same matrix.",
 "all operations, shapes and contents",
 "all sizes",
 ["src/Matrix/MatOperators.cpp","include/Matrix/MatrixHandler"])
p("C42","Factorial table",
 "Factorial(n) is n! for every n for which it fits the machine word, independent of the order of calls.",
 "all n<=20 and all call histories",
 "all memo-table histories",
 ["src/Matrix/CommonMatFunctions.cpp:Factorial"])
p("C43","GPU kernels compute the CPU's matrices",
 "For operands in GPU memory, sums, differences, Hadamard and Kronecker products, scalar operations, unary maps, matrix products and transposes give the same matrix as the CPU handlers, for every interleaving of the GPU threads and whatever fresh, shared and reused memory held.",
 "all shapes, contents, thread interleavings, memory contents, aliasing",
 "all interleavings and memory contents; no GPU in the test environment; falsified for user-supplied unary functions (replaced by sin) and for more than 65535*32 rows (launch fails silently)",
 [M+"MatrixHandler/*/CUDA/src/*.cu",M+"UnaryFunctions.hpp:device_functions_map"])
p("C44","Derivatives of convolutions",
 "DevalF(conv(A,B),X) holds at (l*rX+i, k*cX+j) the partial derivative of conv(A,B)(l,k) with respect to X(i,j) whatever convolutions and derivatives the process computed before, and DevalR of a 1x1 formula over conv(A,B) equals DevalF.",
 "all shapes, strides, paddings, kernels, operands, and all earlier convolution and derivative calls",
 "all histories of the process-wide handler buffers and all shapes; falsified: stale pad borders in forward mode; in reverse mode asymmetric kernels, non-shape-preserving padding and strides",
 [M+"BinaryOps/GenericMatConv.hpp",M+"MatrixHandler/MatrixConvolution/NaiveCPU/MatDervConvNaiveHandler.hpp"])
p("C45","Stored matrix gradients survive unrelated queries",
 "After PreComp(Y), DevalR(Y,X) gives the same matrix until the next query on Y or on a matrix that uses Y, whatever other queries (Eval, DevalF, PreComp, also on parts of Y) and assignments happen in between.",
 "all programs, all later query sequences, all X",
 "all histories; the nodes reuse objects and buffers across PreComp calls",
 ["src/Matrix/MetaMatrix.cpp:incFunc,clearClone",M+"CommonMatFunctions.hpp:PreComp,DevalR",M+"MatrixInterface/MatrixVirtuals.ipp:traverse,reset"])
p("C46","Matrices of scalar Expressions use the scalar values and derivatives in force",
 "Eval of a matrix whose elements (or scalar operands) are scalar Expressions returns their values under the definitions and values in force, and DevalF(F,X) their derivatives with respect to the Variables of X, however the Expressions share sub-Expressions and whatever scalar and matrix queries were made before; over the reals DevalF(F,X) is the derivative of what Eval(F) returns as a function of the Variable.",
 "all matrices of scalar Expressions, all sharing between them, all histories of scalar and matrix calls",
 "all sharing patterns and histories; a matrix query makes many scalar queries, which leave stored results to each other; falsified even for a single first query of a new program",
 [M+"MatrixInterface/MatrixUtils.ipp:setEval,setDevalF",M+"Matrix.hpp:Details::DevalR",M+"BinaryOps/GenericMatProduct.hpp:GenericMatScalarProductExp","src/Scalar/CommonFunctions.cpp"])
p("C47","The Gauss-Newton driver takes exactly the requested number of Gauss-Newton steps",
 "With a scalar oracle, GaussNewton::solve() with n iterations moves the unknown Variables to the point reached by n steps x := x - d, where d solves the normal equations (J^T J) d = J^T r, r being the values of the residual Expression with each row of the data written into the data Parameters and J its true partial derivatives there, provided the residual may be queried (no stale results, C03), its operators are applied inside their domains and J has linearly independent columns at every point on the way. A point that an iteration leaves unchanged is a stationary point of the sum of squares; for residuals affine in the unknowns the first iteration already gives a least-squares solution. No other Variable, Parameter or definition changes, and the driver can be used again with the same number of unknowns (with another number it fails or reads the old buffers).",
 "all residual Expressions, data sets, numbers of unknowns, rows and iterations, all earlier histories of the program and of the driver, all backends, all orders of the parallel update",
 "unit tests fix one residual, one data set and one start; the driver reuses buffers across rows, iterations and calls, and mixes forward values, reverse-mode derivatives and assignments to Variables and Parameters",
 ["example/GaussNewton/src/GaussNewton.cpp:GaussNewton::solve,computeABScalar,updateScalar,setDataUnit","example/GaussNewton/include/GaussNewton.hpp","example/GaussNewton/src/OracleScalar.cpp:OracleScalar::jacobian"])
p("C48","Training a neural network is mini-batch gradient descent with the true gradient",
 "NeuralNet::train(X_data, Y_data, rate, epochs) returns, and the numbers in all matrices are those after gradient descent over the batches 0, b, 2b, ... of every epoch (the last batch is moved back to end at the last row, so every sample is used, and exactly once when b divides the number of samples): X and Y hold the rows of the batch, the dropout matrices hold the random draws divided by the probability, then rate/b times the true partial derivative of the error at these numbers is added to every element of every weight and bias matrix, all at once. Nothing else changes. The result does not depend on threading, on the order of the tasks, on the kernels chosen, or on what the objects were used for before, and train can be called again.",
 "all network formulas without convolutions in which every layer is used and named formulas are 1x1, all data, batch sizes up to the number of samples, rates, numbers of epochs, random draws, task orders, backends, earlier histories",
 "unit tests train one network on one data set; batch matrices, matrix pointers and operator caches are reused across batches, epochs and calls, and tasks run on several threads",
 ["example/NeuralNet/include/NeuralNet.hpp:NeuralNet::train,resetMiniBatch,accumulateGradients,optimize,randomizeDropout,GDOptimizer","example/NeuralNet/src/Layer.cpp:Layer::WBatch,bBatch"])
p("C49","The accuracy of a classifier is the share of correct rows, and statistics do not disturb training",
 "accuracy(X, Y, batch) is 100 times the number of rows whose class (position of the largest entry) the network predicts correctly, divided by the number of rows; the network is not changed by it. train(..., display_stats = true) gives the same weights as without statistics; per epoch it displays the sum of the errors of the batches and the accuracy after the epoch.",
 "All networks, data sets, batch sizes, numbers of epochs, orders of the threads' tasks and earlier uses of the objects.",
 "Depends on whether the batch size divides the number of rows and on every network and data set; tests look at one.",
 ["example/NeuralNet/include/NeuralNet.hpp: accuracy (113-149, 298-337), train (340-405), randomizeDropout", "src/Matrix/Matrix.cpp: ScalarSpl"])
p("C50","Random matrices follow the distribution that the call names",
 "FillRandomValues<D>(M, args...) fills M with numbers of the distribution D with the parameters args; in particular every dropout layer keeps entries with its own probability, so that its matrix has mean 1.",
 "All sequences of calls in one program, all parameters, sizes and generator states.",
 "A single call cannot show it: it depends on which call came first in the program.",
 ["include/Matrix/Matrix.hpp: FillRandomValues (436-453)", "example/NeuralNet/include/NeuralNet.hpp: randomizeDropout (151-168)", "example/NeuralNet/include/Layer.hpp: CreateLayer"])
p("C51","The Gauss-Newton driver with a matrix oracle takes exactly the requested number of Gauss-Newton steps",
 "With a matrix oracle (error function F, a column of R elements, and a row X of unknown Variables), GaussNewton::solve() with n iterations moves the Variables of X to the point reached by n steps x := x - d, where d solves the normal equations (J^T J) d = J^T r, r being the R values of the error function for every row of the data (written into the data Parameters) and J their true partial derivatives, provided F may be queried (C46), its operators are applied inside their domains and J has linearly independent columns at every point on the way. The unknowns may be used in F through Matrix<Variable> views with another number of elements (as in the repository's GNMatrix example), through scalar Expressions that are elements of matrices, and through scalar Expression operands. No other Variable, Parameter or definition changes, and the driver can be used again with the same number of unknowns.",
 "all matrix formulas, data sets, numbers of unknowns, rows and iterations, all earlier histories of scalar and matrix queries and of the driver, all sound backends, all orders of the parallel update",
 "unit tests fix one error function, one data set and one start; every step queries the same matrix objects again after changing Parameters and Variables, so stored values of an earlier step must not show through",
 ["example/GaussNewton/src/GaussNewton.cpp:GaussNewton::solve,computeABMatrix,updateMatrix,setDataUnit","example/GaussNewton/src/OracleMatrix.cpp:OracleMatrix::evalMat,jacobian","example/GaussNewton/main.cpp:GNMatrix,NonLinearSolve"])
p("C52","The Hessian of a scalar oracle is the matrix of second derivatives",
 "OracleScalar::hessian() returns the square matrix of second partial derivatives of the error Expression with respect to the elements of X at the current point, on the first call and on every later call, whatever numbers were assigned between the calls. It leaves the definitions and numbers of all objects of the user alone. (As pinned this holds for one unknown only: with two or more unknowns the first call always stops the program, because the matrix of symbolic derivatives is default-constructed with one entry.)",
 "all error Expressions, unknowns, values, earlier query histories and sequences of assignments and hessian() calls",
 "unit tests evaluate the Hessian of one function at one point; the symbolic derivatives are built once, on the first call, and must stay right after every later change of the numbers",
 ["example/GaussNewton/src/OracleScalar.cpp: OracleScalar::hessian","example/GaussNewton/include/OracleScalar.hpp: symJacob, m_jacobian_sym","include/Matrix/MatrixInterface/MatrixAccessors.ipp: operator[]"])
p("C53","Programs that build matrices through the API mean what they say",
 "Any program that creates matrices with the constructors and defines Matrix<Expression> objects by expressions over existing matrices whose dimensions fit, and redefines them without cycles and without changing the dimensions of a matrix that others mention, stores exactly the formulas written, gives every operator object its own number and every Matrix<Variable> its own Variables; Eval of any of its matrices returns the value of its definition, and DevalF and DevalR the derivatives of that value, after any sequence of queries.",
 "all programs of constructor calls, definitions and redefinitions, all dimensions and expressions, all scalar values and query histories",
 "unit tests build a few fixed programs; numbers of nodes, shared identity matrices and stored dimensions depend on everything the program did before",
 ["include/Matrix/Matrix.hpp: Matrix(const IMatrix<Z>&), operator=(const IMatrix<Z>&)","include/Matrix/MatrixInterface/MatrixConstructors.ipp: Matrix<T>::Matrix","src/Matrix/MatrixBasics.cpp: Eye","include/Matrix/BinaryOps/GenericMatSum.hpp: cloneExp, m_idx_count"])
p("C54","The neural network program minimises the cross entropy of a feed-forward network",
 "The program of example/NeuralNet - add layers whose inputs match the outputs of the layer before, build the network and its error with the library's operators, train - ends; it starts from the weights and biases the user gave, Eval of the error it builds is the cross entropy of the labels and the row-wise softmax of the layers (LeakyReLU of input times transposed weights plus bias, times the dropout mask), whatever numbers the matrices hold, and the numbers at the end are those of mini-batch gradient descent on that function: per batch rate/batch times its gradient is added to all weights and biases at once, as long as no activation is evaluated at its kink. Per epoch it prints the sum of the losses at which the gradients were taken and the accuracy of the trained network without dropout on the training data, at the end that accuracy for the test data in batches of another size.",
 "all numbers, dimensions and initial values of layers, all data, batch sizes, rates, epochs and random draws, all CPU handlers and task orders",
 "a test trains one network on one data set and looks at the accuracy; that the expression built from broadcasts of ones, transposes and pooled dropout matrices is the intended function for all dimensions cannot be enumerated",
 ["example/NeuralNet/main.cpp: CustomNet::networkLayers, CustomNet::error, MNISTPrediction","example/NeuralNet/include/NeuralNet.hpp: addLayer, Dropout, networkLayers, train","example/NeuralNet/include/Layer.hpp: CreateLayer","include/Matrix/CommonMatFunctions.hpp: broadcast, Sigma, SoftMax","src/Matrix/MatrixBasics.cpp: Ones"])
p("C55","Parallel builds give the same gradients as sequential ones",
 "In a build with ENABLE_STL_PARALLEL_EXECUTION, DevalF(exp, X) returns the gradient of exp with respect to the Variables of X however the tasks it starts are interleaved, and PreComp merges the caches of operands without losing or mixing up entries. (True for DevalF of formulas over Variables and Parameters; false of the code for Expressions, which the tasks share, and for merges that insert new keys.)",
 "all formulas, histories, lists of Variables and all interleavings of the reads and writes of the tasks",
 "a test runs under one schedule of one machine; wrong gradients appear only under particular interleavings",
 ["include/CommonHeader.hpp: EXECUTION_PAR","include/Matrix/CommonMatFunctions.hpp: DevalF(exp, Matrix<Variable>)","src/Scalar/Variable.cpp: Variable::devalF, Variable::resetImpl","include/Scalar/BinaryOps/GenericSum.hpp: traverse","include/Matrix/BinaryOps/GenericMatProduct.hpp: traverse","src/Matrix/MetaMatrix.cpp: incFunc"])
p("C56","Queries on Expressions that mention all they depend on, and on formulas, Variables, Parameters and numbers, are always right",
 "Whatever calls were made before - declarations, assignments, redefinitions, queries in any order, also ones that were answered wrongly - Eval, DevalF and (after PreComp) DevalR of an Expression whose definition mentions every Expression it depends on return its value and derivatives for the definitions and numbers in force. Eval and DevalF of a formula object (auto& f = x*y) return the written arithmetic and its derivative, whenever the formula was built, if the Expressions it mentions depend only on Expressions it mentions too; they redefine nothing. A Variable has its number, derivative 1 with respect to itself and 0 with respect to anything else, a Parameter or number its number and derivative 0, and these calls change nothing. DevalR refuses formula objects.",
 "all histories of API calls, all Expressions and formulas of that form, all objects to differentiate with respect to",
 "a test checks one history; that no history whatever leaves flags behind under which such an Expression is answered from old results is a statement about all of them",
 ["include/Scalar/CommonFunctions.hpp: Eval, DevalF, DevalR, PreComp","include/Scalar/Expression.hpp: Expression(const T&), ExpressionFactory::CreateExpression","src/Scalar/Expression.cpp: Expression(const Expression&)","src/Scalar/Variable.cpp: Variable::eval, Variable::devalF, Variable::reset"])
p("C57","Derivatives of any order, symbolically and by the other modes in turn",
 "A program that starts with an Expression, changes Variables and Parameters, queries the current Expression with Eval, DevalF and PreComp/DevalR, and now and then goes over to SymDiff of the current Expression, gets right answers throughout: after SymDiff with respect to x1,...,xn, Eval returns the n-th partial derivative of the first Expression at the point at that moment, DevalF and DevalR return the (n+1)-st, and the next SymDiff succeeds. No condition on what was queried before is needed.",
 "all Expressions built from + - * /, powers, trigonometric, hyperbolic and exponential functions and other definitions, all such programs, orders, points of the domain",
 "each call leaves flags, stored results and symbolic temporaries behind that the next call reuses; a test covers one sequence",
 ["include/Scalar/CommonFunctions.hpp: SymDiff, Eval, DevalF, PreComp, DevalR","src/Scalar/Variable.cpp: Variable::SymDiff, resetImpl, symDeval","src/Scalar/Expression.cpp: Expression::SymDiff","example/Gaussian.cpp: main"])
p("C58","The Gaussian example prints the density, its first and its second derivative",
 "example/Gaussian.cpp ends and prints the normal density with the given mean and deviation at x, its derivative by forward and by reverse mode, then the derivative again as value of the symbolic derivative, and the second derivative by forward and by reverse mode of the symbolic derivative; in closed form g, -(x-mu)/sig^2 g and ((x-mu)^2/sig^4 - 1/sig^2) g.",
 "all x, mu, sig and values of PI, all orders of evaluation of operands",
 "the example is run for one x, mu and sig, and prints numbers nobody compares",
 ["example/Gaussian.cpp: Gaussian, main","include/Scalar/Expression.hpp: ExpressionFactory::CreateExpression","src/Scalar/Expression.cpp: Expression(const Expression&)"])
p("C59","The Gauss-Newton example programs print what they announce",
 "example/GaussNewton/main.cpp: ScalarSolve from x0 (not 1) prints 1 + (x0-1)/2^n after n iterations; NonLinearSolve from (x0,y0) with x0+y0 not 0, with any number of solve() calls on one driver, prints a point of the line x-y+2=0 whose distance ratio to the two intersections (2,4), (-4,-2) is that of the start to the power 2^(iterations), so it converges to the intersection on its side; GNMatrix reads two tables of two columns, all lines ended by a newline, completely and, whenever the input names two different points, takes exactly n Gauss-Newton steps for the residuals y_i-(R(a)x_i+t) and converges, from an angle within a quarter turn, to the rotation and translation with the least sum of squared distances, provided the best fit that may also scale scales by a factor between 0 and 2 (exact data: 1).",
 "all starting values, numbers of iterations and of solve() calls, all data files (any number of points, exact or noisy), all schedules, the Eigen kernels, all linear solvers that solve positive definite systems",
 "the examples run for one start and one data set and print numbers nobody compares",
 ["example/GaussNewton/main.cpp: CountRows, CountCols, LoadData, GNMatrix, NonLinearSolve, ScalarSolve","example/GaussNewton/src/GaussNewton.cpp: setData, setDataParameters, solve"])
p("C60","The work of a query is bounded by the size of the formulas",
 "After any sequence of API calls, a query on y makes a number of calls of eval/devalF/traverse/reset on objects and operator nodes that is polynomial in the number of nodes of the formulas y depends on, a shared Expression being paid for once: Eval at most 3N+1, DevalF at most (d+4)N+1 for operators nested d deep (so at most quadratic), PreComp polynomial too; queries allocate no nodes, and defining y = e allocates at most 4*size(e)^2 operator nodes. For PreComp the claim is false: it makes at least 2^d calls, because traverse() of an operator traverses its operands twice; for a fixed nesting depth it is linear.",
 "all histories of API calls, all formulas, all sharing patterns, all numbers of objects",
 "timing tests measure a few formulas; an exponential in the nesting depth does not show on shallow ones",
 ["include/Scalar/BinaryOps/GenericProduct.hpp: eval, devalF, traverse, cloneExp","include/Scalar/UnaryOps/GenericSin.hpp: traverse","src/Scalar/Variable.cpp: eval, devalF, traverse, reset, resetImpl","src/Scalar/CommonFunctions.cpp: Eval, DevalF, PreComp"])
p("C61","The work of a matrix query is bounded by the size of the formulas",
 "A matrix query makes a number of calls of eval/devalF/traverse/reset on named matrices and operator nodes that is polynomial in the number N of operators and mentions of matrices in the expression and in the formulas it uses, a formula used in many places being paid for once: TensorR2::Eval at most 2N, DevalF at most (d+3)N for operators nested d deep (quadratic in the worst case), and PreComp at most (2d+4)N+2, although traverse() of every operator traverses its operands twice.",
 "all expressions and formulas over sum, difference, product, Hadamard product, convolution, scaling, transpose, elementwise functions, inverse and determinant; all sharing patterns; Eval and DevalF in every state, PreComp after every history of queries; all kernels and schedules",
 "timing tests measure a few formulas; whether the second traversal of every operand doubles the work at each level depends on which adjoints are present, in every formula and after every history",
 ["include/Matrix/BinaryOps/GenericMatProduct.hpp: eval, devalF, traverse","include/Matrix/MatrixInterface/MatrixVirtuals.ipp: eval, devalF, traverse, reset","include/Matrix/MatrixInterface/MatrixUtils.ipp: resetImpl","include/Matrix/CommonMatFunctions.hpp: Eval, DevalF, PreComp"])
p("C62","A query reads and writes only the objects its definition reaches",
 "The answers of queries on an Expression y, and everything they leave behind, are determined by the objects and Parameters that the definition of y reaches (it, the objects its right-hand sides mention, what those mention, and so on); no other object is changed. So an object that y does not reach may be redefined, assigned, or go out of scope and its memory be used for something else, before or between the queries, without any effect on y. In particular a function may build an Expression from local Expressions and return it. The same for named matrices and the queries of the matrix API, where in addition the buffers that all convolutions share may change.",
 "all states (whatever was defined, redefined and queried before), all definitions incl. circular and self-recursive ones, all sequences of Eval, DevalF, PreComp, DevalR on y (an Expression or a named matrix) and on what it reaches, all contents of the memory not reached",
 "a test sees one content of the dead or unrelated memory, usually the old one, so a dangling address goes unnoticed",
 ["src/Scalar/Expression.cpp: Expression(const Expression&), operator=","include/Scalar/Expression.hpp: operator=","src/Scalar/Variable.cpp: eval, devalF, traverse, reset, resetImpl","src/Scalar/CommonFunctions.cpp: Eval, DevalF, PreComp","include/Matrix/CommonMatFunctions.hpp: Eval, DevalF, PreComp, DevalR","include/Matrix/Matrix.hpp: eval, devalF, traverse, reset"])
p("C63","Eval and DevalF compute with the operations of the machine, whatever the history",
 "For any type of numbers and any operations on it (rounding, overflow, infinities, NaN; no law of arithmetic assumed), Eval(y) terminates and returns the value the current definitions have when every operation is the machine's; that value is unique, so no rounding depends on what was evaluated, differentiated, assigned or redefined before, on sharing, or on evaluating again. Likewise DevalF(y,x) returns the one number that the differentiation rules of the operators give when computed with these operations. If moreover addition and multiplication are commutative, 1*u=u, and (-1)*u negates exactly (as in IEEE arithmetic), then after y = e, Eval(y) returns bit for bit what the same formula written on plain numbers gives in the order of writing.",
 "all number types and operations, all programs (histories of declarations, assignments, redefinitions, evaluations and forward differentiations), all non-circular definitions that are safe to evaluate, all formulas of the public operators",
 "a test compares a few numbers with a tolerance; a last-bit difference, or one that appears only after a certain history, stays below it",
 ["include/Scalar/BinaryOps/GenericSum.hpp: eval, devalF, operator+","include/Scalar/BinaryOps/GenericSub.hpp: eval, operator-","include/Scalar/BinaryOps/GenericProduct.hpp: eval, operator*, operator/","include/Scalar/BinaryOps/GenericDiv.hpp: eval, operator/","include/Scalar/Expression.hpp: operator=","src/Scalar/Variable.cpp: eval, reset, resetImpl, devalF","src/Scalar/CommonFunctions.cpp: Eval, DevalF"])
p("C64","Rounding errors of Eval stay within one relative error per operation",
 "If every operation of the machine returns the exact result with relative error at most u (u = 2^-53 for double, as long as nothing overflows or underflows), then after y = e, Eval(y) returns the exact value of the written formula, at the values its operands have, with relative error at most n*u/(1-n*u), where n counts the operations in e, a quotient and a difference c - x with a number c twice, plus one; for all formulas of + - * / and numbers in which no divisor is zero and no sum or difference cancels (the operands of a sum have the same sign, those of a difference opposite signs). For every formula of + - * and numbers, whatever cancels, the error is at most (1+u)^n - 1 times the value that the formula has when all numbers and signs are made positive.",
 "all arithmetics that satisfy the standard model of rounding, all programs (histories of declarations, assignments, redefinitions, evaluations and forward differentiations), all arithmetic formulas of any size and depth without cancellation, all polynomial formulas",
 "a test compares a few results with a tolerance; the error grows with the size of the formula and depends on every operand",
 ["include/Scalar/BinaryOps/GenericSum.hpp: eval, operator+","include/Scalar/BinaryOps/GenericSub.hpp: eval, operator-","include/Scalar/BinaryOps/GenericProduct.hpp: eval, operator*, operator/","include/Scalar/BinaryOps/GenericDiv.hpp: eval, operator/","include/Scalar/Expression.hpp: operator=","src/Scalar/Variable.cpp: eval","src/Scalar/CommonFunctions.cpp: Eval"])
with open('/verif/properties.jsonl','w') as f:
    for x in P: f.write(json.dumps(x)+"\n")
print(len(P))
