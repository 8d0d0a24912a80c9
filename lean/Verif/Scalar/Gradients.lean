import Verif.Scalar.Symbolic
import Verif.Matrix.Mat

/-!
# Executable model of the gradient and Hessian functions

include/Matrix/CommonMatFunctions.hpp:117-289.  A vector or matrix of Variables is the list of its
elements in buffer order (`getMatrixPtr()` is row-major).  The overloads that take a
`Matrix<Variable>` and copy it into a `Vector<Variable>` (lines 191-194, 222-225, 240-243, 270-273) are
not separate: a copied Variable has the same number `m_nidx` and shares its storage
(Variable.cpp:71-80), and the functions only use the number.

`EXECUTION_PAR` is modelled by sequential execution (the default build,
`ENABLE_STL_PARALLEL_EXECUTION` off).
-/

namespace CoolDiff

variable {K : Type} [Field K] [DecidableEq K]

/-- `std::transform(EXECUTION_SEQ first, last, result.getMatrixPtr(), f)`: call `f` on the elements in
order and write the results through the raw pointer, starting at cell `l`. -/
def transformTo {α σ : Type} (f : α → σ → Option (K × σ)) :
    List α → ℕ → Mat K → σ → Option (Mat K × σ)
  | [], _, m, s => some (m, s)
  | v :: vs, l, m, s => (f v s).bind fun r => (m.rawPut? l r.1).bind fun m =>
      transformTo f vs (l + 1) m r.2

/-- `n` default-constructed Expressions (Expression.cpp:27-33), as in `Vector<Expression>(n)` and
`Matrix<Expression>(r, c)`. -/
def newExprs : ℕ → SSt K → List ℕ × SSt K
  | 0, s => ([], s)
  | n + 1, s =>
      ((newExpr s.st).1 :: (newExprs n { s with st := (newExpr s.st).2 }).1,
        (newExprs n { s with st := (newExpr s.st).2 }).2)

/-- `f = d;` for Expressions (Expression.cpp:43-52). -/
def SSt.assignRef (s : SSt K) (f d : ℕ) : SSt K := { s with st := CoolDiff.assignRef f d s.st }

/-- `std::fill(first, last, exp)` on Expressions: every element is assigned `exp`. -/
def fillRef (y : ℕ) : List ℕ → SSt K → SSt K
  | [], s => s
  | c :: cs, s => fillRef y cs (s.assignRef c y)

variable (P : Prim K) (rf : ℕ → Bool → List Bool → Bool)

/-- `DevalF(exp, m, serial)` for an Expression and an `r × c` matrix of Variables
(CommonMatFunctions.hpp:119-140).  `recursive` is `exp.isRecursive()`. -/
def devalFMat (recursive serial : Bool) (y r c : ℕ) (vs : List ℕ) (s : SSt K) : Option (Mat K × SSt K) :=
  (Mat.new r c).bind fun m =>
    if recursive = true ∧ serial = true then transformTo (fun x s => DevalFS P y x s) vs 0 m s
    else transformTo (fun p s => DevalFS P p.1 p.2 s) ((newExprs (r * c) s).1.zip vs) 0 m
      (fillRef y (newExprs (r * c) s).1 (newExprs (r * c) s).2)

/-- `DevalR(exp, m)` for an `r × c` matrix of Variables (CommonMatFunctions.hpp:161-173). -/
def devalRMat (y r c : ℕ) (vs : List ℕ) (s : SSt K) : Option (Mat K × SSt K) :=
  (Mat.new r c).bind fun m => (PreCompS P y s).bind fun s =>
    transformTo (fun x s => some (DevalR y x s.st, s)) vs 0 m s

/-- `JacobianR(exp, vec)` (CommonMatFunctions.hpp:176-188). -/
def jacobianR (y : ℕ) (vs : List ℕ) (s : SSt K) : Option (Mat K × SSt K) :=
  (Mat.new vs.length 1).bind fun m => (PreCompS P y s).bind fun s =>
    transformTo (fun x s => some (DevalR y x s.st, s)) vs 0 m s

/-- The inner loop of `HessianR`: `for (size_t j{}; j <= i; ++j)` with the two branches `i < j` and
`i == j` (CommonMatFunctions.hpp:209-216). -/
def hessRow (f i : ℕ) (vs : List ℕ) (s : SSt K) (m : Mat K) : Option (Mat K) :=
  forEach (List.range (i + 1)) (fun j m =>
    if i < j then
      vs[j]?.bind fun x => (m.put? i j (DevalR f x s.st)).bind fun m =>
        (m.get? i j).bind fun v => m.put? j i v
    else if i = j then vs[j]?.bind fun x => m.put? i j (DevalR f x s.st)
    else some m) m

/-- One iteration of the outer loop of `HessianR` (CommonMatFunctions.hpp:205-217). -/
def hessStep (y : ℕ) (vs fs : List ℕ) (ms : Mat K × SSt K) (i : ℕ) : Option (Mat K × SSt K) :=
  vs[i]?.bind fun x => fs[i]?.bind fun f =>
    (symDiff P rf y x ms.2).bind fun d =>
      (PreCompS P f (d.2.assignRef f d.1)).bind fun s =>
        (hessRow f i vs s ms.1).map fun m => (m, s)

/-- `HessianR(exp, vec)` (CommonMatFunctions.hpp:198-219). -/
def hessianR (y : ℕ) (vs : List ℕ) (s : SSt K) : Option (Mat K × SSt K) :=
  (Mat.new vs.length vs.length).bind fun m =>
    (List.range vs.length).foldlM (hessStep P rf y vs (newExprs vs.length s).1)
      (m, (newExprs vs.length s).2)

/-- The loop `result[i] = SymDiff(exp, vec[i])` over pairs (entry, variable). -/
def symInto (y : ℕ) : List (ℕ × ℕ) → SSt K → Option (SSt K)
  | [], s => some s
  | p :: ps, s => (symDiff P rf y p.2 s).bind fun d => symInto y ps (d.2.assignRef p.1 d.1)

/-- `SymGradient(exp, vec)` (CommonMatFunctions.hpp:229-236) and `SymMatDiff(exp, m)` (lines 277-286):
the entries of the result, in buffer order. -/
def symGradient (y : ℕ) (vs : List ℕ) (s : SSt K) : Option (List ℕ × SSt K) :=
  if vs = [] then none
  else (symInto P rf y ((newExprs vs.length s).1.zip vs) (newExprs vs.length s).2).map fun s' =>
    ((newExprs vs.length s).1, s')

/-- Body of the inner loop of `SymHessian` (CommonMatFunctions.hpp:254-261); `es` are the entries of the
result, `n` its dimension. -/
def symHessBody (y n i : ℕ) (vs es : List ℕ) (s : SSt K) (j : ℕ) : Option (SSt K) :=
  if i < j then
    vs[i]?.bind fun xi => vs[j]?.bind fun xj => es[i * n + j]?.bind fun r => es[j * n + i]?.bind fun r' =>
      (symDiff P rf y xi s).bind fun d => (symDiff P rf d.1 xj d.2).map fun d' =>
        ((d'.2.assignRef r d'.1).assignRef r' r)
  else if i = j then
    vs[i]?.bind fun xi => vs[j]?.bind fun xj => es[i * n + j]?.bind fun r =>
      (symDiff P rf y xi s).bind fun d => (symDiff P rf d.1 xj d.2).map fun d' => d'.2.assignRef r d'.1
  else some s

/-- `SymHessian(exp, vec)` (CommonMatFunctions.hpp:247-266): the entries of the result, in buffer
order. -/
def symHessian (y : ℕ) (vs : List ℕ) (s : SSt K) : Option (List ℕ × SSt K) :=
  if vs = [] then none
  else
    ((List.range vs.length).foldlM (fun t i => (List.range (i + 1)).foldlM
      (symHessBody P rf y vs.length i vs (newExprs (vs.length * vs.length) s).1) t)
      (newExprs (vs.length * vs.length) s).2).map fun t =>
        ((newExprs (vs.length * vs.length) s).1, t)

end CoolDiff
