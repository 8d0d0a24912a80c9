import Verif.Matrix.Expr
import Verif.Scalar.Model

/-!
# Matrix queries on the scalar heap

`Verif/Matrix/Expr.lean` takes the answers of the scalar layer about the elements of a matrix from an oracle
(`Scal`).  Here the elements are objects of the scalar heap of `Verif/Scalar/Model.lean`, and every scalar
query a matrix query makes – `TensorR1::Eval` of each element in turn, `TensorR1::PreComp` of each element
followed by `TensorR1::DevalR` – runs on that heap, with its visited flags and caches, in program order.
`Verif/Matrix/JointProof.lean` relates the two.

Simplifications, besides those of the two models: a scalar operand of `s + X`, `s * X` is an `Expression`
(other operand types are wrapped in a temporary `Expression` by the library, Matrix.hpp:424-429).
`DevalR` inserts a zero into the cache of the element when the number is not there (see C05); here it only
reads.
-/

set_option linter.unusedSectionVars false

namespace CoolDiff

variable {K : Type} [Field K] [DecidableEq K]

/-- What an element of a matrix is: a Variable or Expression of the heap, a Parameter, or a number. -/
inductive Ent (K : Type)
  | obj (o : ℕ) | par (p : ℕ) | num (v : K)

/-- Kernels, execution order, matrices, elementary functions, and what the scalar handles are. -/
structure JCtx (K : Type) where
  B : Backend K
  π : Sched
  E : MEnv K
  P : Prim K
  h : ℕ → Ent K

/-- The context of the matrix model for given answers of the scalar layer. -/
def JCtx.at (j : JCtx K) (sc : Scal K) : MCtx K := ⟨j.B, j.π, j.E, sc⟩

/-- State: matrices and scalar heap. -/
abbrev JSt (K : Type) := MSt K × St K

/-- `TensorR1::Eval(v)`: `getValue()` of a Variable, `EvalExp` of an Expression, the number held by a Parameter,
the number itself.  CommonFunctions.hpp:95-121. -/
def scalEval (j : JCtx K) (s : ℕ) (σ : St K) : Option (K × St K) :=
  match j.h s with
  | .obj o => if σ.defs.items o = [] then some (σ.mem.value o, σ) else Eval j.P o σ
  | .par p => some (σ.defs.par p, σ)
  | .num v => some (v, σ)

/-- `TensorR1::PreComp(v)` of an Expression.  CommonFunctions.hpp:150-153. -/
def scalPreComp (j : JCtx K) (s : ℕ) (σ : St K) : Option (St K) :=
  match j.h s with
  | .obj o => PreComp j.P o σ
  | _ => none

/-- `TensorR1::DevalR(v, var)` of an Expression, `var` given by its number.  CommonFunctions.hpp:155-160. -/
def scalDevalR (j : JCtx K) (σ : St K) (s v : ℕ) : K :=
  match j.h s with
  | .obj o => σ.mem.cache o v
  | _ => 0

/-- `setEval()`: `Eval` of the elements in order of their position.  MatrixUtils.ipp:95-101. -/
def fillEvalJ (j : JCtx K) (o : ℕ) (res : Mat K) (σ : St K) : Option (Mat K × St K) :=
  (List.range (j.E.rows o * j.E.cols o)).foldlM (fun (z : Mat K × St K) n => do
    let (v, σ) ← scalEval j (j.E.el o (n / j.E.cols o) (n % j.E.cols o)) z.2
    let m ← z.1.rawPut? n v
    some (m, σ)) (res, σ)

/-- Pool request, then `setEval` unless `m_eval`.  MatrixVirtuals.ipp:29-41. -/
def leafEvalJ (j : JCtx K) (o : ℕ) (v : MObj K) (σ : St K) : Option (Mat K × St K) :=
  (Mat.pool v.result (j.E.rows o) (j.E.cols o)).bind fun r =>
    if v.evald then some (r, σ) else fillEvalJ j o r σ

/-- The scalar operand of an operator, evaluated.  GenericMatSum.hpp:577, GenericMatProduct.hpp:625. -/
def opEvalJ (j : JCtx K) (op : MUn K) (σ : St K) : Option (K × St K) :=
  match op with
  | .saddE s | .smulE s => scalEval j s σ
  | _ => some (0, σ)

/-- `eval()` of an expression: the matrix operand first, then the scalar operand.
GenericMatSum.hpp:574-590, GenericMatProduct.hpp:615-632. -/
def evalJ (j : JCtx K) (ev : ℕ → JSt K → Option (JSt K × Mat K)) :
    MNode K → JSt K → Option (JSt K × Mat K)
  | .obj o, z => ev o z
  | .bin n op x y, z =>
    if op.dimOk (x.dims j.E) (y.dims j.E) then do
      let (z, L) ← evalJ j ev x z
      let (z, R) ← evalJ j ev y z
      let (a, m) ← op.eval (j.at ⟨fun _ => 0, fun _ _ => 0⟩) L R (z.1.slot n)
      some ((z.1.setN n a, z.2), m)
    else none
  | .un n op x, z =>
    if op.dimOk (x.dims j.E) then do
      let (z, R) ← evalJ j ev x z
      let (v, σ) ← opEvalJ j op z.2
      let (a, m) ← op.eval (j.at ⟨fun _ => v, fun _ _ => 0⟩) R (z.1.slot n)
      some ((z.1.setN n a, σ), m)
    else none

/-- `Matrix<T>::eval()`.  MatrixVirtuals.ipp:27-61. -/
def mevalJ (j : JCtx K) : ℕ → ℕ → JSt K → Option (JSt K × Mat K)
  | 0, _, _ => none
  | f + 1, o, (s, σ) =>
    match j.E.kind o with
    | .form n e eye =>
      let s := s.setO o { s.obj o with evald := true }
      if (s.obj o).visited then (s.obj o).result.map fun m => ((s, σ), m)
      else do
        let s := s.setO o { s.obj o with visited := true }
        let ((s, σ), m) ← evalJ j (mevalJ j f) (MEnv.item n e eye) (s, σ)
        let s := s.setO o { s.obj o with result := some m, evald := true }
        some ((s, σ), m)
    | _ => do
      let (r, σ) ← leafEvalJ j o (s.obj o) σ
      let s := s.setO o { s.obj o with result := some r, evald := true, visited := true }
      some ((s, σ), r)

/-- `setDevalF(X)`: for a `Matrix<Expression>`, `PreComp` of the elements in order, then the parallel loops over
`DevalR`.  MatrixUtils.ipp:104-133; the other element types make no scalar query (`fillDer`). -/
def fillDerJ (j : JCtx K) (X o : ℕ) (res : Mat K) (σ : St K) : Option (Mat K × St K) :=
  match j.E.kind o with
  | .exp => do
    let σ ← (List.range (j.E.rows o * j.E.cols o)).foldlM
      (fun σ n => scalPreComp j (j.E.el o (n / j.E.cols o) (n % j.E.cols o)) σ) σ
    let m ← fillDerExp (j.at ⟨fun _ => 0, scalDevalR j σ⟩) X o res
    some (m, σ)
  | _ => (fillDer (j.at ⟨fun _ => 0, fun _ _ => 0⟩) X o res).map fun m => (m, σ)

/-- Pool request, then `setDevalF` unless `m_devalf`.  MatrixVirtuals.ipp:66-80. -/
def leafFwdJ (j : JCtx K) (X o : ℕ) (v : MObj K) (σ : St K) : Option (Mat K × St K) :=
  (Mat.pool v.dresult (j.E.rows o * j.E.rows X) (j.E.cols o * j.E.cols X)).bind fun r =>
    if v.devald then some (r, σ) else fillDerJ j X o r σ

/-- The scalar operand of an operator in `devalF`: `PreComp` (inside `Details::DevalR`), whose derivatives are
read at once, and for the product also `Eval`.  GenericMatSum.hpp:609, GenericMatProduct.hpp:648-651. -/
def opFwdJ (j : JCtx K) (op : MUn K) (σ : St K) : Option (Scal K × St K) :=
  match op with
  | .saddE s => do
    let σ ← scalPreComp j s σ
    some (⟨fun _ => 0, scalDevalR j σ⟩, σ)
  | .smulE s => do
    let σ ← scalPreComp j s σ
    let (v, σ') ← scalEval j s σ
    some (⟨fun _ => v, scalDevalR j σ⟩, σ')
  | _ => some (⟨fun _ => 0, fun _ _ => 0⟩, σ)

/-- `devalF(X)` of an expression: the matrix operands first, then the scalar operand.
GenericMatSum.hpp:593-618, GenericMatProduct.hpp:635-668. -/
def fwdJ (j : JCtx K) (X : ℕ) (ev fw : ℕ → JSt K → Option (JSt K × Mat K)) :
    MNode K → JSt K → Option (JSt K × Mat K)
  | .obj o, z => fw o z
  | .bin n op x y, z =>
    if op.dimOk (x.dims j.E) (y.dims j.E) then do
      let (z, dL) ← fwdJ j X ev fw x z
      let (z, dR) ← fwdJ j X ev fw y z
      if op.evalsOperands then do
        let (z, L) ← evalJ j ev x z
        let (z, R) ← evalJ j ev y z
        let (a, m) ← op.fwd (j.at ⟨fun _ => 0, fun _ _ => 0⟩) (j.E.rows X) (j.E.cols X) L R dL dR (z.1.slot n)
        some ((z.1.setN n a, z.2), m)
      else do
        let (a, m) ← op.fwd (j.at ⟨fun _ => 0, fun _ _ => 0⟩) (j.E.rows X) (j.E.cols X) dL dR dL dR (z.1.slot n)
        some ((z.1.setN n a, z.2), m)
    else none
  | .un n op x, z =>
    if op.dimOk (x.dims j.E) then do
      let (z, dR) ← fwdJ j X ev fw x z
      if op.evalsOperand then do
        let (z, R) ← evalJ j ev x z
        let (sc, σ) ← opFwdJ j op z.2
        let (a, m) ← op.fwd (j.at sc) X (x.dims j.E).1 (x.dims j.E).2 R dR (z.1.slot n)
        some ((z.1.setN n a, σ), m)
      else do
        let (sc, σ) ← opFwdJ j op z.2
        let (a, m) ← op.fwd (j.at sc) X (x.dims j.E).1 (x.dims j.E).2 dR dR (z.1.slot n)
        some ((z.1.setN n a, σ), m)
    else none

/-- `Matrix<T>::devalF(X)`.  MatrixVirtuals.ipp:64-100. -/
def mfwdJ (j : JCtx K) (X : ℕ) : ℕ → ℕ → JSt K → Option (JSt K × Mat K)
  | 0, _, _ => none
  | f + 1, o, (s, σ) =>
    match j.E.kind o with
    | .form n e eye =>
      let s := s.setO o { s.obj o with devald := true }
      if (s.obj o).visited then (s.obj o).dresult.map fun m => ((s, σ), m)
      else do
        let s := s.setO o { s.obj o with visited := true }
        let ((s, σ), d) ← fwdJ j X (mevalJ j f) (mfwdJ j X f) (MEnv.item n e eye) (s, σ)
        let s := s.setO o { s.obj o with dresult := some d, devald := true }
        let ((s, σ), m) ← evalJ j (mevalJ j f) (MEnv.item n e eye) (s, σ)
        let s := s.setO o { s.obj o with result := some m, evald := true }
        some ((s, σ), d)
    | _ => do
      let (r, σ) ← leafFwdJ j X o (s.obj o) σ
      let s := s.setO o { s.obj o with dresult := some r, devald := true, visited := true }
      some ((s, σ), r)

/-- `TensorR2::Eval(e)`.  CommonMatFunctions.hpp:45-58.  Resetting a matrix does not reset its elements. -/
def matEvalJ (j : JCtx K) (f : ℕ) (e : MNode K) (z : JSt K) : Option (JSt K × Mat K) := do
  let s ← mresetE (mresetO j.E f) e z.1
  evalJ j (mevalJ j f) e (s, z.2)

/-- `TensorR2::DevalF(e, X)`.  CommonMatFunctions.hpp:61-74. -/
def matDevalFJ (j : JCtx K) (f X : ℕ) (e : MNode K) (z : JSt K) : Option (JSt K × Mat K) := do
  let s ← mresetE (mresetO j.E f) e z.1
  fwdJ j X (mevalJ j f) (mfwdJ j X f) e (s, z.2)

end CoolDiff
