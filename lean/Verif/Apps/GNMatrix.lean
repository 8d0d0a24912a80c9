import Verif.Apps.GaussNewton
import Verif.Matrix.Joint

/-!
# The Gauss–Newton driver with a matrix oracle (executable model)

example/GaussNewton: `OracleMatrix`, `GaussNewton::computeABMatrix`, `updateMatrix` and `solve`, on matrices and the
scalar heap (`Verif/Matrix/Joint.lean`).

Simplifications, besides those of `Verif/Apps/GaussNewton.lean`: `evalMat()` returns a pointer to the result matrix of
the error function, which `jacobian()` may compute again; the model passes the numbers it held before (the second
computation gives the same numbers).
-/

namespace CoolDiff

variable {K : Type} [Field K] [DecidableEq K]

/-- `m_X[i]`, the `i`-th element of the `Matrix<Variable>` `X` in memory order. -/
def gnmVar (j : JCtx K) (X i : ℕ) : Option ℕ :=
  match j.h (j.E.el X (i / j.E.cols X) (i % j.E.cols X)) with
  | .obj x => some x
  | _ => none

/-- The elements of `m_X` (OracleMatrix.cpp:25, 52-60: `m_dim = X.getNumElem()`). -/
def gnmVars (j : JCtx K) (X : ℕ) : Option (List ℕ) :=
  (List.range (j.E.rows X * j.E.cols X)).mapM (gnmVar j X)

variable (j : JCtx K) (llt : Mat K → Mat K → Option (Mat K)) (f F X : ℕ)

/-- One iteration of the loop of `computeABMatrix` (GaussNewton.cpp:72-89), `evalMat`, `jacobian`
(OracleMatrix.cpp:39-45). -/
def gnmRow (d : GNData K) (s : GNBuf K × JSt K) (i : ℕ) : Option (GNBuf K × JSt K) :=
  (setDataUnit d i s.2.2).bind fun σ =>
  (matEvalJ j f (.obj F) (s.2.1, σ)).bind fun e =>
  (matDevalFJ j f X (.obj F) e.1).bind fun J =>
  (j.B.transpose J.2 s.1.tA1).bind fun t1 =>
  (j.B.mul t1 J.2 s.1.tA2).bind fun t2 =>
  (j.B.add .self (.ext t2) s.1.A).bind fun A =>
  (j.B.mul t1 e.2 s.1.tB).bind fun tb =>
  (j.B.add .self (.ext tb) s.1.B).map fun B =>
    ({ s.1 with A := some A, B := some B, tA1 := some t1, tA2 := some t2, tB := some tb }, J.1)

/-- `GaussNewton::computeABMatrix` (GaussNewton.cpp:67-90). -/
def computeABm (d : GNData K) (s : GNBuf K × JSt K) : Option (GNBuf K × JSt K) :=
  (List.range d.size).foldlM (gnmRow j f F X d)
    ({ s.1 with A := s.1.A.map Mat.resetZero, B := s.1.B.map Mat.resetZero }, s.2)

/-- One iteration of the loop of `solve` (GaussNewton.cpp:203-213). -/
def gnmIteration (vs : List ℕ) (d : GNData K) (s : GNBuf K × JSt K) : Option (GNBuf K × JSt K) :=
  (computeABm j f F X d s).bind fun s =>
  s.1.A.bind fun A => s.1.B.bind fun B => (llt A B).bind fun Y =>
    (gnUpdate j.π vs Y s.2.2).map fun σ => ({ s.1 with delX := some Y }, (s.2.1, σ))

/-- `n` iterations. -/
def gnmLoop (vs : List ℕ) (d : GNData K) : ℕ → GNBuf K × JSt K → Option (GNBuf K × JSt K)
  | 0, s => some s
  | n + 1, s => (gnmIteration j llt f F X vs d s).bind (gnmLoop vs d n)

/-- `OracleFactory::CreateOracle(F, X)` with its assertions (OracleMatrix.cpp:25-30), `setOracle`, `setData`,
`setMaxIterations(n)`, and `GaussNewton::solve` (GaussNewton.cpp:177-214). -/
def gnmSolve (d : GNData K) (n : ℕ) (s : GNBuf K × JSt K) : Option (GNBuf K × JSt K) :=
  if j.E.cols F = 1 ∧ j.E.rows X = 1 then
    (gnmVars j X).bind fun vs =>
    (allocOnce s.1.delX vs.length 1).bind fun Y =>
    (allocOnce s.1.A vs.length vs.length).bind fun A =>
    (allocOnce s.1.B vs.length 1).bind fun B =>
      gnmLoop j llt f F X vs d n ({ s.1 with A := some A, B := some B, delX := some Y }, s.2)
  else none

end CoolDiff
