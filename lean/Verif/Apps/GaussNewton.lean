import Verif.Scalar.Gradients
import Verif.Matrix.Backend

/-!
# The Gauss–Newton driver (executable model)

example/GaussNewton: `OracleScalar` and `GaussNewton::solve` with a scalar oracle, statement by statement, on the
heap of the scalar model and with the matrix kernels of a backend.

Simplifications.  `Eigen::LLT<EigenMatrix>(eigA).solve(eigB)` (GaussNewton.cpp:206-209) is a parameter `llt`.
`eigA`, `eigB` are maps of the buffers of `m_A`, `m_B` taken before the loop (lines 192-201): they stay valid because
`ResetZero` and the in-place `MATRIX_ADD` never replace a buffer of the right shape, so the model passes the
matrices.
-/

namespace CoolDiff

variable {K : Type} [Field K] [DecidableEq K]

/-- `m_DX`, `m_X`, `m_DY`, `m_Y`, `m_size` (GaussNewton.hpp:29-36); a `Matrix<Parameter>` is the list of its
elements, `none` is `nullptr`. -/
structure GNData (K : Type) where
  dx : Option (List ℕ) := none
  x : Option (Mat K) := none
  dy : Option (List ℕ) := none
  y : Option (Mat K) := none
  size : ℕ := 1

/-- The buffers `m_A`, `m_B`, `m_tempA1`, `m_tempA2`, `m_tempB`, `m_delX` (GaussNewton.hpp:42-53) and the
oracle's `m_jacobian` (OracleScalar.hpp); all start as `nullptr`. -/
structure GNBuf (K : Type) where
  A : Option (Mat K) := none
  B : Option (Mat K) := none
  tA1 : Option (Mat K) := none
  tA2 : Option (Mat K) := none
  tB : Option (Mat K) := none
  delX : Option (Mat K) := none
  jac : Option (Mat K) := none

/-- `for (size_t j{}; j < m_X->getNumColumns(); ++j) (*m_DX)[j] = (*m_X)(i, j);` unless one of the two is null
(GaussNewton.cpp:27-31, 34-38). -/
def setRow (ps : Option (List ℕ)) (X : Option (Mat K)) (i : ℕ) (σ : St K) : Option (St K) :=
  match ps, X with
  | some ps, some X => (List.range X.cols).foldlM (fun σ j =>
      ps[j]?.bind fun p => (X.get? i j).map fun v => assignPar p v σ) σ
  | _, _ => some σ

/-- `GaussNewton::setDataUnit` (GaussNewton.cpp:25-39). -/
def setDataUnit (d : GNData K) (i : ℕ) (σ : St K) : Option (St K) :=
  (setRow d.dx d.x i σ).bind fun σ => setRow d.dy d.y i σ

variable (P : Prim K) (Bk : Backend K) (llt : Mat K → Mat K → Option (Mat K))

/-- `if (nullptr == p) p = CreateMatrixPtr(r, c);` (GaussNewton.cpp:93-100, 183-186,
OracleScalar.cpp:62-64). -/
def allocOnce (p : Option (Mat K)) (r c : ℕ) : Option (Mat K) :=
  match p with
  | none => Mat.new r c
  | some m => some m

/-- `OracleScalar::jacobian` (OracleScalar.cpp:61-73); `vs` are the elements of `m_X`. -/
def gnJacobian (y : ℕ) (vs : List ℕ) (jac : Option (Mat K)) (σ : St K) : Option (Mat K × St K) :=
  (allocOnce jac 1 vs.length).bind fun m =>
    (PreComp P y σ).bind fun σ => transformTo (fun x σ => some (DevalR y x σ, σ)) vs 0 m σ

/-- One iteration of the loop of `computeABScalar` (GaussNewton.cpp:47-63). -/
def gnRow (y : ℕ) (vs : List ℕ) (d : GNData K) (s : GNBuf K × St K) (i : ℕ) : Option (GNBuf K × St K) :=
  (setDataUnit d i s.2).bind fun σ =>
  (Eval P y σ).bind fun e =>
  (gnJacobian P y vs s.1.jac e.2).bind fun J =>
  (Bk.transpose J.1 s.1.tA1).bind fun t1 =>
  (Bk.mul t1 J.1 s.1.tA2).bind fun t2 =>
  (Bk.add .self (.ext t2) s.1.A).bind fun A =>
  (Bk.scalarMul e.1 (.ext t1) s.1.tB).bind fun tb =>
  (Bk.add .self (.ext tb) s.1.B).map fun B =>
    ({ s.1 with A := some A, B := some B, tA1 := some t1, tA2 := some t2, tB := some tb, jac := some J.1 }, J.2)

/-- `GaussNewton::computeABScalar` (GaussNewton.cpp:42-64). -/
def computeAB (y : ℕ) (vs : List ℕ) (d : GNData K) (s : GNBuf K × St K) : Option (GNBuf K × St K) :=
  (List.range d.size).foldlM (gnRow P Bk y vs d)
    ({ s.1 with A := s.1.A.map Mat.resetZero, B := s.1.B.map Mat.resetZero }, s.2)

/-- `X[i] = CoolDiff::TensorR1::Eval(X[i]) - (*m_delX)[i];` (GaussNewton.cpp:127, 138); `Eval` of a Variable is
`getValue()` (CommonFunctions.hpp:105-107). -/
def gnUpdate1 (vs : List ℕ) (delX : Mat K) (σ : St K) (i : ℕ) : Option (St K) :=
  vs[i]?.bind fun x => (delX.flat? i).map fun v => assignNum x (σ.mem.value x - v) σ

/-- `GaussNewton::updateScalar`, `updateMatrix` (GaussNewton.cpp:119-139), in any order of the (parallel)
iterations. -/
def gnUpdate (π : Sched) (vs : List ℕ) (delX : Mat K) (σ : St K) : Option (St K) :=
  (π.run ℕ (List.range vs.length)).foldlM (gnUpdate1 vs delX) σ

/-- One iteration of the loop of `solve` (GaussNewton.cpp:203-213). -/
def gnIteration (π : Sched) (y : ℕ) (vs : List ℕ) (d : GNData K) (s : GNBuf K × St K) : Option (GNBuf K × St K) :=
  (computeAB P Bk y vs d s).bind fun s =>
  s.1.A.bind fun A => s.1.B.bind fun B => (llt A B).bind fun X =>
    (gnUpdate π vs X s.2).map fun σ => ({ s.1 with delX := some X }, σ)

/-- `n` iterations. -/
def gnLoop (π : Sched) (y : ℕ) (vs : List ℕ) (d : GNData K) : ℕ → GNBuf K × St K → Option (GNBuf K × St K)
  | 0, s => some s
  | n + 1, s => (gnIteration P Bk llt π y vs d s).bind (gnLoop π y vs d n)

/-- `GaussNewton::solve` (GaussNewton.cpp:177-214) with `setOracle(y, vs)`, `setData`, `setMaxIterations(n)`. -/
def gnSolve (π : Sched) (y : ℕ) (vs : List ℕ) (d : GNData K) (n : ℕ) (s : GNBuf K × St K) :
    Option (GNBuf K × St K) :=
  (allocOnce s.1.delX vs.length 1).bind fun X =>
  (allocOnce s.1.A vs.length vs.length).bind fun A =>
  (allocOnce s.1.B vs.length 1).bind fun B =>
    gnLoop P Bk llt π y vs d n ({ s.1 with A := some A, B := some B, delX := some X }, s.2)

end CoolDiff
