import Verif.Scalar.Gradients

/-!
# The Hessian of a scalar oracle (executable model)

example/GaussNewton/include/OracleScalar.hpp and src/OracleScalar.cpp:40-59.  The oracle keeps references to the
error Expression `m_exp` and to the matrix of unknowns `m_X`, whose elements are given as a list in memory order.
-/

namespace CoolDiff

variable {K : Type} [Field K] [DecidableEq K]

/-- The fields of an `OracleScalar` that `hessian()` uses (OracleScalar.hpp:31-46): `m_exp`, `m_X`, `m_jacobian_sym` and
the matrix `m_hessian` points to (`none`: `nullptr`). -/
structure HOracle (K : Type) where
  y : ℕ
  vs : List ℕ
  sym : List ℕ
  hess : Option (Mat K)

/-- `OracleScalar::OracleScalar(exp, X)` (OracleScalar.cpp:25-28).  `m_jacobian_sym` is not in the initializer list, so it
is a default-constructed `Matrix<Expression>`: one row and one column (MatrixConstructors.ipp:61). -/
def newOracle (y : ℕ) (vs : List ℕ) (s : SSt K) : HOracle K × SSt K :=
  (⟨y, vs, (newExprs 1 s).1, none⟩, (newExprs 1 s).2)

variable (P : Prim K) (rf : ℕ → Bool → List Bool → Bool)

/-- One iteration of `symJacob` (OracleScalar.hpp:51-56): `m_jacobian_sym[i] = SymDiff(exp, m_X[i])`.  The right-hand
side is evaluated first; `operator[]` asserts `i < getNumElem()` (MatrixAccessors.ipp:132-135). -/
def symJacobStep (o : HOracle K) (s : SSt K) (i : ℕ) : Option (SSt K) :=
  o.vs[i]?.bind fun x => (symDiff P rf o.y x s).bind fun d => o.sym[i]?.map fun f => d.2.assignRef f d.1

/-- `symJacob(exp)` (OracleScalar.hpp:51-56); `m_dim = X.getNumElem()`. -/
def symJacob (o : HOracle K) (s : SSt K) : Option (SSt K) :=
  (List.range o.vs.length).foldlM (symJacobStep P rf o) s

/-- The inner loop of `hessian()` (OracleScalar.cpp:49-56), for `f = m_jacobian_sym[i]`. -/
def oracleRow (o : HOracle K) (f i : ℕ) (s : SSt K) (m : Mat K) : Option (Mat K) :=
  forEach (List.range (i + 1)) (fun j m =>
    if j < i then
      o.vs[j]?.bind fun x => (m.put? i j (DevalR f x s.st)).bind fun m =>
        (m.get? i j).bind fun v => m.put? j i v
    else if i = j then o.vs[j]?.bind fun x => m.put? i j (DevalR f x s.st)
    else some m) m

/-- One iteration of the outer loop of `hessian()` (OracleScalar.cpp:46-57). -/
def oracleStep (o : HOracle K) (ms : Mat K × SSt K) (i : ℕ) : Option (Mat K × SSt K) :=
  o.sym[i]?.bind fun f => (PreCompS P f ms.2).bind fun s => (oracleRow o f i s ms.1).map fun m => (m, s)

/-- The matrix and the symbolic derivatives at the start of the loop of `hessian()` (OracleScalar.cpp:41-44). -/
def oracleInit (z : HOracle K × SSt K) : Option (Mat K × SSt K) :=
  match z.1.hess with
  | some m => some (m, z.2)
  | none => (Mat.new z.1.vs.length z.1.vs.length).bind fun m => (symJacob P rf z.1 z.2).map fun s => (m, s)

/-- `OracleScalar::hessian()` (OracleScalar.cpp:40-59): the matrix the returned pointer refers to, the oracle and the
heap after the call. -/
def oracleHessian (z : HOracle K × SSt K) : Option (Mat K × (HOracle K × SSt K)) :=
  (oracleInit P rf z).bind fun ms =>
    ((List.range z.1.vs.length).foldlM (oracleStep P z.1) ms).map fun r =>
      (r.1, ({ z.1 with hess := some r.1 }, r.2))

/-- A program that makes an oracle, changes numbers and calls `hessian()`; `H` are the Variables of the user. -/
inductive OCalls (H : ℕ → Prop) (z₀ : HOracle K × SSt K) : HOracle K × SSt K → Prop
  | refl : OCalls H z₀ z₀
  | setVar {z : HOracle K × SSt K} (x : ℕ) (v : K) : OCalls H z₀ z → H x →
      OCalls H z₀ (z.1, { z.2 with st := assignNum x v z.2.st })
  | setPar {z : HOracle K × SSt K} (p : ℕ) (v : K) : OCalls H z₀ z →
      OCalls H z₀ (z.1, { z.2 with st := assignPar p v z.2.st })
  | hessian {z z' : HOracle K × SSt K} (m : Mat K) : OCalls H z₀ z → oracleHessian P rf z = some (m, z') →
      OCalls H z₀ z'

end CoolDiff
