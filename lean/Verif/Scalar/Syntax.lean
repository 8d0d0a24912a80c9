import Mathlib.Algebra.Field.Basic

/-!
# Scalar expression syntax of CoolDiff

Operator nodes are C++ class templates (`GenericSum<T1,T2>`, `GenericSin<T>`, ...).  Because every
operator function calls `cloneExp()` on its operands, operator nodes form trees; only `Variable`,
`Expression` and `Parameter` objects are shared, and they appear as leaves.
-/

namespace CoolDiff

/-- The `<cmath>` functions the library calls (std::sin, ..., std::pow, and
`log` of `Type`).  They are parameters of the model: machine arithmetic is not modelled. -/
structure Prim (K : Type) where
  sin : K → K
  cos : K → K
  tan : K → K
  sinh : K → K
  cosh : K → K
  tanh : K → K
  asin : K → K
  acos : K → K
  atan : K → K
  asinh : K → K
  acosh : K → K
  atanh : K → K
  sqrt : K → K
  exp : K → K
  log : K → K
  pow : K → K → K

/-- The elementary functions of one operand: `include/Scalar/UnaryOps/Generic*.hpp`. -/
inductive Fn
  | sin | cos | tan | sinh | cosh | tanh | asin | acos | atan | asinh | acosh | atanh
  | sqrt | exp | log
  deriving DecidableEq, Repr

/-- Operator nodes with one scalar operand: elementary functions, the `<Type, T>` and `<T, Type>`
specialisations of the binary operators (one operand is a number), and operators declared with
`UNARY_SCALAR_OPERATOR(OPS, FUNC1, FUNC2)` (GenericScalarUnary.hpp:27-107). -/
inductive Op1 (K : Type)
  /-- GenericSin.hpp ... GenericLog.hpp -/
  | fn (f : Fn)
  /-- `GenericSum<Type,T>` (GenericSum.hpp:210-360): `c + u` -/
  | addC (c : K)
  /-- `GenericProduct<Type,T>` (GenericProduct.hpp:186-366): `c * u` -/
  | mulC (c : K)
  /-- `GenericDiv<Type,T>` (GenericDiv.hpp:227-384): `c / u` -/
  | divC (c : K)
  /-- `GenericPow<Type,T>` (GenericPow.hpp:225-376): `pow(c,u)` -/
  | cPow (c : K)
  /-- `GenericPow<T,Type>` (GenericPow.hpp:379-532): `pow(u,c)` -/
  | powC (c : K)
  /-- `UNARY_SCALAR_OPERATOR`: user function and user derivative -/
  | custom (f df : K → K)

/-- Operator nodes with two scalar operands. -/
inductive Op2 (K : Type)
  /-- GenericSum.hpp:28-207 -/
  | add
  /-- GenericSub.hpp:28-206 -/
  | sub
  /-- GenericProduct.hpp:28-183 -/
  | mul
  /-- GenericDiv.hpp:27-224 -/
  | div
  /-- GenericPow.hpp:28-222 -/
  | pow
  /-- `BINARY_SCALAR_OPERATOR(OPS, FUNC1, FUNC2, FUNC3)` (GenericScalarBinary.hpp:27-150) -/
  | custom (f fu fv : K → K → K)

/-- Expression trees.  `leaf o` is a reference to the `Variable`/`Expression` object number `o` of
the heap, `par p` a reference to the `Parameter` object number `p`; the natural number of an
operator node is its `m_nidx`. -/
inductive Node (K : Type)
  | leaf (o : ℕ)
  | par (p : ℕ)
  | op1 (n : ℕ) (f : Op1 K) (a : Node K)
  | op2 (n : ℕ) (f : Op2 K) (a b : Node K)

namespace Node
variable {K : Type}

/-- The Variable/Expression objects an expression tree mentions. -/
def leaves : Node K → List ℕ
  | leaf o => [o]
  | par _ => []
  | op1 _ _ a => a.leaves
  | op2 _ _ a b => a.leaves ++ b.leaves

/-- The `m_nidx` of the operator nodes of an expression tree. -/
def opIds : Node K → List ℕ
  | leaf _ => []
  | par _ => []
  | op1 n _ a => n :: a.opIds
  | op2 n _ a b => n :: (a.opIds ++ b.opIds)

/-- The Parameter objects an expression tree mentions. -/
def pars : Node K → List ℕ
  | leaf _ => []
  | par p => [p]
  | op1 _ _ a => a.pars
  | op2 _ _ a b => a.pars ++ b.pars

end Node
end CoolDiff
