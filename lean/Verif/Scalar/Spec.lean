import Verif.Scalar.Model

/-!
# Specification of the scalar part, independent of the evaluation machinery

An `Expression` is defined by a list of assigned right-hand sides run in order: each sees the
previous value of the target, and every other object by its own final value.  `Solves` says that a
valuation satisfies all definitions; `Tangent` pushes a derivative seed through them with the
differentiation rules of calculus.
-/

namespace CoolDiff

variable {K : Type} [Field K]

/-- Mathematical meaning of a one-operand operator. -/
def Op1.sem (P : Prim K) : Op1 K → K → K
  | .fn .sin, u => P.sin u
  | .fn .cos, u => P.cos u
  | .fn .tan, u => P.tan u
  | .fn .sinh, u => P.sinh u
  | .fn .cosh, u => P.cosh u
  | .fn .tanh, u => P.tanh u
  | .fn .asin, u => P.asin u
  | .fn .acos, u => P.acos u
  | .fn .atan, u => P.atan u
  | .fn .asinh, u => P.asinh u
  | .fn .acosh, u => P.acosh u
  | .fn .atanh, u => P.atanh u
  | .fn .sqrt, u => P.sqrt u
  | .fn .exp, u => P.exp u
  | .fn .log, u => P.log u
  | .addC c, u => c + u
  | .mulC c, u => c * u
  | .divC c, u => c / u
  | .cPow c, u => P.pow c u
  | .powC c, u => P.pow u c
  | .custom f _, u => f u

/-- Derivative of a one-operand operator (that these are the derivatives over ℝ is property C16). -/
def Op1.der (P : Prim K) : Op1 K → K → K
  | .fn .sin, u => P.cos u
  | .fn .cos, u => -P.sin u
  | .fn .tan, u => 1 + P.tan u ^ 2
  | .fn .sinh, u => P.cosh u
  | .fn .cosh, u => P.sinh u
  | .fn .tanh, u => 1 - P.tanh u ^ 2
  | .fn .asin, u => 1 / P.sqrt (1 - u ^ 2)
  | .fn .acos, u => -(1 / P.sqrt (1 - u ^ 2))
  | .fn .atan, u => 1 / (1 + u ^ 2)
  | .fn .asinh, u => 1 / P.sqrt (1 + u ^ 2)
  | .fn .acosh, u => 1 / P.sqrt (u ^ 2 - 1)
  | .fn .atanh, u => 1 / (1 - u ^ 2)
  | .fn .sqrt, u => 1 / 2 / P.sqrt u
  | .fn .exp, u => P.exp u
  | .fn .log, u => 1 / u
  | .addC _, _ => 1
  | .mulC c, _ => c
  | .divC c, u => -c / u ^ 2
  | .cPow c, u => P.pow c u * P.log c
  | .powC c, u => c * P.pow u (c - 1)
  | .custom _ df, u => df u

/-- Mathematical meaning of a two-operand operator. -/
def Op2.sem (P : Prim K) : Op2 K → K → K → K
  | .add, u, v => u + v
  | .sub, u, v => u - v
  | .mul, u, v => u * v
  | .div, u, v => u / v
  | .pow, u, v => P.pow u v
  | .custom f _ _, u, v => f u v

/-- Partial derivative of a two-operand operator with respect to its left operand. -/
def Op2.derL (P : Prim K) : Op2 K → K → K → K
  | .add, _, _ => 1
  | .sub, _, _ => 1
  | .mul, _, v => v
  | .div, _, v => 1 / v
  | .pow, u, v => v / u * P.pow u v
  | .custom _ fu _, u, v => fu u v

/-- Partial derivative of a two-operand operator with respect to its right operand. -/
def Op2.derR (P : Prim K) : Op2 K → K → K → K
  | .add, _, _ => 1
  | .sub, _, _ => -1
  | .mul, u, _ => u
  | .div, u, v => -u / v ^ 2
  | .pow, u, v => P.log u * P.pow u v
  | .custom _ _ fv, u, v => fv u v

/-- Value of a formula when object `o` has value `ρ o` and parameter `p` has value `π p`. -/
def Node.val (P : Prim K) (π ρ : ℕ → K) : Node K → K
  | .leaf o => ρ o
  | .par p => π p
  | .op1 _ f a => f.sem P (a.val P π ρ)
  | .op2 _ f a b => f.sem P (a.val P π ρ) (b.val P π ρ)

/-- Derivative of a formula when the derivative of object `o` is `δ o`: chain rule. -/
def Node.der (P : Prim K) (π ρ δ : ℕ → K) : Node K → K
  | .leaf o => δ o
  | .par _ => 0
  | .op1 _ f a => f.der P (a.val P π ρ) * a.der P π ρ δ
  | .op2 _ f a b =>
      f.derL P (a.val P π ρ) (b.val P π ρ) * a.der P π ρ δ +
      f.derR P (a.val P π ρ) (b.val P π ρ) * b.der P π ρ δ

/-- Run the assignments of object `o` in order, starting from value `v`. -/
def seqVal (P : Prim K) (π ρ : ℕ → K) (o : ℕ) : List (Node K) → K → K
  | [], v => v
  | i :: is, v => seqVal P π ρ o is (i.val P π (Function.update ρ o v))

/-- Run the assignments of object `o` in order together with their derivatives, from value `v` and
derivative `d`. -/
def seqDer (P : Prim K) (π ρ δ : ℕ → K) (o : ℕ) : List (Node K) → K → K → K
  | [], _, d => d
  | i :: is, v, d =>
      seqDer P π ρ δ o is (i.val P π (Function.update ρ o v))
        (i.der P π (Function.update ρ o v) (Function.update δ o d))

/-- `Reach D y q`: the definition of `y` uses object `q`, directly or through other objects. -/
inductive Reach (D : Defs K) (y : ℕ) : ℕ → Prop
  | refl : Reach D y y
  | step {q p : ℕ} {i : Node K} : Reach D y q → i ∈ D.items q → p ∈ i.leaves → Reach D y p

/-- The definitions `y` depends on are not circular: an object may only mention itself (meaning its
previous value, hence not in its first right-hand side) and objects defined before it. -/
def WellDefined (D : Defs K) (y : ℕ) : Prop :=
  (∃ rank : ℕ → ℕ, ∀ q, Reach D y q → ∀ i ∈ D.items q, ∀ p ∈ i.leaves, p = q ∨ rank p < rank q) ∧
  (∀ q, Reach D y q → ∀ i is, D.items q = i :: is → q ∉ i.leaves)

/-- `ρ` gives every object `y` depends on the value its definition asks for. -/
def Solves (P : Prim K) (D : Defs K) (y : ℕ) (ρ : ℕ → K) : Prop :=
  ∀ q, Reach D y q → ρ q = seqVal P D.par ρ q (D.items q) (D.base q)

/-- `δ` gives every object `y` depends on its derivative with respect to object `x`. -/
def Tangent (P : Prim K) (D : Defs K) (y x : ℕ) (ρ δ : ℕ → K) : Prop :=
  ∀ q, Reach D y q → δ q =
    if q = x then 1 else seqDer P D.par ρ δ q (D.items q) (D.base q) 0

/-- `v` is the value of `y` under the current definitions. -/
def ValueOf (P : Prim K) (D : Defs K) (y : ℕ) (v : K) : Prop :=
  ∃ ρ, Solves P D y ρ ∧ ρ y = v

/-- `d` is the derivative of `y` with respect to `x` under the current definitions. -/
def DerivOf (P : Prim K) (D : Defs K) (y x : ℕ) (d : K) : Prop :=
  ∃ ρ δ, Solves P D y ρ ∧ Tangent P D y x ρ δ ∧ δ y = d

end CoolDiff
