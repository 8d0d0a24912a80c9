import Verif.Matrix.Expr

/-!
# What matrix expressions mean

Independent specification: the value of every element of an expression and its partial derivative
with respect to every element of the matrix `X`, written with index formulas, from the values
`V o i j` and partial derivatives `D o l k i j` of the named matrices.
-/

set_option linter.unusedSectionVars false

namespace CoolDiff

open Finset

variable {K : Type} [Field K] [DecidableEq K]

/-- Elements of the inverse of the `n × n` matrix `A` (Mathlib's matrix inverse). -/
noncomputable def invEl (n : ℕ) (A : ℕ → ℕ → K) (i j : ℕ) : K :=
  if h : i < n ∧ j < n then (toMatrix n A)⁻¹ ⟨i, h.1⟩ ⟨j, h.2⟩ else 0

/-- Element `(i,j)` of an expression. -/
noncomputable def den (E : MEnv K) (sv : ℕ → K) (V : ℕ → ℕ → ℕ → K) : MNode K → ℕ → ℕ → K
  | .obj o, i, j => V o i j
  | .bin _ .add a b, i, j => den E sv V a i j + den E sv V b i j
  | .bin _ .sub a b, i, j => den E sv V a i j - den E sv V b i j
  | .bin _ .mul a b, i, j => ∑ t ∈ range (a.dims E).2, den E sv V a i t * den E sv V b t j
  | .bin _ .had a b, i, j => den E sv V a i j * den E sv V b i j
  | .bin _ (.conv sx sy px py) a b, i, j => convSpec sx sy px py (a.dims E).1 (a.dims E).2
      (b.dims E).1 (b.dims E).2 (den E sv V a) (den E sv V b) i j
  | .un _ (.sadd v) a, i, j => v + den E sv V a i j
  | .un _ (.smul v) a, i, j => v * den E sv V a i j
  | .un _ (.saddE s) a, i, j => sv s + den E sv V a i j
  | .un _ (.smulE s) a, i, j => sv s * den E sv V a i j
  | .un _ .tr a, i, j => den E sv V a j i
  | .un _ (.map f _) a, i, j => f (den E sv V a i j)
  | .un _ .inv a, i, j => invEl (a.dims E).1 (den E sv V a) i j
  | .un _ .det a, _, _ => (toMatrix (a.dims E).1 (den E sv V a)).det

/-- Partial derivative of element `(l,k)` of an expression with respect to element `(i,j)` of the
matrix with partials `D`, by the usual rules (`sd s i j`: derivative of the scalar `s`). -/
noncomputable def tan (E : MEnv K) (sv : ℕ → K) (sd : ℕ → ℕ → ℕ → K) (V : ℕ → ℕ → ℕ → K)
    (D : ℕ → ℕ → ℕ → ℕ → ℕ → K) : MNode K → ℕ → ℕ → ℕ → ℕ → K
  | .obj o, l, k, i, j => D o l k i j
  | .bin _ .add a b, l, k, i, j => tan E sv sd V D a l k i j + tan E sv sd V D b l k i j
  | .bin _ .sub a b, l, k, i, j => tan E sv sd V D a l k i j - tan E sv sd V D b l k i j
  | .bin _ .mul a b, l, k, i, j => ∑ t ∈ range (a.dims E).2,
      (den E sv V a l t * tan E sv sd V D b t k i j + tan E sv sd V D a l t i j * den E sv V b t k)
  | .bin _ .had a b, l, k, i, j =>
      den E sv V a l k * tan E sv sd V D b l k i j + tan E sv sd V D a l k i j * den E sv V b l k
  | .bin _ (.conv sx sy px py) a b, l, k, i, j => convTan sx sy px py (a.dims E).1 (a.dims E).2
      (b.dims E).1 (b.dims E).2 (den E sv V a) (den E sv V b) (tan E sv sd V D a)
      (tan E sv sd V D b) l k i j
  | .un _ (.sadd _) a, l, k, i, j => tan E sv sd V D a l k i j
  | .un _ (.smul v) a, l, k, i, j => v * tan E sv sd V D a l k i j
  | .un _ (.saddE s) a, l, k, i, j => sd s i j + tan E sv sd V D a l k i j
  | .un _ (.smulE s) a, l, k, i, j =>
      sv s * tan E sv sd V D a l k i j + sd s i j * den E sv V a l k
  | .un _ .tr a, l, k, i, j => tan E sv sd V D a k l i j
  | .un _ (.map _ df) a, l, k, i, j => df (den E sv V a l k) * tan E sv sd V D a l k i j
  | .un _ .inv a, l, k, i, j =>
      -∑ p ∈ range (a.dims E).1, ∑ q ∈ range (a.dims E).1,
        invEl (a.dims E).1 (den E sv V a) l p * tan E sv sd V D a p q i j *
          invEl (a.dims E).1 (den E sv V a) q k
  | .un _ .det a, _, _, i, j =>
      ∑ p ∈ range (a.dims E).1, ∑ q ∈ range (a.dims E).1,
        (toMatrix (a.dims E).1 (den E sv V a)).det * invEl (a.dims E).1 (den E sv V a) q p *
          tan E sv sd V D a p q i j

/-- The padding request of a node with left operand of dimensions `d` is one of the program's. -/
def MBin.padOk (E : MEnv K) (d : ℕ × ℕ) : MBin → Prop
  | .conv _ _ px py => (⟨d.1, d.2, px, py⟩ : PadReq) ∈ E.pads
  | _ => True

/-- Dimensions fit everywhere in the expression (and its padding requests are among the
program's). -/
def DimOk (E : MEnv K) : MNode K → Prop
  | .obj _ => True
  | .bin _ op a b => DimOk E a ∧ DimOk E b ∧ op.dimOk (a.dims E) (b.dims E) = true ∧
      op.padOk E (a.dims E)
  | .un _ op a => DimOk E a ∧ op.dimOk (a.dims E) = true

/-- Every operand of `inv` in the expression is invertible (and, where `detInv`, every operand of
`det`: the derivative rule of the determinant inverts it). -/
def Invertible (detInv : Prop) (E : MEnv K) (sv : ℕ → K) (V : ℕ → ℕ → ℕ → K) : MNode K → Prop
  | .obj _ => True
  | .bin _ _ a b => Invertible detInv E sv V a ∧ Invertible detInv E sv V b
  | .un _ .inv a => Invertible detInv E sv V a ∧ (toMatrix (a.dims E).1 (den E sv V a)).det ≠ 0
  | .un _ .det a => Invertible detInv E sv V a ∧
      (detInv → (toMatrix (a.dims E).1 (den E sv V a)).det ≠ 0)
  | .un _ _ a => Invertible detInv E sv V a

/-- Does the expression use `inv` or `det` (which need an Eigen backend)? -/
def UsesInv : MNode K → Prop
  | .obj _ => False
  | .bin _ _ a b => UsesInv a ∨ UsesInv b
  | .un _ .inv _ => True
  | .un _ .det _ => True
  | .un _ _ a => UsesInv a

/-- A well-formed program of matrices: positive dimensions, formulas whose dimensions fit and which
are not circular (`rank` decreases), stored with an identity matrix of the right size. -/
structure MEnv.WF (E : MEnv K) (rank : ℕ → ℕ) : Prop where
  rpos : ∀ o, 0 < E.rows o
  cpos : ∀ o, 0 < E.cols o
  form : ∀ o n e eye, E.kind o = .form n e eye →
    E.kind eye = .num ∧ E.rows eye = (e.dims E).2 ∧ E.cols eye = (e.dims E).2 ∧
    DimOk E e ∧ E.rows o = (e.dims E).1 ∧ E.cols o = (e.dims E).2 ∧
    ∀ q ∈ (MEnv.item n e eye).objs, rank q < rank o

/-- Is the matrix a formula? -/
def MEnv.isForm (E : MEnv K) (o : ℕ) : Prop := ∃ n e eye, E.kind o = .form n e eye

/-- The matrices in `S` have values `V`: elements have the value of their scalar, formula matrices
satisfy their formula, registered identity matrices hold the identity. -/
structure MSolves (E : MEnv K) (sv : ℕ → K) (V : ℕ → ℕ → ℕ → K) (S : Set ℕ) : Prop where
  leaf : ∀ o ∈ S, ¬E.isForm o → ∀ i j, i < E.rows o → j < E.cols o → V o i j = sv (E.el o i j)
  form : ∀ o ∈ S, ∀ n e eye, E.kind o = .form n e eye →
    (∀ i j, i < E.rows o → j < E.cols o → V o i j = den E sv V e i j) ∧
    (∀ i j, i < E.rows eye → j < E.cols eye → V eye i j = if i = j then 1 else 0)

/-- Partial derivatives of the matrices in `S` with respect to the elements of `X`. -/
structure MSolvesD (E : MEnv K) (sv : ℕ → K) (sd : ℕ → ℕ → ℕ → K) (V : ℕ → ℕ → ℕ → K)
    (D : ℕ → ℕ → ℕ → ℕ → ℕ → K) (X : ℕ) (S : Set ℕ) : Prop where
  num : ∀ o ∈ S, (E.kind o = .num ∨ E.kind o = .par) → ∀ l k i j, l < E.rows o → k < E.cols o →
    i < E.rows X → j < E.cols X → D o l k i j = 0
  var : ∀ o ∈ S, E.kind o = .var → ∀ l k i j, l < E.rows o → k < E.cols o →
    i < E.rows X → j < E.cols X →
    D o l k i j = if E.vid (E.el o l k) = E.vid (E.el X i j) then 1 else 0
  exp : ∀ o ∈ S, E.kind o = .exp → ∀ l k i j, l < E.rows o → k < E.cols o →
    i < E.rows X → j < E.cols X → D o l k i j = sd (E.el o l k) i j
  form : ∀ o ∈ S, ∀ n e eye, E.kind o = .form n e eye → ∀ l k i j, l < E.rows o → k < E.cols o →
    i < E.rows X → j < E.cols X → D o l k i j = tan E sv sd V D e l k i j

/-- `S` contains every matrix its formulas mention. -/
def Closed (E : MEnv K) (S : Set ℕ) : Prop :=
  ∀ o ∈ S, ∀ n e eye, E.kind o = .form n e eye → ∀ q ∈ (MEnv.item n e eye).objs, q ∈ S

end CoolDiff
