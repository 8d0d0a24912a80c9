import Verif.Matrix.Functions

/-!
# Building programs of matrices (executable model)

Constructors of `Matrix<T>`, the registry of identity matrices, the operators of C++ expressions, and the definition of a `Matrix<Expression>` by an expression.

Simplifications: one allocator; a new `Matrix<Variable>` has its own Variables (no views); the order in which C++
evaluates the two operands of a binary operator is left to right (the numbers of temporary nodes depend on it, the
stored formula is a clone with new numbers in any case); a definition that mentions its own target is not modelled
(`m_gh_vec` would keep the old formulas).
-/

namespace CoolDiff

variable {K : Type} [Field K] [DecidableEq K]

/-- A C++ matrix expression as the user writes it. -/
inductive MTerm (K : Type)
  | mat (o : ℕ)
  | bin (op : MBin) (a b : MTerm K)
  | un (op : MUn K) (a : MTerm K)

/-- The matrices an expression mentions. -/
def MTerm.objs : MTerm K → List ℕ
  | .mat o => [o]
  | .bin _ a b => a.objs ++ b.objs
  | .un _ a => a.objs

/-- The expression as a tree of operators, without numbers (all 0). -/
def MTerm.node : MTerm K → MNode K
  | .mat o => .obj o
  | .bin op a b => .bin 0 op a.node b.node
  | .un op a => .un 0 op a.node

/-- Evaluating the C++ expression: every operator clones its operands and allocates a node (`mkBin`, `mkUn`); `k` is the
counter `m_idx_count`.  Dimensions are checked by queries (`verifyDim` in `eval` and `devalF`, e.g.
GenericMatSum.hpp:97, 123), not here. -/
def MTerm.build : MTerm K → ℕ → MNode K × ℕ
  | .mat o, k => (.obj o, k)
  | .bin op a b, k => mkBin op (a.build k).1 (b.build (a.build k).2).1 (b.build (a.build k).2).2
  | .un op a, k => mkUn op (a.build k).1 (a.build k).2

/-- The padding requests of the convolutions of an expression (ghost, see `MEnv`). -/
def MNode.reqs (E : MEnv K) : MNode K → Set PadReq
  | .obj _ => ∅
  | .bin _ op a b => {q | ∃ sx sy px py, op = .conv sx sy px py ∧ q = ⟨(a.dims E).1, (a.dims E).2, px, py⟩} ∪
      (a.reqs E ∪ b.reqs E)
  | .un _ _ a => a.reqs E

/-- The state of a program that builds matrices: the matrices, how many there are, the counter `m_idx_count`, the next
free scalar handle, the numbers of the elements of `Matrix<Type>` objects, the registry of identity matrices
(MatrixBasics.cpp:28-55). -/
structure MBld (K : Type) where
  E : MEnv K
  nobj : ℕ
  next : ℕ
  nh : ℕ
  cv : ℕ → Option K
  eyes : ℕ → Option ℕ

/-- The start of a program. -/
def MBld.init : MBld K where
  E := { kind := fun _ => .num, rows := fun _ => 1, cols := fun _ => 1, el := fun _ _ _ => 0, vid := id }
  nobj := 0
  next := 0
  nh := 0
  cv := fun _ => none
  eyes := fun _ => none

/-- The kinds of matrices that constructors make. -/
inductive MNew (K : Type)
  | num (A : ℕ → ℕ → K) | par | var | exp

/-- The kind of a new matrix. -/
def MNew.kind : MNew K → MKind K
  | .num _ => .num
  | .par => .par
  | .var => .var
  | .exp => .exp

/-- The number of element `(i,j)`, if it is a number. -/
def MNew.elem : MNew K → ℕ → ℕ → Option K
  | .num A, i, j => some (A i j)
  | _, _, _ => none

/-- `Matrix<T>(r, c, ...)` (MatrixConstructors.ipp:61-84): the dimensions must be positive, the matrix and every
element are new. -/
def MBld.newMat (b : MBld K) (t : MNew K) (r c : ℕ) : Option (ℕ × MBld K) :=
  if 0 < r ∧ 0 < c then
    some (b.nobj, { b with
      E := { b.E with
        kind := Function.update b.E.kind b.nobj t.kind
        rows := Function.update b.E.rows b.nobj r
        cols := Function.update b.E.cols b.nobj c
        el := Function.update b.E.el b.nobj fun i j => b.nh + (i * c + j) }
      nobj := b.nobj + 1
      next := b.next + 1
      nh := b.nh + r * c
      cv := fun h => if b.nh ≤ h ∧ h < b.nh + r * c then t.elem ((h - b.nh) / c) ((h - b.nh) % c) else b.cv h })
  else none

/-- `MatrixBasics::Eye(n)` (MatrixBasics.cpp:28-55). -/
def MBld.eye (b : MBld K) (n : ℕ) : Option (ℕ × MBld K) :=
  match b.eyes n with
  | some o => some (o, b)
  | none => (b.newMat (.num fun i j => if i = j then 1 else 0) n n).map fun r =>
      (r.1, { r.2 with eyes := Function.update r.2.eyes n (some r.1) })

/-- `m_gh_vec.push_back(&(expr * Eye(expr.getNumColumns())))` with `m_rows`, `m_cols` set to those of `expr`
(Matrix.hpp:190-206, 217-241), for the object `o`. -/
def MBld.bind (b : MBld K) (o : ℕ) (e : MNode K) : Option (MBld K) :=
  (b.eye (e.dims b.E).2).map fun r =>
    { r.2 with
      E := { r.2.E with
        kind := Function.update r.2.E.kind o (.form (e.clone r.2.next).2 (e.clone r.2.next).1 r.1)
        rows := Function.update r.2.E.rows o (e.dims b.E).1
        cols := Function.update r.2.E.cols o (e.dims b.E).2
        pads := r.2.E.pads ∪ e.reqs b.E }
      next := (e.clone r.2.next).2 + 1 }

/-- `Matrix<Expression> Y = t;` (Matrix.hpp:188-206): the number of the new matrix and the state. -/
def MBld.defNew (b : MBld K) (t : MTerm K) : Option (ℕ × MBld K) :=
  (MBld.bind { b with nobj := b.nobj + 1, next := (t.build b.next).2 + 1 } b.nobj (t.build b.next).1).map fun b' =>
    (b.nobj, b')

/-- `Y = t;` for an existing `Matrix<Expression>` that `t` does not mention (Matrix.hpp:210-243). -/
def MBld.redef (b : MBld K) (o : ℕ) (t : MTerm K) : Option (MBld K) :=
  MBld.bind { b with next := (t.build b.next).2 } o (t.build b.next).1

end CoolDiff
