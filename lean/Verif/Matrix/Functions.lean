import Verif.Matrix.Expr

/-!
# Matrix functions defined by other operators (model)

Model of the operators and functions of `CommonMatFunctions.hpp:324-486` and of the mixed
number/matrix operators, which are expressions built from the operator nodes of `Expr.lean`.

The first argument of every function is the next free number `m_idx_count`; the result is the
expression and the new counter.  `OnesRef`, `EyeRef` and `ZerosRef` return references to registered
constant matrices; here their object numbers are arguments (`o`, `o1`, `o2`, `z`), and the theorems
say what these objects must hold.  The allocator-type assertions are not modelled (one allocator).
-/

set_option linter.unusedSectionVars false

namespace CoolDiff

variable {K : Type} [Field K] [DecidableEq K]

/-- `cloneExp()`: a named matrix is returned itself (MatrixConstructors.ipp:117-119), an operator node
is rebuilt from clones of its operands with a new number (GenericMatSum.hpp:85-87, 371-373, 569-571,
GenericMatSub.hpp:85-87, GenericMatProduct.hpp:88-90, 402-404, 610-612, GenericMatHadamard.hpp:91-93,
GenericMatTranspose.hpp:75-77, GenericMatInv.hpp:85-87, GenericMatDet.hpp:85-87,
GenericMatUnary.hpp:43). -/
def MNode.clone : MNode K → ℕ → MNode K × ℕ
  | .obj o, k => (.obj o, k)
  | .bin _ op a b, k =>
    let r := a.clone k
    let s := b.clone r.2
    (.bin s.2 op r.1 s.1, s.2 + 1)
  | .un _ op a, k =>
    let r := a.clone k
    (.un r.2 op r.1, r.2 + 1)

/-- The binary operators: clone both operands, allocate the node.  GenericMatSum.hpp:808-818,
GenericMatSub.hpp:326-337, GenericMatProduct.hpp:857-867, GenericMatHadamard.hpp:359-370. -/
def mkBin (op : MBin) (a b : MNode K) (k : ℕ) : MNode K × ℕ := (MNode.bin 0 op a b).clone k

/-- The operators with one matrix operand: clone it, allocate the node.  GenericMatSum.hpp:820-826,
833-843, GenericMatProduct.hpp:869-875, 903-912, GenericMatTranspose.hpp:248-254,
GenericMatInv.hpp:280-285, GenericMatDet.hpp:312-317, GenericMatUnary.hpp:148-153. -/
def mkUn (op : MUn K) (a : MNode K) (k : ℕ) : MNode K × ℕ := (MNode.un 0 op a).clone k

/-- `X / u` for a number `u`.  GenericMatProduct.hpp:883-887. -/
def divNum (x : MNode K) (u : K) (k : ℕ) : MNode K × ℕ :=
  let x' := x.clone k
  mkUn (.smul (1 / u)) x'.1 x'.2

/-- `X % Y`.  GenericMatProduct.hpp:889-897. -/
def divInv (x y : MNode K) (k : ℕ) : MNode K × ℕ :=
  let x' := x.clone k
  let y' := y.clone x'.2
  let i := mkUn .inv y'.1 y'.2
  mkBin .mul x'.1 i.1 i.2

/-- `v - X` for a number `v`.  GenericMatSub.hpp:340-344. -/
def numSub (v : K) (x : MNode K) (k : ℕ) : MNode K × ℕ :=
  let x' := x.clone k
  let m := mkUn (.smul (-1)) x'.1 x'.2
  mkUn (.sadd v) m.1 m.2

/-- `X - v` for a number `v`: `X + (-1) * v`, which is `(-1) * v + X`.  GenericMatSub.hpp:347-351,
GenericMatSum.hpp:828-832. -/
def subNum (x : MNode K) (v : K) (k : ℕ) : MNode K × ℕ :=
  let x' := x.clone k
  mkUn (.sadd (-1 * v)) x'.1 x'.2

/-- `Axis`. -/
inductive MAxis | row | column | all
deriving DecidableEq

/-- `broadcast<axis>(X, n)`; `o1` is `Ones(n, 1)`, `o2` is `Ones(1, n)`.  CommonMatFunctions.hpp:344-359. -/
def broadcast (E : MEnv K) (ax : MAxis) (x : MNode K) (o1 o2 : ℕ) (k : ℕ) :
    Option (MNode K × ℕ) :=
  if (x.dims E).2 = 1 ∨ (x.dims E).1 = 1 then
    match ax with
    | .column => some (mkBin .mul x (.obj o2) k)
    | .row => some (mkBin .mul (.obj o1) x k)
    | .all =>
      let p := mkBin .mul (.obj o1) x k
      some (mkBin .mul p.1 (.obj o2) p.2)
  else none

/-- `Sigma<axis>(X)`; `o1` is `Ones(1, rows)`, `o2` is `Ones(cols, 1)`.  CommonMatFunctions.hpp:362-374. -/
def sigma (ax : MAxis) (x : MNode K) (o1 o2 : ℕ) (k : ℕ) : MNode K × ℕ :=
  match ax with
  | .row => mkBin .mul (.obj o1) x k
  | .column => mkBin .mul x (.obj o2) k
  | .all =>
    let p := mkBin .mul (.obj o1) x k
    mkBin .mul p.1 (.obj o2) p.2

/-- `trace(X)`; `eye` is `Eye(rows)`.  CommonMatFunctions.hpp:377-384. -/
def mtrace (E : MEnv K) (x : MNode K) (eye o1 o2 : ℕ) (k : ℕ) : Option (MNode K × ℕ) :=
  if (x.dims E).1 = (x.dims E).2 then
    let h := mkBin .had x (.obj eye) k
    some (sigma .all h.1 o1 o2 h.2)
  else none

/-- `MatrixFrobeniusNorm(X)`.  CommonMatFunctions.hpp:387-390. -/
def frobenius (sqrtM : MUn K) (x : MNode K) (o1 o2 : ℕ) (k : ℕ) : MNode K × ℕ :=
  let h := mkBin .had x x k
  let s := sigma .all h.1 o1 o2 h.2
  mkUn sqrtM s.1 s.2

/-- Element-wise `X / Y`.  CommonMatFunctions.hpp:324-341. -/
def elemDiv (E : MEnv K) (expM logM : MUn K) (x y : MNode K) (k : ℕ) : Option (MNode K × ℕ) :=
  if (x.dims E).1 = (y.dims E).1 ∧ (x.dims E).2 = (y.dims E).2 then
    let a := mkUn logM x k
    let b := mkUn logM y a.2
    let d := mkBin .sub a.1 b.1 b.2
    some (mkUn expM d.1 d.2)
  else none

/-- The constant matrices of `concat<VERTICAL>(X, Y)`.  CommonMatFunctions.hpp:405-409.
`CreateMatrix` yields a zero matrix. -/
def concatVA (π : Sched) (xr yr : ℕ) : Option (Mat K) := do
  let a ← Mat.new (xr + yr) xr
  let e ← Mat.eye π xr
  a.setBlock π 0 (xr - 1) 0 (xr - 1) e

/-- See `concatVA`. -/
def concatVB (π : Sched) (xr yr : ℕ) : Option (Mat K) := do
  let b ← Mat.new (xr + yr) yr
  let e ← Mat.eye π yr
  b.setBlock π xr (xr + yr - 1) 0 (yr - 1) e

/-- The constant matrices of `concat<HORIZONTAL>(X, Y)`.  CommonMatFunctions.hpp:415-419. -/
def concatHA (π : Sched) (xc yc : ℕ) : Option (Mat K) := do
  let a ← Mat.new xc (xc + yc)
  let e ← Mat.eye π xc
  a.setBlock π 0 (xc - 1) 0 (xc - 1) e

/-- See `concatHA`. -/
def concatHB (π : Sched) (xc yc : ℕ) : Option (Mat K) := do
  let b ← Mat.new yc (xc + yc)
  let e ← Mat.eye π yc
  b.setBlock π 0 (yc - 1) xc (xc + yc - 1) e

/-- `concat<VERTICAL>(X, Y)`, `A` and `B` being the objects with contents `concatVA`, `concatVB`.
CommonMatFunctions.hpp:402-411. -/
def concatV (E : MEnv K) (x y : MNode K) (A B : ℕ) (k : ℕ) : Option (MNode K × ℕ) :=
  if (x.dims E).2 = (y.dims E).2 then
    let p := mkBin .mul (.obj A) x k
    let q := mkBin .mul (.obj B) y p.2
    some (mkBin .add p.1 q.1 q.2)
  else none

/-- `concat<HORIZONTAL>(X, Y)`.  CommonMatFunctions.hpp:412-421. -/
def concatH (E : MEnv K) (x y : MNode K) (A B : ℕ) (k : ℕ) : Option (MNode K × ℕ) :=
  if (x.dims E).1 = (y.dims E).1 then
    let p := mkBin .mul x (.obj A) k
    let q := mkBin .mul y (.obj B) p.2
    some (mkBin .add p.1 q.1 q.2)
  else none

/-- `SoftMax<axis>(X)`; `o1` is `Ones(1, rows)`, `o2` is `Ones(cols, 1)` (inside `Sigma`), `r1` is
`Ones(rows, 1)`, `r2` is `Ones(1, cols)`.  CommonMatFunctions.hpp:425-436. -/
def softMax (expM logM : MUn K) (ax : MAxis) (x : MNode K) (o1 o2 r1 r2 : ℕ) (k : ℕ) :
    MNode K × ℕ :=
  let e := mkUn expM x k
  let s := sigma ax e.1 o1 o2 e.2
  let l := mkUn logM s.1 s.2
  let b := match ax with
    | .row => mkBin .mul (.obj r1) l.1 l.2
    | .column => mkBin .mul l.1 (.obj r2) l.2
    | .all =>
      let p := mkBin .mul (.obj r1) l.1 l.2
      mkBin .mul p.1 (.obj r2) p.2
  let d := mkBin .sub x b.1 b.2
  mkUn expM d.1 d.2

/-- `pow<N>(X)` for a square `X`.  CommonMatFunctions.hpp:439-453. -/
def powM (eye : ℕ) (x : MNode K) : ℕ → ℕ → MNode K × ℕ
  | 0, k => (.obj eye, k)
  | N + 1, k =>
    let p := powM eye x N k
    mkBin .mul x p.1 p.2

/-- `Factorial(n)` in `size_t` arithmetic.  src/Matrix/CommonMatFunctions.cpp:26-32. -/
def factU64 : ℕ → ℕ
  | 0 => 1
  | n + 1 => (n + 1) * factU64 n % 2 ^ 64

/-- `MatrixExp<N>(X)` for a square `X`.  CommonMatFunctions.hpp:456-470. -/
def matrixExp (eye : ℕ) (x : MNode K) : ℕ → ℕ → MNode K × ℕ
  | 0, k => (.obj eye, k)
  | N + 1, k =>
    let p := powM eye x (N + 1) k
    let d := divNum p.1 ((factU64 (N + 1) : ℕ) : K) p.2
    let r := matrixExp eye x N d.2
    mkBin .add d.1 r.1 r.2

/-- `MatrixLog<N>(X)` for a square `X`; `z` is `Zeros(rows, rows)`.  CommonMatFunctions.hpp:473-487. -/
def matrixLog (eye z : ℕ) (x : MNode K) : ℕ → ℕ → MNode K × ℕ
  | 0, k => (.obj z, k)
  | N + 1, k =>
    let d := mkBin .sub (.obj eye) x k
    let p := powM eye d.1 (N + 1) d.2
    let m := mkUn (.smul (-1 / ((N + 1 : ℕ) : K))) p.1 p.2
    let r := matrixLog eye z x N m.2
    mkBin .add m.1 r.1 r.2

end CoolDiff
