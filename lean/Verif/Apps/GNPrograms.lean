import Verif.Apps.GNMatrix
import Verif.Scalar.Real

/-!
# example/GaussNewton/main.cpp (executable model)

`CountRows`, `CountCols`, `LoadData`, `GaussNewton::setData` and the programs `ScalarSolve`, `NonLinearSolve`, `GNMatrix`.

Simplifications.  A data file is given by its lines, a line by the numbers `iss >> value` reads from it; characters are
not modelled.  `X(0, 0) = x;` (main.cpp:140, 162) makes the element share the value and the number of the Variable `x`
(Variable.cpp:27-34, 90-94; C19): the model uses `x` itself as the element.  Matrices are described by an `MEnv`
(`Verif/Matrix/Expr.lean`), in which node numbers stand for the operator objects of the formula.
-/

namespace CoolDiff

/-! ## Data files -/

/-- A text file: its lines (as the numbers they hold), and whether the last line ends with a newline character. -/
structure DataFile (K : Type) where
  lines : List (List K)
  newline : Bool

/-- `CountRows` (example/GaussNewton/main.cpp:27-34): the number of newline characters; 0 if the file cannot be opened. -/
def countRows {K : Type} : Option (DataFile K) → ℕ
  | none => 0
  | some f => if f.newline then f.lines.length else f.lines.length - 1

/-- `CountCols` (example/GaussNewton/main.cpp:37-51): how many numbers the first line holds; 0 if there is none. -/
def countCols {K : Type} : Option (DataFile K) → ℕ
  | none => 0
  | some f => (f.lines.headD []).length

/-- The loop over the lines of a file (example/GaussNewton/main.cpp:74-82, 86-94): `iss >> (*X)(i, j)` for the columns
`j < c` of every line `i`.  Where the line holds no number, the element stays 0. -/
def readInto {K : Type} [Field K] (f : Option (DataFile K)) (c : ℕ) (m : Mat K) : Option (Mat K) :=
  match f with
  | none => some m
  | some f => forEach (pairs f.lines.length c) (fun ij m => m.put? ij.1 ij.2 ((f.lines.getD ij.1 []).getD ij.2 0)) m

/-- `LoadData` (example/GaussNewton/main.cpp:54-97). -/
def loadData {K : Type} [Field K] (fin fout : Option (DataFile K)) : Option (Mat K × Mat K) :=
  if countRows fin = countRows fout ∧ countCols fin = countCols fout then
    (Mat.new (countRows fin) (countCols fin)).bind fun X =>
    (Mat.new (countRows fout) (countCols fout)).bind fun Y =>
    (readInto fin (countCols fin) X).bind fun X =>
    (readInto fout (countCols fout) Y).map fun Y => (X, Y)
  else none

/-- `GaussNewton::setData(X, Y)` with its assertions (example/GaussNewton/src/GaussNewton.cpp:155-160) and
`setDataParameters(PX, PY)` (163-166). -/
def setData {K : Type} (X Y : Mat K) (px py : List ℕ) : Option (GNData K) :=
  if X.rows = Y.rows ∧ X.cols = Y.cols then
    some { dx := some px, x := some X, dy := some py, y := some Y, size := X.rows }
  else none

/-! ## `ScalarSolve` -/

/-- `Variable x{10}; Expression E = x*x - 2*x + 1;` (example/GaussNewton/main.cpp:159-161); objects x=1, E=2.
The constructor is a declaration followed by an assignment (`newExprOf_eq`). -/
noncomputable def squareStart (x0 : ℝ) : St ℝ :=
  define 2 (.addC (.sub (.mul (.var 1) (.var 1)) (.cMul 2 (.var 1))) 1) (newExpr (newVar x0 St.init).2).2

/-- `gn.setOracle(CreateOracle(E, X)).setMaxIterations(n); gn.solve();` and the value of `x` printed at the end
(example/GaussNewton/main.cpp:164-171). -/
noncomputable def scalarSolve (B : Backend ℝ) (llt : Mat ℝ → Mat ℝ → Option (Mat ℝ)) (π : Sched) (n : ℕ) (x0 : ℝ) :
    Option ℝ :=
  (gnSolve realPrim B llt π 2 [1] {} n ({}, squareStart x0)).map fun s => s.2.mem.value 1

/-! ## `NonLinearSolve` -/

/-- `Variable x{10}, y{15}; Matrix<Expression> E(2, 1); E(0, 0) = x * x + y * y - 20; E(1, 0) = x - y + 2;`
(example/GaussNewton/main.cpp:137-145); objects x=1, y=2, the elements of `E` 3 and 4. -/
noncomputable def circleStart (x0 y0 : ℝ) : St ℝ :=
  define 4 (.addC (.sub (.var 1) (.var 2)) 2)
    (define 3 (.subC (.add (.mul (.var 1) (.var 1)) (.mul (.var 2) (.var 2))) 20)
      (newExpr (newExpr (newVar y0 (newVar x0 St.init).2).2).2).2)

/-- The matrices `X(1, 2)` (0) and `E(2, 1)` (1) (example/GaussNewton/main.cpp:139-142). -/
noncomputable def circleEnv (σ : St ℝ) : MEnv ℝ where
  kind := fun o => match o with
    | 0 => .var
    | 1 => .exp
    | _ => .num
  rows := fun o => match o with
    | 1 => 2
    | _ => 1
  cols := fun o => match o with
    | 0 => 2
    | _ => 1
  el := fun o r c => match o with
    | 0 => 1 + c
    | 1 => 3 + r
    | _ => 5
  vid := fun a => σ.defs.nidx a

/-- What the element addresses of `circleEnv` hold. -/
noncomputable def circleEnt (a : ℕ) : Ent ℝ := if a = 0 then .num 0 else if a < 5 then .obj a else .num 0

/-- Matrices and heap of `NonLinearSolve` (example/GaussNewton/main.cpp:137-145). -/
noncomputable def circleCtx (B : Backend ℝ) (π : Sched) (x0 y0 : ℝ) : JCtx ℝ :=
  ⟨B, π, circleEnv (circleStart x0 y0), realPrim, circleEnt⟩

/-- `solve()` as often as `ns` says, with these numbers of iterations, by one driver. -/
noncomputable def gnmSolves (j : JCtx ℝ) (llt : Mat ℝ → Mat ℝ → Option (Mat ℝ)) (f F X : ℕ) (d : GNData ℝ) :
    List ℕ → GNBuf ℝ × JSt ℝ → Option (GNBuf ℝ × JSt ℝ)
  | [], s => some s
  | n :: ns, s => (gnmSolve j llt f F X d n s).bind (gnmSolves j llt f F X d ns)

/-- `NonLinearSolve` (example/GaussNewton/main.cpp:136-156) with `ns = [3, 3]`, `x0 = 10`, `y0 = 15`: the values of `x` and `y`
printed at the end. -/
noncomputable def nonLinearSolve (B : Backend ℝ) (llt : Mat ℝ → Mat ℝ → Option (Mat ℝ)) (π : Sched) (ns : List ℕ)
    (x0 y0 : ℝ) : Option (ℝ × ℝ) :=
  (gnmSolves (circleCtx B π x0 y0) llt 1 1 0 {} ns ({}, (MSt.fresh, circleStart x0 y0))).map fun s =>
    (s.2.2.mem.value 1, s.2.2.mem.value 2)

/-! ## `GNMatrix` -/

/-- `Matrix<Variable> V(1, 3); V[0] = 0.5142; V[1] = 20; V[2] = -20;` `Matrix<Expression> R(2, 2); R(0, 0) = cos(V[0]);
R(0, 1) = sin(V[0]); R(1, 0) = -sin(V[0]); R(1, 1) = cos(V[0]);` `Matrix<Parameter> PX(2, 1), PY(2, 1);`
(example/GaussNewton/main.cpp:104-119); objects V=1,2,3, R=4,5,6,7, Parameters PX=0,1 PY=2,3. -/
noncomputable def rotStart (θ tx ty : ℝ) : St ℝ :=
  (newPar 0 (newPar 0 (newPar 0 (newPar 0
    (define 7 (.fn .cos (.var 1)) (define 6 (.neg (.fn .sin (.var 1)))
      (define 5 (.fn .sin (.var 1)) (define 4 (.fn .cos (.var 1))
        (newExpr (newExpr (newExpr (newExpr
          (assignNum 3 ty (assignNum 2 tx (assignNum 1 θ
            (newVar 0 (newVar 0 (newVar 0 St.init).2).2).2)))).2).2).2).2))))).2).2).2).2

/-- The matrices: `V` (0), its view `t(2, 1, V.getMatrixPtr() + 1)` (1), `R` (2), `PX` (3), `PY` (4),
`J = PY - (R * PX + t)` (5) (example/GaussNewton/main.cpp:104-122), and the 1x1 identity the library keeps (6). -/
noncomputable def rotEnv (σ : St ℝ) : MEnv ℝ where
  kind := fun o => match o with
    | 0 => .var
    | 1 => .var
    | 2 => .exp
    | 3 => .par
    | 4 => .par
    | 5 => .form 50 (.bin 51 .sub (.obj 4) (.bin 52 .add (.bin 53 .mul (.obj 2) (.obj 3)) (.obj 1))) 6
    | _ => .num
  rows := fun o => match o with
    | 1 => 2
    | 2 => 2
    | 3 => 2
    | 4 => 2
    | 5 => 2
    | _ => 1
  cols := fun o => match o with
    | 0 => 3
    | 2 => 2
    | _ => 1
  el := fun o r c => match o with
    | 0 => 1 + c
    | 1 => 2 + r
    | 2 => 4 + 2 * r + c
    | 3 => 8 + r
    | 4 => 10 + r
    | _ => 12
  vid := fun a => σ.defs.nidx a

/-- What the element addresses of `rotEnv` hold. -/
noncomputable def rotEnt (a : ℕ) : Ent ℝ :=
  if a = 0 then .num 0 else if a < 8 then .obj a else if a < 12 then .par (a - 8) else .num 1

/-- Matrices and heap of `GNMatrix` (example/GaussNewton/main.cpp:104-122). -/
noncomputable def rotCtx (B : Backend ℝ) (π : Sched) (θ tx ty : ℝ) : JCtx ℝ :=
  ⟨B, π, rotEnv (rotStart θ tx ty), realPrim, rotEnt⟩

/-- `GNMatrix` (example/GaussNewton/main.cpp:100-134) with the files `fin`, `fout`, starting values `θ`, `tx`, `ty` and `n`
iterations: the values of `V` printed at the end. -/
noncomputable def gnMatrixMain (B : Backend ℝ) (llt : Mat ℝ → Mat ℝ → Option (Mat ℝ)) (π : Sched)
    (fin fout : Option (DataFile ℝ)) (n : ℕ) (θ tx ty : ℝ) : Option (ℝ × ℝ × ℝ) :=
  (loadData fin fout).bind fun XY =>
  (setData XY.1 XY.2 [0, 1] [2, 3]).bind fun d =>
  (gnmSolve (rotCtx B π θ tx ty) llt 2 5 0 d n ({}, (MSt.fresh, rotStart θ tx ty))).map fun s =>
    (s.2.2.mem.value 1, s.2.2.mem.value 2, s.2.2.mem.value 3)

end CoolDiff
