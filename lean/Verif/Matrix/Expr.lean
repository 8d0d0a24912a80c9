import Verif.Matrix.Backend
import Mathlib.Logic.Function.Basic

/-!
# Matrix expressions: named matrices, operator nodes, evaluation and forward differentiation

Model of `Matrix<T>::eval / devalF / reset / resetImpl` (MatrixVirtuals.ipp, MatrixUtils.ipp) and of
the operator nodes of `include/Matrix/BinaryOps` and `include/Matrix/UnaryOps`, on top of the
kernels (`Backend`).

Simplifications.

* The elements of named matrices are scalar handles.  What the scalar layer answers about a handle
  (`TensorR1::Eval`, `PreComp` + `DevalR`) is given by `Scal`; the scalar layer itself is modelled
  in `Verif/Scalar`.
* A `Matrix<Expression>` bound to a formula has exactly one formula (`m_gh_vec` of length one) and
  formulas do not mention themselves, directly or indirectly; its dimensions do not change.
* Pointers to result matrices are replaced by the matrices they point to.  This is exact here: a
  result buffer is owned by one operator node, operator nodes form trees (every operator clones its
  operands), and inside one query a buffer is only rewritten with the value it already holds.  The
  null-pointer tests `left_mat == m ? nullptr : m` of the operators then never fire.
* `MatrixBasics::Eye` and `Ones` return registered constant matrices; here they are built anew.
-/

set_option linter.unusedSectionVars false

namespace CoolDiff

variable {K : Type} [Field K] [DecidableEq K]

/-- Binary operators with two matrix operands: `+`, `-`, `*`, `^` (Hadamard) and `conv` with strides
and pads.  include/Matrix/BinaryOps/GenericMat{Sum,Sub,Product,Hadamard,Conv}.hpp. -/
inductive MBin | add | sub | mul | had | conv (sx sy px py : ℕ)
deriving DecidableEq

/-- Operators with one matrix operand: `c + X`, `c * X` with a number; `s + X`, `s * X` with a
scalar expression (handle `s`); `transpose`, an element-wise function with its derivative
(`UNARY_MATRIX_OPERATOR`), `inv`, `det`.
GenericMatSum.hpp:329-, 524-; GenericMatProduct.hpp:352-, 565-; include/Matrix/UnaryOps. -/
inductive MUn (K : Type)
  | sadd (c : K) | smul (c : K) | saddE (s : ℕ) | smulE (s : ℕ)
  | tr | map (f df : K → K) | inv | det

/-- A matrix expression: a named matrix (object number) or an operator node with its own number
(`m_nidx`, drawn from the global counter, CommonHeader.hpp:371). -/
inductive MNode (K : Type)
  | obj (o : ℕ)
  | bin (n : ℕ) (op : MBin) (a b : MNode K)
  | un (n : ℕ) (op : MUn K) (a : MNode K)

/-- What kind of matrix an object is: `Matrix<Type>`, `Matrix<Parameter>`, `Matrix<Variable>`,
`Matrix<Expression>` holding scalar expressions, or `Matrix<Expression>` bound to a formula `e`,
stored as the product node number `n` of `e` and the registered identity matrix `eye`
(Matrix.hpp:188-207, 211-242). -/
inductive MKind (K : Type)
  | num | par | var | exp | form (n : ℕ) (e : MNode K) (eye : ℕ)

/-- The scalar layer: value of a handle (`TensorR1::Eval`), and derivative of a handle with respect
to variable number `v` (`TensorR1::PreComp` then `TensorR1::DevalR`). -/
structure Scal (K : Type) where
  val : ℕ → K
  der : ℕ → ℕ → K

/-- The matrices of a program: kind, dimensions, scalar handle of every element, and the variable
number (`m_nidx`) of a handle that is a `Variable`.  `pads` and `dpads` are ghost: the padding
requests that convolutions of this program, and their forward derivatives, ever make; no function of
the model reads them. -/
structure MEnv (K : Type) where
  kind : ℕ → MKind K
  rows : ℕ → ℕ
  cols : ℕ → ℕ
  el : ℕ → ℕ → ℕ → ℕ
  vid : ℕ → ℕ
  pads : Set PadReq := ∅
  dpads : Set PadReq := ∅

/-- The padding requests of a program. -/
def MEnv.P (E : MEnv K) : Pads := ⟨E.pads, E.dpads, E.pads⟩

/-- The expression stored in `m_gh_vec` of a formula matrix.  Matrix.hpp:206, 241. -/
def MEnv.item (n : ℕ) (e : MNode K) (eye : ℕ) : MNode K := .bin n .mul e (.obj eye)

/-- A key of the reverse-mode cache: the number (`m_nidx`) of a named matrix or of an operator node.
All numbers are drawn from one counter, so the two kinds never collide. -/
inductive MKey | obj (o : ℕ) | node (n : ℕ)
deriving DecidableEq

/-- `OMMatPair`: an unordered map from numbers to matrices, as the list of its entries.
CommonHeader.hpp (`OMMatPair`). -/
abbrev MCache (K : Type) := List (MKey × Mat K)

/-- The mutable state of a `Matrix<T>` object: `m_visited`, `m_eval`, `m_devalf`, `mp_result`,
`mp_dresult`, `m_cache`.  Matrix.hpp:99-129, MetaMatrix.hpp. -/
structure MObj (K : Type) where
  visited : Bool := false
  evald : Bool := false
  devald : Bool := false
  result : Option (Mat K) := none
  dresult : Option (Mat K) := none
  cache : MCache K := []

/-- Program state: objects and, for every operator node, the work buffers it sees: its own (numbers
below 20) and those of the convolution handlers (from 20 on), which all nodes share. -/
structure MSt (K : Type) where
  obj : ℕ → MObj K
  slot : ℕ → Slots K

namespace MSt
/-- Replace the state of object `o`. -/
def setO (s : MSt K) (o : ℕ) (v : MObj K) : MSt K := { s with obj := Function.update s.obj o v }
/-- Replace the work buffers seen by operator node `n`: its own are private, those of the handlers are
shared by all nodes. -/
def setN (s : MSt K) (n : ℕ) (a : Slots K) : MSt K :=
  { s with slot := fun n' k => if n' = n ∨ 20 ≤ k then a k else s.slot n' k }
/-- A program before any query. -/
def fresh : MSt K := ⟨fun _ => {}, fun _ _ => none⟩
end MSt

/-- Everything a query needs to know: the kernels, the execution order of parallel loops, the
matrices and the scalar layer. -/
structure MCtx (K : Type) where
  B : Backend K
  π : Sched
  E : MEnv K
  sc : Scal K

/-- Dimensions of the result of a binary operator: rows of the left, columns of the right operand
(GenericMatSum.hpp:71-78, GenericMatSub.hpp:69-76, GenericMatProduct.hpp:64-71,
GenericMatHadamard.hpp:70-77); for `conv` GenericMatConv.hpp:77-84 (the wrap-around of `size_t` when
the kernel is larger than the padded input is excluded by `dimOk`). -/
def MBin.odims : MBin → ℕ × ℕ → ℕ × ℕ → ℕ × ℕ
  | .conv sx sy px py, a, b => (convDim a.1 px b.1 sx, convDim a.2 py b.2 sy)
  | _, a, b => (a.1, b.2)

namespace MNode

/-- `getNumRows()` and `getNumColumns()`.  Binary operators: `MBin.odims`; `transpose`: swapped (GenericMatTranspose.hpp:55-62); `det`: one
(GenericMatDet.hpp:64-71); the others: the operand's (GenericMatUnary.hpp:39-40,
GenericMatInv.hpp:64-71, GenericMatProduct.hpp:381-388, GenericMatSum.hpp:350-357). -/
def dims (E : MEnv K) : MNode K → ℕ × ℕ
  | .obj o => (E.rows o, E.cols o)
  | .bin _ op a b => op.odims (a.dims E) (b.dims E)
  | .un _ .tr a => ((a.dims E).2, (a.dims E).1)
  | .un _ .det _ => (1, 1)
  | .un _ _ a => a.dims E

/-- The matrices mentioned by an expression. -/
def objs : MNode K → List ℕ
  | .obj o => [o]
  | .bin _ _ a b => a.objs ++ b.objs
  | .un _ _ a => a.objs

end MNode

/-- `verifyDim()` of the binary operators.  GenericMatSum.hpp:41-52, GenericMatSub.hpp:41-52,
GenericMatHadamard.hpp:41-52 (equal dimensions), GenericMatProduct.hpp:42-49 (inner dimensions).
`conv` (GenericMatConv.hpp:45-48 and the constructor, 70-73): positive strides and a kernel that fits
into the padded input.  Simplification: the code tests `(int)rows > 0 || (int)cols > 0` on wrapped
numbers and so lets some kernels pass that do not fit; here they are rejected. -/
def MBin.dimOk : MBin → ℕ × ℕ → ℕ × ℕ → Bool
  | .mul, a, b => a.2 == b.1
  | .conv sx sy px py, a, b => 0 < sx && 0 < sy && b.1 ≤ a.1 + 2 * px && b.2 ≤ a.2 + 2 * py
  | _, a, b => a.1 == b.1 && a.2 == b.2

/-- `verifyDim()` of `inv` and `det`: square operand.  GenericMatInv.hpp:39-45,
GenericMatDet.hpp:39-45.  The other operators check nothing. -/
def MUn.dimOk : MUn K → ℕ × ℕ → Bool
  | .inv, a => a.1 == a.2
  | .det, a => a.1 == a.2
  | _, _ => true

/-! ## Operator nodes -/

/-- `eval()` after the operands are evaluated.  GenericMatSum.hpp:113-118, GenericMatSub.hpp:112-117,
GenericMatProduct.hpp:109-112, GenericMatHadamard.hpp:112-116, GenericMatConv.hpp:118-121. -/
def MBin.eval (c : MCtx K) (op : MBin) (L R : Mat K) (a : Slots K) : Option (Slots K × Mat K) :=
  match op with
  | .add => kern 0 (c.B.add (.ext L) (.ext R)) a
  | .sub => kern 0 (c.B.sub (.ext L) (.ext R)) a
  | .mul => kern 0 (c.B.mul L R) a
  | .had => kern 0 (c.B.hadamard (.ext L) (.ext R)) a
  | .conv sx sy px py => c.B.conv sx sy px py L R 0 a

/-- `eval()` after the operand is evaluated.  GenericMatSum.hpp:389 and 583-588,
GenericMatProduct.hpp:417 and 637-642, GenericMatTranspose.hpp:95, GenericMatUnary.hpp:48-49,
GenericMatInv.hpp:106, GenericMatDet.hpp:106. -/
def MUn.eval (c : MCtx K) (op : MUn K) (R : Mat K) (a : Slots K) : Option (Slots K × Mat K) :=
  match op with
  | .sadd v => kern 0 (c.B.scalarAdd v (.ext R)) a
  | .smul v => kern 0 (c.B.scalarMul v (.ext R)) a
  | .saddE s => kern 0 (c.B.scalarAdd (c.sc.val s) (.ext R)) a
  | .smulE s => kern 0 (c.B.scalarMul (c.sc.val s) (.ext R)) a
  | .tr => kern 0 (c.B.transpose R) a
  | .map f _ => kern 0 (c.B.unary f (.ext R)) a
  | .inv => kern 0 (c.B.inverse R) a
  | .det => kern 0 (c.B.det R) a

/-- `devalF(X)` of the binary operators, after `devalF` and `eval` of both operands; `xr × xc` are
the dimensions of `X`.  GenericMatSum.hpp:121-145, GenericMatSub.hpp:120-141,
GenericMatProduct.hpp:140-168, GenericMatHadamard.hpp:141-159, GenericMatConv.hpp:125-157. -/
def MBin.fwd (c : MCtx K) (xr xc : ℕ) (op : MBin) (L R dL dR : Mat K) (a : Slots K) :
    Option (Slots K × Mat K) :=
  match op with
  | .add => kern 1 (c.B.add (.ext dL) (.ext dR)) a
  | .sub => kern 1 (c.B.sub (.ext dL) (.ext dR)) a
  | .mul => do
    let Ir ← Mat.eye c.π xr
    let Ic ← Mat.eye c.π xc
    let (a, m4) ← kern 4 (c.B.kron L Ir) a
    let (a, m5) ← kern 5 (c.B.kron R Ic) a
    let (a, m2) ← kern 2 (c.B.mul m4 dR) a
    let (a, m3) ← kern 3 (c.B.mul dL m5) a
    kern 1 (c.B.add (.ext m2) (.ext m3)) a
  | .had => do
    let O ← Mat.ones xr xc
    let (a, m4) ← kern 4 (c.B.kron L O) a
    let (a, m5) ← kern 5 (c.B.kron R O) a
    let (a, m2) ← kern 2 (c.B.hadamard (.ext m4) (.ext dR)) a
    let (a, m3) ← kern 3 (c.B.hadamard (.ext dL) (.ext m5)) a
    kern 1 (c.B.add (.ext m2) (.ext m3)) a
  | .conv sx sy px py => c.B.dervConv xr xc sx sy px py L dL R dR 1 a

/-- The result buffer of `Details::DevalR`: a new matrix unless the dimensions agree.
Matrix.hpp:412-416. -/
def derBuf (xr xc : ℕ) : Option (Mat K) → Option (Mat K)
  | none => Mat.new xr xc
  | some m => if xr ≠ m.rows ∨ xc ≠ m.cols then Mat.new xr xc else some m

/-- `Details::DevalR(exp, X, result)`: the derivatives of a scalar expression with respect to every
element of `X`.  Matrix.hpp:406-431. -/
def scalDer (c : MCtx K) (X : ℕ) (s : ℕ) (result : Option (Mat K)) : Option (Mat K) :=
  let xr := c.E.rows X
  let xc := c.E.cols X
  (derBuf xr xc result).bind fun res => forEach (List.range (xr * xc))
    (fun n m => m.rawPut? n (c.sc.der s (c.E.vid (c.E.el X (n / xc) (n % xc))))) res

/-- `devalF(X)` of the operators with one matrix operand, after `devalF` and `eval` of the operand;
`rf × cf` are the operand's dimensions, `xr × xc` those of `X`.  (`c + X`, `c * X`, `transpose` do
not evaluate the operand; see `fwdE`.)  GenericMatSum.hpp:396-401, 591-618;
GenericMatProduct.hpp:424-441, 645-680; GenericMatTranspose.hpp:102-121; GenericMatUnary.hpp:52-67;
GenericMatInv.hpp:113-142; GenericMatDet.hpp:113-162. -/
def MUn.fwd (c : MCtx K) (X : ℕ) (rf cf : ℕ) (op : MUn K) (R dR : Mat K) (a : Slots K) :
    Option (Slots K × Mat K) :=
  let xr := c.E.rows X
  let xc := c.E.cols X
  match op with
  | .sadd _ => some (Function.update a 1 (some dR), dR)
  | .smul v => kern 1 (c.B.scalarMul v (.ext dR)) a
  | .saddE s => do
    let (a, m2) ← kern 2 (scalDer c X s) a
    let O ← Mat.ones rf cf
    let (a, m3) ← kern 3 (c.B.kron O m2) a
    kern 1 (c.B.add (.ext m3) (.ext dR)) a
  | .smulE s => do
    let (a, m2) ← kern 2 (scalDer c X s) a
    let Of ← Mat.ones rf cf
    let Ox ← Mat.ones xr xc
    let (a, m5) ← kern 5 (c.B.kron Of m2) a
    let (a, m6) ← kern 6 (c.B.kron R Ox) a
    let (a, m4) ← kern 4 (c.B.scalarMul (c.sc.val s) (.ext dR)) a
    let (a, m3) ← kern 3 (c.B.hadamard (.ext m5) (.ext m6)) a
    kern 1 (c.B.add (.ext m4) (.ext m3)) a
  | .tr => kern 1 (c.B.dervTranspose rf cf xr xc dR) a
  | .map _ df => do
    let (a, m1) ← kern 1 (c.B.unary df (.ext R)) a
    let Ox ← Mat.ones xr xc
    let (a, m2) ← kern 2 (c.B.kron m1 Ox) a
    kern 3 (c.B.hadamard (.ext m2) (.ext dR)) a
  | .inv => do
    let (a, m1) ← kern 1 (c.B.inverse R) a
    let Ir ← Mat.eye c.π xr
    let Ic ← Mat.eye c.π xc
    let (a, m2) ← kern 2 (c.B.kron m1 Ir) a
    let (a, m3) ← kern 3 (c.B.kron m1 Ic) a
    let (a, m4) ← kern 4 (c.B.mul m2 dR) a
    let (a, m5) ← kern 5 (c.B.mul m4 m3) a
    kern 6 (c.B.scalarMul (-1) (.ext m5)) a
  | .det => do
    let (a, m1) ← kern 1 (c.B.inverse R) a
    let (a, m2) ← kern 2 (c.B.transpose m1) a
    let (a, m9) ← kern 9 (c.B.det R) a
    let d ← m9.get? 0 0
    let (a, m10) ← kern 10 (c.B.scalarMul d (.ext m2)) a
    let Ox ← Mat.ones xr xc
    let (a, m3) ← kern 3 (c.B.kron m10 Ox) a
    let (a, m4) ← kern 4 (c.B.hadamard (.ext m3) (.ext dR)) a
    let Or ← Mat.ones 1 rf
    let Ir ← Mat.eye c.π xr
    let (a, m5) ← kern 5 (c.B.kron Or Ir) a
    let Oc ← Mat.ones rf 1
    let Ic ← Mat.eye c.π xc
    let (a, m6) ← kern 6 (c.B.kron Oc Ic) a
    let (a, m7) ← kern 7 (c.B.mul m5 m4) a
    kern 8 (c.B.mul m7 m6) a

/-- Does the forward rule of this operator also evaluate its operand?  (Same lines as `MUn.fwd`.) -/
def MUn.evalsOperand : MUn K → Bool
  | .sadd _ | .smul _ | .saddE _ | .tr => false
  | _ => true

/-- Does the forward rule of this operator also evaluate its operands?  Sums and differences do
not.  GenericMatSum.hpp:126-127, GenericMatSub.hpp:125-126, GenericMatProduct.hpp:121-126,
GenericMatHadamard.hpp:123-128. -/
def MBin.evalsOperands : MBin → Bool
  | .add | .sub => false
  | _ => true

/-! ## Evaluation -/

section eval

/-- `eval()` of an expression, given `eval()` of the named matrices. -/
def evalE (c : MCtx K) (ev : ℕ → MSt K → Option (MSt K × Mat K)) :
    MNode K → MSt K → Option (MSt K × Mat K)
  | .obj o, s => ev o s
  | .bin n op x y, s =>
    if op.dimOk (x.dims c.E) (y.dims c.E) then do
      let (s, L) ← evalE c ev x s
      let (s, R) ← evalE c ev y s
      let (a, m) ← op.eval c L R (s.slot n)
      some (s.setN n a, m)
    else none
  | .un n op x, s =>
    if op.dimOk (x.dims c.E) then do
      let (s, R) ← evalE c ev x s
      let (a, m) ← op.eval c R (s.slot n)
      some (s.setN n a, m)
    else none

/-- `setEval()` on a matrix with elements: every element of `mp_result` gets the value of the
corresponding scalar.  MatrixUtils.ipp:94-100. -/
def fillEval (c : MCtx K) (o : ℕ) (res : Mat K) : Option (Mat K) :=
  forEach (List.range (c.E.rows o * c.E.cols o))
    (fun n m => m.rawPut? n (c.sc.val (c.E.el o (n / c.E.cols o) (n % c.E.cols o)))) res

/-- The result of a matrix with elements: pool request, then `setEval` unless `m_eval`.
MatrixVirtuals.ipp:29-41. -/
def leafEval (c : MCtx K) (o : ℕ) (v : MObj K) : Option (Mat K) :=
  (Mat.pool v.result (c.E.rows o) (c.E.cols o)).bind fun r =>
    if v.evald then some r else fillEval c o r

/-- `Matrix<T>::eval()`.  MatrixVirtuals.ipp:27-61.  A formula matrix has no element buffer, so the
pool request and `setEval` are skipped for it; a matrix with elements has no formula.  The first
argument bounds the depth of nested formulas; the theorems show that it does not matter once it is
large enough. -/
def mevalO (c : MCtx K) : ℕ → ℕ → MSt K → Option (MSt K × Mat K)
  | 0, _, _ => none
  | f + 1, o, s =>
    match c.E.kind o with
    | .form n e eye =>
      let s := s.setO o { s.obj o with evald := true }
      if (s.obj o).visited then (s.obj o).result.map fun m => (s, m)
      else do
        let s := s.setO o { s.obj o with visited := true }
        let (s, m) ← evalE c (mevalO c f) (MEnv.item n e eye) s
        let s := s.setO o { s.obj o with result := some m, evald := true }
        some (s, m)
    | _ => do
      let r ← leafEval c o (s.obj o)
      let s := s.setO o { s.obj o with result := some r, evald := true, visited := true }
      some (s, r)

/-! ## Forward differentiation -/

/-- `setDevalF(X)` on a `Matrix<Expression>` with elements.  MatrixUtils.ipp:107-133. -/
def fillDerExp (c : MCtx K) (X o : ℕ) (res : Mat K) : Option (Mat K) :=
  let xr := c.E.rows X
  let xc := c.E.cols X
  forEach (c.π.run _ (pairs (c.E.rows o * c.E.cols o) (xr * xc)))
    (fun p m =>
      let k := p.1 % c.E.cols o
      let l := (p.1 - k) / c.E.cols o
      let j := p.2 % xc
      let i := (p.2 - j) / xc
      m.put? (l * xr + i) (k * xc + j) (c.sc.der (c.E.el o l k) (c.E.vid (c.E.el X i j)))) res

/-- `setDevalF(X)` on the `Matrix<Variable>` `X` itself: only the ones are written.
MatrixUtils.ipp:138-152. -/
def fillDerSelf (c : MCtx K) (X : ℕ) (res : Mat K) : Option (Mat K) :=
  let xr := c.E.rows X
  let xc := c.E.cols X
  forEach (c.π.run _ (List.range (xr * xc)))
    (fun n m =>
      let j := n % xc
      let i := (n - j) / xc
      m.put? (i * xr + i) (j * xc + j) 1) res

/-- `setDevalF(X)` on another `Matrix<Variable>`.  MatrixUtils.ipp:155-177. -/
def fillDerVar (c : MCtx K) (X o : ℕ) (res : Mat K) : Option (Mat K) :=
  let xr := c.E.rows X
  let xc := c.E.cols X
  forEach (c.π.run _ (pairs (c.E.rows o * c.E.cols o) (xr * xc)))
    (fun p m =>
      let k := p.1 % c.E.cols o
      let l := (p.1 - k) / c.E.cols o
      let j := p.2 % xc
      let i := (p.2 - j) / xc
      m.put? (l * xr + i) (k * xc + j)
        (if c.E.vid (c.E.el o l k) = c.E.vid (c.E.el X i j) then 1 else 0)) res

/-- `setDevalF(X)`.  MatrixUtils.ipp:102-180; nothing is written for `Matrix<Type>` and
`Matrix<Parameter>`. -/
def fillDer (c : MCtx K) (X o : ℕ) (res : Mat K) : Option (Mat K) :=
  match c.E.kind o with
  | .exp => fillDerExp c X o res
  | .var => if o = X then fillDerSelf c X res else fillDerVar c X o res
  | _ => some res

/-- `devalF(X)` of an expression, given `devalF(X)` and `eval()` of the named matrices. -/
def fwdE (c : MCtx K) (X : ℕ) (ev fw : ℕ → MSt K → Option (MSt K × Mat K)) :
    MNode K → MSt K → Option (MSt K × Mat K)
  | .obj o, s => fw o s
  | .bin n op x y, s =>
    if op.dimOk (x.dims c.E) (y.dims c.E) then do
      let (s, dL) ← fwdE c X ev fw x s
      let (s, dR) ← fwdE c X ev fw y s
      if op.evalsOperands then do
        let (s, L) ← evalE c ev x s
        let (s, R) ← evalE c ev y s
        let (a, m) ← op.fwd c (c.E.rows X) (c.E.cols X) L R dL dR (s.slot n)
        some (s.setN n a, m)
      else do
        let (a, m) ← op.fwd c (c.E.rows X) (c.E.cols X) dL dR dL dR (s.slot n)
        some (s.setN n a, m)
    else none
  | .un n op x, s =>
    if op.dimOk (x.dims c.E) then do
      let (s, dR) ← fwdE c X ev fw x s
      if op.evalsOperand then do
        let (s, R) ← evalE c ev x s
        let (a, m) ← op.fwd c X (x.dims c.E).1 (x.dims c.E).2 R dR (s.slot n)
        some (s.setN n a, m)
      else do
        let (a, m) ← op.fwd c X (x.dims c.E).1 (x.dims c.E).2 dR dR (s.slot n)
        some (s.setN n a, m)
    else none

/-- The derivative of a matrix with elements: pool request, then `setDevalF` unless `m_devalf`.
MatrixVirtuals.ipp:66-80. -/
def leafFwd (c : MCtx K) (X o : ℕ) (v : MObj K) : Option (Mat K) :=
  (Mat.pool v.dresult (c.E.rows o * c.E.rows X) (c.E.cols o * c.E.cols X)).bind fun r =>
    if v.devald then some r else fillDer c X o r

/-- `Matrix<T>::devalF(X)`.  MatrixVirtuals.ipp:64-100. -/
def mfwdO (c : MCtx K) (X : ℕ) : ℕ → ℕ → MSt K → Option (MSt K × Mat K)
  | 0, _, _ => none
  | f + 1, o, s =>
    match c.E.kind o with
    | .form n e eye =>
      let s := s.setO o { s.obj o with devald := true }
      if (s.obj o).visited then (s.obj o).dresult.map fun m => (s, m)
      else do
        let s := s.setO o { s.obj o with visited := true }
        let (s, d) ← fwdE c X (mevalO c f) (mfwdO c X f) (MEnv.item n e eye) s
        let s := s.setO o { s.obj o with dresult := some d, devald := true }
        let (s, m) ← evalE c (mevalO c f) (MEnv.item n e eye) s
        let s := s.setO o { s.obj o with result := some m, evald := true }
        some (s, d)
    | _ => do
      let r ← leafFwd c X o (s.obj o)
      let s := s.setO o { s.obj o with dresult := some r, devald := true, visited := true }
      some (s, r)

/-! ## Reset -/

/-- `reset()` of an expression (the operator nodes' own flags are never set).
`BINARY_MAT_RESET`, `BINARY_MAT_RIGHT_RESET`, IMatrix.hpp:70-82. -/
def mresetE (rs : ℕ → MSt K → Option (MSt K)) : MNode K → MSt K → Option (MSt K)
  | .obj o, s => rs o s
  | .bin _ _ x y, s => do let s ← mresetE rs x s; mresetE rs y s
  | .un _ _ x, s => mresetE rs x s

/-- Reset the formula of matrix `o`, if it has one.  MatrixVirtuals.ipp:140-146,
MatrixUtils.ipp:206-210. -/
def mresetItem (E : MEnv K) (rs : ℕ → MSt K → Option (MSt K)) (o : ℕ) (s : MSt K) :
    Option (MSt K) :=
  match E.kind o with
  | .form n e eye => mresetE rs (MEnv.item n e eye) s
  | _ => some s

/-- `Matrix<T>::reset()`.  MatrixVirtuals.ipp:132-155. -/
def mresetO (E : MEnv K) : ℕ → ℕ → MSt K → Option (MSt K)
  | 0, _, _ => none
  | f + 1, o, s =>
    (if (s.obj o).visited then mresetItem E (mresetO E f) o
        (s.setO o { s.obj o with visited := false, evald := false, devald := false })
      else some s).bind fun s =>
    some (s.setO o { s.obj o with visited := false, cache := [] })

/-- `Matrix<T>::resetImpl()`.  MatrixUtils.ipp:192-215. -/
def mresetImpl (E : MEnv K) (f o : ℕ) (s : MSt K) : Option (MSt K) :=
  let v : MObj K := { s.obj o with visited := true, evald := false, devald := false,
                                   cache := [] }
  (mresetItem E (mresetO E f) o (s.setO o v)).bind fun s =>
  some (s.setO o { s.obj o with visited := false })

/-! ## Queries -/

/-- `TensorR2::Eval(e)`.  CommonMatFunctions.hpp:45-58: the test `is_same_v<T, Expression>` is false
for every matrix class, so the graph is always reset with `reset()`. -/
def matEval (c : MCtx K) (f : ℕ) (e : MNode K) (s : MSt K) : Option (MSt K × Mat K) := do
  let s ← mresetE (mresetO c.E f) e s
  evalE c (mevalO c f) e s

/-- `TensorR2::DevalF(e, X)`.  CommonMatFunctions.hpp:61-74. -/
def matDevalF (c : MCtx K) (f X : ℕ) (e : MNode K) (s : MSt K) : Option (MSt K × Mat K) := do
  let s ← mresetE (mresetO c.E f) e s
  fwdE c X (mevalO c f) (mfwdO c X f) e s

end eval

end CoolDiff
