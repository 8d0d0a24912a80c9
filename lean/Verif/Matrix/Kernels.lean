import Verif.Matrix.Mat
import Mathlib.Logic.Function.Basic

/-!
# The numerical kernels (model)

The naive CPU handlers (include/Matrix/MatrixHandler/*/NaiveCPU) statement by statement, the Eigen
handlers (include/Matrix/MatrixHandler/*/Eigen) with Eigen's documented element-wise meaning of the
right hand side, the block operations of `Matrix`, the special matrices and the handler dispatch.
The scalar type is a field with decidable equality (`(Type)(0) != val` in the Kronecker kernel).
-/

set_option linter.unusedSectionVars false

namespace CoolDiff

variable {K : Type} [Field K] [DecidableEq K]

/-- An operand of a kernel: another matrix object, or the result object itself (the reverse pass
calls `MATRIX_ADD(c, x, c)` in place, e.g. GenericMatSum.hpp:242). -/
inductive Src (K : Type) where
  | ext (m : Mat K)
  | self

/-- The operand when the kernel starts (before the result buffer is requested). -/
def Src.mat? (s : Src K) (result : Option (Mat K)) : Option (Mat K) :=
  match s with
  | .ext m => some m
  | .self => result

/-- The operand while the loop runs: an aliased operand sees the writes made so far. -/
def Src.cur (s : Src K) (res : Mat K) : Mat K :=
  match s with
  | .ext m => m
  | .self => res

/-- `std::transform(EXECUTION_PAR left, left + size, right, res, op)` on raw pointers.
MatAddNaiveHandler.hpp:55-58. -/
def transform2 (π : Sched) (op : K → K → K) (l r : Src K) (size : ℕ) (res : Mat K) :
    Option (Mat K) :=
  forEach (π.run ℕ (List.range size)) (fun n m => do
    let a ← (l.cur m).raw? n
    let b ← (r.cur m).raw? n
    m.rawPut? n (op a b)) res

/-- `std::transform(EXECUTION_PAR right, right + size, res, op)`.  MatUnaryNaiveHandler.hpp:46-49. -/
def transform1 (π : Sched) (op : K → K) (r : Src K) (size : ℕ) (res : Mat K) :
    Option (Mat K) :=
  forEach (π.run ℕ (List.range size)) (fun n m => do
    let a ← (r.cur m).raw? n
    m.rawPut? n (op a)) res

/-- Shared body of the three element-wise binary handlers: `nrows`/`rrows`/`lcols`/`ncols` checks,
`MatrixPool(result, nrows, ncols)`, transform.  MatAddNaiveHandler.hpp:31-60,
MatSubNaiveHandler.hpp:26-57, MatHadamardNaiveHandler.hpp:31-61 (they differ only in the lambda). -/
def elementwise2 (op : K → K → K) (π : Sched) (lhs rhs : Src K) (result : Option (Mat K)) :
    Option (Mat K) := do
  let l ← lhs.mat? result
  let r ← rhs.mat? result
  if l.rows = r.rows ∧ r.cols = l.cols then
    let res ← Mat.pool result l.rows r.cols
    transform2 π op lhs rhs (l.rows * r.cols) res
  else none

/-- Shared body of the element-wise one-operand handlers.  MatUnaryNaiveHandler.hpp:31-50,
MatScalarAddNaiveHandler.hpp:29-48, MatScalarMulNaiveHandler.hpp:31-50. -/
def elementwise1 (op : K → K) (π : Sched) (rhs : Src K) (result : Option (Mat K)) :
    Option (Mat K) := do
  let r ← rhs.mat? result
  let res ← Mat.pool result r.rows r.cols
  transform1 π op rhs (r.rows * r.cols) res

namespace Naive

/-- MatAddNaiveHandler.hpp:31-60. -/
def add := elementwise2 (K := K) fun a b => a + b
/-- MatSubNaiveHandler.hpp:26-57. -/
def sub := elementwise2 (K := K) fun a b => a - b
/-- MatHadamardNaiveHandler.hpp:31-61. -/
def hadamard := elementwise2 (K := K) fun a b => a * b
/-- MatScalarAddNaiveHandler.hpp:29-48. -/
def scalarAdd (c : K) := elementwise1 (K := K) fun v => c + v
/-- MatScalarMulNaiveHandler.hpp:31-50. -/
def scalarMul (c : K) := elementwise1 (K := K) fun v => c * v
/-- MatUnaryNaiveHandler.hpp:31-50. -/
def unary (f : K → K) := elementwise1 (K := K) f

/-- The inner loop `tmp += lhs(i,m) * rhs(m,j)` over `m = 0 .. rrows-1`, sequential, `tmp{}` = 0.
MatMulNaiveHandler.hpp:68-76 (without the deprecated `MATRIX_TRANSPOSED_MUL`). -/
def mulInner (lhs rhs : Mat K) (i j : ℕ) : Option K :=
  (List.range rhs.rows).foldlM (fun tmp m => do
    let a ← lhs.get? i m
    let b ← rhs.get? m j
    pure (tmp + a * b)) 0

/-- MatMulNaiveHandler.hpp:31-81.  The result object is distinct from the operands (asserted there:
lines 48-49), so the operands are plain matrices. -/
def mul (π : Sched) (lhs rhs : Mat K) (result : Option (Mat K)) : Option (Mat K) :=
  if lhs.cols = rhs.rows then do
    let res ← Mat.pool result lhs.rows rhs.cols
    forEach (π.run ℕ (List.range (lhs.rows * rhs.cols))) (fun n m => do
      let j := n % rhs.cols
      let i := (n - j) / rhs.cols
      let tmp ← mulInner lhs rhs i j
      m.put? i j tmp) res
  else none

/-- MatTransposeNaiveHandler.hpp:31-53, real build (`conj` = identity); the complex build applies
`std::conj`, passed here as `cj`. -/
def transposeWith (cj : K → K) (π : Sched) (rhs : Mat K) (result : Option (Mat K)) :
    Option (Mat K) := do
  let res ← Mat.pool result rhs.cols rhs.rows
  forEach (π.run ℕ (List.range (rhs.rows * rhs.cols))) (fun n m => do
    let j := n % rhs.cols
    let i := (n - j) / rhs.cols
    let v ← rhs.get? i j
    m.put? j i (cj v)) res

/-- MatTransposeNaiveHandler.hpp:31-53 (real build). -/
def transpose (π : Sched) (rhs : Mat K) (result : Option (Mat K)) : Option (Mat K) :=
  transposeWith (fun v => v) π rhs result

/-- MatDervTransposeNaiveHandler.hpp:30-66 (real build). -/
def dervTranspose (π : Sched) (nrowsF ncolsF nrowsX ncolsX : ℕ) (rhs : Mat K)
    (result : Option (Mat K)) : Option (Mat K) := do
  let res ← Mat.pool result (ncolsF * nrowsX) (nrowsF * ncolsX)
  forEach (π.run (ℕ × ℕ) (pairs (ncolsF * nrowsF) (ncolsX * nrowsX))) (fun p m => do
    let j := p.1 % ncolsF
    let i := (p.1 - j) / ncolsF
    let mm := p.2 % ncolsX
    let l := (p.2 - mm) / ncolsX
    let v ← rhs.get? (l + i * nrowsX) (mm + j * ncolsX)
    m.put? (l + j * nrowsX) (mm + i * ncolsX) v) res

/-- MatKronNaiveHandler.hpp:31-67.  A block whose left factor is `0` is skipped (line 56). -/
def kron (π : Sched) (lhs rhs : Mat K) (result : Option (Mat K)) : Option (Mat K) := do
  let res ← Mat.pool result (lhs.rows * rhs.rows) (lhs.cols * rhs.cols)
  forEach (π.run (ℕ × ℕ) (pairs (lhs.rows * lhs.cols) (rhs.rows * rhs.cols))) (fun p m => do
    let j := p.1 % lhs.cols
    let i := (p.1 - j) / lhs.cols
    let val ← lhs.get? i j
    if val ≠ 0 then
      let mm := p.2 % rhs.cols
      let l := (p.2 - mm) / rhs.cols
      let b ← rhs.get? l mm
      m.put? (i * rhs.rows + l) (j * rhs.cols + mm) (b * val)
    else pure m) res

/-- MatTraceNaiveHandler.hpp:31-54, executed sequentially (see `traceSteps` for the parallel
execution, where `tmp = tmp + ...` is a data race). -/
def trace (rhs : Mat K) (result : Option (Mat K)) : Option (Mat K) :=
  if rhs.rows = rhs.cols then do
    let res ← Mat.pool result 1 1
    let tmp ← (List.range rhs.rows).foldlM (fun tmp n => do
      let a ← rhs.get? n n
      pure (tmp + a)) 0
    if 0 < res.rows * res.cols then res.rawPut? 0 tmp else none
  else none

end Naive

/-! ## Blocks, padding, rows and columns -/

namespace Mat

/-- `getBlockMat({rs,re},{cs,ce}, result)`: bounds are inclusive.  MatrixUtils.ipp:28-52. -/
def getBlock (π : Sched) (m : Mat K) (rs re cs ce : ℕ) (result : Option (Mat K)) :
    Option (Mat K) :=
  if rs < m.rows ∧ re < m.rows ∧ cs < m.cols ∧ ce < m.cols ∧ rs ≤ re ∧ cs ≤ ce then do
    let res ← pool result (re - rs + 1) (ce - cs + 1)
    forEach (π.run (ℕ × ℕ) (pairs (re + 1 - rs) (ce + 1 - cs))) (fun p r => do
      let i := rs + p.1
      let j := cs + p.2
      let v ← m.get? i j
      r.put? (i - rs) (j - cs) v) res
  else none

/-- `setBlockMat({rs,re},{cs,ce}, b)`.  MatrixUtils.ipp:56-83. -/
def setBlock (π : Sched) (m : Mat K) (rs re cs ce : ℕ) (b : Mat K) : Option (Mat K) :=
  if rs < m.rows ∧ re < m.rows ∧ cs < m.cols ∧ ce < m.cols ∧ rs ≤ re ∧ cs ≤ ce ∧
      re - rs + 1 = b.rows ∧ ce - cs + 1 = b.cols then
    forEach (π.run (ℕ × ℕ) (pairs (re + 1 - rs) (ce + 1 - cs))) (fun p r => do
      let i := rs + p.1
      let j := cs + p.2
      let v ← b.get? (i - rs) (j - cs)
      r.put? i j v) m
  else none

/-- `pad(r, c, result)`: requests the larger matrix and embeds `*this`; the border is whatever the
requested buffer holds.  MatrixUtils.ipp:87-91. -/
def pad (π : Sched) (m : Mat K) (r c : ℕ) (result : Option (Mat K)) : Option (Mat K) := do
  let res ← pool result (m.rows + 2 * r) (m.cols + 2 * c)
  res.setBlock π r (r + m.rows - 1) c (c + m.cols - 1) m

/-- `getRow(i)`: an `m_cols × 1` matrix filled with the cells `i*m_cols .. (i+1)*m_cols`.
MatrixAccessors.ipp:155-160 (and :146-151). -/
def getRow (m : Mat K) (i : ℕ) : Option (Mat K) :=
  if i < m.rows then do
    let tmp ← new m.cols 1
    forEach (List.range m.cols) (fun n t => do
      let v ← m.raw? (i * m.cols + n)
      t.rawPut? n v) tmp
  else none

/-- `getColumn(i)`: the lambda shadows `i` and recomputes it from the loop counter.
MatrixAccessors.ipp:183-198 (and :164-179). -/
def getColumn (m : Mat K) (i : ℕ) : Option (Mat K) :=
  if i < m.cols then do
    let tmp ← new m.rows 1
    forEach (List.range m.rows) (fun n t => do
      let j := n % m.cols
      let i := (n - j) / m.cols
      let v ← m.raw? (j * m.rows + i)
      t.rawPut? j v) tmp
  else none

/-- `Eye(n)` on a registry miss.  MatrixBasics.cpp:44-53. -/
def eye (π : Sched) (n : ℕ) : Option (Mat K) := do
  let res ← pool none n n
  forEach (π.run ℕ (List.range n)) (fun i m => m.put? i i 1) res

/-- `Zeros(n, m)` on a registry miss.  MatrixBasics.cpp:75-79. -/
def zeros (n m : ℕ) : Option (Mat K) := pool none n m

/-- `Ones(n, m)` on a registry miss.  MatrixBasics.cpp:106-111. -/
def ones (n m : ℕ) : Option (Mat K) := poolFill n m 1

end Mat

/-! ## Convolution -/

/-- `(dim + 2*pad - k)/stride + 1` in `size_t`.  The subtraction wraps when the kernel is larger
than the padded input; in `ℕ` it truncates at 0 (that case is excluded by the theorems).
MatConvNaiveHandler.hpp:64-65. -/
def convDim (dim pad k stride : ℕ) : ℕ := (dim + 2 * pad - k) / stride + 1

/-- Work buffers by number.  Numbers below 20 are the buffers `mp_arr[...]` of one operator node; from
20 on they are the buffers kept by the (function-local `static`) convolution handlers across all
calls of the program: 20 is `mp_arr` of the Eigen handler (MatConvEigenHandler.hpp:56), 30-34 are
`mp_arr[0..4]` of the naive handler (MatConvNaiveHandler.hpp:37), 40-52 are `mp_arr[0..12]` of the
derivative handler (MatDervConvNaiveHandler.hpp:40). -/
abbrev Slots (K : Type) := ℕ → Option (Mat K)

/-- One kernel call with result buffer number `k`. -/
def kern (k : ℕ) (f : Option (Mat K) → Option (Mat K)) (a : Slots K) : Option (Slots K × Mat K) :=
  (f (a k)).map fun m => (Function.update a k (some m), m)

/-- `for (k = lo; k <= hi; ++k) ResetZero(mp_arr[k])`.  MatConvNaiveHandler.hpp:83-85,
MatDervConvNaiveHandler.hpp:88-90. -/
def clearSlots (lo hi : ℕ) (a : Slots K) : Slots K :=
  fun k => if lo ≤ k ∧ k ≤ hi then (a k).map Mat.resetZero else a k

/-- A sequential loop that updates work buffers and the result matrix. -/
def loopS {ι : Type} (idx : List ι) (body : ι → Slots K → Mat K → Option (Slots K × Mat K))
    (a : Slots K) (m : Mat K) : Option (Slots K × Mat K) :=
  idx.foldlM (fun s n => body n s.1 s.2) (a, m)

namespace Naive

/-- MatConvNaiveHandler.hpp:41-101, result in buffer `k`.  The pad buffer `mp_arr[0]` (number 30) is
kept across calls and not cleared; `mp_arr[1..4]` are cleared in every iteration.  `ones` come from
the registry; the inner operations are those of the naive handlers. -/
def conv (π : Sched) (sx sy px py : ℕ) (lhs rhs : Mat K) (k : ℕ) (a : Slots K) :
    Option (Slots K × Mat K) :=
  if 0 < sx ∧ 0 < sy then do
    let rows := convDim lhs.rows px rhs.rows sx
    let cols := convDim lhs.cols py rhs.cols sy
    if 0 < rows ∨ 0 < cols then do
      let (a, padded) ← kern 30 (lhs.pad π px py) a
      let res ← Mat.pool (a k) rows cols
      let o1 ← Mat.ones 1 rhs.rows
      let o2 ← Mat.ones rhs.cols 1
      let (a, m) ← loopS (pairs rows cols) (fun p a m => do
        let i := p.1
        let j := p.2
        let (a, a1) ← kern 31 (padded.getBlock π (i * sx) (i * sx + rhs.rows - 1) (j * sy)
          (j * sy + rhs.cols - 1)) (clearSlots 31 34 a)
        let (a, a2) ← kern 32 (hadamard π (.ext a1) (.ext rhs)) a
        let (a, a3) ← kern 33 (mul π o1 a2) a
        let (a, a4) ← kern 34 (mul π a3 o2) a
        let m ← m.setBlock π i i j j a4
        some (a, m)) a res
      some (Function.update a k (some m), m)
    else none
  else none

end Naive

/-! ## Eigen handlers

`Eigen::Map<EigenMatrix>(ptr, r, c) = expr` assigns every coefficient of the row-major `r × c` map.
What `expr` denotes is Eigen's documented semantics (trusted). -/

/-- Row-major assignment through the map. -/
def eigenAssign (r c : ℕ) (f : ℕ → ℕ → Mat K → Option K) (res : Mat K) : Option (Mat K) :=
  forEach (pairs r c) (fun p m => do
    let v ← f p.1 p.2 m
    m.rawPut? (p.1 * c + p.2) v) res

namespace Eig

/-- MatAddEigenHandler.hpp:31-66, MatSubEigenHandler.hpp:26-61, MatHadamardEigenHandler.hpp:31-66:
coefficient-wise expression of two maps. -/
def elementwise2 (op : K → K → K) (lhs rhs : Src K) (result : Option (Mat K)) : Option (Mat K) := do
  let l ← lhs.mat? result
  let r ← rhs.mat? result
  if l.rows = r.rows ∧ r.cols = l.cols then
    let res ← Mat.pool result l.rows r.cols
    eigenAssign l.rows r.cols (fun i j m => do
      let a ← (lhs.cur m).raw? (i * l.cols + j)
      let b ← (rhs.cur m).raw? (i * r.cols + j)
      pure (op a b)) res
  else none

/-- MatUnaryEigenHandler.hpp:31-56, MatScalarAddEigenHandler.hpp:29-54,
MatScalarMulEigenHandler.hpp:31-55. -/
def elementwise1 (op : K → K) (rhs : Src K) (result : Option (Mat K)) : Option (Mat K) := do
  let r ← rhs.mat? result
  let res ← Mat.pool result r.rows r.cols
  eigenAssign r.rows r.cols (fun i j m => do
    let a ← (rhs.cur m).raw? (i * r.cols + j)
    pure (op a)) res

/-- MatAddEigenHandler.hpp:31-66. -/
def add := elementwise2 (K := K) fun a b => a + b
/-- MatSubEigenHandler.hpp:26-61. -/
def sub := elementwise2 (K := K) fun a b => a - b
/-- MatHadamardEigenHandler.hpp:31-66. -/
def hadamard := elementwise2 (K := K) fun a b => a * b
/-- MatScalarAddEigenHandler.hpp:29-54: `right.array() + lhs`. -/
def scalarAdd (c : K) := elementwise1 (K := K) fun v => v + c
/-- MatScalarMulEigenHandler.hpp:31-55: `right.array() * lhs`. -/
def scalarMul (c : K) := elementwise1 (K := K) fun v => v * c
/-- MatUnaryEigenHandler.hpp:31-56. -/
def unary (f : K → K) := elementwise1 (K := K) f

/-- Coefficient `(i,j)` of the Eigen product `left_eigen*right_eigen`: the inner product (its
summation order is irrelevant in a field). -/
def mulCoeff (l r : Mat K) (i j : ℕ) : Option K :=
  (List.range l.cols).foldrM (fun k acc => do
    let a ← l.raw? (i * l.cols + k)
    let b ← r.raw? (k * r.cols + j)
    pure (a * b + acc)) 0

/-- MatMulEigenHandler.hpp:31-67. -/
def mul (lhs rhs : Mat K) (result : Option (Mat K)) : Option (Mat K) :=
  if lhs.cols = rhs.rows then do
    let res ← Mat.pool result lhs.rows rhs.cols
    eigenAssign lhs.rows rhs.cols (fun i j _ => mulCoeff lhs rhs i j) res
  else none

/-- MatTransposeEigenHandler.hpp:31-56 (`.transpose()`, no conjugation in any build). -/
def transpose (rhs : Mat K) (result : Option (Mat K)) : Option (Mat K) := do
  let res ← Mat.pool result rhs.cols rhs.rows
  eigenAssign rhs.cols rhs.rows (fun i j _ => rhs.raw? (j * rhs.cols + i)) res

/-- MatKronEigenHandler.hpp:31-65 (`Eigen::kroneckerProduct`, every block is written). -/
def kron (lhs rhs : Mat K) (result : Option (Mat K)) : Option (Mat K) := do
  let res ← Mat.pool result (lhs.rows * rhs.rows) (lhs.cols * rhs.cols)
  eigenAssign (lhs.rows * rhs.rows) (lhs.cols * rhs.cols) (fun a b _ => do
    let x ← lhs.raw? (a / rhs.rows * lhs.cols + b / rhs.cols)
    let y ← rhs.raw? (a % rhs.rows * rhs.cols + b % rhs.cols)
    pure (x * y)) res

/-- MatTraceEigenHandler.hpp:31-56. -/
def trace (rhs : Mat K) (result : Option (Mat K)) : Option (Mat K) :=
  if rhs.rows = rhs.cols then do
    let res ← Mat.pool result 1 1
    let tmp ← (List.range rhs.rows).foldrM (fun n acc => do
      let a ← rhs.raw? (n * rhs.cols + n)
      pure (a + acc)) 0
    res.put? 0 0 tmp
  else none

/-- `(input_block.array() * kernel.array()).sum()` with the block starting at row `r0`, column `c0`.
MatConvEigenHandler.hpp:45-46. -/
def convCoeff (input kernel : Mat K) (r0 c0 : ℕ) : Option K :=
  (pairs kernel.rows kernel.cols).foldrM (fun p acc => do
    let a ← input.raw? ((r0 + p.1) * input.cols + (c0 + p.2))
    let b ← kernel.raw? (p.1 * kernel.cols + p.2)
    pure (a * b + acc)) 0

/-- MatConvEigenHandler.hpp:61-113 with `EigenConvolve2D` (:31-51), result in buffer `k`.  The
handler's pad buffer `mp_arr` (number 20) is cleared by `ResetZero` before use (line 77). -/
def conv (π : Sched) (sx sy px py : ℕ) (lhs rhs : Mat K) (k : ℕ) (a : Slots K) :
    Option (Slots K × Mat K) :=
  if 0 < sx ∧ 0 < sy then do
    let rows := convDim lhs.rows px rhs.rows sx
    let cols := convDim lhs.cols py rhs.cols sy
    if 0 < rows ∨ 0 < cols then do
      let (a, padded) ← kern 20 (lhs.pad π px py) (clearSlots 20 20 a)
      let orows := (padded.rows - rhs.rows) / sx + 1
      let ocols := (padded.cols - rhs.cols) / sy + 1
      kern k (fun b => (Mat.pool b rows cols).bind
        (eigenAssign orows ocols (fun r c _ => convCoeff padded rhs (r * sx) (c * sy)))) a
    else none
  else none

end Eig

end CoolDiff
