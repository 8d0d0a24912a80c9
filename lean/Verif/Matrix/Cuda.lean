import Verif.Matrix.Backend

/-!
# The CUDA kernels (model)

include/Matrix/MatrixHandler/*/CUDA.  A launch runs every thread of every block of the grid; threads
of all blocks are interleaved arbitrarily (`Sched`), except that `__syncthreads` separates phases of
one block.  Every element of a phase writes one cell, so a phase is a list of single writes executed in
any order.  Threads that write several cells one after the other (`MatrixTranspose`) are split into
single writes, which allows more orders than the hardware.

A grid larger than the device limits is not launched: the code does not look at the error, and the
result buffer keeps its contents (`launch`).

Simplifications: `size_t` and `unsigned` are `ℕ`; the operands of the product, the Kronecker product and
the transpose are not the result object (as on the CPU, where this is asserted); shared memory holds
arbitrary values (`junk`) when a block starts.
-/

set_option linter.unusedSectionVars false

namespace CoolDiff

variable {K : Type} [Field K] [DecidableEq K]

/-- One thread: `blockIdx.x`, `blockIdx.y`, `threadIdx.x`, `threadIdx.y`. -/
structure Thr where
  bx : ℕ
  by' : ℕ
  tx : ℕ
  ty : ℕ
deriving DecidableEq

/-- All threads of a launch with `dim3(gx, gy)` blocks of `dim3(nx, ny)` threads. -/
def grid (gx gy nx ny : ℕ) : List Thr :=
  (pairs gy gx).flatMap fun b => (pairs ny nx).map fun t => ⟨b.2, b.1, t.2, t.1⟩

/-- `kernel<<<dim3(gx, gy), threads>>>(...)`: the grid dimensions must be positive and at most
`2^31 - 1` and `65535` (CUDA programming guide, compute capability >= 3.0); otherwise the launch fails, no
thread runs and the code, which does not check the error, goes on.  MatAddCUDAHandler.cu:41-47. -/
def launch (gx gy : ℕ) (kernel : Mat K → Option (Mat K)) (res : Mat K) : Option (Mat K) :=
  if 0 < gx ∧ gx ≤ 2 ^ 31 - 1 ∧ 0 < gy ∧ gy ≤ 65535 then kernel res else some res

namespace Cuda

/-- `THREAD_SIZE`.  MatrixStaticHandler.hpp:26. -/
def threadSize : ℕ := 32
/-- `TILE_SIZE`.  MatMulCUDAHandler.cuh:28. -/
def tileSize : ℕ := 32
/-- `TILE_DIM`.  MatTransposeCUDAHandler.cuh:28. -/
def tileDim : ℕ := 32
/-- `BLOCK_ROWS`.  MatTransposeCUDAHandler.cuh:29. -/
def blockRows : ℕ := 8

/-- `(n + threads - 1) / threads`. -/
def blocks (n t : ℕ) : ℕ := (n + t - 1) / t

/-- `MatrixPool` with the GPU strategy: as on the CPU, but `cudaMallocHost` does not initialise the
memory (`junk`).  MemoryManager.hpp:52-71, GPUPinnedMemoryStrategy.hpp:37-41. -/
def pool (junk : ℕ → K) (result : Option (Mat K)) (r c : ℕ) : Option (Mat K) :=
  match result with
  | none => if 0 < r ∧ 0 < c then some ⟨r, c, (List.range (r * c)).map junk⟩ else none
  | some m =>
    if r * c = m.rows * m.cols then m.reshape r c
    else if r ≠ m.rows ∨ c ≠ m.cols then
      if 0 < r ∧ 0 < c then some ⟨r, c, (List.range (r * c)).map junk⟩ else none
    else some m

/-- The shape of all kernels with one element per thread: `row`, `col`, the bounds test, and one write
at `row * N + col`.  MatAddCUDAHandler.cu:29-37. -/
def perElement (π : Sched) (M N : ℕ) (f : ℕ → ℕ → Mat K → Option K) (res : Mat K) : Option (Mat K) :=
  launch (blocks N threadSize) (blocks M threadSize) (fun res =>
    forEach (π.run Thr (grid (blocks N threadSize) (blocks M threadSize) threadSize threadSize))
      (fun t m =>
        let row := t.by' * threadSize + t.ty
        let col := t.bx * threadSize + t.tx
        if row < M ∧ col < N then (f row col m).bind fun v => m.rawPut? (row * N + col) v
        else some m) res) res

/-- MatAddCUDAHandler.hpp:34-78, MatSubCUDAHandler.hpp:34-78, MatHadamardCUDAHandler.hpp:34-75 and the
kernels `MatrixAdd`, `MatrixSub`, `MatrixHadamard` (lines 28-37 of the .cu files). -/
def elementwise2 (op : K → K → K) (π : Sched) (junk : ℕ → K) (lhs rhs : Src K) (result : Option (Mat K)) :
    Option (Mat K) := do
  let l ← lhs.mat? result
  let r ← rhs.mat? result
  if l.rows = r.rows ∧ r.cols = l.cols then
    let res ← pool junk result l.rows r.cols
    perElement π l.rows r.cols (fun i j m => do
      let a ← (lhs.cur m).raw? (i * r.cols + j)
      let b ← (rhs.cur m).raw? (i * r.cols + j)
      pure (op a b)) res
  else none

/-- MatUnaryCUDAHandler.hpp:31-66, MatScalarAddCUDAHandler.hpp:32-67, MatScalarMulCUDAHandler.hpp:32-66
and their kernels. -/
def elementwise1 (op : K → K) (π : Sched) (junk : ℕ → K) (rhs : Src K) (result : Option (Mat K)) :
    Option (Mat K) := do
  let r ← rhs.mat? result
  let res ← pool junk result r.rows r.cols
  perElement π r.rows r.cols (fun i j m => do
    let a ← (rhs.cur m).raw? (i * r.cols + j)
    pure (op a)) res

/-- `MatrixAdd`.  MatAddCUDAHandler.cu:27-36. -/
def add := elementwise2 (K := K) fun a b => a + b
/-- `MatrixSub`.  MatSubCUDAHandler.cu:27-36. -/
def sub := elementwise2 (K := K) fun a b => a - b
/-- `MatrixHadamard`.  MatHadamardCUDAHandler.cu:27-36. -/
def hadamard := elementwise2 (K := K) fun a b => a * b
/-- `MatrixScalarAdd`.  MatScalarAddCUDAHandler.cu:27-36. -/
def scalarAdd (c : K) := elementwise1 (K := K) fun v => c + v
/-- `MatrixScalarMul`.  MatScalarMulCUDAHandler.cu:26-35. -/
def scalarMul (c : K) := elementwise1 (K := K) fun v => c * v

/-- MatKronCUDAHandler.hpp:32-72 and `MatrixKronecker` (MatKronCUDAHandler.cu:27-44). -/
def kron (π : Sched) (junk : ℕ → K) (lhs rhs : Mat K) (result : Option (Mat K)) : Option (Mat K) := do
  let res ← pool junk result (lhs.rows * rhs.rows) (lhs.cols * rhs.cols)
  perElement π (lhs.rows * rhs.rows) (lhs.cols * rhs.cols) (fun row col _ => do
    let a ← lhs.raw? (row / rhs.rows * lhs.cols + col / rhs.cols)
    let b ← rhs.raw? (row % rhs.rows * rhs.cols + col % rhs.cols)
    pure (a * b)) res

/-! ## Shared memory -/

/-- A shared array: cell `[a][b]`. -/
abbrev Tile (K : Type) := ℕ → ℕ → K

/-- `tile[a][b] = v`. -/
def Tile.set (t : Tile K) (a b : ℕ) (v : K) : Tile K := fun i j => if i = a ∧ j = b then v else t i j

/-- One phase of a block: single writes to a shared array, in any order. -/
def fillTile {ι : Type} (π : Sched) (idx : List ι) (cell : ι → ℕ × ℕ) (f : ι → Option (Option K))
    (t : Tile K) : Option (Tile K) :=
  (π.run ι idx).foldlM (fun t p => (f p).map fun
    | some v => t.set (cell p).1 (cell p).2 v
    | none => t) t

/-- The load phase of tile `t` of a block of `MatrixMul`: `As[threadIdx.y][threadIdx.x] = ...`, zero
outside the operand.  MatMulCUDAHandler.cu:39-44. -/
def loadA (π : Sched) (A : Mat K) (M k by' t : ℕ) : Tile K → Option (Tile K) :=
  fillTile π ((pairs tileSize tileSize).map fun p => (t, p)) (fun p => p.2) fun p =>
    let row := by' * tileSize + p.2.1
    if row < M ∧ t * tileSize + p.2.2 < k then (A.raw? (row * k + t * tileSize + p.2.2)).map some
    else some (some 0)

/-- The load phase for `Bs`.  MatMulCUDAHandler.cu:46-51. -/
def loadB (π : Sched) (B : Mat K) (k N bx t : ℕ) : Tile K → Option (Tile K) :=
  fillTile π ((pairs tileSize tileSize).map fun p => (t, p)) (fun p => p.2) fun p =>
    let col := bx * tileSize + p.2.2
    if col < N ∧ t * tileSize + p.2.1 < k then (B.raw? ((t * tileSize + p.2.1) * N + col)).map some
    else some (some 0)

/-- The compute phase: `value += As[threadIdx.y][i] * Bs[i][threadIdx.x]` for every thread of the block;
`value` is a register of the thread.  MatMulCUDAHandler.cu:55-58. -/
def accumulate (As Bs : Tile K) (value : Tile K) : Tile K := fun ty tx =>
  (List.range tileSize).foldl (fun v i => v + As ty i * Bs i tx) (value ty tx)

/-- The loop over the tiles in one block; the state is `As`, `Bs` and the registers.
MatMulCUDAHandler.cu:38-61. -/
def mulBlock (π : Sched) (junk : Tile K) (A B : Mat K) (M k N bx by' : ℕ) : Option (Tile K) :=
  ((List.range (blocks k tileSize)).foldlM (fun (s : Tile K × Tile K × Tile K) t => do
    let As ← loadA π A M k by' t s.1
    let Bs ← loadB π B k N bx t s.2.1
    pure (As, Bs, accumulate As Bs s.2.2)) (junk, junk, fun _ _ => 0)).map fun s : Tile K × Tile K × Tile K => s.2.2

/-- MatMulCUDAHandler.hpp:32-75 and `MatrixMul` (MatMulCUDAHandler.cu:26-65): every thread computes its
value, then writes it. -/
def mul (π : Sched) (junk : ℕ → K) (sh : ℕ → ℕ → Tile K) (lhs rhs : Mat K) (result : Option (Mat K)) :
    Option (Mat K) :=
  if lhs.cols = rhs.rows then do
    let res ← pool junk result lhs.rows rhs.cols
    launch (blocks rhs.cols threadSize) (blocks lhs.rows threadSize) (fun res =>
      forEach (π.run Thr (grid (blocks rhs.cols threadSize) (blocks lhs.rows threadSize) threadSize threadSize))
        (fun t m =>
          let row := t.by' * tileSize + t.ty
          let col := t.bx * tileSize + t.tx
          (mulBlock π (sh t.bx t.by') lhs rhs lhs.rows lhs.cols rhs.cols t.bx t.by').bind fun value =>
            if row < lhs.rows ∧ col < rhs.cols then m.rawPut? (row * rhs.cols + col) (value t.ty t.tx)
            else some m) res) res
  else none

/-- `for (int i{}; i < TILE_DIM; i += BLOCK_ROWS)`. -/
def rowSteps : List ℕ := (List.range (tileDim / blockRows)).map (· * blockRows)

/-- The load phase of `MatrixTranspose`.  MatTransposeCUDAHandler.cu:30-38. -/
def loadT (π : Sched) (A : Mat K) (M N bx by' : ℕ) : Tile K → Option (Tile K) :=
  fillTile π ((pairs blockRows tileDim).flatMap fun p => rowSteps.map fun i => (i, p))
    (fun p => (p.2.1 + p.1, p.2.2)) fun p =>
      let x := bx * tileDim + p.2.2
      let y := by' * tileDim + p.2.1
      if x < N ∧ y + p.1 < M then (A.raw? ((y + p.1) * N + x)).map some else some none

/-- MatTransposeCUDAHandler.hpp:30-64 and `MatrixTranspose` (MatTransposeCUDAHandler.cu:26-52). -/
def transpose (π : Sched) (junk : ℕ → K) (sh : ℕ → ℕ → Tile K) (rhs : Mat K) (result : Option (Mat K)) :
    Option (Mat K) := do
  let res ← pool junk result rhs.cols rhs.rows
  launch (blocks rhs.cols tileDim) (blocks rhs.rows tileDim) (fun res =>
    forEach (π.run (ℕ × Thr) ((grid (blocks rhs.cols tileDim) (blocks rhs.rows tileDim) tileDim blockRows).flatMap
        fun t => rowSteps.map fun i => (i, t)))
      (fun p m =>
        let t := p.2
        let x := t.by' * tileDim + t.tx
        let y := t.bx * tileDim + t.ty
        (loadT π rhs rhs.rows rhs.cols t.bx t.by' (sh t.bx t.by')).bind fun tile =>
          if x < rhs.rows ∧ y + p.1 < rhs.cols then
            m.rawPut? ((y + p.1) * rhs.rows + x) (tile t.tx (t.ty + p.1))
          else some m) res) res

/-! ## Unary functions -/

/-- The functions a user can pass to `UNARY_MATRIX_OPERATOR`: those of UnaryFunctions.hpp and others. -/
inductive UFn
  | sin | dsin | cos | dcos | exp | log | dlog | sqrt | dsqrt | tanh | dtanh | sigmoid | dsigmoid
  | relu | drelu | leakyrelu | dleakyrelu | abs | dabs
  | user (n : ℕ)
deriving DecidableEq

/-- `device_functions`, indexed by the enumeration `DEVICE_FUNCTIONS`.  UnaryFunctions.hpp:160-192. -/
def deviceFunctions : List UFn :=
  [.sin, .dsin, .cos, .dcos, .exp, .log, .dlog, .sqrt, .dsqrt, .tanh, .dtanh, .sigmoid, .dsigmoid,
   .relu, .drelu, .leakyrelu, .dleakyrelu, .abs, .dabs]

/-- `device_functions_map` when the program starts.  UnaryFunctions.hpp:195-207. -/
def deviceMap : List (UFn × ℕ) :=
  [(.sin, 0), (.dsin, 1), (.cos, 2), (.dcos, 3), (.exp, 4), (.log, 5), (.dlog, 6), (.sqrt, 7), (.dsqrt, 8),
   (.tanh, 9), (.dtanh, 10), (.sigmoid, 11), (.dsigmoid, 12), (.relu, 13), (.drelu, 14), (.leakyrelu, 15),
   (.dleakyrelu, 16), (.abs, 17), (.dabs, 18)]

/-- `device_functions_map<T>[func]`: `operator[]` inserts 0 for an unknown key. -/
def mapIndex (map : List (UFn × ℕ)) (f : UFn) : ℕ × List (UFn × ℕ) :=
  match map.lookup f with
  | some n => (n, map)
  | none => (0, (f, 0) :: map)

/-- MatUnaryCUDAHandler.hpp:31-66, `CustomUnaryKernel` and `MatrixUnary` (MatUnaryCUDAHandler.cu:30-53);
`ap` is what a function computes.  Also returns the map after the call. -/
def unary (ap : UFn → K → K) (map : List (UFn × ℕ)) (f : UFn) (π : Sched) (junk : ℕ → K) (rhs : Src K)
    (result : Option (Mat K)) : Option (Mat K) × List (UFn × ℕ) :=
  ((deviceFunctions[(mapIndex map f).1]?).bind fun g => elementwise1 (ap g) π junk rhs result,
    (mapIndex map f).2)

end Cuda

end CoolDiff
