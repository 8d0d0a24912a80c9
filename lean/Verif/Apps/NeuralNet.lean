import Verif.Apps.GaussNewton
import Verif.Matrix.RevPtr

/-!
# Training a neural network (executable model)

example/NeuralNet/include/NeuralNet.hpp: `train`, `resetMiniBatch`, `accumulateGradients`, `optimize`, `GDOptimizer`,
`randomizeDropout`, and Layer.cpp, statement by statement, on the objects of the matrix model.

Simplifications.

* The network is the formula of the error matrix `err`; how `networkLayers` and `error` build it is modelled in NNBuild.lean.
* The numbers in all `Matrix<Type>` objects are one function `val` from element handles to numbers.  A matrix whose
  data pointer is set to a row of another one (`setMatrixPtr`) gets the numbers found there; they do not change while
  they are used.
* Random numbers are a parameter.
* With `threading` the tasks of a phase run in any order, one after the other (every task writes a buffer of its own);
  without, in the order of the layers, which is one of these orders.
* `display_stats` is false.
-/

namespace CoolDiff

variable {K : Type} [Field K] [DecidableEq K]

/-- A network: the error matrix, weight and bias matrix of every layer (`m_layers`), the matrices `X` and `Y` that
hold a batch, the dropout matrices with the probability that is kept (`m_dropout_mat`), and `m_batch_size`.
NeuralNet.hpp:30, 171, 177-182, Layer.hpp. -/
structure NNet (K : Type) where
  err : ℕ
  layers : List (ℕ × ℕ)
  x : ℕ
  y : ℕ
  drops : List (K × ℕ)
  batch : ℕ

/-- All weight and bias matrices, in the order of the loops over the layers. -/
def NNet.params (N : NNet K) : List ℕ := N.layers.flatMap fun l => [l.1, l.2]

/-- The state while training: the objects of the matrix model, the numbers, and the batch matrices `m_WBatch`,
`m_bBatch` of the layers (`none`: null pointer), numbered like `NNet.params`. -/
structure NNSt (K : Type) where
  p : PSt K
  val : ℕ → K
  grad : ℕ → Option (Mat K)

/-- The context of a query on the current numbers. -/
def MCtx.at (c : MCtx K) (val : ℕ → K) : MCtx K := { c with sc := ⟨val, c.sc.der⟩ }

/-- Write all elements of matrix `o`, in the order of its buffer. -/
def fillNums (E : MEnv K) (o : ℕ) (g : ℕ → Option K) (val : ℕ → K) : Option (ℕ → K) :=
  (List.range (E.rows o * E.cols o)).foldlM
    (fun v n => (g n).map (Function.update v (E.el o (n / E.cols o) (n % E.cols o)))) val

/-- The buffer of a `Matrix<Type>`. -/
def numsOf (E : MEnv K) (o : ℕ) (val : ℕ → K) : Mat K :=
  ⟨E.rows o, E.cols o, (List.range (E.rows o * E.cols o)).map fun n =>
    val (E.el o (n / E.cols o) (n % E.cols o))⟩

/-- `X.setMatrixPtr(X_data.getRowPtr(j))`: `getRowPtr` asserts that the row exists; the elements are those found
behind the pointer (outside the buffer: undefined behaviour, here a failure).
NeuralNet.hpp:376-377, MatrixAccessors.ipp:60-84. -/
def setRows (E : MEnv K) (o : ℕ) (data : Mat K) (j : ℕ) (val : ℕ → K) : Option (ℕ → K) :=
  if j < data.rows then fillNums E o (fun n => data.raw? (j * data.cols + n)) val else none

/-- `randomizeDropout<true>`: random numbers, then division by the probability.  NeuralNet.hpp:151-161. -/
def dropout (E : MEnv K) (draw : ℕ → ℕ → K) (drops : List (K × ℕ)) (val : ℕ → K) : Option (ℕ → K) :=
  drops.foldlM (fun v d => fillNums E d.2 (fun n => some (1 / d.1 * draw d.2 n)) v) val

/-- Run one task per weight and bias matrix. -/
def tasks {α : Type} (π : Sched) (N : NNet K) (task : ℕ → ℕ → α → Option α) (s : α) : Option α :=
  (π.run ℕ (List.range N.params.length)).foldlM (fun s t => N.params[t]?.bind fun θ => task t θ s) s

/-- `WBatch(r)`, `bBatch(r)` create the batch matrix at the first use (Layer.cpp:31-44), `ResetZero` clears it.
NeuralNet.hpp:35-54. -/
def resetTask (E : MEnv K) (t θ : ℕ) (s : NNSt K) : Option (NNSt K) :=
  (allocOnce (s.grad t) (E.rows θ) (E.cols θ)).map fun m =>
    { s with grad := Function.update s.grad t (some m.resetZero) }

/-- `DevalR(err, W(r))`, then `MATRIX_ADD(WBatch(r), &dW, WBatch(r))`.  NeuralNet.hpp:57-83. -/
def gradTask (c : MCtx K) (N : NNet K) (t θ : ℕ) (s : NNSt K) : Option (NNSt K) :=
  (pDevalR c.E N.err θ s.p).bind fun d => (allocOnce (s.grad t) (c.E.rows θ) (c.E.cols θ)).bind fun g =>
    (c.B.add .self (.ext d) (some g)).map fun m => { s with grad := Function.update s.grad t (some m) }

/-- `GDOptimizer(W(r), *WBatch(r), alpha)`: both operations in place.  NeuralNet.hpp:12-18, 86-109. -/
def optTask (c : MCtx K) (alpha : K) (t θ : ℕ) (s : NNSt K) : Option (NNSt K) :=
  (allocOnce (s.grad t) (c.E.rows θ) (c.E.cols θ)).bind fun g =>
  (c.B.scalarMul alpha .self (some g)).bind fun d =>
  (c.B.add .self (.ext d) (some (numsOf c.E θ s.val))).bind fun w =>
  (fillNums c.E θ w.raw? s.val).map fun val =>
    { s with val := val, grad := Function.update s.grad t (some d) }

/-- One mini batch, rows `j`, `j+1`, ...  NeuralNet.hpp:369-387.  `f` bounds the depth of nested formulas. -/
def nnBatch (c : MCtx K) (f : ℕ) (N : NNet K) (Xd Yd : Mat K) (alpha : K) (draw : ℕ → ℕ → K) (j : ℕ) (s : NNSt K) :
    Option (NNSt K) := do
  let val ← dropout c.E draw N.drops s.val
  let s ← tasks c.π N (resetTask c.E) { s with val := val }
  let val ← setRows c.E N.x Xd j s.val
  let val ← setRows c.E N.y Yd j val
  let p ← pPreComp (c.at val) f N.err s.p
  let s ← tasks c.π N (gradTask c N) { s with p := p, val := val }
  tasks c.π N (optTask c alpha) s

/-- `for (size_t j{}; j < data_size; j += m_batch_size) { if ((j + m_batch_size) > data_size) j = data_size -
m_batch_size; ... }`.  NeuralNet.hpp:363-388.  When the batch is larger than the data the subtraction wraps around and
`getRowPtr` asserts.  The first argument bounds the number of iterations. -/
def nnLoop {α : Type} (data batch : ℕ) (body : ℕ → α → Option α) : ℕ → ℕ → α → Option α
  | 0, _, _ => none
  | fuel + 1, j, s =>
    if j < data then
      if data < j + batch then
        if batch ≤ data then (body (data - batch) s).bind (nnLoop data batch body fuel (data - batch + batch))
        else none
      else (body j s).bind (nnLoop data batch body fuel (j + batch))
    else some s

/-- `train(X_data, Y_data, rate, epoch, threading, false)`; `draw i j` are the random numbers of the batch that starts
at row `j` in epoch `i`.  NeuralNet.hpp:340-405. -/
def nnTrain (c : MCtx K) (f : ℕ) (N : NNet K) (Xd Yd : Mat K) (rate : K) (epochs : ℕ)
    (draw : ℕ → ℕ → ℕ → ℕ → K) (s : NNSt K) : Option (NNSt K) :=
  (List.range epochs).foldlM (fun s i =>
    nnLoop Yd.rows N.batch (fun j => nnBatch c f N Xd Yd (rate / (N.batch : K)) (draw i j) j) (Yd.rows + 1) 0 s) s

end CoolDiff
