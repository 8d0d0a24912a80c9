import Verif.Apps.NeuralNet

/-!
# Accuracy of a neural network, and training with statistics (executable model)

example/NeuralNet/include/NeuralNet.hpp: `accuracy` (both overloads have the same loop), and `train` with
`display_stats`.

Simplifications, besides those of `Verif.Apps.NeuralNet`: the final layer is an expression `out` or a named matrix; the
overload for external use first builds a network for another batch size (`networkLayers`, see `Verif.Apps.NNWhole`): `N`
and `out` are the network after that.
-/

namespace CoolDiff

variable {K : Type} [Field K] [DecidableEq K]

/-- `randomizeDropout<false>`.  NeuralNet.hpp:162-167. -/
def dropOnes (E : MEnv K) (drops : List (K × ℕ)) (val : ℕ → K) : Option (ℕ → K) :=
  drops.foldlM (fun v d => fillNums E d.2 (fun _ => some 1) v) val

/-- `std::distance(p, std::max_element(p, p + n))`; `g` reads behind the pointer. -/
def maxElement [LT K] [DecidableLT K] (g : ℕ → Option K) (n : ℕ) : Option ℕ :=
  (List.range (n - 1)).foldlM (fun best i => (g best).bind fun a => (g (i + 1)).map fun b =>
    if a < b then i + 1 else best) 0

/-- The class of row `j`: `getRowPtr` asserts that the row exists.  NeuralNet.hpp:135-139. -/
def rowClass [LT K] [DecidableLT K] (m : Mat K) (j labels : ℕ) : Option ℕ :=
  if j < m.rows then maxElement (fun k => m.raw? (j * m.cols + k)) labels else none

/-- The rows of a batch whose predicted class is the real one.  NeuralNet.hpp:134-145. -/
def hits [LT K] [DecidableLT K] (batch labels : ℕ) (Yhat Y : Mat K) (count : ℕ) : Option ℕ :=
  (List.range batch).foldlM (fun count j => (rowClass Yhat j labels).bind fun a => (rowClass Y j labels).map fun b =>
    if a = b then count + 1 else count) count

/-- One batch of `accuracy`.  NeuralNet.hpp:125-146. -/
def accBatch [LT K] [DecidableLT K] (c : MCtx K) (f : ℕ) (N : NNet K) (out : MNode K) (Xd Yd : Mat K) (i : ℕ)
    (s : NNSt K × ℕ) : Option (NNSt K × ℕ) := do
  let val ← setRows c.E N.x Xd i s.1.val
  let val ← setRows c.E N.y Yd i val
  let r ← pEvalE (c.at val) f out s.1.p
  let count ← hits N.batch Yd.cols r.2 (numsOf c.E N.y val) s.2
  some ({ s.1 with p := r.1, val := val }, count)

/-- `for (size_t i{}; i < scan_size; i += batch_size)`.  NeuralNet.hpp:124.  The first argument bounds the number of
iterations. -/
def accLoop {α : Type} (scan batch : ℕ) (body : ℕ → α → Option α) : ℕ → ℕ → α → Option α
  | 0, _, _ => none
  | fuel + 1, i, s => if i < scan then (body i s).bind (accLoop scan batch body fuel (i + batch)) else some s

/-- `accuracy(net, X_data, Y_data, batch_size)`.  NeuralNet.hpp:113-149, 298-337.  When the batch is larger than the data
the subtraction wraps around and the loop runs out of the data. -/
def nnAccuracy [LT K] [DecidableLT K] (c : MCtx K) (f : ℕ) (N : NNet K) (out : MNode K) (Xd Yd : Mat K) (s : NNSt K) :
    Option (NNSt K × K) := do
  let val ← dropOnes c.E N.drops s.val
  if Xd.rows < N.batch then none
  else
    let r ← accLoop (Xd.rows - N.batch) N.batch (accBatch c f N out Xd Yd) (Xd.rows + 1) 0 ({ s with val := val }, 0)
    some (r.1, (r.2 : K) / ((Xd.rows - N.batch : ℕ) : K) * 100)

/-- One mini batch of `train` with `display_stats`: the value of the error is added to `acc_err`.  `ScalarSpl` reads the
first element.  NeuralNet.hpp:369-387, Matrix.cpp:28-31. -/
def nnBatchS (c : MCtx K) (f : ℕ) (N : NNet K) (Xd Yd : Mat K) (alpha : K) (draw : ℕ → ℕ → K) (j : ℕ) (s : NNSt K × K) :
    Option (NNSt K × K) := do
  let val ← dropout c.E draw N.drops s.1.val
  let t ← tasks c.π N (resetTask c.E) { s.1 with val := val }
  let val ← setRows c.E N.x Xd j t.val
  let val ← setRows c.E N.y Yd j val
  let p ← pPreComp (c.at val) f N.err t.p
  let t ← tasks c.π N (gradTask c N) { t with p := p, val := val }
  let r ← pEval (c.at t.val) f N.err t.p
  let l ← r.2.raw? 0
  let t ← tasks c.π N (optTask c alpha) { t with p := r.1 }
  some (t, s.2 + l)

/-- One epoch with statistics: the state and the displayed loss and accuracy.  NeuralNet.hpp:358-402. -/
def nnEpochS [LT K] [DecidableLT K] (c : MCtx K) (f : ℕ) (N : NNet K) (out : MNode K) (Xd Yd : Mat K) (rate : K)
    (draw : ℕ → ℕ → ℕ → K) (s : NNSt K) : Option (NNSt K × K × K) := do
  let r ← nnLoop Yd.rows N.batch (fun j => nnBatchS c f N Xd Yd (rate / (N.batch : K)) (draw j) j) (Yd.rows + 1) 0 (s, 0)
  let a ← nnAccuracy c f N out Xd Yd r.1
  some (a.1, r.2, a.2)

/-- `train(X_data, Y_data, rate, epoch, threading, true)`; the result is the state and what is displayed for every epoch
(loss, accuracy).  NeuralNet.hpp:340-405. -/
def nnTrainS [LT K] [DecidableLT K] (c : MCtx K) (f : ℕ) (N : NNet K) (out : MNode K) (Xd Yd : Mat K) (rate : K)
    (epochs : ℕ) (draw : ℕ → ℕ → ℕ → ℕ → K) (s : NNSt K) : Option (NNSt K × List (K × K)) :=
  (List.range epochs).foldlM (fun s i =>
    (nnEpochS c f N out Xd Yd rate (draw i) s.1).map fun r => (r.1, s.2 ++ [r.2])) (s, [])

end CoolDiff
