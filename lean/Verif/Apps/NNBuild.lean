import Verif.Apps.NeuralNet
import Verif.Matrix.Build

/-!
# Building a neural network (executable model)

example/NeuralNet/include/NeuralNet.hpp: `addLayer`, `Dropout`, `networkLayers`; Layer.hpp: `CreateLayer`;
example/NeuralNet/main.cpp: `CustomNet::networkLayers`, `CustomNet::error`, and the program that adds layers, calls
`networkLayers(K)` and trains.

Simplifications.

* `CustomNet::networkLayers` has four layers; here any number, all of the same form.
* `X` and `Y` are assigned in every call of `networkLayers`; here they are new matrices.  Networks built by earlier calls
  are not used afterwards.
* `X`, `Y` and new dropout matrices hold zeros (no memory, or the zeros of a new matrix, in the code).
* The nodes of an expression are built when the error is defined (the numbers of temporary nodes differ).
* One allocator.
-/

namespace CoolDiff

variable {K : Type} [Field K] [DecidableEq K]

/-- A layer the user adds: `n × m` weights and `n × 1` biases with their (random) numbers.  Layer.hpp:36-56. -/
structure LayerDef (K : Type) where
  n : ℕ
  m : ℕ
  W : ℕ → ℕ → K
  b : ℕ → ℕ → K

/-- The state of the program: the matrices, the registry of `Ones` (MatrixBasics.cpp:92-113), and `m_layers`,
`m_dropout_mat`, `m_dropout_pool` (NeuralNet.hpp:30, 171-173). -/
structure NBld (K : Type) where
  b : MBld K
  reg : ℕ → ℕ → Option ℕ
  layers : List (ℕ × ℕ)
  drops : List (K × ℕ)
  pool : List ℕ

/-- The start of the program. -/
def NBld.init : NBld K := ⟨.init, fun _ _ => none, [], [], []⟩

/-- `Ones(n, m)`.  MatrixBasics.cpp:92-113. -/
def NBld.ones (s : NBld K) (n m : ℕ) : Option (ℕ × NBld K) :=
  match s.reg n m with
  | some o => some (o, s)
  | none => (s.b.newMat (.num fun _ _ => 1) n m).map fun r =>
      (r.1, { s with b := r.2, reg := fun p q => if p = n ∧ q = m then some r.1 else s.reg p q })

/-- `addLayer(CreateLayer(n, m, ...))`.  NeuralNet.hpp:214-217, Layer.hpp:36-56. -/
def NBld.addLayer (s : NBld K) (l : LayerDef K) : Option (NBld K) :=
  (s.b.newMat (.num l.W) l.n l.m).bind fun w => (w.2.newMat (.num l.b) l.n 1).map fun r =>
    { s with b := r.2, layers := s.layers ++ [(w.1, r.1)] }

/-- `Dropout(t, p)`: the first matrix of the pool with the dimensions of `t`, or a new one.  NeuralNet.hpp:186-210. -/
def NBld.dropout (s : NBld K) (t : MTerm K) (p : K) : Option (MTerm K × NBld K) :=
  match s.pool.find? (fun o => s.b.E.rows o == (t.node.dims s.b.E).1 && s.b.E.cols o == (t.node.dims s.b.E).2) with
  | some o => some (.bin .had (.mat o) t, { s with drops := s.drops ++ [(1 - p, o)], pool := s.pool.erase o })
  | none => (s.b.newMat (.num fun _ _ => 0) (t.node.dims s.b.E).1 (t.node.dims s.b.E).2).map fun r =>
      (.bin .had (.mat r.1) t, { s with b := r.2, drops := s.drops ++ [(1 - p, r.1)] })

/-- `broadcast<Axis::COLUMN>(X, n)`.  CommonMatFunctions.hpp:344-352. -/
def NBld.broadcastCol (s : NBld K) (t : MTerm K) (n : ℕ) : Option (MTerm K × NBld K) :=
  if (t.node.dims s.b.E).2 = 1 ∨ (t.node.dims s.b.E).1 = 1 then
    (s.ones 1 n).map fun o => (.bin .mul t (.mat o.1), o.2)
  else none

/-- `Sigma<Axis::COLUMN>(X)`.  CommonMatFunctions.hpp:362-369. -/
def NBld.sigmaCol (s : NBld K) (t : MTerm K) : Option (MTerm K × NBld K) :=
  (s.ones (t.node.dims s.b.E).2 1).map fun o => (.bin .mul t (.mat o.1), o.2)

/-- `Sigma(X)`.  CommonMatFunctions.hpp:362-373. -/
def NBld.sigmaAll (s : NBld K) (t : MTerm K) : Option (MTerm K × NBld K) :=
  (s.ones 1 (t.node.dims s.b.E).1).bind fun o1 => (o1.2.ones (t.node.dims s.b.E).2 1).map fun o2 =>
    (.bin .mul (.bin .mul (.mat o1.1) t) (.mat o2.1), o2.2)

/-- `SoftMax<Axis::COLUMN>(X)`.  CommonMatFunctions.hpp:425-432. -/
def NBld.softMaxCol (expM logM : MUn K) (s : NBld K) (t : MTerm K) : Option (MTerm K × NBld K) :=
  (s.sigmaCol (.un expM t)).bind fun r => (r.2.ones 1 (t.node.dims s.b.E).2).map fun o =>
    (.un expM (.bin .sub t (.bin .mul (.un logM r.1) (.mat o.1))), o.2)

/-- What the user chooses: the dimensions of input and output, the batch size, the dropout probability, the layers; the
element-wise functions of `LeakyReLUM`, `ExpM` and `LogM` with their derivatives. -/
structure NNConf (K : Type) where
  inp : ℕ
  out : ℕ
  batch : ℕ
  p : K
  layers : List (LayerDef K)
  act : K → K
  dact : K → K
  exp : K → K
  dexp : K → K
  log : K → K
  dlog : K → K

/-- `LeakyReLUM`, `ExpM`, `LogM`.  CommonMatFunctions.hpp:292-321. -/
def NNConf.actM (C : NNConf K) : MUn K := .map C.act C.dact
/-- See `actM`. -/
def NNConf.expM (C : NNConf K) : MUn K := .map C.exp C.dexp
/-- See `actM`. -/
def NNConf.logM (C : NNConf K) : MUn K := .map C.log C.dlog

/-- One layer: `Dropout(LeakyReLUM(A*transpose(W(r)) + transpose(broadcast<Axis::COLUMN>(b(r), batch))), p)`.
main.cpp:15-18. -/
def NNConf.layer (C : NNConf K) (l : ℕ × ℕ) (r : MTerm K × NBld K) : Option (MTerm K × NBld K) :=
  (r.2.broadcastCol (.mat l.2) C.batch).bind fun t =>
    t.2.dropout (.un C.actM (.bin .add (.bin .mul r.1 (.un .tr (.mat l.1))) (.un .tr t.1))) C.p

/-- `networkLayers(batch)`: the numbers of `X` and `Y` and the final layer.  NeuralNet.hpp:253-268, main.cpp:14-23. -/
def NNConf.networkLayers (C : NNConf K) (s : NBld K) : Option (ℕ × ℕ × MTerm K × NBld K) :=
  (s.b.newMat (.num fun _ _ => 0) C.batch C.inp).bind fun x =>
  (x.2.newMat (.num fun _ _ => 0) C.batch C.out).bind fun y =>
  (s.layers.foldlM (fun r l => C.layer l r)
    (.mat x.1, { s with b := y.2, pool := s.pool ++ s.drops.map Prod.snd, drops := [] })).bind fun r =>
  (r.2.softMaxCol C.expM C.logM r.1).map fun t => (x.1, y.1, t.1, t.2)

/-- `Matrix<Expression> error = -1 * Sigma(Y^LogM(Yp));`.  main.cpp:27-42. -/
def NNConf.error (C : NNConf K) (y : ℕ) (Yp : MTerm K) (s : NBld K) : Option (ℕ × NBld K) :=
  (s.sigmaAll (.bin .had (.mat y) (.un C.logM Yp))).bind fun r =>
    (r.2.b.defNew (.un (.smul (-1)) r.1)).map fun e => (e.1, { r.2 with b := e.2 })

/-- The program up to the loop of `train`: add the layers, `networkLayers(batch)`, and in `train` `networkLayers` again
and `error`.  The network, its final layer and the state.  main.cpp:80-92, NeuralNet.hpp:344-345. -/
def NNConf.setupF (C : NNConf K) : Option (NNet K × MTerm K × NBld K) :=
  (C.layers.foldlM NBld.addLayer NBld.init).bind fun s => (C.networkLayers s).bind fun r =>
  (C.networkLayers r.2.2.2).bind fun r => (C.error r.2.1 r.2.2.1 r.2.2.2).map fun e =>
    (⟨e.1, e.2.layers, r.1, r.2.1, e.2.drops, C.batch⟩, r.2.2.1, e.2)

/-- As `setupF`, without the final layer. -/
def NNConf.setup (C : NNConf K) : Option (NNet K × NBld K) := C.setupF.map fun r => (r.1, r.2.2)

/-- The numbers in the matrices before training. -/
def NBld.val (s : NBld K) (a : ℕ) : K := (s.b.cv a).getD 0

/-- Build the network and train it without statistics.  main.cpp:80-93.  `f` bounds the depth of nested formulas. -/
def NNConf.main (C : NNConf K) (B : Backend K) (π : Sched) (f : ℕ) (Xd Yd : Mat K) (rate : K) (epochs : ℕ)
    (draw : ℕ → ℕ → ℕ → ℕ → K) : Option (NNet K × NBld K × NNSt K) :=
  C.setup.bind fun r => (nnTrain ⟨B, π, r.2.b.E, ⟨r.2.val, fun a v => if a = v then 1 else 0⟩⟩ f r.1 Xd Yd rate epochs draw
    ⟨PSt.fresh, r.2.val, fun _ => none⟩).map fun s => (r.1, r.2, s)

end CoolDiff
