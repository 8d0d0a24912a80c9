import Verif.Apps.NNBuild
import Verif.Apps.Accuracy

/-!
# The whole neural network program (executable model)

example/NeuralNet/main.cpp: `MNISTPrediction` after the data have been loaded: build the network, train it with statistics
(the default of `train`), and compute the accuracy for the test data with a network rebuilt for another batch size.

Simplifications, besides those of `Verif.Apps.NNBuild` and `Verif.Apps.Accuracy`: printing; the result is what is printed.
-/

namespace CoolDiff

variable {K : Type} [Field K] [DecidableEq K]

/-- What queries need to know. -/
def NBld.ctx (s : NBld K) (B : Backend K) (π : Sched) : MCtx K := ⟨B, π, s.b.E, ⟨s.val, fun a v => if a = v then 1 else 0⟩⟩

/-- `accuracy(X_data, Y_data, batch_size)` for external use: the network is rebuilt for the batch size.  The new matrices
hold the numbers they are made with, all others what they held.  NeuralNet.hpp:298-337. -/
def NNConf.accuracy [LT K] [DecidableLT K] (C : NNConf K) (B : Backend K) (π : Sched) (f b err : ℕ) (s : NBld K)
    (t : NNSt K) (Xd Yd : Mat K) : Option (NNSt K × K) :=
  (({ C with batch := b } : NNConf K).networkLayers s).bind fun r =>
    nnAccuracy (r.2.2.2.ctx B π) f ⟨err, r.2.2.2.layers, r.1, r.2.1, r.2.2.2.drops, b⟩ (r.2.2.1.build r.2.2.2.b.next).1 Xd Yd
      { t with val := fun a => if a < s.b.nh then t.val a else r.2.2.2.val a }

/-- The program: the network, what is printed for every epoch (loss, accuracy on the training data), the accuracy on the
test data.  main.cpp:78-97. -/
def NNConf.program [LT K] [DecidableLT K] (C : NNConf K) (B : Backend K) (π : Sched) (f : ℕ) (Xd Yd : Mat K) (rate : K)
    (epochs : ℕ) (draw : ℕ → ℕ → ℕ → ℕ → K) (b : ℕ) (Xt Yt : Mat K) :
    Option ((NNet K × NBld K) × NNSt K × List (K × K) × K) :=
  C.setupF.bind fun r => (nnTrainS (r.2.2.ctx B π) f r.1 (r.2.1.build r.2.2.b.next).1 Xd Yd rate epochs draw
    ⟨PSt.fresh, r.2.2.val, fun _ => none⟩).bind fun t => (C.accuracy B π f b r.1.err r.2.2 t.1 Xt Yt).map fun a =>
      ((r.1, r.2.2), t.1, t.2, a.2)

end CoolDiff
