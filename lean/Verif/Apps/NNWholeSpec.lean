import Verif.Apps.NNLoss
import Verif.Apps.AccSpec

/-!
# Specification: what the neural network program prints, independent of the library

Over the reals, on plain functions of row and column.
-/

namespace CoolDiff

open Finset

/-- The layer without dropout. -/
def PlainLayer.clean (L : PlainLayer) : PlainLayer := { L with D := fun _ _ => 1 }

/-- The class with the highest of the `m` probabilities `P` for sample `i` is the one in the data `Y` (the first one if
there are several). -/
def RightClass (m : ℕ) (P Y : ℕ → ℕ → ℝ) (i : ℕ) : Prop := ∃ p, FirstMax (P i) m p ∧ FirstMax (Y i) m p

open Classical in
/-- The accuracy of a network without dropout: all samples are put through the layers at once.  With batches of `b`
samples the last incomplete batch (or, if there is none, the last batch) is not looked at, and the number of right
classes is related to the number of samples less `b`. -/
noncomputable def plainAccuracy (Ls : List PlainLayer) (m b : ℕ) (Xd Yd : Mat ℝ) : ℝ :=
  (#{i ∈ range ((Yd.rows - 1) / b * b) | RightClass m (softmax m (forward (Ls.map PlainLayer.clean) Xd.val)) Yd.val i} : ℝ) /
    ((Yd.rows - b : ℕ) : ℝ) * 100

/-- As `Trained`; `ws` are the numbers at which the gradients were taken. -/
inductive TrainedW (E : MEnv ℝ) (N : NNet ℝ) (Xd Yd : Mat ℝ) (α : ℝ) (L : (ℕ → ℝ) → ℝ) (R : (ℕ → ℝ) → Prop) :
    List ((ℕ → ℕ → ℝ) × ℕ) → (ℕ → ℝ) → List (ℕ → ℝ) → (ℕ → ℝ) → Prop
  | nil (v : ℕ → ℝ) : TrainedW E N Xd Yd α L R [] v [] v
  | cons {draw : ℕ → ℕ → ℝ} {j : ℕ} {bs : List ((ℕ → ℕ → ℝ) × ℕ)} {v w v' v'' : ℕ → ℝ} {ws : List (ℕ → ℝ)}
      (g : ℕ → ℕ → ℕ → ℝ) : Loaded E N Xd Yd draw j v w →
      (R w → ∀ θ ∈ N.params, ∀ i k, i < E.rows θ → k < E.cols θ →
        HasDerivAt (fun u => L (Function.update w (E.el θ i k) u)) (g θ i k) (w (E.el θ i k))) →
      Stepped E N.params α g w v' → TrainedW E N Xd Yd α L R bs v' ws v'' →
      TrainedW E N Xd Yd α L R ((draw, j) :: bs) v (w :: ws) v''

/-- Training with statistics: in every epoch `i` gradient descent over the batches; printed are the sum of the losses `L`
at the numbers at which the gradients were taken and the accuracy `acc` of the numbers after the epoch; between epochs
only the matrices for the batch and for dropout change. -/
inductive EpochsW (E : MEnv ℝ) (N : NNet ℝ) (Xd Yd : Mat ℝ) (α : ℝ) (L : (ℕ → ℝ) → ℝ) (R : (ℕ → ℝ) → Prop)
    (acc : (ℕ → ℝ) → ℝ) (draw : ℕ → ℕ → ℕ → ℕ → ℝ) : List ℕ → (ℕ → ℝ) → List (ℝ × ℝ) → (ℕ → ℝ) → Prop
  | nil (v : ℕ → ℝ) : EpochsW E N Xd Yd α L R acc draw [] v [] v
  | cons {i : ℕ} {is : List ℕ} {v v1 v2 v3 : ℕ → ℝ} {ws : List (ℕ → ℝ)} {log : List (ℝ × ℝ)} :
      TrainedW E N Xd Yd α L R ((batchStarts Yd.rows N.batch).map fun j => (draw i j, j)) v ws v1 → SameNet E N v1 v2 →
      EpochsW E N Xd Yd α L R acc draw is v2 log v3 →
      EpochsW E N Xd Yd α L R acc draw (i :: is) v (((ws.map L).sum, acc v1) :: log) v3

end CoolDiff
