import Verif.Apps.NNSpec
import Verif.Apps.Accuracy
import Verif.Matrix.Runs
import Mathlib.Data.Finset.Card

/-!
# Specification of the accuracy and of training statistics, independent of the code
-/

namespace CoolDiff

variable {K : Type} [Field K] [DecidableEq K]

/-- `p` is the first of the positions `0, …, n-1` where `x` is largest. -/
structure FirstMax [LT K] (x : ℕ → K) (n p : ℕ) : Prop where
  lt : p < n
  largest : ∀ q < n, ¬x p < x q
  first : ∀ q < p, x q < x p

/-- The numbers `w` are the numbers `v` with the rows `j, j+1, …` of the data in `X` and `Y` and without dropout. -/
structure Shown (E : MEnv K) (N : NNet K) (Xd Yd : Mat K) (j : ℕ) (v w : ℕ → K) : Prop where
  x : ∀ i k, i < E.rows N.x → k < E.cols N.x → Xd.get? (j + i) k = some (w (E.el N.x i k))
  y : ∀ i k, i < E.rows N.y → k < E.cols N.y → Yd.get? (j + i) k = some (w (E.el N.y i k))
  drop : ∀ d ∈ N.drops, ∀ i k, i < E.rows d.2 → k < E.cols d.2 → w (E.el d.2 i k) = 1
  rest : ∀ a, ¬IsEl E N.x a → ¬IsEl E N.y a → (∀ d ∈ N.drops, ¬IsEl E d.2 a) → w a = v a

/-- At the numbers `w`, the class that the final layer `out` gives to row `i` of the batch that starts at row `j` is the
class in the data: the (first) largest entries of the two rows are in the same place. -/
def Right [LT K] (E : MEnv K) (rank : ℕ → ℕ) (out : MNode K) (Yd : Mat K) (w : ℕ → K) (j i : ℕ) : Prop :=
  ∃ p, FirstMax (fun k => den E w (valOf E w rank) out i k) Yd.cols p ∧ FirstMax (fun k => Yd.val (j + i) k) Yd.cols p

open Classical in
/-- The number of rows of a batch that are classified correctly. -/
noncomputable def rights [LT K] (E : MEnv K) (rank : ℕ → ℕ) (out : MNode K) (b : ℕ) (Yd : Mat K) (w : ℕ → K) (j : ℕ) : ℕ :=
  ((Finset.range b).filter (Right E rank out Yd w j)).card

/-- The number that `accuracy` gives for a network with the numbers `v`: `d` rows of data, batches of `b` rows.  The
batches `0, b, …` that start before row `d - b` are looked at, and the number of correct rows is related to `d - b`. -/
def AccuracyIs [LT K] (E : MEnv K) (rank : ℕ → ℕ) (N : NNet K) (out : MNode K) (Xd Yd : Mat K) (v : ℕ → K) (a : K) : Prop :=
  ∃ w : ℕ → ℕ → K, (∀ t < (Yd.rows - 1) / N.batch, Shown E N Xd Yd (t * N.batch) v (w t)) ∧
    a = ((∑ t ∈ Finset.range ((Yd.rows - 1) / N.batch), rights E rank out N.batch Yd (w t) (t * N.batch) : ℕ) : K) /
      ((Yd.rows - N.batch : ℕ) : K) * 100

/-- As `Descent`; `ws` are the numbers at which the gradients were taken. -/
inductive DescentW (E : MEnv K) (N : NNet K) (Xd Yd : Mat K) (α : K) (G : (ℕ → K) → ℕ → ℕ → ℕ → K) :
    List ((ℕ → ℕ → K) × ℕ) → (ℕ → K) → List (ℕ → K) → (ℕ → K) → Prop
  | nil (v : ℕ → K) : DescentW E N Xd Yd α G [] v [] v
  | cons {draw : ℕ → ℕ → K} {j : ℕ} {bs : List ((ℕ → ℕ → K) × ℕ)} {v w v' v'' : ℕ → K} {ws : List (ℕ → K)} :
      Loaded E N Xd Yd draw j v w → Stepped E N.params α (G w) w v' → DescentW E N Xd Yd α G bs v' ws v'' →
      DescentW E N Xd Yd α G ((draw, j) :: bs) v (w :: ws) v''

/-- The numbers agree outside the batch matrices `X`, `Y` and the dropout matrices. -/
def SameNet (E : MEnv K) (N : NNet K) (v w : ℕ → K) : Prop :=
  ∀ a, ¬IsEl E N.x a → ¬IsEl E N.y a → (∀ d ∈ N.drops, ¬IsEl E d.2 a) → w a = v a

/-- Training with statistics: per epoch gradient descent over its batches; the loss is the sum of the errors at the
numbers where the gradients were taken, the accuracy is that of the network after the epoch; nothing but the batch and
dropout matrices changes between epochs. -/
inductive Epochs [LT K] (E : MEnv K) (rank : ℕ → ℕ) (N : NNet K) (out : MNode K) (Xd Yd : Mat K) (α : K)
    (G : (ℕ → K) → ℕ → ℕ → ℕ → K) (draw : ℕ → ℕ → ℕ → ℕ → K) : List ℕ → (ℕ → K) → List (K × K) → (ℕ → K) → Prop
  | nil (v : ℕ → K) : Epochs E rank N out Xd Yd α G draw [] v [] v
  | cons {i : ℕ} {is : List ℕ} {v v1 v2 v3 : ℕ → K} {ws : List (ℕ → K)} {a : K} {log : List (K × K)} :
      DescentW E N Xd Yd α G ((batchStarts Yd.rows N.batch).map fun j => (draw i j, j)) v ws v1 →
      AccuracyIs E rank N out Xd Yd v1 a → SameNet E N v1 v2 →
      Epochs E rank N out Xd Yd α G draw is v2 log v3 →
      Epochs E rank N out Xd Yd α G draw (i :: is) v
        (((ws.map fun w => valOf E w rank N.err 0 0).sum, a) :: log) v3

end CoolDiff
