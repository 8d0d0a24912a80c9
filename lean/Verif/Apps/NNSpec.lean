import Verif.Apps.NeuralNet

/-!
# Specification of mini-batch gradient descent, independent of the code

The numbers in all matrices are a function from element handles to numbers; `E.el o i k` is the handle of element
`(i, k)` of matrix `o`.
-/

namespace CoolDiff

variable {K : Type} [Field K]

/-- The first rows of the batches: `0, b, 2b, …`, and `d - b` if `b` does not divide the number `d` of rows. -/
def batchStarts (d b : ℕ) : List ℕ := (List.range (d / b)).map (· * b) ++ if d % b = 0 then [] else [d - b]

/-- The handle `a` is an element of matrix `o`. -/
def IsEl (E : MEnv K) (o a : ℕ) : Prop := ∃ i k, i < E.rows o ∧ k < E.cols o ∧ a = E.el o i k

/-- The numbers `w` are the numbers `v` after the batch has been loaded: `X` and `Y` hold the rows `j, j+1, …` of the
data, the dropout matrices hold the random draws divided by the probability, everything else is as before. -/
structure Loaded (E : MEnv K) (N : NNet K) (Xd Yd : Mat K) (draw : ℕ → ℕ → K) (j : ℕ) (v w : ℕ → K) : Prop where
  x : ∀ i k, i < E.rows N.x → k < E.cols N.x → Xd.get? (j + i) k = some (w (E.el N.x i k))
  y : ∀ i k, i < E.rows N.y → k < E.cols N.y → Yd.get? (j + i) k = some (w (E.el N.y i k))
  drop : ∀ d ∈ N.drops, ∀ i k, i < E.rows d.2 → k < E.cols d.2 →
    w (E.el d.2 i k) = 1 / d.1 * draw d.2 (i * E.cols d.2 + k)
  rest : ∀ a, ¬IsEl E N.x a → ¬IsEl E N.y a → (∀ d ∈ N.drops, ¬IsEl E d.2 a) → w a = v a

/-- One step: `α` times the gradient `g` is added to all elements of the matrices `T` at once, everything else
stays. -/
structure Stepped (E : MEnv K) (T : List ℕ) (α : K) (g : ℕ → ℕ → ℕ → K) (w v' : ℕ → K) : Prop where
  par : ∀ θ ∈ T, ∀ i k, i < E.rows θ → k < E.cols θ → v' (E.el θ i k) = w (E.el θ i k) + α * g θ i k
  rest : ∀ a, (∀ θ ∈ T, ¬IsEl E θ a) → v' a = w a

/-- Gradient descent over a list of batches (random draws and first row); `G w θ i k` is the derivative of the error
with respect to element `(i, k)` of `θ` at the numbers `w`. -/
inductive Descent (E : MEnv K) (N : NNet K) (Xd Yd : Mat K) (α : K) (G : (ℕ → K) → ℕ → ℕ → ℕ → K) :
    List ((ℕ → ℕ → K) × ℕ) → (ℕ → K) → (ℕ → K) → Prop
  | nil (v : ℕ → K) : Descent E N Xd Yd α G [] v v
  | cons {draw : ℕ → ℕ → K} {j : ℕ} {bs : List ((ℕ → ℕ → K) × ℕ)} {v w v' v'' : ℕ → K} :
      Loaded E N Xd Yd draw j v w → Stepped E N.params α (G w) w v' → Descent E N Xd Yd α G bs v' v'' →
      Descent E N Xd Yd α G ((draw, j) :: bs) v v''

/-- The batches of `epochs` epochs. -/
def allBatches (d b epochs : ℕ) (draw : ℕ → ℕ → ℕ → ℕ → K) : List ((ℕ → ℕ → K) × ℕ) :=
  (List.range epochs).flatMap fun i => (batchStarts d b).map fun j => (draw i j, j)

end CoolDiff
