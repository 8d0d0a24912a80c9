import Verif.Apps.NNSpec
import Verif.Props.Misc

/-!
# Specification: what the network of example/NeuralNet computes, independent of the library

Over the reals, on plain functions of row and column.
-/

namespace CoolDiff

open Finset

/-- A layer: numbers of outputs and inputs, weights, biases, and the numbers that dropout multiplies the outputs with. -/
structure PlainLayer where
  outs : ℕ
  ins : ℕ
  W : ℕ → ℕ → ℝ
  b : ℕ → ℝ
  D : ℕ → ℕ → ℝ

/-- What the activation function gets, for sample `i` and output `j`. -/
noncomputable def PlainLayer.pre (L : PlainLayer) (A : ℕ → ℕ → ℝ) (i j : ℕ) : ℝ :=
  ∑ l ∈ range L.ins, A i l * L.W j l + L.b j

/-- LeakyReLU. -/
noncomputable def leaky (x : ℝ) : ℝ := if 0 ≤ x then x else 0.01 * x

/-- The output of a layer. -/
noncomputable def PlainLayer.out (L : PlainLayer) (A : ℕ → ℕ → ℝ) (i j : ℕ) : ℝ := L.D i j * leaky (L.pre A i j)

/-- Layer after layer. -/
noncomputable def forward : List PlainLayer → (ℕ → ℕ → ℝ) → ℕ → ℕ → ℝ
  | [], A => A
  | L :: Ls, A => forward Ls (L.out A)

/-- No activation function is evaluated at its kink. -/
def Regular (batch : ℕ) : List PlainLayer → (ℕ → ℕ → ℝ) → Prop
  | [], _ => True
  | L :: Ls, A => (∀ i j, i < batch → j < L.outs → L.pre A i j ≠ 0) ∧ Regular batch Ls (L.out A)

/-- The probabilities of the `m` classes. -/
noncomputable def softmax (m : ℕ) (A : ℕ → ℕ → ℝ) (i j : ℕ) : ℝ := Real.exp (A i j) / ∑ q ∈ range m, Real.exp (A i q)

/-- The cross entropy of labels `Y` and probabilities `P`. -/
noncomputable def crossEntropy (n m : ℕ) (Y P : ℕ → ℕ → ℝ) : ℝ := -∑ i ∈ range n, ∑ k ∈ range m, Y i k * Real.log (P i k)

/-- The matrix `o` when the elements are `w`. -/
def matAt (E : MEnv ℝ) (w : ℕ → ℝ) (o i k : ℕ) : ℝ := w (E.el o i k)

/-- The layers of a network when the elements of its matrices are `w`. -/
def NNet.plain (N : NNet ℝ) (E : MEnv ℝ) (w : ℕ → ℝ) : List PlainLayer :=
  (N.layers.zip N.drops).map fun r =>
    ⟨E.rows r.1.1, E.cols r.1.1, matAt E w r.1.1, fun i => matAt E w r.1.2 i 0, matAt E w r.2.2⟩

/-- The loss as a function of the elements of all matrices. -/
noncomputable def NNet.loss (N : NNet ℝ) (E : MEnv ℝ) (out : ℕ) (w : ℕ → ℝ) : ℝ :=
  crossEntropy N.batch out (matAt E w N.y) (softmax out (forward (N.plain E w) (matAt E w N.x)))

/-- Mini-batch gradient descent on the function `L` of the elements: per batch the data are loaded, then `α` times the
gradient of `L` at the loaded elements `w` is added to all parameters at once (if `R w`; else some numbers are added). -/
inductive Trained (E : MEnv ℝ) (N : NNet ℝ) (Xd Yd : Mat ℝ) (α : ℝ) (L : (ℕ → ℝ) → ℝ) (R : (ℕ → ℝ) → Prop) :
    List ((ℕ → ℕ → ℝ) × ℕ) → (ℕ → ℝ) → (ℕ → ℝ) → Prop
  | nil (v : ℕ → ℝ) : Trained E N Xd Yd α L R [] v v
  | cons {draw : ℕ → ℕ → ℝ} {j : ℕ} {bs : List ((ℕ → ℕ → ℝ) × ℕ)} {v w v' v'' : ℕ → ℝ} (g : ℕ → ℕ → ℕ → ℝ) :
      Loaded E N Xd Yd draw j v w →
      (R w → ∀ θ ∈ N.params, ∀ i k, i < E.rows θ → k < E.cols θ →
        HasDerivAt (fun u => L (Function.update w (E.el θ i k) u)) (g θ i k) (w (E.el θ i k))) →
      Stepped E N.params α g w v' → Trained E N Xd Yd α L R bs v' v'' →
      Trained E N Xd Yd α L R ((draw, j) :: bs) v v''

/-- The parameters are those the user gave: weights and biases of every layer have its dimensions and hold its numbers. -/
def NNet.Starts (N : NNet ℝ) (E : MEnv ℝ) (w : ℕ → ℝ) (ls : List (ℕ × ℕ × (ℕ → ℕ → ℝ) × (ℕ → ℝ))) : Prop :=
  List.Forall₂ (fun o l => (E.rows o.1 = l.1 ∧ E.cols o.1 = l.2.1 ∧ E.rows o.2 = l.1 ∧ E.cols o.2 = 1) ∧
    (∀ i k, i < l.1 → k < l.2.1 → matAt E w o.1 i k = l.2.2.1 i k) ∧ ∀ i, i < l.1 → matAt E w o.2 i 0 = l.2.2.2 i) N.layers ls

end CoolDiff
