import Mathlib.Algebra.BigOperators.Group.List.Basic
import Mathlib.Algebra.Field.Basic
import Mathlib.Algebra.BigOperators.Group.Finset.Basic

/-!
# Specification of Gauss–Newton, independent of the code

A point gives every Variable (numbered by `ℕ`) a value.  `r i b` is residual number `i` at the point `b`, `J i x b`
its partial derivative with respect to the Variable `x`.
-/

namespace CoolDiff

variable {K : Type} [Field K]

/-- Element `(x, z)` of the matrix `Jᵀ J` of the normal equations. -/
def normalA (m : ℕ) (J : ℕ → ℕ → (ℕ → K) → K) (b : ℕ → K) (x z : ℕ) : K :=
  ∑ i ∈ Finset.range m, J i x b * J i z b

/-- Element `x` of the right-hand side `Jᵀ r`. -/
def normalB (m : ℕ) (r : ℕ → (ℕ → K) → K) (J : ℕ → ℕ → (ℕ → K) → K) (b : ℕ → K) (x : ℕ) : K :=
  ∑ i ∈ Finset.range m, r i b * J i x b

/-- One Gauss–Newton step from `b` to `b'` for `m` residuals and the unknowns `vs`: `b' = b - δ` where
`(Jᵀ J) δ = Jᵀ r`. -/
def GNStep (m : ℕ) (vs : List ℕ) (r : ℕ → (ℕ → K) → K) (J : ℕ → ℕ → (ℕ → K) → K) (b b' : ℕ → K) : Prop :=
  ∃ δ : ℕ → K, (∀ x ∈ vs, (vs.map fun z => normalA m J b x z * δ z).sum = normalB m r J b x) ∧
    (∀ x ∈ vs, b' x = b x - δ x) ∧ ∀ x, x ∉ vs → b' x = b x

/-- `n` Gauss–Newton steps. -/
inductive GNSteps (m : ℕ) (vs : List ℕ) (r : ℕ → (ℕ → K) → K) (J : ℕ → ℕ → (ℕ → K) → K) :
    ℕ → (ℕ → K) → (ℕ → K) → Prop
  | zero (b : ℕ → K) : GNSteps m vs r J 0 b b
  | succ {n : ℕ} {b b' b'' : ℕ → K} : GNSteps m vs r J n b b' → GNStep m vs r J b' b'' →
      GNSteps m vs r J (n + 1) b b''

end CoolDiff
