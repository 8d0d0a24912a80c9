import Mathlib.Algebra.Field.Basic
import Mathlib.Algebra.Field.Rat
import Mathlib.Tactic.Ring
import Mathlib.Tactic.FieldSimp
import Mathlib.Tactic.NormNum
import Mathlib.Tactic.Linarith

/-!
# C50: matrices filled with random numbers

`FillRandomValues<D>(M, args…)` keeps its distribution in a function-local `static` variable.
-/

namespace CoolDiff

section
variable {K P G : Type}

/-- `std::generate(begin, end, [&]() { return dis(gen); })` for `n` elements, in order.  `sample p g` is one number of the
distribution with parameters `p` and the next state of the generator.  Matrix.hpp:442. -/
def generate (sample : P → G → K × G) (p : P) : ℕ → G → List K × G
  | 0, g => ([], g)
  | n + 1, g =>
    let r := sample p g
    let q := generate sample p n r.2
    (r.1 :: q.1, q.2)

/-- `FillRandomValues<D>(M, args...)` for a matrix with `n` elements; `st` is the static variable `dis` (`none`: not
initialised yet) and the generator `gen`.  Matrix.hpp:436-453.  Simplification: one instantiation of the template (the
same distribution and the same types of arguments); the elements are written in order. -/
def fillRandom (sample : P → G → K × G) (args : P) (n : ℕ) (st : Option P × G) : List K × (Option P × G) :=
  let dis := st.1.getD args
  let r := generate sample dis n st.2
  (r.1, (some dis, r.2))

/-- A sequence of calls: parameters and number of elements. -/
def fillAll (sample : P → G → K × G) : List (P × ℕ) → (Option P × G) → List (List K) × (Option P × G)
  | [], st => ([], st)
  | c :: cs, st =>
    let r := fillRandom sample c.1 c.2 st
    let q := fillAll sample cs r.2
    (r.1 :: q.1, q.2)

/-- What the calls should give: every matrix is filled with numbers of the distribution that the call names. -/
def fillSpec (sample : P → G → K × G) : List (P × ℕ) → G → List (List K) × G
  | [], g => ([], g)
  | c :: cs, g =>
    let r := generate sample c.1 c.2 g
    let q := fillSpec sample cs r.2
    (r.1 :: q.1, q.2)

theorem fillAll_some (sample : P → G → K × G) (p : P) : ∀ (cs : List (P × ℕ)) (g : G),
    (fillAll sample cs (some p, g)).1 = (fillSpec sample (cs.map fun c => (p, c.2)) g).1
  | [], _ => rfl
  | c :: cs, g => by
    simp only [fillAll, fillSpec, fillRandom, Option.getD_some, List.map_cons]
    rw [fillAll_some sample p cs]

/-- **C50, what happens.**  In a program that starts with the parameters `p`, all later calls fill their matrices with
numbers of the distribution with parameters `p`, whatever parameters they name. -/
theorem C50_first_parameters (sample : P → G → K × G) (p : P) (n : ℕ) (cs : List (P × ℕ)) (g : G) :
    (fillAll sample ((p, n) :: cs) (none, g)).1 = (fillSpec sample ((p, n) :: cs.map fun c => (p, c.2)) g).1 := by
  simp only [fillAll, fillSpec, fillRandom, Option.getD_none, List.cons.injEq, true_and]
  exact fillAll_some sample p cs _

/-- **C50, where it holds**: if all calls name the same parameters. -/
theorem C50_same_parameters_partial (sample : P → G → K × G) (p : P) (cs : List (P × ℕ)) (h : ∀ c ∈ cs, c.1 = p) (g : G) :
    (fillAll sample cs (none, g)).1 = (fillSpec sample cs g).1 := by
  cases cs with
  | nil => rfl
  | cons c cs =>
    obtain ⟨q, n⟩ := c
    obtain rfl : q = p := h (q, n) (by simp)
    rw [C50_first_parameters]
    congr 3
    conv_rhs => rw [← List.map_id cs]
    refine List.map_congr_left fun c hc => ?_
    rw [← h c (List.mem_cons_of_mem _ hc)]; rfl

end

/-! ## Dropout -/

section
variable {K : Type} [Field K]

/-- The mean of `f` over a number that is 1 with probability `q` and 0 otherwise. -/
def bernoulliMean (q : K) (f : K → K) : K := q * f 1 + (1 - q) * f 0

/-- **C50.**  An entry of a dropout matrix is a Bernoulli number divided by the probability `p` that is kept
(NeuralNet.hpp:155-160).  Its mean is 1, as it has to be, exactly if the numbers are drawn with the same `p`; after
`C50_first_parameters` they are drawn with the `p` of the first dropout layer. -/
theorem C50_dropout_mean {p q : K} (hp : p ≠ 0) : bernoulliMean q (fun b => 1 / p * b) = 1 ↔ q = p := by
  simp only [bernoulliMean, mul_one, mul_zero, add_zero]
  constructor
  · intro h
    field_simp at h
    exact h
  · rintro rfl
    field_simp

end

/-- One Bernoulli number from a list of uniform numbers. -/
def bern (p : ℚ) (g : List ℚ) : ℚ × List ℚ := (if g.headD 0 < p then 1 else 0, g.tail)

/-- **C50, where it fails.**  A second dropout layer keeps an entry with probability 9/10 (the probability of the first
one) instead of 1/2. -/
theorem C50_second_layer_counterexample :
    (fillAll bern [(9 / 10, 2), (1 / 2, 2)] (none, [1 / 2, 3 / 4, 1 / 4, 3 / 4])).1 = [[1, 1], [1, 1]] ∧
    (fillSpec bern [(9 / 10, 2), (1 / 2, 2)] [1 / 2, 3 / 4, 1 / 4, 3 / 4]).1 = [[1, 1], [1, 0]] := by decide +kernel

/-- The hypothesis of `C50_same_parameters_partial` is met. -/
example : (fillAll bern [(1 / 2, 2), (1 / 2, 1)] (none, [1 / 4, 3 / 4, 1 / 4])).1 = [[1, 0], [1]] := by
  rw [C50_same_parameters_partial bern (1 / 2) _ (by simp)]
  decide +kernel

end CoolDiff
