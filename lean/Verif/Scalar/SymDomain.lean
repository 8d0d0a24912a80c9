import Verif.Scalar.SymClass
import Verif.Scalar.Real

/-!
# Which operators, and which domains, survive symbolic differentiation
-/

set_option linter.unusedSectionVars false

namespace CoolDiff

variable {K : Type} [Field K] [DecidableEq K] {P : Prim K}

/-! ## Domains -/

/-- Points at which a one-operand operator can be differentiated `m + 1` times by its formulas.  Only
`pow(u, c)` loses points: at `u = 0` it needs an integer exponent `c ≥ m + 1`. -/
def Op1.DomN (m : ℕ) : Op1 ℝ → ℝ → Prop
  | .powC c, u => 0 < u ∨ ((∃ n : ℤ, c = n) ∧ (u ≠ 0 ∨ (m : ℝ) + 1 ≤ c))
  | f, u => f.Dom u

/-- The condition "inside the domain for `m + 1` differentiations". -/
def domN (m : ℕ) : OpClass ℝ where
  p1 := Op1.DomN m
  p2 := Op2.Dom

theorem Op1.domN_zero (f : Op1 ℝ) (u : ℝ) : f.DomN 0 u ↔ f.Dom u := by
  cases f <;> simp [Op1.DomN, Op1.Dom]

theorem Node.all_domN_zero {π ρ : ℕ → ℝ} (t : Node ℝ) :
    t.All (domN 0) realPrim π ρ ↔ t.InDom π ρ := by
  induction t with
  | leaf o => exact Iff.rfl
  | par p => exact Iff.rfl
  | op1 n f a ih => exact and_congr ih (Op1.domN_zero _ _)
  | op2 n f a b iha ihb => exact and_congr iha (and_congr ihb Iff.rfl)

theorem seqAll_domN_zero {π ρ : ℕ → ℝ} {o : ℕ} (is : List (Node ℝ)) (v : ℝ) :
    SeqAll (domN 0) realPrim π ρ o is v ↔ SeqInDom π ρ o is v := by
  induction is generalizing v with
  | nil => exact Iff.rfl
  | cons i is ih => exact and_congr (Node.all_domN_zero i) (ih _)

/-- Differentiating once uses up one degree. -/
theorem domN_closes (m : ℕ) : Closes (domN (m + 1)) (domN m) realPrim where
  le1 := by
    intro f u h
    cases f
    case powC c =>
      rcases h with h | ⟨h1, h2 | h2⟩
      · exact Or.inl h
      · exact Or.inr ⟨h1, Or.inl h2⟩
      · refine Or.inr ⟨h1, Or.inr ?_⟩
        push_cast at h2; linarith
    all_goals exact h
  le2 := fun f u v h => h
  one := fun u => trivial
  val1 := by
    intro f t ht h hp
    cases f
    case custom => simp [Op1.symVal] at ht
    case powC c =>
      simp only [Op1.symVal, Option.some.injEq] at ht
      subst ht
      refine ⟨trivial, ?_⟩
      rcases hp with h | ⟨h1, h2 | h2⟩
      · exact Or.inl h
      · exact Or.inr ⟨h1, Or.inl h2⟩
      · refine Or.inr ⟨h1, Or.inr ?_⟩
        push_cast at h2; linarith
    all_goals
      simp only [Op1.symVal, Option.some.injEq] at ht
      subst ht
      exact ⟨trivial, hp⟩
  der1 := by
    intro f t ht h hp
    cases f
    case custom => simp [Op1.symDer] at ht
    case powC c =>
      simp only [Op1.symDer, Option.some.injEq] at ht
      subst ht
      refine ⟨⟨⟨trivial, ?_⟩, trivial⟩, trivial, trivial⟩
      rcases hp with h | ⟨⟨n, h1⟩, h2 | h2⟩
      · exact Or.inl h
      · exact Or.inr ⟨⟨n - 1, by push_cast; rw [h1]⟩, Or.inl h2⟩
      · refine Or.inr ⟨⟨n - 1, by push_cast; rw [h1]⟩, Or.inr ?_⟩
        push_cast at h2; linarith
    case addC c =>
      simp only [Op1.symDer, Option.some.injEq] at ht
      subst ht; trivial
    case mulC c =>
      simp only [Op1.symDer, Option.some.injEq] at ht
      subst ht; exact ⟨trivial, trivial⟩
    case divC c =>
      simp only [Op1.symDer, Option.some.injEq] at ht
      subst ht
      exact ⟨⟨⟨trivial, trivial⟩, trivial⟩, ⟨trivial, trivial, trivial⟩, mul_ne_zero hp hp⟩
    case cPow c =>
      simp only [Op1.symDer, Option.some.injEq] at ht
      subst ht
      exact ⟨⟨⟨trivial, hp⟩, trivial, trivial⟩, trivial⟩
    case fn f =>
      simp only [Op1.symDer, Option.some.injEq] at ht
      subst ht
      have hp : f.Dom (h .evL) := hp
      generalize hu : h .evL = u at hp
      have s1 : -1 < u → u < 1 → 0 < 1 + -1 * (u * u) := fun a b => by nlinarith
      cases f
      case asin =>
        have h0 : (0 : ℝ) < 1 - u * u := by have := s1 hp.1 hp.2; linarith
        refine ⟨⟨⟨⟨⟨trivial, trivial, trivial⟩, trivial, trivial⟩, ?_⟩, ?_⟩, trivial, trivial⟩ <;>
          simp only [Tm.val, UForm.sem, BForm.sem, hu, UForm.All]
        · exact h0
        · exact (Real.sqrt_pos.2 h0).ne'
      case acos =>
        have h0 : (0 : ℝ) < 1 - u * u := by have := s1 hp.1 hp.2; linarith
        refine ⟨⟨⟨⟨⟨trivial, trivial, trivial⟩, trivial, trivial⟩, ?_⟩, ?_⟩, trivial, trivial⟩ <;>
          simp only [Tm.val, UForm.sem, BForm.sem, hu, UForm.All]
        · exact h0
        · exact (Real.sqrt_pos.2 h0).ne'
      case asinh =>
        have h0 : (0 : ℝ) < 1 + u * u := by nlinarith [mul_self_nonneg u]
        refine ⟨⟨⟨⟨⟨trivial, trivial, trivial⟩, trivial⟩, ?_⟩, ?_⟩, trivial, trivial⟩ <;>
          simp only [Tm.val, UForm.sem, BForm.sem, hu, UForm.All]
        · exact h0
        · exact (Real.sqrt_pos.2 h0).ne'
      case acosh =>
        have hp : 1 < u := hp
        have h0 : (0 : ℝ) < u * u - 1 := by nlinarith
        refine ⟨⟨⟨⟨⟨trivial, trivial, trivial⟩, trivial⟩, ?_⟩, ?_⟩, trivial, trivial⟩ <;>
          simp only [Tm.val, UForm.sem, BForm.sem, hu, UForm.All]
        · exact h0
        · exact (Real.sqrt_pos.2 h0).ne'
      case atanh =>
        have h0 : (0 : ℝ) < 1 - u * u := by have := s1 hp.1 hp.2; linarith
        refine ⟨⟨⟨⟨trivial, trivial, trivial⟩, trivial⟩, ?_⟩, trivial, trivial⟩
        simp only [Tm.val, UForm.sem, BForm.sem, hu, UForm.All]
        show u * u - 1 ≠ 0
        linarith
      case atan =>
        have h0 : (0 : ℝ) < 1 + u * u := by nlinarith [mul_self_nonneg u]
        refine ⟨⟨⟨⟨trivial, trivial, trivial⟩, trivial⟩, ?_⟩, trivial, trivial⟩
        simp only [Tm.val, UForm.sem, BForm.sem, hu, UForm.All]
        exact h0.ne'
      case sqrt =>
        have hp : 0 < u := hp
        refine ⟨⟨⟨trivial, ?_⟩, ?_⟩, trivial, trivial⟩ <;>
          simp only [Tm.val, UForm.sem, hu, UForm.All]
        · exact hp
        · exact (Real.sqrt_pos.2 hp).ne'
      case log =>
        have hp : 0 < u := hp
        refine ⟨⟨trivial, ?_⟩, trivial, trivial⟩
        simp only [Tm.val, hu, UForm.All]
        exact hp.ne'
      case tan =>
        refine ⟨⟨⟨⟨trivial, ?_⟩, ⟨trivial, ?_⟩, trivial⟩, trivial⟩, trivial, trivial⟩ <;>
        · simp only [Tm.val, hu, UForm.All]
          exact hp
      case sin => exact ⟨⟨trivial, trivial⟩, trivial, trivial⟩
      case cos => exact ⟨⟨⟨trivial, trivial⟩, trivial⟩, trivial, trivial⟩
      case sinh => exact ⟨⟨trivial, trivial⟩, trivial, trivial⟩
      case cosh => exact ⟨⟨trivial, trivial⟩, trivial, trivial⟩
      case tanh =>
        exact ⟨⟨⟨⟨trivial, trivial⟩, ⟨trivial, trivial⟩, trivial⟩, trivial, trivial⟩, trivial, trivial⟩
      case exp => exact ⟨⟨trivial, trivial⟩, trivial, trivial⟩
  val2 := by
    intro f t ht h hp
    cases f
    case custom => simp [Op2.symVal] at ht
    all_goals
      simp only [Op2.symVal, Option.some.injEq] at ht
      subst ht
      exact ⟨trivial, trivial, hp⟩
  der2 := by
    intro f t ht h hp
    cases f
    case custom => simp [Op2.symDer] at ht
    case pow =>
      simp only [Op2.symDer, Option.some.injEq] at ht
      subst ht
      have hp : 0 < h .evL := hp
      exact ⟨⟨trivial, trivial, hp⟩, ⟨⟨⟨trivial, trivial, hp.ne'⟩, trivial, trivial⟩,
        ⟨trivial, ⟨trivial, hp⟩, trivial⟩, trivial⟩, trivial⟩
    case div =>
      simp only [Op2.symDer, Option.some.injEq] at ht
      subst ht
      exact ⟨⟨⟨trivial, trivial, trivial⟩, ⟨trivial, trivial, trivial⟩, trivial⟩,
        ⟨trivial, trivial, trivial⟩, mul_ne_zero hp hp⟩
    case mul =>
      simp only [Op2.symDer, Option.some.injEq] at ht
      subst ht
      exact ⟨⟨trivial, trivial, trivial⟩, ⟨trivial, trivial, trivial⟩, trivial⟩
    all_goals
      simp only [Op2.symDer, Option.some.injEq] at ht
      subst ht
      exact ⟨trivial, trivial, trivial⟩

/-! ## Operators -/

/-- All operators of a tree satisfy `p` (one operand) and `p2` (two operands). -/
def Node.Only (p : Op1 K → Prop) (p2 : Op2 K → Prop) : Node K → Prop
  | .leaf _ => True
  | .par _ => True
  | .op1 _ f a => p f ∧ a.Only p p2
  | .op2 _ f a b => p2 f ∧ a.Only p p2 ∧ b.Only p p2

/-- The condition as a class. -/
def onlyC (p : Op1 K → Prop) (p2 : Op2 K → Prop) : OpClass K := ⟨fun f _ => p f, fun f _ _ => p2 f⟩

theorem Node.all_onlyC {p : Op1 K → Prop} {p2 : Op2 K → Prop} {π ρ : ℕ → K} (t : Node K) :
    t.All (onlyC p p2) P π ρ ↔ t.Only p p2 := by
  induction t with
  | leaf o => exact Iff.rfl
  | par p => exact Iff.rfl
  | op1 n f a ih => exact (and_congr ih Iff.rfl).trans and_comm
  | op2 n f a b iha ihb =>
      exact (and_congr iha (and_congr ihb Iff.rfl)).trans ⟨fun h => ⟨h.2.2, h.1, h.2.1⟩, fun h => ⟨h.2.1, h.2.2, h.1⟩⟩

theorem seqAll_onlyC {p : Op1 K → Prop} {p2 : Op2 K → Prop} {π ρ : ℕ → K} {o : ℕ} (is : List (Node K))
    (v : K) : SeqAll (onlyC p p2) P π ρ o is v ↔ ∀ i ∈ is, i.Only p p2 := by
  induction is generalizing v with
  | nil => simp [SeqAll]
  | cons i is ih =>
      rw [List.forall_mem_cons, ← ih (i.val P π (Function.update ρ o v))]
      exact and_congr (Node.all_onlyC i) Iff.rfl

theorem Node.only_symOk (t : Node K) : t.Only Op1.SymOk Op2.SymOk ↔ t.SymOk := by
  induction t with
  | leaf o => exact Iff.rfl
  | par p => exact Iff.rfl
  | op1 n f a ih => exact and_congr Iff.rfl ih
  | op2 n f a b iha ihb => exact and_congr Iff.rfl (and_congr iha ihb)

/-- Operators whose derivative formula `SymDiff` can differentiate again: not `sqrt`, `acos`, `atanh`,
whose formulas contain `c / e` with `c ≠ 1`. -/
def Op1.SymOk2 : Op1 K → Prop
  | .fn .sqrt => False
  | .fn .acos => False
  | .fn .atanh => False
  | f => f.SymOk

/-- Operators whose derivatives `SymDiff` can differentiate any number of times. -/
def Op1.SymOkN : Op1 K → Prop
  | .fn .sqrt => False
  | .fn .acos => False
  | .fn .atanh => False
  | .fn .asin => False
  | .fn .asinh => False
  | .fn .acosh => False
  | f => f.SymOk

theorem symOk2_closes : Closes (onlyC (Op1.SymOk2 (K := K)) Op2.SymOk) (onlyC Op1.SymOk Op2.SymOk) P where
  le1 := by
    intro f u h
    cases f
    case fn f => trivial
    all_goals exact h
  le2 := fun f u v h => h
  one := fun u => trivial
  val1 := by
    intro f t ht h hp
    cases f
    case custom => simp [Op1.symVal] at ht
    all_goals
      simp only [Op1.symVal, Option.some.injEq] at ht
      subst ht
      first | exact ⟨trivial, trivial⟩ | exact ⟨trivial, rfl⟩
  der1 := by
    intro f t ht h hp
    cases f
    case custom => simp [Op1.symDer] at ht
    case fn f =>
      simp only [Op1.symDer, Option.some.injEq] at ht
      subst ht
      cases f <;>
        first
        | exact hp.elim
        | (simp only [Fn.symDer, Tm.All, UForm.All, BForm.All, onlyC, Op1.SymOk, Op2.SymOk, and_self])
    all_goals
      simp only [Op1.symDer, Option.some.injEq] at ht
      subst ht
      simp [Tm.All, UForm.All, BForm.All, onlyC, Op1.SymOk, Op2.SymOk]
  val2 := by
    intro f t ht h hp
    cases f
    case custom => simp [Op2.symVal] at ht
    all_goals
      simp only [Op2.symVal, Option.some.injEq] at ht
      subst ht
      exact ⟨trivial, trivial, trivial⟩
  der2 := by
    intro f t ht h hp
    cases f
    case custom => simp [Op2.symDer] at ht
    all_goals
      simp only [Op2.symDer, Option.some.injEq] at ht
      subst ht
      simp [Tm.All, UForm.All, BForm.All, onlyC, Op1.SymOk, Op2.SymOk]

theorem symOkN_closes : Closes (onlyC (Op1.SymOkN (K := K)) Op2.SymOk) (onlyC Op1.SymOkN Op2.SymOk) P where
  le1 := fun f u h => h
  le2 := fun f u v h => h
  one := fun u => trivial
  val1 := by
    intro f t ht h hp
    cases f
    case custom => simp [Op1.symVal] at ht
    case fn f =>
      simp only [Op1.symVal, Option.some.injEq] at ht
      subst ht
      exact ⟨trivial, hp⟩
    all_goals
      simp only [Op1.symVal, Option.some.injEq] at ht
      subst ht
      first | exact ⟨trivial, trivial⟩ | exact ⟨trivial, rfl⟩
  der1 := by
    intro f t ht h hp
    cases f
    case custom => simp [Op1.symDer] at ht
    case fn f =>
      simp only [Op1.symDer, Option.some.injEq] at ht
      subst ht
      cases f <;>
        first
        | exact hp.elim
        | (simp only [Fn.symDer, Tm.All, UForm.All, BForm.All, onlyC, Op1.SymOkN, Op1.SymOk, Op2.SymOk, and_self])
    all_goals
      simp only [Op1.symDer, Option.some.injEq] at ht
      subst ht
      simp [Tm.All, UForm.All, BForm.All, onlyC, Op1.SymOkN, Op1.SymOk, Op2.SymOk]
  val2 := by
    intro f t ht h hp
    cases f
    case custom => simp [Op2.symVal] at ht
    all_goals
      simp only [Op2.symVal, Option.some.injEq] at ht
      subst ht
      exact ⟨trivial, trivial, trivial⟩
  der2 := by
    intro f t ht h hp
    cases f
    case custom => simp [Op2.symDer] at ht
    all_goals
      simp only [Op2.symDer, Option.some.injEq] at ht
      subst ht
      simp [Tm.All, UForm.All, BForm.All, onlyC, Op1.SymOkN, Op1.SymOk, Op2.SymOk]

theorem Op1.SymOkN.symOk {f : Op1 K} (h : f.SymOkN) : f.SymOk := by
  cases f
  case fn f => trivial
  all_goals exact h

theorem Op1.SymOk2.symOk {f : Op1 K} (h : f.SymOk2) : f.SymOk := by
  cases f
  case fn f => trivial
  all_goals exact h

theorem Node.Only.mono {p p' : Op1 K → Prop} {q q' : Op2 K → Prop} (h : ∀ f, p f → p' f)
    (h' : ∀ f, q f → q' f) {t : Node K} (ht : t.Only p q) : t.Only p' q' := by
  induction t with
  | leaf o => trivial
  | par p => trivial
  | op1 n f a ih => exact ⟨h _ ht.1, ih ht.2⟩
  | op2 n f a b iha ihb => exact ⟨h' _ ht.1, iha ht.2.1, ihb ht.2.2⟩

end CoolDiff
