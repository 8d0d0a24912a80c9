import Verif.Scalar.Symbolic
import Verif.Scalar.Define
import Mathlib.Tactic.Ring
import Mathlib.Tactic.FieldSimp

/-!
# The formulas built by symbolic differentiation are the right ones
-/

set_option linter.unusedSectionVars false

namespace CoolDiff

variable {K : Type} [Field K] [DecidableEq K]

/-- Arithmetic of a one-operand form. -/
def UForm.sem (P : Prim K) : UForm K → K → K
  | .fn f, u => (Op1.fn f).sem P u
  | .mulC c, u => u * c
  | .cMul c, u => c * u
  | .cAdd c, u => c + u
  | .cSub c, u => c - u
  | .subC c, u => u - c
  | .cDiv c, u => c / u
  | .powC c, u => P.pow u c
  | .cPow c, u => P.pow c u

/-- Arithmetic of a two-operand form. -/
def BForm.sem (P : Prim K) : BForm → K → K → K
  | .add, u, v => u + v
  | .sub, u, v => u - v
  | .mul, u, v => u * v
  | .div, u, v => u / v
  | .pow, u, v => P.pow u v

/-- Arithmetic of a formula whose calls have the values `h`. -/
def Tm.val (P : Prim K) (h : Hole → K) : Tm K → K
  | .hole x => h x
  | .un g a => g.sem P (a.val P h)
  | .bin g a b => g.sem P (a.val P h) (b.val P h)

/-- The calls of a formula. -/
def Tm.holes : Tm K → List Hole
  | .hole x => [x]
  | .un _ a => a.holes
  | .bin _ a b => a.holes ++ b.holes

/-- Operators `SymDiff` handles: not a user operator, and in `c / u` the number is 1. -/
def Op1.SymOk : Op1 K → Prop
  | .divC c => c = 1
  | .custom _ _ => False
  | _ => True

@[inherit_doc Op1.SymOk]
def Op2.SymOk : Op2 K → Prop
  | .custom _ _ _ => False
  | _ => True

/-- All operators of a tree are handled by `SymDiff`. -/
def Node.SymOk : Node K → Prop
  | .leaf _ => True
  | .par _ => True
  | .op1 _ f a => f.SymOk ∧ a.SymOk
  | .op2 _ f a b => f.SymOk ∧ a.SymOk ∧ b.SymOk

variable (P : Prim K)

theorem UForm.app_val (g : UForm K) (e : Exp K) (π ρ : ℕ → K) :
    (g.app e).val P π ρ = g.sem P (e.val P π ρ) := by
  cases g <;> rfl

theorem BForm.app_val (g : BForm) (a b : Exp K) (π ρ : ℕ → K) :
    (g.app a b).val P π ρ = g.sem P (a.val P π ρ) (b.val P π ρ) := by
  cases g <;> rfl

theorem UForm.app_leaves (g : UForm K) (e : Exp K) : (g.app e).leaves = e.leaves := by
  cases g <;> rfl

theorem BForm.app_leaves (g : BForm) (a b : Exp K) :
    (g.app a b).leaves = a.leaves ++ b.leaves := by
  cases g <;> rfl

theorem UForm.app_pars (g : UForm K) (e : Exp K) : (g.app e).pars = e.pars := by
  cases g <;> rfl

theorem BForm.app_pars (g : BForm) (a b : Exp K) :
    (g.app a b).pars = a.pars ++ b.pars := by
  cases g <;> rfl

theorem Op1.symVal_spec {f : Op1 K} (hf : f.SymOk) : ∃ t, f.symVal = some t ∧
    (∀ x ∈ t.holes, x = .evL) ∧ ∀ h, t.val P h = f.sem P (h .evL) := by
  cases f with
  | custom => exact absurd hf id
  | divC c =>
      have : c = 1 := hf
      subst this
      exact ⟨_, rfl, by simp [Tm.holes], fun h => rfl⟩
  | fn g => exact ⟨_, rfl, by simp [Tm.holes], fun h => rfl⟩
  | addC c => exact ⟨_, rfl, by simp [Tm.holes], fun h => rfl⟩
  | mulC c => exact ⟨_, rfl, by simp [Tm.holes], fun h => rfl⟩
  | cPow c => exact ⟨_, rfl, by simp [Tm.holes], fun h => rfl⟩
  | powC c => exact ⟨_, rfl, by simp [Tm.holes], fun h => rfl⟩

theorem Op1.symDer_spec {f : Op1 K} (hf : f.SymOk) : ∃ t, f.symDer P = some t ∧
    (∀ x ∈ t.holes, x = .evL ∨ x = .deL) ∧
    ∀ h, t.val P h = f.der P (h .evL) * h .deL := by
  cases f with
  | custom => exact absurd hf id
  | fn g =>
      refine ⟨_, rfl, ?_, fun h => ?_⟩
      · cases g <;> simp [Fn.symDer, Tm.holes]
      · cases g <;>
          simp only [Fn.symDer, Tm.val, UForm.sem, BForm.sem, Op1.sem, Op1.der, ← sq, neg_mul, one_mul,
            neg_div]
        case atanh => rw [← neg_sub (h .evL ^ 2) 1, div_neg]; ring
  | divC c =>
      refine ⟨_, rfl, by simp [Tm.holes], fun h => ?_⟩
      simp only [Tm.val, UForm.sem, BForm.sem, Op1.der]
      ring
  | addC c => exact ⟨_, rfl, by simp [Tm.holes], fun h => by simp [Tm.val, Op1.der]⟩
  | mulC c => exact ⟨_, rfl, by simp [Tm.holes], fun h => rfl⟩
  | cPow c =>
      refine ⟨_, rfl, by simp [Tm.holes], fun h => ?_⟩
      simp only [Tm.val, UForm.sem, BForm.sem, Op1.der]
      ring
  | powC c => exact ⟨_, rfl, by simp [Tm.holes], fun h => rfl⟩

theorem Op2.symVal_spec {f : Op2 K} (hf : f.SymOk) : ∃ t, f.symVal = some t ∧
    (∀ x ∈ t.holes, x = .evL ∨ x = .evR) ∧ ∀ h, t.val P h = f.sem P (h .evL) (h .evR) := by
  cases f with
  | custom => exact absurd hf id
  | mul => exact ⟨_, rfl, by simp [Tm.holes], fun h => mul_comm _ _⟩
  | add => exact ⟨_, rfl, by simp [Tm.holes], fun h => rfl⟩
  | sub => exact ⟨_, rfl, by simp [Tm.holes], fun h => rfl⟩
  | div => exact ⟨_, rfl, by simp [Tm.holes], fun h => rfl⟩
  | pow => exact ⟨_, rfl, by simp [Tm.holes], fun h => rfl⟩

theorem Op2.symDer_spec {f : Op2 K} (hf : f.SymOk) : ∃ t, f.symDer = some t ∧
    ∀ h, t.val P h = f.derL P (h .evL) (h .evR) * h .deL + f.derR P (h .evL) (h .evR) * h .deR := by
  cases f with
  | custom => exact absurd hf id
  | mul => exact ⟨_, rfl, fun h => by simp only [Tm.val, BForm.sem, derL, derR]; ring⟩
  | add => exact ⟨_, rfl, fun h => by simp only [Tm.val, BForm.sem, derL, derR]; ring⟩
  | sub => exact ⟨_, rfl, fun h => by simp only [Tm.val, BForm.sem, derL, derR]; ring⟩
  | div =>
      refine ⟨_, rfl, fun h => ?_⟩
      simp only [Tm.val, BForm.sem, derL, derR]
      by_cases hv : h .evR = 0
      · simp [hv]
      · field_simp
        ring
  | pow =>
      refine ⟨_, rfl, fun h => ?_⟩
      simp only [Tm.val, BForm.sem, UForm.sem, derL, derR, Op1.sem]
      ring

end CoolDiff
