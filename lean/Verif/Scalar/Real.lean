import Verif.Scalar.RevProof
import Mathlib.Analysis.SpecialFunctions.Arsinh
import Mathlib.Analysis.SpecialFunctions.Arcosh
import Mathlib.Analysis.SpecialFunctions.Artanh
import Mathlib.Analysis.SpecialFunctions.Trigonometric.ArctanDeriv
import Mathlib.Analysis.SpecialFunctions.Trigonometric.InverseDeriv
import Mathlib.Analysis.SpecialFunctions.Sqrt
import Mathlib.Analysis.SpecialFunctions.Pow.Deriv

/-!
# The real numbers: the mathematical functions behind `<cmath>`, and differentiability
-/

namespace CoolDiff

open Set

/-- Mathlib's real functions for the `<cmath>` names. -/
noncomputable def realPrim : Prim ℝ where
  sin := Real.sin
  cos := Real.cos
  tan := Real.tan
  sinh := Real.sinh
  cosh := Real.cosh
  tanh := Real.tanh
  asin := Real.arcsin
  acos := Real.arccos
  atan := Real.arctan
  asinh := Real.arsinh
  acosh := Real.arcosh
  atanh := Real.artanh
  sqrt := Real.sqrt
  exp := Real.exp
  log := Real.log
  pow := fun a b => a ^ b

/-- Open domain on which the elementary function is differentiable. -/
def Fn.Dom : Fn → ℝ → Prop
  | .tan, u => Real.cos u ≠ 0
  | .asin, u => -1 < u ∧ u < 1
  | .acos, u => -1 < u ∧ u < 1
  | .acosh, u => 1 < u
  | .atanh, u => -1 < u ∧ u < 1
  | .sqrt, u => 0 < u
  | .log, u => 0 < u
  | _, _ => True

/-- Points at which a one-operand operator is differentiable with the derivative of C16; for a
user-defined operator this is the user's promise that `df` is the derivative of `f`. -/
def Op1.Dom : Op1 ℝ → ℝ → Prop
  | .fn f, u => f.Dom u
  | .addC _, _ => True
  | .mulC _, _ => True
  | .divC _, u => u ≠ 0
  | .cPow c, _ => 0 < c
  | .powC c, u => 0 < u ∨ ((∃ n : ℤ, c = n) ∧ (u ≠ 0 ∨ 1 ≤ c))
  | .custom f df, u => HasDerivAt f (df u) u

/-- Points at which a two-operand operator is differentiable; for a user-defined operator this is
the user's promise that the two supplied functions are its partial derivatives. -/
def Op2.Dom : Op2 ℝ → ℝ → ℝ → Prop
  | .add, _, _ => True
  | .sub, _, _ => True
  | .mul, _, _ => True
  | .div, _, v => v ≠ 0
  | .pow, u, _ => 0 < u
  | .custom f fu fv, u, v =>
      HasFDerivAt (fun p : ℝ × ℝ => f p.1 p.2)
        (fu u v • ContinuousLinearMap.fst ℝ ℝ ℝ + fv u v • ContinuousLinearMap.snd ℝ ℝ ℝ) (u, v)

theorem hasDerivAt_tanh (u : ℝ) : HasDerivAt Real.tanh (1 - Real.tanh u ^ 2) u := by
  have h := (Real.hasDerivAt_sinh u).div (Real.hasDerivAt_cosh u) (Real.cosh_pos u).ne'
  have e : (fun x => Real.sinh x / Real.cosh x) = Real.tanh := by
    funext x; rw [Real.tanh_eq_sinh_div_cosh]
  have h' : HasDerivAt (fun x => Real.sinh x / Real.cosh x) _ u := h
  rw [e] at h'
  convert h' using 1
  rw [Real.tanh_eq_sinh_div_cosh]
  have := (Real.cosh_pos u).ne'
  field_simp

theorem hasDerivAt_artanh {u : ℝ} (h1 : -1 < u) (h2 : u < 1) :
    HasDerivAt Real.artanh (1 / (1 - u ^ 2)) u := by
  have hlog : HasDerivAt (fun x : ℝ => 1 / 2 * Real.log ((1 + x) / (1 - x))) (1 / (1 - u ^ 2)) u := by
    have a : HasDerivAt (fun x : ℝ => 1 + x) 1 u := by simpa using (hasDerivAt_id u).const_add 1
    have b : HasDerivAt (fun x : ℝ => 1 - x) (-1) u := by simpa using (hasDerivAt_id u).const_sub 1
    have ha : (1 + u) ≠ 0 := by linarith
    have hb : (1 - u) ≠ 0 := by linarith
    have hc : (1 - u ^ 2) ≠ 0 := by nlinarith
    have c := (a.div b hb).log (div_ne_zero ha hb)
    have d := c.const_mul (1 / 2)
    refine d.congr_deriv ?_
    show 1 / 2 * ((1 * (1 - u) - (1 + u) * -1) / (1 - u) ^ 2 / ((1 + u) / (1 - u))) = _
    field_simp
    ring
  refine hlog.congr_of_eventuallyEq ?_
  filter_upwards [Ioo_mem_nhds h1 h2] with x hx
  rw [Real.artanh_eq_half_log ⟨hx.1.le, hx.2.le⟩]

theorem Fn.hasDerivAt (f : Fn) {u : ℝ} (h : f.Dom u) :
    HasDerivAt ((Op1.fn f).sem realPrim) ((Op1.fn f).der realPrim u) u := by
  cases f <;> simp only [Op1.der, realPrim]
  case sin => exact Real.hasDerivAt_sin u
  case cos => exact Real.hasDerivAt_cos u
  case tan =>
    refine (Real.hasDerivAt_tan h).congr_deriv ?_
    rw [Real.tan_eq_sin_div_cos]
    have hc : Real.cos u ≠ 0 := h
    field_simp
    linarith [Real.sin_sq_add_cos_sq u]
  case sinh => exact Real.hasDerivAt_sinh u
  case cosh => exact Real.hasDerivAt_cosh u
  case tanh => exact hasDerivAt_tanh u
  case asin => exact Real.hasDerivAt_arcsin h.1.ne' h.2.ne
  case acos => exact Real.hasDerivAt_arccos h.1.ne' h.2.ne
  case atan => exact Real.hasDerivAt_arctan u
  case asinh => simpa using! Real.hasDerivAt_arsinh u
  case acosh => simpa using! Real.hasDerivAt_arcosh (x := u) h
  case atanh => exact hasDerivAt_artanh h.1 h.2
  case sqrt => exact (Real.hasDerivAt_sqrt (ne_of_gt h)).congr_deriv (by rw [div_div])
  case exp => exact Real.hasDerivAt_exp u
  case log => simpa using! Real.hasDerivAt_log (ne_of_gt h)

theorem Op1.hasDerivAt (f : Op1 ℝ) {u : ℝ} (h : f.Dom u) :
    HasDerivAt (f.sem realPrim) (f.der realPrim u) u := by
  cases f with
  | fn f => exact f.hasDerivAt h
  | addC c => exact (hasDerivAt_id u).const_add c
  | mulC c => simpa [Op1.der] using! (hasDerivAt_id u).const_mul c
  | divC c =>
      have h0 : u ≠ 0 := h
      have := (hasDerivAt_inv h0).const_mul c
      have e : Op1.sem realPrim (.divC c) = fun x => c * x⁻¹ := by
        funext x; simp [Op1.sem, div_eq_mul_inv]
      rw [e]
      refine this.congr_deriv ?_
      simp [Op1.der, div_eq_mul_inv]
  | cPow c =>
      have h0 : (0 : ℝ) < c := h
      have := (hasDerivAt_id u).const_rpow h0
      refine this.congr_deriv ?_
      simp [Op1.der, realPrim, mul_comm]
  | powC c =>
      have h0 : u ≠ 0 ∨ 1 ≤ c := by
        rcases h with h | h
        · exact Or.inl h.ne'
        · exact h.2
      exact Real.hasDerivAt_rpow_const h0
  | custom f df => exact h

/-- Chain rule through a two-operand operator along any two differentiable curves. -/
theorem Op2.hasDerivAt (f : Op2 ℝ) {u v : ℝ → ℝ} {t du dv : ℝ} (hu : HasDerivAt u du t)
    (hv : HasDerivAt v dv t) (h : f.Dom (u t) (v t)) :
    HasDerivAt (fun s => f.sem realPrim (u s) (v s))
      (f.derL realPrim (u t) (v t) * du + f.derR realPrim (u t) (v t) * dv) t := by
  cases f with
  | add => simpa [Op2.derL, Op2.derR] using! hu.add hv
  | sub => simpa [Op2.derL, Op2.derR, sub_eq_add_neg] using! hu.sub hv
  | mul =>
      refine (hu.mul hv).congr_deriv ?_
      simp [Op2.derL, Op2.derR, mul_comm]
  | div =>
      have h0 : v t ≠ 0 := h
      refine (hu.div hv h0).congr_deriv ?_
      simp only [Op2.derL, Op2.derR]
      field_simp
      ring
  | pow =>
      have h0 : 0 < u t := h
      refine (hu.rpow hv h0).congr_deriv ?_
      simp only [Op2.derL, Op2.derR, realPrim]
      rw [Real.rpow_sub h0, Real.rpow_one]
      have := h0.ne'
      field_simp
  | custom f fu fv =>
      have hf : HasFDerivAt (fun p : ℝ × ℝ => f p.1 p.2) _ (u t, v t) := h
      have := hf.comp_hasDerivAt t (hu.prodMk hv)
      refine this.congr_deriv ?_
      simp [Op2.derL, Op2.derR]

/-- Every operator of the formula is applied inside its domain of differentiability. -/
def Node.InDom (π ρ : ℕ → ℝ) : Node ℝ → Prop
  | .leaf _ => True
  | .par _ => True
  | .op1 _ f a => a.InDom π ρ ∧ f.Dom (a.val realPrim π ρ)
  | .op2 _ f a b => a.InDom π ρ ∧ b.InDom π ρ ∧ f.Dom (a.val realPrim π ρ) (b.val realPrim π ρ)

/-- `InDom` for a sequence of assignments to object `o`, run in order from value `v`. -/
def SeqInDom (π ρ : ℕ → ℝ) (o : ℕ) : List (Node ℝ) → ℝ → Prop
  | [], _ => True
  | i :: is, v => i.InDom π (Function.update ρ o v) ∧
      SeqInDom π ρ o is (i.val realPrim π (Function.update ρ o v))

/-- Every operator application in the definitions `y` depends on is inside the domain of
differentiability at the current values. -/
def InDomain (D : Defs ℝ) (y : ℕ) : Prop :=
  ∀ ρ, Solves realPrim D y ρ → ∀ q, Reach D y q → SeqInDom D.par ρ q (D.items q) (D.base q)

theorem Node.hasDerivAt {π : ℕ → ℝ} {r : ℝ → ℕ → ℝ} {δ : ℕ → ℝ} {t : ℝ} (i : Node ℝ)
    (h : ∀ p ∈ i.leaves, HasDerivAt (fun s => r s p) (δ p) t) (hd : i.InDom π (r t)) :
    HasDerivAt (fun s => i.val realPrim π (r s)) (i.der realPrim π (r t) δ) t := by
  induction i with
  | leaf o => exact h o (by simp [Node.leaves])
  | par p => exact hasDerivAt_const t _
  | op1 n f a ih =>
      have h1 := ih h hd.1
      exact (f.hasDerivAt hd.2).comp t h1
  | op2 n f a b iha ihb =>
      exact f.hasDerivAt (iha (fun p hp => h p (by simp [Node.leaves, hp])) hd.1)
        (ihb (fun p hp => h p (by simp [Node.leaves, hp])) hd.2.1) hd.2.2

theorem seq_hasDerivAt {π : ℕ → ℝ} {r : ℝ → ℕ → ℝ} {δ : ℕ → ℝ} {t : ℝ} {o : ℕ} (is : List (Node ℝ)) :
    ∀ {v : ℝ → ℝ} {d : ℝ}, HasDerivAt v d t →
      (∀ i ∈ is, ∀ p ∈ i.leaves, p ≠ o → HasDerivAt (fun s => r s p) (δ p) t) →
      SeqInDom π (r t) o is (v t) →
      HasDerivAt (fun s => seqVal realPrim π (r s) o is (v s)) (seqDer realPrim π (r t) δ o is (v t) d) t := by
  induction is with
  | nil => intro v d hv _ _; exact hv
  | cons i is ih =>
      intro v d hv h hd
      have hi := i.hasDerivAt (π := π) (r := fun s => Function.update (r s) o (v s))
        (δ := Function.update δ o d) (t := t) ?_ hd.1
      · exact ih hi (fun j hj => h j (List.mem_cons_of_mem _ hj)) hd.2
      · intro p hp
        by_cases hpo : p = o
        · subst hpo; simpa using hv
        · simpa [hpo] using h i (by simp) p hp hpo

end CoolDiff
