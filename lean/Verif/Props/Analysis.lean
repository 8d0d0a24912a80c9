import Verif.Props.Meaning
import Verif.Scalar.Real

/-!
# C16 and C03 over the real numbers
-/

set_option linter.unusedSectionVars false

namespace CoolDiff

open Function

/-! ## C16 -/

/-- The mathematical function each elementary function name stands for. -/
noncomputable def Fn.math : Fn → ℝ → ℝ
  | .sin => Real.sin
  | .cos => Real.cos
  | .tan => Real.tan
  | .sinh => Real.sinh
  | .cosh => Real.cosh
  | .tanh => Real.tanh
  | .asin => Real.arcsin
  | .acos => Real.arccos
  | .atan => Real.arctan
  | .asinh => Real.arsinh
  | .acosh => Real.arcosh
  | .atanh => Real.artanh
  | .sqrt => Real.sqrt
  | .exp => Real.exp
  | .log => Real.log

/-- C16 for the elementary functions: at every point of the open domain the function value is the
mathematical one and the true derivative `d` is what the code uses in forward mode (times the
operand's derivative), in reverse mode at the root, and in reverse mode below the root (times the
node's adjoint). -/
theorem C16_functions (f : Fn) {u : ℝ} (h : f.Dom u) :
    (Op1.fn f).val realPrim u = f.math u ∧
    ∃ d, HasDerivAt f.math d u ∧ (∀ du, (Op1.fn f).fwd realPrim u du = d * du) ∧
      (Op1.fn f).revRoot realPrim u = d ∧ ∀ c, (Op1.fn f).rev realPrim u c = d * c := by
  have hm : (Op1.fn f).sem realPrim = f.math := by
    funext x; cases f <;> rfl
  refine ⟨by rw [← hm]; cases f <;> rfl, (Op1.fn f).der realPrim u, ?_, fun du => ?_, ?_, fun c => ?_⟩
  · rw [← hm]; exact f.hasDerivAt h
  · rw [Op1.fwd_eq]
  · rw [Op1.revRoot_eq]
  · rw [Op1.rev_eq, mul_comm]

/-- C16 for `pow(c,u)` with a number base. -/
theorem C16_pow_const_base {c : ℝ} (hc : 0 < c) (u : ℝ) :
    (Op1.cPow c).val realPrim u = c ^ u ∧
    ∃ d, HasDerivAt (fun x => c ^ x) d u ∧ (∀ du, (Op1.cPow c).fwd realPrim u du = d * du) ∧
      (Op1.cPow c).revRoot realPrim u = d ∧ ∀ a, (Op1.cPow c).rev realPrim u a = d * a := by
  refine ⟨rfl, (Op1.cPow c).der realPrim u, (Op1.cPow c).hasDerivAt hc, fun du => ?_, ?_, fun a => ?_⟩
  · rw [Op1.fwd_eq]
  · rw [Op1.revRoot_eq]
  · rw [Op1.rev_eq, mul_comm]

/-- C16 for `pow(u,c)` with a number exponent: positive base, or integer exponent away from a
pole. -/
theorem C16_pow_const_exponent {c u : ℝ} (h : 0 < u ∨ ((∃ n : ℤ, c = n) ∧ (u ≠ 0 ∨ 1 ≤ c))) :
    (Op1.powC c).val realPrim u = u ^ c ∧
    ∃ d, HasDerivAt (fun x => x ^ c) d u ∧ (∀ du, (Op1.powC c).fwd realPrim u du = d * du) ∧
      (Op1.powC c).revRoot realPrim u = d ∧ ∀ a, (Op1.powC c).rev realPrim u a = d * a := by
  refine ⟨rfl, (Op1.powC c).der realPrim u, (Op1.powC c).hasDerivAt h, fun du => ?_, ?_, fun a => ?_⟩
  · rw [Op1.fwd_eq]
  · rw [Op1.revRoot_eq]
  · rw [Op1.rev_eq, mul_comm]

/-- C16 for `pow(u,v)` with two operands and positive base: both partial derivatives. -/
theorem C16_pow {u : ℝ} (hu : 0 < u) (v : ℝ) :
    Op2.pow.val realPrim u v = u ^ v ∧
    ∃ dl dr, HasDerivAt (fun x => x ^ v) dl u ∧ HasDerivAt (fun x => u ^ x) dr v ∧
      (∀ du dv, Op2.pow.fwd realPrim u v du dv = dl * du + dr * dv) ∧
      Op2.pow.revRootL realPrim u v = dl ∧ Op2.pow.revRootR realPrim u v = dr ∧
      (∀ c, Op2.pow.revL realPrim u v c = dl * c) ∧ ∀ c, Op2.pow.revR realPrim u v c = dr * c := by
  refine ⟨rfl, Op2.pow.derL realPrim u v, Op2.pow.derR realPrim u v, ?_, ?_, fun du dv => ?_, ?_, ?_,
    fun c => ?_, fun c => ?_⟩
  · have := Op2.pow.hasDerivAt (t := u) (hasDerivAt_id u) (hasDerivAt_const u v) hu
    simpa using! this
  · have := Op2.pow.hasDerivAt (t := v) (hasDerivAt_const v u) (hasDerivAt_id v) hu
    simpa using! this
  · simp only [Op2.fwd, Op2.derL, Op2.derR, realPrim]; ring
  · rw [Op2.revRootL_eq]
  · rw [Op2.revRootR_eq]
  · rw [Op2.revL_eq, mul_comm]
  · rw [Op2.revR_eq, mul_comm]

/-- The domains are not empty: every elementary function has points (`arcosh` at 2, `tan` at 0, all
others at 1/2). -/
example (f : Fn) : ∃ u : ℝ, f.Dom u := by
  cases f
  case acosh => exact ⟨2, show (1 : ℝ) < 2 by norm_num⟩
  case tan =>
    exact ⟨0, by simp [Fn.Dom]⟩
  all_goals first | exact ⟨1 / 2, trivial⟩ | exact ⟨1 / 2, by simp only [Fn.Dom]; norm_num⟩

/-! ## C03 -/

theorem assignNum_self {σ : St ℝ} {x : ℕ} (hx : σ.defs.items x = []) :
    (assignNum x (σ.defs.base x) σ).defs = σ.defs := by
  have h1 : update σ.defs.items x [] = σ.defs.items := by rw [← hx, update_eq_self]
  simp [assignNum, update_eq_self, h1]

theorem assignNum_items {σ : St ℝ} {x : ℕ} (hx : σ.defs.items x = []) (t : ℝ) :
    (assignNum x t σ).defs.items = σ.defs.items := by
  simp [assignNum, ← hx, update_eq_self]

/-- The family of solutions is differentiable in the value of `x`, with the tangent as
derivative. -/
theorem solves_hasDerivAt {σ : St ℝ} {y x : ℕ} (hx : IsVar σ.defs x) (hwd : WellDefined σ.defs y)
    (hdom : InDomain σ.defs y) {r : ℝ → ℕ → ℝ}
    (hr : ∀ t, Solves realPrim (assignNum x t σ).defs y (r t)) {δ : ℕ → ℝ}
    (hδ : Tangent realPrim σ.defs y x (r (σ.defs.base x)) δ) :
    ∀ q, Reach σ.defs y q → HasDerivAt (fun t => r t q) (δ q) (σ.defs.base x) := by
  obtain ⟨⟨rank, hrank⟩, -⟩ := hwd
  have hsol : Solves realPrim σ.defs y (r (σ.defs.base x)) := by
    have := hr (σ.defs.base x)
    rwa [assignNum_self hx.2.2] at this
  have key : ∀ n q, Reach σ.defs y q → rank q < n →
      HasDerivAt (fun t => r t q) (δ q) (σ.defs.base x) := by
    intro n
    induction n with
    | zero => intro q _ h; omega
    | succ n ih =>
        intro q hq hn
        have hval : ∀ t, r t q = seqVal realPrim σ.defs.par (r t) q (σ.defs.items q)
            (update σ.defs.base x t q) := by
          intro t
          have := hr t q (hq.of_items (assignNum_items hx.2.2 t))
          rwa [assignNum_items hx.2.2 t] at this
        by_cases hqx : q = x
        · subst hqx
          have e : (fun t => r t q) = fun t => t := by
            funext t; rw [hval t, hx.2.2]; simp [seqVal]
          rw [e, hδ q hq, if_pos rfl]
          exact hasDerivAt_id _
        · have e : (fun t => r t q) = fun t => seqVal realPrim σ.defs.par (r t) q (σ.defs.items q)
              (σ.defs.base q) := by
            funext t; rw [hval t, update_of_ne hqx]
          rw [e, hδ q hq, if_neg hqx]
          refine seq_hasDerivAt (σ.defs.items q) (v := fun _ => σ.defs.base q)
            (hasDerivAt_const _ _) (fun i hi p hp hpq => ?_) (hdom _ hsol q hq)
          rcases hrank q hq i hi p hp with h | h
          · exact absurd h hpq
          · exact ih p (.step hq hi hp) (by omega)
  exact fun q hq => key _ q hq (Nat.lt_succ_self _)

/-- C03.  Let `F t` be what `Eval(y)` returns after `x = t`.  If every operator below `y` is applied
inside its domain of differentiability at the current point, `DevalF(y,x)` returns the derivative of
`F` at the current value of `x`; so does `DevalR(y,x)` after `PreComp(y)`.  Any history in which no stale stored
result is relied on. -/
theorem C03_derivative_partial {σ : St ℝ} (h : Run realPrim σ) {y x : ℕ}
    (hy : y < σ.defs.size) (hx : IsVar σ.defs x) (hxy : x ≠ y) (hwd : WellDefined σ.defs y)
    (hs : Ready realPrim σ y x)
    (hst : ∀ t, Fine (GoodV realPrim) (assignNum x t σ) y) (hdom : InDomain σ.defs y) :
    ∃ F : ℝ → ℝ, ∃ d : ℝ,
      (∀ t, (Eval realPrim y (assignNum x t σ)).map Prod.fst = some (F t)) ∧
      HasDerivAt F d (σ.defs.base x) ∧
      (DevalF realPrim y x σ).map Prod.fst = some d ∧
      (PreComp realPrim y σ).map (DevalR y x) = some d := by
  have hex : ∀ t, ∃ ρ, Solves realPrim (assignNum x t σ).defs y ρ := fun t =>
    (hwd.of_items (assignNum_items hx.2.2 t)).exists_solves
  choose r hr using hex
  have hsol : Solves realPrim σ.defs y (r (σ.defs.base x)) := by
    have := hr (σ.defs.base x)
    rwa [assignNum_self hx.2.2] at this
  obtain ⟨δ, hδ⟩ := hwd.exists_tangent (P := realPrim) x (r (σ.defs.base x))
  have ha := answers_spec h hy hx hxy hwd hsol hδ
  refine ⟨fun t => r t y, δ y, fun t => ?_, solves_hasDerivAt hx hwd hdom hr hδ y .refl, ha.fwd hs.fwd, ha.rev hs.rev⟩
  have h' : Run realPrim (assignNum x t σ) := h.setVar x t hx.1 hx.2.2
  obtain ⟨σ₀, h0, -⟩ := (hst t).eval h'.wf (y := y) hy
    (hwd.of_items (assignNum_items hx.2.2 t)) (hr t)
  rw [h0]; rfl

/-- `C03_derivative_partial` after the histories of `C02_current_partial`. -/
theorem C03_hist_partial {σ : St ℝ} {U : ℕ → Prop} (h : Hist realPrim σ U) {y x : ℕ}
    (hy : y < σ.defs.size) (hx : IsVar σ.defs x) (hxy : x ≠ y) (hwd : WellDefined σ.defs y)
    (hs : Safe σ.defs U y) (hdom : InDomain σ.defs y) :
    ∃ F : ℝ → ℝ, ∃ d : ℝ,
      (∀ t, (Eval realPrim y (assignNum x t σ)).map Prod.fst = some (F t)) ∧
      HasDerivAt F d (σ.defs.base x) ∧
      (DevalF realPrim y x σ).map Prod.fst = some d ∧
      (PreComp realPrim y σ).map (DevalR y x) = some d :=
  C03_derivative_partial h.run hy hx hxy hwd (h.ready hs x)
    (fun t => ((h.setVar x t hx.1 hx.2.2).ready (hs.of_items (assignNum_items hx.2.2 t)) x).val) hdom

namespace Ex

/-- `Variable x(2), z(3); Expression y; y = sin(x)*z; y = y/(x*x);` (objects x=1 z=2 y=3) -/
noncomputable def real0 : St ℝ :=
  define 3 (.div (.var 3) (.mul (.var 1) (.var 1))) (define 3 (.mul (.fn .sin (.var 1)) (.var 2))
    (newExpr (newVar 3 (newVar 2 St.init).2).2).2)

theorem real0_hist : Hist realPrim real0 (fun _ => False) :=
  .define 3 _ (.define 3 _ (.newExpr (.newVar 3 (.newVar 2 .init))) (by decide) nofun (by decide)
    (by decide)) (by decide) nofun (by decide) (by decide)

theorem real0_items : ∃ a b c d e f, real0.defs.items 3 =
    [.op1 a (.mulC 1) (.op2 b .mul (.op1 c (.fn .sin) (.leaf 1)) (.leaf 2)),
     .op1 d (.mulC 1) (.op2 e .div (.leaf 3) (.op2 f .mul (.leaf 1) (.leaf 1)))] :=
  ⟨_, _, _, _, _, _, rfl⟩

theorem real0_wd : WellDefined real0.defs 3 :=
  (Acyclic.of_ordered (by decide) (by decide)).wellDefined real0_hist.inv.wf.defs.closed (by decide)

theorem real0_reach {q : ℕ} (h : Reach real0.defs 3 q) : q = 1 ∨ q = 2 ∨ q = 3 := by
  obtain ⟨a, b, c, d, e, f, hi⟩ := real0_items
  induction h with
  | refl => simp
  | step _ hm hp ih =>
      rcases ih with rfl | rfl | rfl
      · exact absurd hm (by rw [show real0.defs.items 1 = [] from rfl]; simp)
      · exact absurd hm (by rw [show real0.defs.items 2 = [] from rfl]; simp)
      · rw [hi] at hm
        simp only [List.mem_cons, List.not_mem_nil, or_false] at hm
        rcases hm with rfl | rfl <;> simp [Node.leaves] at hp <;> omega

theorem real0_dom : InDomain real0.defs 3 := by
  intro ρ hρ q hq
  obtain ⟨a, b, c, d, e, f, hi⟩ := real0_items
  rcases real0_reach hq with rfl | rfl | rfl
  · rw [show real0.defs.items 1 = [] from rfl]; trivial
  · rw [show real0.defs.items 2 = [] from rfl]; trivial
  · have h1 : ρ 1 = 2 := by
      have hr : Reach real0.defs 3 1 :=
        Reach.step .refl (i := .op1 a (.mulC 1) (.op2 b .mul (.op1 c (.fn .sin) (.leaf 1)) (.leaf 2)))
          (by rw [hi]; simp) (by simp [Node.leaves])
      have := hρ 1 hr
      rw [show real0.defs.items 1 = [] from rfl] at this
      exact this
    rw [hi]
    simp [SeqInDom, Node.InDom, Op1.Dom, Op2.Dom, Fn.Dom, Node.val, Op2.sem, h1]

/-- The hypotheses of C03 hold for this program (self-referential, with `sin` and a division). -/
example : ∃ F : ℝ → ℝ, ∃ d : ℝ,
    (∀ t, (Eval realPrim 3 (assignNum 1 t real0)).map Prod.fst = some (F t)) ∧
    HasDerivAt F d (real0.defs.base 1) ∧ (DevalF realPrim 3 1 real0).map Prod.fst = some d ∧
    (PreComp realPrim 3 real0).map (DevalR 3 1) = some d :=
  C03_hist_partial real0_hist (by decide) ⟨by decide, by decide, rfl⟩ (by decide) real0_wd
    Safe.none real0_dom

end Ex

end CoolDiff
