import Verif.Props.Second
import Verif.Scalar.Examples
import Mathlib.Tactic.IntervalCases

/-!
# Programs with symbolic differentiation: witnesses and counterexamples
-/

set_option linter.unusedSectionVars false

namespace CoolDiff

/-! ## Formulas that are defined everywhere -/

/-- One-operand operators defined on all of `ℝ`. -/
def Op1.Entire : Op1 ℝ → Prop
  | .fn .sin | .fn .cos | .fn .sinh | .fn .cosh | .fn .tanh | .fn .atan | .fn .exp => True
  | .addC _ | .mulC _ => True
  | .cPow c => 0 < c
  | _ => False

/-- Two-operand operators defined on all of `ℝ × ℝ`. -/
def Op2.Entire : Op2 ℝ → Prop
  | .add | .sub | .mul => True
  | _ => False

/-- `y` is built from operators that are defined everywhere. -/
def Sess.Entire (b : Sess ℝ) (y : ℕ) : Prop :=
  ∀ q, Reach b.s.st.defs y q → ∀ i ∈ b.s.st.defs.items q, i.Only Op1.Entire Op2.Entire

theorem Op1.Entire.symOkN {f : Op1 ℝ} (h : f.Entire) : f.SymOkN := by
  cases f
  case fn f => cases f <;> first | exact h.elim | trivial
  all_goals first | exact h.elim | trivial

theorem Op1.Entire.domN {f : Op1 ℝ} (h : f.Entire) (m : ℕ) (u : ℝ) : f.DomN m u := by
  cases f
  case fn f => cases f <;> first | exact h.elim | trivial
  all_goals first | exact h.elim | trivial | exact h

theorem Op2.Entire.symOk {f : Op2 ℝ} (h : f.Entire) : f.SymOk := by
  cases f <;> first | exact h.elim | trivial

theorem Op2.Entire.dom {f : Op2 ℝ} (h : f.Entire) (u v : ℝ) : f.Dom u v := by
  cases f <;> first | exact h.elim | trivial

theorem Node.all_entire {m : ℕ} {π ρ : ℕ → ℝ} {t : Node ℝ} (h : t.Only Op1.Entire Op2.Entire) :
    t.All (domN m) realPrim π ρ := by
  induction t with
  | leaf o => trivial
  | par p => trivial
  | op1 n f a ih => exact ⟨ih h.2, h.1.domN _ _⟩
  | op2 n f a b iha ihb => exact ⟨iha h.2.1, ihb h.2.2, h.1.dom _ _⟩

theorem Sess.Entire.inDom {b : Sess ℝ} {y : ℕ} (h : b.Entire y) (m : ℕ) : b.InDom m y := by
  intro ρ _ q hq
  have key : ∀ (is : List (Node ℝ)), (∀ i ∈ is, i.Only Op1.Entire Op2.Entire) → ∀ v,
      SeqAll (domN m) realPrim b.s.st.defs.par ρ q is v := by
    intro is
    induction is with
    | nil => intro _ v; trivial
    | cons i is ih => exact fun hi v => ⟨Node.all_entire (hi i (by simp)), ih (fun j hj => hi j (by simp [hj])) _⟩
  exact key _ (h q hq) _

/-- C15 without domain and flag conditions: for formulas made of operators that are defined everywhere,
nested `SymDiff` of every depth before the first query succeeds, and every later `Eval` of the result
returns the iterated partial derivative at the point at that moment. -/
theorem C15_program_entire {a : Sess ℝ} (ha : Session realPrim a) (hu : a.Unflagged) {y : ℕ}
    (hy : y < a.s.st.defs.size) (he : a.Entire y) {xs : List ℕ} (hne : xs ≠ [])
    (hxs : ∀ x ∈ xs, a.H x) (rf : ℕ → Bool → List Bool → Bool) :
    ∃ e b, SymChain realPrim a y xs e b ∧ ∀ c, Rounds realPrim e b c →
      ∃ w, NthDerivative y xs c w ∧ (EvalS realPrim e c.s).map Prod.fst = some w := by
  have hok : a.Only Op1.SymOkN y := fun q hq i hi =>
    (he q hq i hi).mono (fun _ h => h.symOkN) fun _ h => h.symOk
  obtain ⟨e, b, h1, h2, h3, -, h4, h5⟩ := C15_chain_exists ha hu hy hok xs hxs rf
  have hbi := ((h1.later ha.inv).inv ha.inv).1
  refine ⟨e, b, h1, fun c hc => ?_⟩
  obtain ⟨l1, -, l3⟩ := hc.later hbi h3 (Or.inl fun q hq => h2 q (by
    obtain ⟨ord, hf⟩ := hbi
    exact Reach.lt hf.good.d.wf.closed h3 hq))
  refine C15_nth_derivative_partial ha hne h1 l1 (Sess.safe_of l3) (Sess.Entire.inDom ?_ _)
  have hit : ∀ q, Reach a.s.st.defs y q → c.s.st.defs.items q = a.s.st.defs.items q := by
    intro q hq
    rw [(l1.inv hbi).2.items q (h5 hne q hq)]
    obtain ⟨ord, hf⟩ := ha.inv
    exact h4 q (Reach.lt hf.good.d.wf.closed hy hq)
  have hre : ∀ q, Reach c.s.st.defs y q → Reach a.s.st.defs y q := by
    intro q hq
    induction hq with
    | refl => exact .refl
    | step _ hm hp ih => exact .step ih (by rw [← hit _ ih]; exact hm) hp
  intro q hq
  rw [hit q (hre q hq)]
  exact he q (hre q hq)

namespace Ex

/-! ## Witnesses -/

theorem reach_empty {K : Type} {D : Defs K} {p q : ℕ} (h : D.items p = []) (hr : Reach D p q) : q = p := by
  induction hr with
  | refl => rfl
  | step _ hm _ ih => rw [ih, h] at hm; simp at hm

/-- `Variable x(2), z(3); Expression y; y = sin(x)*z;`  (objects: t0 = 0, t1 = 1, x = 2, z = 3, y = 4) -/
noncomputable def sess0 : Sess ℝ :=
  ⟨{ (SSt.init : SSt ℝ) with
      st := define 4 (.mul (.fn .sin (.var 2)) (.var 3))
        (newExpr (newVar 3 (newVar 2 (SSt.init : SSt ℝ).st).2).2).2 },
    fun q => (False ∨ q = 2) ∨ q = 3, {0, 1}⟩

theorem sess0_session : Session realPrim sess0 := by
  refine .step (.step (.step (.step .refl (.newVar 2)) (.newVar 3)) .newExpr)
    (.define 4 (.mul (.fn .sin (.var 2)) (.var 3)) ?_ ?_ ?_ ?_ ?_ ?_)
  · decide
  · show ¬ (4 = 0 ∨ 4 = 1)
    decide
  · show [Node.leaf 0] ≠ []
    simp
  · decide
  · decide
  · intro p hp
    right
    intro hr
    have hp : p = 2 ∨ p = 3 := by simpa [Exp.leaves] using hp
    have := reach_empty (p := p) (by rcases hp with rfl | rfl <;> rfl) hr
    omega

theorem sess0_unflagged : sess0.Unflagged := by
  intro q hq
  have hq : q < 5 := hq
  interval_cases q <;> rfl

theorem sess0_entire : sess0.Entire 4 := by
  have hi : ∃ a b c, sess0.s.st.defs.items 4 =
      [.op1 a (.mulC 1) (.op2 b .mul (.op1 c (.fn .sin) (.leaf 2)) (.leaf 3))] := ⟨_, _, _, rfl⟩
  obtain ⟨a, b, c, hi⟩ := hi
  have hr : ∀ q, Reach sess0.s.st.defs 4 q → q = 4 ∨ q = 2 ∨ q = 3 := by
    intro q hq
    induction hq with
    | refl => simp
    | step _ hm hp ih =>
        rcases ih with rfl | rfl | rfl
        · rw [hi] at hm
          simp only [List.mem_singleton] at hm
          subst hm
          simp [Node.leaves] at hp
          omega
        · exact absurd hm (by rw [show sess0.s.st.defs.items 2 = [] from rfl]; simp)
        · exact absurd hm (by rw [show sess0.s.st.defs.items 3 = [] from rfl]; simp)
  intro q hq i hm
  rcases hr q hq with rfl | rfl | rfl
  · rw [hi] at hm
    simp only [List.mem_singleton] at hm
    subst hm
    exact ⟨trivial, trivial, ⟨trivial, trivial⟩, trivial⟩
  · exact absurd hm (by rw [show sess0.s.st.defs.items 2 = [] from rfl]; simp)
  · exact absurd hm (by rw [show sess0.s.st.defs.items 3 = [] from rfl]; simp)

/-- The hypotheses of C14 and C15 are met by `y = sin(x)*z`: here the third derivative `∂z ∂x ∂x y`, with
`x = 5` set after the `SymDiff` calls. -/
example : ∃ e b, SymChain realPrim sess0 4 [3, 2, 2] e b ∧ ∀ c, Rounds realPrim e b c →
    ∃ w, NthDerivative 4 [3, 2, 2] c w ∧ (EvalS realPrim e c.s).map Prod.fst = some w :=
  C15_program_entire sess0_session sess0_unflagged (by decide) sess0_entire (by simp)
    (by intro x hx; simp at hx; rcases hx with rfl | rfl <;> simp [sess0]) (fun _ _ _ => false)

/-! ## Programs over the rationals -/

/-- An interpretation with a few exact square roots. -/
def P1 : Prim ℚ :=
  { P0 with
    sin := fun u => u
    cos := fun u => u + 1
    sqrt := fun u => if u = 4 then 2 else if u = 16 then 4 else 1 }

/-- Left operand first. -/
def rf0 : ℕ → Bool → List Bool → Bool := fun _ _ _ => false

/-- Calls of a program. -/
inductive Call
  | eval (o : ℕ)
  | devalF (o x : ℕ)
  | set (x : ℕ) (v : ℚ)
  | define (y : ℕ) (e : Exp ℚ)
  | symDiff (y x : ℕ)

/-- Run a program and list the answers (`SymDiff` answers the number of the new object); an abort or
an endless recursion stops the list with `none`. -/
def run : List Call → SSt ℚ → List (Option ℚ)
  | [], _ => []
  | .eval o :: cs, s => match EvalS P1 o s with
      | some r => some r.1 :: run cs r.2
      | none => [none]
  | .devalF o x :: cs, s => match DevalFS P1 o x s with
      | some r => some r.1 :: run cs r.2
      | none => [none]
  | .set x v :: cs, s => run cs { s with st := assignNum x v s.st }
  | .define y e :: cs, s => run cs { s with st := CoolDiff.define y e s.st }
  | .symDiff y x :: cs, s => match CoolDiff.symDiff P1 rf0 y x s with
      | some r => some (r.1 : ℚ) :: run cs r.2
      | none => [none]

/-- `Variable x(2), z(5); Expression e, y;` (objects: x = 2, z = 3, e = 4, y = 5) -/
def prog : SSt ℚ :=
  { (SSt.init : SSt ℚ) with
    st := (newExpr (newExpr (newVar 5 (newVar 2 (SSt.init : SSt ℚ).st).2).2).2).2 }

/-- `e = x*x; y = e*e; d = SymDiff(y,x); Eval(d); DevalF(y,x); x = 5; Eval(d)`: right answers. -/
theorem symDiff_answers : run [.define 4 (.mul (.var 2) (.var 2)), .define 5 (.mul (.var 4) (.var 4)),
    .symDiff 5 2, .eval 17, .devalF 5 2, .set 2 5, .eval 17] prog =
    [some 17, some 32, some 32, some 500] := by decide +kernel

/-- The second derivative of the same `y`, by `DevalF` of the result and by a second `SymDiff`. -/
theorem symDiff_second : run [.define 4 (.mul (.var 2) (.var 2)), .define 5 (.mul (.var 4) (.var 4)),
    .symDiff 5 2, .devalF 17 2, .symDiff 17 2, .eval 60] prog =
    [some 17, some 48, some 60, some 48] := by decide +kernel

/-! ## Where the full C14 and C15 fail -/

/-- `y = (2/x)*(2/x); d = SymDiff(y,x)`: `Eval(d)` returns -1/2, `DevalF(y,x)` returns -1.  `symEval` of
`c / e` builds `1 / e` (GenericDiv.hpp:260). -/
theorem two_over_x : run [.define 4 (.mul (.cDiv 2 (.var 2)) (.cDiv 2 (.var 2))), .symDiff 4 2, .eval 16,
    .devalF 4 2] prog = [some 16, some (-1 / 2), some (-1)] := by decide +kernel

/-- `y = sqrt(x*x)` at `x = 2`: with `d = SymDiff(y,x)`, `DevalF(d,x)` returns 0, but
`Eval(SymDiff(d,x))` returns 1/2, because `d` contains `0.5 / sqrt(x*x)`. -/
theorem second_sqrt : run [.define 4 (.fn .sqrt (.mul (.var 2) (.var 2))), .symDiff 4 2, .devalF 14 2,
    .symDiff 14 2, .eval 47] prog = [some 14, some 0, some 47, some (1 / 2)] := by decide +kernel

/-- Stale answers when queries of several roots are mixed: `y = sin(x*z)`, `d = SymDiff(y,x)`,
`d' = SymDiff(y,z)`; after `Eval(d); Eval(d'); Eval(y); Eval(d); x = 7`, `Eval(d')` returns 77 and
`DevalF(y,z)` returns 252 (`sin'` is `u + 1` here). -/
theorem stale_after_eval : run [.define 4 (.fn .sin (.mul (.var 2) (.var 3))), .symDiff 4 2, .symDiff 4 3,
    .eval 15, .eval 19, .eval 4, .eval 15, .set 2 7, .eval 19, .devalF 4 3] prog =
    [some 15, some 19, some 55, some 22, some 10, some 55, some 77, some 252] := by decide +kernel

/-- The derivative temporaries of operator nodes are never renewed: `e = x*x; y = e*x; SymDiff(y,x);
e = x*z; d = SymDiff(y,x)`: `Eval(d)` returns 12, `DevalF(y,x)` returns 20. -/
theorem stale_temporaries : run [.define 4 (.mul (.var 2) (.var 2)), .define 5 (.mul (.var 4) (.var 2)),
    .symDiff 5 2, .define 4 (.mul (.var 2) (.var 3)), .symDiff 5 2, .eval 18, .devalF 5 2] prog =
    [some 17, some 18, some 12, some 20] := by decide +kernel

/-- `SymDiff` of a user operator aborts. -/
theorem symDiff_custom : run [.define 4 (.un (fun u => u) (fun _ => 1) (.var 2)), .symDiff 4 2] prog =
    [none] := by decide +kernel

end Ex

end CoolDiff
