import Verif.Props.Exact

/-!
# C04, C05, C06, C12, C17, C21: reverse mode, zero derivatives, termination, order of queries
-/

set_option linter.unusedSectionVars false

namespace CoolDiff

variable {K : Type} [Field K] [DecidableEq K] {P : Prim K}

/-! ## C04 -/

/-- In every history, a definition that is a bare reference refers to an Expression (or to the
library's own `Variable::t0`, object 0). -/
theorem Run.bare {σ : St K} (h : Run P σ) : ∀ q < σ.defs.size, ∀ x < σ.defs.size, x ≠ 0 →
    σ.defs.items x = [] → Node.leaf x ∉ σ.defs.items q := by
  induction h with
  | init => intro q _ x _ _ _; simp [St.init]
  | @newVar σ v hr ih =>
      intro q hq x hx hx0 hxe
      simp only [CoolDiff.newVar] at hq hx hxe ⊢
      by_cases e : q = σ.defs.size
      · subst e; simp
      · rw [Function.update_of_ne e]
        have hq' : q < σ.defs.size := by omega
        by_cases e' : x = σ.defs.size
        · intro hm
          have := hr.defs_wf.1.closed q hq' _ hm x (by simp [Node.leaves]); omega
        · rw [Function.update_of_ne e'] at hxe
          exact ih q hq' x (by omega) hx0 hxe
  | @newExpr σ hr ih =>
      intro q hq x hx hx0 hxe
      simp only [CoolDiff.newExpr] at hq hx hxe ⊢
      by_cases e' : x = σ.defs.size
      · subst e'; simp at hxe
      · rw [Function.update_of_ne e'] at hxe
        by_cases e : q = σ.defs.size
        · subst e; simpa using hx0
        · rw [Function.update_of_ne e]
          exact ih q (by omega) x (by omega) hx0 hxe
  | newPar v _ ih => exact ih
  | setPar p v _ _ ih => exact ih
  | @setVar σ z v _ hz hze ih =>
      intro q hq x hx hx0 hxe
      have hit : (assignNum z v σ).defs.items = σ.defs.items := by
        funext p
        simp only [assignNum, Function.update_apply]
        split
        · next e => rw [e, hze]
        · rfl
      rw [hit] at hxe ⊢
      exact ih q hq x hx hx0 hxe
  | @define σ y e _ hy hye _ _ ih =>
      intro q hq x hx hx0 hxe
      have hxy : x ≠ y := by
        rintro rfl
        rw [define_items] at hxe
        simp at hxe
      rw [define_items_ne hxy] at hxe
      have := ih
      by_cases e' : q = y
      · subst e'
        rw [define_items, List.mem_append]
        rintro (h | h)
        · split at h
          · exact ih q hq x hx hx0 hxe h
          · simp at h
        · simp [stored] at h
      · rw [define_items_ne e']
        exact ih q hq x hx hx0 hxe
  | formula n _ _ ih => exact ih
  | @assign σ y t _ hy hye _ _ ih =>
      intro q hq x hx hx0 hxe
      have hxy : x ≠ y := by
        rintro rfl
        simp [assignExp] at hxe
      simp only [assignExp, Function.update_of_ne hxy] at hxe
      simp only [assignExp]
      by_cases e' : q = y
      · subst e'
        rw [Function.update_self, List.mem_append]
        rintro (h | h)
        · split at h
          · exact ih q hq x hx hx0 hxe h
          · simp at h
        · simp at h
      · rw [Function.update_of_ne e']
        exact ih q hq x hx hx0 hxe
  | @defineRef σ y z _ hy hye hz hze ih =>
      intro q hq x hx hx0 hxe
      have hxy : x ≠ y := by
        rintro rfl
        simp [assignRef] at hxe
      simp only [assignRef, Function.update_of_ne hxy] at hxe
      simp only [assignRef]
      by_cases e' : q = y
      · subst e'
        rw [Function.update_self, List.mem_append]
        rintro (h | h)
        · split at h
          · exact ih q hq x hx hx0 hxe h
          · simp at h
        · simp at h; subst h; exact hze hxe
      · rw [Function.update_of_ne e']
        exact ih q hq x hx hx0 hxe
  | eval y v _ _ he ih => rw [Eval_defs he]; exact ih
  | devalF y x v _ _ _ he ih => rw [DevalF_defs he]; exact ih
  | preComp y _ _ he ih => rw [PreComp_defs he]; exact ih

theorem Run.revOK {σ : St K} (h : Run P σ) {y x : ℕ} (hy : y < σ.defs.size) (hx : x < σ.defs.size)
    (hx0 : x ≠ 0) (hxv : σ.defs.items x = []) : RevOK σ.defs y x :=
  ⟨by simp [hxv], fun q hq => h.bare q (Reach.lt h.defs_wf.1.closed hy hq) x hx hx0 hxv⟩

/-- C04, proved part.  After `PreComp y`, `DevalR y x` is the number `DevalF y x` returns from the
same heap, for every `x` other than `y` that is not defined through its own previous value and is not
the whole right-hand side of an Expression-to-Expression assignment (every `Variable` not assigned as
a bare Expression qualifies, see `C04_variables`).  Missing: exactly those excluded `x`, where the
two modes differ (`C04_bare_reference`, `C04_self_recursive`). -/
theorem C04_reverse_eq_forward_partial {σ : St K} (h : Run P σ) {y x : ℕ}
    (hy : y < σ.defs.size) (hx : x < σ.defs.size) (hxy : x ≠ y) (hwd : WellDefined σ.defs y)
    (hs : Ready P σ y x) (hr : RevOK σ.defs y x) :
    ∃ d σ₁ σ₂, DevalF P y x σ = some (d, σ₁) ∧ PreComp P y σ = some σ₂ ∧ DevalR y x σ₂ = d := by
  obtain ⟨ρ, hρ⟩ := hwd.exists_solves (P := P)
  obtain ⟨δ, hδ⟩ := hwd.exists_tangent (P := P) x ρ
  obtain ⟨σ₁, h1, -⟩ := hs.fwd.devalF h.wf hy hx hwd hρ hδ
  obtain ⟨σ₂, h2, h3⟩ := hs.rev.devalR h.wf hy hwd (keyHyp_of_revOK h.wf hy hx hr) hρ hδ
  rw [if_neg (Ne.symm hxy)] at h3
  exact ⟨_, σ₁, σ₂, h1, h2, h3⟩

example : ∃ d σ₁ σ₂, DevalF Ex.P0 4 1 Ex.s0 = some (d, σ₁) ∧ PreComp Ex.P0 4 Ex.s0 = some σ₂ ∧
    DevalR 4 1 σ₂ = d := by
  refine C04_reverse_eq_forward_partial Ex.s0_hist.run (by decide) (by decide) (by decide) Ex.s0_wd
    (Ex.s0_hist.ready Safe.none _) ⟨?_, ?_⟩
  · intro i hi; have : Ex.s0.defs.items 1 = [] := rfl
    rw [this] at hi; simp at hi
  · intro q hq hm
    have : ∀ q < 5, ∀ i ∈ Ex.s0.defs.items q, i.opIds = [] → q = 0 := by decide
    have := this q (Reach.lt Ex.s0_hist.inv.wf.defs.closed (by decide) hq) _ hm rfl
    subst this
    exact absurd hm (by simp [Ex.s0, define, assignExp, newExpr, newVar, St.init])

/-- C04 for Variables: after every history, when `y` is `Ready`, for every Variable `x` (an object without a
definition; object 0 is the library's internal `Variable::t0`) and every root `y`, reverse mode
returns what forward mode returns.  Missing from the full property: stale stored results
(`C04_stale`). -/
theorem C04_variables_partial {σ : St K} (h : Run P σ) {y x : ℕ}
    (hy : y < σ.defs.size) (hx : x < σ.defs.size) (hx0 : x ≠ 0) (hxv : σ.defs.items x = [])
    (hxy : x ≠ y) (hwd : WellDefined σ.defs y) (hs : Ready P σ y x) :
    ∃ d σ₁ σ₂, DevalF P y x σ = some (d, σ₁) ∧ PreComp P y σ = some σ₂ ∧ DevalR y x σ₂ = d :=
  C04_reverse_eq_forward_partial h hy hx hxy hwd hs (h.revOK hy hx hx0 hxv)

example : ∃ d σ₁ σ₂, DevalF Ex.P0 4 2 Ex.s0 = some (d, σ₁) ∧ PreComp Ex.P0 4 Ex.s0 = some σ₂ ∧
    DevalR 4 2 σ₂ = d :=
  C04_variables_partial Ex.s0_hist.run (by decide) (by decide) (by decide) rfl (by decide) Ex.s0_wd
    (Ex.s0_hist.ready Safe.none _)

namespace Ex

/-- `Variable x = 2; Expression z = x*x; Expression y = z;` (x = 1, z = 2, y = 3) -/
def bare0 : St ℚ :=
  assignRef 3 2 (newExpr (define 2 (.mul (.var 1) (.var 1)) (newExpr (newVar 2 St.init).2).2)).2

/-- `Variable x = 2; Expression z = x*x; z = z*x; Expression y = z + x;` (x = 1, z = 2, y = 3) -/
def self0 : St ℚ :=
  define 3 (.add (.var 2) (.var 1)) (newExpr (define 2 (.mul (.var 2) (.var 1))
    (define 2 (.mul (.var 1) (.var 1)) (newExpr (newVar 2 St.init).2).2))).2

/-- `x = 2; c = x*x; w = c+1; e = 2*c; y = e+1; DevalF(w,x);` -/
def stale2 : St ℚ := match DevalF P0 3 1 stale0 with
  | some (_, σ) => σ
  | none => stale0

end Ex

/-- With respect to a named Expression `z`, `Expression y = z;` has forward derivative 1 and reverse
derivative 0. -/
theorem C04_bare_reference : (DevalF Ex.P0 3 2 Ex.bare0).map Prod.fst = some 1 ∧
    (PreComp Ex.P0 3 Ex.bare0).map (DevalR 3 2) = some 0 := by
  constructor <;> decide +kernel

/-- With respect to a named Expression `z` defined through its own previous value, the two modes
differ as well: `z = x*x; z = z*x; y = z + x` at `x = 2` has forward derivative 1 with respect to `z`
and reverse derivative 3. -/
theorem C04_self_recursive : (DevalF Ex.P0 3 2 Ex.self0).map Prod.fst = some 1 ∧
    (PreComp Ex.P0 3 Ex.self0).map (DevalR 3 2) = some 3 := by
  constructor <;> decide +kernel

/-- C04 fails after a history outside `C02_current_partial`: after `DevalF(w,x)`, the forward
derivative of `y` is 8 and the reverse derivative 0. -/
theorem C04_stale : (DevalF Ex.P0 5 1 Ex.stale2).map Prod.fst = some 8 ∧
    (PreComp Ex.P0 5 Ex.stale2).map (DevalR 5 1) = some 0 := by
  constructor <;> decide +kernel

end CoolDiff
