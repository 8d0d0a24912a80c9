import Verif.Scalar.Formula

/-!
# C56: Expressions that mention all they depend on, formulas, Variables, Parameters and numbers

`Direct D y`: every Expression `y` depends on is mentioned in the definition of `y` itself.  Queries on such `y` are
right after every history of API calls, without any condition on what was queried before (in contrast to `C02_stale`,
where `y` depends on an Expression it does not mention).
-/

set_option linter.unusedSectionVars false

namespace CoolDiff

variable {K : Type} [Field K] [DecidableEq K] {P : Prim K}

/-- Every Expression `y` depends on is mentioned in the definition of `y` itself. -/
def Direct (D : Defs K) (y : ℕ) : Prop :=
  ∀ q, Reach D y q → q ≠ y → D.items q ≠ [] → ∃ i ∈ D.items y, q ∈ i.leaves

theorem Direct.fine {σ : St K} {y : ℕ} (h : Direct σ.defs y) (Good : Defs K → Mem K → ℕ → Prop) : Fine Good σ y := by
  intro q hq hk he
  obtain ⟨i, hi, hp⟩ := h q (Uses.reach hq) hk.2.1 he
  exact absurd (.child hi hp) hk.2.2

/-- C56, Expressions.  After every history of API calls whatsoever, if `y` mentions every Expression it depends on
then `Eval y` returns its value, `DevalF y x` its derivative with respect to any object `x`, and after `PreComp y`
`DevalR y x` its derivative with respect to any Variable `x`, all for the definitions and numbers in force. -/
theorem C56_direct {σ : St K} (h : Run P σ) {y : ℕ} (hy : y < σ.defs.size) (hwd : WellDefined σ.defs y)
    (hd : Direct σ.defs y) :
    (∃ v σ', Eval P y σ = some (v, σ') ∧ ∀ w, ValueOf P σ.defs y w ↔ w = v) ∧
    (∀ x < σ.defs.size, ∃ d σ', DevalF P y x σ = some (d, σ') ∧ ∀ w, DerivOf P σ.defs y x w ↔ w = d) ∧
    ∃ σ', PreComp P y σ = some σ' ∧ ∀ x, IsVar σ.defs x → x ≠ y →
      ∀ w, DerivOf P σ.defs y x w ↔ w = DevalR y x σ' := by
  obtain ⟨ρ, hρ⟩ := hwd.exists_solves (P := P)
  refine ⟨?_, fun x hx => ?_, ?_⟩
  · obtain ⟨σ', e, -⟩ := (hd.fine (GoodV P)).eval h.wf hy hwd hρ
    exact ⟨_, σ', e, fun w => ⟨fun hw => hw.eq hwd hρ, fun hw => ⟨ρ, hρ, hw.symm⟩⟩⟩
  · obtain ⟨δ, hδ⟩ := hwd.exists_tangent (P := P) x ρ
    obtain ⟨σ', e, -⟩ := (hd.fine (GoodF P x)).devalF h.wf hy hx hwd hρ hδ
    exact ⟨_, σ', e, fun w => ⟨fun hw => hw.eq hwd hρ hδ, fun hw => ⟨ρ, δ, hρ, hδ, hw.symm⟩⟩⟩
  · obtain ⟨ρ', σ', e, -⟩ := (hd.fine (GoodR P)).preComp h.wf hy hwd
    refine ⟨σ', e, fun x hx hxy w => ?_⟩
    obtain ⟨δ, hδ⟩ := hwd.exists_tangent (P := P) x ρ
    obtain ⟨σ'', e', hr⟩ := (hd.fine (GoodR P)).devalR h.wf hy hwd
      (keyHyp_of_revOK h.wf hy hx.1 (h.revOK hy hx.1 hx.2.1 hx.2.2)) hρ hδ
    rw [e] at e'
    obtain rfl := Option.some.inj e'
    rw [if_neg (Ne.symm hxy)] at hr
    rw [hr]
    exact ⟨fun hw => hw.eq hwd hρ hδ, fun hw => ⟨ρ, δ, hρ, hδ, hw.symm⟩⟩

/-- The formula mentions every Expression that the Expressions it mentions depend on. -/
def DirectF (D : Defs K) (os : List ℕ) : Prop :=
  ∀ p ∈ os, ∀ q, Reach D p q → D.items q ≠ [] → q ∈ os

theorem DirectF.temp {σ : St K} (hw : σ.WF) {t : Node K} (hl : ∀ p ∈ t.leaves, p < σ.defs.size)
    (h : DirectF σ.defs t.leaves) : Direct (newExprOf t σ).2.defs σ.defs.size := by
  intro q hq hqo he
  obtain ⟨p, hp, hpq⟩ := (newExprOf_reach hw hl hq).resolve_left hqo
  rw [newExprOf_items_ne hqo] at he
  refine ⟨_, by rw [newExprOf_items]; exact List.mem_singleton.2 rfl, ?_⟩
  simpa [Node.leaves, cloneN_leaves] using h p hp q hpq he

/-- What the calls on a formula object do not change: the definitions of everything that existed. -/
structure SameDefs (D D' : Defs K) : Prop where
  size : D.size ≤ D'.size
  psize : D'.psize = D.psize
  par : D'.par = D.par
  items : ∀ q < D.size, D'.items q = D.items q
  base : ∀ q < D.size, D'.base q = D.base q
  nidx : ∀ q < D.size, D'.nidx q = D.nidx q

theorem newExprOf_same (t : Node K) (σ : St K) : SameDefs σ.defs (newExprOf t σ).2.defs := by
  refine ⟨Nat.le_succ _, rfl, rfl, fun q hq => newExprOf_items_ne hq.ne, fun q hq => ?_, fun q hq => ?_⟩ <;>
    simp [newExprOf, hq.ne]

/-- C56, formulas.  Let `f` be the formula object of the written formula `e`, built at any earlier time (`n` is what
the global counter was then).  After every history, `Eval(f)` returns the written arithmetic and `DevalF(f,x)` its
derivative, where every object mentioned counts with its value and derivative in force (a Variable with its number,
and derivative 1 or 0), provided the Expressions among them depend only on Expressions that `e` mentions too.  The calls
redefine nothing, and what follows is again a history (so that every other theorem about histories applies). -/
theorem C56_formula {σ : St K} (h : Run P σ) {e : Exp K} (n : ℕ) {x : ℕ} (hx : x < σ.defs.size)
    (hl : ∀ p ∈ e.leaves, p < σ.defs.size) (hp : ∀ p ∈ e.pars, p < σ.defs.psize)
    (hwd : ∀ p ∈ e.leaves, WellDefined σ.defs p) (hd : DirectF σ.defs e.leaves) :
    ∃ ρ δ σ₁ σ₂, Env P σ.defs x e.leaves ρ δ ∧
      EvalA P σ (.formula (e.build n).1) = some (e.val P σ.defs.par ρ, σ₁) ∧
      DevalFA P x σ (.formula (e.build n).1) = some (e.der P σ.defs.par ρ δ, σ₂) ∧
      Run P σ₁ ∧ SameDefs σ.defs σ₁.defs ∧ Run P σ₂ ∧ SameDefs σ.defs σ₂.defs := by
  set t := (e.build n).1 with ht
  have hlt : t.leaves = e.leaves := e.build_leaves n
  have hpt : t.pars = e.pars := e.build_pars n
  rw [← hlt] at hl hwd hd
  rw [← hpt] at hp
  have hr := h.newExprOf hl hp
  have hwt := newExprOf_wd h.wf hl hwd
  have hdt := hd.temp h.wf hl
  have hot : σ.defs.size < (newExprOf t σ).2.defs.size := Nat.lt_succ_self _
  have hxt : x < (newExprOf t σ).2.defs.size := Nat.lt_succ_of_lt hx
  obtain ⟨ρ, hρ⟩ := hwt.exists_solves (P := P)
  obtain ⟨δ, hδ⟩ := hwt.exists_tangent (P := P) x ρ
  obtain ⟨σ₁, e1, -⟩ := (hdt.fine (GoodV P)).eval hr.wf hot hwt hρ
  obtain ⟨σ₂, e2, -⟩ := (hdt.fine (GoodF P x)).devalF hr.wf hot hxt hwt hρ hδ
  have hsame : ∀ p ∈ t.leaves, SameBelow (newExprOf t σ).2.defs σ.defs p := fun p hp =>
    (newExprOf_sameBelow h.wf (hl p hp)).symm
  refine ⟨ρ, δ, σ₁, σ₂, ?_, ?_, ?_, .eval _ _ hr hot e1, ?_, .devalF _ x _ hr hot hxt e2, ?_⟩
  · rw [← hlt]
    refine ⟨fun p hp => (hsame p hp).value ⟨ρ, hρ.mono (newExprOf_leaf hp), rfl⟩,
      fun p hp => (hsame p hp).deriv ⟨ρ, δ, hρ.mono (newExprOf_leaf hp), hδ.mono (newExprOf_leaf hp), rfl⟩,
      fun p hp hv => ?_⟩
    have hv' : (newExprOf t σ).2.defs.items p = [] := by rw [newExprOf_items_ne (hl p hp).ne]; exact hv
    refine ⟨?_, hδ.variable (newExprOf_leaf hp) hv'⟩
    rw [hρ.variable (newExprOf_leaf hp) hv', (newExprOf_same t σ).base p (hl p hp)]
  · rw [EvalA]
    show Eval P σ.defs.size _ = _
    rw [e1, newExprOf_val hl hρ, ht, e.build_val]
  · rw [DevalFA]
    show DevalF P σ.defs.size x _ = _
    rw [e2, newExprOf_der hl hx hδ, ht, e.build_der]
  · rw [Eval_defs e1]; exact newExprOf_same t σ
  · rw [DevalF_defs e2]; exact newExprOf_same t σ

/-- C56, formulas of Variables and Parameters: no condition is left. -/
theorem C56_formula_variables {σ : St K} (h : Run P σ) {e : Exp K} (n : ℕ) {x : ℕ} (hx : x < σ.defs.size)
    (hl : ∀ p ∈ e.leaves, p < σ.defs.size ∧ σ.defs.items p = []) (hp : ∀ p ∈ e.pars, p < σ.defs.psize) :
    (EvalA P σ (.formula (e.build n).1)).map Prod.fst = some (e.val P σ.defs.par σ.defs.base) ∧
    (DevalFA P x σ (.formula (e.build n).1)).map Prod.fst =
      some (e.der P σ.defs.par σ.defs.base fun p => if p = x then 1 else 0) := by
  have hre : ∀ p ∈ e.leaves, ∀ q, Reach σ.defs p q → q = p := by
    intro p hp q hq
    induction hq with
    | refl => rfl
    | step _ hi _ ih => rw [ih, (hl p hp).2] at hi; cases hi
  obtain ⟨ρ, δ, σ₁, σ₂, henv, e1, e2, -⟩ := C56_formula (P := P) h (e := e) n hx (fun p hp => (hl p hp).1) hp
    (fun p hp => ⟨⟨fun _ => 0, fun q hq i hi => by rw [hre p hp q hq, (hl p hp).2] at hi; cases hi⟩,
      fun q hq i is hi => by rw [hre p hp q hq, (hl p hp).2] at hi; cases hi⟩)
    (fun p hp q hq he => absurd (by rw [hre p hp q hq]; exact (hl p hp).2) he)
  constructor
  · rw [e1, Option.map_some, Exp.val_congr P _ e fun p hp => (henv.var p hp (hl p hp).2).1]
  · rw [e2, Option.map_some, Exp.der_congr P _ e (fun p hp => (henv.var p hp (hl p hp).2).1)
      fun p hp => (henv.var p hp (hl p hp).2).2]

/-- C56, the other arguments: after every history, a Variable has its number as value, and derivative 1 with respect to
itself and 0 with respect to every other object; Parameters and numbers have their number, and derivative 0.  The calls
change nothing.  `DevalR` refuses formula objects. -/
theorem C56_atoms {σ : St K} (h : Run P σ) {x : ℕ} (hx : x < σ.defs.size) :
    (∀ v < σ.defs.size, σ.defs.items v = [] → EvalA P σ (.var v) = some (σ.defs.base v, σ) ∧
      DevalFA P x σ (.var v) = some (if v = x then 1 else 0, σ) ∧
      DevalRA x σ (.var v) = some (if v = x then 1 else 0)) ∧
    (∀ p, EvalA P σ (.par p) = some (σ.defs.par p, σ) ∧ DevalFA P x σ (.par p) = some (0, σ) ∧
      DevalRA x σ (.par p) = some 0) ∧
    (∀ c, EvalA P σ (.num c) = some (c, σ) ∧ DevalFA P x σ (.num c) = some (0, σ) ∧
      DevalRA x σ (.num c) = some 0) ∧
    ∀ t, DevalRA x σ (.formula t) = none := by
  refine ⟨fun v hv he => ?_, fun p => ⟨rfl, rfl, rfl⟩, fun c => ⟨rfl, rfl, rfl⟩, fun t => rfl⟩
  have hn : σ.defs.nidx v = σ.defs.nidx x ↔ v = x := ⟨h.wf.defs.inj v hv x hx, fun e => by rw [e]⟩
  refine ⟨by rw [EvalA, (h.wf.plain v hv he).1], ?_, ?_⟩
  · simp only [DevalFA, hn]
  · simp only [DevalRA, hn]

/-! ## Witnesses -/

namespace Ex

/-- The heap of `C02_stale` (`x = 2; c = x*x; w = c+1; e = 2*c; y = e+1; Eval(w); x = 5;` objects 1 to 5), where
`Eval(y)` is wrong.  `e = 2*c` mentions all it depends on, so `Eval(e)` is right: -/
theorem stale1_direct : Direct stale1.defs 4 := by
  intro q hq hq4 he
  have hi := stale1_defs.1
  have h4 : ∀ i ∈ stale1.defs.items 4, i.leaves = [2] := by rw [hi]; decide
  have h2 : ∀ i ∈ stale1.defs.items 2, i.leaves = [1, 1] := by rw [hi]; decide
  have h1 : stale1.defs.items 1 = [] := by rw [hi]; rfl
  have key : q = 4 ∨ q = 2 ∨ q = 1 := by
    clear hq4 he
    induction hq with
    | refl => simp
    | @step q p i _ hm hp ih =>
        rcases ih with rfl | rfl | rfl
        · rw [h4 i hm] at hp; simp at hp; simp [hp]
        · rw [h2 i hm] at hp; simp at hp; simp [hp]
        · rw [h1] at hm; cases hm
  rcases key with rfl | rfl | rfl
  · exact absurd rfl hq4
  · obtain ⟨i, his⟩ : ∃ i, i ∈ stale1.defs.items 4 := by rw [hi]; exact ⟨_, List.mem_singleton.2 rfl⟩
    exact ⟨i, his, by rw [h4 i his]; simp⟩
  · exact absurd h1 he

example : ∃ v σ', Eval P0 4 stale1 = some (v, σ') ∧ ∀ w, ValueOf P0 stale1.defs 4 w ↔ w = v :=
  (C56_direct stale1_run (by rw [stale1_defs.2]; decide)
    (Acyclic.wellDefined (Acyclic.of_ordered (by rw [stale1_defs.1, stale1_defs.2]; decide)
      (by rw [stale1_defs.1, stale1_defs.2]; decide)) stale1_run.defs_wf.1.closed (by rw [stale1_defs.2]; decide))
    stale1_direct).1

example : (Eval P0 4 stale1).map Prod.fst = some 50 := by decide +kernel
example : (Eval P0 5 stale1).map Prod.fst = some 9 := by decide +kernel

/-- `Eval(x*x + c)`, `DevalF(x*x + c, x)` in the same heap. -/
def stale1F : Exp ℚ := .add (.mul (.var 1) (.var 1)) (.var 2)
example : (EvalA P0 stale1 (.formula (stale1F.build 7).1)).map Prod.fst = some 50 := by decide +kernel
example : (DevalFA P0 1 stale1 (.formula (stale1F.build 7).1)).map Prod.fst = some 20 := by decide +kernel

example : ∃ ρ δ σ₁ σ₂, Env P0 stale1.defs 1 stale1F.leaves ρ δ ∧
      EvalA P0 stale1 (.formula (stale1F.build 7).1) = some (stale1F.val P0 stale1.defs.par ρ, σ₁) ∧
      DevalFA P0 1 stale1 (.formula (stale1F.build 7).1) = some (stale1F.der P0 stale1.defs.par ρ δ, σ₂) ∧
      Run P0 σ₁ ∧ SameDefs stale1.defs σ₁.defs ∧ Run P0 σ₂ ∧ SameDefs stale1.defs σ₂.defs := by
  have hi := stale1_defs.1
  have hs := stale1_defs.2
  have ha : Acyclic stale1.defs := Acyclic.of_ordered (by rw [hi, hs]; decide) (by rw [hi, hs]; decide)
  refine C56_formula stale1_run 7 (by rw [hs]; decide) (by rw [hs]; decide) (by decide)
    (fun p hp => ha.wellDefined stale1_run.defs_wf.1.closed (by
      rw [hs]; revert p hp; decide)) ?_
  intro p hp q hq he
  have hall : ∀ r ∈ stale1F.leaves, r = 1 ∨ r = 2 := by decide
  have hp' : p = 1 ∨ p = 2 := hall p hp
  have h2 : ∀ i ∈ stale1.defs.items 2, i.leaves = [1, 1] := by rw [hi]; decide
  have h1 : stale1.defs.items 1 = [] := by rw [hi]; rfl
  have : q = 1 ∨ q = 2 := by
    clear he
    induction hq with
    | refl => exact hp'
    | @step q p i _ hm hp ih =>
        rcases ih with rfl | rfl
        · rw [h1] at hm; cases hm
        · rw [h2 i hm] at hp; simp at hp; simp [hp]
  rcases this with rfl | rfl <;> decide

end Ex

end CoolDiff
