import Verif.Scalar.Examples
import Mathlib.Tactic.NormNum

/-!
# C01, C02, C04, C05, C06, C07, C12, C17, C21: what queries answer

`Hist P σ U` (Verif/Scalar/History.lean): `σ` results from a sequence of API calls in which `U` took
part in queries.  `ValueOf`, `DerivOf` (Verif/Scalar/Spec.lean): value and derivative prescribed by
the definitions in force.
-/

set_option linter.unusedSectionVars false

namespace CoolDiff

variable {K : Type} [Field K] [DecidableEq K] {P : Prim K}

/-! ## C01 -/

/-- C01.  Before any other query, `Eval y` returns the value prescribed by the definition of `y`,
and there is exactly one such value. -/
theorem C01_eval {σ : St K} (h : Hist P σ (fun _ => False)) {y : ℕ} (hy : y < σ.defs.size)
    (hwd : WellDefined σ.defs y) :
    ∃ v σ', Eval P y σ = some (v, σ') ∧ ∀ v', ValueOf P σ.defs y v' ↔ v' = v := by
  obtain ⟨ρ, hρ⟩ := hwd.exists_solves (P := P)
  obtain ⟨σ', h1, -⟩ := Eval_spec P h.inv.wf hy hwd (h.inv.safe Safe.none) hρ
  refine ⟨ρ y, σ', h1, fun v' => ⟨?_, ?_⟩⟩
  · rintro ⟨ρ', h2, rfl⟩; exact hwd.solves_unique h2 hρ y Reach.refl
  · rintro rfl; exact ⟨ρ, hρ, rfl⟩

/-- C01, spelled out for an Expression assigned one formula: `Eval y` is the written arithmetic at
the values of the objects it mentions. -/
theorem C01_eval_formula {σ : St K} (h : Hist P σ (fun _ => False)) {y : ℕ} {e : Exp K}
    (hy : y < σ.defs.size) (hwd : WellDefined σ.defs y) (he : IsFormula σ.defs y e) :
    ∃ ρ, (∀ p ∈ e.leaves, ValueOf P σ.defs p (ρ p)) ∧
      (∀ p ∈ e.leaves, σ.defs.items p = [] → ρ p = σ.defs.base p) ∧
      ∃ σ', Eval P y σ = some (e.val P σ.defs.par ρ, σ') := by
  obtain ⟨ρ, hρ⟩ := hwd.exists_solves (P := P)
  obtain ⟨σ', h1, -⟩ := Eval_spec P h.inv.wf hy hwd (h.inv.safe Safe.none) hρ
  refine ⟨ρ, fun p hp => ⟨ρ, hρ.mono (he.reach hp), rfl⟩,
    fun p hp hv => hρ.variable (he.reach hp) hv, σ', ?_⟩
  rw [h1, he.val Reach.refl hρ]

example : ∃ v σ', Eval Ex.P0 4 Ex.s0 = some (v, σ') ∧
    ∀ v', ValueOf Ex.P0 Ex.s0.defs 4 v' ↔ v' = v :=
  C01_eval Ex.s0_hist (by decide) Ex.s0_wd
example : (Eval Ex.P0 4 Ex.s0).map Prod.fst = some 38 := by decide +kernel

/-! ## C02 -/

/-- The full property C02 for `Eval`: after every history of assignments, definitions and queries,
`Eval` answers for the definitions in force. -/
def C02_full (P : Prim K) : Prop :=
  ∀ σ, Run P σ → ∀ y < σ.defs.size, WellDefined σ.defs y →
    ∀ v σ', Eval P y σ = some (v, σ') → ValueOf P σ.defs y v

/-- C02, proved part.  After every history in which no query is made on a root below which a never
queried Expression directly mentions an already queried one, all queries answer for the definitions
and values in force.  Missing: histories violating that condition, where the property is false
(`C02_stale`, `C02_stale_redefinition`). -/
theorem C02_current_partial {σ : St K} {U : ℕ → Prop} (h : Hist P σ U) {y : ℕ}
    (hy : y < σ.defs.size) (hwd : WellDefined σ.defs y) (hs : Safe σ.defs U y) :
    (∃ v σ', Eval P y σ = some (v, σ') ∧ ValueOf P σ.defs y v) ∧
    (∀ x < σ.defs.size, ∃ d σ', DevalF P y x σ = some (d, σ') ∧ DerivOf P σ.defs y x d) ∧
    (∃ σ', PreComp P y σ = some σ' ∧ ∀ x < σ.defs.size, x ≠ y → RevOK σ.defs y x →
      DerivOf P σ.defs y x (DevalR y x σ')) := by
  obtain ⟨ρ, hρ⟩ := hwd.exists_solves (P := P)
  have hs' := h.inv.safe hs
  refine ⟨?_, fun x hx => ?_, ?_⟩
  · obtain ⟨σ', h1, -⟩ := Eval_spec P h.inv.wf hy hwd hs' hρ
    exact ⟨_, σ', h1, ρ, hρ, rfl⟩
  · obtain ⟨δ, hδ⟩ := hwd.exists_tangent (P := P) x ρ
    obtain ⟨σ', h1, -⟩ := DevalF_spec P h.inv.wf hy hx hwd hs' hρ hδ
    exact ⟨_, σ', h1, ρ, δ, hρ, hδ, rfl⟩
  · obtain ⟨σ', h1, -⟩ := PreComp_queried P h.inv.wf hy hwd hs'
    refine ⟨σ', h1, fun x hx hxy hr => ?_⟩
    obtain ⟨δ, hδ⟩ := hwd.exists_tangent (P := P) x ρ
    obtain ⟨σ'', h2, -, h3⟩ := PreComp_spec P h.inv.wf hy hx hwd hs' hr hρ hδ
    rw [h1] at h2
    obtain rfl := Option.some.inj h2
    rw [if_neg (Ne.symm hxy)] at h3
    exact ⟨ρ, δ, hρ, hδ, h3.symm⟩

/-- C02: a Variable's new value is seen by the next query, whatever was queried before on the same
definitions: the condition of `C02_current_partial` holds when everything below the root was part of
earlier queries. -/
theorem C02_single_root {σ σ₁ : St K} {U : ℕ → Prop} (h : Hist P σ U) {x y : ℕ} {v w : K}
    (hy : y < σ.defs.size) (hwd : WellDefined σ.defs y) (hs : Safe σ.defs U y)
    (hx : x < σ.defs.size) (hxv : σ.defs.items x = []) (he : Eval P y σ = some (v, σ₁)) :
    ∃ v' σ₂, Eval P y (assignNum x w σ₁) = some (v', σ₂) ∧
      ValueOf P (assignNum x w σ₁).defs y v' ∧ (assignNum x w σ₁).defs.base x = w := by
  have h1 : Hist P σ₁ _ := h.eval y v hy hwd hs he
  have hd := Eval_defs he
  have hit : (assignNum x w σ₁).defs.items = σ.defs.items := by
    funext q
    simp only [assignNum, Function.update_apply, hd]
    split
    · next e => rw [e, hxv]
    · rfl
  have h2 : Hist P (assignNum x w σ₁) _ := h1.setVar x w (by rw [hd]; exact hx) (by rw [hd]; exact hxv)
  have hreach : ∀ q, Reach (assignNum x w σ₁).defs y q → Reach σ.defs y q := by
    intro q hq
    induction hq with
    | refl => exact .refl
    | step _ hi hp ih => exact .step ih (by rw [← hit]; exact hi) hp
  have hwd' : WellDefined (assignNum x w σ₁).defs y := by
    obtain ⟨⟨rank, a⟩, b⟩ := hwd
    exact ⟨⟨rank, fun q hq i hi => a q (hreach q hq) i (by rw [← hit]; exact hi)⟩,
      fun q hq i is hi => b q (hreach q hq) i is (by rw [← hit]; exact hi)⟩
  obtain ⟨⟨v', σ₂, h3, h4⟩, -⟩ := C02_current_partial h2 (y := y) (by simp [assignNum, hd]; exact hy)
    hwd' (Safe.all fun q hq => Or.inr (hreach q hq))
  exact ⟨v', σ₂, h3, h4, by simp [assignNum]⟩

namespace Ex

/-- `x = 2; c = x*x; w = c+1; e = 2*c; y = e+1;` (objects x=1 c=2 w=3 e=4 y=5) -/
def stale0 : St ℚ :=
  define 5 (.addC (.var 4) 1) (newExpr (define 4 (.cMul 2 (.var 2)) (newExpr
    (define 3 (.addC (.var 2) 1) (newExpr (define 2 (.mul (.var 1) (.var 1)) (newExpr
      (newVar 2 St.init).2).2)).2)).2)).2

/-- ... then `Eval(w); x = 5;` -/
def stale1 : St ℚ := match Eval P0 3 stale0 with
  | some (_, σ) => assignNum 1 5 σ
  | none => stale0

theorem stale0_hist : Hist P0 stale0 (fun _ => False) :=
  .define 5 _ (.newExpr (.define 4 _ (.newExpr (.define 3 _ (.newExpr (.define 2 _ (.newExpr
    (.newVar 2 .init)) (by decide) nofun (by decide) (by decide)))
    (by decide) nofun (by decide) (by decide))) (by decide) nofun (by decide) (by decide)))
    (by decide) nofun (by decide) (by decide)

theorem stale0_wd (y : ℕ) (hy : y < 6) : WellDefined stale0.defs y :=
  (Acyclic.of_ordered (by decide) (by decide)).wellDefined stale0_hist.inv.wf.defs.closed hy

theorem stale1_run : Run P0 stale1 := by
  obtain ⟨v, σ, h⟩ : ∃ v σ, Eval P0 3 stale0 = some (v, σ) := by
    obtain ⟨v, σ, h, -⟩ := C01_eval stale0_hist (y := 3) (by decide) (stale0_wd 3 (by decide))
    exact ⟨v, σ, h⟩
  have : stale1 = assignNum 1 5 σ := by simp [stale1, h]
  rw [this]
  have hd := Eval_defs h
  exact .setVar 1 5 (.eval 3 v stale0_hist.run (by decide) h) (by rw [hd]; decide) (by rw [hd]; rfl)

theorem stale1_defs : stale1.defs.items = stale0.defs.items ∧ stale1.defs.size = 6 := by
  obtain ⟨v, σ, h1, -⟩ := C01_eval stale0_hist (y := 3) (by decide) (stale0_wd 3 (by decide))
  have hd := Eval_defs h1
  have : stale1 = assignNum 1 5 σ := by simp [stale1, h1]
  rw [this]
  refine ⟨?_, by simp [assignNum, hd]; decide⟩
  funext q
  simp only [assignNum, Function.update_apply, hd]
  split
  · next e => subst e; rfl
  · rfl

theorem stale1_wd : WellDefined stale1.defs 5 := by
  refine Acyclic.wellDefined (Acyclic.of_ordered ?_ ?_) stale1_run.defs_wf.1.closed
    (by rw [stale1_defs.2]; decide)
  · rw [stale1_defs.1, stale1_defs.2]; decide
  · rw [stale1_defs.1, stale1_defs.2]; decide

theorem stale1_formula : IsFormula stale1.defs 5 (.addC (.var 4) 1) := by
  refine ⟨?_, by decide⟩
  rw [stale1_defs.1]; exact (define_isFormula (by decide) _).1

end Ex

/-- C02 fails: in `x = 2; c = x*x; w = c+1; e = 2*c; y = e+1; Eval(w); x = 5; Eval(y)` the last
query returns 9, the value for `x = 2`, while the definitions in force give 51. -/
theorem C02_stale : ¬ C02_full Ex.P0 := by
  intro h
  have hdefs := Ex.stale1_defs
  have hwd := Ex.stale1_wd
  have hev : (Eval Ex.P0 5 Ex.stale1).map Prod.fst = some 9 := by decide +kernel
  cases he : Eval Ex.P0 5 Ex.stale1 with
  | none => rw [he] at hev; simp at hev
  | some r =>
      obtain ⟨v, σ'⟩ := r
      rw [he] at hev
      simp only [Option.map_some, Option.some.injEq] at hev
      subst hev
      have hv := h _ Ex.stale1_run 5 (by rw [hdefs.2]; decide) hwd _ _ he
      obtain ⟨ρ, hρ, h9⟩ := hv
      have hx : Ex.stale1.defs.base 1 = 5 := by decide +kernel
      have i5 : Ex.stale1.defs.items 5 = Ex.stale0.defs.items 5 := by rw [hdefs.1]
      have f5 := Ex.stale1_formula
      have f4 : IsFormula Ex.stale1.defs 4 (.cMul 2 (.var 2)) := by
        refine ⟨?_, by decide⟩
        rw [hdefs.1]; exact (define_isFormula (y := 4) (e := .cMul 2 (.var 2)) (by decide) _).1
      have f2 : IsFormula Ex.stale1.defs 2 (.mul (.var 1) (.var 1)) := by
        refine ⟨?_, by decide⟩
        rw [hdefs.1]; exact (define_isFormula (y := 2) (e := .mul (.var 1) (.var 1)) (by decide) _).1
      have r4 := f5.reach (p := 4) (by decide)
      have r2 := r4.trans (f4.reach (p := 2) (by decide))
      have r1 := r2.trans (f2.reach (p := 1) (by decide))
      have e5 := f5.val Reach.refl hρ
      have e4 := f4.val r4 hρ
      have e2 := f2.val r2 hρ
      have e1 : ρ 1 = 5 := by
        rw [hρ.variable r1 (by rw [hdefs.1]; rfl), hx]
      simp only [Exp.val] at e5 e4 e2
      rw [e1] at e2
      rw [e2] at e4
      rw [e4, h9] at e5
      exact absurd e5 (by norm_num)

namespace Ex

/-- `x = 2; a = x*x; y = a+1;` (objects x=1 a=2 y=3), and a not yet defined `w` (4) -/
def redef0 : St ℚ :=
  (newExpr (define 3 (.addC (.var 2) 1) (newExpr (define 2 (.mul (.var 1) (.var 1)) (newExpr
      (newVar 2 St.init).2).2)).2)).2

/-- `Eval(y); w = 2*a; y = w+1; x = 5;` -/
def redef1 : St ℚ := match Eval P0 3 redef0 with
  | some (_, σ) => assignNum 1 5 (define 3 (.addC (.var 4) 1) (define 4 (.cMul 2 (.var 2)) σ))
  | none => redef0

end Ex

/-- C02 fails with a single queried root too: in
`x = 2; a = x*x; y = a+1; Eval(y); w = 2*a; y = w+1; x = 5; Eval(y)` the last query returns 9, while
the definitions in force give 51. -/
theorem C02_stale_redefinition : (Eval Ex.P0 3 Ex.redef0).map Prod.fst = some 5 ∧
    (Eval Ex.P0 3 Ex.redef1).map Prod.fst = some 9 ∧ ValueOf Ex.P0 Ex.redef1.defs 3 51 := by
  refine ⟨by decide +kernel, by decide +kernel, ?_⟩
  obtain ⟨v, σ, h1⟩ : ∃ v σ, Eval Ex.P0 3 Ex.redef0 = some (v, σ) := by
    have : (Eval Ex.P0 3 Ex.redef0).isSome = true := by decide +kernel
    cases h : Eval Ex.P0 3 Ex.redef0 with
    | none => rw [h] at this; simp at this
    | some r => exact ⟨r.1, r.2, rfl⟩
  have hd := Eval_defs h1
  have hst : Ex.redef1 = assignNum 1 5 (define 3 (.addC (.var 4) 1)
      (define 4 (.cMul 2 (.var 2)) σ)) := by simp [Ex.redef1, h1]
  have hitems : ∀ q, q ≠ 1 → Ex.redef1.defs.items q =
      (define 3 (.addC (.var 4) 1) (define 4 (.cMul 2 (.var 2)) σ)).defs.items q := by
    intro q hq; rw [hst]; simp [assignNum, hq]
  have f3 : IsFormula Ex.redef1.defs 3 (.addC (.var 4) 1) := by
    refine ⟨?_, by decide⟩
    rw [hitems 3 (by decide)]; exact (define_isFormula (by decide) _).1
  have f4 : IsFormula Ex.redef1.defs 4 (.cMul 2 (.var 2)) := by
    refine ⟨?_, by decide⟩
    rw [hitems 4 (by decide), define_items_ne (by decide)]
    exact (define_isFormula (y := 4) (e := .cMul 2 (.var 2)) (by decide) _).1
  have f2 : IsFormula Ex.redef1.defs 2 (.mul (.var 1) (.var 1)) := by
    refine ⟨?_, by decide⟩
    rw [hitems 2 (by decide), define_items_ne (by decide), define_items_ne (by decide), hd]
    exact (define_isFormula (y := 2) (e := .mul (.var 1) (.var 1)) (by decide) _).1
  have i1 : Ex.redef1.defs.items 1 = [] := by rw [hst]; simp [assignNum]
  have b1 : Ex.redef1.defs.base 1 = 5 := by rw [hst]; simp [assignNum]
  have hwd : WellDefined Ex.redef1.defs 3 := by
    have key : ∀ q, Reach Ex.redef1.defs 3 q → q = 3 ∨ q = 4 ∨ q = 2 ∨ q = 1 := by
      intro q hq
      induction hq with
      | refl => simp
      | step _ hi hp ih =>
          rcases ih with rfl | rfl | rfl | rfl
          · obtain ⟨⟨n, hn⟩, -⟩ := f3
            rw [hn, List.mem_singleton] at hi
            rw [hi, stored_leaves] at hp
            simp [Exp.leaves] at hp; simp [hp]
          · obtain ⟨⟨n, hn⟩, -⟩ := f4
            rw [hn, List.mem_singleton] at hi
            rw [hi, stored_leaves] at hp
            simp [Exp.leaves] at hp; simp [hp]
          · obtain ⟨⟨n, hn⟩, -⟩ := f2
            rw [hn, List.mem_singleton] at hi
            rw [hi, stored_leaves] at hp
            simp [Exp.leaves] at hp; simp [hp]
          · rw [i1] at hi; simp at hi
    refine ⟨⟨fun q => if q = 3 then 3 else if q = 4 then 2 else if q = 2 then 1 else 0, ?_⟩, ?_⟩
    · intro q hq i hi p hp
      rcases key q hq with rfl | rfl | rfl | rfl
      · obtain ⟨⟨n, hn⟩, -⟩ := f3
        rw [hn, List.mem_singleton] at hi
        rw [hi, stored_leaves] at hp
        simp [Exp.leaves] at hp; subst hp; right; decide
      · obtain ⟨⟨n, hn⟩, -⟩ := f4
        rw [hn, List.mem_singleton] at hi
        rw [hi, stored_leaves] at hp
        simp [Exp.leaves] at hp; subst hp; right; decide
      · obtain ⟨⟨n, hn⟩, -⟩ := f2
        rw [hn, List.mem_singleton] at hi
        rw [hi, stored_leaves] at hp
        simp [Exp.leaves] at hp; subst hp; right; decide
      · rw [i1] at hi; simp at hi
    · intro q hq i is hi
      rcases key q hq with rfl | rfl | rfl | rfl
      · obtain ⟨⟨n, hn⟩, h⟩ := f3
        rw [hn] at hi; rw [← (List.cons.inj hi).1, stored_leaves]; exact h
      · obtain ⟨⟨n, hn⟩, h⟩ := f4
        rw [hn] at hi; rw [← (List.cons.inj hi).1, stored_leaves]; exact h
      · obtain ⟨⟨n, hn⟩, h⟩ := f2
        rw [hn] at hi; rw [← (List.cons.inj hi).1, stored_leaves]; exact h
      · rw [i1] at hi; simp at hi
  obtain ⟨ρ, hρ⟩ := hwd.exists_solves (P := Ex.P0)
  refine ⟨ρ, hρ, ?_⟩
  have r4 := f3.reach (p := 4) (by decide)
  have r2 := r4.trans (f4.reach (p := 2) (by decide))
  have r1 := r2.trans (f2.reach (p := 1) (by decide))
  have e3 := f3.val Reach.refl hρ
  have e4 := f4.val r4 hρ
  have e2 := f2.val r2 hρ
  have e1 : ρ 1 = 5 := by rw [hρ.variable r1 i1, b1]
  simp only [Exp.val] at e3 e4 e2
  rw [e3, e4, e2, e1]; norm_num

end CoolDiff
