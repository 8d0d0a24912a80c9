import Verif.Scalar.ExactRev
import Verif.Props.Exact
import Verif.Props.Reverse
import Verif.Props.Meaning

/-!
# C02, C04, C13, C18 for reverse mode, after any history

`C02_exact_preComp` says which values `PreComp` stores after any history.  Here: which derivatives.
-/

set_option linter.unusedSectionVars false

namespace CoolDiff

variable {K : Type} [Field K] [DecidableEq K] {P : Prim K}

/-! ## Exact answers -/

/-- C02.  Reverse mode after any history: for every Variable `x`, `PreComp y` followed by `DevalR y x` answers the
derivative by the rules of calculus, with the stored values and the stored reverse derivatives of the results it relies on
(`σ.kept y`) taken as given; the same number is stored for everything else it looked at.  Condition: no cache relied on
has an entry for an operator traversed above it (`CleanKept`); `C02_reversed_dependence` shows it cannot be dropped. -/
theorem C02_exact_devalR {σ : St K} (h : Run P σ) {y x : ℕ} (hy : y < σ.defs.size) (hx : IsVar σ.defs x)
    (hxy : x ≠ y) (hwd : WellDefinedKept σ.defs (σ.kept y) y)
    (hc : CleanKept σ.defs (σ.kept y) σ.mem.cache y) :
    ∃ ρ δ σ', PreComp P y σ = some σ' ∧ DevalR y x σ' = δ y ∧ Stored y ρ σ σ' ∧ DKept y σ σ' ∧
      (∀ q, σ.looks y q → q ≠ x → DevalR q x σ' = δ q) ∧
      (∀ q, ¬ σ.looks y q → σ'.mem.cache q = σ.mem.cache q) ∧
      SolvesKept P σ.defs (σ.kept y) σ.mem.value y ρ ∧
      TangentKept P σ.defs (σ.kept y) (fun q => DevalR q x σ) y x ρ δ := by
  obtain ⟨hxs, hx0, hxi⟩ := hx
  obtain ⟨ρ, hρ⟩ := hwd.exists_solves P σ.mem.value
  obtain ⟨δ, hδ⟩ := hwd.exists_tangent P x (fun q => DevalR q x σ) ρ
  obtain ⟨σ', e, st, dk, hout, hin⟩ := PreComp_exact_rev P h.wf hy hxs hxi
    (fun q hq => h.bare q (Reach.lt h.defs_wf.1.closed hy (Uses.reach hq)) x hxs hx0 hxi) hwd hc hρ hδ
  have hall : ∀ q, σ.looks y q → q ≠ x → DevalR q x σ' = δ q := fun q hq hqx => by
    unfold DevalR; rw [st.defs]; exact hin q hq hqx
  exact ⟨ρ, δ, σ', e, hall y .refl (Ne.symm hxy), st, dk, hall, hout, hρ, hδ⟩

/-- C02.  The condition of `C02_exact_devalR` holds after every history -- any definitions, redefinitions, assignments and
queries of any kind in any order -- in which no dependence was reversed: for some ranking, Expressions were only ever
defined through lower ones (or their own previous value). -/
theorem C02_exact_devalR_ordered {rank : ℕ → ℕ} {σ : St K} (h : Ordered P rank σ) {y x : ℕ} (hy : y < σ.defs.size)
    (hx : IsVar σ.defs x) (hxy : x ≠ y) :
    ∃ ρ δ σ', PreComp P y σ = some σ' ∧ DevalR y x σ' = δ y ∧ Stored y ρ σ σ' ∧ DKept y σ σ' ∧
      (∀ q, σ.looks y q → q ≠ x → DevalR q x σ' = δ q) ∧
      (∀ q, ¬ σ.looks y q → σ'.mem.cache q = σ.mem.cache q) ∧
      SolvesKept P σ.defs (σ.kept y) σ.mem.value y ρ ∧
      TangentKept P σ.defs (σ.kept y) (fun q => DevalR q x σ) y x ρ δ :=
  C02_exact_devalR h.run hy hx hxy ((h.rankCache.1.wdKept h.run hy).wdKept _) (h.clean hy)

/-- C02.  A wrong reverse derivative always comes from a stored result: after any ordered history, if `DevalR y x` after
`PreComp y` is not the derivative in force, then some Expression strictly below `y` held a stored value or a stored
reverse derivative, not reached by the reset, that is not the one in force. -/
theorem C02_wrong_only_from_stale_devalR {rank : ℕ → ℕ} {σ σ' : St K} (h : Ordered P rank σ) {y x : ℕ}
    (hy : y < σ.defs.size) (hx : IsVar σ.defs x) (hxy : x ≠ y) (he : PreComp P y σ = some σ')
    (hv : ¬ DerivOf P σ.defs y x (DevalR y x σ')) :
    ∃ q, Reach σ.defs y q ∧ q ≠ y ∧ σ.defs.items q ≠ [] ∧ σ.mem.visited q = true ∧ σ.looks y q ∧
      ¬ σ.resets y q ∧ (¬ ValueOf P σ.defs q (σ.mem.value q) ∨ ¬ DerivOf P σ.defs q x (DevalR q x σ)) := by
  by_contra hn
  have hrun := h.run
  have hw := hrun.wf
  have hwd := h.rankCache.1.wdKept hrun hy
  obtain ⟨hxs, hx0, hxi⟩ := id hx
  obtain ⟨ρ, hρ⟩ := hwd.exists_solves (P := P)
  obtain ⟨δ, hδ⟩ := hwd.exists_tangent (P := P) x ρ
  have hgood : ∀ q, σ.looks y q → σ.kept y q → σ.defs.items q ≠ [] →
      ValueOf P σ.defs q (σ.mem.value q) ∧ DerivOf P σ.defs q x (DevalR q x σ) := by
    intro q hq hk hi
    by_contra hne
    refine hn ⟨q, Uses.reach hq, hk.2.1, hi, hk.1, hq, hk.2.2, ?_⟩
    by_contra hne'
    push Not at hne'
    exact hne hne'
  have hk : SolvesKept P σ.defs (σ.kept y) σ.mem.value y ρ := by
    refine hρ.ofKept P fun q hq hk => ?_
    have hr := Uses.reach hq
    have hwq := hwd.of_reach hr
    by_cases hi : σ.defs.items q = []
    · exact ValueOf.eq hwq (ValueOf.plain (P := P) hw (Reach.lt hw.defs.closed hy hr) hi) (hρ.of_reach hr)
    · exact ValueOf.eq hwq (hgood q hq hk hi).1 (hρ.of_reach hr)
  have ht : TangentKept P σ.defs (σ.kept y) (fun q => DevalR q x σ) y x ρ δ := by
    refine hδ.ofKept P fun q hq hk hqx => ?_
    have hr := Uses.reach hq
    have hwq := hwd.of_reach hr
    by_cases hi : σ.defs.items q = []
    · have h0 : DevalR q x σ = 0 := by
        unfold DevalR; rw [(hw.plain q (Reach.lt hw.defs.closed hy hr) hi).2.2]
      rw [h0]
      exact DerivOf.eq hwq (DerivOf.plain (P := P) hi hqx) (hρ.of_reach hr) (hδ.of_reach hr)
    · exact DerivOf.eq hwq (hgood q hq hk hi).2 (hρ.of_reach hr) (hδ.of_reach hr)
  obtain ⟨σ₂, e, -, -, -, hin⟩ := PreComp_exact_rev P hw hy hxs hxi
    (fun q hq => hrun.bare q (Reach.lt hw.defs.closed hy (Uses.reach hq)) x hxs hx0 hxi) (hwd.wdKept _)
    (h.clean hy) hk ht
  rw [he] at e
  simp only [Option.some.injEq] at e
  subst e
  refine hv ⟨ρ, δ, hρ, hδ, ?_⟩
  unfold DevalR
  rw [PreComp_defs he]
  exact (hin y .refl (Ne.symm hxy)).symm

/-- C04 after any ordered history: forward and reverse mode give the same number whenever the stored derivatives they
rely on are the same, however stale. -/
theorem C04_any_history {rank : ℕ → ℕ} {σ : St K} (h : Ordered P rank σ) {y x : ℕ} (hy : y < σ.defs.size)
    (hx : IsVar σ.defs x) (hxy : x ≠ y)
    (hs : ∀ q, σ.looks y q → σ.kept y q → q ≠ x → σ.mem.dvalue q = DevalR q x σ) :
    ∃ d σ₁ σ₂, DevalF P y x σ = some (d, σ₁) ∧ PreComp P y σ = some σ₂ ∧ DevalR y x σ₂ = d := by
  have hrun := h.run
  have hwd := (h.rankCache.1.wdKept hrun hy).wdKept (σ.kept y)
  obtain ⟨ρ, δ, σ₂, e, hd, -, -, -, -, hρ, hδ⟩ := C02_exact_devalR_ordered h hy hx hxy
  have hδ' : TangentKept P σ.defs (σ.kept y) σ.mem.dvalue y x ρ δ := fun q hq =>
    ⟨(hδ q hq).1, fun hqx hk => by rw [hs q hq hk hqx]; exact (hδ q hq).2.1 hqx hk, (hδ q hq).2.2⟩
  obtain ⟨σ₁, e₁, -⟩ := DevalF_exact P hrun.wf hy hx.1 hwd hρ hδ'
  exact ⟨_, σ₁, σ₂, e₁, e, hd⟩

/-! ## The written formula -/

/-- C13, C18.  After every ordered history, whatever is stale: `PreComp y` and `DevalR y x` answer the derivative of the
formula `y` is defined by, by the rules of calculus, applied to the values its operands hold after the query and to what
`DevalR` then answers for them; a Variable holds its number. -/
theorem formula_any_history_devalR {rank : ℕ → ℕ} {σ : St K} (h : Ordered P rank σ) {y x : ℕ} {e : Exp K}
    (hy : y < σ.defs.size) (hx : IsVar σ.defs x) (hxy : x ≠ y) (he : IsFormula σ.defs y e) :
    ∃ σ', PreComp P y σ = some σ' ∧
      DevalR y x σ' = e.der P σ.defs.par σ'.mem.value (fun p => if p = x then 1 else DevalR p x σ') ∧
      ∀ p ∈ e.leaves, σ.defs.items p = [] → σ'.mem.value p = σ.defs.base p ∧ DevalR p x σ' = 0 := by
  have hrun := h.run
  have hw := hrun.wf
  have hny : ¬ σ.kept y y := fun h => h.2.1 rfl
  obtain ⟨⟨n, hn⟩, hye⟩ := he
  have hlook : ∀ p ∈ e.leaves, σ.looks y p := fun p hp =>
    Uses.step .refl hny (i := stored e n) (by rw [hn]; simp) (by rw [stored_leaves]; exact hp)
  have hne : ∀ p ∈ e.leaves, p ≠ y := by rintro p hp rfl; exact hye hp
  have hlt : ∀ p ∈ e.leaves, p < σ.defs.size := fun p hp => Reach.lt hw.defs.closed hy (Uses.reach (hlook p hp))
  obtain ⟨ρ, δ, σ', he, hd, st, -, hall, -, hρ, hδ⟩ := C02_exact_devalR_ordered h hy hx hxy
  have hw' := PreComp_wf hw he
  refine ⟨σ', he, ?_, fun p hp hi => ?_⟩
  · rw [hd, (hδ y .refl).2.2 (Ne.symm hxy) hny, hn]
    simp only [seqDer, stored_der]
    apply Exp.der_congr <;> intro p hp
    · rw [Function.update_of_ne (hne p hp), st.val p (hlook p hp)]
    · rw [Function.update_of_ne (hne p hp)]
      split
      · next hpx => exact (hδ p (hlook p hp)).1 hpx
      · next hpx => rw [hall p (hlook p hp) hpx]
  · have := hw'.plain p (by rw [st.defs]; exact hlt p hp) (by rw [st.defs]; exact hi)
    rw [st.defs] at this
    exact ⟨this.1, by unfold DevalR; rw [this.2.2]⟩

/-- C13, reverse mode, after every ordered history. -/
theorem C13_any_history_devalR {rank : ℕ → ℕ} {σ : St K} (h : Ordered P rank σ) {y x : ℕ} {u : Exp K} (s : Sugar)
    (c : K) (hy : y < σ.defs.size) (hx : IsVar σ.defs x) (hxy : x ≠ y) (he : IsFormula σ.defs y (s.exp c u)) :
    ∃ σ', PreComp P y σ = some σ' ∧ DevalR y x σ' = s.der P c (u.val P σ.defs.par σ'.mem.value)
      (u.der P σ.defs.par σ'.mem.value (fun p => if p = x then 1 else DevalR p x σ')) := by
  obtain ⟨σ', h1, h2, -⟩ := formula_any_history_devalR h hy hx hxy he
  refine ⟨σ', h1, ?_⟩
  cases s <;> exact h2

/-- C18, reverse mode, after every ordered history. -/
theorem C18_any_history_devalR {rank : ℕ → ℕ} {σ : St K} (h : Ordered P rank σ) {y x : ℕ} {u v : Exp K}
    (f fu fv : K → K → K) (hy : y < σ.defs.size) (hx : IsVar σ.defs x) (hxy : x ≠ y)
    (he : IsFormula σ.defs y (.bin f fu fv u v)) :
    ∃ σ' U V, PreComp P y σ = some σ' ∧ U = u.val P σ.defs.par σ'.mem.value ∧ V = v.val P σ.defs.par σ'.mem.value ∧
      DevalR y x σ' =
        fu U V * u.der P σ.defs.par σ'.mem.value (fun p => if p = x then 1 else DevalR p x σ') +
        fv U V * v.der P σ.defs.par σ'.mem.value (fun p => if p = x then 1 else DevalR p x σ') := by
  obtain ⟨σ', h1, h2, -⟩ := formula_any_history_devalR h hy hx hxy he
  exact ⟨σ', _, _, h1, rfl, rfl, h2⟩

/-! ## Examples -/

namespace Ex

/-- `x = 2; c = x*x; w = c+1; e = 2*c; y = e+1; PreComp(w); x = 5;`: the cache of `c` is stale. -/
def staleR : St ℚ := match PreComp P0 3 stale0 with
  | some σ => assignNum 1 5 σ
  | none => stale0

theorem stale0_ordered : Ordered P0 id stale0 := by
  refine .call (.call (.call (.call (.call (.call (.call (.call (.call .init (.newVar 2) ?_) .newExpr ?_)
    (.define 2 _ (by decide) nofun (by decide) (by decide)) ?_) .newExpr ?_)
    (.define 3 _ (by decide) nofun (by decide) (by decide)) ?_) .newExpr ?_)
    (.define 4 _ (by decide) nofun (by decide) (by decide)) ?_) .newExpr ?_)
    (.define 5 _ (by decide) nofun (by decide) (by decide)) ?_ <;> unfold OrdDefs <;> decide

theorem staleR_ordered : Ordered P0 id staleR ∧ staleR.defs.items = stale0.defs.items ∧ staleR.defs.size = 6 := by
  obtain ⟨ρ, σ, h, -⟩ := C02_exact_preComp stale0_hist.run (y := 3) (by decide) ((stale0_wd 3 (by decide)).wdKept _)
  have hs : staleR = assignNum 1 5 σ := by simp [staleR, h]
  have hd := PreComp_defs h
  have hi : (assignNum 1 5 σ).defs.items = stale0.defs.items := by
    funext q
    simp only [assignNum, Function.update_apply, hd]
    split
    · next e => subst e; rfl
    · rfl
  have ho := stale0_ordered.rankCache.1
  rw [hs]
  refine ⟨.call (.call stale0_ordered (.preComp 3 (by decide) h) (by rw [hd]; exact ho))
    (.setVar 1 5 (by rw [hd]; decide) (by rw [hd]; rfl)) ?_, hi, by simp [assignNum, hd]; decide⟩
  unfold OrdDefs
  rw [hi]
  have : (assignNum 1 5 σ).defs.size = stale0.defs.size := by simp [assignNum, hd]
  rw [this]
  exact ho

theorem staleR_var : IsVar staleR.defs 1 :=
  ⟨by rw [staleR_ordered.2.2]; decide, by decide, by rw [staleR_ordered.2.1]; rfl⟩

/-- The derivative `y = e + 1` gets is the one `e` has (`8`, for `x = 2`); in force is `20`. -/
example : ∃ σ', PreComp P0 5 staleR = some σ' ∧ DevalR 5 1 σ' = DevalR 4 1 σ' := by
  obtain ⟨σ', h1, h2, -⟩ := formula_any_history_devalR staleR_ordered.1 (y := 5) (e := .addC (.var 4) 1)
    (by rw [staleR_ordered.2.2]; decide) staleR_var (by decide)
    ⟨by rw [staleR_ordered.2.1]; exact (define_isFormula (by decide) _).1, by decide⟩
  exact ⟨σ', h1, by simpa [Exp.der] using h2⟩

example : (PreComp P0 5 staleR).map (DevalR 5 1) = some 8 := by decide +kernel

/-- `x = 3; p = x*x; o = (p*p)*(p*x); r = o*o; PreComp(r); r = x*2; q = r*1; p = q*x;` (objects x=1 p=2 o=3 r=4 q=5):
`o`, first below `r`, is now above it. -/
def rev0 : St ℚ :=
  define 4 (.mul (.var 3) (.var 3)) (define 3 (.mul (.mul (.var 2) (.var 2)) (.mul (.var 2) (.var 1)))
    (define 2 (.mul (.var 1) (.var 1)) (newExpr (newExpr (newExpr (newExpr (newVar 3 St.init).2).2).2).2).2))

def rev1 : St ℚ := match PreComp P0 4 rev0 with
  | some σ => define 2 (.mul (.var 5) (.var 1)) (define 5 (.mulC (.var 4) 1) (define 4 (.mulC (.var 1) 2) σ))
  | none => rev0

end Ex

/-- Without the condition on the caches, reverse mode answers something that is not even the derivative of the written
formula at the stored results: after `PreComp(r)` with `r` above `o`, and a redefinition that puts `r` below `o`,
`PreComp(o)` merges the entries that the cache of `r` still has for the operators of `o` into the derivatives of the
operands of `o`.  The number answered is not the one the product rule gives for `o = (p*p)*(p*x)` from the values and
derivatives `p` holds after the query. -/
theorem C02_reversed_dependence :
    (PreComp Ex.P0 3 Ex.rev1).map (fun σ => decide (DevalR 3 1 σ =
      (Exp.mul (.mul (.var 2) (.var 2)) (.mul (.var 2) (.var 1)) : Exp ℚ).der Ex.P0 σ.defs.par σ.mem.value
        (fun p => if p = 1 then 1 else DevalR p 1 σ))) = some false ∧
    (PreComp Ex.P0 3 Ex.rev1).map (DevalR 3 1) = some 301448372522144170773332773674 := by
  constructor <;> decide +kernel

end CoolDiff
