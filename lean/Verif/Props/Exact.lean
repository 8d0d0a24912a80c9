import Verif.Scalar.Changes
import Verif.Props.Queries

/-!
# C02: exactly what a query computes, and when the answer is right

`C02_current_partial` restricts the queries of a history to those that rely on no stored result.  Here the
answer of a query is described after *every* history (`Run`, no condition on the earlier queries): which stored
results it throws away, which it relies on, what it computes from them, what it stores.
Right answers follow whenever the results relied on are current (`Cur`), and the calls that keep results current
are listed.
-/

set_option linter.unusedSectionVars false

namespace CoolDiff

variable {K : Type} [Field K] [DecidableEq K] {P : Prim K}

/-! ## Exact answers -/

/-- C02.  `Eval y` after any history.  It relies on the stored results that the reset at its beginning does not
reach (`σ.kept y`); with those taken as given, the definitions it goes through (`σ.looks y`) have exactly one
solution, and that is what it answers and stores.  Circular definitions below a result it relies on do not
matter. -/
theorem C02_exact_eval {σ : St K} (h : Run P σ) {y : ℕ} (hy : y < σ.defs.size)
    (hwd : WellDefinedKept σ.defs (σ.kept y) y) :
    ∃ ρ σ', Eval P y σ = some (ρ y, σ') ∧ Stored y ρ σ σ' ∧ DKept y σ σ' ∧ CKept y σ σ' ∧
      SolvesKept P σ.defs (σ.kept y) σ.mem.value y ρ ∧
      ∀ ρ', SolvesKept P σ.defs (σ.kept y) σ.mem.value y ρ' → ∀ q, σ.looks y q → ρ' q = ρ q := by
  obtain ⟨ρ, hρ⟩ := hwd.exists_solves P σ.mem.value
  obtain ⟨σ', e, a, b, c⟩ := Eval_exact P h.wf hy hwd hρ
  exact ⟨ρ, σ', e, a, b, c, hρ, fun ρ' h' => hwd.solves_unique P h' hρ⟩

/-- C02.  `DevalF y x` after any history. -/
theorem C02_exact_devalF {σ : St K} (h : Run P σ) {y x : ℕ} (hy : y < σ.defs.size) (hx : x < σ.defs.size)
    (hwd : WellDefinedKept σ.defs (σ.kept y) y) :
    ∃ ρ δ σ', DevalF P y x σ = some (δ y, σ') ∧ Stored y ρ σ σ' ∧ CKept y σ σ' ∧
      (∀ q, σ.looks y q → q ≠ x → σ'.mem.dvalue q = δ q) ∧
      (∀ q, ¬ σ.looks y q → σ'.mem.dvalue q = σ.mem.dvalue q) ∧
      SolvesKept P σ.defs (σ.kept y) σ.mem.value y ρ ∧
      TangentKept P σ.defs (σ.kept y) σ.mem.dvalue y x ρ δ := by
  obtain ⟨ρ, hρ⟩ := hwd.exists_solves P σ.mem.value
  obtain ⟨δ, hδ⟩ := hwd.exists_tangent P x σ.mem.dvalue ρ
  obtain ⟨σ', e, a, b, c, d⟩ := DevalF_exact P h.wf hy hx hwd hρ hδ
  exact ⟨ρ, δ, σ', e, a, b, c, d, hρ, hδ⟩

/-- C02.  `PreComp y` after any history: values, forward derivatives, and reverse derivatives of what it does not
look at. -/
theorem C02_exact_preComp {σ : St K} (h : Run P σ) {y : ℕ} (hy : y < σ.defs.size)
    (hwd : WellDefinedKept σ.defs (σ.kept y) y) :
    ∃ ρ σ', PreComp P y σ = some σ' ∧ Stored y ρ σ σ' ∧ DKept y σ σ' ∧
      SolvesKept P σ.defs (σ.kept y) σ.mem.value y ρ ∧
      ∀ q, ¬ σ.looks y q → σ'.mem.cache q = σ.mem.cache q := by
  obtain ⟨ρ, hρ⟩ := hwd.exists_solves P σ.mem.value
  obtain ⟨σ', e, a, b, c⟩ := PreComp_exact P h.wf hy hwd hρ
  exact ⟨ρ, σ', e, a, b, hρ, c⟩

/-- C02.  A wrong value always comes from a stored result: after any history, if `Eval y` does not answer the
value in force, then some Expression strictly below `y` held a stored value, not reached by the reset, that is
not its value in force. -/
theorem C02_wrong_only_from_stale {σ σ' : St K} (h : Run P σ) {y : ℕ} (hy : y < σ.defs.size)
    (hwd : WellDefined σ.defs y) {v : K} (he : Eval P y σ = some (v, σ')) (hv : ¬ ValueOf P σ.defs y v) :
    ∃ q, Reach σ.defs y q ∧ q ≠ y ∧ σ.defs.items q ≠ [] ∧ σ.mem.visited q = true ∧ σ.looks y q ∧
      ¬ σ.resets y q ∧ ¬ ValueOf P σ.defs q (σ.mem.value q) := by
  by_contra hn
  obtain ⟨ρ, hρ⟩ := hwd.exists_solves (P := P)
  have hk : SolvesKept P σ.defs (σ.kept y) σ.mem.value y ρ := by
    refine hρ.ofKept P fun q hq hk => ?_
    have hr := Uses.reach hq
    have hwq := hwd.of_reach hr
    by_cases hi : σ.defs.items q = []
    · exact ValueOf.eq hwq (ValueOf.plain (P := P) h.wf (Reach.lt h.wf.defs.closed hy hr) hi) (hρ.of_reach hr)
    · by_contra hne
      exact hn ⟨q, hr, hk.2.1, hi, hk.1, hq, hk.2.2, fun hval => hne (ValueOf.eq hwq hval (hρ.of_reach hr))⟩
  obtain ⟨σ₂, e, -⟩ := Eval_exact P h.wf hy (hwd.wdKept _) hk
  rw [he] at e
  simp only [Option.some.injEq, Prod.mk.injEq] at e
  exact hv ⟨ρ, hρ, e.1.symm⟩

/-! ## When the answer is right -/

/-- C02.  After any history, `Eval y` answers the value in force if the stored values it may come across are
current; afterwards those of `y` and everything below are. -/
theorem C02_fine_eval {σ : St K} (h : Run P σ) {y : ℕ} (hy : y < σ.defs.size) (hwd : WellDefined σ.defs y)
    (hs : Fine (GoodV P) σ y) :
    ∃ v σ', Eval P y σ = some (v, σ') ∧ ValueOf P σ.defs y v ∧ Cur (GoodV P) σ' y := by
  obtain ⟨ρ, hρ⟩ := hwd.exists_solves (P := P)
  obtain ⟨σ', e, -, -, c⟩ := hs.eval h.wf hy hwd hρ
  exact ⟨_, σ', e, ⟨ρ, hρ, rfl⟩, c⟩

/-- C02, forward derivatives. -/
theorem C02_fine_devalF {σ : St K} (h : Run P σ) {y x : ℕ} (hy : y < σ.defs.size) (hx : x < σ.defs.size)
    (hwd : WellDefined σ.defs y) (hs : Fine (GoodF P x) σ y) :
    ∃ d σ', DevalF P y x σ = some (d, σ') ∧ DerivOf P σ.defs y x d ∧ Cur (GoodF P x) σ' y := by
  obtain ⟨ρ, hρ⟩ := hwd.exists_solves (P := P)
  obtain ⟨δ, hδ⟩ := hwd.exists_tangent (P := P) x ρ
  obtain ⟨σ', e, -, -, c⟩ := hs.devalF h.wf hy hx hwd hρ hδ
  exact ⟨_, σ', e, ⟨ρ, δ, hρ, hδ, rfl⟩, c⟩

/-- What `Cur (GoodR P)` means for `DevalR`. -/
theorem Cur.devalR {σ : St K} (hw : σ.WF) {q : ℕ} (hq : q < σ.defs.size) (hi : σ.defs.items q ≠ [])
    (h : Cur (GoodR P) σ q) {x : ℕ} (hx : x < σ.defs.size) (hrev : RevOK σ.defs q x) (hqx : q ≠ x) :
    DerivOf P σ.defs q x (DevalR q x σ) := by
  have hlt : ∀ p ∈ {p | Reach σ.defs q p}, p < σ.defs.size := fun p hp => Reach.lt hw.defs.closed hq hp
  have hkey : KeyHyp σ.defs {p | Reach σ.defs q p} x (σ.defs.nidx x) := by
    refine ⟨fun p hp => ⟨fun h => hw.defs.inj p (hlt p hp) x hx h, fun h => by rw [h]⟩,
      fun p hp i hi => hw.defs.leaf x hx p (hlt p hp) i hi, ?_, hrev.2, fun _ => hrev.1⟩
    rintro p ⟨r, hr, i, hi, hp⟩
    exact hw.defs.parleaf p (hw.defs.parsOK r (hlt r hr) i hi p hp) x hx
  exact ((h q .refl hi).2.2.1 x _ hkey).1 hqx

/-- C02, reverse derivatives: after `PreComp y`, `DevalR` answers for `y` and everything below it, and keeps
answering for what was current before. -/
theorem C02_fine_preComp {σ : St K} (h : Run P σ) {y : ℕ} (hy : y < σ.defs.size) (hwd : WellDefined σ.defs y)
    (hs : Fine (GoodR P) σ y) :
    ∃ σ', PreComp P y σ = some σ' ∧ Cur (GoodR P) σ' y ∧ (∀ q, Cur (GoodR P) σ q → Cur (GoodR P) σ' q) ∧
      ∀ q, (Reach σ.defs y q ∨ Cur (GoodR P) σ q) → q < σ.defs.size → σ.defs.items q ≠ [] →
        ∀ x < σ.defs.size, x ≠ q → RevOK σ.defs q x → DerivOf P σ.defs q x (DevalR q x σ') := by
  obtain ⟨ρ, σ', e, hw', st, c, k⟩ := hs.preComp h.wf hy hwd
  have hd := st.defs
  refine ⟨σ', e, c, k, fun q hq hlt hi x hx hxq hrev => ?_⟩
  have hc : Cur (GoodR P) σ' q := hq.elim (fun hr => c.down (by rw [hd]; exact hr)) (k q)
  have := hc.devalR hw' (by rw [hd]; exact hlt) (by rw [hd]; exact hi) (x := x) (by rw [hd]; exact hx)
    (by rw [hd]; exact hrev) (Ne.symm hxq)
  rwa [hd] at this

/-! ## What keeps results current -/

/-- One API call that does not change anything `q` depends on.  Queries of any kind, on any root whose
definitions are not circular, are allowed; whether *they* are answered correctly does not matter. -/
inductive Undisturbed (P : Prim K) (q : ℕ) : St K → St K → Prop
  | newVar {σ} (v : K) : Undisturbed P q σ (newVar v σ).2
  | newPar {σ} (v : K) : Undisturbed P q σ (newPar v σ).2
  | newExpr {σ} : Undisturbed P q σ (newExpr σ).2
  | setVar {σ} (x : ℕ) (v : K) : x < σ.defs.size → σ.defs.items x = [] → ¬ Reach σ.defs q x →
      Undisturbed P q σ (assignNum x v σ)
  | setPar {σ} (p : ℕ) (v : K) : p < σ.defs.psize → ¬ ParIn σ.defs {r | Reach σ.defs q r} p →
      Undisturbed P q σ (assignPar p v σ)
  | define {σ} (y : ℕ) (e : Exp K) : y < σ.defs.size → σ.defs.items y ≠ [] →
      (∀ p ∈ e.leaves, p < σ.defs.size) → (∀ p ∈ e.pars, p < σ.defs.psize) → ¬ Reach σ.defs q y →
      Undisturbed P q σ (define y e σ)
  | defineRef {σ} (y z : ℕ) : y < σ.defs.size → σ.defs.items y ≠ [] →
      z < σ.defs.size → σ.defs.items z ≠ [] → ¬ Reach σ.defs q y → Undisturbed P q σ (assignRef y z σ)
  | eval {σ σ'} (y : ℕ) (v : K) : y < σ.defs.size → WellDefined σ.defs y → Eval P y σ = some (v, σ') →
      Undisturbed P q σ σ'
  | devalF {σ σ'} (y x : ℕ) (v : K) : y < σ.defs.size → x < σ.defs.size → WellDefined σ.defs y →
      DevalF P y x σ = some (v, σ') → Undisturbed P q σ σ'
  | preComp {σ σ'} (y : ℕ) : y < σ.defs.size → WellDefined σ.defs y → PreComp P y σ = some σ' →
      Undisturbed P q σ σ'

theorem Undisturbed.run {q : ℕ} {σ σ' : St K} (h : Undisturbed P q σ σ') (hr : Run P σ) : Run P σ' := by
  cases h with
  | newVar v => exact .newVar v hr
  | newPar v => exact .newPar v hr
  | newExpr => exact .newExpr hr
  | setVar x v a b _ => exact .setVar x v hr a b
  | setPar p v a _ => exact .setPar p v hr a
  | define y e a b c d _ => exact .define y e hr a b c d
  | defineRef y z a b c d _ => exact .defineRef y z hr a b c d
  | eval y v a _ c => exact .eval y v hr a c
  | devalF y x v a b _ c => exact .devalF y x v hr a b c
  | preComp y a _ c => exact .preComp y hr a c

/-- C02.  Current values stay current under every call that does not change anything they depend on – whatever
else is queried, redefined or assigned in between. -/
theorem C02_values_stay {q : ℕ} {σ σ' : St K} (h : Undisturbed P q σ σ') (hr : Run P σ) (hq : q < σ.defs.size)
    (hc : Cur (GoodV P) σ q) : Cur (GoodV P) σ' q ∧ q < σ'.defs.size := by
  have hw := hr.wf
  cases h with
  | newVar v => exact ⟨hc.newVar goodV_local hw hq v, by simp [CoolDiff.newVar]; omega⟩
  | newPar v => exact ⟨hc.newPar goodV_local hw hq v, hq⟩
  | newExpr => exact ⟨hc.newExpr goodV_local hw hq, by simp [CoolDiff.newExpr]; omega⟩
  | setVar x v _ _ hx => exact ⟨hc.assignNum goodV_local hx v, hq⟩
  | setPar p v _ hx => exact ⟨hc.assignPar goodV_local hx v, hq⟩
  | define y e _ _ _ _ hx => exact ⟨hc.define goodV_local hx e, hq⟩
  | defineRef y z _ _ _ _ hx => exact ⟨hc.assignRef goodV_local hx z, hq⟩
  | eval y v hy hwd he =>
      have hk := hwd.wdKept (σ.kept y)
      obtain ⟨ρ, hρ⟩ := hk.exists_solves P σ.mem.value
      obtain ⟨σ₂, e, st, -⟩ := Eval_exact P hw hy hk hρ
      rw [he] at e
      simp only [Option.some.injEq, Prod.mk.injEq] at e
      rw [e.2]
      exact ⟨hc.keepV hw hy hwd hρ st, by rw [st.defs]; exact hq⟩
  | devalF y x v hy hx hwd he =>
      have hk := hwd.wdKept (σ.kept y)
      obtain ⟨ρ, hρ⟩ := hk.exists_solves P σ.mem.value
      obtain ⟨δ, hδ⟩ := hk.exists_tangent P x σ.mem.dvalue ρ
      obtain ⟨σ₂, e, st, -⟩ := DevalF_exact P hw hy hx hk hρ hδ
      rw [he] at e
      simp only [Option.some.injEq, Prod.mk.injEq] at e
      rw [e.2]
      exact ⟨hc.keepV hw hy hwd hρ st, by rw [st.defs]; exact hq⟩
  | preComp y hy hwd he =>
      have hk := hwd.wdKept (σ.kept y)
      obtain ⟨ρ, hρ⟩ := hk.exists_solves P σ.mem.value
      obtain ⟨σ₂, e, st, -⟩ := PreComp_exact P hw hy hk hρ
      rw [he] at e
      simp only [Option.some.injEq] at e
      rw [e]
      exact ⟨hc.keepV hw hy hwd hρ st, by rw [st.defs]; exact hq⟩

/-- Any number of such calls. -/
inductive Undisturbeds (P : Prim K) (q : ℕ) : St K → St K → Prop
  | refl {σ} : Undisturbeds P q σ σ
  | step {σ σ' σ''} : Undisturbeds P q σ σ' → Undisturbed P q σ' σ'' → Undisturbeds P q σ σ''

/-- C02.  After `Eval q` (answered right), any number of calls that do not change what `q` depends on, and then
the definition of a new Expression by a formula over `q` and Variables: `Eval` of the new Expression is right.
(This is the pattern of `C02_stale` without the change of `x`.) -/
theorem C02_reuse {q : ℕ} {σ σ₁ σ₂ : St K} (h : Run P σ) (hq : q < σ.defs.size) (hwd : WellDefined σ.defs q)
    (hs : Fine (GoodV P) σ q) {v : K} (he : Eval P q σ = some (v, σ₁)) (hu : Undisturbeds P q σ₁ σ₂)
    {z : ℕ} (hz : z < σ₂.defs.size) (hwz : WellDefined σ₂.defs z)
    (hov : ∀ r, Reach σ₂.defs z r → σ₂.defs.items r = [] ∨ σ₂.mem.visited r = false ∨ Reach σ₂.defs q r) :
    ∃ w σ₃, Eval P z σ₂ = some (w, σ₃) ∧ ValueOf P σ₂.defs z w := by
  obtain ⟨v', σ', e, -, c⟩ := C02_fine_eval h hq hwd hs
  rw [he] at e
  simp only [Option.some.injEq, Prod.mk.injEq] at e
  obtain ⟨-, rfl⟩ := e
  have h1 : Run P σ₁ := .eval q v h hq he
  have hq1 : q < σ₁.defs.size := by rw [Eval_defs he]; exact hq
  have key : Run P σ₂ ∧ Cur (GoodV P) σ₂ q ∧ q < σ₂.defs.size := by
    clear hov hz hwz
    induction hu with
    | refl => exact ⟨h1, c, hq1⟩
    | step _ hstep ih =>
        obtain ⟨a, b, d⟩ := ih
        have := C02_values_stay hstep a d b
        exact ⟨hstep.run a, this.1, this.2⟩
  obtain ⟨h2, c2, -⟩ := key
  obtain ⟨w, σ₃, e, hv, -⟩ := C02_fine_eval h2 hz hwz fun p hr hk hpe => by
    have hpv : σ₂.mem.visited p = true := hk.1
    rcases hov p (Uses.reach hr) with h | h | h
    · exact absurd h hpe
    · rw [h] at hpv; simp at hpv
    · exact c2.down h
  exact ⟨w, σ₃, e, hv⟩

/-- C02, derivatives.  A query leaves current results of every kind current for Expressions it shares no
Expression with. -/
theorem C02_apart {Good : Defs K → Mem K → ℕ → Prop} (hG : Local Good) {σ σ' : St K} (hr : Run P σ) {q y : ℕ}
    (hy : y < σ.defs.size) (hwd : WellDefined σ.defs y)
    (hq : (∃ v, Eval P y σ = some (v, σ')) ∨ (∃ x < σ.defs.size, ∃ v, DevalF P y x σ = some (v, σ')) ∨
      PreComp P y σ = some σ')
    (ha : ∀ p, Reach σ.defs q p → σ.defs.items p ≠ [] → ¬ Reach σ.defs y p) (hc : Cur Good σ q) :
    Cur Good σ' q := by
  have hw := hr.wf
  have hk := hwd.wdKept (σ.kept y)
  obtain ⟨ρ, hρ⟩ := hk.exists_solves P σ.mem.value
  rcases hq with ⟨v, he⟩ | ⟨x, hx, v, he⟩ | he
  · obtain ⟨σ₂, e, st, d, c⟩ := Eval_exact P hw hy hk hρ
    rw [he] at e
    simp only [Option.some.injEq, Prod.mk.injEq] at e
    rw [e.2]
    exact hc.apart hG st (fun p hp => d.out p fun hm => hp hm.reach) (fun p hp => c.out p fun hm => hp hm.reach) ha
  · obtain ⟨δ, hδ⟩ := hk.exists_tangent P x σ.mem.dvalue ρ
    obtain ⟨σ₂, e, st, c, -, d⟩ := DevalF_exact P hw hy hx hk hρ hδ
    rw [he] at e
    simp only [Option.some.injEq, Prod.mk.injEq] at e
    rw [e.2]
    exact hc.apart hG st (fun p hp => d p fun hm => hp (Uses.reach hm))
      (fun p hp => c.out p fun hm => hp hm.reach) ha
  · obtain ⟨σ₂, e, st, d, c⟩ := PreComp_exact P hw hy hk hρ
    rw [he] at e
    simp only [Option.some.injEq] at e
    rw [e]
    exact hc.apart hG st (fun p hp => d.out p fun hm => hp hm.reach) (fun p hp => c p fun hm => hp (Uses.reach hm)) ha

/-! ## Ready -/

/-- `y` may be queried in every mode: whatever stored result of an earlier query could be relied on is current.
This is a condition on the heap, not on the history; `Hist.ready` and `ready_of_fresh` give simple sufficient
conditions, and the theorems of Props/Exact say which calls keep it. -/
structure Ready (P : Prim K) (σ : St K) (y x : ℕ) : Prop where
  fwd : Fine (GoodF P x) σ y
  rev : Fine (GoodR P) σ y

theorem Ready.val {σ : St K} {y x : ℕ} (h : Ready P σ y x) : Fine (GoodV P) σ y :=
  h.fwd.mono fun _ _ _ h => h.1

/-- The histories of `C02_current_partial`. -/
theorem Hist.ready {σ : St K} {U : ℕ → Prop} (h : Hist P σ U) {y : ℕ} (hs : Safe σ.defs U y) (x : ℕ) :
    Ready P σ y x :=
  ⟨(h.inv.safe hs).fine _, (h.inv.safe hs).fine _⟩

/-- No Expression below `y` holds a stored result. -/
theorem ready_of_fresh {σ : St K} {y : ℕ}
    (h : ∀ q, Reach σ.defs y q → σ.defs.items q ≠ [] → σ.mem.visited q = false) (x : ℕ) :
    Ready P σ y x := by
  have key : ∀ Good : Defs K → Mem K → ℕ → Prop, Fine Good σ y := by
    intro Good q hq hk he
    have hv : σ.mem.visited q = true := hk.1
    rw [h q (Uses.reach hq) he] at hv; simp at hv
  exact ⟨key _, key _⟩

theorem keyHyp_of_revOK {σ : St K} (hw : σ.WF) {y x : ℕ} (hy : y < σ.defs.size) (hx : x < σ.defs.size)
    (hrev : RevOK σ.defs y x) : KeyHyp σ.defs {p | Reach σ.defs y p} x (σ.defs.nidx x) := by
  have hlt : ∀ p ∈ {p | Reach σ.defs y p}, p < σ.defs.size := fun p hp => Reach.lt hw.defs.closed hy hp
  refine ⟨fun p hp => ⟨fun h => hw.defs.inj p (hlt p hp) x hx h, fun h => by rw [h]⟩,
    fun p hp i hi => hw.defs.leaf x hx p (hlt p hp) i hi, ?_, hrev.2, fun _ => hrev.1⟩
  rintro p ⟨r, hr, i, hi, hp⟩
  exact hw.defs.parleaf p (hw.defs.parsOK r (hlt r hr) i hi p hp) x hx

/-- `PreComp y` and then `DevalR y x`, after any history. -/
theorem Fine.devalR {σ : St K} {y x : ℕ} (hs : Fine (GoodR P) σ y) (hw : σ.WF) (hy : y < σ.defs.size)
    (hwd : WellDefined σ.defs y) (hkey : KeyHyp σ.defs {p | Reach σ.defs y p} x (σ.defs.nidx x))
    {ρ δ : ℕ → K} (hρ : Solves P σ.defs y ρ) (hδ : Tangent P σ.defs y x ρ δ) :
    ∃ σ', PreComp P y σ = some σ' ∧ DevalR y x σ' = if y = x then 0 else δ y := by
  obtain ⟨ρ', σ₂, h2, hw2, st, c, -⟩ := hs.preComp hw hy hwd
  refine ⟨σ₂, h2, ?_⟩
  by_cases he : σ.defs.items y = []
  · rw [DevalR, (hw2.plain y (by rw [st.defs]; exact hy) (by rw [st.defs]; exact he)).2.2,
      hδ y .refl, he]
    split <;> rfl
  · have hg := (c y .refl (by rw [st.defs]; exact he)).2.2.1 x (σ.defs.nidx x) (by rw [st.defs]; exact hkey)
    rw [DevalR, st.defs]
    split
    · next h => exact hg.2 h
    · next h =>
        have := hg.1 h
        rw [st.defs] at this
        exact DerivOf.eq hwd this hρ hδ

/-- After a query on `y` everything below `y` holds a stored result, so the next query on `y` relies on none. -/
theorem Cur.fine {Good Good' : Defs K → Mem K → ℕ → Prop} {σ : St K} {y : ℕ} (h : Cur Good σ y) : Fine Good' σ y := by
  refine .of_neighbours fun q hq _ hv i hi => ?_
  have : σ.defs.items q ≠ [] := by intro e; rw [e] at hi; simp at hi
  exact absurd (h q hq this).1 hv

theorem Cur.ready {Good : Defs K → Mem K → ℕ → Prop} {σ : St K} {y : ℕ} (h : Cur Good σ y) (x : ℕ) :
    Ready P σ y x := ⟨h.fine, h.fine⟩

/-! ## Non-vacuity -/

namespace Ex

/-- After `Eval(w)`, `Eval(y)` relies on the stored value of `c` (see `C02_stale`). -/
theorem stale1_kept : stale1.kept 5 2 ∧ stale1.looks 5 2 ∧ ¬ stale1.resets 5 2 := by
  have h5 : (stale1.defs.items 5).flatMap Node.leaves = [4] := by decide +kernel
  have h4 : (stale1.defs.items 4).flatMap Node.leaves = [2] := by decide +kernel
  have v4 : stale1.mem.visited 4 = false := by decide +kernel
  have v2 : stale1.mem.visited 2 = true := by decide +kernel
  have hm : ∀ q, Met stale1.defs (fun q => stale1.mem.visited q = true) 5 q → q = 4 := by
    intro q hq
    induction hq with
    | @child i p hi hp =>
        have : p ∈ (stale1.defs.items 5).flatMap Node.leaves := List.mem_flatMap.2 ⟨i, hi, hp⟩
        rw [h5] at this; simpa using this
    | step _ hv _ _ ih => rw [ih, v4] at hv; simp at hv
  have hn : ¬ stale1.resets 5 2 := fun h => by have := hm 2 h; omega
  have step : ∀ {a b : ℕ}, (stale1.defs.items a).flatMap Node.leaves = [b] →
      ∃ i ∈ stale1.defs.items a, b ∈ i.leaves := by
    intro a b h
    have : b ∈ (stale1.defs.items a).flatMap Node.leaves := by rw [h]; simp
    exact List.mem_flatMap.1 this
  refine ⟨⟨v2, by decide, hn⟩, ?_, hn⟩
  obtain ⟨i, hi, hp⟩ := step h5
  obtain ⟨j, hj, hq⟩ := step h4
  refine Uses.step (Uses.step .refl (fun h => h.2.1 rfl) hi hp) (fun h => ?_) hj hq
  have : stale1.mem.visited 4 = true := h.1
  rw [v4] at this; simp at this

/-- `C02_reuse` applies to `Eval(w); Variable u(7); Eval(y)`, where `Eval(y)` relies on the stored value of `c`
(so that `Safe` does not hold). -/
example : ∃ σ₁, Eval P0 3 stale0 = some (5, σ₁) ∧ ∃ w σ₃, Eval P0 5 (newVar 7 σ₁).2 = some (w, σ₃) ∧
    ValueOf P0 (newVar 7 σ₁).2.defs 5 w := by
  have hr := stale0_hist.run
  have hsafe : Safe stale0.defs (fun q => stale0.mem.visited q = true) 3 := by
    have : ∀ q, stale0.mem.visited q = false := by
      intro q; simp [stale0, define, assignExp, newExpr, newVar, St.init, Function.update_apply]
    intro q _ _ _ _ _ p _ _ hv
    rw [this p] at hv; simp at hv
  obtain ⟨v, σ₁, he, -⟩ := C02_fine_eval hr (y := 3) (by decide) (stale0_wd 3 (by decide)) (hsafe.fine _)
  have h5 : (Eval P0 3 stale0).map Prod.fst = some 5 := by decide +kernel
  rw [he] at h5
  simp only [Option.map_some, Option.some.injEq] at h5
  subst h5
  have hd := Eval_defs he
  have hv4 : σ₁.mem.visited 4 = false := by
    have : (Eval P0 3 stale0).map (fun r => r.2.mem.visited 4) = some false := by decide +kernel
    rw [he] at this; simpa using this
  have hcl := stale0_hist.inv.wf.defs.closed
  have hreach : ∀ q, Reach (newVar 7 σ₁).2.defs 5 q → Reach stale0.defs 5 q ∧ q < 6 := by
    intro q hq
    induction hq with
    | refl => exact ⟨.refl, by decide⟩
    | @step q p i _ hi hp ih =>
        have : (newVar 7 σ₁).2.defs.items q = stale0.defs.items q := by
          have h6 : stale0.defs.size = 6 := by decide
          simp [newVar, hd, h6, Nat.ne_of_lt ih.2]
        rw [this] at hi
        exact ⟨ih.1.step hi hp, hcl q ih.2 i hi p hp⟩
  refine ⟨σ₁, he, C02_reuse hr (q := 3) (by decide) (stale0_wd 3 (by decide)) (hsafe.fine _) he
    (.step .refl (.newVar 7)) ?_ ?_ ?_⟩
  · simp only [newVar, hd]; decide
  · obtain ⟨⟨rank, a⟩, b⟩ := stale0_wd 5 (by decide)
    have hit : ∀ q, Reach (newVar 7 σ₁).2.defs 5 q → (newVar 7 σ₁).2.defs.items q = stale0.defs.items q := by
      intro q hq
      have h6 : stale0.defs.size = 6 := by decide
      simp [newVar, hd, h6, Nat.ne_of_lt (hreach q hq).2]
    exact ⟨⟨rank, fun q hq i hi => a q (hreach q hq).1 i (by rw [← hit q hq]; exact hi)⟩,
      fun q hq i is hi => b q (hreach q hq).1 i is (by rw [← hit q hq]; exact hi)⟩
  · intro r hr
    have h6 : stale0.defs.size = 6 := by decide
    have hit : ∀ q < 6, (newVar 7 σ₁).2.defs.items q = stale0.defs.items q := by
      intro q hq; simp [newVar, hd, h6, Nat.ne_of_lt hq]
    have hvi : ∀ q < 6, (newVar 7 σ₁).2.mem.visited q = σ₁.mem.visited q := by
      intro q hq; simp [newVar, hd, h6, Nat.ne_of_lt hq]
    have hl : ∀ q < 6, ∀ p ∈ (stale0.defs.items q).flatMap Node.leaves,
        q = 5 ∧ p = 4 ∨ q = 4 ∧ p = 2 ∨ q = 3 ∧ p = 2 ∨ q = 2 ∧ p = 1 := by decide
    have : r = 5 ∨ r = 4 ∨ r = 2 ∨ r = 1 := by
      induction hr with
      | refl => simp
      | @step q p i hq hi hp ih =>
          have hq6 := (hreach q hq).2
          rw [hit q hq6] at hi
          have := hl q hq6 p (List.mem_flatMap.2 ⟨i, hi, hp⟩)
          omega
    have r2 : Reach (newVar 7 σ₁).2.defs 3 2 := by
      have : 2 ∈ (stale0.defs.items 3).flatMap Node.leaves := by decide
      obtain ⟨i, hi, hp⟩ := List.mem_flatMap.1 this
      exact .of_leaf (by rw [hit 3 (by decide)]; exact hi) hp
    rcases this with rfl | rfl | rfl | rfl
    · right; left
      rw [hvi 5 (by decide)]
      have : (Eval P0 3 stale0).map (fun r => r.2.mem.visited 5) = some false := by decide +kernel
      rw [he] at this; simpa using this
    · right; left; rw [hvi 4 (by decide)]; exact hv4
    · exact Or.inr (Or.inr r2)
    · left; rw [hit 1 (by decide)]; rfl

end Ex

end CoolDiff
