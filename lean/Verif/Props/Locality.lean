import Verif.Scalar.Locality
import Verif.Scalar.Formula
import Verif.Scalar.WF
import Verif.Scalar.History
import Verif.Scalar.GradProof
import Verif.Scalar.Examples

/-!
# C62: A query reads and writes only the objects its formula reaches

Which objects must still exist when an Expression is queried?  The library stores the addresses of the objects that a
right-hand side mentions.  The theorems say that the answers, and everything the query leaves behind, are determined by the
objects and Parameters that the definition reaches, and that no other object is changed.  So objects that the definition does
not reach may be redefined, or their memory reused, without any effect; and a copy of an Expression needs its original
(Expression.cpp:35-41 stores `&expr`), with counterexample.
-/

set_option linter.unusedSectionVars false

namespace CoolDiff

variable {K : Type} [Field K] [DecidableEq K] (P : Prim K)

/-- All fields of object `o` have the same contents in `σ` and `σ'`.  Specification. -/
structure SameObj (σ σ' : St K) (o : ℕ) : Prop where
  nidx : σ.defs.nidx o = σ'.defs.nidx o
  base : σ.defs.base o = σ'.defs.base o
  items : σ.defs.items o = σ'.defs.items o
  visited : σ.mem.visited o = σ'.mem.visited o
  value : σ.mem.value o = σ'.mem.value o
  dvalue : σ.mem.dvalue o = σ'.mem.dvalue o
  cache : σ.mem.cache o = σ'.mem.cache o

/-- `σ` and `σ'` have the same contents in `y`, in every object that the definition of `y` reaches, and in every Parameter
mentioned on the way.  Specification. -/
structure SameUnder (σ σ' : St K) (y : ℕ) : Prop where
  obj : ∀ o, Reach σ.defs y o → SameObj σ σ' o
  par : ∀ o, Reach σ.defs y o → ∀ i ∈ σ.defs.items o, ∀ p ∈ i.pars,
    σ.defs.par p = σ'.defs.par p ∧ σ.defs.pnidx p = σ'.defs.pnidx p

/-- The queries of the scalar API. -/
inductive SQuery
  | eval (y : ℕ)
  | devalF (y x : ℕ)
  | preComp (y : ℕ)
  | devalR (y x : ℕ)

/-- The Expression a query is about. -/
def SQuery.on : SQuery → ℕ
  | .eval y => y
  | .devalF y _ => y
  | .preComp y => y
  | .devalR y _ => y

/-- The Variable a derivative is taken with respect to, if any. -/
def SQuery.wrt : SQuery → Option ℕ
  | .eval _ => none
  | .devalF _ x => some x
  | .preComp _ => none
  | .devalR _ x => some x

/-- The answer of a query (`none` for `PreComp`, which has none) and the state after it; no result if it does not return.
src/Scalar/CommonFunctions.cpp:32-59. -/
def SQuery.run : SQuery → St K → Option (Option K × St K)
  | .eval y, σ => (Eval P y σ).map fun r => (some r.1, r.2)
  | .devalF y x, σ => (DevalF P y x σ).map fun r => (some r.1, r.2)
  | .preComp y, σ => (PreComp P y σ).map fun τ => (none, τ)
  | .devalR y x, σ => some (some (DevalR y x σ), σ)

/-- The answers of several queries in a row. -/
def runQueries : List SQuery → St K → Option (List (Option K) × St K)
  | [], σ => some ([], σ)
  | q :: qs, σ => (q.run P σ).bind fun r => (runQueries qs r.2).map fun s => (r.1 :: s.1, s.2)

section
variable {P} {σ σ' : St K} {y : ℕ}

theorem Reach.through {D : Defs K} {y z q : ℕ} (h : Reach D y z) (h' : Reach D z q) : Reach D y q := by
  induction h' with
  | refl => exact h
  | step _ hi hp ih => exact ih.step hi hp

theorem SameUnder.below (h : SameUnder σ σ' y) {z : ℕ} (hz : Reach σ.defs y z) : SameUnder σ σ' z :=
  ⟨fun o ho => h.obj o (hz.through ho), fun o ho => h.par o (hz.through ho)⟩

theorem SameUnder.refl (σ : St K) (y : ℕ) : SameUnder σ σ y :=
  ⟨fun _ _ => ⟨rfl, rfl, rfl, rfl, rfl, rfl, rfl⟩, fun _ _ _ _ _ _ => ⟨rfl, rfl⟩⟩

theorem SameUnder.sameDefs (h : SameUnder σ σ' y) : AgreeDefs σ.defs σ'.defs {o | Reach σ.defs y o} :=
  ⟨fun _ ho _ hi _ hp => Reach.step ho hi hp, fun o ho => (h.obj o ho).nidx, fun o ho => (h.obj o ho).base,
    fun o ho => (h.obj o ho).items, fun o ho => h.par o ho⟩

theorem SameUnder.sameOn (h : SameUnder σ σ' y) : SameOn {o | Reach σ.defs y o} σ.mem σ'.mem := fun o ho =>
  ⟨(h.obj o ho).visited, (h.obj o ho).value, (h.obj o ho).dvalue, (h.obj o ho).cache⟩

theorem SameUnder.ofMem (h : SameUnder σ σ' y) {m m' : Mem K} (hm : SameOn {o | Reach σ.defs y o} m m') :
    SameUnder ⟨σ.defs, m⟩ ⟨σ'.defs, m'⟩ y :=
  ⟨fun o ho => ⟨(h.obj o ho).nidx, (h.obj o ho).base, (h.obj o ho).items, (hm o ho).1, (hm o ho).2.1, (hm o ho).2.2.1,
    (hm o ho).2.2.2⟩, h.par⟩

theorem resetImpl_ext_le (D : Defs K) {f g : ℕ} (hfg : f ≤ g) {o : ℕ} {m r : Mem K} (h : resetImpl D f o m = some r) :
    resetImpl D g o m = some r := by
  simp only [resetImpl, Option.bind_eq_bind, Option.bind_eq_some_iff] at h ⊢
  obtain ⟨k, h1, h2⟩ := h
  exact ⟨k, resetItems_ext (ext_le (resetO_ext D) hfg) _ _ _ h1, h2⟩

theorem lock_some {R : Set ℕ} {α : Type} {m m' n : Mem K} {a : α} {r' : Option (α × Mem K)}
    (h : Lock R m m' (some (a, n)) r') : ∃ n', r' = some (a, n') ∧ SameOn R n n' ∧ SameOn Rᶜ m n ∧ SameOn Rᶜ m' n' := by
  cases h with
  | some h f f' => exact ⟨_, rfl, h, f, f'⟩

theorem lockT_some {R : Set ℕ} {m m' n : Mem K} {r' : Option (Mem K)}
    (h : LockT R m m' (some n) r') : ∃ n', r' = some n' ∧ SameOn R n n' ∧ SameOn Rᶜ m n ∧ SameOn Rᶜ m' n' := by
  cases h with
  | some h f f' => exact ⟨_, rfl, h, f, f'⟩

/-- A query changes no definition, and no object outside `R`. -/
structure Untouched (R : Set ℕ) (σ τ : St K) : Prop where
  defs : τ.defs = σ.defs
  mem : SameOn Rᶜ σ.mem τ.mem

theorem Untouched.refl (R : Set ℕ) (σ : St K) : Untouched R σ σ := ⟨rfl, .refl _ _⟩

theorem Untouched.trans {R : Set ℕ} {σ τ υ : St K} (h : Untouched R σ τ) (h' : Untouched R τ υ) : Untouched R σ υ :=
  ⟨h'.defs.trans h.defs, h.mem.trans h'.mem⟩

theorem Untouched.mono {R S : Set ℕ} {σ τ : St K} (h : Untouched R σ τ) (hs : R ⊆ S) : Untouched S σ τ :=
  ⟨h.defs, fun o ho => h.mem o fun hr => ho (hs hr)⟩

theorem Untouched.sameObj {R : Set ℕ} {σ τ : St K} (h : Untouched R σ τ) {o : ℕ} (ho : o ∉ R) : SameObj σ τ o := by
  obtain ⟨a, b, c, d⟩ := h.mem o ho
  exact ⟨by rw [h.defs], by rw [h.defs], by rw [h.defs], a, b, c, d⟩

theorem fuel_le (hs : σ.defs.size ≤ σ'.defs.size) : σ.defs.fuel ≤ σ'.defs.fuel := Nat.add_le_add_right hs 2

theorem eval_same (h : SameUnder σ σ' y) (hs : σ.defs.size ≤ σ'.defs.size) {v : K} {τ : St K}
    (he : Eval P y σ = some (v, τ)) : ∃ τ', Eval P y σ' = some (v, τ') ∧ SameUnder τ τ' y ∧
      Untouched {o | Reach σ.defs y o} σ τ ∧ Untouched {o | Reach σ.defs y o} σ' τ' := by
  simp only [Eval, Option.bind_eq_bind, Option.bind_eq_some_iff, Option.some.injEq, Prod.mk.injEq, Prod.exists] at he
  obtain ⟨m, h1, w, n, h2, rfl, rfl⟩ := he
  have l1 := resetImpl_lock (o := y) h.sameDefs σ.defs.fuel .refl h.sameOn
  rw [h1] at l1
  obtain ⟨m', h1', s1, f1, f1'⟩ := lockT_some l1
  have l2 := evalO_lock P h.sameDefs σ.defs.fuel y .refl m m' s1
  rw [h2] at l2
  obtain ⟨n', h2', s2, f2, f2'⟩ := lock_some l2
  refine ⟨⟨σ'.defs, n'⟩, ?_, h.ofMem s2, ⟨rfl, f1.trans f2⟩, ⟨rfl, f1'.trans f2'⟩⟩
  simp only [Eval, Option.bind_eq_bind, Option.bind_eq_some_iff, Option.some.injEq, Prod.mk.injEq, Prod.exists]
  exact ⟨m', resetImpl_ext_le _ (fuel_le hs) h1', w, n', ext_le (evalO_ext P _) (fuel_le hs) _ _ _ h2', rfl, rfl⟩

theorem devalF_same (h : SameUnder σ σ' y) (hs : σ.defs.size ≤ σ'.defs.size) {x : ℕ}
    (hx : σ.defs.nidx x = σ'.defs.nidx x) {v : K} {τ : St K}
    (he : DevalF P y x σ = some (v, τ)) : ∃ τ', DevalF P y x σ' = some (v, τ') ∧ SameUnder τ τ' y ∧
      Untouched {o | Reach σ.defs y o} σ τ ∧ Untouched {o | Reach σ.defs y o} σ' τ' := by
  simp only [DevalF, Option.bind_eq_bind, Option.bind_eq_some_iff, Option.some.injEq, Prod.mk.injEq, Prod.exists] at he
  obtain ⟨m, h1, w, n, h2, rfl, rfl⟩ := he
  have l1 := resetImpl_lock (o := y) h.sameDefs σ.defs.fuel .refl h.sameOn
  rw [h1] at l1
  obtain ⟨m', h1', s1, f1, f1'⟩ := lockT_some l1
  have l2 := fwdO_lock P h.sameDefs (σ.defs.nidx x) σ.defs.fuel y .refl m m' s1
  rw [h2] at l2
  obtain ⟨n', h2', s2, f2, f2'⟩ := lock_some l2
  refine ⟨⟨σ'.defs, n'⟩, ?_, h.ofMem s2, ⟨rfl, f1.trans f2⟩, ⟨rfl, f1'.trans f2'⟩⟩
  simp only [DevalF, Option.bind_eq_bind, Option.bind_eq_some_iff, Option.some.injEq, Prod.mk.injEq, Prod.exists]
  rw [← hx]
  exact ⟨m', resetImpl_ext_le _ (fuel_le hs) h1', w, n', ext_le (fwdO_ext P _ _) (fuel_le hs) _ _ _ h2', rfl, rfl⟩

theorem preComp_same (h : SameUnder σ σ' y) (hs : σ.defs.size ≤ σ'.defs.size) {τ : St K}
    (he : PreComp P y σ = some τ) : ∃ τ', PreComp P y σ' = some τ' ∧ SameUnder τ τ' y ∧
      Untouched {o | Reach σ.defs y o} σ τ ∧ Untouched {o | Reach σ.defs y o} σ' τ' := by
  simp only [PreComp, Option.bind_eq_bind, Option.bind_eq_some_iff, Option.some.injEq] at he
  obtain ⟨m, h1, n, h2, rfl⟩ := he
  have l1 := resetImpl_lock (o := y) h.sameDefs σ.defs.fuel .refl h.sameOn
  rw [h1] at l1
  obtain ⟨m', h1', s1, f1, f1'⟩ := lockT_some l1
  have l2 := revO_lock P h.sameDefs σ.defs.fuel y .refl m m' s1
  rw [h2] at l2
  obtain ⟨n', h2', s2, f2, f2'⟩ := lockT_some l2
  refine ⟨⟨σ'.defs, n'⟩, ?_, h.ofMem s2, ⟨rfl, f1.trans f2⟩, ⟨rfl, f1'.trans f2'⟩⟩
  simp only [PreComp, Option.bind_eq_bind, Option.bind_eq_some_iff, Option.some.injEq]
  exact ⟨m', resetImpl_ext_le _ (fuel_le hs) h1', n', ext_le (revO_ext P _) (fuel_le hs) _ _ _ h2', rfl⟩

theorem query_same (h : SameUnder σ σ' y) (hs : σ.defs.size ≤ σ'.defs.size) {q : SQuery} (hq : q.on = y)
    (hx : ∀ x ∈ q.wrt, σ.defs.nidx x = σ'.defs.nidx x) {a : Option K} {τ : St K}
    (he : q.run P σ = some (a, τ)) : ∃ τ', q.run P σ' = some (a, τ') ∧ SameUnder τ τ' y ∧
      Untouched {o | Reach σ.defs y o} σ τ ∧ Untouched {o | Reach σ.defs y o} σ' τ' := by
  cases q with
  | eval z =>
      obtain rfl : z = y := hq
      simp only [SQuery.run, Option.map_eq_some_iff, Prod.exists, Prod.mk.injEq] at he ⊢
      obtain ⟨v, τ, he, rfl, rfl⟩ := he
      obtain ⟨τ', h1, h2⟩ := eval_same h hs he
      exact ⟨τ', ⟨v, τ', h1, rfl, rfl⟩, h2⟩
  | devalF z x =>
      obtain rfl : z = y := hq
      simp only [SQuery.run, Option.map_eq_some_iff, Prod.exists, Prod.mk.injEq] at he ⊢
      obtain ⟨v, τ, he, rfl, rfl⟩ := he
      obtain ⟨τ', h1, h2⟩ := devalF_same h hs (hx x rfl) he
      exact ⟨τ', ⟨v, τ', h1, rfl, rfl⟩, h2⟩
  | preComp z =>
      obtain rfl : z = y := hq
      simp only [SQuery.run, Option.map_eq_some_iff, Prod.mk.injEq] at he ⊢
      obtain ⟨τ, he, rfl, rfl⟩ := he
      obtain ⟨τ', h1, h2⟩ := preComp_same h hs he
      exact ⟨τ', ⟨τ', h1, rfl, rfl⟩, h2⟩
  | devalR z x =>
      obtain rfl : z = y := hq
      simp only [SQuery.run, Option.some.injEq, Prod.mk.injEq] at he ⊢
      obtain ⟨rfl, rfl⟩ := he
      refine ⟨σ', ⟨?_, rfl⟩, h, .refl _ _, .refl _ _⟩
      simp only [DevalR]
      rw [(h.obj z .refl).cache, hx x rfl]

end

section
variable {P} {σ σ' : St K} {y : ℕ}

theorem SameUnder.of_query (h : SameUnder σ σ' y) {z : ℕ} (hz : Reach σ.defs y z) {τ τ' : St K}
    (hs : SameUnder τ τ' z) (u : Untouched {o | Reach σ.defs z o} σ τ) (u' : Untouched {o | Reach σ.defs z o} σ' τ') :
    SameUnder τ τ' y := by
  constructor
  · intro o ho
    by_cases hr : Reach σ.defs z o
    · exact hs.obj o (by rw [u.defs]; exact hr)
    · have a := u.sameObj (o := o) hr
      have b := u'.sameObj (o := o) hr
      have c := h.obj o (by rw [u.defs] at ho; exact ho)
      exact ⟨a.nidx.symm.trans (c.nidx.trans b.nidx), a.base.symm.trans (c.base.trans b.base),
        a.items.symm.trans (c.items.trans b.items), a.visited.symm.trans (c.visited.trans b.visited),
        a.value.symm.trans (c.value.trans b.value), a.dvalue.symm.trans (c.dvalue.trans b.dvalue),
        a.cache.symm.trans (c.cache.trans b.cache)⟩
  · rw [u.defs, u'.defs]
    exact h.par

end

section
variable {σ σ' : St K} {y : ℕ}

/-- **C62 (what determines the answers).**  If two states agree on the objects and Parameters that the definition of `y`
reaches, then any sequence of queries on `y` and on objects below it gives the same answers, leaves the states agreeing again,
and changes no definition and no object that `y` does not reach — in whatever way the states differ elsewhere. -/
theorem C62_same_answers : ∀ (qs : List SQuery) {σ σ' : St K}, SameUnder σ σ' y → σ.defs.size ≤ σ'.defs.size →
    (∀ q ∈ qs, Reach σ.defs y q.on) → (∀ q ∈ qs, ∀ x ∈ q.wrt, σ.defs.nidx x = σ'.defs.nidx x) →
    ∀ {as : List (Option K)} {τ : St K}, runQueries P qs σ = some (as, τ) →
    ∃ τ', runQueries P qs σ' = some (as, τ') ∧ SameUnder τ τ' y ∧ Untouched {o | Reach σ.defs y o} σ τ ∧
      Untouched {o | Reach σ.defs y o} σ' τ'
  | [], σ, σ', h, _, _, _, as, τ, he => by
      simp only [runQueries, Option.some.injEq, Prod.mk.injEq] at he
      obtain ⟨rfl, rfl⟩ := he
      exact ⟨σ', rfl, h, .refl _ _, .refl _ _⟩
  | q :: qs, σ, σ', h, hs, hq, hx, as, τ, he => by
      simp only [runQueries, Option.bind_eq_some_iff, Option.map_eq_some_iff, Prod.exists, Prod.mk.injEq] at he
      obtain ⟨a, υ, h1, bs, τ, h2, rfl, rfl⟩ := he
      have hz := hq q (by simp)
      obtain ⟨υ', h1', s1, u1, u1'⟩ := query_same (h.below hz) hs rfl (hx q (by simp)) h1
      have s := h.of_query hz s1 u1 u1'
      have d := u1.defs
      have d' := u1'.defs
      obtain ⟨τ', h2', s2, u2, u2'⟩ := C62_same_answers qs s (by rw [d, d']; exact hs)
        (fun r hr => by rw [d]; exact hq r (by simp [hr])) (fun r hr => by rw [d, d']; exact hx r (by simp [hr])) h2
      rw [d] at u2 u2'
      have sub : {o | Reach σ.defs q.on o} ⊆ {o | Reach σ.defs y o} := fun o ho => hz.trans ho
      refine ⟨τ', ?_, s2, (u1.mono sub).trans u2, (u1'.mono sub).trans u2'⟩
      simp only [runQueries, Option.bind_eq_some_iff, Option.map_eq_some_iff, Prod.exists, Prod.mk.injEq]
      exact ⟨a, υ', h1', bs, τ', h2', rfl, rfl⟩

/-- **C62 (no other object is changed).**  Any sequence of queries leaves every object alone that none of the queried
Expressions reaches. -/
theorem C62_others_untouched {y : ℕ} (qs : List SQuery) (hq : ∀ q ∈ qs, Reach σ.defs y q.on) {as : List (Option K)}
    {τ : St K} (he : runQueries P qs σ = some (as, τ)) {o : ℕ} (ho : ¬ Reach σ.defs y o) : SameObj σ τ o := by
  obtain ⟨_, _, _, u, _⟩ := C62_same_answers P qs (.refl σ y) (le_refl _) hq (fun _ _ _ _ => rfl) he
  exact u.sameObj ho

/-- `σ'` is `σ` with arbitrary contents in the objects `L` and Parameters `LP`: they went out of scope and their memory was
used for something else.  Specification. -/
structure Reused (L LP : Set ℕ) (σ σ' : St K) : Prop where
  obj : ∀ o, o ∉ L → SameObj σ σ' o
  par : ∀ p, p ∉ LP → σ.defs.par p = σ'.defs.par p ∧ σ.defs.pnidx p = σ'.defs.pnidx p
  size : σ.defs.size ≤ σ'.defs.size

/-- **C62 (objects may go out of scope).**  As long as no object and no Parameter that went out of scope is reached by the
definition of `y`, all queries on `y` answer as if they still existed, and do not touch the memory that is used for other
things now. -/
theorem C62_dead_objects {L LP : Set ℕ} (h : Reused L LP σ σ') (hL : ∀ o, Reach σ.defs y o → o ∉ L)
    (hP : ∀ o, Reach σ.defs y o → ∀ i ∈ σ.defs.items o, ∀ p ∈ i.pars, p ∉ LP) (qs : List SQuery)
    (hq : ∀ q ∈ qs, Reach σ.defs y q.on) (hx : ∀ q ∈ qs, ∀ x ∈ q.wrt, x ∉ L)
    {as : List (Option K)} {τ : St K} (he : runQueries P qs σ = some (as, τ)) :
    ∃ τ', runQueries P qs σ' = some (as, τ') ∧ ∀ o ∈ L, SameObj σ' τ' o := by
  obtain ⟨τ', h1, _, _, u⟩ := C62_same_answers P qs
    ⟨fun o ho => h.obj o (hL o ho), fun o ho i hi p hp => h.par p (hP o ho i hi p hp)⟩ h.size hq
    (fun q hq x hx' => (h.obj x (hx q hq x hx')).nidx) he
  exact ⟨τ', h1, fun o ho => u.sameObj fun hr => hL o hr ho⟩

theorem SameUnder.update {z : ℕ} (hz : ¬ Reach σ.defs y z) {τ : St K} (hn : ∀ o, o ≠ z → SameObj σ τ o)
    (hp : σ.defs.par = τ.defs.par) (hp' : σ.defs.pnidx = τ.defs.pnidx) : SameUnder σ τ y :=
  ⟨fun o ho => hn o fun e => hz (e ▸ ho), fun _ _ _ _ p _ => ⟨congrFun hp p, congrFun hp' p⟩⟩

/-- **C62 (other definitions).**  Redefining an object that `y` does not reach, assigning a number to it, or creating a new
Variable, Expression, copy or Parameter changes no answer of `y`: the states agree below `y`, as the theorems above require. -/
theorem C62_other_definitions {z : ℕ} (e : Exp K) (t : Node K) (v : K) (w : ℕ) (h : Run P σ) (hy : y < σ.defs.size)
    (hz : ¬ Reach σ.defs y z) :
    SameUnder σ (define z e σ) y ∧ SameUnder σ (assignExp z t σ) y ∧ SameUnder σ (assignNum z v σ) y ∧
    SameUnder σ (assignRef z w σ) y ∧ SameUnder σ (newVar v σ).2 y ∧ SameUnder σ (newExpr σ).2 y ∧
    SameUnder σ (newExprRef w σ).2 y ∧ SameUnder σ (newExprOf t σ).2 y ∧ SameUnder σ (newPar v σ).2 y := by
  have hc := h.defs_wf.1.closed
  have ns : ¬ Reach σ.defs y σ.defs.size := fun ho => (ho.lt hc hy).ne rfl
  refine ⟨.update hz (fun o ho => ?_) rfl rfl, .update hz (fun o ho => ?_) rfl rfl, .update hz (fun o ho => ?_) rfl rfl,
    .update hz (fun o ho => ?_) rfl rfl, .update ns (fun o ho => ?_) rfl rfl, .update ns (fun o ho => ?_) rfl rfl,
    .update ns (fun o ho => ?_) rfl rfl, .update ns (fun o ho => ?_) rfl rfl, ⟨fun o _ => ⟨rfl, rfl, rfl, rfl, rfl, rfl, rfl⟩, ?_⟩⟩
  · exact ⟨rfl, rfl, (Function.update_of_ne ho _ _).symm, rfl, rfl, rfl, rfl⟩
  · exact ⟨rfl, rfl, (Function.update_of_ne ho _ _).symm, rfl, rfl, rfl, rfl⟩
  · exact ⟨rfl, (Function.update_of_ne ho _ _).symm, (Function.update_of_ne ho _ _).symm, rfl,
      (Function.update_of_ne ho _ _).symm, (Function.update_of_ne ho _ _).symm, (Function.update_of_ne ho _ _).symm⟩
  · exact ⟨rfl, rfl, (Function.update_of_ne ho _ _).symm, rfl, rfl, rfl, rfl⟩
  iterate 4
    exact ⟨(Function.update_of_ne ho _ _).symm, (Function.update_of_ne ho _ _).symm, (Function.update_of_ne ho _ _).symm,
      (Function.update_of_ne ho _ _).symm, (Function.update_of_ne ho _ _).symm, (Function.update_of_ne ho _ _).symm,
      (Function.update_of_ne ho _ _).symm⟩
  · intro o ho i hi p hp
    have : p ≠ σ.defs.psize := (h.defs_wf.1.parsOK o (ho.lt hc hy) i hi p hp).ne
    exact ⟨(Function.update_of_ne this _ _).symm, (Function.update_of_ne this _ _).symm⟩

/-- **C62 (copies need their original).**  The copy constructor and the copy assignment of `Expression` store the address of
the original: what the original reaches, the original included, is reached by the copy. -/
theorem C62_copy_reaches (z w : ℕ) {o : ℕ} (ho : Reach σ.defs z o) (hz : z < σ.defs.size) (hc : σ.defs.Closed)
    (hw : w ≠ z) (hwo : ∀ o, Reach σ.defs z o → o ≠ w) :
    Reach (newExprRef z σ).2.defs (newExprRef z σ).1 o ∧ Reach (assignRef w z σ).defs w o := by
  constructor
  · have h1 : Reach (newExprRef z σ).2.defs (newExprRef z σ).1 z :=
      Reach.of_leaf (i := .leaf z) (by simp [newExprRef]) (by simp [Node.leaves])
    refine h1.trans ((Reach.congr fun q hq => ?_).2 ho)
    exact Function.update_of_ne (hq.lt hc hz).ne _ _
  · have h1 : Reach (assignRef w z σ).defs w z :=
      Reach.of_leaf (i := .leaf z) (by simp [assignRef, Ne.symm hw]) (by simp [Node.leaves])
    refine h1.trans ((Reach.congr fun q hq => ?_).2 ho)
    exact Function.update_of_ne (hwo q hq) _ _

end

namespace Ex

/-- `Variable x = 3; Expression f() { Expression t; t = x*x; return Expression(t); }  Expression y = f();`
(objects: x = 1, t = 2, y = 3) with `t` still there. -/
def copyOfLocal : St ℚ := (newExprRef 2 (define 2 (.mul (.var 1) (.var 1)) (newExpr (newVar 3 St.init).2).2)).2

/-- The same after `t` went out of scope and its memory holds a fresh Variable with the value 100. -/
def copyOfDead : St ℚ := assignNum 2 100 copyOfLocal

theorem copyOfDead_reused : Reused {2} ∅ copyOfLocal copyOfDead :=
  ⟨fun _ ho => ⟨rfl, (Function.update_of_ne ho _ _).symm, (Function.update_of_ne ho _ _).symm, rfl,
    (Function.update_of_ne ho _ _).symm, (Function.update_of_ne ho _ _).symm, (Function.update_of_ne ho _ _).symm⟩,
    fun _ _ => ⟨rfl, rfl⟩, le_refl _⟩

end Ex

/-- **C62 (counterexample).**  A copy of a local Expression loses its meaning when the local goes out of scope: `y` is 9 with
derivative 6 while `t` exists, and 100 with derivative 0 when the memory of `t` is used for another object. -/
theorem C62_copy_of_local :
    (runQueries Ex.P0 [.eval 3, .devalF 3 1] Ex.copyOfLocal).map Prod.fst = some [some 9, some 6] ∧
    (runQueries Ex.P0 [.eval 3, .devalF 3 1] Ex.copyOfDead).map Prod.fst = some [some 100, some 0] := by
  decide +kernel

/-- What `t` reaches does not include its copy `y`, so `y` may go out of scope: `t` keeps its answers. -/
example : ∃ τ', runQueries Ex.P0 [.eval 2, .devalF 2 1, .preComp 2, .devalR 2 1] (assignNum 3 100 Ex.copyOfLocal) =
    some ([some 9, some 6, none, some 6], τ') := by
  have hr : ∀ o, Reach Ex.copyOfLocal.defs 2 o → o = 2 ∨ o = 1 := by
    intro o ho
    induction ho with
    | refl => exact .inl rfl
    | step h hi hp ih =>
        rcases ih with rfl | rfl
        · revert hp
          revert hi
          rename_i p i
          intro hi hp
          have : i.leaves = [1, 1] := by
            have e : Ex.copyOfLocal.defs.items 2 = [(Ex.copyOfLocal.defs.items 2).head (by decide)] := by rfl
            rw [e, List.mem_singleton] at hi
            rw [hi]
            rfl
          rw [this] at hp
          right
          simpa using hp
        · have e : Ex.copyOfLocal.defs.items 1 = [] := by rfl
          rw [e] at hi
          cases hi
  have hs : (runQueries Ex.P0 [.eval 2, .devalF 2 1, .preComp 2, .devalR 2 1] Ex.copyOfLocal).map Prod.fst =
      some [some 9, some 6, none, some 6] := by decide +kernel
  obtain ⟨r, h1, hr2⟩ := Option.map_eq_some_iff.1 hs
  have hr3 : r = ([some 9, some 6, none, some 6], r.2) := Prod.ext hr2 rfl
  rw [hr3] at h1
  have hon : ∀ q ∈ [SQuery.eval 2, .devalF 2 1, .preComp 2, .devalR 2 1], Reach Ex.copyOfLocal.defs 2 q.on := by
    intro q hq
    have : q.on = 2 := by
      simp only [List.mem_cons, List.not_mem_nil, or_false] at hq
      rcases hq with rfl | rfl | rfl | rfl <;> rfl
    rw [this]
    exact .refl
  have hwrt : ∀ q ∈ [SQuery.eval 2, .devalF 2 1, .preComp 2, .devalR 2 1], ∀ x ∈ q.wrt, x ∉ ({3} : Set ℕ) := by
    intro q hq x hx
    simp only [List.mem_cons, List.not_mem_nil, or_false] at hq
    have h1 : x = 1 := by
      rcases hq with rfl | rfl | rfl | rfl
      · cases hx
      · cases hx; rfl
      · cases hx
      · cases hx; rfl
    rw [h1]
    show ¬ (1 = 3)
    omega
  generalize hτ : r.2 = τ at h1
  obtain ⟨τ', h2, _⟩ := C62_dead_objects Ex.P0 (L := {3}) (LP := ∅) (σ := Ex.copyOfLocal) (σ' := assignNum 3 100 Ex.copyOfLocal) (y := 2)
    ⟨fun o ho => ⟨rfl, (Function.update_of_ne ho _ _).symm, (Function.update_of_ne ho _ _).symm, rfl,
      (Function.update_of_ne ho _ _).symm, (Function.update_of_ne ho _ _).symm, (Function.update_of_ne ho _ _).symm⟩,
      fun _ _ => ⟨rfl, rfl⟩, le_refl _⟩
    (fun o ho => by rcases hr o ho with rfl | rfl <;> simp) (fun _ _ _ _ _ _ => id) [.eval 2, .devalF 2 1, .preComp 2, .devalR 2 1]
    hon hwrt h1
  exact ⟨τ', h2⟩

end CoolDiff
