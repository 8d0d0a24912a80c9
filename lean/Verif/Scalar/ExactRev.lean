import Verif.Scalar.Exact

/-!
# Exactly what reverse mode computes

`PreComp_exact` (Verif.Scalar.Exact) describes the values `PreComp` stores after any history.  Here the same is done
for the derivatives it stores: with the caches of the results it relies on taken as given, the entry of a Variable is
the derivative by the rules of calculus -- provided that no cache relied on holds an entry for an operator that is about
to be traversed above it (`CleanKept`).  Such an entry exists only if the dependence of two Expressions has been
reversed by a redefinition; `Ordered` histories exclude this.
-/

set_option linter.unusedSectionVars false

namespace CoolDiff

variable {K : Type} [Field K] [DecidableEq K]

/-- No cache the query relies on holds an entry for an operator that the query traverses above it. -/
def CleanKept (D : Defs K) (kept : ℕ → Prop) (cache : ℕ → ℕ → K) (y : ℕ) : Prop :=
  ∀ o, Uses D kept y o → ¬ kept o → ∀ r, Uses D kept o r → kept r → ∀ i ∈ D.items o, ∀ n ∈ i.opIds, cache r n = 0

theorem Uses.trans {D : Defs K} {kept : ℕ → Prop} {a b c : ℕ} (h : Uses D kept a b) (h' : Uses D kept b c) :
    Uses D kept a c := by
  induction h' with
  | refl => exact h
  | step _ hk hi hp ih => exact .step ih hk hi hp

theorem Uses.of_leaf {D : Defs K} {kept : ℕ → Prop} {a b : ℕ} {i : Node K} (hk : ¬ kept a) (hi : i ∈ D.items a)
    (hb : b ∈ i.leaves) : Uses D kept a b := .step .refl hk hi hb

/-- The numbers that may occur in the cache of `q` after the query. -/
def InvolvesKept (D : Defs K) (kept : ℕ → Prop) (cache : ℕ → ℕ → K) (q n : ℕ) : Prop :=
  ∃ r, Uses D kept q r ∧ (D.nidx r = n ∨ (kept r ∧ cache r n ≠ 0) ∨
    (¬ kept r ∧ ∃ i ∈ D.items r, n ∈ i.opIds ∨ ∃ p ∈ i.pars, D.pnidx p = n))

theorem CleanKept.idsAt {D : Defs K} (hD : D.WF) {kept : ℕ → Prop} {cache : ℕ → ℕ → K} {y : ℕ} (hy : y < D.size)
    {rank : ℕ → ℕ}
    (hr : ∀ q, Uses D kept y q → ¬ kept q → ∀ i ∈ D.items q, ∀ p ∈ i.leaves, p = q ∨ rank p < rank q)
    (hc : CleanKept D kept cache y) {o : ℕ} (ho : Uses D kept y o) (hk : ¬ kept o) :
    IdsAt D (InvolvesKept D kept cache) o := by
  have hlt : ∀ {q}, Uses D kept y q → q < D.size := fun hq => Reach.lt hD.closed hy hq.reach
  have hids := hD.ids (S := {q | q < D.size}) fun q hq => hq
  have hrank : ∀ {p r}, Uses D kept y p → Uses D kept p r → rank r ≤ rank p := by
    intro p r hp hpr
    induction hpr with
    | refl => exact le_rfl
    | step hq hk hi hl ih =>
        rcases hr _ (hp.trans hq) hk _ hi _ hl with h | h
        · rw [h]; exact ih
        · omega
  refine ⟨hD.nodup o (hlt ho), hD.sep o (hlt ho),
    fun i hi j hj p hp => hD.leaf p (hlt (ho.trans (.of_leaf hk hj hp))) o (hlt ho) i hi,
    fun i hi j hj p hp => hD.par p (hD.parsOK o (hlt ho) j hj p hp) o (hlt ho) i hi, ?_,
    fun i hi n hn => ⟨o, .refl, Or.inr (Or.inr ⟨hk, i, hi, Or.inl hn⟩)⟩,
    fun i hi p hp => ⟨p, .of_leaf hk hi hp, Or.inl rfl⟩,
    fun i hi p hp => ⟨o, .refl, Or.inr (Or.inr ⟨hk, i, hi, Or.inr ⟨p, hp, rfl⟩⟩)⟩, ?_⟩
  · rintro i hi j hj p hp hpo n hn ⟨r, hpr, h | ⟨hkr, h⟩ | ⟨hkr, k, hk', h | ⟨w, hw, h⟩⟩⟩
    · subst h
      exact hD.leaf r (hlt (ho.trans ((Uses.of_leaf hk hj hp).trans hpr))) o (hlt ho) i hi hn
    · exact h (hc o ho hk r ((Uses.of_leaf hk hj hp).trans hpr) hkr i hi n hn)
    · have hor := (Uses.of_leaf hk hj hp).trans hpr
      have h1 := (hr o ho hk j hj p hp).resolve_left hpo
      have h2 := hrank (ho.trans (.of_leaf hk hj hp)) hpr
      refine hD.sep' r (hlt (ho.trans hor)) o (hlt ho) ?_ k hk' i hi n h hn
      rintro rfl; omega
    · have hor := (Uses.of_leaf hk hj hp).trans hpr
      subst h
      exact hD.par w (hD.parsOK r (hlt (ho.trans hor)) k hk' w hw) o (hlt ho) i hi hn
  · rintro i hi p hp - n ⟨r, hpr, h⟩
    exact ⟨r, (Uses.of_leaf hk hi hp).trans hpr, h⟩

section
variable (P : Prim K)

/-- `PreComp`, for any bound `G` on what the caches mention that is respected by the results relied on and by the
definitions gone through.  `b` says whether the entries of `x` are of interest. -/
theorem PreComp_kept {σ : St K} (hw : σ.WF) {y x : ℕ} (hy : y < σ.defs.size) (b : Prop)
    (hx : b → x < σ.defs.size ∧ ∀ q, σ.looks y q → Node.leaf x ∉ σ.defs.items q)
    (hxi : σ.looks y x → σ.defs.items x = [])
    (hwd : WellDefinedKept σ.defs (σ.kept y) y) (G : ℕ → ℕ → Prop)
    (hG : ∀ q, σ.looks y q → ¬ σ.kept y q → IdsAt σ.defs G q)
    (hG' : ∀ q, σ.looks y q → σ.kept y q → ∀ n, ¬ G q n → σ.mem.cache q n = 0)
    {ρ δ : ℕ → K} (hρ : SolvesKept P σ.defs (σ.kept y) σ.mem.value y ρ)
    (hδ : TangentKept P σ.defs (σ.kept y) (fun q => σ.mem.cache q (σ.defs.nidx x)) y x ρ δ) :
    ∃ σ', PreComp P y σ = some σ' ∧ Stored y ρ σ σ' ∧ DKept y σ σ' ∧
      (∀ q, ¬ σ.looks y q → σ'.mem.cache q = σ.mem.cache q) ∧
      (b → ∀ q, σ.looks y q → q ≠ x → σ'.mem.cache q (σ.defs.nidx x) = δ q) ∧
      ∀ q, σ.looks y q → ∀ n, ¬ G q n → σ'.mem.cache q n = 0 := by
  obtain ⟨σ', e, st, dk, hout⟩ := PreComp_exact P hw hy hwd hρ
  refine ⟨σ', e, st, dk, hout, ?_⟩
  obtain ⟨⟨rank, hr⟩, hf⟩ := hwd
  simp only [PreComp, Option.bind_eq_bind, Option.bind_eq_some_iff] at e
  obtain ⟨m, hm, m', hev, he⟩ := e
  obtain rfl : (⟨σ.defs, m'⟩ : St K) = σ' := by simpa using he
  have inv := start_inv P hw hy hr hf hρ hm (rank y + 1)
  obtain ⟨h1, h2, h3⟩ := resetImpl_exact σ.defs hm
  have hnk : ∀ q, m.visited q = false → ¬ σ.kept y q := fun q hv hk => by
    rw [(h1 q).2 hk] at hv; simp at hv
  have hlt : ∀ {q}, σ.looks y q → q < σ.defs.size := fun hq => Reach.lt hw.defs.closed hy (Uses.reach hq)
  have hplain : ∀ q, σ.looks y q → σ.defs.items q = [] → m.value q = σ.defs.base q ∧ m.cache q = fun _ => 0 :=
    fun q hq he => by
      have := resetImpl_plain _ _ _ _ _ hm hw.plain q (hlt hq) he
      exact ⟨this.1, this.2.2⟩
  have hspec := revO_spec P σ.defs {q | σ.looks y q} rank ρ δ x (σ.defs.nidx x) G (fun _ => b)
    (fun q hq hb => by
      obtain ⟨hxs, hbare⟩ := hx hb
      refine ⟨⟨fun h => hw.defs.inj q (hlt hq) x hxs h, fun h => by rw [h]⟩, fun i hi p hp =>
        ⟨fun h => hw.defs.inj p (hw.defs.closed q (hlt hq) i hi p hp) x hxs h, fun h => by rw [h]⟩,
        fun i hi => hw.defs.leaf x hxs q (hlt hq) i hi,
        fun i hi p hp => hw.defs.parleaf p (hw.defs.parsOK q (hlt hq) i hi p hp) x hxs,
        hbare q hq, ?_, fun _ _ _ _ => hb⟩
      rintro rfl i hi
      rw [hxi hq] at hi; simp at hi)
    (fun h => (hδ x h).1 rfl)
    (fun h i hi => by rw [hxi h] at hi; simp at hi) σ.defs.fuel (rank y + 1) y .refl (by omega) m m' (by
      refine ⟨fun q hq hl hv => inv.vis q hq hl hv, fun q hq hl hv _ => ?_, fun q hq hl hv n hn => ?_,
        fun q hq hl he => hplain q hq he, fun q hq hl hv => ⟨⟨(inv.eqn q hq hl hv).1, hG q hq (hnk q hv)⟩,
          (inv.eqn q hq hl hv).2, fun hqx => (hδ q hq).2.2 hqx (hnk q hv)⟩⟩
      · have hk := (h1 q).1 hv
        split
        · next h => subst h; rw [(hplain q hq (hxi hq)).2]
        · next h => rw [(h3 q hk.2.2).2.2, (hδ q hq).2.1 h hk]
      · have hk := (h1 q).1 hv
        rw [(h3 q hk.2.2).2.2]
        exact hG' q hq hk n hn) hev
  obtain ⟨inv', fr, hv', hn⟩ := hspec
  have hall := looks_visited (σ := σ) h1 hv' hn
  refine ⟨fun hb q hq hqx => ?_, fun q hq n hgn =>
    inv'.foreign q hq (looks_rank hr q hq) (hall q hq) n hgn⟩
  have := inv'.key q hq (looks_rank hr q hq) (hall q hq) hb
  rwa [if_neg hqx] at this

/-- `PreComp` from any reachable state: the derivatives it stores with respect to a Variable. -/
theorem PreComp_exact_rev {σ : St K} (hw : σ.WF) {y x : ℕ} (hy : y < σ.defs.size) (hx : x < σ.defs.size)
    (hxi : σ.defs.items x = []) (hbare : ∀ q, σ.looks y q → Node.leaf x ∉ σ.defs.items q)
    (hwd : WellDefinedKept σ.defs (σ.kept y) y) (hc : CleanKept σ.defs (σ.kept y) σ.mem.cache y)
    {ρ δ : ℕ → K} (hρ : SolvesKept P σ.defs (σ.kept y) σ.mem.value y ρ)
    (hδ : TangentKept P σ.defs (σ.kept y) (fun q => σ.mem.cache q (σ.defs.nidx x)) y x ρ δ) :
    ∃ σ', PreComp P y σ = some σ' ∧ Stored y ρ σ σ' ∧ DKept y σ σ' ∧
      (∀ q, ¬ σ.looks y q → σ'.mem.cache q = σ.mem.cache q) ∧
      ∀ q, σ.looks y q → q ≠ x → σ'.mem.cache q (σ.defs.nidx x) = δ q := by
  obtain ⟨⟨rank, hr⟩, -⟩ := id hwd
  obtain ⟨σ', e, a, c, d, f, -⟩ := PreComp_kept P hw hy True (fun _ => ⟨hx, hbare⟩) (fun _ => hxi) hwd
    (InvolvesKept σ.defs (σ.kept y) σ.mem.cache) (fun q hq hk => hc.idsAt hw.defs hy hr hq hk)
    (fun q hq hk n hn => by
      by_contra h
      exact hn ⟨q, .refl, Or.inr (Or.inl ⟨hk, h⟩)⟩) hρ hδ
  exact ⟨σ', e, a, c, d, f trivial⟩

/-! ## Histories that never reverse a dependence -/

/-- Every Expression is defined through Expressions of smaller `rank` (and possibly its own previous value). -/
def OrdDefs (rank : ℕ → ℕ) (D : Defs K) : Prop :=
  ∀ q < D.size, ∀ i ∈ D.items q, ∀ p ∈ i.leaves, p = q ∨ rank p < rank q

/-- One API call. -/
inductive ApiCall : St K → St K → Prop
  | newVar {σ} (v : K) : ApiCall σ (newVar v σ).2
  | newPar {σ} (v : K) : ApiCall σ (newPar v σ).2
  | newExpr {σ} : ApiCall σ (newExpr σ).2
  | setVar {σ} (x : ℕ) (v : K) : x < σ.defs.size → σ.defs.items x = [] → ApiCall σ (assignNum x v σ)
  | setPar {σ} (p : ℕ) (v : K) : p < σ.defs.psize → ApiCall σ (assignPar p v σ)
  | define {σ} (y : ℕ) (e : Exp K) : y < σ.defs.size → σ.defs.items y ≠ [] →
      (∀ p ∈ e.leaves, p < σ.defs.size) → (∀ p ∈ e.pars, p < σ.defs.psize) → ApiCall σ (define y e σ)
  | formula {σ} (n : ℕ) : σ.defs.next ≤ n → ApiCall σ { σ with defs := { σ.defs with next := n } }
  | assign {σ} (y : ℕ) (t : Node K) : y < σ.defs.size → σ.defs.items y ≠ [] →
      (∀ p ∈ t.leaves, p < σ.defs.size) → (∀ p ∈ t.pars, p < σ.defs.psize) → ApiCall σ (assignExp y t σ)
  | defineRef {σ} (y z : ℕ) : y < σ.defs.size → σ.defs.items y ≠ [] →
      z < σ.defs.size → σ.defs.items z ≠ [] → ApiCall σ (assignRef y z σ)
  | eval {σ σ'} (y : ℕ) (v : K) : y < σ.defs.size → Eval P y σ = some (v, σ') → ApiCall σ σ'
  | devalF {σ σ'} (y x : ℕ) (v : K) : y < σ.defs.size → x < σ.defs.size → DevalF P y x σ = some (v, σ') → ApiCall σ σ'
  | preComp {σ σ'} (y : ℕ) : y < σ.defs.size → PreComp P y σ = some σ' → ApiCall σ σ'

/-- `Ordered P rank σ`: `σ` is the result of a sequence of API calls -- any definitions, redefinitions, assignments and
queries in any order -- during which an Expression was only ever defined through Expressions of smaller `rank` (or
its own previous value). -/
inductive Ordered (rank : ℕ → ℕ) : St K → Prop
  | init : Ordered rank St.init
  | call {σ σ'} : Ordered rank σ → ApiCall P σ σ' → OrdDefs rank σ'.defs → Ordered rank σ'

theorem ApiCall.run {P : Prim K} {σ σ' : St K} (h : ApiCall P σ σ') (hr : Run P σ) : Run P σ' := by
  cases h with
  | newVar v => exact .newVar v hr
  | newPar v => exact .newPar v hr
  | newExpr => exact .newExpr hr
  | setVar x v a b => exact .setVar x v hr a b
  | setPar p v a => exact .setPar p v hr a
  | define y e a b c d => exact .define y e hr a b c d
  | formula n a => exact .formula n hr a
  | assign y t a b c d => exact .assign y t hr a b c d
  | defineRef y z a b c d => exact .defineRef y z hr a b c d
  | eval y v a b => exact .eval y v hr a b
  | devalF y x v a b c => exact .devalF y x v hr a b c
  | preComp y a b => exact .preComp y hr a b

theorem Ordered.run {P : Prim K} {rank : ℕ → ℕ} {σ : St K} (h : Ordered P rank σ) : Run P σ := by
  induction h with
  | init => exact .init
  | call _ h _ ih => exact h.run ih

/-- Every history is made of API calls. -/
theorem Run.last {P : Prim K} {σ : St K} (h : Run P σ) : σ = St.init ∨ ∃ σ₀, Run P σ₀ ∧ ApiCall P σ₀ σ := by
  cases h with
  | init => exact Or.inl rfl
  | newVar v h => exact Or.inr ⟨_, h, .newVar v⟩
  | newPar v h => exact Or.inr ⟨_, h, .newPar v⟩
  | newExpr h => exact Or.inr ⟨_, h, .newExpr⟩
  | setVar x v h a b => exact Or.inr ⟨_, h, .setVar x v a b⟩
  | setPar p v h a => exact Or.inr ⟨_, h, .setPar p v a⟩
  | define y e h a b c d => exact Or.inr ⟨_, h, .define y e a b c d⟩
  | formula n h a => exact Or.inr ⟨_, h, .formula n a⟩
  | assign y t h a b c d => exact Or.inr ⟨_, h, .assign y t a b c d⟩
  | defineRef y z h a b c d => exact Or.inr ⟨_, h, .defineRef y z a b c d⟩
  | eval y v h a b => exact Or.inr ⟨_, h, .eval y v a b⟩
  | devalF y x v h a b c => exact Or.inr ⟨_, h, .devalF y x v a b c⟩
  | preComp y h a b => exact Or.inr ⟨_, h, .preComp y a b⟩

/-- Bound on the caches: an operator's number occurs in the cache of `q` only if its owner does not rank above `q`. -/
def RankG (rank : ℕ → ℕ) (D : Defs K) (q n : ℕ) : Prop :=
  n < D.next ∧ ∀ o < D.size, ∀ i ∈ D.items o, n ∈ i.opIds → rank o ≤ rank q

theorem RankG.idsAt {rank : ℕ → ℕ} {D : Defs K} (hD : D.WF) (ho : OrdDefs rank D) {q : ℕ} (hq : q < D.size) :
    IdsAt D (RankG rank D) q := by
  refine ⟨hD.nodup q hq, hD.sep q hq, fun i hi j hj p hp => hD.leaf p (hD.closed q hq j hj p hp) q hq i hi,
    fun i hi j hj p hp => hD.par p (hD.parsOK q hq j hj p hp) q hq i hi, ?_, ?_, ?_, ?_, ?_⟩
  · intro i hi j hj p hp hpq n hn hG
    have h1 := hG.2 q hq i hi hn
    have h2 := (ho q hq j hj p hp).resolve_left hpq
    omega
  · intro i hi n hn
    refine ⟨hD.op_lt q hq i hi n hn, fun o hos j hj hnj => ?_⟩
    by_cases h : o = q
    · rw [h]
    · exact absurd hn (hD.sep' o hos q hq h j hj i hi n hnj)
  · intro i hi p hp
    have hps := hD.closed q hq i hi p hp
    exact ⟨hD.nidx_lt p hps, fun o hos j hj hn => absurd hn (hD.leaf p hps o hos j hj)⟩
  · intro i hi p hp
    have hps := hD.parsOK q hq i hi p hp
    exact ⟨hD.pnidx_lt p hps, fun o hos j hj hn => absurd hn (hD.par p hps o hos j hj)⟩
  · intro i hi p hp hpq n hG
    have h2 := (ho q hq i hi p hp).resolve_left hpq
    exact ⟨hG.1, fun o hos j hj hn => (hG.2 o hos j hj hn).trans h2.le⟩

/-- The caches of an ordered history respect the bound. -/
def RankCache (rank : ℕ → ℕ) (σ : St K) : Prop :=
  ∀ q < σ.defs.size, ∀ n, ¬ RankG rank σ.defs q n → σ.mem.cache q n = 0

/-- After any history, the first equation of an Expression does not mention it: an assignment that mentions its target
is appended to the equations already there. -/
theorem Run.first {P : Prim K} {σ : St K} (h : Run P σ) :
    ∀ q < σ.defs.size, ∀ i is, σ.defs.items q = i :: is → q ∉ i.leaves := by
  have key : ∀ (σ : St K) (y : ℕ) (t : Node K), σ.defs.items y ≠ [] →
      (∀ q < σ.defs.size, ∀ i is, σ.defs.items q = i :: is → q ∉ i.leaves) →
      ∀ q < σ.defs.size, ∀ i is, (assignExp y t σ).defs.items q = i :: is → q ∉ i.leaves := by
    intro σ y t hye ih q hq i is he
    by_cases h : q = y
    · subst h
      simp only [assignExp, Function.update_self] at he
      split at he
      · obtain ⟨j, js, hj⟩ := List.exists_cons_of_ne_nil hye
        rw [hj, List.cons_append, List.cons.injEq] at he
        exact he.1 ▸ ih q hq j js hj
      · next hf =>
        simp only [List.nil_append, List.cons.injEq] at he
        rw [← he.1, Node.leaves, cloneN_leaves]
        intro hm
        exact hf ((findMe_iff q t).2 hm)
    · simp only [assignExp, Function.update_of_ne h] at he
      exact ih q hq i is he
  induction h with
  | init => intro q _ i is he; simp [St.init] at he
  | @newVar σ v h ih =>
      intro q hq i is he
      by_cases h : q = σ.defs.size
      · subst h; simp [CoolDiff.newVar] at he
      · simp only [CoolDiff.newVar, Function.update_of_ne h] at he hq
        exact ih q (by omega) i is he
  | newPar v h ih => exact ih
  | @newExpr σ h ih =>
      intro q hq i is he
      have h0 := h.defs_wf.2
      by_cases h : q = σ.defs.size
      · subst h
        simp only [CoolDiff.newExpr, Function.update_self, List.cons.injEq] at he
        rw [← he.1]; simp only [Node.leaves, List.mem_singleton]; omega
      · simp only [CoolDiff.newExpr, Function.update_of_ne h] at he hq
        exact ih q (by omega) i is he
  | @setVar σ x v h hx hi ih =>
      intro q hq i is he
      by_cases h : q = x
      · subst h; simp [assignNum] at he
      · simp only [assignNum, Function.update_of_ne h] at he
        exact ih q hq i is he
  | setPar p v h _ ih => exact ih
  | @define σ y e h hy hye hl hp ih =>
      exact key { σ with defs := { σ.defs with next := (e.build σ.defs.next).2 } } y _ hye ih
  | formula n h _ ih => exact ih
  | assign y t h hy hye _ _ ih => exact key _ y t hye ih
  | @defineRef σ y z h hy hye _ _ ih =>
      intro q hq i is he
      by_cases h : q = y
      · subst h
        simp only [assignRef, Function.update_self] at he
        split at he
        · obtain ⟨j, js, hj⟩ := List.exists_cons_of_ne_nil hye
          rw [hj, List.cons_append, List.cons.injEq] at he
          exact he.1 ▸ ih q hq j js hj
        · next hf =>
          simp only [List.nil_append, List.cons.injEq] at he
          rw [← he.1]
          simp only [Node.leaves, List.mem_singleton]
          rintro rfl; simp at hf
      · simp only [assignRef, Function.update_of_ne h] at he
        exact ih q hq i is he
  | eval y v _ _ he ih => rw [Eval_defs he]; exact ih
  | devalF y x v _ _ _ he ih => rw [DevalF_defs he]; exact ih
  | preComp y _ _ he ih => rw [PreComp_defs he]; exact ih

theorem OrdDefs.wdKept {rank : ℕ → ℕ} {σ : St K} (h : OrdDefs rank σ.defs) {P : Prim K} (hr : Run P σ) {y : ℕ}
    (hy : y < σ.defs.size) : WellDefined σ.defs y :=
  ⟨⟨rank, fun q hq => h q (Reach.lt hr.wf.defs.closed hy hq)⟩,
    fun q hq => hr.first q (Reach.lt hr.wf.defs.closed hy hq)⟩

theorem RankCache.mono {rank : ℕ → ℕ} {σ σ' : St K} (h : RankCache rank σ) (hn : σ.defs.next ≤ σ'.defs.next)
    (hc : ∀ q < σ'.defs.size, σ'.mem.cache q = (fun _ => 0) ∨
      (q < σ.defs.size ∧ σ'.mem.cache q = σ.mem.cache q))
    (ho : ∀ o < σ'.defs.size, ∀ i ∈ σ'.defs.items o, ∀ n ∈ i.opIds, n < σ.defs.next →
      o < σ.defs.size ∧ ∃ j ∈ σ.defs.items o, n ∈ j.opIds) : RankCache rank σ' := by
  intro q hq n hG
  rcases hc q hq with h' | ⟨hqs, h'⟩
  · rw [h']
  · rw [h']
    refine h q hqs n fun hg => hG ⟨hg.1.trans_le hn, fun o hos i hi hni => ?_⟩
    obtain ⟨hos', j, hj, hnj⟩ := ho o hos i hi n hni hg.1
    exact hg.2 o hos' j hj hnj

theorem RankCache.assignExp {rank : ℕ → ℕ} {σ : St K} (h : RankCache rank σ) (y : ℕ) (t : Node K) :
    RankCache rank (assignExp y t σ) := by
  obtain ⟨c1, c2, -⟩ := cloneN_ids t σ.defs.next
  refine h.mono (by simp only [CoolDiff.assignExp]; omega) (fun q hq => Or.inr ⟨hq, rfl⟩) ?_
  intro o ho i hi n hn hlt
  refine ⟨ho, ?_⟩
  by_cases e : o = y
  · subst e
    simp only [CoolDiff.assignExp, Function.update_self, List.mem_append, List.mem_singleton] at hi
    rcases hi with hi | rfl
    · split at hi
      · exact ⟨i, hi, hn⟩
      · simp at hi
    · simp only [Node.opIds, List.mem_cons] at hn
      rcases hn with rfl | hn
      · omega
      · have := c2 n hn; omega
  · simp only [CoolDiff.assignExp, Function.update_of_ne e] at hi
    exact ⟨i, hi, hn⟩

theorem Ordered.rankCache {P : Prim K} {rank : ℕ → ℕ} {σ : St K} (h : Ordered P rank σ) :
    OrdDefs rank σ.defs ∧ RankCache rank σ := by
  induction h with
  | init =>
      refine ⟨fun q _ i hi => by simp [St.init] at hi, fun q _ n _ => rfl⟩
  | @call σ σ' hσ hc hord ih =>
      refine ⟨hord, ?_⟩
      obtain ⟨hord0, ihc⟩ := ih
      have hrun := hσ.run
      have hw := hrun.wf
      cases hc with
      | newVar v =>
          refine ihc.mono (by simp [CoolDiff.newVar]) (fun q hq => ?_) fun o ho i hi n hn _ => ?_
          · by_cases e : q = σ.defs.size
            · subst e; exact Or.inl (by simp [CoolDiff.newVar])
            · simp only [CoolDiff.newVar] at hq
              exact Or.inr ⟨by omega, by simp [CoolDiff.newVar, e]⟩
          · by_cases e : o = σ.defs.size
            · subst e; simp [CoolDiff.newVar] at hi
            · simp only [CoolDiff.newVar, Function.update_of_ne e] at hi ho
              exact ⟨by omega, i, hi, hn⟩
      | newPar v =>
          exact ihc.mono (σ' := (CoolDiff.newPar v σ).2) (by simp [CoolDiff.newPar]) (fun q hq => Or.inr ⟨hq, rfl⟩)
            (fun o ho i hi n hn _ => ⟨ho, i, hi, hn⟩)
      | newExpr =>
          refine ihc.mono (by simp [CoolDiff.newExpr]) (fun q hq => ?_) fun o ho i hi n hn _ => ?_
          · by_cases e : q = σ.defs.size
            · subst e; exact Or.inl (by simp [CoolDiff.newExpr])
            · simp only [CoolDiff.newExpr] at hq
              exact Or.inr ⟨by omega, by simp [CoolDiff.newExpr, e]⟩
          · by_cases e : o = σ.defs.size
            · subst e
              simp only [CoolDiff.newExpr, Function.update_self, List.mem_singleton] at hi
              subst hi; simp [Node.opIds] at hn
            · simp only [CoolDiff.newExpr, Function.update_of_ne e] at hi ho
              exact ⟨by omega, i, hi, hn⟩
      | setVar x v hx hxi =>
          refine ihc.mono le_rfl (fun q hq => ?_) fun o ho i hi n hn _ => ?_
          · by_cases e : q = x
            · subst e; exact Or.inl (by simp [assignNum])
            · exact Or.inr ⟨hq, by simp [assignNum, e]⟩
          · by_cases e : o = x
            · subst e; simp [assignNum] at hi
            · simp only [assignNum, Function.update_of_ne e] at hi
              exact ⟨ho, i, hi, hn⟩
      | setPar p v _ =>
          exact ihc.mono le_rfl (fun q hq => Or.inr ⟨hq, rfl⟩)
            (fun o ho i hi n hn _ => ⟨ho, i, hi, hn⟩)
      | define y e _ _ _ _ =>
          exact RankCache.assignExp (σ := { σ with defs := { σ.defs with next := (e.build σ.defs.next).2 } })
            (ihc.mono (e.build_ok _).le (fun q hq => Or.inr ⟨hq, rfl⟩)
              fun o ho i hi n hn _ => ⟨ho, i, hi, hn⟩) y _
      | formula n hn =>
          exact ihc.mono hn (fun q hq => Or.inr ⟨hq, rfl⟩)
            (fun o ho i hi n hn _ => ⟨ho, i, hi, hn⟩)
      | assign y t _ _ _ _ => exact ihc.assignExp y t
      | defineRef y z _ _ _ _ =>
          refine ihc.mono le_rfl (fun q hq => Or.inr ⟨hq, rfl⟩) fun o ho i hi n hn _ => ⟨ho, ?_⟩
          by_cases e : o = y
          · subst e
            simp only [assignRef, Function.update_self, List.mem_append, List.mem_singleton] at hi
            rcases hi with hi | rfl
            · split at hi
              · exact ⟨i, hi, hn⟩
              · simp at hi
            · simp [Node.opIds] at hn
          · simp only [assignRef, Function.update_of_ne e] at hi
            exact ⟨i, hi, hn⟩
      | eval y v hy he =>
          have hk := (hord0.wdKept hrun hy).wdKept (σ.kept y)
          obtain ⟨ρ, hρ⟩ := hk.exists_solves P σ.mem.value
          obtain ⟨σ₂, e, st, -, ck⟩ := Eval_exact P hw hy hk hρ
          rw [he] at e
          simp only [Option.some.injEq, Prod.mk.injEq] at e
          obtain ⟨-, rfl⟩ := e
          refine ihc.mono (by rw [st.defs]) (fun q hq => ?_) fun o ho i hi n hn _ => ?_
          · by_cases e : σ.resets y q
            · exact Or.inl (ck.met q e)
            · exact Or.inr ⟨by rwa [st.defs] at hq, ck.out q e⟩
          · rw [st.defs] at ho hi
            exact ⟨ho, i, hi, hn⟩
      | devalF y x v hy hx he =>
          have hk := (hord0.wdKept hrun hy).wdKept (σ.kept y)
          obtain ⟨ρ, hρ⟩ := hk.exists_solves P σ.mem.value
          obtain ⟨δ, hδ⟩ := hk.exists_tangent P x σ.mem.dvalue ρ
          obtain ⟨σ₂, e, st, ck, -⟩ := DevalF_exact P hw hy hx hk hρ hδ
          rw [he] at e
          simp only [Option.some.injEq, Prod.mk.injEq] at e
          obtain ⟨-, rfl⟩ := e
          refine ihc.mono (by rw [st.defs]) (fun q hq => ?_) fun o ho i hi n hn _ => ?_
          · by_cases e : σ.resets y q
            · exact Or.inl (ck.met q e)
            · exact Or.inr ⟨by rwa [st.defs] at hq, ck.out q e⟩
          · rw [st.defs] at ho hi
            exact ⟨ho, i, hi, hn⟩
      | preComp y hy he =>
          have hk := (hord0.wdKept hrun hy).wdKept (σ.kept y)
          have hlt : ∀ {q}, σ.looks y q → q < σ.defs.size := fun hq => Reach.lt hw.defs.closed hy (Uses.reach hq)
          have hnx : ¬ σ.looks y σ.defs.size := fun h => lt_irrefl _ (hlt h)
          obtain ⟨ρ, hρ⟩ := hk.exists_solves P σ.mem.value
          obtain ⟨δ, hδ⟩ := hk.exists_tangent P σ.defs.size
            (fun q => σ.mem.cache q (σ.defs.nidx σ.defs.size)) ρ
          obtain ⟨σ₂, e, st, -, hout, -, hG⟩ := PreComp_kept P hw hy False nofun (fun h => absurd h hnx) hk
            (RankG rank σ.defs) (fun q hq _ => RankG.idsAt hw.defs hord0 (hlt hq))
            (fun q hq _ n hn => ihc q (hlt hq) n hn) hρ hδ
          rw [he] at e
          simp only [Option.some.injEq] at e
          obtain rfl := e
          intro q hq n hn
          rw [st.defs] at hq hn
          by_cases hl : σ.looks y q
          · exact hG q hl n hn
          · rw [hout q hl]; exact ihc q hq n hn

/-- After an ordered history no cache holds entries of operators above it. -/
theorem Ordered.clean {P : Prim K} {rank : ℕ → ℕ} {σ : St K} (h : Ordered P rank σ) {y : ℕ} (hy : y < σ.defs.size) :
    CleanKept σ.defs (σ.kept y) σ.mem.cache y := by
  obtain ⟨hord, hc⟩ := h.rankCache
  have hw := h.run.wf
  intro o ho hk r hor hkr i hi n hn
  have hos := Reach.lt hw.defs.closed hy ho.reach
  have hrs := Reach.lt hw.defs.closed hos hor.reach
  refine hc r hrs n fun hG => ?_
  have h1 := hG.2 o hos i hi hn
  -- `r` is strictly below `o`
  have key : ∀ {c}, Uses σ.defs (σ.kept y) o c → c = o ∨ rank c < rank o := by
    intro c hc
    induction hc with
    | refl => exact Or.inl rfl
    | @step a c j ha hka hj hl ih =>
        have has := Reach.lt hw.defs.closed hos ha.reach
        rcases hord a has j hj c hl with h | h
        · rw [h]; exact ih
        · rcases ih with rfl | ih
          · exact Or.inr h
          · exact Or.inr (h.trans ih)
  rcases key hor with rfl | h
  · exact hk hkr
  · omega

end

end CoolDiff
