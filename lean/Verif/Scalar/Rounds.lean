import Verif.Scalar.Exact

/-!
# Stored results that are current

Several queries in a row.  A query may rely on a result an earlier one stored; its answer is right when the
results it relies on are current.  `Cur` is a property of the heap alone; the theorems say which API calls
establish it, keep it or may destroy it.
-/

set_option linter.unusedSectionVars false

namespace CoolDiff

variable {K : Type} [Field K] [DecidableEq K]

/-- `q`, and every Expression below it, holds a stored result that is as it should be (`Good`). -/
def Cur (Good : Defs K → Mem K → ℕ → Prop) (σ : St K) (q : ℕ) : Prop :=
  ∀ p, Reach σ.defs q p → σ.defs.items p ≠ [] → σ.mem.visited p = true ∧ Good σ.defs σ.mem p

/-- `y` may be queried: whenever the query relies on a stored result of an Expression (it looks at the Expression,
and the reset that starts the query has not thrown the result away), that result is as it should be. -/
def Fine (Good : Defs K → Mem K → ℕ → Prop) (σ : St K) (y : ℕ) : Prop :=
  ∀ q, σ.looks y q → σ.kept y q → σ.defs.items q ≠ [] → Cur Good σ q

/-- A condition that only looks at neighbours: whenever an Expression below `y` that holds no stored result
directly mentions one that does, that result is as it should be. -/
theorem Fine.of_neighbours {Good : Defs K → Mem K → ℕ → Prop} {σ : St K} {y : ℕ}
    (hs : ∀ q, Reach σ.defs y q → q ≠ y → σ.mem.visited q ≠ true → ∀ i ∈ σ.defs.items q, ∀ p ∈ i.leaves,
      σ.defs.items p ≠ [] → σ.mem.visited p = true → Cur Good σ p) : Fine Good σ y := by
  intro q hq hk he
  cases hq with
  | refl => exact absurd rfl hk.2.1
  | @step p _ i hp hpk hi hq =>
      by_cases hpy : p = y
      · subst hpy; exact absurd (.child hi hq) hk.2.2
      · by_cases hpv : σ.mem.visited p = true
        · have hpm : Met σ.defs (fun q => σ.mem.visited q = true) y p := by
            by_contra hn
            exact hpk ⟨hpv, hpy, hn⟩
          exact absurd (.step hpm hpv hi hq) hk.2.2
        · exact hs p (Uses.reach hp) hpy hpv i hi q hq he hk.1

theorem Safe.fine {σ : St K} {y : ℕ} (h : Safe σ.defs (fun q => σ.mem.visited q = true) y)
    (Good : Defs K → Mem K → ℕ → Prop) : Fine Good σ y :=
  .of_neighbours fun q hq hy hv i hi p hp he hpv => absurd hpv (h q hq hy hv i hi p hp he)

section
variable {Good : Defs K → Mem K → ℕ → Prop} {σ σ' : St K}

theorem Cur.down {q p : ℕ} (h : Cur Good σ q) (hp : Reach σ.defs q p) : Cur Good σ p :=
  fun r hr => h r (hp.trans hr)

theorem Cur.mono {Good' : Defs K → Mem K → ℕ → Prop} (hg : ∀ D m q, Good D m q → Good' D m q) {q : ℕ}
    (h : Cur Good σ q) : Cur Good' σ q := fun p hp he => ⟨(h p hp he).1, hg _ _ _ (h p hp he).2⟩

theorem Fine.mono {Good' : Defs K → Mem K → ℕ → Prop} (hg : ∀ D m q, Good D m q → Good' D m q) {y : ℕ}
    (h : Fine Good σ y) : Fine Good' σ y :=
  fun q hq hk he => (h q hq hk he).mono hg

/-- The stored results a query relies on are current. -/
theorem Fine.kept {y : ℕ} (hs : Fine Good σ y) {q : ℕ} (hq : σ.looks y q)
    (hk : σ.kept y q) (he : σ.defs.items q ≠ []) : Cur Good σ q := hs q hq hk he

/-- What a query does not look at is current already. -/
theorem Fine.cover {y : ℕ} (hs : Fine Good σ y) {q : ℕ} (hq : Reach σ.defs y q) :
    σ.looks y q ∨ Cur Good σ q := by
  induction hq with
  | refl => exact Or.inl .refl
  | @step q p i _ hi hp ih =>
      rcases ih with ih | ih
      · by_cases hk : σ.kept y q
        · exact Or.inr ((hs.kept ih hk (List.ne_nil_of_mem hi)).down (.of_leaf hi hp))
        · exact Or.inl (Uses.step ih hk hi hp)
      · exact Or.inr (ih.down (.of_leaf hi hp))

theorem Fine.keptR {y : ℕ} (hs : Fine Good σ y) {q : ℕ} (hq : Reach σ.defs y q)
    (hk : σ.kept y q) (he : σ.defs.items q ≠ []) : Cur Good σ q :=
  (hs.cover hq).elim (fun hl => hs.kept hl hk he) id

/-- What a query establishes. -/
theorem Fine.cur {y : ℕ} {ρ : ℕ → K} (hs : Fine Good σ y) (hst : Stored y ρ σ σ')
    (hl : ∀ q, σ.looks y q → Good σ'.defs σ'.mem q)
    (ho : ∀ q, ¬ σ.looks y q → Good σ.defs σ.mem q → Good σ'.defs σ'.mem q)
    {q : ℕ} (hq : Reach σ.defs y q) : Cur Good σ' q := by
  have hd := hst.defs
  intro p hp he
  rw [hd] at hp he
  by_cases hlp : σ.looks y p
  · exact ⟨(hst.vis p).2 (Or.inr hlp), hl p hlp⟩
  · have hc := ((hs.cover (hq.trans hp)).resolve_left hlp) p .refl he
    exact ⟨(hst.vis p).2 (Or.inl hc.1), ho p hlp hc.2⟩

/-- What a query keeps. -/
theorem Cur.keep {y : ℕ} {ρ : ℕ → K} {q : ℕ} (h : Cur Good σ q) (hst : Stored y ρ σ σ')
    (hl : ∀ p, Reach σ.defs q p → σ.defs.items p ≠ [] → σ.looks y p → Good σ'.defs σ'.mem p)
    (ho : ∀ p, ¬ σ.looks y p → Good σ.defs σ.mem p → Good σ'.defs σ'.mem p) : Cur Good σ' q := by
  have hd := hst.defs
  intro p hp he
  rw [hd] at hp he
  refine ⟨(hst.vis p).2 (Or.inl (h p hp he).1), ?_⟩
  by_cases hlp : σ.looks y p
  · exact hl p hp he hlp
  · exact ho p hlp (h p hp he).2

end

theorem WellDefined.of_reach {D : Defs K} {y q : ℕ} (h : WellDefined D y) (hq : Reach D y q) :
    WellDefined D q := by
  obtain ⟨⟨rank, h1⟩, h2⟩ := h
  exact ⟨⟨rank, fun p hp => h1 p (hq.trans hp)⟩, fun p hp => h2 p (hq.trans hp)⟩

section
variable {P : Prim K}

theorem Solves.of_reach {D : Defs K} {y q : ℕ} {ρ : ℕ → K} (h : Solves P D y ρ) (hq : Reach D y q) :
    Solves P D q ρ := fun p hp => h p (hq.trans hp)

theorem Tangent.of_reach {D : Defs K} {y q x : ℕ} {ρ δ : ℕ → K} (h : Tangent P D y x ρ δ) (hq : Reach D y q) :
    Tangent P D q x ρ δ := fun p hp => h p (hq.trans hp)

theorem ValueOf.eq {D : Defs K} {y : ℕ} (hwd : WellDefined D y) {v : K} (h : ValueOf P D y v) {ρ : ℕ → K}
    (hρ : Solves P D y ρ) : v = ρ y := by
  obtain ⟨ρ', h1, rfl⟩ := h
  exact hwd.solves_unique h1 hρ y .refl

theorem DerivOf.eq {D : Defs K} {y x : ℕ} (hwd : WellDefined D y) {v : K} (h : DerivOf P D y x v) {ρ δ : ℕ → K}
    (hρ : Solves P D y ρ) (hδ : Tangent P D y x ρ δ) : v = δ y := by
  obtain ⟨ρ', δ', h1, h2, rfl⟩ := h
  exact hwd.tangent_unique (h2.congr_left (hwd.solves_unique h1 hρ)) hδ y .refl

theorem ValueOf.plain {σ : St K} (hw : σ.WF) {q : ℕ} (hq : q < σ.defs.size) (he : σ.defs.items q = []) :
    ValueOf P σ.defs q (σ.mem.value q) := by
  refine ⟨fun p => σ.defs.base p, fun p hp => ?_, (hw.plain q hq he).1.symm⟩
  have : p = q := by
    induction hp with
    | refl => rfl
    | step _ hi _ ih => subst ih; rw [he] at hi; simp at hi
  subst this
  rw [he]; rfl

theorem DerivOf.plain {D : Defs K} {q x : ℕ} (he : D.items q = []) (hx : q ≠ x) : DerivOf P D q x 0 := by
  refine ⟨fun p => D.base p, fun p => 0, fun p hp => ?_, fun p hp => ?_, rfl⟩ <;>
  · have : p = q := by
      induction hp with
      | refl => rfl
      | step _ hi _ ih => subst ih; rw [he] at hi; simp at hi
    subst this
    rw [he]
    simp [hx, seqVal, seqDer]

theorem Eval_wf {σ σ' : St K} {y : ℕ} {v : K} (hw : σ.WF) (he : Eval P y σ = some (v, σ')) : σ'.WF := by
  simp only [Eval, Option.bind_eq_bind, Option.bind_eq_some_iff] at he
  obtain ⟨m, h1, ⟨u, m'⟩, h2, h3⟩ := he
  simp only [Option.some.injEq, Prod.mk.injEq] at h3
  obtain ⟨-, rfl⟩ := h3
  exact ⟨hw.defs, evalO_plain P _ _ _ _ _ _ h2 (resetImpl_plain _ _ _ _ _ h1 hw.plain)⟩

theorem DevalF_wf {σ σ' : St K} {y x : ℕ} {v : K} (hw : σ.WF) (he : DevalF P y x σ = some (v, σ')) : σ'.WF := by
  simp only [DevalF, Option.bind_eq_bind, Option.bind_eq_some_iff] at he
  obtain ⟨m, h1, ⟨u, m'⟩, h2, h3⟩ := he
  simp only [Option.some.injEq, Prod.mk.injEq] at h3
  obtain ⟨-, rfl⟩ := h3
  exact ⟨hw.defs, fwdO_plain P _ _ _ _ _ _ _ h2 (resetImpl_plain _ _ _ _ _ h1 hw.plain)⟩

theorem PreComp_wf {σ σ' : St K} {y : ℕ} (hw : σ.WF) (he : PreComp P y σ = some σ') : σ'.WF := by
  simp only [PreComp, Option.bind_eq_bind, Option.bind_eq_some_iff] at he
  obtain ⟨m, h1, m', h2, h3⟩ := he
  simp only [Option.some.injEq] at h3
  obtain rfl := h3
  exact ⟨hw.defs, revO_plain P _ _ _ _ _ h2 (resetImpl_plain _ _ _ _ _ h1 hw.plain)⟩

/-- The stored value of `q` is its value. -/
def GoodV (P : Prim K) (D : Defs K) (m : Mem K) (q : ℕ) : Prop := ValueOf P D q (m.value q)

/-- The stored forward derivative of `q` is its derivative with respect to `x` (and the value its value). -/
def GoodF (P : Prim K) (x : ℕ) (D : Defs K) (m : Mem K) (q : ℕ) : Prop :=
  ValueOf P D q (m.value q) ∧ (q ≠ x → DerivOf P D q x (m.dvalue q))

/-- The stored reverse derivatives of `q` are its derivatives, and there are none with respect to anything `q`
does not involve (and the value its value). -/
def GoodR (P : Prim K) (D : Defs K) (m : Mem K) (q : ℕ) : Prop :=
  ValueOf P D q (m.value q) ∧
    (∀ x kx, KeyHyp D {p | Reach D q p} x kx →
      (q ≠ x → DerivOf P D q x (m.cache q kx)) ∧ (q = x → m.cache q kx = 0)) ∧
    ∀ n, ¬ Involves D q n → m.cache q n = 0

section
variable {σ : St K} {Good : Defs K → Mem K → ℕ → Prop}

/-- The values relied on are values. -/
theorem Fine.solvesKept {y : ℕ} (hs : Fine (GoodV P) σ y) (hw : σ.WF)
    (hy : y < σ.defs.size) (hwd : WellDefined σ.defs y) {ρ : ℕ → K} (hρ : Solves P σ.defs y ρ) :
    SolvesKept P σ.defs (σ.kept y) σ.mem.value y ρ := by
  refine hρ.ofKept P fun q hq hk => ?_
  have hr := Uses.reach hq
  have hwq := hwd.of_reach hr
  by_cases he : σ.defs.items q = []
  · exact ValueOf.eq hwq (ValueOf.plain (P := P) hw (Reach.lt hw.defs.closed hy hr) he) (hρ.of_reach hr)
  · exact ValueOf.eq hwq (hs.kept hq hk he q .refl he).2 (hρ.of_reach hr)

/-- Whatever a query relies on, it computes right values for the objects that were current. -/
theorem Cur.solvesKept {y : ℕ} (hw : σ.WF) (hy : y < σ.defs.size) (hwd : WellDefined σ.defs y)
    {ρ : ℕ → K} (hρ : SolvesKept P σ.defs (σ.kept y) σ.mem.value y ρ) {ρ₀ : ℕ → K} (h0 : Solves P σ.defs y ρ₀)
    {q : ℕ} (hq : Cur (GoodV P) σ q) (hl : σ.looks y q) : ρ q = ρ₀ q := by
  obtain ⟨⟨rank, hr⟩, hf⟩ := hwd
  have hwd : WellDefined σ.defs y := ⟨⟨rank, hr⟩, hf⟩
  induction hn : rank q using Nat.strong_induction_on generalizing q with
  | _ n ih =>
      subst hn
      have hR := Uses.reach hl
      have hwq := hwd.of_reach hR
      by_cases hk : σ.kept y q
      · rw [(hρ q hl).1 hk]
        by_cases he : σ.defs.items q = []
        · exact ValueOf.eq hwq (ValueOf.plain (P := P) hw (Reach.lt hw.defs.closed hy hR) he) (h0.of_reach hR)
        · exact ValueOf.eq hwq (hq q .refl he).2 (h0.of_reach hR)
      · rw [(hρ q hl).2 hk, h0 q hR]
        apply seqVal_congr
        intro i hi p hp hpq
        exact ih (rank p) ((hr q hR i hi p hp).resolve_left hpq) (hq.down (.of_leaf hi hp))
          (Uses.step hl hk hi hp) rfl

/-- A query keeps current values current, whatever it relies on. -/
theorem Cur.keepV {σ' : St K} {y : ℕ} (hw : σ.WF) (hy : y < σ.defs.size) (hwd : WellDefined σ.defs y)
    {ρ : ℕ → K} (hρ : SolvesKept P σ.defs (σ.kept y) σ.mem.value y ρ) (hst : Stored y ρ σ σ')
    {q : ℕ} (hq : Cur (GoodV P) σ q) : Cur (GoodV P) σ' q := by
  obtain ⟨ρ₀, h0⟩ := hwd.exists_solves (P := P)
  refine hq.keep hst (fun p hp he hl => ?_) (fun p hl hg => ?_)
  · unfold GoodV
    rw [hst.val p hl, hst.defs, Cur.solvesKept hw hy hwd hρ h0 (hq.down hp) hl]
    exact ⟨ρ₀, h0.of_reach (Uses.reach hl), rfl⟩
  · unfold GoodV
    rw [hst.valOut p hl, hst.defs]; exact hg

/-- `Eval`. -/
theorem Fine.eval {y : ℕ} (hs : Fine (GoodV P) σ y) (hw : σ.WF) (hy : y < σ.defs.size)
    (hwd : WellDefined σ.defs y) {ρ : ℕ → K} (hρ : Solves P σ.defs y ρ) :
    ∃ σ', Eval P y σ = some (ρ y, σ') ∧ σ'.WF ∧ Stored y ρ σ σ' ∧ Cur (GoodV P) σ' y := by
  obtain ⟨σ', e, st, -, -⟩ := Eval_exact P hw hy (hwd.wdKept _) (hs.solvesKept hw hy hwd hρ)
  refine ⟨σ', e, Eval_wf hw e, st, hs.cur st (fun q hq => ?_) (fun q hq hg => ?_) .refl⟩
  · rw [st.defs]; exact ⟨ρ, hρ.of_reach (Uses.reach hq), (st.val q hq).symm⟩
  · unfold GoodV; rw [st.valOut q hq, st.defs]; exact hg

/-- `DevalF` with respect to `x`. -/
theorem Fine.devalF {x y : ℕ} (hs : Fine (GoodF P x) σ y) (hw : σ.WF) (hy : y < σ.defs.size)
    (hx : x < σ.defs.size) (hwd : WellDefined σ.defs y) {ρ δ : ℕ → K} (hρ : Solves P σ.defs y ρ)
    (hδ : Tangent P σ.defs y x ρ δ) :
    ∃ σ', DevalF P y x σ = some (δ y, σ') ∧ σ'.WF ∧ Stored y ρ σ σ' ∧ Cur (GoodF P x) σ' y := by
  have hρ' := (hs.mono fun _ _ _ h => h.1 : Fine (GoodV P) σ y).solvesKept hw hy hwd hρ
  have hδ' : TangentKept P σ.defs (σ.kept y) σ.mem.dvalue y x ρ δ := by
    refine hδ.ofKept P fun q hq hk hqx => ?_
    have hr := Uses.reach hq
    have hwq := hwd.of_reach hr
    by_cases he : σ.defs.items q = []
    · have hlt := Reach.lt hw.defs.closed hy hr
      rw [(hw.plain q hlt he).2.1]
      exact DerivOf.eq hwq (DerivOf.plain he hqx) (hρ.of_reach hr) (hδ.of_reach hr)
    · exact DerivOf.eq hwq ((hs.kept hq hk he q .refl he).2.2 hqx) (hρ.of_reach hr) (hδ.of_reach hr)
  obtain ⟨σ', e, st, -, d1, d2⟩ := DevalF_exact P hw hy hx (hwd.wdKept _) hρ' hδ'
  refine ⟨σ', e, DevalF_wf hw e, st, hs.cur st (fun q hq => ?_) (fun q hq hg => ?_) .refl⟩
  · have hr : Reach σ.defs y q := Uses.reach hq
    rw [st.defs]
    exact ⟨⟨ρ, hρ.of_reach hr, (st.val q hq).symm⟩, fun hqx =>
      ⟨ρ, δ, hρ.of_reach hr, hδ.of_reach hr, (d1 q hq hqx).symm⟩⟩
  · unfold GoodF; rw [st.valOut q hq, d2 q hq, st.defs]; exact hg

theorem KeyHyp.anti {D : Defs K} {S T : Set ℕ} {x kx : ℕ} (h : KeyHyp D S x kx) (hT : T ⊆ S) :
    KeyHyp D T x kx :=
  ⟨fun q hq => h.inj q (hT hq), fun q hq => h.op q (hT hq), fun p hp => h.par p (by
    obtain ⟨q, hq, r⟩ := hp; exact ⟨q, hT hq, r⟩), fun q hq => h.bare q (hT hq), fun hx => h.notself (hT hx)⟩

theorem Fine.preComp_key {y : ℕ} (hs : Fine (GoodR P) σ y) (hw : σ.WF) (hy : y < σ.defs.size)
    (hwd : WellDefined σ.defs y) {σ' : St K} (he : PreComp P y σ = some σ') (x kx : ℕ) :
    ∀ q, σ.looks y q → (KeyHyp σ.defs {p | Reach σ.defs q p} x kx →
      (q ≠ x → DerivOf P σ.defs q x (σ'.mem.cache q kx)) ∧ (q = x → σ'.mem.cache q kx = 0)) ∧
      ∀ n, ¬ Involves σ.defs q n → σ'.mem.cache q n = 0 := by
  obtain ⟨rank, hR⟩ := hwd.ranked
  obtain ⟨ρ, hρ⟩ := hwd.exists_solves (P := P)
  obtain ⟨δ, hδ⟩ := hwd.exists_tangent (P := P) x ρ
  simp only [PreComp, Option.bind_eq_bind, Option.bind_eq_some_iff] at he
  obtain ⟨m, hm, m', hev, h3⟩ := he
  simp only [Option.some.injEq] at h3
  obtain rfl := h3
  have hlt : ∀ q ∈ {q | Reach σ.defs y q}, q < σ.defs.size :=
    fun q hq => Reach.lt hw.defs.closed hy hq
  obtain ⟨h1, h2, h3⟩ := resetImpl_exact σ.defs hm
  have hpl := resetImpl_plain _ _ _ _ _ hm hw.plain
  have hgood : ∀ q, Reach σ.defs y q → m.visited q = true → σ.defs.items q ≠ [] →
      GoodR P σ.defs m q := by
    intro q hq hv he
    have hk := (h1 q).1 hv
    have := (hs.keptR hq hk he q .refl he).2
    have h3' := h3 q hk.2.2
    unfold GoodR
    rw [h3'.1, h3'.2.2]
    exact this
  obtain ⟨inv', fr, hv', hn⟩ := revO_spec P σ.defs {q | Reach σ.defs y q} rank ρ δ x kx
    (Involves σ.defs) (fun q => KeyHyp σ.defs {p | Reach σ.defs q p} x kx)
    (fun q hq hk => hk.at _ .refl (fun i hi p hp => .of_leaf hi hp)
      fun i hi p hp => hk.anti fun r hr => (Reach.of_leaf hi hp).trans hr)
    (fun h => by rw [hδ x h, if_pos rfl])
    (fun h i hi p hp hpx => by
      obtain ⟨hpS, hl⟩ := hR.closed x h i hi p hp
      exact tangent_below P σ.defs {q | Reach σ.defs y q} rank ρ δ x hR hδ _ p hpS le_rfl hpx
        (hl.resolve_left hpx).le)
    σ.defs.fuel (rank y + 1) y Reach.refl (by omega) m m' (by
      constructor
      · intro q hq _ hv
        by_cases he : σ.defs.items q = []
        · rw [(hpl q (hlt q hq) he).1, hρ q hq, he]; rfl
        · exact ValueOf.eq (hwd.of_reach hq) (hgood q hq hv he).1 (hρ.of_reach hq)
      · intro q hq _ hv hk
        by_cases he : σ.defs.items q = []
        · rw [(hpl q (hlt q hq) he).2.2]
          by_cases hqx : q = x
          · simp [hqx]
          · rw [if_neg hqx, hδ q hq, if_neg hqx, he]; rfl
        · have hg := (hgood q hq hv he).2.1 x kx hk
          by_cases hqx : q = x
          · rw [if_pos hqx]; exact hg.2 hqx
          · rw [if_neg hqx]
            exact DerivOf.eq (hwd.of_reach hq) (hg.1 hqx) (hρ.of_reach hq) (hδ.of_reach hq)
      · intro q hq _ hv n hn
        by_cases he : σ.defs.items q = []
        · rw [(hpl q (hlt q hq) he).2.2]
        · exact (hgood q hq hv he).2.2 n hn
      · intro q hq _ he
        have := hpl q (hlt q hq) he
        exact ⟨this.1, this.2.2⟩
      · intro q hq _ _
        exact ⟨⟨hR.at hq, (hw.defs.ids hlt).at hR hq⟩, hρ q hq, fun hqx => by rw [hδ q hq, if_neg hqx]⟩) hev
  have hrk : ∀ q, Reach σ.defs y q → rank q < rank y + 1 := by
    intro q hq
    induction hq with
    | refl => omega
    | step hq hi hp ih =>
        rcases (hR.closed _ hq _ hi _ hp).2 with h | h
        · rw [h]; exact ih
        · omega
  have hall := looks_visited (σ := σ) h1 hv' hn
  intro q hq
  have hr := Uses.reach hq
  have hv := hall q hq
  refine ⟨fun hk => ?_, inv'.foreign q hr (hrk q hr) hv⟩
  have hkq := inv'.key q hr (hrk q hr) hv hk
  refine ⟨fun hqx => ?_, fun hqx => ?_⟩
  · exact ⟨ρ, δ, hρ.of_reach hr, hδ.of_reach hr, by
      show δ q = m'.cache q kx
      rw [hkq, if_neg hqx]⟩
  · show m'.cache q kx = 0
    rw [hkq, if_pos hqx]

/-- `PreComp`. -/
theorem Fine.preComp {y : ℕ} (hs : Fine (GoodR P) σ y) (hw : σ.WF) (hy : y < σ.defs.size)
    (hwd : WellDefined σ.defs y) :
    ∃ ρ σ', PreComp P y σ = some σ' ∧ σ'.WF ∧ Stored y ρ σ σ' ∧ Cur (GoodR P) σ' y ∧
      ∀ q, Cur (GoodR P) σ q → Cur (GoodR P) σ' q := by
  obtain ⟨ρ, hρ⟩ := hwd.exists_solves (P := P)
  obtain ⟨σ', e, st, -, hco⟩ := PreComp_exact P hw hy (hwd.wdKept _)
    ((hs.mono fun _ _ _ h => h.1 : Fine (GoodV P) σ y).solvesKept hw hy hwd hρ)
  have hl : ∀ q, σ.looks y q → GoodR P σ'.defs σ'.mem q := by
    intro q hq
    rw [st.defs]
    refine ⟨⟨ρ, hρ.of_reach (Uses.reach hq), (st.val q hq).symm⟩, fun x kx => ?_, ?_⟩
    · exact (hs.preComp_key hw hy hwd e x kx q hq).1
    · exact (hs.preComp_key hw hy hwd e 0 0 q hq).2
  have ho : ∀ q, ¬ σ.looks y q → GoodR P σ.defs σ.mem q → GoodR P σ'.defs σ'.mem q := by
    intro q hq hg
    unfold GoodR; rw [st.valOut q hq, hco q hq, st.defs]; exact hg
  exact ⟨ρ, σ', e, PreComp_wf hw e, st, hs.cur st hl ho .refl,
    fun q hq => hq.keep st (fun p _ _ hp => hl p hp) ho⟩

end

end

end CoolDiff
