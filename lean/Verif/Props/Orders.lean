import Verif.Props.Reverse
import Verif.Scalar.OMap
import Verif.Scalar.Fuel
import Mathlib.Logic.Relation

/-!
# C05, C06, C12, C17, C21: repeated queries, zero derivatives, termination, order of queries
-/

set_option linter.unusedSectionVars false

namespace CoolDiff

variable {K : Type} [Field K] [DecidableEq K] {P : Prim K}

/-! ## C05 -/

/-- C05.  After `PreComp y`, let the cache of `y` be any C++ map `c` with these entries.  Any sequence
`xs` of `DevalR(y,·)` calls, in any order and with repetitions, answers each call with the value the
first call would have given, and leaves a map that is indistinguishable (same entries up to zeros), so
later queries see the same heap. -/
theorem C05_any_order {σ : St K} {y : ℕ} {c : OMap K} (hc : c.toCache = σ.mem.cache y)
    (xs : List ℕ) :
    (OMap.devalRs (xs.map σ.defs.nidx) c).1 = xs.map (fun x => DevalR y x σ) ∧
    (OMap.devalRs (xs.map σ.defs.nidx) c).2.toCache = σ.mem.cache y := by
  obtain ⟨h1, h2⟩ := OMap.devalRs_spec (xs.map σ.defs.nidx) c
  refine ⟨?_, by rw [h2, hc]⟩
  rw [h1, hc, List.map_map]
  rfl

/-- C05, with C04: the whole sequence of answers is the sequence of forward derivatives, from one
`PreComp`. -/
theorem C05_one_precomp_partial {σ : St K} (h : Run P σ) {y : ℕ}
    (hy : y < σ.defs.size) (hwd : WellDefined σ.defs y) (hs : ∀ x, Ready P σ y x) :
    ∃ σ₂, PreComp P y σ = some σ₂ ∧ ∀ c : OMap K, c.toCache = σ₂.mem.cache y → ∀ xs : List ℕ,
      (∀ x ∈ xs, x < σ.defs.size ∧ x ≠ 0 ∧ x ≠ y ∧ σ.defs.items x = []) →
      (OMap.devalRs (xs.map σ₂.defs.nidx) c).1.map some =
        xs.map (fun x => (DevalF P y x σ).map Prod.fst) := by
  obtain ⟨-, σ₂, h2, -⟩ := (hs y).rev.preComp h.wf hy hwd
  refine ⟨σ₂, h2, fun c hc xs hxs => ?_⟩
  rw [(C05_any_order hc xs).1, List.map_map]
  refine List.map_congr_left fun x hx => ?_
  obtain ⟨a1, a2, a3, a4⟩ := hxs x hx
  obtain ⟨d, σ₁, σ₂', e1, e2, e3⟩ := C04_variables_partial h hy a1 a2 a4 a3 hwd (hs x)
  rw [h2] at e2
  obtain rfl := Option.some.inj e2
  simp [e1, e3]

example : ∃ σ₂, PreComp Ex.P0 4 Ex.s0 = some σ₂ ∧ ∀ c : OMap ℚ, c.toCache = σ₂.mem.cache 4 →
    (OMap.devalRs ([2, 1, 2].map σ₂.defs.nidx) c).1.map some =
      [2, 1, 2].map (fun x => (DevalF Ex.P0 4 x Ex.s0).map Prod.fst) := by
  obtain ⟨σ₂, h1, h2⟩ := C05_one_precomp_partial Ex.s0_hist.run (y := 4) (by decide) Ex.s0_wd
    (Ex.s0_hist.ready Safe.none)
  refine ⟨σ₂, h1, fun c hc => h2 c hc _ ?_⟩
  intro x hx
  simp only [List.mem_cons, List.not_mem_nil, or_false] at hx
  rcases hx with rfl | rfl | rfl <;> exact ⟨by decide, by decide, by decide, rfl⟩

/-! ## C06 -/

/-- C06.  If no definition below `y` mentions `x`, both derivative modes return 0 (after every history,
each mode when no stale stored result is relied on; the symbolic mode is `C06_symbolic`).  Missing: stale stored results, see `C06_stale`. -/
theorem C06_unrelated_partial {σ : St K} (h : Run P σ) {y x : ℕ}
    (hy : y < σ.defs.size) (hx : x < σ.defs.size) (hwd : WellDefined σ.defs y)
    (hyx : ¬ Reach σ.defs y x) :
    (Fine (GoodF P x) σ y → ∃ σ', DevalF P y x σ = some (0, σ')) ∧
      (Fine (GoodR P) σ y → ∃ σ', PreComp P y σ = some σ' ∧ DevalR y x σ' = 0) := by
  obtain ⟨ρ, hρ⟩ := hwd.exists_solves (P := P)
  have hw := h.wf
  have hδ : Tangent P σ.defs y x ρ (fun _ => 0) := tangent_zero hyx ρ
  have hlt : ∀ q ∈ {q | Reach σ.defs y q}, q < σ.defs.size :=
    fun q hq => Reach.lt hw.defs.closed hy hq
  constructor <;> intro hs
  · obtain ⟨σ', h1, -⟩ := hs.devalF hw hy hx hwd hρ hδ
    exact ⟨σ', h1⟩
  · obtain ⟨σ', h1, h3⟩ := hs.devalR (x := x) hw hy hwd (by
      refine ⟨fun q hq => ⟨fun h => hw.defs.inj q (hlt q hq) x hx h, fun h => by rw [h]⟩,
        fun q hq i hi => hw.defs.leaf x hx q (hlt q hq) i hi, ?_, fun q hq hm => ?_,
        fun hm => absurd hm hyx⟩
      · rintro p ⟨q, hq, i, hi, hp⟩
        exact hw.defs.parleaf p (hw.defs.parsOK q (hlt q hq) i hi p hp) x hx
      · exact hyx (hq.trans (Reach.of_leaf hm (by simp [Node.leaves])))) hρ hδ
    refine ⟨σ', h1, ?_⟩
    rw [h3]
    simp

example : ¬ Reach Ex.s0.defs 3 4 ∧ (DevalF Ex.P0 3 4 Ex.s0).map Prod.fst = some 0 := by
  refine ⟨fun h => ?_, by decide +kernel⟩
  have : ∀ q, Reach Ex.s0.defs 3 q → q ≤ 3 := by
    intro q hq
    induction hq with
    | refl => exact le_refl _
    | @step q p i hq hi hp ih =>
        have h := (by decide : ∀ q ≤ 3, ∀ i ∈ Ex.s0.defs.items q, ∀ p ∈ i.leaves, p ≤ 3)
        exact h q ih i hi p hp
  exact absurd (this 4 h) (by decide)

namespace Ex

/-- as `stale2`, with one more Variable `u` (object 6) which no definition mentions -/
def stale3 : St ℚ := match DevalF P0 3 1 (newVar 7 stale0).2 with
  | some (_, σ) => σ
  | none => stale0

end Ex

/-- C06 fails after a history outside `C06_unrelated_partial`: `DevalF(w,x)` leaves the derivative of
the shared `c` in place, and then `DevalF(y,u)` is 8 for a Variable `u` that no definition mentions. -/
theorem C06_stale : (DevalF Ex.P0 5 6 Ex.stale3).map Prod.fst = some 8 := by decide +kernel

/-! ## C12 -/

/-- C12.  After any history at all, including circular definitions, every query and reset returns, and
the answer does not depend on the depth bound used to write the recursion down (every larger bound
gives the same answer). -/
theorem C12_terminates {σ : St K} (h : Run P σ) {y : ℕ} (hy : y < σ.defs.size) :
    (∃ v σ', Eval P y σ = some (v, σ')) ∧
    (∀ x, ∃ v σ', DevalF P y x σ = some (v, σ')) ∧
    (∃ σ', PreComp P y σ = some σ') ∧
    (∃ m, resetO σ.defs σ.defs.fuel y σ.mem = some m) := by
  have hc := h.defs_wf.1.closed
  obtain ⟨m, hm⟩ := resetImpl_total σ.defs hc y hy σ.mem
  have hu : unv σ.defs.size m < σ.defs.fuel := (unv_le _ _).trans_lt (by simp [Defs.fuel])
  refine ⟨?_, fun x => ?_, ?_, ?_⟩
  · obtain ⟨v, m', h1, -⟩ := evalO_total P σ.defs hc σ.defs.fuel y m hy hu
    exact ⟨v, ⟨σ.defs, m'⟩, by simp [Eval, hm, h1]⟩
  · obtain ⟨v, m', h1, -⟩ := fwdO_total P σ.defs hc (σ.defs.nidx x) σ.defs.fuel y m hy hu
    exact ⟨v, ⟨σ.defs, m'⟩, by simp [DevalF, hm, h1]⟩
  · obtain ⟨m', h1, -⟩ := revO_total P σ.defs hc σ.defs.fuel y m hy hu
    exact ⟨⟨σ.defs, m'⟩, by simp [PreComp, hm, h1]⟩
  · obtain ⟨m', h1, -⟩ := resetO_total σ.defs hc σ.defs.fuel y σ.mem hy
      ((vis_le _ _).trans_lt (by simp [Defs.fuel]))
    exact ⟨m', h1⟩

/-- C12, second half: the recursions are independent of the bound. -/
theorem C12_bound_irrelevant (D : Defs K) {f g : ℕ} (hfg : f ≤ g) (o : ℕ) (m : Mem K) :
    (∀ r, evalO P D f o m = some r → evalO P D g o m = some r) ∧
    (∀ k r, fwdO P D k f o m = some r → fwdO P D k g o m = some r) ∧
    (∀ r, revO P D f o m = some r → revO P D g o m = some r) ∧
    (∀ r, resetO D f o m = some r → resetO D g o m = some r) :=
  ⟨ext_le (evalO_ext P D) hfg o m, fun k => ext_le (fwdO_ext P D k) hfg o m,
    ext_le (revO_ext P D) hfg o m, ext_le (resetO_ext D) hfg o m⟩

namespace Ex

/-- `Expression y, z; z = y + 1; y = z*2;` (y = 1, z = 2): circular. -/
def cyc : St ℚ :=
  define 1 (.mulC (.var 2) 2) (define 2 (.addC (.var 1) 1) (newExpr (newExpr St.init).2).2)

theorem cyc_run : Run P0 cyc :=
  .define 1 _ (.define 2 _ (.newExpr (.newExpr .init)) (by decide) nofun (by decide) (by decide))
    (by decide) nofun (by decide) (by decide)

end Ex

example : (∃ v σ', Eval Ex.P0 1 Ex.cyc = some (v, σ')) ∧ (∃ v σ', Eval Ex.P0 2 Ex.cyc = some (v, σ'))
    ∧ ¬ WellDefined Ex.cyc.defs 1 := by
  refine ⟨(C12_terminates Ex.cyc_run (by decide)).1, (C12_terminates Ex.cyc_run (by decide)).1, ?_⟩
  rintro ⟨⟨rank, h⟩, -⟩
  have r2 : Reach Ex.cyc.defs 1 2 :=
    Reach.of_leaf (i := (Ex.cyc.defs.items 1).head (nofun)) (List.head_mem _) (by decide)
  have a := h 1 .refl ((Ex.cyc.defs.items 1).head (nofun)) (List.head_mem _) 2 (by decide)
  have b := h 2 r2 ((Ex.cyc.defs.items 2).head (nofun)) (List.head_mem _) 1 (by decide)
  omega

/-! ## C17 -/

/-- One query on `y`. -/
inductive QStep (P : Prim K) (y : ℕ) : St K → St K → Prop
  | eval {σ σ' : St K} (v : K) : Eval P y σ = some (v, σ') → QStep P y σ σ'
  | devalF {σ σ' : St K} (x : ℕ) (v : K) : x < σ.defs.size → DevalF P y x σ = some (v, σ') →
      QStep P y σ σ'
  | preComp {σ σ' : St K} : PreComp P y σ = some σ' → QStep P y σ σ'

theorem QSteps.ready {σ σ' : St K} (h : Run P σ) {y : ℕ} (hy : y < σ.defs.size)
    (hwd : WellDefined σ.defs y) (hs : ∀ x, Ready P σ y x)
    (hq : Relation.ReflTransGen (QStep P y) σ σ') :
    σ'.defs = σ.defs ∧ Run P σ' ∧ ∀ x, Ready P σ' y x := by
  induction hq with
  | refl => exact ⟨rfl, h, hs⟩
  | @tail τ τ' _ h1 ih =>
      obtain ⟨hd, hr, hsu⟩ := ih
      have hy' : y < τ.defs.size := by rw [hd]; exact hy
      have hwd' : WellDefined τ.defs y := by rw [hd]; exact hwd
      obtain ⟨ρ, hρ⟩ := hwd'.exists_solves (P := P)
      cases h1 with
      | eval v he =>
          obtain ⟨σ₂, e, -, -, c⟩ := (hsu y).val.eval hr.wf hy' hwd' hρ
          rw [he] at e
          simp only [Option.some.injEq, Prod.mk.injEq] at e
          rw [← e.2] at c
          exact ⟨(Eval_defs he).trans hd, .eval y v hr hy' he, fun x => c.ready x⟩
      | devalF x v hx he =>
          obtain ⟨δ, hδ⟩ := hwd'.exists_tangent (P := P) x ρ
          obtain ⟨σ₂, e, -, -, c⟩ := (hsu x).fwd.devalF hr.wf hy' hx hwd' hρ hδ
          rw [he] at e
          simp only [Option.some.injEq, Prod.mk.injEq] at e
          rw [← e.2] at c
          exact ⟨(DevalF_defs he).trans hd, .devalF y x v hr hy' hx he, fun x => c.ready x⟩
      | preComp he =>
          obtain ⟨-, σ₂, e, -, -, c, -⟩ := (hsu y).rev.preComp hr.wf hy' hwd'
          rw [he] at e
          simp only [Option.some.injEq] at e
          rw [← e] at c
          exact ⟨(PreComp_defs he).trans hd, .preComp y hr hy' he, fun x => c.ready x⟩

/-- C17.  After any sequence of queries on `y`, each query on `y` returns what it would have returned
without them (reverse mode: `PreComp` followed by `DevalR`). -/
theorem C17_order_irrelevant_partial {σ σ' : St K} (h : Run P σ) {y : ℕ}
    (hy : y < σ.defs.size) (hwd : WellDefined σ.defs y) (hs : ∀ x, Ready P σ y x)
    (hq : Relation.ReflTransGen (QStep P y) σ σ') :
    (Eval P y σ').map Prod.fst = (Eval P y σ).map Prod.fst ∧
    (∀ x < σ.defs.size, (DevalF P y x σ').map Prod.fst = (DevalF P y x σ).map Prod.fst) ∧
    (∀ x < σ.defs.size, RevOK σ.defs y x →
      (PreComp P y σ').map (DevalR y x) = (PreComp P y σ).map (DevalR y x)) := by
  obtain ⟨hd, hu, hsu⟩ := QSteps.ready h hy hwd hs hq
  obtain ⟨ρ, hρ⟩ := hwd.exists_solves (P := P)
  have hy' : y < σ'.defs.size := by rw [hd]; exact hy
  have hwd' : WellDefined σ'.defs y := by rw [hd]; exact hwd
  have hρ' : Solves P σ'.defs y ρ := by rw [hd]; exact hρ
  refine ⟨?_, fun x hx => ?_, fun x hx hr => ?_⟩
  · obtain ⟨τ, e1, -⟩ := (hs y).val.eval h.wf hy hwd hρ
    obtain ⟨τ', e2, -⟩ := (hsu y).val.eval hu.wf hy' hwd' hρ'
    rw [e1, e2]; rfl
  · obtain ⟨δ, hδ⟩ := hwd.exists_tangent (P := P) x ρ
    obtain ⟨τ, e1, -⟩ := (hs x).fwd.devalF h.wf hy hx hwd hρ hδ
    obtain ⟨τ', e2, -⟩ := (hsu x).fwd.devalF hu.wf hy' (by rw [hd]; exact hx) hwd' hρ'
      (by rw [hd]; exact hδ)
    rw [e1, e2]; rfl
  · obtain ⟨δ, hδ⟩ := hwd.exists_tangent (P := P) x ρ
    obtain ⟨τ, e1, d1⟩ := (hs x).rev.devalR h.wf hy hwd (keyHyp_of_revOK h.wf hy hx hr) hρ hδ
    obtain ⟨τ', e2, d2⟩ := (hsu x).rev.devalR hu.wf hy' hwd'
      (keyHyp_of_revOK hu.wf hy' (by rw [hd]; exact hx) (by rw [hd]; exact hr)) hρ' (by rw [hd]; exact hδ)
    rw [e1, e2, Option.map_some, Option.map_some, d1, d2]

theorem resetImpl_keeps_root {D : Defs K} {y : ℕ} (hwd : WellDefined D y)
    (hns : ∀ i ∈ D.items y, y ∉ i.leaves) {fuel : ℕ} {m m' : Mem K}
    (h : resetImpl D fuel y m = some m') : m'.cache y = m.cache y := by
  let S : Set ℕ := {q | ∃ i ∈ D.items y, ∃ p ∈ i.leaves, Reach D p q}
  have hyS : y ∉ S := by
    rintro ⟨i, hi, p, hp, hr⟩
    obtain ⟨⟨rank, hR⟩, -⟩ := hwd
    have hpy : rank p < rank y := by
      rcases hR y .refl i hi p hp with e | e
      · subst e; exact absurd hp (hns i hi)
      · exact e
    have hyp : Reach D y p := Reach.of_leaf hi hp
    have key : ∀ q, Reach D p q → rank q ≤ rank p := by
      intro q hq
      induction hq with
      | refl => exact le_refl _
      | step hq hi hp ih =>
          rcases hR _ (hyp.trans hq) _ hi _ hp with e | e
          · rw [e]; exact ih
          · omega
    have := key y hr; omega
  simp only [resetImpl, Option.bind_eq_bind, Option.bind_eq_some_iff, Option.some.injEq] at h
  obtain ⟨m1, h1, rfl⟩ := h
  have hcl : ∀ q ∈ S, ∀ j ∈ D.items q, ∀ k ∈ j.leaves, k ∈ S := by
    rintro q ⟨i, hi, p, hp, hr⟩ j hj k hk
    exact ⟨i, hi, p, hp, hr.trans (Reach.of_leaf hj hk)⟩
  have := (resetItems_spec D (S := S) (resetO_spec D hcl fuel) (D.items y) _ m1
    (fun i hi p hp => ⟨i, hi, p, hp, .refl⟩) h1).2.out y hyS
  exact this.2.2

/-- C17: the reverse derivatives computed by `PreComp y` survive any later `Eval y` and `DevalF y`
when `y` is not defined through its own previous value. -/
theorem C17_reverse_survives {σ σ' : St K} {y : ℕ} (hwd : WellDefined σ.defs y)
    (hns : ∀ i ∈ σ.defs.items y, y ∉ i.leaves) :
    (∀ v, Eval P y σ = some (v, σ') → ∀ x, DevalR y x σ' = DevalR y x σ) ∧
    (∀ z v, DevalF P y z σ = some (v, σ') → ∀ x, DevalR y x σ' = DevalR y x σ) := by
  constructor
  · intro v h x
    have hd := Eval_defs h
    simp only [Eval, Option.bind_eq_bind, Option.bind_eq_some_iff, Option.some.injEq,
      Prod.mk.injEq] at h
    obtain ⟨m, hm, ⟨u, m'⟩, hev, -, rfl⟩ := h
    have hc : m'.cache = m.cache := evalO_keep P σ.defs (fun m => m.cache) (fun _ _ _ => rfl)
      (fun _ _ _ => rfl) _ _ _ _ _ hev
    show m'.cache y _ = σ.mem.cache y _
    rw [hc, resetImpl_keeps_root hwd hns hm]
  · intro z v h x
    simp only [DevalF, Option.bind_eq_bind, Option.bind_eq_some_iff, Option.some.injEq,
      Prod.mk.injEq] at h
    obtain ⟨m, hm, ⟨u, m'⟩, hev, -, rfl⟩ := h
    have hc : m'.cache = m.cache := fwdO_keep P σ.defs (fun m => m.cache) (fun _ _ _ => rfl)
      (fun _ _ _ => rfl) (fun _ _ _ => rfl) _ _ _ _ _ _ hev
    show m'.cache y _ = σ.mem.cache y _
    rw [hc, resetImpl_keeps_root hwd hns hm]

example : ∀ i ∈ Ex.s0.defs.items 4, 4 ∉ i.leaves := by decide

namespace Ex

/-- `Variable x = 3; Expression y = x; y = y*x;` then `PreComp(y)` (x = 1, y = 2) -/
def loop0 : St ℚ :=
  define 2 (.mul (.var 2) (.var 1)) (define 2 (.var 1) (newExpr (newVar 3 St.init).2).2)

def loop1 : St ℚ := (PreComp P0 2 loop0).getD loop0

def loop2 : St ℚ := match Eval P0 2 loop1 with
  | some (_, σ) => σ
  | none => loop1

end Ex

/-- C17 fails for a root defined through its own previous value: `y = x; y = y*x; PreComp(y)` makes
`DevalR(y,x) = 6` at `x = 3`, but after an `Eval(y)` the same call returns 0. -/
theorem C17_self_recursive_loses : DevalR 2 1 Ex.loop1 = 6 ∧
    (Eval Ex.P0 2 Ex.loop1).map Prod.fst = some 9 ∧ DevalR 2 1 Ex.loop2 = 0 := by
  refine ⟨?_, ?_, ?_⟩ <;> decide +kernel

/-! ## C21 -/

/-- C21 is false: for every `y` not defined through its own previous value (after every history as in
C02), forward mode says the derivative of `y` with respect to itself is 1 and reverse mode says 0. -/
theorem C21_differ {σ : St K} (h : Run P σ) {y : ℕ}
    (hy : y < σ.defs.size) (hwd : WellDefined σ.defs y) (hs : Ready P σ y y)
    (hns : ∀ i ∈ σ.defs.items y, y ∉ i.leaves) :
    (∃ σ', DevalF P y y σ = some (1, σ')) ∧ ∃ σ', PreComp P y σ = some σ' ∧ DevalR y y σ' = 0 := by
  obtain ⟨ρ, hρ⟩ := hwd.exists_solves (P := P)
  obtain ⟨δ, hδ⟩ := hwd.exists_tangent (P := P) y ρ
  have h1 : δ y = 1 := by rw [hδ y .refl, if_pos rfl]
  constructor
  · obtain ⟨σ', e, -⟩ := hs.fwd.devalF h.wf hy hy hwd hρ hδ
    exact ⟨σ', by rw [e, h1]⟩
  · have hr : RevOK σ.defs y y := by
      refine ⟨hns, fun q hq hm => ?_⟩
      obtain ⟨⟨rank, hR⟩, -⟩ := hwd
      by_cases hqy : q = y
      · subst hqy; exact hns _ hm (by simp [Node.leaves])
      · have key : ∀ q, Reach σ.defs y q → q = y ∨ rank q < rank y := by
          intro q hq
          induction hq with
          | refl => exact Or.inl rfl
          | step hq hi hp ih =>
              rcases hR _ hq _ hi _ hp with e | e
              · rw [e]; exact ih
              · rcases ih with rfl | ih <;> omega
        have a := (key q hq).resolve_left hqy
        rcases hR q hq _ hm y (by simp [Node.leaves]) with e | e
        · exact hqy e.symm
        · omega
    obtain ⟨σ', e, e2⟩ := hs.rev.devalR h.wf hy hwd (keyHyp_of_revOK h.wf hy hy hr) hρ hδ
    exact ⟨σ', e, by rw [e2, if_pos rfl]⟩

example : (∃ σ', DevalF Ex.P0 4 4 Ex.s0 = some (1, σ')) ∧
    ∃ σ', PreComp Ex.P0 4 Ex.s0 = some σ' ∧ DevalR 4 4 σ' = 0 :=
  C21_differ Ex.s0_hist.run (by decide) Ex.s0_wd (Ex.s0_hist.ready Safe.none _) (by decide)

end CoolDiff
