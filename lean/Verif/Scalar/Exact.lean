import Verif.Scalar.Query
import Verif.Scalar.Plain
import Verif.Scalar.History
import Verif.Scalar.RevVal

/-!
# Exactly what a query computes

`Safe` (Verif.Scalar.Query) is a condition under which queries answer correctly.  Here the effect of a query is
described without any such condition: which stored results it throws away, which it relies on, what it
answers and what it stores.
-/

set_option linter.unusedSectionVars false

namespace CoolDiff

variable {K : Type} [Field K] [DecidableEq K]

/-! ## Specification -/

/-- `Met D vis y q`: going down from `y`, always passing through Expressions that hold a stored result (`vis`),
one comes across `q`. -/
inductive Met (D : Defs K) (vis : ℕ → Prop) (y : ℕ) : ℕ → Prop
  | child {i : Node K} {p : ℕ} : i ∈ D.items y → p ∈ i.leaves → Met D vis y p
  | step {q : ℕ} {i : Node K} {p : ℕ} : Met D vis y q → vis q → i ∈ D.items q → p ∈ i.leaves → Met D vis y p

/-- The stored results that survive the `reset` at the beginning of a query of `y`. -/
def Survives (D : Defs K) (vis : ℕ → Prop) (y q : ℕ) : Prop := vis q ∧ q ≠ y ∧ ¬ Met D vis y q

/-- `Uses D kept y q`: the query of `y` looks at `q`.  It looks at what is below an Expression only if that
Expression's stored result was thrown away (or never existed). -/
inductive Uses (D : Defs K) (kept : ℕ → Prop) (y : ℕ) : ℕ → Prop
  | refl : Uses D kept y y
  | step {q p : ℕ} {i : Node K} : Uses D kept y q → ¬ kept q → i ∈ D.items q → p ∈ i.leaves → Uses D kept y p

/-- `ρ` gives every object the query looks at its value: the stored number `val` if there is one, and what the
definition asks for otherwise. -/
def SolvesKept (P : Prim K) (D : Defs K) (kept : ℕ → Prop) (val : ℕ → K) (y : ℕ) (ρ : ℕ → K) : Prop :=
  ∀ q, Uses D kept y q → (kept q → ρ q = val q) ∧
    (¬ kept q → ρ q = seqVal P D.par ρ q (D.items q) (D.base q))

/-- The same for derivatives with respect to `x`. -/
def TangentKept (P : Prim K) (D : Defs K) (kept : ℕ → Prop) (dval : ℕ → K) (y x : ℕ) (ρ δ : ℕ → K) : Prop :=
  ∀ q, Uses D kept y q → (q = x → δ q = 1) ∧ (q ≠ x → kept q → δ q = dval q) ∧
    (q ≠ x → ¬ kept q → δ q = seqDer P D.par ρ δ q (D.items q) (D.base q) 0)

/-- The definitions the query goes through are not circular (those below a kept result do not matter). -/
def WellDefinedKept (D : Defs K) (kept : ℕ → Prop) (y : ℕ) : Prop :=
  (∃ rank : ℕ → ℕ, ∀ q, Uses D kept y q → ¬ kept q → ∀ i ∈ D.items q, ∀ p ∈ i.leaves, p = q ∨ rank p < rank q) ∧
  (∀ q, Uses D kept y q → ¬ kept q → ∀ i is, D.items q = i :: is → q ∉ i.leaves)

/-- The stored results that survive the beginning of a query of `y` in state `σ`. -/
def St.kept (σ : St K) (y : ℕ) : ℕ → Prop := Survives σ.defs (fun q => σ.mem.visited q = true) y

/-- What a query of `y` in state `σ` looks at. -/
def St.looks (σ : St K) (y : ℕ) : ℕ → Prop := Uses σ.defs (σ.kept y) y

/-- What a query of `y` in state `σ` resets. -/
def St.resets (σ : St K) (y : ℕ) : ℕ → Prop := Met σ.defs (fun q => σ.mem.visited q = true) y

/-- What an evaluating query of `y` leaves behind: `ρ` is stored as the value of everything it looked at,
derivatives of what it reset are cleared, the rest is as before. -/
structure Stored (y : ℕ) (ρ : ℕ → K) (σ σ' : St K) : Prop where
  defs : σ'.defs = σ.defs
  vis : ∀ q, σ'.mem.visited q = true ↔ σ.mem.visited q = true ∨ σ.looks y q
  val : ∀ q, σ.looks y q → σ'.mem.value q = ρ q
  valOut : ∀ q, ¬ σ.looks y q → σ'.mem.value q = σ.mem.value q

/-- What a query that does not compute forward derivatives does to the stored ones. -/
structure DKept (y : ℕ) (σ σ' : St K) : Prop where
  met : ∀ q, σ.resets y q → σ'.mem.dvalue q = 0
  out : ∀ q, ¬ σ.resets y q → σ'.mem.dvalue q = σ.mem.dvalue q

/-- What a query that does not compute reverse derivatives does to the stored ones. -/
structure CKept (y : ℕ) (σ σ' : St K) : Prop where
  met : ∀ q, σ.resets y q → σ'.mem.cache q = fun _ => 0
  out : ∀ q, ¬ σ.resets y q → σ'.mem.cache q = σ.mem.cache q

theorem Uses.reach {D : Defs K} {kept : ℕ → Prop} {y q : ℕ} (h : Uses D kept y q) : Reach D y q := by
  induction h with
  | refl => exact .refl
  | step _ _ hi hp ih => exact .step ih hi hp

theorem Met.reach {D : Defs K} {vis : ℕ → Prop} {y q : ℕ} (h : Met D vis y q) : Reach D y q := by
  induction h with
  | child hi hp => exact .of_leaf hi hp
  | step _ _ hi hp ih => exact .step ih hi hp

theorem Met.uses {D : Defs K} {vis : ℕ → Prop} {y q : ℕ} (h : Met D vis y q) :
    Uses D (Survives D vis y) y q := by
  induction h with
  | child hi hp => exact .step .refl (fun h => h.2.1 rfl) hi hp
  | step hm _ hi hp ih => exact .step ih (fun h => h.2.2 hm) hi hp

/-! ## `reset` -/

section
variable (D : Defs K)

def Cleared (m : Mem K) (q : ℕ) : Prop := m.value q = D.base q ∧ m.dvalue q = 0 ∧ m.cache q = fun _ => 0

/-- Effect of (part of) a reset that only meets objects of `M` and flags of `V`. -/
structure XFrame (M V : ℕ → Prop) (m m' : Mem K) : Prop where
  anti : ∀ q, m'.visited q = true → m.visited q = true
  vis : ∀ q, ¬ M q → m'.visited q = m.visited q
  out : ∀ q, ¬ M q → m'.value q = m.value q ∧ m'.dvalue q = m.dvalue q ∧ m'.cache q = m.cache q
  keep : ∀ q, Cleared D m q → Cleared D m' q
  down : ∀ q, m.visited q = true → m'.visited q = false →
    ∀ i ∈ D.items q, ∀ p ∈ i.leaves, m'.visited p = false ∧ Cleared D m' p

theorem XFrame.refl (M V : ℕ → Prop) (m : Mem K) : XFrame D M V m m :=
  ⟨fun _ h => h, fun _ _ => rfl, fun _ _ => ⟨rfl, rfl, rfl⟩, fun _ h => h, fun q h h' => by simp [h] at h'⟩

theorem XFrame.unv {D : Defs K} {M V : ℕ → Prop} {m m' : Mem K} (h : XFrame D M V m m') {q : ℕ}
    (hq : m.visited q = false) : m'.visited q = false := by
  cases hv : m'.visited q with
  | false => rfl
  | true => rw [h.anti q hv] at hq; simp at hq

theorem XFrame.trans {D : Defs K} {M V : ℕ → Prop} {m m' m'' : Mem K} (h : XFrame D M V m m')
    (h' : XFrame D M V m' m'') : XFrame D M V m m'' := by
  refine ⟨fun q hq => h.anti q (h'.anti q hq), fun q hq => (h'.vis q hq).trans (h.vis q hq),
    fun q hq => ?_, fun q hq => h'.keep q (h.keep q hq), fun q hq hq' i hi p hp => ?_⟩
  · have h1 := h.out q hq
    have h2 := h'.out q hq
    exact ⟨h2.1.trans h1.1, h2.2.1.trans h1.2.1, h2.2.2.trans h1.2.2⟩
  · cases hv : m'.visited q with
    | true => exact h'.down q hv hq' i hi p hp
    | false =>
        have := h.down q hq hv i hi p hp
        exact ⟨h'.unv this.1, h'.keep p this.2⟩

def XSpec (M V : ℕ → Prop) (rec : ℕ → Mem K → Option (Mem K)) : Prop :=
  ∀ q, M q → ∀ m m', (∀ p, m.visited p = true → V p) → rec q m = some m' →
    m'.visited q = false ∧ Cleared D m' q ∧ XFrame D M V m m'

theorem resetN_x {M V : ℕ → Prop} {rec : ℕ → Mem K → Option (Mem K)} (hrec : XSpec D M V rec)
    (t : Node K) : ∀ m m', (∀ p ∈ t.leaves, M p) → (∀ p, m.visited p = true → V p) →
      resetN rec t m = some m' →
      (∀ p ∈ t.leaves, m'.visited p = false ∧ Cleared D m' p) ∧ XFrame D M V m m' := by
  induction t with
  | leaf o =>
      intro m m' hl hV h
      have := hrec o (hl o (by simp [Node.leaves])) m m' hV h
      exact ⟨by simpa [Node.leaves] using ⟨this.1, this.2.1⟩, this.2.2⟩
  | par p =>
      intro m m' hl hV h
      simp [resetN] at h
      subst h
      exact ⟨by simp [Node.leaves], XFrame.refl D M V m⟩
  | op1 n f a ih => intro m m' hl hV h; exact ih m m' hl hV h
  | op2 n f a b iha ihb =>
      intro m m' hl hV h
      simp only [resetN, Option.bind_eq_bind, Option.bind_eq_some_iff] at h
      obtain ⟨m1, h1, h2⟩ := h
      obtain ⟨l1, f1⟩ := iha m m1 (fun p hp => hl p (by simp [Node.leaves, hp])) hV h1
      obtain ⟨l2, f2⟩ := ihb m1 m' (fun p hp => hl p (by simp [Node.leaves, hp]))
        (fun p hp => hV p (f1.anti p hp)) h2
      refine ⟨fun p hp => ?_, f1.trans f2⟩
      simp only [Node.leaves, List.mem_append] at hp
      rcases hp with hp | hp
      · exact ⟨f2.unv (l1 p hp).1, f2.keep p (l1 p hp).2⟩
      · exact l2 p hp

theorem resetItems_x {M V : ℕ → Prop} {rec : ℕ → Mem K → Option (Mem K)} (hrec : XSpec D M V rec)
    (is : List (Node K)) : ∀ m m', (∀ i ∈ is, ∀ p ∈ i.leaves, M p) → (∀ p, m.visited p = true → V p) →
      resetItems rec is m = some m' →
      (∀ i ∈ is, ∀ p ∈ i.leaves, m'.visited p = false ∧ Cleared D m' p) ∧ XFrame D M V m m' := by
  induction is with
  | nil => intro m m' _ _ h; simp [resetItems] at h; subst h; exact ⟨by simp, XFrame.refl D M V m⟩
  | cons i is ih =>
      intro m m' hl hV h
      simp only [resetItems, Option.bind_eq_bind, Option.bind_eq_some_iff] at h
      obtain ⟨m1, h1, h2⟩ := h
      obtain ⟨l1, f1⟩ := resetN_x D hrec i m m1 (hl i (by simp)) hV h1
      obtain ⟨l2, f2⟩ := ih m1 m' (fun j hj => hl j (by simp [hj])) (fun p hp => hV p (f1.anti p hp)) h2
      refine ⟨fun j hj p hp => ?_, f1.trans f2⟩
      rcases List.mem_cons.1 hj with rfl | hj
      · exact ⟨f2.unv (l1 p hp).1, f2.keep p (l1 p hp).2⟩
      · exact l2 j hj p hp

theorem clearObj_x {M V : ℕ → Prop} {m : Mem K} {o : ℕ} (ho : M o) (hv : m.visited o = false) :
    (m.clearObj D o).visited o = false ∧ Cleared D (m.clearObj D o) o ∧ XFrame D M V m (m.clearObj D o) := by
  have hvis : (m.clearObj D o).visited = m.visited := by
    funext q
    by_cases h : q = o
    · subst h; simp [Mem.clearObj, Mem.setVisited, Mem.setValue, Mem.setDValue, Mem.setCache, hv]
    · simp [Mem.clearObj, Mem.setVisited, Mem.setValue, Mem.setDValue, Mem.setCache, h]
  have hcl : Cleared D (m.clearObj D o) o := by
    simp [Cleared, Mem.clearObj, Mem.setVisited, Mem.setValue, Mem.setDValue, Mem.setCache]
  have hout : ∀ q, q ≠ o → (m.clearObj D o).value q = m.value q ∧ (m.clearObj D o).dvalue q = m.dvalue q ∧
      (m.clearObj D o).cache q = m.cache q := fun q h => by
    simp [Mem.clearObj, Mem.setVisited, Mem.setValue, Mem.setDValue, Mem.setCache, h]
  refine ⟨by rw [hvis, hv], hcl, ⟨fun q hq => by rwa [hvis] at hq, fun q _ => by rw [hvis], fun q hq => ?_,
    fun q hq => ?_, fun q h1 h2 => ?_⟩⟩
  · exact hout q (by rintro rfl; exact hq ho)
  · by_cases h : q = o
    · rw [h]; exact hcl
    · have := hout q h
      exact ⟨this.1.trans hq.1, this.2.1.trans hq.2.1, this.2.2.trans hq.2.2⟩
  · rw [hvis, h1] at h2; simp at h2

theorem resetO_x {M V : ℕ → Prop} (hM : ∀ q, M q → V q → ∀ i ∈ D.items q, ∀ p ∈ i.leaves, M p)
    (fuel : ℕ) : XSpec D M V (resetO D fuel) := by
  induction fuel with
  | zero => intro q _ m m' _ h; simp [resetO] at h
  | succ f ih =>
      intro o ho m m' hV h
      cases hv : m.visited o with
      | false =>
          simp [resetO, hv] at h
          subst h
          exact clearObj_x D ho hv
      | true =>
          simp only [resetO, hv, if_true, Option.bind_eq_bind, Option.bind_eq_some_iff,
            Option.some.injEq] at h
          obtain ⟨m1, h1, rfl⟩ := h
          have hne : ∀ q, q ≠ o → (m.setVisited o false).visited q = m.visited q := fun q hq => by
            simp [Mem.setVisited, hq]
          obtain ⟨l1, f1⟩ := resetItems_x D ih (D.items o) _ m1 (hM o ho (hV o hv))
            (fun p hp => hV p (anti_setVisited m o p hp)) h1
          have hv1 : m1.visited o = false := f1.unv (by simp [Mem.setVisited])
          obtain ⟨h2, h2', f2⟩ := clearObj_x (V := V) D ho hv1
          refine ⟨h2, h2', XFrame.trans ⟨fun q hq => ?_, fun q hq => ?_, f1.out, f1.keep,
            fun q hq hq' i hi p hp => ?_⟩ f2⟩
          · exact anti_setVisited m o q (f1.anti q hq)
          · have h : q ≠ o := by rintro rfl; exact hq ho
            rw [f1.vis q hq, hne q h]
          · by_cases h : q = o
            · subst h; exact l1 i hi p hp
            · exact f1.down q (by rw [hne q h]; exact hq) hq' i hi p hp

/-- What the `reset` at the beginning of a query does, exactly. -/
theorem resetImpl_exact {fuel y : ℕ} {m m' : Mem K} (h : resetImpl D fuel y m = some m') :
    (∀ q, m'.visited q = true ↔ Survives D (fun q => m.visited q = true) y q) ∧
    (∀ q, Met D (fun q => m.visited q = true) y q → Cleared D m' q) ∧
    (∀ q, ¬ Met D (fun q => m.visited q = true) y q →
      m'.value q = m.value q ∧ m'.dvalue q = m.dvalue q ∧ m'.cache q = m.cache q) := by
  simp only [resetImpl, Option.bind_eq_bind, Option.bind_eq_some_iff, Option.some.injEq] at h
  obtain ⟨m1, h1, rfl⟩ := h
  set vis : ℕ → Prop := fun q => m.visited q = true with hvis
  obtain ⟨l1, f1⟩ := resetItems_x D (resetO_x D (M := Met D vis y) (V := fun q => vis q ∨ q = y)
    (fun q hq hv i hi p hp => by
      rcases hv with hv | rfl
      · exact .step hq hv hi hp
      · exact .child hi hp) fuel) (D.items y) _ m1 (fun i hi p hp => .child hi hp)
    (fun p hp => by
      by_cases hpy : p = y
      · exact Or.inr hpy
      · exact Or.inl (by simpa [Mem.setVisited, hpy] using hp)) h1
  have hne : ∀ (m : Mem K) q b, q ≠ y → (m.setVisited y b).visited q = m.visited q := fun m q b hq => by
    simp [Mem.setVisited, hq]
  have hmet : ∀ q, Met D vis y q → m1.visited q = false ∧ Cleared D m1 q := by
    intro q hq
    induction hq with
    | child hi hp => exact l1 _ hi _ hp
    | @step q i p hm hv hi hp ih =>
        by_cases hqy : q = y
        · subst hqy; exact l1 _ hi _ hp
        · exact f1.down q (by rw [hne _ q _ hqy]; exact hv) ih.1 i hi p hp
  refine ⟨fun q => ?_, fun q hq => (hmet q hq).2, fun q hq => f1.out q hq⟩
  by_cases hqy : q = y
  · subst hqy
    simp [Mem.setVisited, Survives]
  · rw [hne m1 q false hqy]
    constructor
    · intro hv
      have hnm : ¬ Met D vis y q := fun hm => by rw [(hmet q hm).1] at hv; simp at hv
      refine ⟨?_, hqy, hnm⟩
      rw [f1.vis q hnm, hne _ q _ hqy] at hv
      exact hv
    · rintro ⟨hv, -, hnm⟩
      rw [f1.vis q hnm, hne _ q _ hqy]
      exact hv

end

/-! ## Existence and uniqueness -/

theorem WellDefined.wdKept {D : Defs K} {y : ℕ} (h : WellDefined D y) (kept : ℕ → Prop) :
    WellDefinedKept D kept y := by
  obtain ⟨⟨rank, h1⟩, h2⟩ := h
  exact ⟨⟨rank, fun q hq _ => h1 q hq.reach⟩, fun q hq _ => h2 q hq.reach⟩

section
variable (P : Prim K) {D : Defs K} {kept : ℕ → Prop} {y : ℕ}

open Classical in
theorem WellDefinedKept.exists_solves (h : WellDefinedKept D kept y) (val : ℕ → K) :
    ∃ ρ, SolvesKept P D kept val y ρ := by
  obtain ⟨⟨rank, hr⟩, -⟩ := h
  obtain ⟨ρ, hρ⟩ := exists_fixpoint
    (fun ρ q => if kept q then val q else seqVal P D.par ρ q (D.items q) (D.base q))
    {q | Uses D kept y q} rank (fun _ => 0) (by
      intro q hq f g hfg
      by_cases hk : kept q
      · simp [hk]
      · simp only [hk, if_false]
        apply seqVal_congr
        intro i hi p hp hpq
        exact hfg p (Uses.step hq hk hi hp) ((hr q hq hk i hi p hp).resolve_left hpq))
  refine ⟨ρ, fun q hq => ⟨fun hk => ?_, fun hk => ?_⟩⟩
  · rw [hρ q hq]; simp [hk]
  · have := hρ q hq
    simpa only [hk, if_false] using this

open Classical in
theorem WellDefinedKept.solves_unique (h : WellDefinedKept D kept y) {val ρ ρ' : ℕ → K}
    (h1 : SolvesKept P D kept val y ρ) (h2 : SolvesKept P D kept val y ρ') :
    ∀ q, Uses D kept y q → ρ q = ρ' q := by
  obtain ⟨⟨rank, hr⟩, -⟩ := h
  refine fixpoint_unique
    (fun ρ q => if kept q then val q else seqVal P D.par ρ q (D.items q) (D.base q))
    {q | Uses D kept y q} rank (by
      intro q hq f g hfg
      by_cases hk : kept q
      · simp [hk]
      · simp only [hk, if_false]
        apply seqVal_congr
        intro i hi p hp hpq
        exact hfg p (Uses.step hq hk hi hp) ((hr q hq hk i hi p hp).resolve_left hpq)) ?_ ?_
  · intro q hq
    by_cases hk : kept q
    · simpa [hk] using (h1 q hq).1 hk
    · simpa [hk] using (h1 q hq).2 hk
  · intro q hq
    by_cases hk : kept q
    · simpa [hk] using (h2 q hq).1 hk
    · simpa [hk] using (h2 q hq).2 hk

open Classical in
theorem WellDefinedKept.exists_tangent (h : WellDefinedKept D kept y) (x : ℕ) (dval ρ : ℕ → K) :
    ∃ δ, TangentKept P D kept dval y x ρ δ := by
  obtain ⟨⟨rank, hr⟩, -⟩ := h
  obtain ⟨δ, hδ⟩ := exists_fixpoint
    (fun δ q => if q = x then 1 else if kept q then dval q else
      seqDer P D.par ρ δ q (D.items q) (D.base q) 0)
    {q | Uses D kept y q} rank (fun _ => 0) (by
      intro q hq f g hfg
      by_cases hx : q = x
      · simp [hx]
      · by_cases hk : kept q
        · simp [hk]
        · simp only [hk, hx, if_false]
          apply seqDer_congr
          intro i hi p hp hpq
          exact ⟨rfl, hfg p (Uses.step hq hk hi hp) ((hr q hq hk i hi p hp).resolve_left hpq)⟩)
  refine ⟨δ, fun q hq => ⟨fun hx => ?_, fun hx hk => ?_, fun hx hk => ?_⟩⟩
  · rw [hδ q hq]; simp [hx]
  · rw [hδ q hq]; simp [hx, hk]
  · have := hδ q hq
    simpa only [hk, hx, if_false] using this

/-- Solving the definitions from the stored results is solving the definitions if the stored results do. -/
theorem Solves.ofKept {ρ : ℕ → K} (h : Solves P D y ρ) {val : ℕ → K}
    (hv : ∀ q, Uses D kept y q → kept q → val q = ρ q) : SolvesKept P D kept val y ρ :=
  fun q hq => ⟨fun hk => (hv q hq hk).symm, fun _ => h q hq.reach⟩

theorem Tangent.ofKept {ρ δ : ℕ → K} {x : ℕ} (h : Tangent P D y x ρ δ) {dval : ℕ → K}
    (hv : ∀ q, Uses D kept y q → kept q → q ≠ x → dval q = δ q) : TangentKept P D kept dval y x ρ δ :=
  fun q hq => ⟨fun hx => by rw [h q hq.reach, if_pos hx], fun hx hk => (hv q hq hk hx).symm,
    fun hx _ => by rw [h q hq.reach, if_neg hx]⟩

end

/-! ## The queries -/

section
variable (P : Prim K)

theorem Run.wf {P : Prim K} {σ : St K} (h : Run P σ) : σ.WF := by
  induction h with
  | init => exact St.init_wf
  | newVar v _ ih => exact newVar_wf ih v
  | newPar v _ ih => exact newPar_wf ih v
  | newExpr h ih => exact newExpr_wf ih h.defs_wf.2
  | setVar x v _ hx _ ih => exact assignNum_wf ih hx v
  | setPar p v _ _ ih => exact assignPar_wf ih p v
  | define y e _ hy _ hl hp ih => exact define_wf ih hy hl hp
  | formula n _ hn ih => exact ⟨ih.defs.bump hn, ih.plain⟩
  | assign y t _ hy _ hl hp ih => exact assignExp_wf ih hy hl hp
  | defineRef y z _ hy _ hz _ ih => exact assignRef_wf ih hy hz
  | @eval σ σ' y v _ hy he ih =>
      simp only [Eval, Option.bind_eq_bind, Option.bind_eq_some_iff] at he
      obtain ⟨m, h1, ⟨u, m'⟩, h2, h3⟩ := he
      simp only [Option.some.injEq, Prod.mk.injEq] at h3
      obtain ⟨-, rfl⟩ := h3
      exact ⟨ih.defs, evalO_plain P _ _ _ _ _ _ h2 (resetImpl_plain _ _ _ _ _ h1 ih.plain)⟩
  | @devalF σ σ' y x v _ hy hx he ih =>
      simp only [DevalF, Option.bind_eq_bind, Option.bind_eq_some_iff] at he
      obtain ⟨m, h1, ⟨u, m'⟩, h2, h3⟩ := he
      simp only [Option.some.injEq, Prod.mk.injEq] at h3
      obtain ⟨-, rfl⟩ := h3
      exact ⟨ih.defs, fwdO_plain P _ _ _ _ _ _ _ h2 (resetImpl_plain _ _ _ _ _ h1 ih.plain)⟩
  | @preComp σ σ' y _ hy he ih =>
      simp only [PreComp, Option.bind_eq_bind, Option.bind_eq_some_iff] at he
      obtain ⟨m, h1, m', h2, h3⟩ := he
      simp only [Option.some.injEq] at h3
      obtain rfl := h3
      exact ⟨ih.defs, revO_plain P _ _ _ _ _ h2 (resetImpl_plain _ _ _ _ _ h1 ih.plain)⟩

/-- Everything the query looks at ends up marked. -/
theorem looks_visited {σ : St K} {y : ℕ} {m m' : Mem K}
    (hm : ∀ q, m.visited q = true ↔ σ.kept y q) (hy : m'.visited y = true)
    (hn : NewClosed σ.defs m m') : ∀ q, σ.looks y q → m'.visited q = true := by
  intro q hq
  induction hq with
  | refl => exact hy
  | @step q p i hq hk hi hp ih =>
      refine hn q ?_ ih i hi p hp
      cases hv : m.visited q with
      | false => rfl
      | true => exact absurd ((hm q).1 hv) hk

theorem looks_rank {σ : St K} {y : ℕ} {rank : ℕ → ℕ}
    (hr : ∀ q, Uses σ.defs (σ.kept y) y q → ¬ σ.kept y q → ∀ i ∈ σ.defs.items q, ∀ p ∈ i.leaves,
      p = q ∨ rank p < rank q) : ∀ q, σ.looks y q → rank q < rank y + 1 := by
  intro q hq
  induction hq with
  | refl => omega
  | step hq hk hi hp ih =>
      rcases hr _ hq hk _ hi _ hp with h | h
      · rw [h]; exact ih
      · omega

/-- The final state in terms of the frame conditions. -/
theorem Stored.mk' {σ : St K} {y : ℕ} {rank : ℕ → ℕ} {ρ : ℕ → K} {m m' : Mem K} {r : ℕ}
    (hm : resetImpl σ.defs σ.defs.fuel y σ.mem = some m)
    (hy : m'.visited y = true) (hn : NewClosed σ.defs m m')
    (fr : Frame {q | σ.looks y q} rank r m m')
    (hv : ∀ q, σ.looks y q → m'.visited q = true → m'.value q = ρ q) :
    Stored y ρ σ ⟨σ.defs, m'⟩ := by
  obtain ⟨h1, h2, h3⟩ := resetImpl_exact σ.defs hm
  have hall := looks_visited (σ := σ) h1 hy hn
  refine ⟨rfl, fun q => ⟨fun hq => ?_, fun hq => ?_⟩, fun q hq => hv q hq (hall q hq), fun q hq => ?_⟩
  · by_cases hl : σ.looks y q
    · exact Or.inr hl
    · have := fr.vis q (Or.inl hl)
      exact Or.inl ((h1 q).1 (this ▸ hq)).1
  · rcases hq with hq | hq
    · by_cases hqy : q = y
      · subst hqy; exact hy
      · by_cases hmet : Met σ.defs (fun q => σ.mem.visited q = true) y q
        · exact hall q hmet.uses
        · exact fr.mono q ((h1 q).2 ⟨hq, hqy, hmet⟩)
    · exact hall q hq
  · rw [fr.val q (Or.inl hq)]
    exact (h3 q fun hmet => hq hmet.uses).1

theorem Stored.kept_dvalue {σ : St K} {y : ℕ} {m m' : Mem K}
    (hm : resetImpl σ.defs σ.defs.fuel y σ.mem = some m) (hd : m'.dvalue = m.dvalue) :
    DKept y σ ⟨σ.defs, m'⟩ := by
  obtain ⟨h1, h2, h3⟩ := resetImpl_exact σ.defs hm
  exact ⟨fun q hq => by show m'.dvalue q = 0; rw [hd]; exact (h2 q hq).2.1,
    fun q hq => by show m'.dvalue q = _; rw [hd]; exact (h3 q hq).2.1⟩

theorem Stored.kept_cache {σ : St K} {y : ℕ} {m m' : Mem K}
    (hm : resetImpl σ.defs σ.defs.fuel y σ.mem = some m) (hd : m'.cache = m.cache) :
    CKept y σ ⟨σ.defs, m'⟩ := by
  obtain ⟨h1, h2, h3⟩ := resetImpl_exact σ.defs hm
  exact ⟨fun q hq => by show m'.cache q = _; rw [hd]; exact (h2 q hq).2.2,
    fun q hq => by show m'.cache q = _; rw [hd]; exact (h3 q hq).2.2⟩

/-- What must hold after the reset for the evaluation proofs to apply. -/
theorem start_inv {σ : St K} (hw : σ.WF) {y : ℕ} (hy : y < σ.defs.size) {rank : ℕ → ℕ}
    (hr : ∀ q, Uses σ.defs (σ.kept y) y q → ¬ σ.kept y q → ∀ i ∈ σ.defs.items q, ∀ p ∈ i.leaves,
      p = q ∨ rank p < rank q)
    (hf : ∀ q, Uses σ.defs (σ.kept y) y q → ¬ σ.kept y q → ∀ i is, σ.defs.items q = i :: is → q ∉ i.leaves)
    {ρ : ℕ → K} (hρ : SolvesKept P σ.defs (σ.kept y) σ.mem.value y ρ) {m : Mem K}
    (hm : resetImpl σ.defs σ.defs.fuel y σ.mem = some m) (r : ℕ) :
    RVInv P σ.defs {q | σ.looks y q} rank ρ r m := by
  obtain ⟨h1, h2, h3⟩ := resetImpl_exact σ.defs hm
  have hnk : ∀ q, m.visited q = false → ¬ σ.kept y q := fun q hv hk => by
    rw [(h1 q).2 hk] at hv; simp at hv
  refine ⟨⟨fun q hq _ hv => ?_, fun q hq _ hv => ?_⟩, fun q hq _ he => ?_⟩
  · have hk := (h1 q).1 hv
    rw [(h3 q hk.2.2).1, (hρ q hq).1 hk]
  · have hk := hnk q hv
    exact ⟨⟨fun i hi p hp => ⟨Uses.step hq hk hi hp, hr q hq hk i hi p hp⟩, hf q hq hk⟩, (hρ q hq).2 hk⟩
  · exact (resetImpl_plain _ _ _ _ _ hm hw.plain q (Reach.lt hw.defs.closed hy (Uses.reach hq)) he).1

/-- `Eval` from any reachable state: it answers what the definitions give when the kept results stand for
themselves, and stores that. -/
theorem Eval_exact {σ : St K} (hw : σ.WF) {y : ℕ} (hy : y < σ.defs.size)
    (hwd : WellDefinedKept σ.defs (σ.kept y) y)
    {ρ : ℕ → K} (hρ : SolvesKept P σ.defs (σ.kept y) σ.mem.value y ρ) :
    ∃ σ', Eval P y σ = some (ρ y, σ') ∧ Stored y ρ σ σ' ∧ DKept y σ σ' ∧ CKept y σ σ' := by
  obtain ⟨⟨rank, hr⟩, hf⟩ := hwd
  obtain ⟨m, hm⟩ := resetImpl_total σ.defs hw.defs.closed y hy σ.mem
  obtain ⟨v, m', hev, -⟩ := evalO_total P σ.defs hw.defs.closed σ.defs.fuel y m hy
    ((unv_le _ _).trans_lt (by simp [Defs.fuel]))
  have inv := start_inv P hw hy hr hf hρ hm (rank y + 1)
  obtain ⟨rfl, inv', fr, hv', hn⟩ := evalO_spec P σ.defs {q | σ.looks y q} rank ρ
    σ.defs.fuel (rank y + 1) y .refl (by omega) m v m' inv.toEInv hev
  have hd : m'.dvalue = m.dvalue := evalO_keep P σ.defs (fun m => m.dvalue) (fun _ _ _ => rfl)
    (fun _ _ _ => rfl) _ _ _ _ _ hev
  have hc : m'.cache = m.cache := evalO_keep P σ.defs (fun m => m.cache) (fun _ _ _ => rfl)
    (fun _ _ _ => rfl) _ _ _ _ _ hev
  exact ⟨⟨σ.defs, m'⟩, by simp [Eval, hm, hev], Stored.mk' hm hv' hn fr
    (fun q hq => inv'.vis q hq (looks_rank hr q hq)), Stored.kept_dvalue hm hd, Stored.kept_cache hm hc⟩

/-- `DevalF` from any reachable state. -/
theorem DevalF_exact {σ : St K} (hw : σ.WF) {y x : ℕ} (hy : y < σ.defs.size) (hx : x < σ.defs.size)
    (hwd : WellDefinedKept σ.defs (σ.kept y) y)
    {ρ δ : ℕ → K} (hρ : SolvesKept P σ.defs (σ.kept y) σ.mem.value y ρ)
    (hδ : TangentKept P σ.defs (σ.kept y) σ.mem.dvalue y x ρ δ) :
    ∃ σ', DevalF P y x σ = some (δ y, σ') ∧ Stored y ρ σ σ' ∧ CKept y σ σ' ∧
      (∀ q, σ.looks y q → q ≠ x → σ'.mem.dvalue q = δ q) ∧
      (∀ q, ¬ σ.looks y q → σ'.mem.dvalue q = σ.mem.dvalue q) := by
  obtain ⟨⟨rank, hr⟩, hf⟩ := hwd
  obtain ⟨m, hm⟩ := resetImpl_total σ.defs hw.defs.closed y hy σ.mem
  obtain ⟨v, m', hev, -⟩ := fwdO_total P σ.defs hw.defs.closed (σ.defs.nidx x) σ.defs.fuel y m hy
    ((unv_le _ _).trans_lt (by simp [Defs.fuel]))
  have hk : ∀ q, σ.looks y q → (σ.defs.nidx q = σ.defs.nidx x ↔ q = x) := fun q hq =>
    ⟨fun h => hw.defs.inj q (Reach.lt hw.defs.closed hy (Uses.reach hq)) x hx h, fun h => by rw [h]⟩
  have inv := start_inv P hw hy hr hf hρ hm (rank y + 1)
  obtain ⟨h1, h2, h3⟩ := resetImpl_exact σ.defs hm
  have hnk : ∀ q, m.visited q = false → ¬ σ.kept y q := fun q hv hk => by
    rw [(h1 q).2 hk] at hv; simp at hv
  obtain ⟨rfl, inv', fr, hv', hn⟩ := fwdO_spec P σ.defs {q | σ.looks y q} rank ρ δ x hk
    (fun h => (hδ x h).1 rfl) σ.defs.fuel (rank y + 1) y .refl (by omega) m v m' (by
      refine ⟨fun q hq hlt hv => ⟨inv.vis q hq hlt hv, fun hqx => ?_⟩, fun q hq hlt he => ?_,
        fun q hq hlt hv => ⟨(inv.eqn q hq hlt hv).1, (inv.eqn q hq hlt hv).2, fun hqx =>
          (hδ q hq).2.2 hqx (hnk q hv)⟩⟩
      · have hk := (h1 q).1 hv
        rw [(h3 q hk.2.2).2.1, (hδ q hq).2.1 hqx hk]
      · have := resetImpl_plain _ _ _ _ _ hm hw.plain q (Reach.lt hw.defs.closed hy (Uses.reach hq)) he
        exact ⟨this.1, this.2.1⟩) hev
  have hc : m'.cache = m.cache := fwdO_keep P σ.defs (fun m => m.cache) (fun _ _ _ => rfl)
    (fun _ _ _ => rfl) (fun _ _ _ => rfl) _ _ _ _ _ _ hev
  have hall := looks_visited (σ := σ) h1 hv' hn
  refine ⟨⟨σ.defs, m'⟩, by simp [DevalF, hm, hev], Stored.mk' hm hv' hn fr
    (fun q hq hv => (inv'.vis q hq (looks_rank hr q hq) hv).1), Stored.kept_cache hm hc,
    fun q hq hqx => (inv'.vis q hq (looks_rank hr q hq) (hall q hq)).2 hqx, fun q hq => ?_⟩
  show m'.dvalue q = _
  rw [fr.dval q (Or.inl hq)]
  exact (h3 q fun hmet => hq hmet.uses).2.1

/-- `PreComp` from any reachable state: the values it stores. -/
theorem PreComp_exact {σ : St K} (hw : σ.WF) {y : ℕ} (hy : y < σ.defs.size)
    (hwd : WellDefinedKept σ.defs (σ.kept y) y)
    {ρ : ℕ → K} (hρ : SolvesKept P σ.defs (σ.kept y) σ.mem.value y ρ) :
    ∃ σ', PreComp P y σ = some σ' ∧ Stored y ρ σ σ' ∧ DKept y σ σ' ∧
      ∀ q, ¬ σ.looks y q → σ'.mem.cache q = σ.mem.cache q := by
  obtain ⟨⟨rank, hr⟩, hf⟩ := hwd
  obtain ⟨m, hm⟩ := resetImpl_total σ.defs hw.defs.closed y hy σ.mem
  obtain ⟨m', hev, -⟩ := revO_total P σ.defs hw.defs.closed σ.defs.fuel y m hy
    ((unv_le _ _).trans_lt (by simp [Defs.fuel]))
  have inv := start_inv P hw hy hr hf hρ hm (rank y + 1)
  obtain ⟨inv', fr, hv', hn⟩ := revO_val P σ.defs {q | σ.looks y q} rank ρ
    σ.defs.fuel (rank y + 1) y .refl (by omega) m m' inv hev
  have hd : m'.dvalue = m.dvalue := revO_keep P σ.defs (fun m => m.dvalue) (fun _ _ _ => rfl)
    (fun _ _ _ => rfl) (fun _ _ _ => rfl) _ _ _ _ hev
  exact ⟨⟨σ.defs, m'⟩, by simp [PreComp, hm, hev], Stored.mk' hm hv' hn fr
    (fun q hq => inv'.vis q hq (looks_rank hr q hq)), Stored.kept_dvalue hm hd, fun q hq => by
      show m'.cache q = _
      rw [fr.cache q (Or.inl hq)]
      exact ((resetImpl_exact σ.defs hm).2.2 q fun hmet => hq hmet.uses).2.2⟩

end

end CoolDiff
