import Verif.Scalar.WF
import Verif.Scalar.Solution

/-!
# Histories of API calls
-/

set_option linter.unusedSectionVars false

namespace CoolDiff

variable {K : Type} [Field K] [DecidableEq K]

/-- `Hist P σ U`: the heap `σ` is the result of some sequence of API calls, and `U` is the set of
objects that took part in (were reachable from the root of) some query of that sequence.
Definitions and values may change at any time in any way the C++ types allow (Variables are
assigned numbers, Expressions are assigned formulas or other Expressions).  Each query is on a root
whose definitions are not circular and which satisfies `Safe` for the objects used so far: an
Expression below the root that never took part in a query does not directly mention an Expression
that did. -/
inductive Hist (P : Prim K) : St K → (ℕ → Prop) → Prop
  | init : Hist P St.init (fun _ => False)
  | newVar {σ U} (v : K) : Hist P σ U → Hist P (newVar v σ).2 U
  | newPar {σ U} (v : K) : Hist P σ U → Hist P (newPar v σ).2 U
  | newExpr {σ U} : Hist P σ U → Hist P (newExpr σ).2 U
  | setVar {σ U} (x : ℕ) (v : K) : Hist P σ U → x < σ.defs.size → σ.defs.items x = [] →
      Hist P (assignNum x v σ) U
  | setPar {σ U} (p : ℕ) (v : K) : Hist P σ U → p < σ.defs.psize → Hist P (assignPar p v σ) U
  | define {σ U} (y : ℕ) (e : Exp K) : Hist P σ U → y < σ.defs.size → σ.defs.items y ≠ [] →
      (∀ p ∈ e.leaves, p < σ.defs.size) → (∀ p ∈ e.pars, p < σ.defs.psize) →
      Hist P (define y e σ) U
  | defineRef {σ U} (y z : ℕ) : Hist P σ U → y < σ.defs.size → σ.defs.items y ≠ [] →
      z < σ.defs.size → σ.defs.items z ≠ [] → Hist P (assignRef y z σ) U
  | eval {σ σ' U} (y : ℕ) (v : K) : Hist P σ U → y < σ.defs.size → WellDefined σ.defs y →
      Safe σ.defs U y → Eval P y σ = some (v, σ') → Hist P σ' (fun q => U q ∨ Reach σ.defs y q)
  | devalF {σ σ' U} (y x : ℕ) (v : K) : Hist P σ U → y < σ.defs.size → x < σ.defs.size →
      WellDefined σ.defs y → Safe σ.defs U y → DevalF P y x σ = some (v, σ') →
      Hist P σ' (fun q => U q ∨ Reach σ.defs y q)
  | preComp {σ σ' U} (y : ℕ) : Hist P σ U → y < σ.defs.size →
      WellDefined σ.defs y → Safe σ.defs U y → PreComp P y σ = some σ' →
      Hist P σ' (fun q => U q ∨ Reach σ.defs y q)

variable {P : Prim K}

/-- What every history guarantees. -/
structure HistInv (σ : St K) (U : ℕ → Prop) : Prop where
  wf : σ.WF
  pos : 1 ≤ σ.defs.size
  vis : ∀ q, σ.mem.visited q = true ↔ U q
  lt : ∀ q, U q → q < σ.defs.size

theorem Queried.inv {σ σ' : St K} {y : ℕ} {U : ℕ → Prop} (h : Queried y σ σ') (hi : HistInv σ U)
    (hy : y < σ.defs.size) : HistInv σ' (fun q => U q ∨ Reach σ.defs y q) := by
  refine ⟨h.wf hi.wf, by rw [h.defs]; exact hi.pos, fun q => ?_, fun q hq => ?_⟩
  · by_cases hr : Reach σ.defs y q
    · simp [h.vis q hr, hr]
    · simp [(h.out q hr).1, hi.vis q, hr]
  · rw [h.defs]
    rcases hq with hq | hq
    · exact hi.lt q hq
    · exact Reach.lt hi.wf.defs.closed hy hq

theorem HistInv.safe {σ : St K} {U : ℕ → Prop} (hi : HistInv σ U) {y : ℕ}
    (hs : Safe σ.defs U y) : Safe σ.defs (fun q => σ.mem.visited q = true) y := by
  have : (fun q => σ.mem.visited q = true) = U := by funext q; exact propext (hi.vis q)
  rw [this]; exact hs

theorem Hist.inv {σ : St K} {U : ℕ → Prop} (h : Hist P σ U) : HistInv σ U := by
  induction h with
  | init => exact ⟨St.init_wf, le_refl _, by simp [St.init], by simp⟩
  | @newVar σ U v _ ih =>
      refine ⟨newVar_wf ih.wf v, by simp [CoolDiff.newVar], fun q => ?_, fun q hq => ?_⟩
      · simp only [CoolDiff.newVar, Function.update_apply]
        split
        · next e => subst e; simpa using fun h => lt_irrefl _ (ih.lt _ h)
        · exact ih.vis q
      · have := ih.lt q hq; simp only [CoolDiff.newVar]; omega
  | newPar v _ ih => exact ⟨newPar_wf ih.wf v, ih.pos, ih.vis, ih.lt⟩
  | @newExpr σ U _ ih =>
      refine ⟨newExpr_wf ih.wf ih.pos, by simp [CoolDiff.newExpr], fun q => ?_, fun q hq => ?_⟩
      · simp only [CoolDiff.newExpr, Function.update_apply]
        split
        · next e => subst e; simpa using fun h => lt_irrefl _ (ih.lt _ h)
        · exact ih.vis q
      · have := ih.lt q hq; simp only [CoolDiff.newExpr]; omega
  | setVar x v _ hx _ ih => exact ⟨assignNum_wf ih.wf hx v, ih.pos, ih.vis, ih.lt⟩
  | setPar p v _ _ ih => exact ⟨assignPar_wf ih.wf p v, ih.pos, ih.vis, ih.lt⟩
  | define y e _ hy _ hl hp ih => exact ⟨define_wf ih.wf hy hl hp, ih.pos, ih.vis, ih.lt⟩
  | defineRef y z _ hy _ hz _ ih => exact ⟨assignRef_wf ih.wf hy hz, ih.pos, ih.vis, ih.lt⟩
  | eval y v _ hy hwd hs he ih =>
      obtain ⟨ρ, hρ⟩ := hwd.exists_solves (P := P)
      obtain ⟨σ', h1, h2⟩ := Eval_spec P ih.wf hy hwd (ih.safe hs) hρ
      rw [h1] at he
      simp only [Option.some.injEq, Prod.mk.injEq] at he
      rw [← he.2]
      exact h2.inv ih hy
  | devalF y x v _ hy hx hwd hs he ih =>
      obtain ⟨ρ, hρ⟩ := hwd.exists_solves (P := P)
      obtain ⟨δ, hδ⟩ := hwd.exists_tangent (P := P) x ρ
      obtain ⟨σ', h1, h2⟩ := DevalF_spec P ih.wf hy hx hwd (ih.safe hs) hρ hδ
      rw [h1] at he
      simp only [Option.some.injEq, Prod.mk.injEq] at he
      rw [← he.2]
      exact h2.inv ih hy
  | preComp y _ hy hwd hs he ih =>
      obtain ⟨σ', h1, h2⟩ := PreComp_queried P ih.wf hy hwd (ih.safe hs)
      rw [h1] at he
      simp only [Option.some.injEq] at he
      rw [← he]
      exact h2.inv ih hy

/-! ## When is `Safe` satisfied -/

/-- All the Expressions below the root have been queried before, or none has. -/
theorem Safe.of_all_or_none {D : Defs K} {U : ℕ → Prop} {y : ℕ}
    (h : (∀ q, Reach D y q → q ≠ y → D.items q ≠ [] → U q) ∨
      ∀ q, Reach D y q → D.items q ≠ [] → ¬ U q) : Safe D U y := by
  intro q hq hqy hu i hi p hp hpe
  have hqe : D.items q ≠ [] := by intro e; rw [e] at hi; simp at hi
  rcases h with h | h
  · exact absurd (h q hq hqy hqe) hu
  · exact h p (Reach.step hq hi hp) hpe

/-! ## Acyclicity is preserved by well-ordered definitions -/

/-- No object depends on itself except through its own previous value. -/
def Acyclic (D : Defs K) : Prop :=
  (∃ rank : ℕ → ℕ, ∀ q < D.size, ∀ i ∈ D.items q, ∀ p ∈ i.leaves, p = q ∨ rank p < rank q) ∧
  (∀ q < D.size, ∀ i is, D.items q = i :: is → q ∉ i.leaves)

theorem Acyclic.wellDefined {D : Defs K} (h : Acyclic D) (hc : D.Closed) {y : ℕ}
    (hy : y < D.size) : WellDefined D y := by
  obtain ⟨⟨rank, h1⟩, h2⟩ := h
  exact ⟨⟨rank, fun q hq => h1 q (Reach.lt hc hy hq)⟩, fun q hq => h2 q (Reach.lt hc hy hq)⟩

theorem le_sum_of_mem' {l : List ℕ} {n : ℕ} (h : n ∈ l) : n ≤ l.sum := by
  induction l with
  | nil => simp at h
  | cons a l ih =>
      rw [List.sum_cons]
      rcases List.mem_cons.1 h with rfl | h
      · omega
      · have := ih h; omega

/-- Redefining an object through objects that do not depend on it keeps the definitions acyclic. -/
theorem Acyclic.setItems {D : Defs K} (h : Acyclic D) {y n' : ℕ} {is : List (Node K)}
    (hleaf : ∀ i ∈ is, i ∈ D.items y ∨ ∀ p ∈ i.leaves, p = y ∨ ¬ Reach D p y)
    (hfirst : ∀ i rest, is = i :: rest → y ∉ i.leaves) :
    Acyclic ({ D with next := n', items := Function.update D.items y is } : Defs K) := by
  classical
  obtain ⟨⟨rank, h1⟩, h2⟩ := h
  constructor
  · set M := ((is.flatMap Node.leaves).map rank).sum with hM
    have hMle : ∀ i ∈ is, ∀ p ∈ i.leaves, rank p ≤ M := by
      intro i hi p hp
      exact le_sum_of_mem' (List.mem_map.2 ⟨p, List.mem_flatMap.2 ⟨i, hi, hp⟩, rfl⟩)
    refine ⟨fun q => if Reach D q y then rank q + (M + 1) else rank q, ?_⟩
    intro q hq i hi p hp
    have hq : q < D.size := hq
    simp only [Function.update_apply] at hi
    by_cases e : q = y
    · subst e
      rw [if_pos rfl] at hi
      have hq1 : Reach D q q := Reach.refl
      simp only [hq1, if_true]
      rcases hleaf i hi with ho | hn
      · rcases h1 q hq i ho p hp with hpq | hpq
        · exact Or.inl hpq
        · right; split <;> omega
      · rcases hn p hp with hpq | hpq
        · exact Or.inl hpq
        · right
          rw [if_neg hpq]
          have := hMle i hi p hp; omega
    · rw [if_neg e] at hi
      rcases h1 q hq i hi p hp with hpq | hpq
      · exact Or.inl hpq
      · right
        by_cases hpy : Reach D p y
        · have : Reach D q y := (Reach.of_leaf hi hp).trans hpy
          simp only [hpy, this, if_true]; omega
        · simp only [hpy, if_false]; split <;> omega
  · intro q hq i rest he
    simp only [Function.update_apply] at he
    split at he
    · next e => subst e; exact hfirst i rest he
    · exact h2 q hq i rest he

theorem define_acyclic {σ : St K} (h : Acyclic σ.defs) {y : ℕ} (hy : y < σ.defs.size)
    (hye : σ.defs.items y ≠ []) {e : Exp K}
    (hord : ∀ p ∈ e.leaves, p = y ∨ ¬ Reach σ.defs p y) : Acyclic (define y e σ).defs := by
  have hl : ∀ n m, (cloneN (e.build n).1 m).1.leaves = e.leaves := by
    intro n m; rw [cloneN_leaves, e.build_leaves]
  show Acyclic ({ σ.defs with next := _, items := Function.update σ.defs.items y _ } : Defs K)
  apply h.setItems
  · intro i hi
    rcases List.mem_append.1 hi with hi | hi
    · left
      split at hi
      · exact hi
      · simp at hi
    · right
      simp only [List.mem_singleton] at hi
      subst hi
      intro p hp
      rw [Node.leaves, hl] at hp
      exact hord p hp
  · intro i rest he
    split at he
    · cases hit : σ.defs.items y with
      | nil => exact absurd hit hye
      | cons a b =>
          have : a = i := by
            simp only [hit, List.cons_append, List.cons.injEq] at he
            exact he.1
          subst this
          exact h.2 y hy a b hit
    · next hf =>
      simp only [List.nil_append, List.cons.injEq] at he
      rw [← he.1, Node.leaves, hl, ← e.build_leaves σ.defs.next, ← findMe_iff]
      exact hf

theorem assignRef_acyclic {σ : St K} (h : Acyclic σ.defs) {y z : ℕ}
    (hord : ¬ Reach σ.defs z y) : Acyclic (assignRef y z σ).defs := by
  have hzy : z ≠ y := by rintro rfl; exact hord Reach.refl
  show Acyclic ({ σ.defs with next := σ.defs.next, items := Function.update σ.defs.items y _ } :
    Defs K)
  apply h.setItems
  · intro i hi
    simp only [beq_iff_eq, hzy, if_false, List.nil_append, List.mem_singleton] at hi
    subst hi
    right
    intro p hp
    simp only [Node.leaves, List.mem_singleton] at hp
    exact Or.inr (hp ▸ hord)
  · intro i rest he
    simp only [beq_iff_eq, hzy, if_false, List.nil_append, List.cons.injEq] at he
    rw [← he.1]
    simpa [Node.leaves] using Ne.symm hzy

/-- Definitions that only mention objects created earlier (or the target itself, after its first
equation) are acyclic.  This form can be checked by computation. -/
theorem Acyclic.of_ordered {D : Defs K}
    (h : ∀ q < D.size, ∀ i ∈ D.items q, ∀ p ∈ i.leaves, p ≤ q)
    (h' : ∀ q < D.size, ∀ i ∈ (D.items q).head?, q ∉ i.leaves) : Acyclic D := by
  refine ⟨⟨id, fun q hq i hi p hp => ?_⟩, fun q hq i is he => ?_⟩
  · have := h q hq i hi p hp
    simp only [id]; omega
  · exact h' q hq i (by rw [he]; rfl)

theorem Safe.none {D : Defs K} {y : ℕ} : Safe D (fun _ => False) y :=
  fun _ _ _ _ _ _ _ _ _ => id

/-- Everything below the root has been queried: safe. -/
theorem Safe.all {D : Defs K} {U : ℕ → Prop} {y : ℕ} (h : ∀ q, Reach D y q → U q) : Safe D U y :=
  Safe.of_all_or_none (Or.inl fun q hq _ _ => h q hq)

/-! ## Arbitrary histories -/

/-- `Run P σ`: the heap `σ` is the result of any sequence of API calls at all (circular definitions
and any order of queries allowed). -/
inductive Run (P : Prim K) : St K → Prop
  | init : Run P St.init
  | newVar {σ} (v : K) : Run P σ → Run P (newVar v σ).2
  | newPar {σ} (v : K) : Run P σ → Run P (newPar v σ).2
  | newExpr {σ} : Run P σ → Run P (newExpr σ).2
  | setVar {σ} (x : ℕ) (v : K) : Run P σ → x < σ.defs.size → σ.defs.items x = [] →
      Run P (assignNum x v σ)
  | setPar {σ} (p : ℕ) (v : K) : Run P σ → p < σ.defs.psize → Run P (assignPar p v σ)
  | define {σ} (y : ℕ) (e : Exp K) : Run P σ → y < σ.defs.size → σ.defs.items y ≠ [] →
      (∀ p ∈ e.leaves, p < σ.defs.size) → (∀ p ∈ e.pars, p < σ.defs.psize) →
      Run P (define y e σ)
  /-- operator functions are called without assigning the result (`auto& f = x * y;`): they take
  numbers from the global counter -/
  | formula {σ} (n : ℕ) : Run P σ → σ.defs.next ≤ n → Run P { σ with defs := { σ.defs with next := n } }
  /-- `y = f` for a formula object `f` built at any earlier time -/
  | assign {σ} (y : ℕ) (t : Node K) : Run P σ → y < σ.defs.size → σ.defs.items y ≠ [] →
      (∀ p ∈ t.leaves, p < σ.defs.size) → (∀ p ∈ t.pars, p < σ.defs.psize) → Run P (assignExp y t σ)
  | defineRef {σ} (y z : ℕ) : Run P σ → y < σ.defs.size → σ.defs.items y ≠ [] →
      z < σ.defs.size → σ.defs.items z ≠ [] → Run P (assignRef y z σ)
  | eval {σ σ'} (y : ℕ) (v : K) : Run P σ → y < σ.defs.size → Eval P y σ = some (v, σ') → Run P σ'
  | devalF {σ σ'} (y x : ℕ) (v : K) : Run P σ → y < σ.defs.size → x < σ.defs.size →
      DevalF P y x σ = some (v, σ') → Run P σ'
  | preComp {σ σ'} (y : ℕ) : Run P σ → y < σ.defs.size → PreComp P y σ = some σ' → Run P σ'

theorem Eval_defs {σ σ' : St K} {y : ℕ} {v : K} (h : Eval P y σ = some (v, σ')) :
    σ'.defs = σ.defs := by
  simp only [Eval, Option.bind_eq_bind, Option.bind_eq_some_iff] at h
  obtain ⟨m, -, ⟨u, m'⟩, -, h⟩ := h
  simp only [Option.some.injEq, Prod.mk.injEq] at h
  rw [← h.2]

theorem DevalF_defs {σ σ' : St K} {y x : ℕ} {v : K} (h : DevalF P y x σ = some (v, σ')) :
    σ'.defs = σ.defs := by
  simp only [DevalF, Option.bind_eq_bind, Option.bind_eq_some_iff] at h
  obtain ⟨m, -, ⟨u, m'⟩, -, h⟩ := h
  simp only [Option.some.injEq, Prod.mk.injEq] at h
  rw [← h.2]

theorem PreComp_defs {σ σ' : St K} {y : ℕ} (h : PreComp P y σ = some σ') :
    σ'.defs = σ.defs := by
  simp only [PreComp, Option.bind_eq_bind, Option.bind_eq_some_iff] at h
  obtain ⟨m, -, m', -, h⟩ := h
  simp only [Option.some.injEq] at h
  rw [← h]

theorem Run.defs_wf {σ : St K} (h : Run P σ) : σ.defs.WF ∧ 1 ≤ σ.defs.size := by
  induction h with
  | init => exact ⟨St.init_wf.defs, le_refl _⟩
  | newVar v _ ih =>
      exact ⟨ih.1.add (le_refl _) (Nat.lt_succ_self _) (Or.inr rfl) (Or.inl rfl),
        by simp [CoolDiff.newVar]⟩
  | @newPar σ v _ ih =>
      refine ⟨?_, ih.2⟩
      -- the evaluation memory plays no role
      let τ : St K := ⟨σ.defs, ⟨fun _ => false, σ.defs.base, fun _ => 0, fun _ _ => 0⟩⟩
      exact (newPar_wf (σ := τ) ⟨ih.1, fun _ _ _ => ⟨rfl, rfl, rfl⟩⟩ v).defs
  | newExpr _ ih =>
      exact ⟨ih.1.add (by omega) (Nat.lt_succ_self _) (Or.inl ih.2) (Or.inr rfl),
        by simp [CoolDiff.newExpr]⟩
  | @setVar σ x v _ hx _ ih =>
      let τ : St K := ⟨σ.defs, ⟨fun _ => false, σ.defs.base, fun _ => 0, fun _ _ => 0⟩⟩
      exact ⟨(assignNum_wf (σ := τ) ⟨ih.1, fun _ _ _ => ⟨rfl, rfl, rfl⟩⟩ hx v).defs, ih.2⟩
  | @setPar σ p v _ _ ih =>
      let τ : St K := ⟨σ.defs, ⟨fun _ => false, σ.defs.base, fun _ => 0, fun _ _ => 0⟩⟩
      exact ⟨(assignPar_wf (σ := τ) ⟨ih.1, fun _ _ _ => ⟨rfl, rfl, rfl⟩⟩ p v).defs, ih.2⟩
  | @define σ y e _ hy _ hl hp ih =>
      let τ : St K := ⟨σ.defs, ⟨fun _ => false, σ.defs.base, fun _ => 0, fun _ _ => 0⟩⟩
      exact ⟨(define_wf (σ := τ) ⟨ih.1, fun _ _ _ => ⟨rfl, rfl, rfl⟩⟩ hy hl hp).defs, ih.2⟩
  | @formula σ n _ hn ih => exact ⟨ih.1.bump hn, ih.2⟩
  | @assign σ y t _ hy _ hl hp ih =>
      let τ : St K := ⟨σ.defs, ⟨fun _ => false, σ.defs.base, fun _ => 0, fun _ _ => 0⟩⟩
      exact ⟨(assignExp_wf (σ := τ) ⟨ih.1, fun _ _ _ => ⟨rfl, rfl, rfl⟩⟩ hy hl hp).defs, ih.2⟩
  | @defineRef σ y z _ hy _ hz _ ih =>
      let τ : St K := ⟨σ.defs, ⟨fun _ => false, σ.defs.base, fun _ => 0, fun _ _ => 0⟩⟩
      exact ⟨(assignRef_wf (σ := τ) ⟨ih.1, fun _ _ _ => ⟨rfl, rfl, rfl⟩⟩ hy hz).defs, ih.2⟩
  | eval y v _ _ he ih => rw [Eval_defs he]; exact ih
  | devalF y x v _ _ _ he ih => rw [DevalF_defs he]; exact ih
  | preComp y _ _ he ih => rw [PreComp_defs he]; exact ih

/-- Disciplined histories are histories. -/
theorem Hist.run {σ : St K} {U : ℕ → Prop} (h : Hist P σ U) : Run P σ := by
  induction h with
  | init => exact .init
  | newVar v _ ih => exact .newVar v ih
  | newPar v _ ih => exact .newPar v ih
  | newExpr _ ih => exact .newExpr ih
  | setVar x v _ h1 h2 ih => exact .setVar x v ih h1 h2
  | setPar p v _ h1 ih => exact .setPar p v ih h1
  | define y e _ h1 h2 h3 h4 ih => exact .define y e ih h1 h2 h3 h4
  | defineRef y z _ h1 h2 h3 h4 ih => exact .defineRef y z ih h1 h2 h3 h4
  | eval y v _ h1 _ _ h2 ih => exact .eval y v ih h1 h2
  | devalF y x v _ h1 h2 _ _ h3 ih => exact .devalF y x v ih h1 h2 h3
  | preComp y _ h1 _ _ h2 ih => exact .preComp y ih h1 h2

end CoolDiff
