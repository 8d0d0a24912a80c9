import Verif.Props.Orders

/-!
# C07, C08, C09, C10, C11, C13, C18: what definitions mean to every query mode

`Exp` (Verif/Scalar/Build.lean) is what the user writes; `Exp.val` and `Exp.der` are the written
arithmetic and its derivative by the rules of calculus.
-/

set_option linter.unusedSectionVars false

namespace CoolDiff

variable {K : Type} [Field K] [DecidableEq K] {P : Prim K}

/-- What the three modes answer on the root `y` of the heap `σ`: value `v` from `Eval`, derivative `d`
with respect to `x` from `DevalF`, and from `PreComp`, `DevalR`; each mode whenever the stored results of that
kind it may come across are current (`Fine`, Scalar/Rounds; after the histories of `C02_current_partial`, and whenever
nothing below `y` was queried before, all three are: `Answers.all`, `Hist.ready`, `ready_of_fresh`). -/
structure Answers (P : Prim K) (σ : St K) (y x : ℕ) (v d : K) : Prop where
  eval : Fine (GoodV P) σ y → (Eval P y σ).map Prod.fst = some v
  fwd : Fine (GoodF P x) σ y → (DevalF P y x σ).map Prod.fst = some d
  rev : Fine (GoodR P) σ y → (PreComp P y σ).map (DevalR y x) = some d

theorem Answers.all {σ : St K} {y x : ℕ} {v d : K} (h : Answers P σ y x v d) (hs : Ready P σ y x) :
    (Eval P y σ).map Prod.fst = some v ∧ (DevalF P y x σ).map Prod.fst = some d ∧
      (PreComp P y σ).map (DevalR y x) = some d :=
  ⟨h.eval hs.val, h.fwd hs.fwd, h.rev hs.rev⟩

/-- `x` is a Variable the user can differentiate with respect to: no definition, not the library's
internal `Variable::t0` (object 0). -/
def IsVar (D : Defs K) (x : ℕ) : Prop := x < D.size ∧ x ≠ 0 ∧ D.items x = []

theorem answers_spec {σ : St K} (h : Run P σ) {y x : ℕ} (hy : y < σ.defs.size)
    (hx : IsVar σ.defs x) (hxy : x ≠ y) (hwd : WellDefined σ.defs y)
    {ρ δ : ℕ → K} (hρ : Solves P σ.defs y ρ) (hδ : Tangent P σ.defs y x ρ δ) :
    Answers P σ y x (ρ y) (δ y) := by
  refine ⟨fun hs => ?_, fun hs => ?_, fun hs => ?_⟩
  · obtain ⟨σ₀, h0, -⟩ := hs.eval h.wf hy hwd hρ
    rw [h0]; rfl
  · obtain ⟨σ₁, h1, -⟩ := hs.devalF h.wf hy hx.1 hwd hρ hδ
    rw [h1]; rfl
  · obtain ⟨σ₂, h2, h3⟩ := hs.devalR h.wf hy hwd
      (keyHyp_of_revOK h.wf hy hx.1 (h.revOK hy hx.1 hx.2.1 hx.2.2)) hρ hδ
    rw [if_neg (Ne.symm hxy)] at h3
    rw [h2, Option.map_some, h3]

/-- The values and derivatives of the objects a formula mentions, under the current definitions. -/
structure Env (P : Prim K) (D : Defs K) (x : ℕ) (os : List ℕ) (ρ δ : ℕ → K) : Prop where
  val : ∀ p ∈ os, ValueOf P D p (ρ p)
  der : ∀ p ∈ os, DerivOf P D p x (δ p)
  var : ∀ p ∈ os, D.items p = [] → ρ p = D.base p ∧ δ p = if p = x then 1 else 0

/-- The three modes on an Expression currently defined by the formula `e`. -/
theorem answers_formula {σ : St K} (h : Run P σ) {y x : ℕ} {e : Exp K}
    (hy : y < σ.defs.size) (hx : IsVar σ.defs x) (hxy : x ≠ y) (hwd : WellDefined σ.defs y)
    (he : IsFormula σ.defs y e) :
    ∃ ρ δ, Env P σ.defs x e.leaves ρ δ ∧
      Answers P σ y x (e.val P σ.defs.par ρ) (e.der P σ.defs.par ρ δ) := by
  obtain ⟨ρ, hρ⟩ := hwd.exists_solves (P := P)
  obtain ⟨δ, hδ⟩ := hwd.exists_tangent (P := P) x ρ
  refine ⟨ρ, δ, ⟨fun p hp => ⟨ρ, hρ.mono (he.reach hp), rfl⟩,
    fun p hp => ⟨ρ, δ, hρ.mono (he.reach hp), hδ.mono (he.reach hp), rfl⟩,
    fun p hp hv => ⟨hρ.variable (he.reach hp) hv, hδ.variable (he.reach hp) hv⟩⟩, ?_⟩
  have := answers_spec h hy hx hxy hwd hρ hδ
  rwa [he.val .refl hρ, he.der .refl hδ (Ne.symm hxy)] at this

theorem Ex.s0_isVar1 : IsVar Ex.s0.defs 1 := ⟨by decide, by decide, rfl⟩

theorem Ex.s0_formula : IsFormula Ex.s0.defs 4 (.add (.mul (.var 3) (.var 3)) (.var 1)) :=
  define_isFormula (by decide) _

example : ∃ ρ δ, Env Ex.P0 Ex.s0.defs 1 [3, 3, 1] ρ δ ∧
    Answers Ex.P0 Ex.s0 4 1 (ρ 3 * ρ 3 + ρ 1) ((δ 3 * ρ 3 + ρ 3 * δ 3) + δ 1) :=
  answers_formula Ex.s0_hist.run (by decide) Ex.s0_isVar1 (by decide) Ex.s0_wd Ex.s0_formula

/-- All three modes of the example answer (so `Answers` is not empty): `y = e*e + x` at `x = 2, z = 3`, `e = x*z`. -/
example : ∃ v d, (Eval Ex.P0 4 Ex.s0).map Prod.fst = some v ∧ (DevalF Ex.P0 4 1 Ex.s0).map Prod.fst = some d ∧
    (PreComp Ex.P0 4 Ex.s0).map (DevalR 4 1) = some d := by
  obtain ⟨ρ, δ, -, h⟩ := answers_formula Ex.s0_hist.run (y := 4) (by decide) Ex.s0_isVar1 (by decide) Ex.s0_wd
    Ex.s0_formula
  exact ⟨_, _, h.all (Ex.s0_hist.ready Safe.none _)⟩

/-! ## C07 -/

theorem assignPar_items (p : ℕ) (v : K) (σ : St K) :
    (assignPar p v σ).defs.items = σ.defs.items := rfl

/-- Transport of definedness: only the definitions matter. -/
theorem WellDefined.of_items {D D' : Defs K} {y : ℕ} (h : WellDefined D y) (hi : D'.items = D.items) :
    WellDefined D' y := by
  have hr : ∀ q, Reach D' y q → Reach D y q := by
    intro q hq
    induction hq with
    | refl => exact .refl
    | step _ hi' hp ih => exact .step ih (by rw [← hi]; exact hi') hp
  obtain ⟨⟨rank, a⟩, b⟩ := h
  exact ⟨⟨rank, fun q hq i hi' => a q (hr q hq) i (by rw [← hi]; exact hi')⟩,
    fun q hq i is hi' => b q (hr q hq) i is (by rw [← hi]; exact hi')⟩

theorem Reach.of_items {D D' : Defs K} {y q : ℕ} (h : Reach D y q) (hi : D'.items = D.items) :
    Reach D' y q := by
  induction h with
  | refl => exact .refl
  | step _ hi' hp ih => exact .step ih (by rw [hi]; exact hi') hp

theorem Safe.of_items {D D' : Defs K} {U : ℕ → Prop} {y : ℕ} (h : Safe D U y)
    (hi : D'.items = D.items) : Safe D' U y := by
  intro q hq hqy hu i hii p hp hpe
  rw [hi] at hii hpe
  exact h q (hq.of_items hi.symm) hqy hu i hii p hp hpe

/-- C07, live value: after `p = v` the next query on an Expression defined by `e` answers for the
written arithmetic with `v` in place of the Parameter; the Parameter contributes no derivative
(`Exp.der` of a Parameter is 0).  After every history (see `Answers`). -/
theorem C07_parameter_live_partial {σ : St K} (h : Run P σ) {y x p : ℕ} {e : Exp K}
    (hy : y < σ.defs.size) (hx : IsVar σ.defs x) (hxy : x ≠ y) (hwd : WellDefined σ.defs y)
    (he : IsFormula σ.defs y e) (hp : p < σ.defs.psize) (v : K) :
    ∃ ρ δ, Env P (assignPar p v σ).defs x e.leaves ρ δ ∧
      Answers P (assignPar p v σ) y x
        (e.val P (Function.update σ.defs.par p v) ρ)
        (e.der P (Function.update σ.defs.par p v) ρ δ) :=
  answers_formula (h.setPar p v hp) hy hx hxy (hwd.of_items rfl) he

/-- Replace Parameter `p` by the Variable `q`. -/
def Exp.parToVar (p q : ℕ) : Exp K → Exp K
  | .var o => .var o
  | .par r => if r = p then .var q else .par r
  | .fn f a => .fn f (a.parToVar p q)
  | .add a b => .add (a.parToVar p q) (b.parToVar p q)
  | .sub a b => .sub (a.parToVar p q) (b.parToVar p q)
  | .mul a b => .mul (a.parToVar p q) (b.parToVar p q)
  | .div a b => .div (a.parToVar p q) (b.parToVar p q)
  | .pow a b => .pow (a.parToVar p q) (b.parToVar p q)
  | .addC a c => .addC (a.parToVar p q) c
  | .cAdd c a => .cAdd c (a.parToVar p q)
  | .subC a c => .subC (a.parToVar p q) c
  | .cSub c a => .cSub c (a.parToVar p q)
  | .neg a => .neg (a.parToVar p q)
  | .mulC a c => .mulC (a.parToVar p q) c
  | .cMul c a => .cMul c (a.parToVar p q)
  | .divC a c => .divC (a.parToVar p q) c
  | .cDiv c a => .cDiv c (a.parToVar p q)
  | .powC a c => .powC (a.parToVar p q) c
  | .cPow c a => .cPow c (a.parToVar p q)
  | .un f df a => .un f df (a.parToVar p q)
  | .bin f fu fv a b => .bin f fu fv (a.parToVar p q) (b.parToVar p q)
  | .cBin f fu fv c a => .cBin f fu fv c (a.parToVar p q)
  | .binC f fu fv a c => .binC f fu fv (a.parToVar p q) c

/-- C07, constant: as far as value and derivatives go, a Parameter is a Variable holding the same
number and never differentiated with respect to. -/
theorem C07_parameter_constant (π ρ δ : ℕ → K) (e : Exp K) (p q : ℕ) (hρ : ρ q = π p)
    (hδ : δ q = 0) :
    (e.parToVar p q).val P π ρ = e.val P π ρ ∧ (e.parToVar p q).der P π ρ δ = e.der P π ρ δ := by
  induction e with
  | var o => exact ⟨rfl, rfl⟩
  | par r =>
      simp only [Exp.parToVar]
      split
      · next e => subst e; exact ⟨hρ, hδ⟩
      · exact ⟨rfl, rfl⟩
  | _ => simp [Exp.parToVar, Exp.val, Exp.der, *]

example : (Exp.parToVar 0 5 (.mul (.par 0) (.var 1)) : Exp ℚ) = .mul (.var 5) (.var 1) := rfl

/-! ## C08 -/

/-- Run assignments `y = e₁; y = e₂; ...` -/
def assignAll (y : ℕ) (es : List (Exp K)) (σ : St K) : St K :=
  es.foldl (fun σ e => define y e σ) σ

theorem define_seqVal (π ρ : ℕ → K) (y : ℕ) (e : Exp K) (σ : St K) (b : K) :
    seqVal P π ρ y ((define y e σ).defs.items y) b =
      e.val P π (Function.update ρ y (seqVal P π ρ y (σ.defs.items y) b)) := by
  rw [define_items]
  by_cases h : y ∈ e.leaves
  · rw [if_pos h, seqVal_append, stored_val]
  · rw [if_neg h, List.nil_append]
    simp only [seqVal, stored_val]
    apply Exp.val_congr
    intro p hp
    have : p ≠ y := by rintro rfl; exact h hp
    simp [this]

theorem define_seqDer (π ρ δ : ℕ → K) (y : ℕ) (e : Exp K) (σ : St K) (b d : K) :
    seqDer P π ρ δ y ((define y e σ).defs.items y) b d =
      e.der P π (Function.update ρ y (seqVal P π ρ y (σ.defs.items y) b))
        (Function.update δ y (seqDer P π ρ δ y (σ.defs.items y) b d)) := by
  rw [define_items]
  by_cases h : y ∈ e.leaves
  · rw [if_pos h, seqDer_append, stored_der]
  · rw [if_neg h, List.nil_append]
    simp only [seqDer, stored_der]
    have : ∀ p ∈ e.leaves, p ≠ y := by rintro p hp rfl; exact h hp
    apply Exp.der_congr <;> intro p hp <;> simp [this p hp]

/-- The straight-line program: value of `y` after the assignments, when it was `v` before. -/
def progVal (P : Prim K) (π ρ : ℕ → K) (y : ℕ) : List (Exp K) → K → K
  | [], v => v
  | e :: es, v => progVal P π ρ y es (e.val P π (Function.update ρ y v))

/-- The straight-line program carrying the derivative along. -/
def progDer (P : Prim K) (π ρ δ : ℕ → K) (y : ℕ) : List (Exp K) → K → K → K
  | [], _, d => d
  | e :: es, v, d => progDer P π ρ δ y es (e.val P π (Function.update ρ y v))
      (e.der P π (Function.update ρ y v) (Function.update δ y d))

theorem assignAll_seqVal (π ρ : ℕ → K) (y : ℕ) (es : List (Exp K)) :
    ∀ (σ : St K) (b : K), seqVal P π ρ y ((assignAll y es σ).defs.items y) b =
      progVal P π ρ y es (seqVal P π ρ y (σ.defs.items y) b) := by
  induction es with
  | nil => intro σ b; rfl
  | cons e es ih =>
      intro σ b
      rw [progVal, ← define_seqVal]
      exact ih (define y e σ) b

theorem assignAll_seqDer (π ρ δ : ℕ → K) (y : ℕ) (es : List (Exp K)) :
    ∀ (σ : St K) (b d : K), seqDer P π ρ δ y ((assignAll y es σ).defs.items y) b d =
      progDer P π ρ δ y es (seqVal P π ρ y (σ.defs.items y) b)
        (seqDer P π ρ δ y (σ.defs.items y) b d) := by
  induction es with
  | nil => intro σ b d; rfl
  | cons e es ih =>
      intro σ b d
      rw [progDer, ← define_seqVal, ← define_seqDer]
      exact ih (define y e σ) b d

theorem assignAll_defs (y : ℕ) (es : List (Exp K)) : ∀ σ : St K,
    (assignAll y es σ).defs.size = σ.defs.size ∧ (assignAll y es σ).defs.psize = σ.defs.psize ∧
    (assignAll y es σ).defs.base = σ.defs.base ∧ (assignAll y es σ).defs.par = σ.defs.par ∧
    (∀ q, q ≠ y → (assignAll y es σ).defs.items q = σ.defs.items q) ∧
    (σ.defs.items y ≠ [] → (assignAll y es σ).defs.items y ≠ []) := by
  induction es with
  | nil => intro σ; exact ⟨rfl, rfl, rfl, rfl, fun _ _ => rfl, id⟩
  | cons e es ih =>
      intro σ
      obtain ⟨a, a', b, c, d, f⟩ := ih (define y e σ)
      exact ⟨a, a', b, c, fun q hq => (d q hq).trans (define_items_ne hq e σ),
        fun _ => f (by rw [define_items]; simp)⟩

theorem Run.assignAll {y : ℕ} (es : List (Exp K)) : ∀ {σ : St K}, Run P σ →
    y < σ.defs.size → σ.defs.items y ≠ [] →
    (∀ e ∈ es, (∀ p ∈ e.leaves, p < σ.defs.size) ∧ ∀ p ∈ e.pars, p < σ.defs.psize) →
    Run P (assignAll y es σ) := by
  induction es with
  | nil => intro σ h _ _ _; exact h
  | cons e es ih =>
      intro σ h hy hye hes
      exact ih (h.define y e hy hye (hes e (by simp)).1 (hes e (by simp)).2) hy
        (by rw [define_items]; simp) (fun e' he' => hes e' (by simp [he']))

/-- C08.  After `y = e₀; y = e₁; ...; y = eₙ` (any number of assignments, any right-hand sides, each
possibly mentioning `y`; the first does not), value, forward derivative and reverse derivative of `y`
are those of the straight-line program that runs the assignments in order, each right-hand side seeing
the previous `y`.  After every history (see `Answers`). -/
theorem C08_sequential_partial {σ : St K} (h : Run P σ) {y x : ℕ} {e₀ : Exp K}
    {es : List (Exp K)} (hy : y < σ.defs.size) (hye : σ.defs.items y ≠ [])
    (hes : ∀ e ∈ e₀ :: es, (∀ p ∈ e.leaves, p < σ.defs.size) ∧ ∀ p ∈ e.pars, p < σ.defs.psize)
    (h0 : y ∉ e₀.leaves) (hx : IsVar σ.defs x) (hxy : x ≠ y)
    (hwd : WellDefined (assignAll y (e₀ :: es) σ).defs y) :
    ∃ ρ δ, (∀ p, (∃ e ∈ e₀ :: es, p ∈ e.leaves) → p ≠ y →
        Reach (assignAll y (e₀ :: es) σ).defs y p →
        ValueOf P (assignAll y (e₀ :: es) σ).defs p (ρ p) ∧
        DerivOf P (assignAll y (e₀ :: es) σ).defs p x (δ p)) ∧
      Answers P (assignAll y (e₀ :: es) σ) y x
        (progVal P σ.defs.par ρ y es (e₀.val P σ.defs.par ρ))
        (progDer P σ.defs.par ρ δ y es (e₀.val P σ.defs.par ρ) (e₀.der P σ.defs.par ρ δ)) := by
  have hH : Run P (assignAll y (e₀ :: es) σ) := Run.assignAll _ h hy hye hes
  obtain ⟨d1, d2, d3, d4, d5, d6⟩ := assignAll_defs y (e₀ :: es) σ
  obtain ⟨ρ, hρ⟩ := hwd.exists_solves (P := P)
  obtain ⟨δ, hδ⟩ := hwd.exists_tangent (P := P) x ρ
  have hx' : IsVar (assignAll y (e₀ :: es) σ).defs x :=
    ⟨by rw [d1]; exact hx.1, hx.2.1, by rw [d5 x hxy]; exact hx.2.2⟩
  have hA := answers_spec hH (by rw [d1]; exact hy) hx' hxy hwd hρ hδ
  refine ⟨ρ, δ, fun p _ _ hr => ⟨⟨ρ, hρ.mono hr, rfl⟩, ⟨ρ, δ, hρ.mono hr, hδ.mono hr, rfl⟩⟩, ?_⟩
  have hne : ∀ p ∈ e₀.leaves, p ≠ y := by rintro p hp rfl; exact h0 hp
  have e1 : ∀ v, e₀.val P σ.defs.par (Function.update ρ y v) = e₀.val P σ.defs.par ρ := by
    intro v; apply Exp.val_congr; intro p hp; simp [hne p hp]
  have e2 : ∀ v d, e₀.der P σ.defs.par (Function.update ρ y v) (Function.update δ y d) =
      e₀.der P σ.defs.par ρ δ := by
    intro v d; apply Exp.der_congr <;> intro p hp <;> simp [hne p hp]
  have v1 := hρ y .refl
  rw [assignAll_seqVal, d4, progVal, e1] at v1
  have v2 := hδ y .refl
  rw [if_neg (Ne.symm hxy), assignAll_seqDer, d4, progDer, e1, e2] at v2
  rw [v1, v2] at hA
  exact hA

namespace Ex

/-- `Variable x = 3; Expression y;` (x = 1, y = 2) -/
def seq0 : St ℚ := (newExpr (newVar 3 St.init).2).2

/-- `y = x; y = y*x; y = y + y*x;` -/
def seqEs : List (Exp ℚ) := [.mul (.var 2) (.var 1), .add (.var 2) (.mul (.var 2) (.var 1))]

end Ex

example : ∃ ρ δ : ℕ → ℚ, Answers Ex.P0 (assignAll 2 (.var 1 :: Ex.seqEs) Ex.seq0) 2 1
    (progVal Ex.P0 Ex.seq0.defs.par ρ 2 Ex.seqEs (ρ 1))
    (progDer Ex.P0 Ex.seq0.defs.par ρ δ 2 Ex.seqEs (ρ 1) (δ 1)) := by
  have hc : (assignAll 2 (.var 1 :: Ex.seqEs) Ex.seq0).defs.Closed := by
    unfold Defs.Closed; decide
  obtain ⟨ρ, δ, -, h⟩ := C08_sequential_partial (x := 1) (y := 2) (e₀ := .var 1) (es := Ex.seqEs)
    (P := Ex.P0) (Run.newExpr (.newVar 3 .init)) (by decide) nofun (by decide) (by decide)
    ⟨by decide, by decide, rfl⟩ (by decide)
    ((Acyclic.of_ordered (by decide) (by decide)).wellDefined hc (by decide))
  exact ⟨ρ, δ, h⟩
example : (Eval Ex.P0 2 (assignAll 2 (.var 1 :: Ex.seqEs) Ex.seq0)).map Prod.fst = some 36 := by
  decide +kernel

/-! ## C09 -/

/-- C09, discarding: if the right-hand side does not mention `y`, the earlier definition of `y` is gone:
the new definition is exactly the right-hand side, whatever `y` was before. -/
theorem C09_discard {y : ℕ} {e : Exp K} (h : y ∉ e.leaves) (σ : St K) :
    IsFormula (define y e σ).defs y e ∧
    ∀ ρ, Solves P (define y e σ).defs y ρ → ρ y = e.val P σ.defs.par ρ :=
  ⟨define_isFormula h σ, fun _ hρ => (define_isFormula h σ).val .refl hρ⟩

/-- C09, keeping: if the right-hand side mentions `y` (at any depth of operators), the new value of `y`
is the right-hand side with `y` standing for the value the earlier definition gives. -/
theorem C09_keep {σ : St K} {y : ℕ} {e : Exp K} (h : y ∈ e.leaves) (hwd : WellDefined σ.defs y)
    {ρ : ℕ → K} (hρ : Solves P (define y e σ).defs y ρ) :
    ∃ prev, ValueOf P σ.defs y prev ∧
      ρ y = e.val P σ.defs.par (Function.update ρ y prev) := by
  have hit : ∀ q, ∀ i ∈ σ.defs.items q, i ∈ (define y e σ).defs.items q := by
    intro q i hi
    by_cases e' : q = y
    · subst e'; rw [define_items, if_pos h]; simp [hi]
    · rw [define_items_ne e']; exact hi
  have hreach : ∀ q, Reach σ.defs y q → Reach (define y e σ).defs y q := by
    intro q hq
    induction hq with
    | refl => exact .refl
    | step _ hi hp ih => exact .step ih (hit _ _ hi) hp
  obtain ⟨⟨rank, hR⟩, -⟩ := hwd
  have key : ∀ q, Reach σ.defs y q → q = y ∨ rank q < rank y := by
    intro q hq
    induction hq with
    | refl => exact Or.inl rfl
    | step hq hi hp ih =>
        rcases hR _ hq _ hi _ hp with e | e
        · rw [e]; exact ih
        · rcases ih with rfl | ih <;> omega
  refine ⟨seqVal P σ.defs.par ρ y (σ.defs.items y) (σ.defs.base y), ?_, ?_⟩
  · refine ⟨Function.update ρ y (seqVal P σ.defs.par ρ y (σ.defs.items y) (σ.defs.base y)), ?_,
      by simp⟩
    intro q hq
    by_cases e' : q = y
    · subst e'
      rw [Function.update_self]
      apply seqVal_congr
      intro i hi p hp hpq
      rw [Function.update_of_ne hpq]
    · rw [Function.update_of_ne e', hρ q (hreach q hq), define_items_ne e']
      show seqVal P σ.defs.par ρ q (σ.defs.items q) (σ.defs.base q) = _
      apply seqVal_congr
      intro i hi p hp hpq
      rw [Function.update_of_ne]
      rintro rfl
      have a := (key q hq).resolve_left e'
      rcases hR q hq i hi p hp with c | c
      · exact e' c.symm
      · omega
  · rw [hρ y .refl, define_seqVal]; rfl

/-- C09: exactly when. -/
theorem C09_iff (y : ℕ) (e : Exp K) (σ : St K) (hne : σ.defs.items y ≠ []) :
    (y ∉ e.leaves ↔ (define y e σ).defs.items y = [stored e σ.defs.next]) ∧
    (y ∈ e.leaves ↔ (define y e σ).defs.items y = σ.defs.items y ++ [stored e σ.defs.next]) := by
  rw [define_items]
  by_cases h : y ∈ e.leaves <;> simp [h, hne]

example : (2 : ℕ) ∈ (Exp.neg (.fn .sin (.mul (.var 1) (.subC (.var 2) 4))) : Exp ℚ).leaves := by
  decide

/-! ## C10 -/

/-- Replace the named object `z` by the formula `g`. -/
def Exp.subst (e : Exp K) (z : ℕ) (g : Exp K) : Exp K :=
  match e with
  | .var o => if o = z then g else .var o
  | .par r => .par r
  | .fn f a => .fn f (a.subst z g)
  | .add a b => .add (a.subst z g) (b.subst z g)
  | .sub a b => .sub (a.subst z g) (b.subst z g)
  | .mul a b => .mul (a.subst z g) (b.subst z g)
  | .div a b => .div (a.subst z g) (b.subst z g)
  | .pow a b => .pow (a.subst z g) (b.subst z g)
  | .addC a c => .addC (a.subst z g) c
  | .cAdd c a => .cAdd c (a.subst z g)
  | .subC a c => .subC (a.subst z g) c
  | .cSub c a => .cSub c (a.subst z g)
  | .neg a => .neg (a.subst z g)
  | .mulC a c => .mulC (a.subst z g) c
  | .cMul c a => .cMul c (a.subst z g)
  | .divC a c => .divC (a.subst z g) c
  | .cDiv c a => .cDiv c (a.subst z g)
  | .powC a c => .powC (a.subst z g) c
  | .cPow c a => .cPow c (a.subst z g)
  | .un f df a => .un f df (a.subst z g)
  | .bin f fu fv a b => .bin f fu fv (a.subst z g) (b.subst z g)
  | .cBin f fu fv c a => .cBin f fu fv c (a.subst z g)
  | .binC f fu fv a c => .binC f fu fv (a.subst z g) c

theorem Exp.subst_val {π ρ : ℕ → K} {z : ℕ} {g : Exp K} (h : ρ z = g.val P π ρ) (e : Exp K) :
    (e.subst z g).val P π ρ = e.val P π ρ := by
  induction e with
  | var o =>
      simp only [Exp.subst]
      split
      · next e => subst e; exact h.symm
      · rfl
  | par r => rfl
  | _ => simp [Exp.subst, Exp.val, *]

theorem Exp.subst_der {π ρ δ : ℕ → K} {z : ℕ} {g : Exp K} (h : ρ z = g.val P π ρ)
    (h' : δ z = g.der P π ρ δ) (e : Exp K) :
    (e.subst z g).der P π ρ δ = e.der P π ρ δ := by
  induction e with
  | var o =>
      simp only [Exp.subst]
      split
      · next e => subst e; exact h'.symm
      · rfl
  | par r => rfl
  | _ => simp [Exp.subst, Exp.der, Exp.subst_val h, *]

theorem Exp.subst_leaves {z : ℕ} {g : Exp K} (e : Exp K) :
    ∀ p ∈ (e.subst z g).leaves, (p ∈ e.leaves ∧ p ≠ z) ∨ (p ∈ g.leaves ∧ z ∈ e.leaves) := by
  induction e with
  | var o =>
      intro p hp
      simp only [Exp.subst] at hp
      split at hp
      · next e => subst e; exact Or.inr ⟨hp, by simp [Exp.leaves]⟩
      · next e => simp [Exp.leaves] at hp; subst hp; exact Or.inl ⟨by simp [Exp.leaves], e⟩
  | par r => intro p hp; simp [Exp.subst, Exp.leaves] at hp
  | add a b iha ihb | sub a b iha ihb | mul a b iha ihb | div a b iha ihb | pow a b iha ihb
  | bin f fu fv a b iha ihb =>
      intro p hp
      simp only [Exp.subst, Exp.leaves, List.mem_append] at hp ⊢
      rcases hp with hp | hp
      · rcases iha p hp with h | h
        · exact Or.inl ⟨Or.inl h.1, h.2⟩
        · exact Or.inr ⟨h.1, Or.inl h.2⟩
      · rcases ihb p hp with h | h
        · exact Or.inl ⟨Or.inr h.1, h.2⟩
        · exact Or.inr ⟨h.1, Or.inr h.2⟩
  | fn f a ih | addC a c ih | cAdd c a ih | subC a c ih | cSub c a ih | neg a ih | mulC a c ih
  | cMul c a ih | divC a c ih | cDiv c a ih | powC a c ih | cPow c a ih | un f df a ih
  | cBin f fu fv c a ih | binC f fu fv a c ih => exact ih

/-- C10.  `z` is a named Expression with formula `g`.  An Expression defined as `f`, mentioning `z` any
number of times, and one defined as `f` with `g` written out in place of `z` get the same answers from
all three query modes.  After every history (see `Answers`). -/
theorem C10_naming_partial {σ τ : St K} (hσ : Run P σ) (hτ : Run P τ)
    {y z x : ℕ} {f g : Exp K}
    (hdefs : ∀ q, q ≠ y → σ.defs.items q = τ.defs.items q) (hbase : σ.defs.base = τ.defs.base)
    (hpar : σ.defs.par = τ.defs.par)
    (hzσ : IsFormula σ.defs z g) (hfσ : IsFormula σ.defs y f)
    (hfτ : IsFormula τ.defs y (f.subst z g)) (hzy : z ≠ y) (hyg : y ∉ g.leaves)
    (hyσ : y < σ.defs.size) (hyτ : y < τ.defs.size)
    (hxσ : IsVar σ.defs x) (hxτ : IsVar τ.defs x) (hxy : x ≠ y)
    (hwσ : WellDefined σ.defs y) :
    ∃ v d, Answers P σ y x v d ∧ Answers P τ y x v d := by
  have hzx : z ≠ x := by
    rintro rfl
    obtain ⟨⟨n, hn⟩, -⟩ := hzσ
    rw [hxσ.2.2] at hn; simp at hn
  -- what `τ` reaches, `σ` reaches
  have hsub : ∀ q, Reach τ.defs y q → Reach σ.defs y q := by
    intro q hq
    induction hq with
    | refl => exact .refl
    | @step q p i hq hi hp ih =>
        by_cases e : q = y
        · subst e
          obtain ⟨⟨n, hn⟩, -⟩ := hfτ
          rw [hn, List.mem_singleton] at hi
          subst hi
          rw [stored_leaves] at hp
          rcases Exp.subst_leaves f p hp with h | h
          · exact hfσ.reach h.1
          · exact (hfσ.reach h.2).trans (hzσ.reach h.1)
        · exact .step ih (by rw [hdefs q e]; exact hi) hp
  obtain ⟨⟨rank, hR⟩, hF⟩ := id hwσ
  have key : ∀ q, Reach σ.defs y q → q = y ∨ rank q < rank y := by
    intro q hq
    induction hq with
    | refl => exact Or.inl rfl
    | step hq hi hp ih =>
        rcases hR _ hq _ hi _ hp with e | e
        · rw [e]; exact ih
        · rcases ih with rfl | ih <;> omega
  have hwτ : WellDefined τ.defs y := by
    refine ⟨⟨rank, fun q hq i hi p hp => ?_⟩, fun q hq i is hi => ?_⟩
    · by_cases e : q = y
      · subst e
        have hpr : Reach σ.defs q p := hsub p (.step hq hi hp)
        rcases key p hpr with h | h
        · exact Or.inl h
        · exact Or.inr h
      · exact hR q (hsub q hq) i (by rw [hdefs q e]; exact hi) p hp
    · by_cases e : q = y
      · subst e
        obtain ⟨⟨n, hn⟩, h⟩ := hfτ
        rw [hn, List.cons.injEq] at hi
        rw [← hi.1, stored_leaves]; exact h
      · exact hF q (hsub q hq) i is (by rw [hdefs q e]; exact hi)
  obtain ⟨ρ, hρ⟩ := hwσ.exists_solves (P := P)
  obtain ⟨δ, hδ⟩ := hwσ.exists_tangent (P := P) x ρ
  by_cases hzf : z ∈ f.leaves
  · have hz1 := hzσ.val (hfσ.reach hzf) hρ
    have hz2 := hzσ.der (hfσ.reach hzf) hδ hzx
    have hne : ∀ p ∈ (f.subst z g).leaves, p ≠ y := by
      rintro p hp rfl; exact hfτ.2 hp
    have hρτ : Solves P τ.defs y ρ := by
      intro q hq
      by_cases e : q = y
      · subst e
        obtain ⟨⟨n, hn⟩, -⟩ := hfτ
        rw [hfσ.val .refl hρ, hn]
        simp only [seqVal, stored_val]
        rw [← hpar, ← Exp.subst_val hz1 f]
        apply Exp.val_congr
        intro p hp; simp [hne p hp]
      · rw [hρ q (hsub q hq), hdefs q e, hbase, hpar]
    have hδτ : Tangent P τ.defs y x ρ δ := by
      intro q hq
      by_cases e : q = y
      · subst e
        obtain ⟨⟨n, hn⟩, -⟩ := hfτ
        rw [hfσ.der .refl hδ (Ne.symm hxy), if_neg (Ne.symm hxy), hn]
        simp only [seqDer, stored_der]
        rw [← hpar, ← Exp.subst_der hz1 hz2 f]
        apply Exp.der_congr <;> intro p hp <;> simp [hne p hp]
      · rw [hδ q (hsub q hq), hdefs q e, hbase, hpar]
    exact ⟨ρ y, δ y, answers_spec hσ hyσ hxσ hxy hwσ hρ hδ,
      answers_spec hτ hyτ hxτ hxy hwτ hρτ hδτ⟩
  · have hid : ∀ e : Exp K, z ∉ e.leaves → e.subst z g = e := by
      intro e
      induction e with
      | var o => intro h; simp [Exp.leaves] at h; simp [Exp.subst, Ne.symm h]
      | par r => intro _; rfl
      | add a b iha ihb | sub a b iha ihb | mul a b iha ihb | div a b iha ihb | pow a b iha ihb
      | bin f fu fv a b iha ihb =>
          intro h
          simp only [Exp.leaves, List.mem_append, not_or] at h
          simp [Exp.subst, iha h.1, ihb h.2]
      | fn f a ih | addC a c ih | cAdd c a ih | subC a c ih | cSub c a ih | neg a ih | mulC a c ih
      | cMul c a ih | divC a c ih | cDiv c a ih | powC a c ih | cPow c a ih | un f df a ih
      | cBin f fu fv c a ih | binC f fu fv a c ih => intro h; simp [Exp.subst, ih h]
    rw [hid f hzf] at hfτ
    have hρτ : Solves P τ.defs y ρ := by
      intro q hq
      by_cases e : q = y
      · subst e
        obtain ⟨⟨n, hn⟩, hy⟩ := hfτ
        rw [hfσ.val .refl hρ, hn]
        simp only [seqVal, stored_val]
        rw [← hpar]
        apply Exp.val_congr
        intro p hp
        have : p ≠ q := by rintro rfl; exact hy hp
        simp [this]
      · rw [hρ q (hsub q hq), hdefs q e, hbase, hpar]
    have hδτ : Tangent P τ.defs y x ρ δ := by
      intro q hq
      by_cases e : q = y
      · subst e
        obtain ⟨⟨n, hn⟩, hy⟩ := hfτ
        rw [hfσ.der .refl hδ (Ne.symm hxy), if_neg (Ne.symm hxy), hn]
        simp only [seqDer, stored_der]
        rw [← hpar]
        have : ∀ p ∈ f.leaves, p ≠ q := by rintro p hp rfl; exact hy hp
        apply Exp.der_congr <;> intro p hp <;> simp [this p hp]
      · rw [hδ q (hsub q hq), hdefs q e, hbase, hpar]
    exact ⟨ρ y, δ y, answers_spec hσ hyσ hxσ hxy hwσ hρ hδ,
      answers_spec hτ hyτ hxτ hxy hwτ hρτ hδτ⟩

namespace Ex

/-- `s0` before `y` is defined: `x = 2; z = 3; e = x*z; Expression y;` -/
def name0 : St ℚ := (newExpr (define 3 (.mul (.var 1) (.var 2))
  (newExpr (newVar 3 (newVar 2 St.init).2).2).2)).2

theorem name0_hist : Hist P0 name0 (fun _ => False) :=
  .newExpr (.define 3 _ (.newExpr (.newVar 3 (.newVar 2 .init)))
    (by decide) nofun (by decide) (by decide))

/-- `y = e*e + x` against `y = (x*z)*(x*z) + x` -/
example : ∃ v d,
    Answers P0 (define 4 (.add (.mul (.var 3) (.var 3)) (.var 1)) name0) 4 1 v d ∧
    Answers P0 (define 4 (.add (.mul (.mul (.var 1) (.var 2)) (.mul (.var 1) (.var 2))) (.var 1))
      name0) 4 1 v d := by
  refine C10_naming_partial (z := 3) (g := .mul (.var 1) (.var 2))
    (f := .add (.mul (.var 3) (.var 3)) (.var 1))
    (name0_hist.define 4 _ (by decide) nofun (by decide) (by decide)).run
    (name0_hist.define 4 _ (by decide) nofun (by decide) (by decide)).run
    (fun q hq => by rw [define_items_ne hq, define_items_ne hq]) rfl rfl ?_
    (define_isFormula (by decide) _) (define_isFormula (by decide) _) (by decide) (by decide)
    (by decide) (by decide) ⟨by decide, by decide, rfl⟩ ⟨by decide, by decide, rfl⟩ (by decide)
    s0_wd
  refine ⟨?_, by decide⟩
  rw [define_items_ne (by decide)]
  exact (define_isFormula (y := 3) (e := .mul (.var 1) (.var 2)) (by decide) _).1

end Ex

/-! ## C11 -/

/-- C11, the copy: `cloneExp` yields a tree that mentions the same objects, has the same value and
derivative in the specification and in the evaluation and forward algorithms, and whose operator nodes
carry pairwise distinct numbers taken from the counter. -/
theorem C11_clone (t : Node K) (n : ℕ) :
    (cloneN t n).1.leaves = t.leaves ∧
    (∀ π ρ, (cloneN t n).1.val P π ρ = t.val P π ρ) ∧
    (∀ π ρ δ, (cloneN t n).1.der P π ρ δ = t.der P π ρ δ) ∧
    (∀ D rec m, evalN P D rec (cloneN t n).1 m = evalN P D rec t m) ∧
    (∀ D recE recD m, fwdN P D recE recD (cloneN t n).1 m = fwdN P D recE recD t m) ∧
    (cloneN t n).1.opIds.Nodup ∧ (∀ k ∈ (cloneN t n).1.opIds, n ≤ k ∧ k < (cloneN t n).2) := by
  have hev : ∀ (t : Node K) n D rec m, evalN P D rec (cloneN t n).1 m = evalN P D rec t m := by
    intro t
    induction t with
    | leaf | par => intros; rfl
    | op1 k f a ih => intro n D rec m; simp only [cloneN, evalN, ih]
    | op2 k f a b iha ihb => intro n D rec m; simp only [cloneN, evalN, iha, ihb]
  have hfw : ∀ (t : Node K) n D recE recD m,
      fwdN P D recE recD (cloneN t n).1 m = fwdN P D recE recD t m := by
    intro t
    induction t with
    | leaf | par => intros; rfl
    | op1 k f a ih => intro n D recE recD m; simp only [cloneN, fwdN, ih, hev]
    | op2 k f a b iha ihb => intro n D recE recD m; simp only [cloneN, fwdN, iha, ihb, hev]
  obtain ⟨h1, h2, h3⟩ := cloneN_ids t n
  exact ⟨cloneN_leaves t n, fun π ρ => cloneN_val P π ρ t n, fun π ρ δ => cloneN_der P π ρ δ t n,
    hev t n, hfw t n, h3, h2⟩

/-- C11, the heap: after any history, writing `y = e` leaves the definition of every other object
untouched, and no operator node of the new definition shares its number with any node or object that
existed before, nor with another node of the new definition. -/
theorem C11_fresh {σ : St K} (h : Run P σ) (y : ℕ) (e : Exp K) :
    (∀ q, q ≠ y → (define y e σ).defs.items q = σ.defs.items q) ∧
    ∃ t, t ∈ (define y e σ).defs.items y ∧ t.opIds.Nodup ∧
      (∀ q < σ.defs.size, ∀ i ∈ σ.defs.items q, ∀ n ∈ i.opIds, n ∉ t.opIds) ∧
      (∀ q < σ.defs.size, σ.defs.nidx q ∉ t.opIds) ∧
      (∀ p < σ.defs.psize, σ.defs.pnidx p ∉ t.opIds) ∧
      (∀ n ∈ t.opIds, n < (define y e σ).defs.next) := by
  refine ⟨fun q hq => define_items_ne hq e σ, stored e σ.defs.next, by rw [define_items]; simp, ?_⟩
  have b1 := e.build_ok σ.defs.next
  obtain ⟨c1, c2, c3⟩ := cloneN_ids (e.build σ.defs.next).1 (e.build σ.defs.next).2
  have hge : ∀ n ∈ (stored e σ.defs.next).opIds, σ.defs.next ≤ n := by
    intro n hn
    simp only [stored, Node.opIds, List.mem_cons] at hn
    rcases hn with rfl | hn
    · exact b1.le.trans c1
    · exact b1.le.trans (c2 n hn).1
  have hw := h.defs_wf.1
  refine ⟨?_, ?_, ?_, ?_, ?_⟩
  · simp only [stored, Node.opIds, List.nodup_cons]
    exact ⟨fun hm => by have := (c2 _ hm).2; omega, c3⟩
  · intro q hq i hi n hn hm
    have := hw.op_lt q hq i hi n hn; have := hge n hm; omega
  · intro q hq hm
    have := hw.nidx_lt q hq; have := hge _ hm; omega
  · intro p hp hm
    have := hw.pnidx_lt p hp; have := hge _ hm; omega
  · intro n hn
    show n < (cloneN (e.build σ.defs.next).1 (e.build σ.defs.next).2).2 + 1
    simp only [stored, Node.opIds, List.mem_cons] at hn
    rcases hn with rfl | hn
    · omega
    · have := (c2 n hn).2; omega

example : ∃ t, t ∈ (define 4 (.add (.var 3) (.var 3)) Ex.s0).defs.items 4 ∧ t.opIds.Nodup := by
  obtain ⟨-, t, h1, h2, -⟩ := C11_fresh Ex.s0_hist.run 4 (.add (.var 3) (.var 3))
  exact ⟨t, h1, h2⟩

/-! ## C13 -/

/-- The operator forms with a number. -/
inductive Sugar
  | xPlusC | cPlusX | xMinusC | cMinusX | minusX | xTimesC | cTimesX | xOverC | cOverX | xPowC | cPowX
  deriving DecidableEq

/-- What the user writes. -/
def Sugar.exp (c : K) (u : Exp K) : Sugar → Exp K
  | .xPlusC => .addC u c
  | .cPlusX => .cAdd c u
  | .xMinusC => .subC u c
  | .cMinusX => .cSub c u
  | .minusX => .neg u
  | .xTimesC => .mulC u c
  | .cTimesX => .cMul c u
  | .xOverC => .divC u c
  | .cOverX => .cDiv c u
  | .xPowC => .powC u c
  | .cPowX => .cPow c u

/-- What it means, `u` being the operand's value. -/
def Sugar.val (P : Prim K) (c u : K) : Sugar → K
  | .xPlusC => u + c
  | .cPlusX => c + u
  | .xMinusC => u - c
  | .cMinusX => c - u
  | .minusX => -u
  | .xTimesC => u * c
  | .cTimesX => c * u
  | .xOverC => u / c
  | .cOverX => c / u
  | .xPowC => P.pow u c
  | .cPowX => P.pow c u

/-- Its derivative, `u`, `du` being the operand's value and derivative. -/
def Sugar.der (P : Prim K) (c u du : K) : Sugar → K
  | .xPlusC => du
  | .cPlusX => du
  | .xMinusC => du
  | .cMinusX => -du
  | .minusX => -du
  | .xTimesC => du * c
  | .cTimesX => c * du
  | .xOverC => du / c
  | .cOverX => -(c * du) / u ^ 2
  | .xPowC => c * P.pow u (c - 1) * du
  | .cPowX => P.pow c u * P.log c * du

/-- C13.  For each form, each number `c` and each operand formula `u`, all three modes answer with the
written arithmetic and its derivative.  After every history (see `Answers`). -/
theorem C13_sugar_partial {σ : St K} (h : Run P σ) {y x : ℕ} {u : Exp K} (s : Sugar)
    (c : K) (hy : y < σ.defs.size) (hx : IsVar σ.defs x) (hxy : x ≠ y) (hwd : WellDefined σ.defs y)
    (he : IsFormula σ.defs y (s.exp c u)) :
    ∃ ρ δ, Env P σ.defs x u.leaves ρ δ ∧
      Answers P σ y x (s.val P c (u.val P σ.defs.par ρ))
        (s.der P c (u.val P σ.defs.par ρ) (u.der P σ.defs.par ρ δ)) := by
  obtain ⟨ρ, δ, h1, h2⟩ := answers_formula h hy hx hxy hwd he
  refine ⟨ρ, δ, ?_, ?_⟩
  · cases s <;> exact h1
  · cases s <;> exact h2

namespace Ex

/-- `Variable x = 2; Expression y = 5 - x*x;` -/
def sug0 : St ℚ := define 2 (.cSub 5 (.mul (.var 1) (.var 1))) (newExpr (newVar 2 St.init).2).2

theorem sug0_hist : Hist P0 sug0 (fun _ => False) :=
  .define 2 _ (.newExpr (.newVar 2 .init)) (by decide) nofun (by decide) (by decide)

example : ∃ ρ δ, Env P0 sug0.defs 1 [1, 1] ρ δ ∧
    Answers P0 sug0 2 1 (5 - ρ 1 * ρ 1) (-(δ 1 * ρ 1 + ρ 1 * δ 1)) :=
  C13_sugar_partial sug0_hist.run .cMinusX 5 (u := .mul (.var 1) (.var 1)) (by decide)
    ⟨by decide, by decide, rfl⟩ (by decide)
    ((Acyclic.of_ordered (by decide) (by decide)).wellDefined sug0_hist.inv.wf.defs.closed (by decide))
    (define_isFormula (by decide) _)

end Ex

/-! ## C18 -/

/-- C18, unary.  For an operator declared with user functions `f`, `df`: `Eval` applies `f` to the operand
value, both derivative modes multiply the operand derivative by `df` of the operand value. -/
theorem C18_unary_partial {σ : St K} (h : Run P σ) {y x : ℕ} {u : Exp K}
    (f df : K → K) (hy : y < σ.defs.size) (hx : IsVar σ.defs x) (hxy : x ≠ y)
    (hwd : WellDefined σ.defs y) (he : IsFormula σ.defs y (.un f df u)) :
    ∃ ρ δ, Env P σ.defs x u.leaves ρ δ ∧
      Answers P σ y x (f (u.val P σ.defs.par ρ))
        (df (u.val P σ.defs.par ρ) * u.der P σ.defs.par ρ δ) :=
  answers_formula h hy hx hxy hwd he

/-- C18, binary. -/
theorem C18_binary_partial {σ : St K} (h : Run P σ) {y x : ℕ} {u v : Exp K}
    (f fu fv : K → K → K) (hy : y < σ.defs.size) (hx : IsVar σ.defs x) (hxy : x ≠ y)
    (hwd : WellDefined σ.defs y)
    (he : IsFormula σ.defs y (.bin f fu fv u v)) :
    ∃ ρ δ, Env P σ.defs x (u.leaves ++ v.leaves) ρ δ ∧
      Answers P σ y x (f (u.val P σ.defs.par ρ) (v.val P σ.defs.par ρ))
        (fu (u.val P σ.defs.par ρ) (v.val P σ.defs.par ρ) * u.der P σ.defs.par ρ δ +
          fv (u.val P σ.defs.par ρ) (v.val P σ.defs.par ρ) * v.der P σ.defs.par ρ δ) :=
  answers_formula h hy hx hxy hwd he

namespace Ex

/-- `Variable x = 2; Expression y = op(x, x*x);` for an operator with `f u v = u*v+1` -/
def cus0 : St ℚ := define 2 (.bin (fun u v => u * v + 1) (fun _ v => v) (fun u _ => u) (.var 1)
  (.mul (.var 1) (.var 1))) (newExpr (newVar 2 St.init).2).2

theorem cus0_hist : Hist P0 cus0 (fun _ => False) :=
  .define 2 _ (.newExpr (.newVar 2 .init)) (by decide) nofun (by decide) (by decide)

example : ∃ ρ δ, Env P0 cus0.defs 1 [1, 1, 1] ρ δ ∧
    Answers P0 cus0 2 1 (ρ 1 * (ρ 1 * ρ 1) + 1)
      (ρ 1 * ρ 1 * δ 1 + ρ 1 * (δ 1 * ρ 1 + ρ 1 * δ 1)) :=
  C18_binary_partial cus0_hist.run (fun u v => u * v + 1) (fun _ v => v) (fun u _ => u)
    (u := .var 1) (v := .mul (.var 1) (.var 1)) (by decide)
    ⟨by decide, by decide, rfl⟩ (by decide)
    ((Acyclic.of_ordered (by decide) (by decide)).wellDefined cus0_hist.inv.wf.defs.closed (by decide))
    (define_isFormula (by decide) _)

end Ex

/-! ## Any history: the written formula, applied to what the operands hold -/

/-- C07, C13, C18.  After *every* history, whatever is stale: `Eval y` answers the formula `y` is defined by, applied
to the values its operands hold after the query, and `DevalF y x` answers the derivative of that formula by the rules of
calculus, applied to the values and derivatives the operands hold; a Variable holds its number, with derivative 0 unless
it is `x`.  (What an operand that is an Expression holds is the subject of `C02_exact_eval`, `C02_exact_devalF`.) -/
theorem formula_any_history {σ : St K} (h : Run P σ) {y x : ℕ} {e : Exp K} (hy : y < σ.defs.size)
    (hx : x < σ.defs.size) (hxy : x ≠ y) (hwd : WellDefined σ.defs y) (he : IsFormula σ.defs y e) :
    (∃ σ', Eval P y σ = some (e.val P σ.defs.par σ'.mem.value, σ') ∧
      ∀ p ∈ e.leaves, σ.defs.items p = [] → σ'.mem.value p = σ.defs.base p) ∧
    ∃ σ', DevalF P y x σ = some (e.der P σ.defs.par σ'.mem.value
        (fun p => if p = x then 1 else σ'.mem.dvalue p), σ') ∧
      ∀ p ∈ e.leaves, σ.defs.items p = [] → σ'.mem.value p = σ.defs.base p ∧ (p ≠ x → σ'.mem.dvalue p = 0) := by
  have hw := h.wf
  have hk := hwd.wdKept (σ.kept y)
  have hny : ¬ σ.kept y y := fun h => h.2.1 rfl
  obtain ⟨⟨n, hn⟩, hye⟩ := he
  have hlook : ∀ p ∈ e.leaves, σ.looks y p := fun p hp =>
    Uses.step .refl hny (i := stored e n) (by rw [hn]; simp) (by rw [stored_leaves]; exact hp)
  have hne : ∀ p ∈ e.leaves, p ≠ y := by rintro p hp rfl; exact hye hp
  have hlt : ∀ p ∈ e.leaves, p < σ.defs.size := fun p hp => Reach.lt hw.defs.closed hy (Uses.reach (hlook p hp))
  constructor
  · obtain ⟨ρ, σ', he, st, -, -, hρ, -⟩ := C02_exact_eval h hy hk
    have hw' := Eval_wf hw he
    refine ⟨σ', ?_, fun p hp hi => ?_⟩
    · rw [he, (hρ y .refl).2 hny, hn]
      simp only [seqVal, stored_val, Option.some.injEq, Prod.mk.injEq, and_true]
      apply Exp.val_congr; intro p hp
      rw [Function.update_of_ne (hne p hp), st.val p (hlook p hp)]
    · rw [← st.defs]
      exact (hw'.plain p (by rw [st.defs]; exact hlt p hp) (by rw [st.defs]; exact hi)).1
  · obtain ⟨ρ, δ, σ', he, st, -, hd, -, hρ, hδ⟩ := C02_exact_devalF h hy hx hk
    have hw' := DevalF_wf hw he
    refine ⟨σ', ?_, fun p hp hi => ?_⟩
    · rw [he, (hδ y .refl).2.2 (Ne.symm hxy) hny, hn]
      simp only [seqDer, stored_der, Option.some.injEq, Prod.mk.injEq, and_true]
      apply Exp.der_congr <;> intro p hp
      · rw [Function.update_of_ne (hne p hp), st.val p (hlook p hp)]
      · rw [Function.update_of_ne (hne p hp)]
        split
        · next hpx => exact (hδ p (hlook p hp)).1 hpx
        · next hpx => rw [hd p (hlook p hp) hpx]
    · have := hw'.plain p (by rw [st.defs]; exact hlt p hp) (by rw [st.defs]; exact hi)
      rw [st.defs] at this
      exact ⟨this.1, fun _ => this.2.1⟩

/-- C07 after every history: the query after `p = v` sees `v`. -/
theorem C07_any_history {σ : St K} (h : Run P σ) {y p : ℕ} {e : Exp K} (hy : y < σ.defs.size) (hy0 : y ≠ 0)
    (hwd : WellDefined σ.defs y) (he : IsFormula σ.defs y e) (hp : p < σ.defs.psize) (v : K) :
    ∃ σ', Eval P y (assignPar p v σ) = some (e.val P (Function.update σ.defs.par p v) σ'.mem.value, σ') ∧
      ∀ q ∈ e.leaves, σ.defs.items q = [] → σ'.mem.value q = σ.defs.base q :=
  (formula_any_history (h.setPar p v hp) (x := 0) hy (by have := h.defs_wf.2; exact this) (Ne.symm hy0)
    (hwd.of_items rfl) he).1

/-- C13 after every history. -/
theorem C13_any_history {σ : St K} (h : Run P σ) {y x : ℕ} {u : Exp K} (s : Sugar) (c : K) (hy : y < σ.defs.size)
    (hx : x < σ.defs.size) (hxy : x ≠ y) (hwd : WellDefined σ.defs y) (he : IsFormula σ.defs y (s.exp c u)) :
    (∃ σ', Eval P y σ = some (s.val P c (u.val P σ.defs.par σ'.mem.value), σ')) ∧
    ∃ σ', DevalF P y x σ = some (s.der P c (u.val P σ.defs.par σ'.mem.value)
      (u.der P σ.defs.par σ'.mem.value (fun p => if p = x then 1 else σ'.mem.dvalue p)), σ') := by
  obtain ⟨⟨σ₁, h1, -⟩, σ₂, h2, -⟩ := formula_any_history h hy hx hxy hwd he
  refine ⟨⟨σ₁, ?_⟩, σ₂, ?_⟩
  · cases s <;> exact h1
  · cases s <;> exact h2

/-- C18 after every history. -/
theorem C18_any_history {σ : St K} (h : Run P σ) {y x : ℕ} {u v : Exp K} (f fu fv : K → K → K)
    (hy : y < σ.defs.size) (hx : x < σ.defs.size) (hxy : x ≠ y) (hwd : WellDefined σ.defs y)
    (he : IsFormula σ.defs y (.bin f fu fv u v)) :
    (∃ σ', Eval P y σ = some (f (u.val P σ.defs.par σ'.mem.value) (v.val P σ.defs.par σ'.mem.value), σ')) ∧
    ∃ σ' U V, U = u.val P σ.defs.par σ'.mem.value ∧ V = v.val P σ.defs.par σ'.mem.value ∧
      DevalF P y x σ = some (
        fu U V * u.der P σ.defs.par σ'.mem.value (fun p => if p = x then 1 else σ'.mem.dvalue p) +
        fv U V * v.der P σ.defs.par σ'.mem.value (fun p => if p = x then 1 else σ'.mem.dvalue p), σ') := by
  obtain ⟨⟨σ₁, h1, -⟩, σ₂, h2, -⟩ := formula_any_history h hy hx hxy hwd he
  exact ⟨⟨σ₁, h1⟩, σ₂, _, _, rfl, rfl, h2⟩

namespace Ex

/-- In the stale heap of `C02_stale` (where `Safe` and `Fine` fail): `y = e + 1` still is `e + 1` of what `e` holds. -/
example : ∃ σ', Eval P0 5 stale1 = some ((Exp.addC (.var 4) 1 : Exp ℚ).val P0 stale1.defs.par σ'.mem.value, σ') := by
  obtain ⟨⟨σ', h, -⟩, -⟩ := formula_any_history (P := P0) stale1_run (y := 5) (x := 1) (e := .addC (.var 4) 1)
    (by decide +kernel) (by decide +kernel) (by decide) stale1_wd stale1_formula
  exact ⟨σ', h⟩

end Ex

end CoolDiff
