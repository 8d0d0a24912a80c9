import Verif.Props.Symbolic
import Verif.Scalar.Smooth

/-!
# C15: symbolic differentiation composes
-/

set_option linter.unusedSectionVars false

namespace CoolDiff

open Filter Topology

variable {K : Type} [Field K] [DecidableEq K] {P : Prim K}

/-! ## One call of `SymDiff` -/

/-- `SymDiff(y,x)` in session `a` returns `d` and leaves session `a'`; the call meets the conditions of
`C14_symDiff_partial`. -/
structure SymD (P : Prim K) (a : Sess K) (y x d : ℕ) (a' : Sess K) : Prop where
  lt : y < a.s.st.defs.size
  var : a.H x
  safe : a.Safe y
  ok : a.SymOk y
  run : ∃ rf s', symDiff P rf y x a.s = some (d, s') ∧ a' = a.diffed y s'

/-- Everything known after the call, in every later state. -/
theorem SymD.later {a a' b : Sess K} {y x d : ℕ} (h : SymD P a y x d a') (ha : SInv P a)
    (hb : Later P a' b) :
    Later P a b ∧ SInv P b ∧ d < b.s.st.defs.size ∧ y < b.s.st.defs.size ∧ b.H x ∧ x ≠ d ∧
      (∀ q, Reach b.s.st.defs y q ↔ Reach a.s.st.defs y q) ∧
      (∀ q, Reach a.s.st.defs y q → b.s.st.defs.items q = a.s.st.defs.items q) ∧ ∀ ρ δ : ℕ → K,
      (∀ q < b.s.st.defs.size, ρ q = seqVal P b.s.st.defs.par ρ q (b.s.st.defs.items q) (b.s.st.defs.base q)) →
      (∀ q < b.s.st.defs.size, δ q = if q = x then 1 else
        seqDer P b.s.st.defs.par ρ δ q (b.s.st.defs.items q) (b.s.st.defs.base q) 0) →
      ρ d = δ y ∧ Ob P b.s.st.defs b.s.st.defs.par ρ y d := by
  obtain ⟨rf, s', hr, rfl⟩ := h.run
  obtain ⟨d', s'', h1, hst, hge, hd, -, -, hit, hval⟩ := symDiff_core ha h.lt h.var h.safe h.ok rf
  rw [hr] at h1
  simp only [Option.some.injEq, Prod.mk.injEq] at h1
  obtain ⟨rfl, rfl⟩ := h1
  obtain ⟨hb', hdl, hyl, hv⟩ := symDiff_later ha hst hd hval hb
  have hk := (hb.inv (hst.inv ha).1).2
  have hxl : x < a.s.st.defs.size ∧ a.s.st.defs.items x = [] := by
    obtain ⟨ord, hf⟩ := ha
    exact hf.good.d.user x h.var
  have hitems : ∀ q, Reach a.s.st.defs y q → b.s.st.defs.items q = a.s.st.defs.items q := by
    intro q hq
    rw [hk.items q (Or.inr (Or.inl hq))]
    obtain ⟨ord', hf'⟩ := ha
    exact hit q (Reach.lt hf'.good.d.wf.closed h.lt hq)
  refine ⟨(Later.refl.step hst).trans hb, hb', hdl, hyl, ?_, by omega, fun q => ⟨fun hq => ?_, fun hq => ?_⟩,
    hitems, hv⟩
  · clear hv hval
    have hH : ∀ {p q : Sess K}, Later P p q → p.H x → q.H x := by
      intro p q hl hp
      induction hl with
      | refl => exact hp
      | step _ hs ih => cases hs <;> first | exact ih | exact Or.inl ih
    exact hH hb h.var
  · induction hq with
    | refl => exact .refl
    | step _ hm hp ih => exact .step ih (by rw [← hitems _ ih]; exact hm) hp
  · induction hq with
    | refl => exact .refl
    | step hr hm hp ih => exact .step ih (by rw [hitems _ hr]; exact hm) hp

/-- What `Eval` returns is the value. -/
theorem evalS_value {b : Sess K} (hb : SInv P b) {z : ℕ} (hz : z < b.s.st.defs.size) (hs : b.Safe z) :
    ∃ v, (EvalS P z b.s).map Prod.fst = some v ∧ ∀ w, ValueOf P b.s.st.defs z w ↔ w = v := by
  obtain ⟨ord, hf⟩ := hb
  have hwd := hf.wellDefined hz
  obtain ⟨ρ, hρ⟩ := hwd.exists_solves (P := P)
  obtain ⟨m, e1, -⟩ := hf.evalS hz hs hρ
  have e1 : EvalS P z b.s = _ := e1
  refine ⟨ρ z, by rw [e1]; rfl, fun w => ⟨?_, fun h => ⟨ρ, hρ, h.symm⟩⟩⟩
  rintro ⟨ρ', h1, rfl⟩
  exact hwd.solves_unique h1 hρ z .refl

theorem Sess.wellDefined {b : Sess K} (hb : SInv P b) {z : ℕ} (hz : z < b.s.st.defs.size) :
    WellDefined b.s.st.defs z := by
  obtain ⟨ord, hf⟩ := hb
  exact hf.wellDefined hz

/-- The value of the Expression returned by `SymDiff(y,x)` is the derivative of `y`. -/
theorem SymD.value {a a' b : Sess K} {y x d : ℕ} (h : SymD P a y x d a') (ha : SInv P a)
    (hb : Later P a' b) (v : K) : ValueOf P b.s.st.defs d v ↔ DerivOf P b.s.st.defs y x v := by
  obtain ⟨-, hi, hd, hy, -, -, -, -, hv⟩ := h.later ha hb
  obtain ⟨ord, hf⟩ := hi
  obtain ⟨ρ, hρ⟩ := hf.exists_sol
  obtain ⟨δ, hδ⟩ := hf.exists_tan x ρ
  have hcl := hf.good.d.wf.closed
  have s1 : Solves P b.s.st.defs d ρ := fun q hq => hρ q (Reach.lt hcl hd hq)
  have s2 : Solves P b.s.st.defs y ρ := fun q hq => hρ q (Reach.lt hcl hy hq)
  have s3 : Tangent P b.s.st.defs y x ρ δ := fun q hq => hδ q (Reach.lt hcl hy hq)
  have e := (hv ρ δ hρ hδ).1
  constructor
  · rintro ⟨ρ', h1, rfl⟩
    rw [(hf.wellDefined hd).solves_unique h1 s1 d .refl]
    exact ⟨ρ, δ, s2, s3, e.symm⟩
  · intro hw
    exact ⟨ρ, s1, e.trans (hw.unique (hf.wellDefined hy) ⟨ρ, δ, s2, s3, rfl⟩).symm⟩

theorem SeqAll.congr {C : OpClass K} {π ρ ρ' : ℕ → K} {o : ℕ} {is : List (Node K)}
    (h : ∀ i ∈ is, ∀ p ∈ i.leaves, p ≠ o → ρ p = ρ' p) {v : K} (ha : SeqAll C P π ρ o is v) :
    SeqAll C P π ρ' o is v := by
  induction is generalizing v with
  | nil => trivial
  | cons i is ih =>
      have hl : ∀ p ∈ i.leaves, Function.update ρ o v p = Function.update ρ' o v p := by
        intro p hp
        by_cases e : p = o
        · subst e; simp
        · simp [e, h i (by simp) p hp e]
      refine ⟨ha.1.congr hl, ?_⟩
      rw [← Node.val_congr' (P := P) π i hl]
      exact ih (fun j hj => h j (List.mem_cons_of_mem _ hj)) ha.2

theorem AllBelow.congr {C : OpClass K} {D : Defs K} {π ρ ρ' : ℕ → K} {q : ℕ}
    (h : ∀ p, Reach D q p → ρ p = ρ' p) (ha : AllBelow C P π ρ D q) : AllBelow C P π ρ' D q :=
  fun o ho => (ha o ho).congr fun _ hi p hp _ => h p (.step ho hi hp)

/-- `C` holds for all operator applications below `y`, at the current values. -/
def Sess.All (C : OpClass K) (P : Prim K) (b : Sess K) (y : ℕ) : Prop :=
  ∀ ρ, Solves P b.s.st.defs y ρ → AllBelow C P b.s.st.defs.par ρ b.s.st.defs y

theorem SymD.all {a a' b : Sess K} {y x d : ℕ} (h : SymD P a y x d a') (ha : SInv P a)
    (hb : Later P a' b) {C C' : OpClass K} (hC : Closes C C' P) (hc : b.All C P y) : b.All C' P d := by
  obtain ⟨-, hi, hd, hy, -, -, -, -, hv⟩ := h.later ha hb
  obtain ⟨ord, hf⟩ := hi
  obtain ⟨ρ, hρ⟩ := hf.exists_sol
  obtain ⟨δ, hδ⟩ := hf.exists_tan x ρ
  have hcl := hf.good.d.wf.closed
  have s1 : Solves P b.s.st.defs d ρ := fun q hq => hρ q (Reach.lt hcl hd hq)
  have s2 : Solves P b.s.st.defs y ρ := fun q hq => hρ q (Reach.lt hcl hy hq)
  intro ρ' hρ'
  refine AllBelow.congr (fun p hp => ?_) ((hv ρ δ hρ hδ).2 C C' hC (hc ρ s2))
  exact (hf.wellDefined hd).solves_unique s1 hρ' p hp

/-! ## Operators: what can be differentiated again -/

/-- All operators below `y` satisfy `p`; two-operand operators are not user operators. -/
def Sess.Only (b : Sess K) (p : Op1 K → Prop) (y : ℕ) : Prop :=
  ∀ q, Reach b.s.st.defs y q → ∀ i ∈ b.s.st.defs.items q, i.Only p Op2.SymOk

theorem Sess.all_only {b : Sess K} (hb : SInv P b) {y : ℕ} (hy : y < b.s.st.defs.size)
    (p : Op1 K → Prop) : b.All (onlyC p Op2.SymOk) P y ↔ b.Only p y := by
  obtain ⟨ρ, hρ⟩ := (Sess.wellDefined hb hy).exists_solves (P := P)
  constructor
  · exact fun h q hq => (seqAll_onlyC _ _).1 (h ρ hρ q hq)
  · exact fun h ρ _ q hq => (seqAll_onlyC _ _).2 (h q hq)

theorem Sess.only_symOk {b : Sess K} {y : ℕ} : b.Only Op1.SymOk y ↔ b.SymOk y := by
  constructor <;> intro h q hq i hi
  · exact (Node.only_symOk i).1 (h q hq i hi)
  · exact (Node.only_symOk i).2 (h q hq i hi)

theorem SymD.only {a a' b : Sess K} {y x d : ℕ} (h : SymD P a y x d a') (ha : SInv P a)
    (hb : Later P a' b) {p p' : Op1 K → Prop}
    (hC : Closes (onlyC p Op2.SymOk) (onlyC p' Op2.SymOk) P) (hc : a.Only p y) : b.Only p' d := by
  obtain ⟨-, hi, hd, hy, -, -, hre, hit, -⟩ := h.later ha hb
  have hb' : b.Only p y := by
    intro q hq
    rw [hre] at hq
    rw [hit q hq]
    exact hc q hq
  exact (Sess.all_only hi hd p').1 (h.all ha hb hC ((Sess.all_only hi hy p).2 hb'))

/-- C15, which results can be differentiated again: if `y` uses no `sqrt`, `acos`, `atanh` (and no user
operator, no `c / e` with `c ≠ 1`), then `SymDiff` may be applied to the result of `SymDiff(y,x)`, in
every later state. -/
theorem C15_symOk_twice {a a' b : Sess K} {y x d : ℕ} (h : SymD P a y x d a') (ha : Session P a)
    (hb : Later P a' b) (hy : a.Only Op1.SymOk2 y) : b.SymOk d :=
  Sess.only_symOk.1 (h.only ha.inv hb symOk2_closes hy)

/-- If `y` uses only `+ - * /`, powers, `sin`, `cos`, `tan`, `sinh`, `cosh`, `tanh`, `atan`, `exp`,
`log`, so does the result of `SymDiff`: `SymDiff` may be iterated for ever. -/
theorem C15_symOk_forever {a a' b : Sess K} {y x d : ℕ} (h : SymD P a y x d a') (ha : Session P a)
    (hb : Later P a' b) (hy : a.Only Op1.SymOkN y) : b.Only Op1.SymOkN d ∧ b.SymOk d := by
  have h1 := h.only ha.inv hb symOkN_closes hy
  exact ⟨h1, Sess.only_symOk.1 fun q hq i hi => (h1 q hq i hi).mono (fun _ h => h.symOk) fun _ h => h⟩

/-! ## Real points -/

/-- Every operator below `y` is applied inside its domain, with room for `m + 1` differentiations. -/
def Sess.InDom (b : Sess ℝ) (m : ℕ) (y : ℕ) : Prop := b.All (domN m) realPrim y

theorem Sess.inDomain {b : Sess ℝ} {y : ℕ} (h : b.InDom 0 y) : InDomain b.s.st.defs y :=
  fun ρ hρ q hq => (seqAll_domN_zero _ _).1 (h ρ hρ q hq)

theorem Sess.InDom.of_defs {b c : Sess ℝ} {m y : ℕ} (e : c.s.st.defs = b.s.st.defs)
    (h : b.InDom m y) : c.InDom m y := by
  unfold Sess.InDom Sess.All at *
  rw [e]; exact h

theorem Sess.InDom.mono {b : Sess ℝ} {m y : ℕ} (h : b.InDom (m + 1) y) : b.InDom m y :=
  fun ρ hρ => (h ρ hρ).mono (domN_closes m)

theorem Later.set {a b : Sess K} (h : Later P a b) {x : ℕ} (hx : b.H x) (t : K) : Later P a (b.set x t) :=
  h.step (.setVar x t hx)

theorem Sess.set_inv {b : Sess K} (hb : SInv P b) {x : ℕ} (hx : b.H x) (t : K) : SInv P (b.set x t) :=
  ((SStep.setVar (P := P) x t hx).inv hb).1

theorem Sess.set_items {b : Sess K} (hb : SInv P b) {x : ℕ} (hx : b.H x) (t : K) :
    (b.set x t).s.st.defs.items = b.s.st.defs.items := by
  have h : b.s.st.defs.items x = [] := by
    obtain ⟨ord, hf⟩ := hb
    exact (hf.good.d.user x hx).2
  show Function.update b.s.st.defs.items x [] = _
  rw [← h, Function.update_eq_self]

/-- A smooth family of states that differ in the numbers of the Variables. -/
theorem family_smooth {E : Type} [NormedAddCommGroup E] [NormedSpace ℝ E] {b : Sess ℝ}
    (hb : SInv realPrim b) {y m : ℕ} (hy : y < b.s.st.defs.size) (hok : b.SymOk y) {c : E → Sess ℝ} {p : E}
    (hi : ∀ e, (c e).s.st.defs.items = b.s.st.defs.items) (hpar : ∀ e, (c e).s.st.defs.par = b.s.st.defs.par)
    (hbase : ∀ q, ContDiffAt ℝ (m + 1 : ℕ) (fun e => (c e).s.st.defs.base q) p) (hdom : (c p).InDom m y)
    {G : E → ℝ} (hG : ∀ e, ValueOf realPrim (c e).s.st.defs y (G e)) :
    ContDiffAt ℝ (m + 1 : ℕ) G p ∧ ∀ᶠ e in 𝓝 p, (c e).InDom m y := by
  have hwd := Sess.wellDefined hb hy
  choose r hr hrG using hG
  have hcl : ∀ q, Reach b.s.st.defs y q → q < b.s.st.defs.size := by
    obtain ⟨ord, hf⟩ := hb
    exact fun q hq => Reach.lt hf.good.d.wf.closed hy hq
  have key := solves_contDiffAt hi hpar hbase hwd hok hr (hdom _ (hr p))
  refine ⟨?_, ?_⟩
  · have := (key y .refl).1
    simpa only [hrG] using this
  · have hfin : ∀ᶠ e in 𝓝 p, ∀ q ∈ {q | Reach b.s.st.defs y q}, SeqAll (domN m) realPrim
        b.s.st.defs.par (r e) q (b.s.st.defs.items q) ((c e).s.st.defs.base q) := by
      have hf : {q | Reach b.s.st.defs y q}.Finite := (Set.finite_lt_nat b.s.st.defs.size).subset hcl
      rw [eventually_all_finite hf]
      exact fun q hq => (key q hq).2
    filter_upwards [hfin] with e he
    have hre : ∀ q, Reach (c e).s.st.defs y q → Reach b.s.st.defs y q := by
      intro q hq
      induction hq with
      | refl => exact .refl
      | step _ hm hp ih => exact .step ih (by rw [← hi e]; exact hm) hp
    have hwd' : WellDefined (c e).s.st.defs y := hwd.of_items (hi e)
    intro ρ hρ
    refine AllBelow.congr (ρ := r e) (fun q hq => hwd'.solves_unique (hr e) hρ q hq) fun q hq => ?_
    rw [hi, hpar]
    exact he q (hre q hq)

/-- The derivative of the value with respect to a Variable, at a point of the domain. -/
theorem deriv_at {b : Sess ℝ} (hb : SInv realPrim b) {z x : ℕ} (hz : z < b.s.st.defs.size) (hx : b.H x)
    (hdom : b.InDom 0 z) {F : ℝ → ℝ} (hF : ∀ t, ValueOf realPrim (b.set x t).s.st.defs z (F t)) {w : ℝ}
    (hw : DerivOf realPrim b.s.st.defs z x w) : HasDerivAt F w (b.s.st.defs.base x) := by
  have hwd := Sess.wellDefined hb hz
  have hxv : IsVar b.s.st.defs x := by
    obtain ⟨ord, hf⟩ := hb
    have h := hf.good.d.user x hx
    refine ⟨h.1, ?_, h.2⟩
    rintro rfl
    exact hf.good.d.zero.2.2.2.1 hx
  choose r hr hrF using hF
  have hr : ∀ t, Solves realPrim (assignNum x t b.s.st).defs z (r t) := hr
  have hsol : Solves realPrim b.s.st.defs z (r (b.s.st.defs.base x)) := by
    have := hr (b.s.st.defs.base x)
    rwa [assignNum_self hxv.2.2] at this
  obtain ⟨δ, hδ⟩ := hwd.exists_tangent (P := realPrim) x (r (b.s.st.defs.base x))
  have := solves_hasDerivAt hxv hwd (Sess.inDomain hdom) hr hδ z .refl
  rw [hw.unique hwd ⟨_, δ, hsol, hδ, rfl⟩]
  simpa only [hrF] using this

theorem exists_value {b : Sess K} (hb : SInv P b) {z : ℕ} (hz : z < b.s.st.defs.size) :
    ∃ v, ValueOf P b.s.st.defs z v := by
  obtain ⟨ρ, hρ⟩ := (Sess.wellDefined hb hz).exists_solves (P := P)
  exact ⟨ρ z, ρ, hρ, rfl⟩

theorem exists_deriv {b : Sess K} (hb : SInv P b) {z : ℕ} (hz : z < b.s.st.defs.size) (x : ℕ) :
    ∃ v, DerivOf P b.s.st.defs z x v := by
  obtain ⟨ρ, hρ⟩ := (Sess.wellDefined hb hz).exists_solves (P := P)
  obtain ⟨δ, hδ⟩ := (Sess.wellDefined hb hz).exists_tangent (P := P) x ρ
  exact ⟨δ z, ρ, δ, hρ, hδ, rfl⟩

/-- `V t s` is the value of `y` after `x₂ = t; x₁ = s`; `F t` is the derivative of `V t` at the value
`x₁` has after `x₂ = t`; `w` is the derivative of `F` at the current value of `x₂`.  So `w` is the
second derivative `∂/∂x₂ (∂/∂x₁ y)` at the current point (`x₁` and `x₂` may be the same Variable). -/
def SecondDerivative (b : Sess ℝ) (y x₁ x₂ : ℕ) (w : ℝ) : Prop :=
  ∃ (V : ℝ → ℝ → ℝ) (F : ℝ → ℝ),
    (∀ t s, ValueOf realPrim ((b.set x₂ t).set x₁ s).s.st.defs y (V t s)) ∧
    (∀ᶠ t in 𝓝 (b.s.st.defs.base x₂), HasDerivAt (V t) (F t) ((b.set x₂ t).s.st.defs.base x₁)) ∧
    HasDerivAt F w (b.s.st.defs.base x₂)

/-- The formal derivative of the Expression returned by `SymDiff` is the second derivative. -/
theorem second_of_deriv {a a' b : Sess ℝ} {y x₁ x₂ d : ℕ} (h : SymD realPrim a y x₁ d a')
    (ha : SInv realPrim a) (hb : Later realPrim a' b) (hx2 : b.H x₂) (hdom : b.InDom 1 y) {w : ℝ}
    (hw : DerivOf realPrim b.s.st.defs d x₂ w) : SecondDerivative b y x₁ x₂ w := by
  obtain ⟨hab, hbi, hdl, hyl, hx1, hxd, hre, hit, -⟩ := h.later ha hb
  have hokb : b.SymOk y := by
    intro q hq
    rw [hre] at hq
    rw [hit q hq]
    exact h.ok q hq
  have hbs : ∀ t, SInv realPrim (b.set x₂ t) := fun t => Sess.set_inv hbi hx2 t
  have hbss : ∀ t s, SInv realPrim ((b.set x₂ t).set x₁ s) := fun t s => Sess.set_inv (hbs t) hx1 s
  have hV : ∀ t s, ∃ v, ValueOf realPrim ((b.set x₂ t).set x₁ s).s.st.defs y v := fun t s =>
    exists_value (hbss t s) hyl
  choose V hV using hV
  have hF : ∀ t, ∃ v, ValueOf realPrim (b.set x₂ t).s.st.defs d v := fun t => exists_value (hbs t) hdl
  choose F hF using hF
  have hY : ∀ t, ∃ v, ValueOf realPrim (b.set x₂ t).s.st.defs y v := fun t => exists_value (hbs t) hyl
  choose Y hY using hY
  have hself : (b.set x₂ (b.s.st.defs.base x₂)).s.st.defs = b.s.st.defs := by
    have : b.s.st.defs.items x₂ = [] := by
      obtain ⟨ord, hf⟩ := hbi
      exact (hf.good.d.user x₂ hx2).2
    exact assignNum_self this
  have hopen := (family_smooth (m := 1) hbi hyl hokb (c := fun t => b.set x₂ t) (p := b.s.st.defs.base x₂)
    (fun t => Sess.set_items hbi hx2 t) (fun _ => rfl) (fun q => by
      show ContDiffAt ℝ _ (fun t => Function.update b.s.st.defs.base x₂ t q) _
      by_cases e : q = x₂
      · subst e; simp only [Function.update_self]; exact contDiffAt_id
      · simpa [e] using contDiffAt_const) (hdom.of_defs hself) hY).2
  refine ⟨V, F, hV, ?_, deriv_at hbi hdl hx2 (h.all ha hb (domN_closes 0) hdom) hF hw⟩
  filter_upwards [hopen] with t ht
  refine deriv_at (hbs t) hyl hx1 ht.mono (hV t) ?_
  exact (h.value ha (hb.set hx2 t) (F t)).1 (hF t)

/-- C15: with `d = SymDiff(y, x₁)`, in every later state in which `y` is inside its domain (with room
for two differentiations) and the flags are safe for `d`, `DevalF(d, x₂)` and `PreComp(d)`,
`DevalR(d, x₂)` return the second derivative of `y`. -/
theorem C15_second_derivative_partial {a a' b : Sess ℝ} (ha : Session realPrim a) {y x₁ x₂ d : ℕ}
    (h : SymD realPrim a y x₁ d a') (hb : Later realPrim a' b) (hx2 : b.H x₂) (hs : b.Safe d)
    (hdom : b.InDom 1 y) :
    ∃ w, SecondDerivative b y x₁ x₂ w ∧ (DevalFS realPrim d x₂ b.s).map Prod.fst = some w ∧
      ((PreCompS realPrim d b.s).map fun s => DevalR d x₂ s.st) = some w := by
  obtain ⟨hab, hbi, hdl, hyl, -, -, -, -, -⟩ := h.later ha.inv hb
  have hxd : d ≠ x₂ := by
    rintro rfl
    obtain ⟨rf, s', hr, rfl⟩ := h.run
    obtain ⟨d', s'', h1, hst, hge, hd, -⟩ := symDiff_core ha.inv h.lt h.var h.safe h.ok rf
    rw [hr] at h1
    simp only [Option.some.injEq, Prod.mk.injEq] at h1
    obtain ⟨rfl, rfl⟩ := h1
    have := ((hb.inv (hst.inv ha.inv).1).2.H d hd).1 hx2
    have : d < a.s.st.defs.size := by
      obtain ⟨ord, hf⟩ := ha.inv
      exact (hf.good.d.user d this).1
    omega
  have hrev := revOK_of_user hbi hdl hx2
  obtain ⟨ord, hf⟩ := id hbi
  have hxl : x₂ < b.s.st.defs.size := (hf.good.d.user x₂ hx2).1
  obtain ⟨ρ, hρ⟩ := (hf.wellDefined hdl).exists_solves (P := realPrim)
  obtain ⟨δ, hδ⟩ := (hf.wellDefined hdl).exists_tangent (P := realPrim) x₂ ρ
  refine ⟨δ d, second_of_deriv h ha.inv hb hx2 hdom ⟨ρ, δ, hρ, hδ, rfl⟩, ?_, ?_⟩
  · obtain ⟨m, e1, -⟩ := hf.devalFS hdl hxl hs hρ hδ
    have e1 : DevalFS realPrim d x₂ b.s = _ := e1
    rw [e1]; rfl
  · obtain ⟨m, e1, -⟩ := hf.preCompS hdl hs
    have e2 := hf.preCompS_key hdl hxl hs hrev hρ hδ e1
    have e1 : PreCompS realPrim d b.s = _ := e1
    rw [if_neg hxd] at e2
    rw [e1, Option.map_some, e2]

/-- C15, symbolic: with `d = SymDiff(y, x₁)` and `e = SymDiff(d, x₂)`, any calls in between and after,
`Eval(e)` returns the second derivative of `y` at the point at that moment. -/
theorem C15_symDiff_twice_partial {a a' b b' c : Sess ℝ} (ha : Session realPrim a) {y x₁ x₂ d e : ℕ}
    (h : SymD realPrim a y x₁ d a') (hb : Later realPrim a' b) (h' : SymD realPrim b d x₂ e b')
    (hc : Later realPrim b' c) (hs : c.Safe e) (hdom : c.InDom 1 y) :
    ∃ w, SecondDerivative c y x₁ x₂ w ∧ (EvalS realPrim e c.s).map Prod.fst = some w := by
  obtain ⟨hab, hbi, -⟩ := h.later ha.inv hb
  obtain ⟨hbc, hci, hel, hdl, hx2, -⟩ := h'.later hbi hc
  obtain ⟨w, e1, e2⟩ := evalS_value hci hel hs
  have hbb' : Later realPrim b b' := (h'.later hbi .refl).1
  exact ⟨w, second_of_deriv h ha.inv ((hb.trans hbb').trans hc) hx2 hdom
    ((h'.value hbi hc w).1 ((e2 w).2 rfl)), e1⟩

theorem Sess.set_comm (b : Sess K) {x₁ x₂ : ℕ} (h : x₁ ≠ x₂) (t s : K) :
    (b.set x₂ t).set x₁ s = (b.set x₁ s).set x₂ t := by
  simp only [Sess.set, assignNum, Function.update_comm h]

/-- C15, symmetry: the two mixed second derivatives agree.  `d₁ = SymDiff(y, x₁)` and
`d₂ = SymDiff(y, x₂)` were built at any two moments; `b` is any state after both. -/
theorem C15_mixed_symmetric {a₁ a₁' a₂ a₂' b : Sess ℝ} {y x₁ x₂ d₁ d₂ : ℕ} (hx : x₁ ≠ x₂)
    (ha₁ : Session realPrim a₁) (h₁ : SymD realPrim a₁ y x₁ d₁ a₁') (hb₁ : Later realPrim a₁' b)
    (ha₂ : Session realPrim a₂) (h₂ : SymD realPrim a₂ y x₂ d₂ a₂') (hb₂ : Later realPrim a₂' b)
    (hdom : b.InDom 1 y) {w w' : ℝ} (hw : DerivOf realPrim b.s.st.defs d₁ x₂ w)
    (hw' : DerivOf realPrim b.s.st.defs d₂ x₁ w') : w = w' := by
  obtain ⟨-, hbi, hd1l, hyl, hx1, -, hre, hit, -⟩ := h₁.later ha₁.inv hb₁
  obtain ⟨-, -, hd2l, -, hx2, -, -, -, -⟩ := h₂.later ha₂.inv hb₂
  have hokb : b.SymOk y := by
    intro q hq
    rw [hre] at hq
    rw [hit q hq]
    exact h₁.ok q hq
  set c : ℝ × ℝ → Sess ℝ := fun p => (b.set x₁ p.1).set x₂ p.2 with hc
  have hci : ∀ p, SInv realPrim (c p) := fun p => Sess.set_inv (Sess.set_inv hbi hx1 _) hx2 _
  have hb1 : ∀ p, Later realPrim a₁' (c p) := fun p => Later.set (Later.set hb₁ hx1 _) hx2 _
  have hb2 : ∀ p, Later realPrim a₂' (c p) := fun p => Later.set (Later.set hb₂ hx1 _) hx2 _
  have hG : ∀ p, ∃ v, ValueOf realPrim (c p).s.st.defs y v := fun p => exists_value (hci p) hyl
  have hF₁ : ∀ p, ∃ v, ValueOf realPrim (c p).s.st.defs d₁ v := fun p => exists_value (hci p) hd1l
  have hF₂ : ∀ p, ∃ v, ValueOf realPrim (c p).s.st.defs d₂ v := fun p => exists_value (hci p) hd2l
  choose G hG using hG
  choose F₁ hF₁ using hF₁
  choose F₂ hF₂ using hF₂
  set p : ℝ × ℝ := (b.s.st.defs.base x₁, b.s.st.defs.base x₂) with hp
  have hemp : b.s.st.defs.items x₁ = [] ∧ b.s.st.defs.items x₂ = [] := by
    obtain ⟨ord, hf⟩ := hbi
    exact ⟨(hf.good.d.user x₁ hx1).2, (hf.good.d.user x₂ hx2).2⟩
  have hcp : (c p).s.st.defs = b.s.st.defs := by
    have e1 : (b.set x₁ p.1).s.st.defs = b.s.st.defs := assignNum_self hemp.1
    have e2 : (b.set x₁ p.1).s.st.defs.base x₂ = p.2 := by rw [e1]
    have e3 : (b.set x₁ p.1).s.st.defs.items x₂ = [] := by rw [e1]; exact hemp.2
    have := assignNum_self e3
    rw [e2] at this
    exact this.trans e1
  obtain ⟨hsm, hopen⟩ := family_smooth (m := 1) hbi hyl hokb (c := c) (p := p)
    (fun q => (Sess.set_items (Sess.set_inv hbi hx1 _) hx2 _).trans (Sess.set_items hbi hx1 _))
    (fun _ => rfl) (fun q => by
      show ContDiffAt ℝ _ (fun t : ℝ × ℝ =>
        Function.update (Function.update b.s.st.defs.base x₁ t.1) x₂ t.2 q) _
      by_cases e2 : q = x₂
      · subst e2; simpa using contDiffAt_snd
      · by_cases e1 : q = x₁
        · subst e1; simpa [e2] using contDiffAt_fst
        · simpa [e1, e2] using contDiffAt_const) (hdom.of_defs hcp) hG
  have hbase1 : ∀ q, (c q).s.st.defs.base x₁ = q.1 := by
    intro q
    show Function.update (Function.update b.s.st.defs.base x₁ q.1) x₂ q.2 x₁ = _
    simp [hx]
  have hbase2 : ∀ q, (c q).s.st.defs.base x₂ = q.2 := by
    intro q
    show Function.update (Function.update b.s.st.defs.base x₁ q.1) x₂ q.2 x₂ = _
    simp
  have hset2 : ∀ q t, (c q).set x₂ t = c (q.1, t) := by
    intro q t
    simp [hc, Sess.set, assignNum]
  have hset1 : ∀ q t, (c q).set x₁ t = c (t, q.2) := by
    intro q t
    rw [hc]
    simp only
    rw [← Sess.set_comm b hx q.2 q.1, ← Sess.set_comm b hx q.2 t]
    simp [Sess.set, assignNum]
  refine mixed_symmetric (G := G) (F₁ := F₁) (F₂ := F₂) (p := p) (by exact_mod_cast hsm) ?_ ?_ ?_ ?_
  · filter_upwards [hopen] with q hq
    have := deriv_at (hci q) (F := fun t => G (t, q.2)) hyl hx1 hq.mono
      (fun t => by rw [hset1]; exact hG _) ((h₁.value ha₁.inv (hb1 q) (F₁ q)).1 (hF₁ q))
    rwa [hbase1] at this
  · filter_upwards [hopen] with q hq
    have := deriv_at (hci q) (F := fun t => G (q.1, t)) hyl hx2 hq.mono
      (fun t => by rw [hset2]; exact hG _) ((h₂.value ha₂.inv (hb2 q) (F₂ q)).1 (hF₂ q))
    rwa [hbase2] at this
  · have := deriv_at (hci p) (F := fun t => F₁ (p.1, t)) hd1l hx2
      (Sess.InDom.of_defs hcp (h₁.all ha₁.inv hb₁ (domN_closes 0) hdom))
      (fun t => by rw [hset2]; exact hF₁ _) (by rw [hcp]; exact hw)
    rwa [hbase2] at this
  · have := deriv_at (hci p) (F := fun t => F₂ (t, p.2)) hd2l hx1
      (Sess.InDom.of_defs hcp (h₂.all ha₂.inv hb₂ (domN_closes 0) hdom))
      (fun t => by rw [hset1]; exact hF₂ _) (by rw [hcp]; exact hw')
    rwa [hbase1] at this

/-- C15, symmetry through the API: `DevalF(d₁, x₂)` and `DevalF(d₂, x₁)` return the same number, and so
do `Eval(SymDiff(d₁, x₂))` and `Eval(SymDiff(d₂, x₁))`. -/
theorem C15_symmetric_answers_partial {a₁ a₁' a₂ a₂' b : Sess ℝ} {y x₁ x₂ d₁ d₂ : ℕ} (hx : x₁ ≠ x₂)
    (ha₁ : Session realPrim a₁) (h₁ : SymD realPrim a₁ y x₁ d₁ a₁') (hb₁ : Later realPrim a₁' b)
    (ha₂ : Session realPrim a₂) (h₂ : SymD realPrim a₂ y x₂ d₂ a₂') (hb₂ : Later realPrim a₂' b)
    (hdom : b.InDom 1 y) :
    ∃ w, (b.Safe d₁ → (DevalFS realPrim d₁ x₂ b.s).map Prod.fst = some w) ∧
      (b.Safe d₂ → (DevalFS realPrim d₂ x₁ b.s).map Prod.fst = some w) ∧
      (∀ c c' e, Later realPrim a₁' c → SymD realPrim c d₁ x₂ e c' → Later realPrim c' b → b.Safe e →
        (EvalS realPrim e b.s).map Prod.fst = some w) ∧
      (∀ c c' e, Later realPrim a₂' c → SymD realPrim c d₂ x₁ e c' → Later realPrim c' b → b.Safe e →
        (EvalS realPrim e b.s).map Prod.fst = some w) := by
  obtain ⟨-, hbi, hd1l, hyl, hx1, -, hre, hit, -⟩ := h₁.later ha₁.inv hb₁
  obtain ⟨-, -, hd2l, -, hx2, -, -, -, -⟩ := h₂.later ha₂.inv hb₂
  obtain ⟨w, hw⟩ := exists_deriv (P := realPrim) hbi hd1l x₂
  obtain ⟨w', hw'⟩ := exists_deriv (P := realPrim) hbi hd2l x₁
  have e := C15_mixed_symmetric hx ha₁ h₁ hb₁ ha₂ h₂ hb₂ hdom hw hw'
  subst e
  have hxl : x₁ < b.s.st.defs.size ∧ x₂ < b.s.st.defs.size := by
    obtain ⟨ord, hf⟩ := hbi
    exact ⟨(hf.good.d.user x₁ hx1).1, (hf.good.d.user x₂ hx2).1⟩
  have fwd : ∀ {d x : ℕ}, d < b.s.st.defs.size → x < b.s.st.defs.size →
      DerivOf realPrim b.s.st.defs d x w → b.Safe d →
      (DevalFS realPrim d x b.s).map Prod.fst = some w := by
    rintro d x hd hx ⟨ρ, δ, hρ, hδ, rfl⟩ hs
    obtain ⟨ord, hf⟩ := hbi
    obtain ⟨m, e1, -⟩ := hf.devalFS hd hx hs hρ hδ
    have e1 : DevalFS realPrim d x b.s = _ := e1
    rw [e1]; rfl
  have sym : ∀ {a a' c c' : Sess ℝ} {d x x' e : ℕ}, Session realPrim a → SymD realPrim a y x' d a' →
      DerivOf realPrim b.s.st.defs d x w →
      Later realPrim a' c → SymD realPrim c d x e c' → Later realPrim c' b → b.Safe e →
      (EvalS realPrim e b.s).map Prod.fst = some w := by
    intro a a' c c' d x x' e ha h hw hac hd hcb hs
    obtain ⟨-, hci, -⟩ := h.later ha.inv hac
    obtain ⟨-, -, hel, -⟩ := hd.later hci hcb
    obtain ⟨v, e1, e2⟩ := evalS_value hbi hel hs
    rw [e1, (e2 w).1 ((hd.value hci hcb w).2 hw)]
  exact ⟨w, fwd hd1l hxl.2 hw, fwd hd2l hxl.1 hw', fun c c' e => sym ha₁ h₁ hw,
    fun c c' e => sym ha₂ h₂ hw'⟩

/-! ## Derivatives of every order -/

/-- `e` was built by a chain of `SymDiff` calls: `d₀ = y`, `dᵢ₊₁ = SymDiff(dᵢ, xᵢ)`, with any API calls in
between; the list has the latest Variable first. -/
inductive SymChain (P : Prim K) (a : Sess K) (y : ℕ) : List ℕ → ℕ → Sess K → Prop
  | nil : SymChain P a y [] y a
  | step {xs : List ℕ} {d x e : ℕ} {b b' c : Sess K} : SymChain P a y xs d b → Later P b b' →
      SymD P b' d x e c → SymChain P a y (x :: xs) e c

/-- `w` is the iterated partial derivative of the value of `y` at the current point; the list has the
last differentiation first. -/
def NthDerivative (y : ℕ) : List ℕ → Sess ℝ → ℝ → Prop
  | [], b, w => ValueOf realPrim b.s.st.defs y w
  | x :: xs, b, w => ∃ F : ℝ → ℝ, (∀ᶠ t in 𝓝 (b.s.st.defs.base x), NthDerivative y xs (b.set x t) (F t)) ∧
      HasDerivAt F w (b.s.st.defs.base x)

theorem SymChain.later {a b : Sess K} {y e : ℕ} {xs : List ℕ} (h : SymChain P a y xs e b)
    (ha : SInv P a) : Later P a b := by
  induction h with
  | nil => exact .refl
  | step _ hl hd ih =>
      exact (ih.trans hl).trans (hd.later ((ih.trans hl).inv ha).1 .refl).1

theorem SymChain.root {a b c : Sess K} {y e : ℕ} {xs : List ℕ} (h : SymChain P a y xs e b)
    (ha : SInv P a) (hne : xs ≠ []) (hc : Later P b c) :
    e < c.s.st.defs.size ∧ y < c.s.st.defs.size ∧ c.SymOk y := by
  induction h generalizing c with
  | nil => exact absurd rfl hne
  | @step xs d x e b b' c' hch hl hd ih =>
      have hbi := ((hch.later ha).trans hl |>.inv ha).1
      obtain ⟨h1, h2, h3, h4, -, -, hre, hit, -⟩ := hd.later hbi hc
      refine ⟨h3, ?_⟩
      cases hch with
      | nil =>
          refine ⟨h4, fun q hq => ?_⟩
          rw [hre] at hq
          rw [hit q hq]
          exact hd.ok q hq
      | step _ _ _ => exact (ih (by simp) (hl.trans h1)).2

theorem SymChain.inDom {a b c : Sess ℝ} {y e : ℕ} {xs : List ℕ} (h : SymChain realPrim a y xs e b)
    (ha : SInv realPrim a) (hc : Later realPrim b c) {k : ℕ} (hd : c.InDom (k + xs.length) y) :
    c.InDom k e := by
  induction h generalizing c k with
  | nil => exact hd
  | @step xs d x e b b' c' hch hl hd' ih =>
      have hbi := ((hch.later ha).trans hl |>.inv ha).1
      obtain ⟨h1, -⟩ := hd'.later hbi hc
      refine hd'.all hbi hc (domN_closes k) (ih (hl.trans h1) (k := k + 1) ?_)
      have : k + 1 + xs.length = k + (x :: xs).length := by simp; omega
      rw [this]; exact hd

theorem Sess.InDom.le {b : Sess ℝ} {m n y : ℕ} (h : b.InDom n y) (hmn : m ≤ n) : b.InDom m y := by
  induction n with
  | zero => obtain rfl : m = 0 := by omega
            exact h
  | succ n ih =>
      rcases Nat.lt_or_ge m (n + 1) with hl | hl
      · exact ih h.mono (by omega)
      · obtain rfl : m = n + 1 := by omega
        exact h

theorem SymChain.nth {a b c : Sess ℝ} {y e : ℕ} {xs : List ℕ} (h : SymChain realPrim a y xs e b)
    (ha : SInv realPrim a) (hc : Later realPrim b c) {m : ℕ} (hm : xs.length ≤ m + 1)
    (hd : c.InDom m y) {w : ℝ} (hw : ValueOf realPrim c.s.st.defs e w) : NthDerivative y xs c w := by
  induction h generalizing c w with
  | nil => exact hw
  | @step xs d x e b b' c' hch hl hd' ih =>
      have hbi := ((hch.later ha).trans hl |>.inv ha).1
      obtain ⟨h1, hci, hel, hdl, hx, -⟩ := hd'.later hbi hc
      obtain ⟨-, hyl, hok⟩ := (SymChain.step hch hl hd').root ha (by simp) hc
      have hset : ∀ t, SInv realPrim (c.set x t) := fun t => Sess.set_inv hci hx t
      have hF : ∀ t, ∃ v, ValueOf realPrim (c.set x t).s.st.defs d v := fun t => exists_value (hset t) hdl
      choose F hF using hF
      have hY : ∀ t, ∃ v, ValueOf realPrim (c.set x t).s.st.defs y v := fun t => exists_value (hset t) hyl
      choose Y hY using hY
      have hself : (c.set x (c.s.st.defs.base x)).s.st.defs = c.s.st.defs := by
        have : c.s.st.defs.items x = [] := by
          obtain ⟨ord, hf⟩ := hci
          exact (hf.good.d.user x hx).2
        exact assignNum_self this
      have hopen := (family_smooth (m := m) hci hyl hok (c := fun t => c.set x t) (p := c.s.st.defs.base x)
        (fun t => Sess.set_items hci hx t) (fun _ => rfl) (fun q => by
          show ContDiffAt ℝ _ (fun t => Function.update c.s.st.defs.base x t q) _
          by_cases e : q = x
          · subst e; simp only [Function.update_self]; exact contDiffAt_id
          · simpa [e] using contDiffAt_const) (hd.of_defs hself) hY).2
      have hlen : xs.length ≤ m := by simpa using hm
      have hdd : c.InDom 0 d := hch.inDom ha (hl.trans h1) (by
        rw [Nat.zero_add]; exact hd.le hlen)
      refine ⟨F, ?_, deriv_at hci hdl hx hdd hF ((hd'.value hbi hc w).1 hw)⟩
      filter_upwards [hopen] with t ht
      exact ih ((hl.trans h1).set hx t) (by omega) ht (hF t)

/-- C15, every order: `Eval` of the result of `n` nested `SymDiff` calls returns the `n`-th (mixed)
partial derivative, in every later state in which the flags are safe for the result and `y` is inside
its domain with room for `n` differentiations. -/
theorem C15_nth_derivative_partial {a b c : Sess ℝ} (ha : Session realPrim a) {y e : ℕ} {xs : List ℕ}
    (hne : xs ≠ []) (h : SymChain realPrim a y xs e b) (hc : Later realPrim b c) (hs : c.Safe e)
    (hd : c.InDom (xs.length - 1) y) :
    ∃ w, NthDerivative y xs c w ∧ (EvalS realPrim e c.s).map Prod.fst = some w := by
  have hci := ((h.later ha.inv).trans hc |>.inv ha.inv).1
  obtain ⟨w, e1, e2⟩ := evalS_value hci (h.root ha.inv hne hc).1 hs
  exact ⟨w, h.nth ha.inv hc (by omega) hd ((e2 w).2 rfl), e1⟩

/-! ### The usual program: differentiate first, query afterwards -/

/-- Before any query `SymDiff` can be called on every supported `y`, and leaves no flags. -/
theorem SymD.of_unflagged {a : Sess K} (ha : SInv P a) (hu : a.Unflagged) {y x : ℕ}
    (hy : y < a.s.st.defs.size) (hx : a.H x) (hok : a.SymOk y) (rf : ℕ → Bool → List Bool → Bool) :
    ∃ d a', SymD P a y x d a' ∧ a'.Unflagged ∧ symDiff P rf y x a.s = some (d, a'.s) ∧
      (∀ q < a.s.st.defs.size, a'.s.st.defs.items q = a.s.st.defs.items q) ∧
      (∀ q, Reach a.s.st.defs y q → q ∈ a'.T) := by
  have hs : a.Safe y := Sess.safe_of (Or.inl fun q hq => hu q (by
    obtain ⟨ord, hf⟩ := ha
    exact Reach.lt hf.good.d.wf.closed hy hq))
  obtain ⟨d, s', h1, hst, hge, hd, hv1, hv2, hit, -⟩ := symDiff_core ha hy hx hs hok rf
  refine ⟨d, a.diffed y s', ⟨hy, hx, hs, hok, rf, s', h1, rfl⟩, fun q hq => ?_, h1, hit,
    fun q hq => Or.inr (Or.inl hq)⟩
  have hql : q < s'.st.defs.size := hq
  show s'.st.mem.visited q = false
  rcases Nat.lt_or_ge q a.s.st.defs.size with h | h
  · by_contra hne
    have := hv1 q h (by simpa using hne)
    rw [hu q h] at this
    simp at this
  · exact hv2 q hql h

/-- Nested `SymDiff` calls of every depth succeed on formulas made of `+ - * /`, powers, `sin`, `cos`,
`tan`, `sinh`, `cosh`, `tanh`, `atan`, `exp`, `log`, if no query was made before. -/
theorem C15_chain_exists {a : Sess K} (ha : Session P a) (hu : a.Unflagged) {y : ℕ}
    (hy : y < a.s.st.defs.size) (hok : a.Only Op1.SymOkN y) (xs : List ℕ) (hxs : ∀ x ∈ xs, a.H x)
    (rf : ℕ → Bool → List Bool → Bool) :
    ∃ e b, SymChain P a y xs e b ∧ b.Unflagged ∧ e < b.s.st.defs.size ∧ b.Only Op1.SymOkN e ∧
      (∀ q < a.s.st.defs.size, b.s.st.defs.items q = a.s.st.defs.items q) ∧
      (xs ≠ [] → ∀ q, Reach a.s.st.defs y q → q ∈ b.T) := by
  have hH : ∀ {p q : Sess K} {x : ℕ}, Later P p q → p.H x → q.H x := by
    intro p q x hl hp
    induction hl with
    | refl => exact hp
    | step _ hs ih => cases hs <;> first | exact ih | exact Or.inl ih
  induction xs with
  | nil => exact ⟨y, a, .nil, hu, hy, hok, fun _ _ => rfl, fun h => absurd rfl h⟩
  | cons x xs ih =>
      obtain ⟨d, b, h1, h2, h3, h4, h8, h9⟩ := ih fun x hx => hxs x (List.mem_cons_of_mem _ hx)
      have hab := h1.later ha.inv
      have hbi := (hab.inv ha.inv).1
      have hbs : Session P b := Later.trans ha hab
      have hokb : b.SymOk d := Sess.only_symOk.1 fun q hq i hi =>
        (h4 q hq i hi).mono (fun _ h => h.symOk) fun _ h => h
      obtain ⟨e, c, h5, h6, -, h10, h11⟩ := SymD.of_unflagged hbi h2 h3 (hH hab (hxs x (by simp))) hokb rf
      obtain ⟨hbc, -, h7, -⟩ := h5.later hbi .refl
      have hsz := (hab.inv ha.inv).2.size
      refine ⟨e, c, .step h1 .refl h5, h6, h7, (C15_symOk_forever h5 hbs .refl h4).1,
        fun q hq => (h10 q (lt_of_lt_of_le hq hsz)).trans (h8 q hq), fun _ q hq => ?_⟩
      cases xs with
      | nil =>
          cases h1
          exact h11 q hq
      | cons => exact (hbc.inv hbi).2.T q (h9 (by simp) q hq)

/-- C15 for the usual program: before any query, `SymDiff` is nested any number of times; then come any
number of rounds of changing Variables and Parameters and querying the result.  Every `Eval` returns
the iterated partial derivative of `y` at the point at that moment, as long as the point is inside the
domain.  No condition on flags is left. -/
theorem C15_program_partial {a : Sess ℝ} (ha : Session realPrim a) (hu : a.Unflagged) {y : ℕ}
    (hy : y < a.s.st.defs.size) (hok : a.Only Op1.SymOkN y) {xs : List ℕ} (hne : xs ≠ [])
    (hxs : ∀ x ∈ xs, a.H x) (rf : ℕ → Bool → List Bool → Bool) :
    ∃ e b, SymChain realPrim a y xs e b ∧ ∀ c, Rounds realPrim e b c → c.InDom (xs.length - 1) y →
      ∃ w, NthDerivative y xs c w ∧ (EvalS realPrim e c.s).map Prod.fst = some w := by
  obtain ⟨e, b, h1, h2, h3, -, -⟩ := C15_chain_exists ha hu hy hok xs hxs rf
  refine ⟨e, b, h1, fun c hc hd => ?_⟩
  have hbi := ((h1.later ha.inv).inv ha.inv).1
  obtain ⟨l1, -, l3⟩ := hc.later hbi h3 (Or.inl fun q hq => h2 q (by
    obtain ⟨ord, hf⟩ := hbi
    exact Reach.lt hf.good.d.wf.closed h3 hq))
  exact C15_nth_derivative_partial ha hne h1 l1 (Sess.safe_of l3) hd

end CoolDiff
