import Verif.Matrix.JointProof
import Verif.Props.MatrixExpr
import Verif.Props.Analysis

/-!
# C46: matrices whose elements are scalar Variables and Expressions

The queries here run on matrices *and* the scalar heap (`Verif/Matrix/Joint.lean`): every element of a
`Matrix<Expression>` and every scalar operand is evaluated, or differentiated in reverse mode, by the scalar
layer, with its stored results.
-/

set_option linter.unusedSectionVars false

namespace CoolDiff

variable {K : Type} [Field K] [DecidableEq K]

open Classical in
/-- What the definitions in force say about every scalar handle: its value, and its derivative with respect to
the Variable with a given number. -/
noncomputable def JCtx.scal (j : JCtx K) (D : Defs K) : Scal K where
  val s := match j.h s with
    | .obj o => if h : ∃ v, ValueOf j.P D o v then h.choose else 0
    | .par p => D.par p
    | .num v => v
  der s n := match j.h s with
    | .obj o => if h : ∃ d x, x < D.size ∧ D.items x = [] ∧ D.nidx x = n ∧ DerivOf j.P D o x d then h.choose else 0
    | _ => 0

theorem JCtx.scal_truth (j : JCtx K) {D : Defs K} (hw : D.WF) : Truth j D (j.scal D) := by
  refine ⟨fun s o hs hwd => ?_, fun s p hs => ?_, fun s v hs => ?_, fun s o hs hwd x hx hv => ?_⟩
  · have h : ∃ v, ValueOf j.P D o v := hwd.existsUnique_value.exists
    simp only [JCtx.scal, hs, dif_pos h]
    exact h.choose_spec
  · simp only [JCtx.scal, hs]
  · simp only [JCtx.scal, hs]
  · have h : ∃ d y, y < D.size ∧ D.items y = [] ∧ D.nidx y = D.nidx x ∧ DerivOf j.P D o y d := by
      obtain ⟨d, hd⟩ := (hwd.existsUnique_deriv (P := j.P) x).exists
      exact ⟨d, x, hx, hv, rfl, hd⟩
    simp only [JCtx.scal, hs, dif_pos h]
    obtain ⟨y, hy, -, e, hd⟩ := h.choose_spec
    rwa [hw.inj y hy x hx e] at hd

theorem joint_eval_rep {E : MEnv K} {rank : ℕ → ℕ} {s : MSt K} {U : ℕ → Prop} (hm : MHist E rank s U)
    (j : JCtx K) (hE : j.E = E) {σ : St K} {V H : ℕ → Prop} (hs : Hist j.P σ V) {o f : ℕ}
    (hel : ElemsOk j σ.defs (MReach E o) H) (hc : Orderly σ.defs V H)
    (hq : QueryOk (j.at (j.scal σ.defs)) rank False o) (hf : rank o < f) (ho : U o ∨ ∀ p, MReach E o p → ¬U p) :
    ∃ s' σ' m V', matEvalJ j f (.obj o) (s, σ) = some ((s', σ'), m) ∧
      Rep m (E.rows o) (E.cols o) (MVal (j.at (j.scal σ.defs)) rank o) ∧
      MHist E rank s' (fun p => U p ∨ MReach E o p) ∧
      Hist j.P σ' V' ∧ σ'.defs = σ.defs ∧ Orderly σ.defs V' H ∧
      (∀ q, V q → V' q) ∧ ∀ q, V' q → V q ∨ ∃ y, H y ∧ Reach σ.defs y q := by
  subst hE
  obtain ⟨s', m, h1, h2, h5⟩ := hm.eval_rep _ rfl hq hf ho
  obtain ⟨σ', e, hi⟩ := matEvalJ_sim (j.scal_truth hs.inv.wf.defs) hel (MReach.closed j.E o) MReach.refl
    s s' m σ h1 (HeapInv.start hs hc)
  obtain ⟨d, V', a1, a2, a3, a4⟩ := hi
  exact ⟨s', σ', m, V', e, h2, h5, a1, d, a2, a3, a4⟩

/-- **C46 (`Eval`).**  After any run of matrix queries and any run of scalar calls, `TensorR2::Eval` of a matrix
answers the values of its elements under the scalar definitions and values in force, although the values of the
scalar elements are taken from the scalar layer, with all the results it has stored.  The scalar layer is left in
a state that is again the result of calls: further queries, scalar or matrix, are covered by the same theorems.
Partial: the matrix is one that was queried before or is new in all its parts (C38), and the scalar Expressions
involved are in order (`Orderly`: see `C46_single_query_counterexample`). -/
theorem C46_eval_partial {E : MEnv K} {rank : ℕ → ℕ} {s : MSt K} {U : ℕ → Prop} (hm : MHist E rank s U)
    (j : JCtx K) (hE : j.E = E) {σ : St K} {V H : ℕ → Prop} (hs : Hist j.P σ V) {o f : ℕ}
    (hel : ElemsOk j σ.defs (MReach E o) H) (hc : Orderly σ.defs V H)
    (hq : QueryOk (j.at (j.scal σ.defs)) rank False o) (hf : rank o < f) (ho : U o ∨ ∀ p, MReach E o p → ¬U p) :
    ∃ s' σ' m V', matEvalJ j f (.obj o) (s, σ) = some ((s', σ'), m) ∧ m.rows = E.rows o ∧ m.cols = E.cols o ∧
      (∀ r c, r < E.rows o → c < E.cols o → m.get? r c = some (MVal (j.at (j.scal σ.defs)) rank o r c)) ∧
      MHist E rank s' (fun p => U p ∨ MReach E o p) ∧
      Hist j.P σ' V' ∧ σ'.defs = σ.defs ∧ Orderly σ.defs V' H ∧
      (∀ q, V q → V' q) ∧ ∀ q, V' q → V q ∨ ∃ y, H y ∧ Reach σ.defs y q := by
  obtain ⟨s', σ', m, V', e, h1, h2⟩ := joint_eval_rep hm j hE hs hel hc hq hf ho
  exact ⟨s', σ', m, V', e, h1.rows, h1.cols, h1.elem, h2⟩

theorem joint_devalF_rep {E : MEnv K} {rank : ℕ → ℕ} {s : MSt K} {U : ℕ → Prop} (hm : MHist E rank s U)
    (j : JCtx K) (hE : j.E = E) {σ : St K} {V H : ℕ → Prop} (hs : Hist j.P σ V) {o X f : ℕ}
    (hel : ElemsOk j σ.defs (MReach E o) H) (hc : Orderly σ.defs V H)
    (hXe : ∀ r c, r < E.rows X → c < E.cols X → VarEl j σ.defs (E.el X r c))
    (hq : QueryOk (j.at (j.scal σ.defs)) rank True o) (hK : j.B.KronSound) (hP : PadsOk E X) (hvars : VarsOk E)
    (hX : E.kind X = .var) (hf : rank o < f) (ho : U o ∨ ∀ p, MReach E o p → ¬U p) :
    ∃ s' σ' m V', matDevalFJ j f X (.obj o) (s, σ) = some ((s', σ'), m) ∧
      Rep m (E.rows o * E.rows X) (E.cols o * E.cols X)
        (lay (E.rows X) (E.cols X) (MDer (j.at (j.scal σ.defs)) X rank o)) ∧
      MHist E rank s' (fun p => U p ∨ MReach E o p) ∧
      Hist j.P σ' V' ∧ σ'.defs = σ.defs ∧ Orderly σ.defs V' H ∧
      (∀ q, V q → V' q) ∧ ∀ q, V' q → V q ∨ ∃ y, H y ∧ Reach σ.defs y q := by
  subst hE
  obtain ⟨s', m, h1, h2, h5⟩ := hm.devalF_rep _ rfl hq hK hP hvars hX hf ho
  obtain ⟨σ', e, hi⟩ := matDevalFJ_sim (j.scal_truth hs.inv.wf.defs) hel (MReach.closed j.E o) hXe MReach.refl
    s s' m σ h1 (HeapInv.start hs hc)
  obtain ⟨d, V', a1, a2, a3, a4⟩ := hi
  exact ⟨s', σ', m, V', e, h2, h5, a1, d, a2, a3, a4⟩

/-- **C46 (`DevalF`).**  The same for the derivatives: entry `(l*rX+i, k*cX+j)` is the derivative of element
`(l,k)` with respect to the Variable `X(i,j)` under the definitions and values in force, the derivatives of the
scalar elements being those the scalar reverse mode delivers. -/
theorem C46_devalF_partial {E : MEnv K} {rank : ℕ → ℕ} {s : MSt K} {U : ℕ → Prop} (hm : MHist E rank s U)
    (j : JCtx K) (hE : j.E = E) {σ : St K} {V H : ℕ → Prop} (hs : Hist j.P σ V) {o X f : ℕ}
    (hel : ElemsOk j σ.defs (MReach E o) H) (hc : Orderly σ.defs V H)
    (hXe : ∀ r c, r < E.rows X → c < E.cols X → VarEl j σ.defs (E.el X r c))
    (hq : QueryOk (j.at (j.scal σ.defs)) rank True o) (hK : j.B.KronSound) (hP : PadsOk E X) (hvars : VarsOk E)
    (hX : E.kind X = .var) (hf : rank o < f) (ho : U o ∨ ∀ p, MReach E o p → ¬U p) :
    ∃ s' σ' m V', matDevalFJ j f X (.obj o) (s, σ) = some ((s', σ'), m) ∧
      m.rows = E.rows o * E.rows X ∧ m.cols = E.cols o * E.cols X ∧
      (∀ l k r c, l < E.rows o → k < E.cols o → r < E.rows X → c < E.cols X →
        m.get? (l * E.rows X + r) (k * E.cols X + c) = some (MDer (j.at (j.scal σ.defs)) X rank o l k r c)) ∧
      MHist E rank s' (fun p => U p ∨ MReach E o p) ∧
      Hist j.P σ' V' ∧ σ'.defs = σ.defs ∧ Orderly σ.defs V' H ∧
      (∀ q, V q → V' q) ∧ ∀ q, V' q → V q ∨ ∃ y, H y ∧ Reach σ.defs y q := by
  obtain ⟨s', σ', m, V', e, h1, h2⟩ := joint_devalF_rep hm j hE hs hel hc hXe hq hK hP hvars hX hf ho
  refine ⟨s', σ', m, V', e, h1.rows, h1.cols, fun l k r c hl hk hr hcc => ?_, h2⟩
  rw [h1.elem _ _ (flat_lt hl hr) (flat_lt hk hcc), lay_at _ hr hcc]

/-- **C46 for a `Matrix<Expression>`**: `Eval` answers the value in force of every element Expression, `DevalF` the
derivative in force of every element Expression with respect to every Variable of `X`. -/
theorem C46_elements_partial {E : MEnv K} {rank : ℕ → ℕ} {s : MSt K} {U : ℕ → Prop} (hm : MHist E rank s U)
    (j : JCtx K) (hE : j.E = E) {σ : St K} {V : ℕ → Prop} (hs : Hist j.P σ V) {o X f : ℕ}
    (y : ℕ → ℕ → ℕ) (x : ℕ → ℕ → ℕ) (hko : E.kind o = .exp)
    (hy : ∀ r c, r < E.rows o → c < E.cols o → j.h (E.el o r c) = .obj (y r c) ∧ y r c < σ.defs.size ∧
      σ.defs.items (y r c) ≠ [] ∧ WellDefined σ.defs (y r c))
    (hx : ∀ r c, r < E.rows X → c < E.cols X → j.h (E.el X r c) = .obj (x r c) ∧ IsVar σ.defs (x r c) ∧
      E.vid (E.el X r c) = σ.defs.nidx (x r c))
    (hc : Orderly σ.defs V (fun q => ∃ r c, r < E.rows o ∧ c < E.cols o ∧ q = y r c))
    (hq : QueryOk (j.at (j.scal σ.defs)) rank True o) (hK : j.B.KronSound) (hP : PadsOk E X) (hvars : VarsOk E)
    (hX : E.kind X = .var) (hf : rank o < f) :
    (∃ s' σ' m, matEvalJ j f (.obj o) (s, σ) = some ((s', σ'), m) ∧
      ∀ r c, r < E.rows o → c < E.cols o → ∃ v, m.get? r c = some v ∧ ValueOf j.P σ.defs (y r c) v) ∧
    ∃ s' σ' m, matDevalFJ j f X (.obj o) (s, σ) = some ((s', σ'), m) ∧
      ∀ l k r c, l < E.rows o → k < E.cols o → r < E.rows X → c < E.cols X →
        ∃ d, m.get? (l * E.rows X + r) (k * E.cols X + c) = some d ∧ DerivOf j.P σ.defs (y l k) (x r c) d := by
  subst hE
  have hreach : ∀ p, MReach j.E o p → p = o := by
    intro p hp
    induction hp with
    | refl => rfl
    | step _ hk _ ih => subst ih; rw [hko] at hk; cases hk
  have hel : ElemsOk j σ.defs (MReach j.E o) (fun q => ∃ r c, r < j.E.rows o ∧ c < j.E.cols o ∧ q = y r c) := by
    refine ⟨fun p hp hk => ?_, fun p hp hk r c hr hcc => ?_, fun p hp hk => ?_,
      fun p hp n e eye hk => ?_, ?_⟩
    · rw [hreach p hp, hko] at hk; cases hk
    · obtain rfl := hreach p hp
      exact ⟨_, (hy r c hr hcc).1, r, c, hr, hcc, rfl⟩
    · rw [hreach p hp, hko] at hk; rcases hk with hk | hk <;> cases hk
    · rw [hreach p hp, hko] at hk; cases hk
    · rintro q ⟨r, c, hr, hcc, rfl⟩
      exact (hy r c hr hcc).2
  have hXe : ∀ r c, r < j.E.rows X → c < j.E.cols X → VarEl j σ.defs (j.E.el X r c) :=
    fun r c hr hc => ⟨x r c, (hx r c hr hc).1, (hx r c hr hc).2.1, (hx r c hr hc).2.2⟩
  have hT := j.scal_truth hs.inv.wf.defs
  have hnf : ¬ j.E.isForm o := by rintro ⟨n, e, eye, h⟩; rw [hko] at h; cases h
  by_cases hU : U o
  all_goals
    have ho : U o ∨ ∀ p, MReach j.E o p → ¬U p := by
      first | exact Or.inl hU | exact Or.inr fun p hp => by rw [hreach p hp]; exact hU
    have hq' : QueryOk (j.at (j.scal σ.defs)) rank False o := ⟨hq.wf, hq.sound, hq.eyes, hq.forms.inv,
      fun p hp n e eye hk => (hq.forms.invertible p hp n e eye hk).weaken⟩
    obtain ⟨s1, σ1, m1, -, e1, -, -, v1, -⟩ := C46_eval_partial hm j rfl hs hel hc hq' hf ho
    obtain ⟨s2, σ2, m2, -, e2, -, -, v2, -⟩ := C46_devalF_partial hm j rfl hs hel hc hXe hq hK hP hvars hX hf ho
    refine ⟨⟨s1, σ1, m1, e1, fun r c hr hc => ⟨_, v1 r c hr hc, ?_⟩⟩,
      s2, σ2, m2, e2, fun l k r c hl hk hr hc => ⟨_, v2 l k r c hl hk hr hc, ?_⟩⟩
    · have := mval_leaf (j.at (j.scal σ.defs)) hq.wf hq.eyes (o := o) hnf hr hc
      rw [this]
      exact hT.obj _ _ (hy r c hr hc).1 (hy r c hr hc).2.2.2
    · have := (derOf_solves j.E (j.scal σ.defs).val (MCtx.sd (j.at (j.scal σ.defs)) X)
        (MVal (j.at (j.scal σ.defs)) rank) X hq.wf (MReach j.E o)).exp o MReach.refl hko l k r c hl hk hr hc
      have h2 : MDer (j.at (j.scal σ.defs)) X rank o l k r c
          = (j.scal σ.defs).der (j.E.el o l k) (j.E.vid (j.E.el X r c)) := this
      rw [h2, (hx r c hr hc).2.2]
      exact hT.der _ _ (hy l k hl hk).1 (hy l k hl hk).2.2.2 _ (hx r c hr hc).2.1.1 (hx r c hr hc).2.1.2.2

/-! ## Over the reals -/

theorem Orderly.of_items {D D' : Defs K} {V H : ℕ → Prop} (hi : D'.items = D.items) (h : Orderly D V H) : Orderly D' V H := by
  intro o ho q hq hqo hu i hii p hp hpe
  rw [hi] at hii hpe
  have h1 := h o ho q (hq.of_items hi.symm) hqo hu i hii p hp hpe
  exact ⟨h1.1, fun o' ho' hr => (h1.2 o' ho' (hr.of_items hi.symm)).of_items hi⟩

theorem ElemsOk.of_items {j : JCtx K} {D D' : Defs K} {S : Set ℕ} {H : ℕ → Prop} (hi : D'.items = D.items)
    (hz : D'.size = D.size) (hn : D'.nidx = D.nidx) (h : ElemsOk j D S H) : ElemsOk j D' S H := by
  refine ⟨fun o ho hk r c hr hc => ?_, h.exp, h.oth, h.ops, fun y hy => ?_⟩
  · obtain ⟨x, h1, ⟨h2, h3, h4⟩, h5⟩ := h.var o ho hk r c hr hc
    exact ⟨x, h1, ⟨hz ▸ h2, h3, hi ▸ h4⟩, hn ▸ h5⟩
  · obtain ⟨h1, h2, h3⟩ := h.handle y hy
    exact ⟨hz ▸ h1, hi ▸ h2, h3.of_items hi⟩

theorem inDomain_plain {D : Defs ℝ} {x : ℕ} (h : D.items x = []) : InDomain D x := by
  intro ρ _ q hq
  have : q = x := by
    induction hq with
    | refl => rfl
    | step _ hi _ ih => subst ih; rw [h] at hi; simp at hi
  rw [this, h]; trivial

/-- The value of a scalar Expression, as a function of the Variable `x`, has the derivative in force. -/
theorem scal_hasDerivAt (j : JCtx ℝ) (hPj : j.P = realPrim) {σ : St ℝ} (hw : σ.WF) {x : ℕ} (hx : IsVar σ.defs x)
    {a : ℕ} (ha : ∀ y, j.h a = .obj y → WellDefined σ.defs y ∧ InDomain σ.defs y) :
    HasDerivAt (fun u => (j.scal (assignNum x u σ).defs).val a) ((j.scal σ.defs).der a (σ.defs.nidx x))
      (σ.defs.base x) := by
  cases e : j.h a with
  | num v => simp only [JCtx.scal, e]; exact hasDerivAt_const _ _
  | par p => simp only [JCtx.scal, e, assignNum]; exact hasDerivAt_const _ _
  | obj y =>
      obtain ⟨hwd, hdom⟩ := ha y e
      have hex : ∀ t, ∃ ρ, Solves realPrim (assignNum x t σ).defs y ρ := fun t =>
        (hwd.of_items (assignNum_items hx.2.2 t)).exists_solves
      choose r hr using hex
      have hsol : Solves realPrim σ.defs y (r (σ.defs.base x)) := by
        have := hr (σ.defs.base x)
        rwa [assignNum_self hx.2.2] at this
      obtain ⟨δ, hδ⟩ := hwd.exists_tangent (P := realPrim) x (r (σ.defs.base x))
      have h1 := solves_hasDerivAt hx hwd hdom hr hδ y .refl
      have h2 : (fun u => (j.scal (assignNum x u σ).defs).val a) = fun u => r u y := by
        funext u
        have := (j.scal_truth (assignNum_wf hw hx.1 u).defs).obj a y e (hwd.of_items (assignNum_items hx.2.2 u))
        rw [hPj] at this
        exact ValueOf.eq (hwd.of_items (assignNum_items hx.2.2 u)) this (hr u)
      have h3 := (j.scal_truth hw.defs).der a y e hwd x hx.1 hx.2.2
      rw [hPj] at h3
      rw [h2, DerivOf.eq hwd h3 hsol hδ]
      exact h1

/-- The value of a matrix element, as a function of the Variable `x = X(a,b)`, has the derivative in force. -/
theorem mval_hasDerivAt {rank : ℕ → ℕ} (j : JCtx ℝ) (hPj : j.P = realPrim) {σ : St ℝ} {H : ℕ → Prop} (hwf : σ.WF)
    {o X : ℕ} (hel : ElemsOk j σ.defs (MReach j.E o) H) (hall : ∀ a y, j.h a = .obj y → IsVar σ.defs y ∨ H y)
    (hq : QueryOk (j.at (j.scal σ.defs)) rank True o) (hdom : ∀ y, H y → InDomain σ.defs y)
    (hey : ∀ p n e eye, j.E.kind p = .form n e eye → ∀ r c, r < j.E.rows eye → c < j.E.cols eye →
      j.h (j.E.el eye r c) = .num (if r = c then 1 else 0))
    (hmaps : ∀ p n e eye, MReach j.E o p → j.E.kind p = .form n e eye →
      MapsOk j.E (j.scal σ.defs).val (MVal (j.at (j.scal σ.defs)) rank) e)
    {a b x' : ℕ} (ha : a < j.E.rows X) (hb : b < j.E.cols X) (hx2 : IsVar σ.defs x')
    (hx3 : j.E.vid (j.E.el X a b) = σ.defs.nidx x') {l k : ℕ} (hl : l < j.E.rows o) (hk : k < j.E.cols o) :
    HasDerivAt (fun t => MVal (j.at (j.scal (assignNum x' t σ).defs)) rank o l k)
      (MDer (j.at (j.scal σ.defs)) X rank o l k a b) (σ.defs.base x') := by
  have hT := j.scal_truth hwf.defs
  have hself : (assignNum x' (σ.defs.base x') σ).defs = σ.defs := assignNum_self hx2.2.2
  have hvs : ∀ r c o', MReach j.E o o' → j.E.kind o' = .var → r < j.E.rows o' → c < j.E.cols o' →
      (j.scal σ.defs).der (j.E.el o' r c) (j.E.vid (j.E.el X a b)) =
        if j.E.vid (j.E.el o' r c) = j.E.vid (j.E.el X a b) then 1 else 0 := by
    intro r c o' ho' hk' hr hcc
    obtain ⟨y, hy1, hy2, hy3⟩ := hel.var o' ho' hk' r c hr hcc
    have hd := hT.der _ y hy1 (wellDefined_plain hy2.2.2) x' hx2.1 hx2.2.2
    rw [hx3]
    obtain ⟨ρ, δ, h1, h2, h3⟩ := hd
    rw [← h3, h2 y .refl, hy3]
    by_cases hyx : y = x'
    · simp [hyx]
    · have : σ.defs.nidx y ≠ σ.defs.nidx x' := fun hh => hyx (hwf.defs.inj y hy2.1 x' hx2.1 hh)
      rw [if_neg hyx, if_neg this, hy2.2.2]
      simp [seqDer]
  have hder := V_hasDerivAt (E := j.E) (rank := rank) hq.wf (MReach.closed j.E o)
    (sv := fun u => (j.scal (assignNum x' u σ).defs).val) (sd := MCtx.sd (j.at (j.scal σ.defs)) X)
    (V := fun u => valOf j.E (j.scal (assignNum x' u σ).defs).val rank)
    (D := MDer (j.at (j.scal σ.defs)) X rank) (X := X) (i := a) (j := b) ha hb (t := σ.defs.base x')
    (fun q => by
      have := scal_hasDerivAt j hPj hwf hx2 (a := q) (fun y hy => by
        rcases hall q y hy with hv | hh
        · exact ⟨wellDefined_plain hv.2.2, inDomain_plain hv.2.2⟩
        · exact ⟨(hel.handle y hh).2.2, hdom y hh⟩)
      rw [← hx3] at this
      exact this)
    (fun p hp hk r c hr hcc => by
      have := hel.oth p hp hk r c hr hcc
      show (j.scal σ.defs).der (j.E.el p r c) _ = 0
      cases e : j.h (j.E.el p r c) with
      | obj y => exact absurd e (this y)
      | par q => simp only [JCtx.scal, e]
      | num v => simp only [JCtx.scal, e])
    (fun p hp hk r c hr hcc => hvs r c p hp hk hr hcc)
    (fun u => valOf_solves j.E _ hq.wf (fun p n e eye hk r c hr hcc => by
      have := hey p n e eye hk r c hr hcc
      simp only [JCtx.scal, this]) _)
    (by rw [hself]; exact derOf_solves j.E _ _ _ X hq.wf _)
    (fun p hp n e eye hk => by rw [hself]; exact hq.forms.invertible p hp n e eye hk)
    (fun p hp n e eye hk => by rw [hself]; exact hmaps p n e eye hp hk)
    (rank o + 1) o MReach.refl (by omega) l k hl hk
  exact hder

/-- **C46 over the reals, Eigen handler.**  Let `G t` be what `TensorR2::Eval(F)` returns after `x = t`, where `x`
is the Variable `X(a,b)`.  Then after any run of matrix queries and scalar calls `TensorR2::DevalF(F, X)` returns
the derivatives of `G` at the current value of `x`, provided that every scalar operator is applied inside its
domain of differentiability and every element-wise function is differentiable where it is applied.
Partial: as `C46_eval_partial` and `C29_forward_real_partial`. -/
theorem C46_real_partial {E : MEnv ℝ} {rank : ℕ → ℕ} {s : MSt ℝ} {U : ℕ → Prop} (hm : MHist E rank s U)
    (g : Cfg) (hg : g.CPU) (he : g.cpu = .eigen) (π : Sched) (h : ℕ → Ent ℝ)
    (j : JCtx ℝ) (hj : j = ⟨backend g π, π, E, realPrim, h⟩)
    {σ : St ℝ} {V H : ℕ → Prop} (hs : Hist realPrim σ V) {o X f : ℕ}
    (hel : ElemsOk j σ.defs (MReach E o) H) (hall : ∀ a y, h a = .obj y → IsVar σ.defs y ∨ H y)
    (hc : Orderly σ.defs V H) (hXe : ∀ r c, r < E.rows X → c < E.cols X → VarEl j σ.defs (E.el X r c))
    (hq : QueryOk (j.at (j.scal σ.defs)) rank True o) (hP : PadsOk E X) (hvars : VarsOk E)
    (hX : E.kind X = .var) (hf : rank o < f) (ho : U o ∨ ∀ p, MReach E o p → ¬U p)
    (hdom : ∀ y, H y → InDomain σ.defs y)
    (hey : ∀ p n e eye, E.kind p = .form n e eye → ∀ r c, r < E.rows eye → c < E.cols eye →
      h (E.el eye r c) = .num (if r = c then 1 else 0))
    (hmaps : ∀ p n e eye, MReach E o p → E.kind p = .form n e eye →
      MapsOk E (j.scal σ.defs).val (MVal (j.at (j.scal σ.defs)) rank) e)
    {a b x : ℕ} (ha : a < E.rows X) (hb : b < E.cols X) (hx : h (E.el X a b) = .obj x) :
    ∃ G : ℝ → ℕ → ℕ → ℝ,
      (∀ t, QueryOk (j.at (j.scal (assignNum x t σ).defs)) rank False o →
        ∃ z m, matEvalJ j f (.obj o) (s, assignNum x t σ) = some (z, m) ∧
          ∀ l k, l < E.rows o → k < E.cols o → m.get? l k = some (G t l k)) ∧
      ∃ z m, matDevalFJ j f X (.obj o) (s, σ) = some (z, m) ∧
        ∀ l k, l < E.rows o → k < E.cols o →
          ∃ d, m.get? (l * E.rows X + a) (k * E.cols X + b) = some d ∧
            HasDerivAt (fun t => G t l k) d (σ.defs.base x) := by
  have hPj : j.P = realPrim := by rw [hj]
  have hEj : j.E = E := by rw [hj]
  have hhj : j.h = h := by rw [hj]
  have hBj : j.B = backend g π := by rw [hj]
  obtain ⟨x', hx1, hx2, hx3⟩ := hXe a b ha hb
  have hxx : x' = x := by rw [hhj, hx] at hx1; cases hx1; rfl
  subst hxx
  rw [hEj] at hx3
  have hwf : σ.WF := hs.inv.wf
  have hT := j.scal_truth hwf.defs
  refine ⟨fun t => MVal (j.at (j.scal (assignNum x' t σ).defs)) rank o, fun t hqt => ?_, ?_⟩
  · have hit := assignNum_items hx2.2.2 t
    have hs' : Hist j.P (assignNum x' t σ) V := by rw [hPj]; exact hs.setVar x' t hx2.1 hx2.2.2
    obtain ⟨s1, σ1, m1, -, e1, -, -, v1, -⟩ := C46_eval_partial hm j hEj hs'
      (hel.of_items hit rfl rfl) (hc.of_items hit) hqt hf ho
    exact ⟨_, m1, e1, v1⟩
  · obtain ⟨s2, σ2, m2, -, e2, -, -, v2, -⟩ := C46_devalF_partial hm j hEj (by rw [hPj]; exact hs) hel hc hXe hq
      (by rw [hBj]; exact backend_kronSound hg he π) hP hvars hX hf ho
    refine ⟨_, m2, e2, fun l k hl hk => ⟨_, v2 l k a b hl hk ha hb, ?_⟩⟩
    subst hEj
    exact mval_hasDerivAt j hPj hwf hel (by rw [hhj]; exact hall) hq hdom (by rw [hhj]; exact hey) hmaps ha hb hx2 hx3 hl hk

/-! ## Examples -/

namespace JEx

/-- `Variable x = 2, z = 3; Expression c = x*z; Expression w = c*x; Expression v = c+z;` (objects 1 to 5) -/
noncomputable def s1 : St ℝ :=
  define 5 (.add (.var 3) (.var 2)) (newExpr (define 4 (.mul (.var 3) (.var 1)) (newExpr
    (define 3 (.mul (.var 1) (.var 2)) (newExpr (newVar 3 (newVar 2 St.init).2).2).2)).2)).2

theorem s1_hist : Hist realPrim s1 (fun _ => False) :=
  .define 5 _ (.newExpr (.define 4 _ (.newExpr (.define 3 _ (.newExpr (.newVar 3 (.newVar 2 .init)))
    (by decide) nofun (by decide) (by decide))) (by decide) nofun (by decide) (by decide)))
    (by decide) nofun (by decide) (by decide)

theorem s1_wd {y : ℕ} (h : y < 6) : WellDefined s1.defs y :=
  (Acyclic.of_ordered (by decide) (by decide)).wellDefined s1_hist.inv.wf.defs.closed h

/-- `X = [x, z]` (0), the identity (1), `B = [w, v]` (2), `F = c*X + B` (3): the Expression `c` is an operand of the
formula and part of both elements of `B`. -/
noncomputable def E1 : MEnv ℝ where
  kind := fun o => match o with
    | 0 => .var
    | 2 => .exp
    | 3 => .form 30 (.bin 31 .add (.un 32 (.smulE 4) (.obj 0)) (.obj 2)) 1
    | _ => .num
  rows := fun o => if o = 1 then 2 else 1
  cols := fun _ => 2
  el := fun o r c => if o = 0 then c else if o = 2 then 2 + c else if r = c then 8 else 9
  vid := fun s => s1.defs.nidx (s + 1)

noncomputable def h1 : ℕ → Ent ℝ := fun s => match s with
  | 0 => .obj 1
  | 1 => .obj 2
  | 2 => .obj 4
  | 3 => .obj 5
  | 4 => .obj 3
  | 8 => .num 1
  | _ => .num 0

noncomputable def j1 : JCtx ℝ := ⟨backend ⟨.eigen, false, .cpu⟩ Sched.seq, Sched.seq, E1, realPrim, h1⟩

def rank1 : ℕ → ℕ | 3 => 1 | _ => 0

def H1 (y : ℕ) : Prop := y = 3 ∨ y = 4 ∨ y = 5

theorem kind1 {o n e eye} (hk : E1.kind o = .form n e eye) :
    o = 3 ∧ n = 30 ∧ e = .bin 31 .add (.un 32 (.smulE 4) (.obj 0)) (.obj 2) ∧ eye = 1 := by
  match o with
  | 0 => simp [E1] at hk
  | 1 => simp [E1] at hk
  | 2 => simp [E1] at hk
  | 3 => simp only [E1, MKind.form.injEq] at hk; exact ⟨rfl, hk.1.symm, hk.2.1.symm, hk.2.2.symm⟩
  | (k + 4) => simp [E1] at hk

theorem kindv {o} (hk : E1.kind o = .var) : o = 0 := by
  match o with
  | 0 => rfl
  | 1 => simp [E1] at hk
  | 2 => simp [E1] at hk
  | 3 => simp [E1] at hk
  | (k + 4) => simp [E1] at hk

theorem kinde {o} (hk : E1.kind o = .exp) : o = 2 := by
  match o with
  | 0 => simp [E1] at hk
  | 1 => simp [E1] at hk
  | 2 => rfl
  | 3 => simp [E1] at hk
  | (k + 4) => simp [E1] at hk

theorem wf1 : E1.WF rank1 := by
  refine ⟨fun o => by simp only [E1]; split <;> omega, fun _ => two_pos, fun o n e eye hk => ?_⟩
  obtain ⟨rfl, rfl, rfl, rfl⟩ := kind1 hk
  refine ⟨rfl, rfl, rfl, ?_, rfl, rfl, ?_⟩
  · simp [DimOk, MNode.dims, MBin.dimOk, MBin.padOk, MBin.odims, MUn.dimOk, E1]
  · intro q hq
    simp only [MEnv.item, MNode.objs, List.mem_append, List.mem_singleton] at hq
    rcases hq with (rfl | rfl) | rfl <;> decide

theorem varEl1 {c : ℕ} (hc : c < 2) : VarEl j1 s1.defs c := by
  rcases (by omega : c = 0 ∨ c = 1) with rfl | rfl
  · exact ⟨1, rfl, ⟨by decide, by decide, rfl⟩, rfl⟩
  · exact ⟨2, rfl, ⟨by decide, by decide, rfl⟩, rfl⟩

theorem elems1 (S : Set ℕ) : ElemsOk j1 s1.defs S H1 := by
  refine ⟨fun o _ hk r c hr hc => ?_, fun o _ hk r c hr hc => ?_, fun o _ hk r c hr hc y => ?_,
    fun o _ n e eye hk s hs => ?_, fun y hy => ?_⟩
  · obtain rfl := kindv hk
    exact varEl1 hc
  · obtain rfl := kinde hk
    rcases (show c = 0 ∨ c = 1 by have : c < 2 := hc; omega) with rfl | rfl
    · exact ⟨4, rfl, Or.inr (Or.inl rfl)⟩
    · exact ⟨5, rfl, Or.inr (Or.inr rfl)⟩
  · have h0 : o ≠ 0 := by rintro rfl; rcases hk with hk | hk <;> cases hk
    have h2 : o ≠ 2 := by rintro rfl; rcases hk with hk | hk <;> cases hk
    have : j1.E.el o r c = if r = c then 8 else 9 := by simp [j1, E1, h0, h2]
    rw [this]
    split <;> simp [j1, h1]
  · obtain ⟨rfl, rfl, rfl, rfl⟩ := kind1 hk
    simp only [MNode.scals, List.append_nil, List.mem_singleton] at hs
    subst hs
    exact ⟨3, rfl, Or.inl rfl⟩
  · rcases hy with rfl | rfl | rfl
    · exact ⟨by decide, by decide, s1_wd (by decide)⟩
    · exact ⟨by decide, by decide, s1_wd (by decide)⟩
    · exact ⟨by decide, by decide, s1_wd (by decide)⟩

theorem s1_items : ∃ a b c d e f, s1.defs.items 3 = [.op1 a (.mulC 1) (.op2 b .mul (.leaf 1) (.leaf 2))] ∧
    s1.defs.items 4 = [.op1 c (.mulC 1) (.op2 d .mul (.leaf 3) (.leaf 1))] ∧
    s1.defs.items 5 = [.op1 e (.mulC 1) (.op2 f .add (.leaf 3) (.leaf 2))] :=
  ⟨_, _, _, _, _, _, rfl, rfl, rfl⟩

theorem s1_reach {y q : ℕ} (hy : H1 y) (h : Reach s1.defs y q) : q = y ∨ q = 1 ∨ q = 2 ∨ q = 3 := by
  obtain ⟨a, b, c, d, e, f, i3, i4, i5⟩ := s1_items
  have h12 : s1.defs.items 1 = [] := rfl
  have h22 : s1.defs.items 2 = [] := rfl
  induction h with
  | refl => simp
  | step _ hm hp ih =>
      rcases ih with rfl | rfl | rfl | rfl
      · rcases hy with rfl | rfl | rfl
        · rw [i3] at hm; simp only [List.mem_singleton] at hm; subst hm; simp [Node.leaves] at hp; omega
        · rw [i4] at hm; simp only [List.mem_singleton] at hm; subst hm; simp [Node.leaves] at hp; omega
        · rw [i5] at hm; simp only [List.mem_singleton] at hm; subst hm; simp [Node.leaves] at hp; omega
      · rw [h12] at hm; simp at hm
      · rw [h22] at hm; simp at hm
      · rw [i3] at hm; simp only [List.mem_singleton] at hm; subst hm; simp [Node.leaves] at hp; omega

theorem orderly1 (V : ℕ → Prop) : Orderly s1.defs V H1 := by
  refine Orderly.of_shallow fun o ho q hq hqo i hi p hp => ?_
  have h12 : s1.defs.items 1 = [] := rfl
  have h22 : s1.defs.items 2 = [] := rfl
  rcases s1_reach ho hq with rfl | rfl | rfl | rfl
  · exact absurd rfl hqo
  · rw [h12] at hi; simp at hi
  · rw [h22] at hi; simp at hi
  · obtain ⟨a, b, c, d, e, f, i3, i4, i5⟩ := s1_items
    rw [i3] at hi; simp only [List.mem_singleton] at hi; subst hi
    simp only [Node.leaves, List.append, List.mem_cons, List.not_mem_nil, or_false] at hp
    simp at hp
    rcases hp with rfl | rfl <;> rfl

theorem dom1 {y : ℕ} (hy : H1 y) : InDomain s1.defs y := by
  intro ρ _ q hq
  obtain ⟨a, b, c, d, e, f, i3, i4, i5⟩ := s1_items
  have h3 : SeqInDom s1.defs.par ρ 3 (s1.defs.items 3) (s1.defs.base 3) := by
    rw [i3]; simp [SeqInDom, Node.InDom, Op1.Dom, Op2.Dom]
  rcases s1_reach hy hq with rfl | rfl | rfl | rfl
  · rcases hy with rfl | rfl | rfl
    · exact h3
    · rw [i4]; simp [SeqInDom, Node.InDom, Op1.Dom, Op2.Dom]
    · rw [i5]; simp [SeqInDom, Node.InDom, Op1.Dom, Op2.Dom]
  · rw [show s1.defs.items 1 = [] from rfl]; trivial
  · rw [show s1.defs.items 2 = [] from rfl]; trivial
  · exact h3

theorem eye1 : ∀ p n e eye, E1.kind p = .form n e eye → ∀ r c, r < E1.rows eye → c < E1.cols eye →
    h1 (E1.el eye r c) = .num (if r = c then 1 else 0) := by
  intro p n e eye hk r c _ _
  obtain ⟨rfl, rfl, rfl, rfl⟩ := kind1 hk
  by_cases h : r = c <;> simp [E1, h, h1]

theorem queryOk1 (D : Defs ℝ) (d : Prop) (o : ℕ) : QueryOk (j1.at (j1.scal D)) rank1 d o := by
  have hg : Cfg.CPU ⟨.eigen, false, .cpu⟩ := rfl
  refine ⟨wf1, backend_sound hg _ (Or.inl rfl), fun p n e eye hk r c hr hc => ?_,
    ⟨fun _ _ _ _ _ _ _ => backend_invSound hg rfl _, ?_⟩⟩
  · have : j1.h (E1.el eye r c) = .num (if r = c then 1 else 0) := eye1 p n e eye hk r c hr hc
    show (j1.scal D).val (E1.el eye r c) = _
    simp only [JCtx.scal, this]
  · intro p _ n e eye hk
    obtain ⟨rfl, rfl, rfl, rfl⟩ := kind1 hk
    exact ⟨trivial, trivial⟩

theorem vars1 : VarsApart E1 := by
  intro o p ho hp l k i j hl hk hi hj h
  obtain rfl := kindv ho
  obtain rfl := kindv hp
  have h1 : l < 1 := hl
  have h2 : i < 1 := hi
  have h3 : k < 2 := hk
  have h4 : j < 2 := hj
  refine ⟨rfl, by omega, ?_⟩
  rcases (by omega : k = 0 ∨ k = 1) with rfl | rfl <;> rcases (by omega : j = 0 ∨ j = 1) with rfl | rfl
  · rfl
  · exact absurd h (show ¬ s1.defs.nidx 1 = s1.defs.nidx 2 by decide)
  · exact absurd h (show ¬ s1.defs.nidx 2 = s1.defs.nidx 1 by decide)
  · rfl

/-- The hypotheses of `C46_real_partial` hold for this program with `x` moving, although `c` is evaluated and
differentiated three times in one query. -/
example : ∃ G : ℝ → ℕ → ℕ → ℝ,
    (∀ t, ∃ z m, matEvalJ j1 2 (.obj 3) (MSt.fresh, assignNum 1 t s1) = some (z, m) ∧
      ∀ l k, l < 1 → k < 2 → m.get? l k = some (G t l k)) ∧
    ∃ z m, matDevalFJ j1 2 0 (.obj 3) (MSt.fresh, s1) = some (z, m) ∧
      ∀ l k, l < 1 → k < 2 → ∃ d, m.get? (l * 1 + 0) (k * 2 + 0) = some d ∧
        HasDerivAt (fun t => G t l k) d (s1.defs.base 1) := by
  obtain ⟨G, h1', h2⟩ := C46_real_partial (E := E1) (rank := rank1) MHist.fresh ⟨.eigen, false, .cpu⟩ rfl rfl Sched.seq
    h1 j1 rfl s1_hist (o := 3) (X := 0) (f := 2) (H := H1) (elems1 _) (fun a y hy => by
      match a with
      | 0 => cases hy; exact Or.inl ⟨by decide, by decide, rfl⟩
      | 1 => cases hy; exact Or.inl ⟨by decide, by decide, rfl⟩
      | 2 => cases hy; exact Or.inr (Or.inr (Or.inl rfl))
      | 3 => cases hy; exact Or.inr (Or.inr (Or.inr rfl))
      | 4 => cases hy; exact Or.inr (Or.inl rfl)
      | 5 => cases hy
      | 6 => cases hy
      | 7 => cases hy
      | 8 => cases hy
      | (n + 9) => cases hy)
    (orderly1 _) (fun r c _ hc => varEl1 hc) (queryOk1 _ _ _) (PadsOk.of_empty rfl rfl) vars1.ok rfl (by decide)
    (Or.inr fun _ _ h => h) (fun y hy => dom1 hy) eye1 (fun p n e eye _ hk => by
      obtain ⟨rfl, rfl, rfl, rfl⟩ := kind1 hk
      exact ⟨trivial, trivial⟩) (a := 0) (b := 0) (x := 1) (by decide) (by decide) rfl
  exact ⟨G, fun t => h1' t (queryOk1 _ _ _), h2⟩

/-- `Variable x = 2; Expression c = x*x; Expression e = c+x; Expression w = e*x; Expression k = c*x;`
(objects 1 to 5) -/
def s0 : St ℚ :=
  define 5 (.mul (.var 2) (.var 1)) (newExpr (define 4 (.mul (.var 3) (.var 1)) (newExpr
    (define 3 (.add (.var 2) (.var 1)) (newExpr
      (define 2 (.mul (.var 1) (.var 1)) (newExpr (newVar 2 St.init).2).2)).2)).2)).2

/-- 1×1 matrices: `X` (0) with element `x`, the identity (1), `B` (2) with element `w`, `F = (k*X)*B` (3). -/
def E0 : MEnv ℚ where
  kind := fun o => match o with
    | 0 => .var
    | 2 => .exp
    | 3 => .form 30 (.bin 31 .mul (.un 32 (.smulE 4) (.obj 0)) (.obj 2)) 1
    | _ => .num
  rows := fun _ => 1
  cols := fun _ => 1
  el := fun o _ _ => o
  vid := fun s => if s = 0 then s0.defs.nidx 1 else 0

def j0 : JCtx ℚ where
  B := naiveB Sched.seq
  π := Sched.seq
  E := E0
  P := Ex.P0
  h := fun s => match s with
    | 0 => .obj 1
    | 2 => .obj 4
    | 4 => .obj 5
    | _ => .num 1

theorem s0_hist : Hist Ex.P0 s0 (fun _ => False) :=
  .define 5 _ (.newExpr (.define 4 _ (.newExpr (.define 3 _ (.newExpr (.define 2 _ (.newExpr (.newVar 2 .init))
    (by decide) nofun (by decide) (by decide))) (by decide) nofun (by decide) (by decide))) (by decide) nofun
    (by decide) (by decide))) (by decide) nofun (by decide) (by decide)

end JEx

/-- **A single query on a new program may answer wrong** (outside `Orderly`): with `x = 2`, `c = x*x`, `e = c+x`,
`w = e*x`, `k = c*x`, the first `DevalF(F, X)` of `F = (k*X)*[w]`, that is `x⁷+x⁶`, answers 512; the same query
again answers 640, which is right.  Nothing was assigned or queried before.  (The product reads the derivative of
`k`, then evaluates `k`, which empties the cache of `c`; the derivative of `w`, through the new `e`, relies on it.) -/
theorem C46_single_query_counterexample :
    (matDevalFJ JEx.j0 3 0 (.obj 3) (MSt.fresh, JEx.s0)).map (fun p => p.2.data) = some [512] ∧
    (do let (z, _) ← matDevalFJ JEx.j0 3 0 (.obj 3) (MSt.fresh, JEx.s0)
        let (_, m) ← matDevalFJ JEx.j0 3 0 (.obj 3) z
        some m.data) = some [640] := by
  constructor <;> decide +kernel

end CoolDiff
