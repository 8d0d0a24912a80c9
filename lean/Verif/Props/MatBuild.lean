import Verif.Matrix.BuildProof
import Verif.Props.MatrixExpr
import Verif.Props.MatReverse
import Verif.Apps.NNProof

/-!
# C53: programs that build matrices through the API

The theorems on matrix queries (C29, C30, C38, C46) assume a well-formed environment.  Here: every program that makes
matrices with the constructors and defines `Matrix<Expression>` objects by expressions has one, and its queries return
the values and the derivatives of the expressions the user wrote.
-/

set_option linter.unusedSectionVars false

namespace CoolDiff

variable {K : Type} [Field K] [DecidableEq K]

/-! ## Specification -/

/-- `V` are the values of the matrices of a program: a matrix without a definition holds the values of its elements, a
defined matrix satisfies its definition. -/
structure Values (b : MBld K) (d : ℕ → Option (MTerm K)) (sv : ℕ → K) (V : ℕ → ℕ → ℕ → K) : Prop where
  elem : ∀ o, d o = none → ∀ i j, i < b.E.rows o → j < b.E.cols o → V o i j = sv (b.E.el o i j)
  defn : ∀ o t, d o = some t → ∀ i j, i < b.E.rows o → j < b.E.cols o → V o i j = den b.E sv V t.node i j

/-- The scalar values agree with the numbers stored in `Matrix<Type>` objects. -/
def MBld.Holds (b : MBld K) (sv : ℕ → K) : Prop := ∀ h v, b.cv h = some v → sv h = v

/-! ## Congruence -/

theorem invertible_congr {dI : Prop} {E : MEnv K} {sv : ℕ → K} {V W : ℕ → ℕ → ℕ → K} : ∀ e : MNode K, DimOk E e →
    (∀ q ∈ e.objs, ∀ i j, i < E.rows q → j < E.cols q → V q i j = W q i j) →
    (Invertible dI E sv V e ↔ Invertible dI E sv W e)
  | .obj _, _, _ => Iff.rfl
  | .bin _ op a b, hd, h => by
      simp only [Invertible]
      rw [invertible_congr a hd.1 fun q hq => h q (by simp [MNode.objs, hq]),
        invertible_congr b hd.2.1 fun q hq => h q (by simp [MNode.objs, hq])]
  | .un _ op a, hd, h => by
      have ha : ∀ q ∈ a.objs, ∀ i j, i < E.rows q → j < E.cols q → V q i j = W q i j :=
        fun q hq => h q (by simpa [MNode.objs] using hq)
      have ih := invertible_congr (dI := dI) (sv := sv) a hd.1 ha
      have hden := den_congr E sv a hd.1 ha
      cases op with
      | inv =>
          have hsq : (a.dims E).1 = (a.dims E).2 := by simpa [MUn.dimOk] using hd.2
          simp only [Invertible, ih]
          rw [(invEl_congr fun i j hi hj => hden i j hi (by omega)).2]
      | det =>
          have hsq : (a.dims E).1 = (a.dims E).2 := by simpa [MUn.dimOk] using hd.2
          simp only [Invertible, ih]
          rw [(invEl_congr fun i j hi hj => hden i j hi (by omega)).2]
      | _ => simp only [Invertible, ih]

theorem mapsOk_congr {E : MEnv ℝ} {sv : ℕ → ℝ} {V W : ℕ → ℕ → ℕ → ℝ} : ∀ e : MNode ℝ, DimOk E e →
    (∀ q ∈ e.objs, ∀ i j, i < E.rows q → j < E.cols q → V q i j = W q i j) →
    MapsOk E sv V e → MapsOk E sv W e
  | .obj _, _, _, _ => trivial
  | .bin _ op a b, hd, h, hm =>
      ⟨mapsOk_congr a hd.1 (fun q hq => h q (by simp [MNode.objs, hq])) hm.1,
        mapsOk_congr b hd.2.1 (fun q hq => h q (by simp [MNode.objs, hq])) hm.2⟩
  | .un _ op a, hd, h, hm => by
      have ha : ∀ q ∈ a.objs, ∀ i j, i < E.rows q → j < E.cols q → V q i j = W q i j :=
        fun q hq => h q (by simpa [MNode.objs] using hq)
      have hden := den_congr E sv a hd.1 ha
      cases op with
      | map f df =>
          refine ⟨mapsOk_congr a hd.1 ha hm.1, fun l k hl hk => ?_⟩
          rw [← hden l k hl hk]
          exact hm.2 l k hl hk
      | _ => exact mapsOk_congr a hd.1 ha hm

theorem mapsOk_strip (E : MEnv ℝ) (sv : ℕ → ℝ) (V : ℕ → ℕ → ℕ → ℝ) (e : MNode ℝ) :
    MapsOk E sv V e.strip ↔ MapsOk E sv V e := by
  induction e with
  | obj o => rfl
  | bin n op a b iha ihb => simp only [MNode.strip, MapsOk, iha, ihb]
  | un n op a ih => cases op <;> simp only [MNode.strip, MapsOk, ih, den_strip, dims_strip]

/-! ## Values of a program -/

theorem Built.eyesOk {b : MBld K} {d : ℕ → Option (MTerm K)} (h : Built b d) {sv : ℕ → K} (hs : b.Holds sv) :
    EyesOk b.E sv := by
  intro o n e eye hk i j hi hj
  obtain ⟨k, hk'⟩ := h.inv.eye o n e eye hk
  obtain ⟨_, _, h3, h4, h5⟩ := h.inv.eyes k eye hk'
  exact hs _ _ (h5 i j (h3 ▸ hi) (h4 ▸ hj)).2

theorem Built.none_iff {b : MBld K} {d : ℕ → Option (MTerm K)} (h : Built b d) (o : ℕ) : d o = none ↔ ¬b.E.isForm o := by
  constructor
  · rintro hd ⟨n, e, eye, hk⟩
    obtain ⟨t, ht, _⟩ := h.inv.form o n e eye hk
    rw [hd] at ht; cases ht
  · intro hf
    cases hd : d o with
    | none => rfl
    | some t =>
        obtain ⟨n, e, eye, hk, _⟩ := h.inv.defs o t hd
        exact absurd ⟨n, e, eye, hk⟩ hf

/-- The values are determined by the specification. -/
theorem Built.values_eq {b : MBld K} {d : ℕ → Option (MTerm K)} (h : Built b d) {sv : ℕ → K} (hs : b.Holds sv)
    {V : ℕ → ℕ → ℕ → K} (hV : Values b d sv V) {rank : ℕ → ℕ} (hwf : b.E.WF rank) :
    ∀ r o, rank o < r → ∀ i j, i < b.E.rows o → j < b.E.cols o → V o i j = valOf b.E sv rank o i j := by
  have hsol := valOf_solves b.E sv hwf (h.eyesOk hs) Set.univ
  intro r
  induction r with
  | zero => intro o ho; omega
  | succ r ih =>
      intro o ho i j hi hj
      cases hd : d o with
      | none => rw [hV.elem o hd i j hi hj, hsol.leaf o trivial ((h.none_iff o).1 hd) i j hi hj]
      | some t =>
          obtain ⟨n, e, eye, hk, hst⟩ := h.inv.defs o t hd
          obtain ⟨_, _, _, w4, w5, w6, w7⟩ := hwf.form o n e eye hk
          rw [hV.defn o t hd i j hi hj, (hsol.form o trivial n e eye hk).1 i j hi hj, ← hst, den_strip]
          refine den_congr b.E sv e w4 (fun q hq i j hi hj => ih q ?_ i j hi hj) i j (w5 ▸ hi) (w6 ▸ hj)
          have := w7 q (by simp [MEnv.item, MNode.objs, hq])
          omega

theorem Built.values_exist {b : MBld K} {d : ℕ → Option (MTerm K)} (h : Built b d) {sv : ℕ → K} (hs : b.Holds sv)
    {rank : ℕ → ℕ} (hwf : b.E.WF rank) : Values b d sv (valOf b.E sv rank) := by
  have hsol := valOf_solves b.E sv hwf (h.eyesOk hs) Set.univ
  refine ⟨fun o hd i j hi hj => hsol.leaf o trivial ((h.none_iff o).1 hd) i j hi hj, fun o t hd i j hi hj => ?_⟩
  obtain ⟨n, e, eye, hk, hst⟩ := h.inv.defs o t hd
  rw [(hsol.form o trivial n e eye hk).1 i j hi hj, ← hst, den_strip]

/-! ## Theorems -/

/-- **C53 (well-formed).**  Every program that builds matrices is well-formed: dimensions of all stored formulas fit and
there is no circular formula (`WF`), every operator object has its own number, different `Matrix<Variable>` objects
share no Variable, and the registered identity matrices hold the identity. -/
theorem C53_wellformed {b : MBld K} {d : ℕ → Option (MTerm K)} (h : Built b d) :
    (∃ rank, b.E.WF rank) ∧ UniqueNodes b.E Set.univ ∧ VarsApart b.E ∧ ∀ sv, b.Holds sv → EyesOk b.E sv :=
  ⟨h.inv.wf, h.inv.uniq, h.inv.vars, fun _ hs => h.eyesOk hs⟩

/-- **C53 (stored formulas).**  A matrix is stored with a formula exactly if the program defines it, and the formula is
the expression of the last definition (up to the numbers of its operators). -/
theorem C53_stored {b : MBld K} {d : ℕ → Option (MTerm K)} (h : Built b d) (o : ℕ) :
    (∀ t, d o = some t → ∃ n e eye, b.E.kind o = .form n e eye ∧ e.strip = t.node) ∧ (d o = none → ¬b.E.isForm o) :=
  ⟨fun t ht => h.inv.defs o t ht, fun hd => (h.none_iff o).1 hd⟩

/-- **C53 (progress).**  Defining a new `Matrix<Expression>` succeeds whenever the matrices exist and the operands
fit. -/
theorem C53_define_succeeds {b : MBld K} {d : ℕ → Option (MTerm K)} (h : Built b d) (t : MTerm K)
    (hobj : ∀ q ∈ t.objs, q < b.nobj) (hfit : t.Fits b.E) (hc : ¬t.IsCopy b.E) :
    ∃ o b', b.defNew t = some (o, b') ∧ Built b' (Function.update d o (some t)) ∧
      b'.E.rows o = (t.node.dims b'.E).1 ∧ b'.E.cols o = (t.node.dims b'.E).2 := by
  obtain ⟨b', h1, h2⟩ := h.inv.defNew hobj hfit
  refine ⟨_, b', h1, .define t h hobj hfit hc h1, ?_⟩
  obtain ⟨n, e, eye, h3, h4⟩ := h2.defs b.nobj t (Function.update_self _ _ _)
  obtain ⟨rank, hwf⟩ := h2.wf
  obtain ⟨_, _, _, _, w5, w6, _⟩ := hwf.form _ _ _ _ h3
  rw [← h4, dims_strip]
  exact ⟨w5, w6⟩

/-- Conditions on the operands of `inv` and `det` in the definitions below `o`. -/
def InvOk (b : MBld K) (d : ℕ → Option (MTerm K)) (B : Backend K) (sv : ℕ → K) (V : ℕ → ℕ → ℕ → K) (detInv : Prop)
    (o : ℕ) : Prop :=
  ∀ p t, Depends d o p → d p = some t → (UsesInv t.node → B.InvSound) ∧ Invertible detInv b.E sv V t.node

theorem Built.query {b : MBld K} {d : ℕ → Option (MTerm K)} (h : Built b d) {c : MCtx K} (hc : c.E = b.E)
    (hs : b.Holds c.sc.val) {V : ℕ → ℕ → ℕ → K} (hV : Values b d c.sc.val V) {rank : ℕ → ℕ} (hwf : b.E.WF rank)
    (hB : c.B.Sound b.E.P) {dI : Prop} {o : ℕ} (hI : InvOk b d c.B c.sc.val V dI o) : QueryOk c rank dI o := by
  have key : ∀ p n e eye, MReach b.E o p → b.E.kind p = .form n e eye → ∃ t, Depends d o p ∧ d p = some t ∧
      e.strip = t.node := by
    intro p n e eye hr hk
    obtain ⟨t, ht, hst⟩ := h.inv.form p n e eye hk
    rcases h.inv.reach hr with hr | ⟨k, hk'⟩
    · exact ⟨t, hr, ht, hst⟩
    · have := (h.inv.eyes k p hk').2.1
      rw [this] at hk; cases hk
  refine ⟨hc ▸ hwf, hc ▸ hB, hc ▸ h.eyesOk hs, ⟨fun p hp n e eye hk hu => ?_, fun p hp n e eye hk => ?_⟩⟩
  · obtain ⟨t, h1, h2, h3⟩ := key p n e eye (hc ▸ hp) (hc ▸ hk)
    exact (hI p t h1 h2).1 (by rw [← h3, usesInv_strip]; exact hu)
  · obtain ⟨t, h1, h2, h3⟩ := key p n e eye (hc ▸ hp) (hc ▸ hk)
    have hk' : b.E.kind p = .form n e eye := hc ▸ hk
    obtain ⟨_, _, _, w4, w5, w6, w7⟩ := hwf.form p n e eye hk'
    have hi := (hI p t h1 h2).2
    rw [← h3, invertible_strip] at hi
    rw [hc, MVal, hc]
    exact (invertible_congr e w4 fun q _ i j hi hj => h.values_eq hs hV hwf _ q (Nat.lt_succ_self _) i j hi hj).1 hi

/-- **C53 (`Eval`).**  In every program that builds matrices, after any sequence of queries: `TensorR2::Eval(o)` returns
the value of the expression that defines `o` (`V` is any assignment of values that satisfies all definitions). -/
theorem C53_eval_partial {b : MBld K} {d : ℕ → Option (MTerm K)} (h : Built b d) {rank : ℕ → ℕ} (hwf : b.E.WF rank)
    {s : MSt K} {U : ℕ → Prop} (hm : MHist b.E rank s U) (c : MCtx K) (hc : c.E = b.E) (hB : c.B.Sound b.E.P)
    (hs : b.Holds c.sc.val) {V : ℕ → ℕ → ℕ → K} (hV : Values b d c.sc.val V) {o f : ℕ} (hf : rank o < f)
    (hI : InvOk b d c.B c.sc.val V False o) (ho : U o ∨ ∀ p, MReach b.E o p → ¬U p) :
    ∃ s' m, matEval c f (.obj o) s = some (s', m) ∧ m.rows = b.E.rows o ∧ m.cols = b.E.cols o ∧
      (∀ i j, i < b.E.rows o → j < b.E.cols o → m.get? i j = some (V o i j)) ∧
      MHist b.E rank s' (fun p => U p ∨ MReach b.E o p) := by
  obtain ⟨s', m, h1, h2, h3, h4, h5⟩ := C38_eval_current_partial hm c hc (h.query hc hs hV hwf hB hI) hf ho
  refine ⟨s', m, h1, h2, h3, fun i j hi hj => ?_, h5⟩
  rw [h4 i j hi hj, MVal, hc, h.values_eq hs hV hwf _ o (Nat.lt_succ_self _) i j hi hj]

/-- **C53 (`Eval` at the start).**  With fresh memory and enough depth. -/
theorem C53_eval_fresh {b : MBld K} {d : ℕ → Option (MTerm K)} (h : Built b d) (c : MCtx K) (hc : c.E = b.E)
    (hB : c.B.Sound b.E.P) (hs : b.Holds c.sc.val) {V : ℕ → ℕ → ℕ → K} (hV : Values b d c.sc.val V) (o : ℕ)
    (hI : InvOk b d c.B c.sc.val V False o) :
    ∃ F, ∀ f, F ≤ f → ∃ s' m, matEval c f (.obj o) MSt.fresh = some (s', m) ∧ m.rows = b.E.rows o ∧
      m.cols = b.E.cols o ∧ ∀ i j, i < b.E.rows o → j < b.E.cols o → m.get? i j = some (V o i j) := by
  obtain ⟨rank, hwf⟩ := h.inv.wf
  refine ⟨rank o + 1, fun f hf => ?_⟩
  obtain ⟨s', m, h1, h2, h3, h4, _⟩ := C53_eval_partial h hwf .fresh c hc hB hs hV (Nat.lt_of_succ_le hf) hI
    (Or.inr fun _ _ hh => hh)
  exact ⟨s', m, h1, h2, h3, h4⟩

/-- How the scalars of a program depend on the element `(i,j)` of the `Matrix<Variable>` `X`: `sv u` are their values
when `X(i,j)` is `u` (or any other parameter), `der` the derivatives that the scalar layer reports. -/
structure ScalarDer (b : MBld ℝ) (X i j : ℕ) (sv : ℝ → ℕ → ℝ) (der : ℕ → ℕ → ℝ) (t : ℝ) : Prop where
  holds : ∀ u, b.Holds (sv u)
  deriv : ∀ a, HasDerivAt (fun u => sv u a) (der a (b.E.el X i j)) t
  num : ∀ o < b.nobj, b.E.kind o = .num ∨ b.E.kind o = .par → ∀ l k, l < b.E.rows o → k < b.E.cols o →
    der (b.E.el o l k) (b.E.el X i j) = 0
  var : ∀ o < b.nobj, b.E.kind o = .var → ∀ l k, l < b.E.rows o → k < b.E.cols o →
    der (b.E.el o l k) (b.E.el X i j) = if b.E.el o l k = b.E.el X i j then 1 else 0

theorem Built.maps {b : MBld ℝ} {d : ℕ → Option (MTerm ℝ)} (h : Built b d) {sv : ℕ → ℝ} (hs : b.Holds sv)
    {V : ℕ → ℕ → ℕ → ℝ} (hV : Values b d sv V) {rank : ℕ → ℕ} (hwf : b.E.WF rank) {o : ℕ}
    (hM : ∀ p t, Depends d o p → d p = some t → MapsOk b.E sv V t.node) :
    ∀ p n e eye, MReach b.E o p → b.E.kind p = .form n e eye → MapsOk b.E sv (valOf b.E sv rank) e := by
  intro p n e eye hr hk
  obtain ⟨t, ht, hst⟩ := h.inv.form p n e eye hk
  have hd : Depends d o p := by
    rcases h.inv.reach hr with hr | ⟨k, hk'⟩
    · exact hr
    · have := (h.inv.eyes k p hk').2.1
      rw [this] at hk; cases hk
  obtain ⟨_, _, _, w4, _⟩ := hwf.form p n e eye hk
  have hm := hM p t hd ht
  rw [← hst, mapsOk_strip] at hm
  exact mapsOk_congr e w4 (fun q _ i j hi hj => h.values_eq hs hV hwf _ q (Nat.lt_succ_self _) i j hi hj) hm

/-- **C53 (`DevalF`).**  In every program that builds matrices without convolutions, over the reals and with the Eigen
handler, after any sequence of queries: entry `(l*rX+i, k*cX+j)` of `TensorR2::DevalF(o, X)` is the derivative of
element `(l,k)` of the matrix `o` — as the definitions say — with respect to `X(i,j)`. -/
theorem C53_devalF_partial {b : MBld ℝ} {d : ℕ → Option (MTerm ℝ)} (h : Built b d) {rank : ℕ → ℕ} (hwf : b.E.WF rank)
    {s : MSt ℝ} {U : ℕ → Prop} (hm : MHist b.E rank s U) (g : Cfg) (hg : g.CPU) (he : g.cpu = .eigen) (π : Sched)
    (hpads : b.E.pads = ∅)
    (sv : ℝ → ℕ → ℝ) (der : ℕ → ℕ → ℝ) (x : ℝ) {X i j : ℕ} (hX : b.E.kind X = .var) (hi : i < b.E.rows X)
    (hj : j < b.E.cols X) (hs : ScalarDer b X i j sv der x)
    {V : ℝ → ℕ → ℕ → ℕ → ℝ} (hV : ∀ u, Values b d (sv u) (V u)) {o f : ℕ} (hon : o < b.nobj) (hf : rank o < f)
    (hI : InvOk b d (backend g π) (sv x) (V x) True o)
    (hM : ∀ p t, Depends d o p → d p = some t → MapsOk b.E (sv x) (V x) t.node)
    (ho : U o ∨ ∀ p, MReach b.E o p → ¬U p) :
    ∃ s' m, matDevalF ⟨backend g π, π, b.E, ⟨sv x, der⟩⟩ f X (.obj o) s = some (s', m) ∧
      m.rows = b.E.rows o * b.E.rows X ∧ m.cols = b.E.cols o * b.E.cols X ∧
      ∀ l k, l < b.E.rows o → k < b.E.cols o →
        ∃ D, m.get? (l * b.E.rows X + i) (k * b.E.cols X + j) = some D ∧ HasDerivAt (fun u => V u o l k) D x := by
  have hvid : ∀ a, b.E.vid a = a := fun a => by rw [h.inv.vid]; rfl
  have hlt : ∀ {p}, MReach b.E o p → p < b.nobj := by
    intro p hp
    cases hp with
    | refl => exact hon
    | step _ hk hq => exact h.inv.objlt _ _ _ _ hk _ hq
  have hq := h.query (c := ⟨backend g π, π, b.E, ⟨sv x, der⟩⟩) rfl (hs.holds x) (hV x) hwf
    (backend_sound hg π (Or.inl he)) hI
  obtain ⟨s', m, h1, h2, h3, h4, _⟩ := C38_devalF_current_partial hm ⟨backend g π, π, b.E, ⟨sv x, der⟩⟩ rfl hq
    (backend_kronSound hg he π) (PadsOk.of_empty hpads h.dpads) h.inv.vars.ok hX hf ho
  refine ⟨s', m, h1, h2, h3, fun l k hl hk => ⟨_, h4 l k i j hl hk hi hj, ?_⟩⟩
  have : (fun u => V u o l k) = fun u => valOf b.E (sv u) rank o l k := by
    funext u
    exact h.values_eq (hs.holds u) (hV u) hwf _ o (Nat.lt_succ_self _) l k hl hk
  rw [this]
  exact V_hasDerivAt hwf (MReach.closed b.E o)
    (sd := MCtx.sd ⟨backend g π, π, b.E, ⟨sv x, der⟩⟩ X) (V := fun u => valOf b.E (sv u) rank)
    hi hj (fun a => by show HasDerivAt _ (der a (b.E.vid _)) _; rw [hvid]; exact hs.deriv a)
    (fun p hp hk l k hl hk' => by show der _ (b.E.vid _) = 0; rw [hvid]; exact hs.num p (hlt hp) hk l k hl hk')
    (fun p hp hk l k hl hk' => by
      show der _ (b.E.vid _) = if b.E.vid _ = b.E.vid _ then 1 else 0
      simp only [hvid]; exact hs.var p (hlt hp) hk l k hl hk')
    (fun u => valOf_solves b.E (sv u) hwf (h.eyesOk (hs.holds u)) _)
    (derOf_solves b.E (sv x) _ _ X hwf _) (fun p hp n e eye hk => hq.forms.invertible p hp n e eye hk)
    (fun p hp n e eye hk => h.maps (hs.holds x) (hV x) hwf hM p n e eye hp hk) (rank o + 1) o MReach.refl (by omega) l k
    hl hk

theorem noConv_of_pads {E : MEnv K} (hp : E.pads = ∅) : ∀ {e : MNode K}, DimOk E e → NoConv e
  | .obj _, _ => trivial
  | .bin _ op a b, h => by
      obtain ⟨h1, h2, _, h4⟩ := h
      cases op with
      | conv sx sy px py =>
          simp only [MBin.padOk, hp] at h4
          exact h4.elim
      | _ => exact ⟨noConv_of_pads hp h1, noConv_of_pads hp h2⟩
  | .un _ _ a, h => noConv_of_pads hp (e := a) h.1

theorem coeffConst_strip (sd : ℕ → ℕ → ℕ → K) (r c : ℕ) (e : MNode K) :
    CoeffConst sd r c e.strip ↔ CoeffConst sd r c e := by
  induction e with
  | obj o => rfl
  | bin n op a b iha ihb => simp only [MNode.strip, CoeffConst, iha, ihb]
  | un n op a ih => simp only [MNode.strip, CoeffConst, ih]

/-- **C53 (`PreComp` and `DevalR`).**  In every program that builds matrices without convolutions, over the reals and
with the Eigen handler: if `o` and all defined matrices below it are 1×1, and neither elements of `Matrix<Expression>`
objects nor scalar coefficients depend on `X`, then after `PreComp(o)` element `(i,j)` of `DevalR(o, X)` is the
derivative of `o` — as the definitions say — with respect to `X(i,j)`, for every `X` that `o` depends on. -/
theorem C53_devalR_partial {b : MBld ℝ} {d : ℕ → Option (MTerm ℝ)} (h : Built b d) {rank : ℕ → ℕ} (hwf : b.E.WF rank)
    {s : MSt ℝ} {U : ℕ → Prop} (hm : MHist b.E rank s U) (g : Cfg) (hg : g.CPU) (he : g.cpu = .eigen) (π : Sched)
    (hpads : b.E.pads = ∅)
    (sv : ℝ → ℕ → ℝ) (der : ℕ → ℕ → ℝ) (x : ℝ) {X i j : ℕ} (hX : b.E.kind X = .var) (hi : i < b.E.rows X)
    (hj : j < b.E.cols X) (hs : ScalarDer b X i j sv der x)
    {V : ℝ → ℕ → ℕ → ℕ → ℝ} (hV : ∀ u, Values b d (sv u) (V u)) {o f : ℕ} (hon : o < b.nobj) (hf : rank o < f)
    (hI : InvOk b d (backend g π) (sv x) (V x) True o)
    (hM : ∀ p t, Depends d o p → d p = some t → MapsOk b.E (sv x) (V x) t.node)
    (hd : d o ≠ none) (hone : ∀ p, Depends d o p → d p ≠ none → b.E.rows p = 1 ∧ b.E.cols p = 1)
    (hexp : ∀ q, Depends d o q → b.E.kind q = .exp → ∀ l k i j, l < b.E.rows q → k < b.E.cols q →
      i < b.E.rows X → j < b.E.cols X → der (b.E.el q l k) (b.E.el X i j) = 0)
    (hcoef : ∀ p t, Depends d o p → d p = some t →
      CoeffConst (fun a i j => der a (b.E.el X i j)) (b.E.rows X) (b.E.cols X) t.node)
    (hoX : Depends d o X) (ho : NoGaps b.E U o) :
    ∃ s' m D, matPreComp ⟨backend g π, π, b.E, ⟨sv x, der⟩⟩ f o s = some s' ∧
      matDevalR b.E o X s' = some m ∧ m.rows = b.E.rows X ∧ m.cols = b.E.cols X ∧
      m.get? i j = some D ∧ HasDerivAt (fun u => V u o 0 0) D x := by
  have hvid : ∀ a, b.E.vid a = a := fun a => by rw [h.inv.vid]; rfl
  have hdep : ∀ {p}, MReach b.E o p → b.E.kind p ≠ .num → Depends d o p := by
    intro p hr hk
    rcases h.inv.reach hr with hr | ⟨k, hk'⟩
    · exact hr
    · exact absurd (h.inv.eyes k p hk').2.1 hk
  have hdep' : ∀ {p n e eye}, MReach b.E o p → b.E.kind p = .form n e eye → Depends d o p :=
    fun hr hk => hdep hr (by rw [hk]; exact fun hh => by cases hh)
  have hreach : ∀ {q}, Depends d o q → MReach b.E o q := by
    intro q hq
    induction hq with
    | refl => exact .refl
    | step _ h1 h2 ih =>
        obtain ⟨n, e, eye, h3, h4⟩ := h.inv.defs _ _ h1
        refine .step ih h3 ?_
        simp only [MEnv.item, MNode.objs, List.mem_append]
        exact Or.inl (by rw [← objs_strip, h4, objs_node]; exact h2)
  have hform : ∀ {p}, b.E.isForm p → d p ≠ none := fun hf hh => (h.none_iff _).1 hh hf
  have hroot : b.E.isForm o := by
    by_contra hh
    exact hd ((h.none_iff o).2 hh)
  have hlt : ∀ {p}, MReach b.E o p → p < b.nobj := by
    intro p hp
    cases hp with
    | refl => exact hon
    | step _ hk hq => exact h.inv.objlt _ _ _ _ hk _ hq
  have hq : RevQueryOk ⟨backend g π, π, b.E, ⟨sv x, der⟩⟩ rank o X :=
    ⟨h.query (c := ⟨backend g π, π, b.E, ⟨sv x, der⟩⟩) rfl (hs.holds x) (hV x) hwf
        (backend_sound hg π (Or.inl he)) hI,
      hroot,
      fun q hq hfq => hone q (by obtain ⟨_, _, _, hk⟩ := hfq; exact hdep' hq hk) (hform hfq),
      h.inv.vars, hX,
      ⟨fun q _ => h.inv.uniq.nodup q trivial, fun q _ p _ => h.inv.uniq.disj q trivial p trivial⟩,
      fun q hq hk l k i j hl hk' hi hj => by
        show der _ (b.E.vid _) = 0
        rw [hvid]
        exact hexp q (hdep hq (by rw [show b.E.kind q = .exp from hk]; exact fun hh => by cases hh)) hk l k i j hl hk' hi hj,
      fun q n e eye hq hk => by
        obtain ⟨t, ht, hst⟩ := h.inv.form q n e eye hk
        have := hcoef q t (hdep' hq hk) ht
        rw [← hst, coeffConst_strip] at this
        have e1 : MCtx.sd ⟨backend g π, π, b.E, ⟨sv x, der⟩⟩ X = fun a i j => der a (b.E.el X i j) := by
          funext a i j
          show der a (b.E.vid _) = _
          rw [hvid]
        rw [e1]
        exact this,
      fun q n e eye hq hk => (noConv_of_pads hpads (hwf.form q n e eye hk).2.2.2.1).rev⟩
  obtain ⟨s', m, h1, h2, h3, h4, h5⟩ := C30_reverse_value_partial hm ⟨backend g π, π, b.E, ⟨sv x, der⟩⟩ rfl hq hf ho
    (hreach hoX)
  refine ⟨s', m, _, h1, h2, h3, h4, h5 i j hi hj, ?_⟩
  obtain ⟨r1, r2⟩ := hone o .refl hd
  have : (fun u => V u o 0 0) = fun u => valOf b.E (sv u) rank o 0 0 := by
    funext u
    exact h.values_eq (hs.holds u) (hV u) hwf _ o (Nat.lt_succ_self _) 0 0 (by omega) (by omega)
  rw [this]
  exact V_hasDerivAt hwf (MReach.closed b.E o)
    (sd := MCtx.sd ⟨backend g π, π, b.E, ⟨sv x, der⟩⟩ X) (V := fun u => valOf b.E (sv u) rank)
    hi hj (fun a => by show HasDerivAt _ (der a (b.E.vid _)) _; rw [hvid]; exact hs.deriv a)
    (fun p hp hk l k hl hk' => by show der _ (b.E.vid _) = 0; rw [hvid]; exact hs.num p (hlt hp) hk l k hl hk')
    (fun p hp hk l k hl hk' => by
      show der _ (b.E.vid _) = if b.E.vid _ = b.E.vid _ then 1 else 0
      simp only [hvid]; exact hs.var p (hlt hp) hk l k hl hk')
    (fun u => valOf_solves b.E (sv u) hwf (h.eyesOk (hs.holds u)) _)
    (derOf_solves b.E (sv x) _ _ X hwf _) (fun p hp n e eye hk => hq.query.forms.invertible p hp n e eye hk)
    (fun p hp n e eye hk => h.maps (hs.holds x) (hV x) hwf hM p n e eye hp hk) (rank o + 1) o MReach.refl (by omega) 0 0
    (by omega) (by omega)

/-! ## A concrete program -/

namespace BldEx

variable {K : Type} [Field K] [DecidableEq K]

/-- `Matrix<Variable> X(2,2);` -/
def b1 : MBld K := ((MBld.init.newMat .var 2 2).get rfl).2
/-- `Matrix<Type> A(1,2);` with elements 1, 2. -/
def b2 : MBld K := ((b1.newMat (.num fun _ j => (j : K) + 1) 1 2).get rfl).2
/-- `A*X*transpose(A)` -/
def tY : MTerm K := .bin .mul (.bin .mul (.mat 1) (.mat 0)) (.un .tr (.mat 1))
/-- `Matrix<Expression> Y = A*X*transpose(A);` (object 2; its identity matrix is object 3) -/
def b3 : MBld K := ((b2.defNew tY).get rfl).2
/-- `Y*Y + 3*Y` -/
def tZ : MTerm K := .bin .add (.bin .mul (.mat 2) (.mat 2)) (.un (.smul 3) (.mat 2))
/-- `Matrix<Expression> Z = Y*Y + 3*Y;` (object 4) -/
def b4 : MBld K := ((b3.defNew tZ).get rfl).2
/-- `A*transpose(A)` -/
def tY' : MTerm K := .bin .mul (.mat 1) (.un .tr (.mat 1))
/-- `Y = A*transpose(A);` -/
def b5 : MBld K := ((b4.redef 2 tY').get rfl)

def d3 : ℕ → Option (MTerm K) := Function.update (fun _ => none) 2 (some tY)
def d4 : ℕ → Option (MTerm K) := Function.update d3 4 (some tZ)
def d5 : ℕ → Option (MTerm K) := Function.update d4 2 (some tY')

theorem built2 : Built (b2 : MBld K) fun _ => none :=
  .new (o := 1) (.num fun _ j => (j : K) + 1) 1 2 (.new (o := 0) .var 2 2 .init rfl) rfl

theorem built3 : Built (b3 : MBld K) d3 :=
  .define (o := 2) tY built2 (by intro q hq; simp [tY, MTerm.objs] at hq; show q < 2; omega)
    (by refine ⟨⟨trivial, trivial, rfl⟩, ⟨trivial, rfl⟩, rfl⟩) id rfl

theorem built4 : Built (b4 : MBld K) d4 :=
  .define (o := 4) tZ built3 (by intro q hq; simp [tZ, MTerm.objs] at hq; show q < 4; omega)
    (by refine ⟨⟨trivial, trivial, rfl⟩, ⟨trivial, rfl⟩, rfl⟩) id rfl

theorem built5 : Built (b5 : MBld K) d5 := by
  refine .redefine 2 tY' built4 (by show 2 < 5; omega) (Or.inr ⟨_, _, _, rfl⟩)
    (by intro q hq; simp [tY', MTerm.objs] at hq; show q < 5; omega) ⟨trivial, ⟨trivial, rfl⟩, rfl⟩ id ?_
    (Or.inl ⟨rfl, rfl⟩) rfl
  intro q hq hd
  simp only [tY', MTerm.objs, List.mem_append, List.mem_singleton, or_self] at hq
  subst hq
  have : ∀ r, Depends (d4 : ℕ → Option (MTerm K)) 1 r → r = 1 := by
    intro r hr
    induction hr with
    | refl => rfl
    | step _ h1 _ ih => subst ih; simp [d4, d3] at h1
  cases this _ hd

/-- Values of the scalars: `X` is `x 0, ..., x 3`. -/
def sv (x : ℕ → K) : ℕ → K := fun a => if a < 4 then x a else if a = 5 then 2 else 1

theorem holds (x : ℕ → K) : (b4 : MBld K).Holds (sv x) := by
  intro h v hv0
  have hv : (if 6 ≤ h ∧ h < 6 + 1 * 1 then some (if (h - 6) / 1 = (h - 6) % 1 then (1 : K) else 0) else
    if 4 ≤ h ∧ h < 4 + 1 * 2 then some ((((h - 4) % 2 : ℕ) : K) + 1) else
    if 0 ≤ h ∧ h < 0 + 2 * 2 then none else none) = some v := hv0
  clear hv0
  split_ifs at hv with h1 h2 h3 h4
  · obtain rfl : h = 6 := by omega
    simpa [sv] using hv
  · obtain rfl : h = 6 := by omega
    simp at h2
  · have h5 : h = 4 ∨ h = 5 := by omega
    simp only [Option.some.injEq] at hv
    subst hv
    rcases h5 with rfl | rfl
    · simp [sv]
    · simp [sv]; norm_num

/-- `y = A X Aᵀ`. -/
def y (x : ℕ → K) : K := x 0 + 2 * x 1 + 2 * x 2 + 4 * x 3

/-- The values of the matrices. -/
def V (x : ℕ → K) (o i j : ℕ) : K :=
  if o = 2 then y x else if o = 4 then y x ^ 2 + 3 * y x else sv x ((b4 : MBld K).E.el o i j)

theorem values (x : ℕ → K) : Values b4 d4 (sv x) (V x) := by
  refine ⟨fun o hd i j hi hj => ?_, fun o t hd i j hi hj => ?_⟩
  · have h2 : o ≠ 2 := by rintro rfl; simp [d4, d3] at hd
    have h4 : o ≠ 4 := by rintro rfl; simp [d4] at hd
    simp [V, h2, h4]
  · by_cases h4 : o = 4
    · subst h4
      simp only [d4, Function.update_self, Option.some.injEq] at hd
      subst hd
      show y x ^ 2 + 3 * y x = (∑ k ∈ Finset.range 1, V x 2 i k * V x 2 k j) + 3 * V x 2 i j
      simp only [V, if_true, Finset.sum_range_one]
      ring
    · simp only [d4, Function.update_of_ne h4] at hd
      by_cases h2 : o = 2
      · subst h2
        simp only [d3, Function.update_self, Option.some.injEq] at hd
        subst hd
        have hi : i < 1 := hi
        have hj : j < 1 := hj
        obtain rfl : i = 0 := by omega
        obtain rfl : j = 0 := by omega
        show y x = ∑ k ∈ Finset.range 2, (∑ l ∈ Finset.range 2, V x 1 0 l * V x 0 l k) * V x 1 0 k
        simp only [Finset.sum_range_succ, Finset.sum_range_zero]
        show y x = (0 + (0 + 1 * x 0 + 2 * x 2) * 1) + (0 + 1 * x 1 + 2 * x 3) * 2
        simp only [y]
        ring
      · simp [d3, h2] at hd

theorem noInv {g : Cfg} {π : Sched} (x : ℕ → K) (dI : Prop) : InvOk (b4 : MBld K) d4 (backend g π) (sv x) (V x) dI 4 := by
  intro p t _ hd
  have h : t = tZ ∨ t = tY := by
    by_cases h4 : p = 4
    · subst h4; simp [d4] at hd; exact Or.inl hd.symm
    · by_cases h2 : p = 2
      · subst h2; simp [d4, d3] at hd; exact Or.inr hd.symm
      · simp [d4, d3, h4, h2] at hd
  rcases h with rfl | rfl
  · simp [UsesInv, Invertible, MTerm.node, tZ]
  · simp [UsesInv, Invertible, MTerm.node, tY]

/-- The hypotheses of `C53_eval_fresh` are met: `Eval(Z)` returns `y² + 3y`. -/
example (x : ℕ → K) (π : Sched) (sd : ℕ → ℕ → K) : ∃ F, ∀ f, F ≤ f → ∃ s' m,
    matEval ⟨backend ⟨.eigen, false, .cpu⟩ π, π, b4.E, ⟨sv x, sd⟩⟩ f (.obj 4) MSt.fresh = some (s', m) ∧ m.rows = 1 ∧
      m.cols = 1 ∧ ∀ i j, i < 1 → j < 1 → m.get? i j = some (y x ^ 2 + 3 * y x) := by
  have hg : Cfg.CPU ⟨.eigen, false, .cpu⟩ := rfl
  exact C53_eval_fresh built4 ⟨backend ⟨.eigen, false, .cpu⟩ π, π, b4.E, ⟨sv x, sd⟩⟩ rfl (backend_sound hg π (Or.inl rfl))
    (holds x) (values x) 4 (noInv x _)

/-- The element `X(0,0)` moves, the others are `x`. -/
def move (x : ℕ → ℝ) (u : ℝ) : ℕ → ℝ := fun a => if a = 0 then u else x a

/-- The derivatives of the scalars. -/
def der (a v : ℕ) : ℝ := if a = v ∧ a < 4 then 1 else 0

theorem kinds : (∀ o, (b4 : MBld K).E.kind o = .var → o = 0) ∧ ∀ o, (b4 : MBld K).E.kind o = .num ∨
    (b4 : MBld K).E.kind o = .par → o ≠ 0 ∧ (o = 1 ∨ o = 3 ∨ 5 ≤ o) := by
  have h2 : ∃ n e eye, (b4 : MBld K).E.kind 2 = .form n e eye := ⟨_, _, _, rfl⟩
  have h4 : ∃ n e eye, (b4 : MBld K).E.kind 4 = .form n e eye := ⟨_, _, _, rfl⟩
  have h0 : (b4 : MBld K).E.kind 0 = .var := rfl
  have h1 : (b4 : MBld K).E.kind 1 = .num := rfl
  have h3 : (b4 : MBld K).E.kind 3 = .num := rfl
  obtain ⟨_, _, _, h2⟩ := h2
  obtain ⟨_, _, _, h4⟩ := h4
  constructor
  · intro o ho
    match o with
    | 0 => rfl
    | 1 => rw [h1] at ho; cases ho
    | 2 => rw [h2] at ho; cases ho
    | 3 => rw [h3] at ho; cases ho
    | 4 => rw [h4] at ho; cases ho
    | o + 5 => rw [built4.inv.new (o + 5) (by show 5 ≤ o + 5; omega)] at ho; cases ho
  · intro o ho
    match o with
    | 0 => rw [h0] at ho; rcases ho with ho | ho <;> cases ho
    | 1 => omega
    | 2 => rw [h2] at ho; rcases ho with ho | ho <;> cases ho
    | 3 => omega
    | 4 => rw [h4] at ho; rcases ho with ho | ho <;> cases ho
    | o + 5 => omega

theorem scalarDer (x : ℕ → ℝ) (t : ℝ) : ScalarDer b4 0 0 0 (fun u => sv (move x u)) der t := by
  refine ⟨fun u => holds _, fun a => ?_, fun o hn ho l k hl hk => ?_, fun o hn ho l k hl hk => ?_⟩
  · show HasDerivAt (fun u => sv (move x u) a) (der a 0) t
    by_cases h0 : a = 0
    · subst h0
      simp only [sv, move, der]
      simpa using hasDerivAt_id' t
    · have e1 : (fun u => sv (move x u) a) = fun _ => sv x a := by
        funext u; simp only [sv, move, h0, if_false]
      have e2 : der a 0 = 0 := by simp [der, h0]
      rw [e1, e2]
      exact hasDerivAt_const _ _
  · have hn : o < 5 := hn
    obtain ⟨_, h1 | h1 | h1⟩ := kinds.2 o ho
    · subst h1
      show der (4 + (l * 2 + k)) 0 = 0
      simp [der]
    · subst h1
      show der (6 + (l * 1 + k)) 0 = 0
      simp [der]
    · omega
  · obtain rfl := kinds.1 o ho
    have hl : l < 2 := hl
    have hk : k < 2 := hk
    show der (0 + (l * 2 + k)) 0 = if 0 + (l * 2 + k) = 0 then 1 else 0
    simp only [der]
    split_ifs <;> first | rfl | omega

theorem deps (p : ℕ) (t : MTerm K) (hd : (d4 : ℕ → Option (MTerm K)) p = some t) :
    (p = 4 ∧ t = tZ) ∨ (p = 2 ∧ t = tY) := by
  by_cases h4 : p = 4
  · subst h4; simp [d4] at hd; exact Or.inl ⟨rfl, hd.symm⟩
  · by_cases h2 : p = 2
    · subst h2; simp [d4, d3] at hd; exact Or.inr ⟨rfl, hd.symm⟩
    · simp [d4, d3, h4, h2] at hd

theorem pads : (b4 : MBld K).E.pads = ∅ := by
  have : (b4 : MBld K).E.pads = (∅ ∪ ((MTerm.build tY 2).1.reqs b2.E)) ∪ ((MTerm.build tZ (b3 : MBld K).next).1.reqs b3.E) := rfl
  rw [this, ← reqs_strip, ← reqs_strip b3.E, strip_build, strip_build]
  ext q
  simp [tY, tZ, MTerm.node, MNode.reqs]

/-- The hypotheses of `C53_devalF_partial` and `C53_devalR_partial` are met: `DevalF(Z, X)(0,0)` and `DevalR(Z, X)(0,0)`
are the derivative of `y² + 3y` with respect to `X(0,0)`. -/
example (x : ℕ → ℝ) (t : ℝ) (π : Sched) {rank : ℕ → ℕ} (hwf : (b4 : MBld ℝ).E.WF rank) :
    (∃ s' m, matDevalF ⟨backend ⟨.eigen, false, .cpu⟩ π, π, b4.E, ⟨sv (move x t), der⟩⟩ (rank 4 + 1) 0 (.obj 4) MSt.fresh =
        some (s', m) ∧ ∃ D, m.get? 0 0 = some D ∧ HasDerivAt (fun u => y (move x u) ^ 2 + 3 * y (move x u)) D t) ∧
    ∃ s' m D, matPreComp ⟨backend ⟨.eigen, false, .cpu⟩ π, π, b4.E, ⟨sv (move x t), der⟩⟩ (rank 4 + 1) 4 MSt.fresh =
        some s' ∧ matDevalR b4.E 4 0 s' = some m ∧ m.get? 0 0 = some D ∧
      HasDerivAt (fun u => y (move x u) ^ 2 + 3 * y (move x u)) D t := by
  have hg : Cfg.CPU ⟨.eigen, false, .cpu⟩ := rfl
  have hM : ∀ p t', Depends (d4 : ℕ → Option (MTerm ℝ)) 4 p → (d4 : ℕ → Option (MTerm ℝ)) p = some t' → MapsOk b4.E (sv (move x t)) (V (move x t)) t'.node := by
    intro p t' _ hp
    rcases deps p t' hp with ⟨_, rfl⟩ | ⟨_, rfl⟩
    · simp [tZ, MTerm.node, MapsOk]
    · simp [tY, MTerm.node, MapsOk]
  constructor
  · obtain ⟨s', m, h1, _, _, h2⟩ := C53_devalF_partial built4 hwf .fresh ⟨.eigen, false, .cpu⟩ hg rfl π pads
      (fun u => sv (move x u)) der t (X := 0) (i := 0) (j := 0) rfl (by show 0 < 2; omega) (by show 0 < 2; omega)
      (scalarDer x t) (fun u => values (move x u)) (o := 4) (by show 4 < 5; omega) (Nat.lt_succ_self _) (noInv _ _) hM
      (Or.inr fun _ _ hh => hh)
    exact ⟨s', m, h1, h2 0 0 (by show 0 < 1; omega) (by show 0 < 1; omega)⟩
  · obtain ⟨s', m, D, h1, h2, _, _, h3, h4⟩ := C53_devalR_partial built4 hwf .fresh ⟨.eigen, false, .cpu⟩ hg rfl π pads
      (fun u => sv (move x u)) der t (X := 0) (i := 0) (j := 0) rfl (by show 0 < 2; omega) (by show 0 < 2; omega)
      (scalarDer x t) (fun u => values (move x u)) (o := 4) (by show 4 < 5; omega) (Nat.lt_succ_self _) (noInv _ _) hM
      (by simp [d4])
      (fun p _ hp => by
        obtain ⟨t', ht⟩ := Option.ne_none_iff_exists'.1 hp
        rcases deps p t' ht with ⟨rfl, _⟩ | ⟨rfl, _⟩ <;> exact ⟨rfl, rfl⟩)
      (fun q hq hk => by
        exfalso
        have hlt : q < 5 := by
          rcases hq with _ | ⟨_, h1, h2⟩
          · omega
          · rcases deps _ _ h1 with ⟨_, rfl⟩ | ⟨_, rfl⟩
            · simp [tZ, MTerm.objs] at h2; omega
            · simp [tY, MTerm.objs] at h2; omega
        match q with
        | 0 => exact absurd (hk.symm.trans (rfl : (b4 : MBld ℝ).E.kind 0 = .var)) (fun hh => by cases hh)
        | 1 => exact absurd (hk.symm.trans (rfl : (b4 : MBld ℝ).E.kind 1 = .num)) (fun hh => by cases hh)
        | 2 => exact absurd (hk.symm.trans (rfl : (b4 : MBld ℝ).E.kind 2 = .form _ _ _)) (fun hh => by cases hh)
        | 3 => exact absurd (hk.symm.trans (rfl : (b4 : MBld ℝ).E.kind 3 = .num)) (fun hh => by cases hh)
        | 4 => exact absurd (hk.symm.trans (rfl : (b4 : MBld ℝ).E.kind 4 = .form _ _ _)) (fun hh => by cases hh)
        | q + 5 => omega)
      (fun p t' _ hp => by
        rcases deps p t' hp with ⟨_, rfl⟩ | ⟨_, rfl⟩
        · simp [tZ, MTerm.node, CoeffConst, MUn.coeffConst]
        · simp [tY, MTerm.node, CoeffConst, MUn.coeffConst])
      (.step (.step .refl (q := 4) (r := 2) (t := tZ) rfl (by simp [tZ, MTerm.objs])) (t := tY) rfl
        (by simp [tY, MTerm.objs]))
      (fun p n e eye q _ _ _ _ hh => hh.elim)
    exact ⟨s', m, D, h1, h2, h3, h4⟩

end BldEx

/-! ## What redefinitions must not do -/

namespace BldBad

/-- `X` (0, 2×2 variables), `W` (1, 3×3 variables), `Y = transpose(X)` (2, identity 3), `Z = Y + X` (4). -/
def b1 : Option (MBld ℚ) := do
  let (_, b) ← MBld.init.newMat .var 2 2
  let (_, b) ← b.newMat .var 3 3
  let (_, b) ← b.defNew (.un .tr (.mat 0))
  let (_, b) ← b.defNew (.bin .add (.mat 2) (.mat 0))
  some b

/-- `Y = W + W;`: other dimensions. -/
def b2 : Option (MBld ℚ) := b1.bind fun b => b.redef 2 (.bin .add (.mat 1) (.mat 1))

/-- `Y = Z + X;`: circular, which `findMe` does not see as it does not look into `Z`. -/
def b3 : Option (MBld ℚ) := b1.bind fun b => b.redef 2 (.bin .add (.mat 4) (.mat 0))

/-- `Eval(Z)` with all scalars 1. -/
noncomputable def evalZ (b : Option (MBld ℚ)) (f : ℕ) : Option (List (Option ℚ)) := do
  let b ← b
  let (_, m) ← matEval ⟨backend ⟨.eigen, false, .cpu⟩ Sched.seq, Sched.seq, b.E, ⟨fun _ => 1, fun _ _ => 0⟩⟩ f (.obj 4)
    MSt.fresh
  some (m.get? 0 0 :: [])

/-- Before the redefinition `Eval(Z)` succeeds. -/
theorem good : (evalZ b1 5).isSome = true := by decide +kernel

/-- **C53: a redefinition with other dimensions breaks matrices that mention it.**  The redefinition succeeds,
afterwards `Eval(Z)` fails (at any depth). -/
theorem C53_redefine_dims_counterexample : b2 ≠ none ∧ ∀ f, evalZ b2 f = none := by
  refine ⟨by decide +kernel, fun f => ?_⟩
  rcases f with _ | f
  · decide +kernel
  · rfl

/-- **C53: a circular definition through another matrix is accepted**, afterwards `Eval(Z)` fails (at any depth): the
second visit of `Z` finds no result. -/
theorem C53_circular_counterexample : b3 ≠ none ∧ ∀ f, evalZ b3 f = none := by
  refine ⟨by decide +kernel, fun f => ?_⟩
  rcases f with _ | _ | _ | f
  · decide +kernel
  · decide +kernel
  · decide +kernel
  · rfl

end BldBad
end CoolDiff
