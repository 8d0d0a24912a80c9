import Verif.Matrix.Runs

/-!
# C29, C38: matrix queries

`MVal c rank o i j` is the value of element `(i,j)` of matrix `o` at the current scalar values,
`MDer c X rank o l k i j` the partial derivative of element `(l,k)` of `o` with respect to element
`(i,j)` of `X`.  `mval_leaf`, `mval_form`, `mder_*` below say what they are; over the reals
`C29_forward_real_partial` says that the answer of the library is the partial derivative.
-/

set_option linter.unusedSectionVars false

namespace CoolDiff

variable {K : Type} [Field K] [DecidableEq K]

/-- If no earlier query used anything `o` uses, nothing stale is stored. -/
theorem MHist.unused {E : MEnv K} {rank : ℕ → ℕ} {s : MSt K} {U : ℕ → Prop} (h : MHist E rank s U)
    {o : ℕ} (ho : ∀ p, MReach E o p → ¬U p) (c : MCtx K) (hE : c.E = E) (X : ℕ)
    (V : ℕ → ℕ → ℕ → K) (D : ℕ → ℕ → ℕ → ℕ → ℕ → K) :
    Current E V o s ∧ CurrentD c X D o s := by
  subst hE
  obtain ⟨hs, hU⟩ := h.rest
  refine ⟨⟨fun p hp hl he => ?_, fun p hp _ hv => ?_⟩, ⟨fun p hp hl he => ?_, fun p hp _ hv => ?_⟩⟩
  · exact absurd ((hU p).1 (hs.fl p hl (Or.inl he))) (ho p hp)
  · exact absurd ((hU p).1 hv) (ho p hp)
  · exact absurd ((hU p).1 (hs.fl p hl (Or.inr he))) (ho p hp)
  · exact absurd ((hU p).1 hv) (ho p hp)

theorem MHist.eval_rep {E : MEnv K} {rank : ℕ → ℕ} {s : MSt K} {U : ℕ → Prop}
    (h : MHist E rank s U) (c : MCtx K) (hE : c.E = E) {o f : ℕ} (hq : QueryOk c rank False o)
    (hf : rank o < f) (ho : U o ∨ ∀ p, MReach E o p → ¬U p) :
    ∃ s' m, matEval c f (.obj o) s = some (s', m) ∧ Rep m (E.rows o) (E.cols o) (MVal c rank o) ∧
      MHist E rank s' (fun p => U p ∨ MReach E o p) := by
  have hr : U o ∨ Current E (MVal c rank) o s :=
    ho.imp id fun hh => (h.unused hh c hE 0 _ (fun _ _ _ _ _ => 0)).1
  have h' := h
  subst hE
  obtain ⟨hs, hU⟩ := h.rest
  obtain ⟨s1, m1, e1, rep, _⟩ := matEval_spec hq.wf hq.sound hq.forms
    (valOf_solves c.E c.sc.val hq.wf hq.eyes _) hs hf (hr.imp (hU o).2 id)
  exact ⟨s1, m1, e1, rep, h'.eval c o f rfl hq hf hr e1⟩

/-- **C38 (`Eval`).**  After any run, `TensorR2::Eval` on a matrix that was queried before (itself or
as part of another matrix), or none of whose parts was used before, succeeds and returns the values
of the elements at the *current* scalar values, whatever was evaluated before with other values.
Partial: not claimed for a new matrix built from already used parts (false there, see
`C38_new_formula_stale_counterexample`); the query is on a named matrix. -/
theorem C38_eval_current_partial {E : MEnv K} {rank : ℕ → ℕ} {s : MSt K} {U : ℕ → Prop}
    (h : MHist E rank s U) (c : MCtx K) (hE : c.E = E) {o f : ℕ} (hq : QueryOk c rank False o)
    (hf : rank o < f) (ho : U o ∨ ∀ p, MReach E o p → ¬U p) :
    ∃ s' m, matEval c f (.obj o) s = some (s', m) ∧ m.rows = E.rows o ∧ m.cols = E.cols o ∧
      (∀ i j, i < E.rows o → j < E.cols o → m.get? i j = some (MVal c rank o i j)) ∧
      MHist E rank s' (fun p => U p ∨ MReach E o p) := by
  obtain ⟨s', m, h1, h2, h3⟩ := h.eval_rep c hE hq hf ho
  exact ⟨s', m, h1, h2.rows, h2.cols, h2.elem, h3⟩

theorem MHist.devalF_rep {E : MEnv K} {rank : ℕ → ℕ} {s : MSt K} {U : ℕ → Prop}
    (h : MHist E rank s U) (c : MCtx K) (hE : c.E = E) {o X f : ℕ} (hq : QueryOk c rank True o)
    (hK : c.B.KronSound) (hP : PadsOk E X) (hvars : VarsOk E) (hX : E.kind X = .var) (hf : rank o < f)
    (ho : U o ∨ ∀ p, MReach E o p → ¬U p) :
    ∃ s' m, matDevalF c f X (.obj o) s = some (s', m) ∧
      Rep m (E.rows o * E.rows X) (E.cols o * E.cols X) (lay (E.rows X) (E.cols X) (MDer c X rank o)) ∧
      MHist E rank s' (fun p => U p ∨ MReach E o p) := by
  have hr : U o ∨ (Current E (MVal c rank) o s ∧ CurrentD c X (MDer c X rank) o s) :=
    ho.imp id fun hh => h.unused hh c hE X _ _
  have h' := h
  subst hE
  obtain ⟨hs, hU⟩ := h.rest
  obtain ⟨s1, m1, e1, rep, _⟩ := matDevalF_spec hq.wf hq.sound hK hP hq.forms
    (valOf_solves c.E c.sc.val hq.wf hq.eyes _) hvars hX
    (derOf_solves c.E c.sc.val (c.sd X) _ X hq.wf _) hs hf (hr.imp (hU o).2 id)
  exact ⟨s1, m1, e1, rep, h'.devalF c o X f rfl hq hK hP hvars hX hf hr e1⟩

/-- **C38 (`DevalF`).**  The same for `TensorR2::DevalF`: the answer is made of the derivatives at
the current values, with respect to the requested `X`, whatever was computed before. -/
theorem C38_devalF_current_partial {E : MEnv K} {rank : ℕ → ℕ} {s : MSt K} {U : ℕ → Prop}
    (h : MHist E rank s U) (c : MCtx K) (hE : c.E = E) {o X f : ℕ} (hq : QueryOk c rank True o)
    (hK : c.B.KronSound) (hP : PadsOk E X) (hvars : VarsOk E) (hX : E.kind X = .var) (hf : rank o < f)
    (ho : U o ∨ ∀ p, MReach E o p → ¬U p) :
    ∃ s' m, matDevalF c f X (.obj o) s = some (s', m) ∧
      m.rows = E.rows o * E.rows X ∧ m.cols = E.cols o * E.cols X ∧
      (∀ l k i j, l < E.rows o → k < E.cols o → i < E.rows X → j < E.cols X →
        m.get? (l * E.rows X + i) (k * E.cols X + j) = some (MDer c X rank o l k i j)) ∧
      MHist E rank s' (fun p => U p ∨ MReach E o p) := by
  obtain ⟨s', m, h1, h2, h3⟩ := h.devalF_rep c hE hq hK hP hvars hX hf ho
  refine ⟨s', m, h1, h2.rows, h2.cols, fun l k i j hl hk hi hj => ?_, h3⟩
  rw [h2.elem _ _ (flat_lt hl hi) (flat_lt hk hj), lay_at _ hi hj]

/-- An expression over matrices with elements (no named formulas) has no gaps. -/
theorem NoGapsE.leaves {E : MEnv K} {U : ℕ → Prop} {e : MNode K} (h : ∀ q ∈ e.objs, ¬E.isForm q) : NoGapsE E U e := by
  rintro p n e' eye q ⟨o, ho, hp⟩ hk _ _
  exfalso
  have : p = o := by
    clear hk
    induction hp with
    | refl => rfl
    | step hp hk _ ih => subst ih; exact absurd ⟨_, _, _, hk⟩ (h _ ho)
  subst this
  exact h _ ho ⟨n, e', eye, hk⟩

/-- After any run: an expression of which everything, or nothing, was used before has no gaps. -/
theorem MHist.noGapsE {E : MEnv K} {rank : ℕ → ℕ} {s : MSt K} {U : ℕ → Prop} (h : MHist E rank s U) {e : MNode K}
    (ho : (∀ q ∈ e.objs, U q) ∨ ∀ q, EReach E e q → ¬U q) : NoGapsE E U e := by
  obtain ⟨hs, hU⟩ := h.rest
  rintro p n e' eye q hp hk hq hu
  rcases ho with ho | ho
  · obtain ⟨o, ho', hp⟩ := hp
    exact (hU p).1 (hs.reach hp ((hU o).2 (ho o ho')))
  · exact absurd hu (ho q (EReach.closed E e p hp n e' eye hk q hq))

/-- **C38 (`Eval` of an expression).**  After any run, `TensorR2::Eval` of an operator expression that is not bound to a
name returns the values of the formula at the *current* scalar values.  If it mentions no named formulas there is no
condition on the history (`NoGapsE.leaves`); otherwise named formulas below it must not be new formulas over used
matrices (`NoGapsE`). -/
theorem C38_eval_expression_partial {E : MEnv K} {rank : ℕ → ℕ} {s : MSt K} {U : ℕ → Prop}
    (h : MHist E rank s U) (c : MCtx K) (hE : c.E = E) {e : MNode K} {f : ℕ} (hq : QueryOkE c rank False e)
    (hf : ∀ q ∈ e.objs, rank q < f) (hg : NoGapsE E U e) :
    ∃ s' m, matEval c f e s = some (s', m) ∧ m.rows = (e.dims E).1 ∧ m.cols = (e.dims E).2 ∧
      (∀ i j, i < m.rows → j < m.cols → m.get? i j = some (den E c.sc.val (MVal c rank) e i j)) ∧
      MHist E rank s' (fun p => U p ∨ EReach E e p) := by
  have h' := h
  subst hE
  obtain ⟨hs, hU⟩ := h.rest
  obtain ⟨s1, m1, e1, rep, _⟩ := matEvalE_spec hq.wf hq.sound hq.forms
    (valOf_solves c.E c.sc.val hq.wf hq.eyes _) hq.dims hq.inv hq.invertible hs hf
    (fun p n e' eye q h1 h2 h3 h4 => (hU p).2 (hg p n e' eye q h1 h2 h3 ((hU q).1 h4)))
  exact ⟨s1, m1, e1, rep.rows, rep.cols, fun i j hi hj => rep.elem i j (by rw [← rep.rows]; exact hi)
    (by rw [← rep.cols]; exact hj), h'.evalE c e f rfl hq hf hg e1⟩

/-- **C38 (`DevalF` of an expression).**  The same for the derivatives (`tan` is the differentiated formula). -/
theorem C38_devalF_expression_partial {E : MEnv K} {rank : ℕ → ℕ} {s : MSt K} {U : ℕ → Prop}
    (h : MHist E rank s U) (c : MCtx K) (hE : c.E = E) {e : MNode K} {X f : ℕ} (hq : QueryOkE c rank True e)
    (hK : c.B.KronSound) (hP : PadsOk E X) (hvars : VarsOk E) (hX : E.kind X = .var)
    (hf : ∀ q ∈ e.objs, rank q < f) (hg : NoGapsE E U e) :
    ∃ s' m, matDevalF c f X e s = some (s', m) ∧
      m.rows = (e.dims E).1 * E.rows X ∧ m.cols = (e.dims E).2 * E.cols X ∧
      (∀ l k i j, l < (e.dims E).1 → k < (e.dims E).2 → i < E.rows X → j < E.cols X →
        m.get? (l * E.rows X + i) (k * E.cols X + j) =
          some (tan E c.sc.val (c.sd X) (MVal c rank) (MDer c X rank) e l k i j)) ∧
      MHist E rank s' (fun p => U p ∨ EReach E e p) := by
  have h' := h
  subst hE
  obtain ⟨hs, hU⟩ := h.rest
  obtain ⟨s1, m1, e1, rep, _⟩ := matDevalFE_spec hq.wf hq.sound hK hP hq.forms
    (valOf_solves c.E c.sc.val hq.wf hq.eyes _) hq.dims hq.inv hq.invertible hvars hX
    (derOf_solves c.E c.sc.val (c.sd X) _ X hq.wf _) hs hf
    (fun p n e' eye q h1 h2 h3 h4 => (hU p).2 (hg p n e' eye q h1 h2 h3 ((hU q).1 h4)))
  refine ⟨s1, m1, e1, rep.rows, rep.cols, ?_, h'.devalFE c e X f rfl hq hK hP hvars hX hf hg e1⟩
  intro l k i j hl hk hi hj
  rw [rep.elem _ _ (flat_lt hl hi) (flat_lt hk hj), lay_at _ hi hj]
  rfl

/-- **C29 for expressions.**  As `C29_forward_real_partial`, for `TensorR2::DevalF(e, X)` on an operator expression. -/
theorem C29_expression_real_partial {E : MEnv ℝ} {rank : ℕ → ℕ} {s : MSt ℝ} {U : ℕ → Prop}
    (h : MHist E rank s U) (g : Cfg) (hg : g.CPU) (he : g.cpu = .eigen) (π : Sched)
    (sv : ℝ → ℕ → ℝ) (der : ℕ → ℕ → ℝ) (t : ℝ)
    {e : MNode ℝ} {X f : ℕ} (hq : QueryOkE ⟨backend g π, π, E, ⟨sv t, der⟩⟩ rank True e)
    (hP : PadsOk E X) (hvars : VarsOk E) (hX : E.kind X = .var) (hf : ∀ q ∈ e.objs, rank q < f)
    (hgap : NoGapsE E U e)
    {i j : ℕ} (hi : i < E.rows X) (hj : j < E.cols X)
    (hs : ∀ a, HasDerivAt (fun u => sv u a) (der a (E.vid (E.el X i j))) t)
    (hnum : ∀ o, E.kind o = .num ∨ E.kind o = .par → ∀ l k, l < E.rows o → k < E.cols o →
      der (E.el o l k) (E.vid (E.el X i j)) = 0)
    (hvar : ∀ o, E.kind o = .var → ∀ l k, l < E.rows o → k < E.cols o →
      der (E.el o l k) (E.vid (E.el X i j)) =
        if E.vid (E.el o l k) = E.vid (E.el X i j) then 1 else 0)
    (heyes : ∀ u, EyesOk E (sv u))
    (hmaps : ∀ p n e' eye, EReach E e p → E.kind p = .form n e' eye → MapsOk E (sv t) (valOf E (sv t) rank) e')
    (hmap : MapsOk E (sv t) (valOf E (sv t) rank) e) :
    ∃ s' m, matDevalF ⟨backend g π, π, E, ⟨sv t, der⟩⟩ f X e s = some (s', m) ∧
      m.rows = (e.dims E).1 * E.rows X ∧ m.cols = (e.dims E).2 * E.cols X ∧
      ∀ l k, l < (e.dims E).1 → k < (e.dims E).2 →
        ∃ d, m.get? (l * E.rows X + i) (k * E.cols X + j) = some d ∧
          HasDerivAt (fun u => den E (sv u) (valOf E (sv u) rank) e l k) d t := by
  obtain ⟨s1, m1, e1, h1, h2, h3, _⟩ := C38_devalF_expression_partial h
    ⟨backend g π, π, E, ⟨sv t, der⟩⟩ rfl hq (backend_kronSound hg he π) hP hvars hX hf hgap
  refine ⟨s1, m1, e1, h1, h2, fun l k hl hk => ⟨_, h3 l k i j hl hk hi hj, ?_⟩⟩
  refine den_hasDerivAt (V := fun u => valOf E (sv u) rank)
    (sd := MCtx.sd ⟨backend g π, π, E, ⟨sv t, der⟩⟩ X) hs e hq.dims hq.invertible hmap ?_ l k hl hk
  intro q hqo l' k' hl' hk'
  exact V_hasDerivAt hq.wf (EReach.closed E e)
    (sd := MCtx.sd ⟨backend g π, π, E, ⟨sv t, der⟩⟩ X) (V := fun u => valOf E (sv u) rank)
    hi hj hs (fun p _ hp => hnum p hp) (fun p _ hp => hvar p hp)
    (fun u => valOf_solves E (sv u) hq.wf (heyes u) _)
    (derOf_solves E (sv t) _ _ X hq.wf _)
    (fun p hp n e' eye hk => hq.forms.invertible p hp n e' eye hk)
    (fun p hp n e' eye hk => hmaps p n e' eye hp hk) (rank q + 1) q ⟨q, hqo, .refl⟩ (by omega) l' k' hl' hk'

/-- **C29.**  Over the reals, with the Eigen handler: let the scalars depend on a real parameter
`u` (the value of `X(i,j)`), the current values being those at `u = t` and the scalar derivatives
the ones the scalar layer reports.  Then after any run, entry `(l*rX+i, k*cX+j)` of
`TensorR2::DevalF(F, X)` is the derivative of `F(l,k)` with respect to `X(i,j)`.
Formulas are built from `+`, `-`, `*`, Hadamard product, convolution, number and scalar-expression sum
and multiple, transpose, element-wise functions, inverse and determinant, and named matrices at any
depth.  Partial: vectorisation is not in this expression model (C36), and paddings of convolutions
must not disturb each other (`PadsOk`, see C44). -/
theorem C29_forward_real_partial {E : MEnv ℝ} {rank : ℕ → ℕ} {s : MSt ℝ} {U : ℕ → Prop}
    (h : MHist E rank s U) (g : Cfg) (hg : g.CPU) (he : g.cpu = .eigen) (π : Sched)
    (sv : ℝ → ℕ → ℝ) (der : ℕ → ℕ → ℝ) (t : ℝ)
    {o X f : ℕ} (hq : QueryOk ⟨backend g π, π, E, ⟨sv t, der⟩⟩ rank True o)
    (hP : PadsOk E X) (hvars : VarsOk E) (hX : E.kind X = .var) (hf : rank o < f)
    (ho : U o ∨ ∀ p, MReach E o p → ¬U p)
    {i j : ℕ} (hi : i < E.rows X) (hj : j < E.cols X)
    (hs : ∀ a, HasDerivAt (fun u => sv u a) (der a (E.vid (E.el X i j))) t)
    (hnum : ∀ o, E.kind o = .num ∨ E.kind o = .par → ∀ l k, l < E.rows o → k < E.cols o →
      der (E.el o l k) (E.vid (E.el X i j)) = 0)
    (hvar : ∀ o, E.kind o = .var → ∀ l k, l < E.rows o → k < E.cols o →
      der (E.el o l k) (E.vid (E.el X i j)) =
        if E.vid (E.el o l k) = E.vid (E.el X i j) then 1 else 0)
    (heyes : ∀ u, EyesOk E (sv u))
    (hmaps : ∀ p n e eye, MReach E o p → E.kind p = .form n e eye →
      MapsOk E (sv t) (valOf E (sv t) rank) e) :
    ∃ s' m, matDevalF ⟨backend g π, π, E, ⟨sv t, der⟩⟩ f X (.obj o) s = some (s', m) ∧
      m.rows = E.rows o * E.rows X ∧ m.cols = E.cols o * E.cols X ∧
      ∀ l k, l < E.rows o → k < E.cols o →
        ∃ d, m.get? (l * E.rows X + i) (k * E.cols X + j) = some d ∧
          HasDerivAt (fun u => valOf E (sv u) rank o l k) d t := by
  obtain ⟨s1, m1, e1, h1, h2, h3, _⟩ := C38_devalF_current_partial h
    ⟨backend g π, π, E, ⟨sv t, der⟩⟩ rfl hq (backend_kronSound hg he π) hP hvars hX hf ho
  refine ⟨s1, m1, e1, h1, h2, fun l k hl hk => ⟨_, h3 l k i j hl hk hi hj, ?_⟩⟩
  exact V_hasDerivAt hq.wf (MReach.closed E o)
    (sd := MCtx.sd ⟨backend g π, π, E, ⟨sv t, der⟩⟩ X) (V := fun u => valOf E (sv u) rank)
    hi hj hs (fun p _ hp => hnum p hp) (fun p _ hp => hvar p hp)
    (fun u => valOf_solves E (sv u) hq.wf (heyes u) _)
    (derOf_solves E (sv t) _ _ X hq.wf _) (fun p hp n e eye hk => hq.forms.invertible p hp n e eye hk)
    (fun p hp n e eye hk => hmaps p n e eye hp hk) (rank o + 1) o MReach.refl (by omega) l k hl hk

/-! ## A concrete program, and where the library gives stale answers -/

namespace MExample

/-- `X` (object 0, 2×2 variables), the identity (1), `F = inv(X)*X + transpose(X)` (2),
`G = 2*F` (3). -/
def E (K : Type) [Field K] : MEnv K where
  kind := fun o => match o with
    | 0 => .var
    | 2 => .form 20 (.bin 21 .add (.bin 22 .mul (.un 23 .inv (.obj 0)) (.obj 0)) (.un 24 .tr (.obj 0))) 1
    | 3 => .form 30 (.un 31 (.smul 2) (.obj 2)) 1
    | _ => .num
  rows := fun _ => 2
  cols := fun _ => 2
  el := fun o i j => if o = 0 then i * 2 + j else if i = j then 5 else 4
  vid := id

def rank : ℕ → ℕ | 2 => 1 | 3 => 2 | _ => 0

theorem wf (K : Type) [Field K] : (E K).WF rank := by
  refine ⟨fun _ => two_pos, fun _ => two_pos, ?_⟩
  intro o n e eye hk
  match o with
  | 0 => simp [E] at hk
  | 1 => simp [E] at hk
  | 2 =>
    simp only [E, MKind.form.injEq] at hk
    obtain ⟨rfl, rfl, rfl⟩ := hk
    refine ⟨rfl, rfl, rfl, ?_, rfl, rfl, ?_⟩
    · simp [DimOk, MNode.dims, MBin.dimOk, MBin.padOk, MBin.odims, MUn.dimOk, E]
    · intro q hq
      simp only [MEnv.item, MNode.objs, List.mem_append, List.mem_singleton] at hq
      rcases hq with ((rfl | rfl) | rfl) | rfl <;> decide
  | 3 =>
    simp only [E, MKind.form.injEq] at hk
    obtain ⟨rfl, rfl, rfl⟩ := hk
    refine ⟨rfl, rfl, rfl, ?_, rfl, rfl, ?_⟩
    · simp [DimOk, MUn.dimOk]
    · intro q hq
      simp only [MEnv.item, MNode.objs, List.mem_append, List.mem_singleton] at hq
      rcases hq with rfl | rfl <;> decide
  | (k + 4) => simp [E] at hk

/-- `X = [[u,2],[3,4]]`. -/
def sv (u : ℝ) : ℕ → ℝ | 0 => u | 1 => 2 | 2 => 3 | 3 => 4 | 5 => 1 | _ => 0

def der (a v : ℕ) : ℝ := if a = v ∧ a < 4 then 1 else 0

theorem eyes (u : ℝ) : EyesOk (E ℝ) (sv u) := by
  intro o n e eye hk i j _ _
  have : eye = 1 := by
    match o with
    | 0 => simp [E] at hk
    | 1 => simp [E] at hk
    | 2 => simp only [E, MKind.form.injEq] at hk; exact hk.2.2.symm
    | 3 => simp only [E, MKind.form.injEq] at hk; exact hk.2.2.symm
    | (k + 4) => simp [E] at hk
  subst this
  by_cases h : i = j <;> simp [E, sv, h]

theorem kinds {K : Type} [Field K] {o n e eye} (hk : (E K).kind o = .form n e eye) :
    (o = 2 ∧ e = .bin 21 .add (.bin 22 .mul (.un 23 .inv (.obj 0)) (.obj 0)) (.un 24 .tr (.obj 0))) ∨
    (o = 3 ∧ e = .un 31 (.smul 2) (.obj 2)) := by
  match o with
  | 0 => simp [E] at hk
  | 1 => simp [E] at hk
  | 2 => simp only [E, MKind.form.injEq] at hk; exact Or.inl ⟨rfl, hk.2.1.symm⟩
  | 3 => simp only [E, MKind.form.injEq] at hk; exact Or.inr ⟨rfl, hk.2.1.symm⟩
  | (k + 4) => simp [E] at hk

theorem queryOk (o : ℕ) : QueryOk ⟨backend ⟨.eigen, false, .cpu⟩ Sched.seq, Sched.seq, E ℝ, ⟨sv 1, der⟩⟩
    rank True o := by
  have hg : Cfg.CPU ⟨.eigen, false, .cpu⟩ := rfl
  refine ⟨wf ℝ, backend_sound hg _ (Or.inl rfl), eyes 1, ⟨fun _ _ _ _ _ _ _ => backend_invSound hg rfl _, ?_⟩⟩
  intro p _ n e eye hk
  rcases kinds hk with ⟨_, rfl⟩ | ⟨_, rfl⟩
  · refine ⟨⟨⟨trivial, ?_⟩, trivial⟩, trivial⟩
    have hm : toMatrix 2 (MVal ⟨backend ⟨.eigen, false, .cpu⟩ Sched.seq, Sched.seq, E ℝ,
        ⟨sv 1, der⟩⟩ rank 0) = !![1, 2; 3, 4] := by
      ext a b; fin_cases a <;> fin_cases b <;> simp [toMatrix, MVal, valOf, valO, E, rank, sv]
    show (toMatrix 2 (MVal _ rank 0)).det ≠ 0
    rw [hm, Matrix.det_fin_two]
    norm_num
  · exact trivial

theorem varsOk : VarsApart (E ℝ) := by
  intro o p ho hp l k i j hl hk hi hj h
  have h0 : ∀ o, (E ℝ).kind o = .var → o = 0 := by
    intro o ho
    match o with
    | 0 => rfl
    | 1 => simp [E] at ho
    | 2 => simp [E] at ho
    | 3 => simp [E] at ho
    | (k + 4) => simp [E] at ho
  obtain rfl := h0 o ho
  obtain rfl := h0 p hp
  simp only [E, if_true, id] at *
  exact ⟨trivial, by omega, by omega⟩

/-- The hypotheses of `C29_forward_real_partial` are met by this program with `X(0,0)` moving, in the
fresh state and for the nested formula matrix `G`. -/
example : ∃ s' m, matDevalF ⟨backend ⟨.eigen, false, .cpu⟩ Sched.seq, Sched.seq, E ℝ, ⟨sv 1, der⟩⟩ 3 0
      (.obj 3) MSt.fresh = some (s', m) ∧ m.rows = 2 * 2 ∧ m.cols = 2 * 2 ∧
      ∀ l k, l < 2 → k < 2 → ∃ d, m.get? (l * 2 + 0) (k * 2 + 0) = some d ∧
          HasDerivAt (fun u => valOf (E ℝ) (sv u) rank 3 l k) d 1 := by
  refine C29_forward_real_partial (E := E ℝ) (rank := rank) MHist.fresh ⟨.eigen, false, .cpu⟩ rfl rfl
    Sched.seq sv der 1 (queryOk 3) (PadsOk.of_empty rfl rfl) varsOk.ok rfl (by decide) (Or.inr fun _ _ h => h) (i := 0) (j := 0)
    two_pos two_pos ?_ ?_ ?_ eyes ?_
  · intro a
    match a with
    | 0 => simpa [sv, der, E] using hasDerivAt_id' (1 : ℝ)
    | 1 => simpa [sv, der, E] using hasDerivAt_const (1 : ℝ) (2 : ℝ)
    | 2 => simpa [sv, der, E] using hasDerivAt_const (1 : ℝ) (3 : ℝ)
    | 3 => simpa [sv, der, E] using hasDerivAt_const (1 : ℝ) (4 : ℝ)
    | 4 => simpa [sv, der, E] using hasDerivAt_const (1 : ℝ) (0 : ℝ)
    | 5 => simpa [sv, der, E] using hasDerivAt_const (1 : ℝ) (1 : ℝ)
    | (k + 6) => simpa [sv, der, E] using hasDerivAt_const (1 : ℝ) (0 : ℝ)
  · intro o ho l k _ _
    have : o ≠ 0 := by rintro rfl; rcases ho with h | h <;> simp [E] at h
    by_cases h : l = k <;> simp [der, E, this, h]
  · intro o ho l k hl hk
    have : o = 0 := by
      match o with
      | 0 => rfl
      | 1 => simp [E] at ho
      | 2 => simp [E] at ho
      | 3 => simp [E] at ho
      | (k + 4) => simp [E] at ho
    subst this
    have h1 : l < 2 := hl
    have h2 : k < 2 := hk
    simp only [der, E, if_true, id]
    by_cases h : l * 2 + k = 0 * 2 + 0
    · rw [if_pos ⟨h, by omega⟩, if_pos h]
    · rw [if_neg (fun hh => h hh.1), if_neg h]
  · intro p n e eye _ hk
    rcases kinds hk with ⟨_, rfl⟩ | ⟨_, rfl⟩
    · exact ⟨⟨trivial, trivial⟩, trivial⟩
    · exact trivial

/-- The expression `transpose(X)*G`, not bound to a name. -/
def ex : MNode ℝ := .bin 51 .mul (.un 52 .tr (.obj 0)) (.obj 3)

theorem queryOkE : QueryOkE ⟨backend ⟨.eigen, false, .cpu⟩ Sched.seq, Sched.seq, E ℝ, ⟨sv 1, der⟩⟩
    rank True ex := by
  have hq := queryOk 3
  have hg : Cfg.CPU ⟨.eigen, false, .cpu⟩ := rfl
  refine ⟨hq.wf, hq.sound, hq.eyes, ⟨fun _ _ _ _ _ _ _ => backend_invSound hg rfl _, ?_⟩, ?_,
    fun _ => backend_invSound hg rfl _, ?_⟩
  · rintro p ⟨o, _, hp⟩ n e eye hk
    exact (queryOk o).forms.invertible p hp n e eye hk
  · simp [ex, DimOk, MNode.dims, MBin.dimOk, MBin.padOk, MUn.dimOk, E]
  · exact ⟨trivial, trivial⟩

/-- The hypotheses of the theorems about expressions are met: `Eval(transpose(X)*G)`, then `Eval(G)`, then
`DevalF(transpose(X)*G, X)`. -/
example : ∃ s1 m1 s2 m2 s3 m3,
    matEval ⟨backend ⟨.eigen, false, .cpu⟩ Sched.seq, Sched.seq, E ℝ, ⟨sv 1, der⟩⟩ 3 ex MSt.fresh = some (s1, m1) ∧
    matEval ⟨backend ⟨.eigen, false, .cpu⟩ Sched.seq, Sched.seq, E ℝ, ⟨sv 1, der⟩⟩ 3 (.obj 3) s1 = some (s2, m2) ∧
    matDevalF ⟨backend ⟨.eigen, false, .cpu⟩ Sched.seq, Sched.seq, E ℝ, ⟨sv 1, der⟩⟩ 3 0 ex s2 = some (s3, m3) ∧
    m3.rows = 4 ∧ m3.cols = 4 := by
  have hE := queryOkE
  have hE' : QueryOkE ⟨backend ⟨.eigen, false, .cpu⟩ Sched.seq, Sched.seq, E ℝ, ⟨sv 1, der⟩⟩ rank False ex :=
    ⟨hE.wf, hE.sound, hE.eyes, ⟨hE.forms.inv, fun p hp n e eye hk => (hE.forms.invertible p hp n e eye hk).weaken⟩,
      hE.dims, hE.inv, hE.invertible.weaken⟩
  have hf : ∀ q ∈ ex.objs, rank q < 3 := by
    intro q hq
    simp only [ex, MNode.objs, List.mem_append, List.mem_singleton] at hq
    rcases hq with rfl | rfl <;> decide
  obtain ⟨s1, m1, e1, _, _, _, h1⟩ := C38_eval_expression_partial (MHist.fresh (E := E ℝ) (rank := rank))
    _ rfl hE' hf ((MHist.fresh (rank := rank)).noGapsE (Or.inr fun _ _ h => h))
  have hq := queryOk 3
  obtain ⟨s2, m2, e2, _, _, _, h2⟩ := C38_eval_current_partial h1
    (c := ⟨backend ⟨.eigen, false, .cpu⟩ Sched.seq, Sched.seq, E ℝ, ⟨sv 1, der⟩⟩) rfl (o := 3)
    ⟨hq.wf, hq.sound, hq.eyes, hq.forms.inv,
        fun p hp n e eye hk => (hq.forms.invertible p hp n e eye hk).weaken⟩ (f := 3) (by decide)
    (Or.inl (Or.inr ⟨3, by simp [ex, MNode.objs], .refl⟩))
  have hg : NoGapsE (E ℝ) _ ex := h2.noGapsE (Or.inl fun q hq => Or.inl (Or.inr ⟨q, hq, .refl⟩))
  obtain ⟨s3, m3, e3, r3, c3, _, _⟩ := C38_devalF_expression_partial h2 _ rfl hE
    (backend_kronSound (g := ⟨.eigen, false, .cpu⟩) rfl rfl _) (PadsOk.of_empty rfl rfl) varsOk.ok rfl (X := 0) hf hg
  exact ⟨s1, m1, s2, m2, s3, m3, e1, e2, e3, r3, c3⟩

/-- A run exists that has used `G`. -/
example : ∃ s' U, MHist (E ℝ) rank s' U ∧ U 3 := by
  have hq := queryOk 3
  have hq' : QueryOk ⟨backend ⟨.eigen, false, .cpu⟩ Sched.seq, Sched.seq, E ℝ, ⟨sv 1, der⟩⟩
      rank False 3 := ⟨hq.wf, hq.sound, hq.eyes, hq.forms.inv,
        fun p hp n e eye hk => (hq.forms.invertible p hp n e eye hk).weaken⟩
  obtain ⟨s', m, _, _, _, _, h⟩ := C38_eval_current_partial (MHist.fresh (E := E ℝ) (rank := rank))
    _ rfl hq' (f := 3) (by decide) (Or.inr fun _ _ h => h)
  exact ⟨s', _, h, Or.inr MReach.refl⟩

end MExample

/-! Stale answers.  The naive handlers, executably. -/

/-- `backend` for the naive CPU handler. -/
def naiveB (π : Sched) : Backend K where
  add l r := Naive.add π l r
  sub l r := Naive.sub π l r
  hadamard l r := Naive.hadamard π l r
  scalarAdd c r := Naive.scalarAdd c π r
  scalarMul c r := Naive.scalarMul c π r
  unary f r := Naive.unary f π r
  mul l r := Naive.mul π l r
  kron l r := Naive.kron π l r
  transpose r := Naive.transpose π r
  dervTranspose a b c d r := Naive.dervTranspose π a b c d r
  inverse _ := fun _ => none
  det _ := fun _ => none
  trace r := Naive.trace r
  conv sx sy px py l r k := Naive.conv π sx sy px py l r k
  dervConv xr xc sx sy px py l dl r dr k := Naive.dervConv (dops ⟨.naive, false, .cpu⟩ π) π xr xc sx sy
    px py l dl r dr k

theorem backend_naive (π : Sched) : backend (K := K) ⟨.naive, false, .cpu⟩ π = naiveB π := rfl

/-- `X` (object 0) and `W` (object 5), 1×1 variables with scalars 0 and 2; the identity (1, scalar 1);
`F = X + X` (2), `G = X + X` (3), `Y = F + X` (4). -/
def staleE : MEnv ℚ where
  kind := fun o => match o with
    | 0 => .var
    | 5 => .var
    | 2 => .form 20 (.bin 21 .add (.obj 0) (.obj 0)) 1
    | 3 => .form 30 (.bin 31 .add (.obj 0) (.obj 0)) 1
    | 4 => .form 40 (.bin 41 .add (.obj 2) (.obj 0)) 1
    | _ => .num
  rows := fun _ => 1
  cols := fun _ => 1
  el := fun o _ _ => if o = 0 then 0 else if o = 5 then 2 else 1
  vid := id

/-- The scalar layer with `X(0,0) = x`. -/
def staleC (x : ℚ) : MCtx ℚ :=
  ⟨naiveB Sched.seq, Sched.seq, staleE,
    ⟨fun a => if a = 0 then x else 1, fun a v => if a = v ∧ a ≠ 1 then 1 else 0⟩⟩

/-- **C38 fails for a new formula over used parts**: `Eval(F)` with `X = 3`, then `X = 5`, then the
first `Eval(G)` with `G = X + X` returns `6`, not `10`.  (A second `Eval(G)` returns `10`.) -/
theorem C38_new_formula_stale_counterexample :
    (do let (s, _) ← matEval (staleC 3) 4 (.obj 2) MSt.fresh
        let (s, m) ← matEval (staleC 5) 4 (.obj 3) s
        let (_, m') ← matEval (staleC 5) 4 (.obj 3) s
        some (m.data, m'.data)) = some ([6], [10]) := by decide +kernel

/-- **C38 fails for a derivative of a new formula over an evaluated one**: after `Eval(F)` the first
`DevalF(Y, X)` with `Y = F + X` dereferences the null derivative of `F`; without the `Eval(F)` it is
`[3]`. -/
theorem C38_devalF_after_eval_counterexample :
    (do let (s, _) ← matEval (staleC 3) 4 (.obj 2) MSt.fresh
        matDevalF (staleC 3) 4 0 (.obj 4) s).isNone ∧
    (matDevalF (staleC 3) 4 0 (.obj 4) MSt.fresh).map (fun p => p.2.data) = some [3] := by
  decide +kernel

/-- **C38 fails with respect to another matrix**: after `DevalF(F, X)` the first `DevalF(G, W)` returns
`dG/dX = 2` although `G` does not mention `W`. -/
theorem C38_other_variable_stale_counterexample :
    (do let (s, _) ← matDevalF (staleC 3) 4 0 (.obj 2) MSt.fresh
        let (_, m) ← matDevalF (staleC 3) 4 5 (.obj 3) s
        some m.data) = some [2] ∧
    (matDevalF (staleC 3) 4 5 (.obj 3) MSt.fresh).map (fun p => p.2.data) = some [0] := by
  decide +kernel

end CoolDiff
