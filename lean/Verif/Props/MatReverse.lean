import Verif.Matrix.RevMain
import Verif.Props.MatrixExpr

/-!
# C30, C40: reverse differentiation of 1×1 matrix formulas

`TensorR2::PreComp(Y)` followed by `TensorR2::DevalR(Y, X)`.
-/

set_option linter.unusedSectionVars false

namespace CoolDiff

variable {K : Type} [Field K] [DecidableEq K]

/-! ## The theorems -/

theorem preComp_spec {E : MEnv K} {rank : ℕ → ℕ} {s : MSt K} {U : ℕ → Prop}
    (h : MHist E rank s U) (c : MCtx K) (hE : c.E = E) {o X f : ℕ} (hq : RevQueryOk c rank o X)
    (hf : rank o < f) (hg : NoGaps E U o) :
    ∃ s' own nd, matPreComp c f o s = some s' ∧
      CInv c X rank (MDer c X rank) own nd o (s'.obj o).cache := by
  obtain ⟨hs, hU, hC⟩ := h.all
  subst hE
  obtain ⟨s', own, nd, e1, c1, _⟩ := matPreComp_spec hq hf hs hC
    (fun p n e eye q h1 h2 h3 h4 h5 => (hU p).2 (hg p n e eye q h1 h2 h3 h4 ((hU q).1 h5)))
  exact ⟨s', own, nd, e1, c1⟩

/-- `Y` mentions `X`: directly or through the named formulas it uses. -/
theorem strictReach_iff {c : MCtx K} {o X : ℕ} (hX : c.E.kind X = .var) (ho : c.E.isForm o) :
    StrictReach c X o ↔ MReach c.E o X := by
  have hne : o ≠ X := by rintro rfl; obtain ⟨n, e, eye, hk⟩ := ho; rw [hk] at hX; cases hX
  constructor
  · rintro ⟨n, e, eye, hk, p, hp, h⟩
    exact MReach.head hk hp h
  · intro h
    rcases h.cases' with h | ⟨n, e, eye, hk, p, hp, h⟩
    · exact absurd h hne
    · exact ⟨n, e, eye, hk, p, hp, h⟩

/-- **C30.**  After any run of `Eval`, `DevalF` and `PreComp` queries, `PreComp(Y)` succeeds for a 1×1 formula
`Y`, and if `Y` mentions `X` then `DevalR(Y, X)` has the shape of `X` and its element `(i,j)` is the
partial derivative of `Y` with respect to `X(i,j)` at the current values.
Partial: vectorisation is not in this expression model, convolutions have to meet `ConvRev` (see C44),
named formulas inside `Y` have to be 1×1 (`C30_nested_formula_aborts`), the scalar coefficients must not depend on `X`
(`C30_coefficient_missed_counterexample`), and `NoGaps` (`C30_gap_counterexample`).  Cache entries are
matrices here; `C30_repeated_value_partial` is the same with the objects and buffers that the code
shares and reuses. -/
theorem C30_reverse_value_partial {E : MEnv K} {rank : ℕ → ℕ} {s : MSt K} {U : ℕ → Prop}
    (h : MHist E rank s U) (c : MCtx K) (hE : c.E = E) {o X f : ℕ} (hq : RevQueryOk c rank o X)
    (hf : rank o < f) (hg : NoGaps E U o) (hm : MReach E o X) :
    ∃ s' m, matPreComp c f o s = some s' ∧ matDevalR E o X s' = some m ∧
      m.rows = E.rows X ∧ m.cols = E.cols X ∧
      ∀ i j, i < E.rows X → j < E.cols X → m.get? i j = some (MDer c X rank o 0 0 i j) := by
  obtain ⟨s', own, nd, e1, hc⟩ := preComp_spec h c hE hq hf hg
  subst hE
  obtain ⟨m, hfm⟩ := hc.hasX.2 ((strictReach_iff hq.isVar hq.root).2 hm)
  obtain ⟨w1, w2, w3⟩ := hc.wf.ok _ _ hfm
  refine ⟨s', m, e1, by simp [matDevalR, hfm], w2, w3, fun i j hi hj => ?_⟩
  have := (w1.rep).elem i j (by rw [w2]; exact hi) (by rw [w3]; exact hj)
  rw [this, ← hc.entX i j hi hj]
  simp [MCache.ent, hfm]

/-- **C30.**  The reverse derivative equals the forward derivative: in the state reached by any run,
`PreComp(Y); DevalR(Y, X)` and `DevalF(Y, X)` both succeed and give matrices of the same shape with
the same elements. -/
theorem C30_reverse_eq_forward_partial {E : MEnv K} {rank : ℕ → ℕ} {s : MSt K} {U : ℕ → Prop}
    (h : MHist E rank s U) (c : MCtx K) (hE : c.E = E) (hK : c.B.KronSound) {o X f : ℕ} (hP : PadsOk E X)
    (hq : RevQueryOk c rank o X) (hf : rank o < f) (ho : U o ∨ ∀ p, MReach E o p → ¬U p)
    (hm : MReach E o X) :
    ∃ s' m s'' m', matPreComp c f o s = some s' ∧ matDevalR E o X s' = some m ∧
      matDevalF c f X (.obj o) s = some (s'', m') ∧ m.rows = m'.rows ∧ m.cols = m'.cols ∧
      ∀ i j, i < m.rows → j < m.cols → m.get? i j = m'.get? i j := by
  have hg : NoGaps E U o := by
    intro p n e eye q hp _ hk hq' hu
    rcases ho with ho | ho
    · obtain ⟨hs, hU⟩ := h.rest
      exact (hU p).1 (hs.reach hp ((hU o).2 ho))
    · exact absurd hu (ho q (hp.step hk hq'))
  obtain ⟨s', m, e1, e2, r1, r2, r3⟩ := C30_reverse_value_partial h c hE hq hf hg hm
  obtain ⟨s'', m', e3, r4, r5, r6, _⟩ := C38_devalF_current_partial h c hE hq.query hK hP
    (hE ▸ hq.vars.ok) (hE ▸ hq.isVar) hf ho
  obtain ⟨o1, o2⟩ := hq.one o MReach.refl hq.root
  subst hE
  refine ⟨s', m, s'', m', e1, e2, e3, by rw [r1, r4, o1, one_mul], by rw [r2, r5, o2, one_mul], ?_⟩
  intro i j hi hj
  rw [r1] at hi
  rw [r2] at hj
  rw [r3 i j hi hj, ← r6 0 0 i j (by omega) (by omega) hi hj, zero_mul, zero_mul, zero_add, zero_add]

/-- **C40.**  If `Y` does not mention `X`, then after `PreComp(Y)` all elements of `DevalR(Y, X)` are
zero, as is every derivative of `Y` with respect to `X`.  Partial, because the shape of the answer is
that of `Y` (1×1), not that of `X`: see `C40_missing_variable_shape_counterexample`. -/
theorem C40_missing_variable_zero_partial {E : MEnv K} {rank : ℕ → ℕ} {s : MSt K} {U : ℕ → Prop}
    (h : MHist E rank s U) (c : MCtx K) (hE : c.E = E) {o X f : ℕ} (hq : RevQueryOk c rank o X)
    (hf : rank o < f) (hg : NoGaps E U o) (hm : ¬MReach E o X) :
    ∃ s' m, matPreComp c f o s = some s' ∧ matDevalR E o X s' = some m ∧
      m.rows = E.rows o ∧ m.cols = E.cols o ∧
      (∀ i j, i < m.rows → j < m.cols → m.get? i j = some 0) ∧
      ∀ i j, i < E.rows X → j < E.cols X → MDer c X rank o 0 0 i j = 0 := by
  obtain ⟨s', own, nd, e1, hc⟩ := preComp_spec h c hE hq hf hg
  subst hE
  have hno : ¬(s'.obj o).cache.has (.obj X) := fun hh =>
    hm ((strictReach_iff hq.isVar hq.root).1 (hc.hasX.1 hh))
  have hfm : (s'.obj o).cache.find (.obj X) = none := by
    rcases hfm : (s'.obj o).cache.find (.obj X) with _ | m
    · rfl
    · exact absurd ⟨m, hfm⟩ hno
  obtain ⟨m, hz, hrep⟩ : ∃ m, Mat.zeros (c.E.rows o) (c.E.cols o) = some m ∧
      Rep m (c.E.rows o) (c.E.cols o) (fun _ _ => (0 : K)) :=
    Mat.zeros_spec (hq.query.wf.rpos o) (hq.query.wf.cpos o)
  refine ⟨s', m, e1, by simp [matDevalR, hfm, hz], hrep.rows, hrep.cols, ?_, ?_⟩
  · intro i j hi hj
    rw [hrep.rows] at hi
    rw [hrep.cols] at hj
    exact hrep.elem i j hi hj
  · intro i j hi hj
    rw [← hc.entX i j hi hj, MCache.ent_of_not_has hno]

/-- **C30 over the reals**, with the Eigen handler: let the scalars depend on a real parameter `u`
(the value of `X(i,j)`), the current values being those at `u = t`.  Then after any run, element
`(i,j)` of `DevalR(Y, X)` is the derivative of `Y` with respect to `X(i,j)`. -/
theorem C30_reverse_real_partial {E : MEnv ℝ} {rank : ℕ → ℕ} {s : MSt ℝ} {U : ℕ → Prop}
    (h : MHist E rank s U) (g : Cfg) (π : Sched)
    (sv : ℝ → ℕ → ℝ) (der : ℕ → ℕ → ℝ) (t : ℝ)
    {o X f : ℕ} (hq : RevQueryOk ⟨backend g π, π, E, ⟨sv t, der⟩⟩ rank o X)
    (hf : rank o < f) (hg : NoGaps E U o) (hm : MReach E o X)
    {i j : ℕ} (hi : i < E.rows X) (hj : j < E.cols X)
    (hs : ∀ a, HasDerivAt (fun u => sv u a) (der a (E.vid (E.el X i j))) t)
    (hnum : ∀ o, E.kind o = .num ∨ E.kind o = .par → ∀ l k, l < E.rows o → k < E.cols o →
      der (E.el o l k) (E.vid (E.el X i j)) = 0)
    (hvar : ∀ o, E.kind o = .var → ∀ l k, l < E.rows o → k < E.cols o →
      der (E.el o l k) (E.vid (E.el X i j)) =
        if E.vid (E.el o l k) = E.vid (E.el X i j) then 1 else 0)
    (heyes : ∀ u, EyesOk E (sv u))
    (hmaps : ∀ p n e eye, MReach E o p → E.kind p = .form n e eye →
      MapsOk E (sv t) (valOf E (sv t) rank) e) :
    ∃ s' m d, matPreComp ⟨backend g π, π, E, ⟨sv t, der⟩⟩ f o s = some s' ∧
      matDevalR E o X s' = some m ∧ m.rows = E.rows X ∧ m.cols = E.cols X ∧
      m.get? i j = some d ∧ HasDerivAt (fun u => valOf E (sv u) rank o 0 0) d t := by
  obtain ⟨s1, m1, e1, e2, h1, h2, h3⟩ := C30_reverse_value_partial h
    ⟨backend g π, π, E, ⟨sv t, der⟩⟩ rfl hq hf hg hm
  obtain ⟨o1, o2⟩ := hq.one o MReach.refl hq.root
  refine ⟨s1, m1, _, e1, e2, h1, h2, h3 i j hi hj, ?_⟩
  exact V_hasDerivAt hq.query.wf (MReach.closed E o)
    (sd := MCtx.sd ⟨backend g π, π, E, ⟨sv t, der⟩⟩ X) (V := fun u => valOf E (sv u) rank)
    hi hj hs (fun p _ hp => hnum p hp) (fun p _ hp => hvar p hp)
    (fun u => valOf_solves E (sv u) hq.query.wf (heyes u) _)
    (derOf_solves E (sv t) _ _ X hq.query.wf _)
    (fun p hp n e eye hk => hq.query.forms.invertible p hp n e eye hk)
    (fun p hp n e eye hk => hmaps p n e eye hp hk) (rank o + 1) o MReach.refl (by omega) 0 0
    (by rw [show E.rows o = 1 from o1]; omega) (by rw [show E.cols o = 1 from o2]; omega)

/-! ## A concrete program -/

namespace RExample

/-- `X` (object 0, 2×2 variables), 1×1 identity (1), `q = A*inv(X)*transpose(A)` (2),
`Y = q*det(X) + 3*q` (3), `A` (4, 1×2 numbers), `W` (5, 2×2 variables). -/
def E : MEnv ℚ where
  kind := fun o => match o with
    | 0 => .var
    | 5 => .var
    | 2 => .form 20 (.bin 21 .mul (.bin 22 .mul (.obj 4) (.un 23 .inv (.obj 0)))
        (.un 24 .tr (.obj 4))) 1
    | 3 => .form 30 (.bin 31 .add (.bin 32 .mul (.obj 2) (.un 33 .det (.obj 0)))
        (.un 34 (.smul 3) (.obj 2))) 1
    | _ => .num
  rows := fun o => if o = 0 ∨ o = 5 then 2 else 1
  cols := fun o => if o = 0 ∨ o = 5 ∨ o = 4 then 2 else 1
  el := fun o i j => if o = 0 then i * 2 + j else if o = 5 then 6 + i * 2 + j else if o = 4 then j + 1
    else 4
  vid := id

def rank : ℕ → ℕ | 2 => 1 | 3 => 2 | _ => 0

/-- `X = [[1,2],[3,4]]`, `A = [2,3]`. -/
noncomputable def ctx : MCtx ℚ :=
  ⟨backend ⟨.eigen, false, .cpu⟩ Sched.seq, Sched.seq, E,
    ⟨fun a => match a with | 0 => 1 | 1 => 2 | 2 => 3 | 3 => 4 | 4 => 1 | _ => 0,
     fun a v => if a = v then 1 else 0⟩⟩

theorem kinds {o n e eye} (hk : E.kind o = .form n e eye) :
    eye = 1 ∧ ((o = 2 ∧ n = 20 ∧ e = .bin 21 .mul (.bin 22 .mul (.obj 4) (.un 23 .inv (.obj 0)))
        (.un 24 .tr (.obj 4))) ∨
    (o = 3 ∧ n = 30 ∧ e = .bin 31 .add (.bin 32 .mul (.obj 2) (.un 33 .det (.obj 0)))
        (.un 34 (.smul 3) (.obj 2)))) := by
  match o with
  | 0 => simp [E] at hk
  | 1 => simp [E] at hk
  | 2 =>
    simp only [E, MKind.form.injEq] at hk
    exact ⟨hk.2.2.symm, Or.inl ⟨rfl, hk.1.symm, hk.2.1.symm⟩⟩
  | 3 =>
    simp only [E, MKind.form.injEq] at hk
    exact ⟨hk.2.2.symm, Or.inr ⟨rfl, hk.1.symm, hk.2.1.symm⟩⟩
  | 4 => simp [E] at hk
  | 5 => simp [E] at hk
  | (k + 6) => simp [E] at hk

theorem vars {o} (hk : E.kind o = .var) : o = 0 ∨ o = 5 := by
  match o with
  | 0 => simp
  | 1 => simp [E] at hk
  | 2 => simp [E] at hk
  | 3 => simp [E] at hk
  | 4 => simp [E] at hk
  | 5 => simp
  | (k + 6) => simp [E] at hk

theorem noExp (o : ℕ) : E.kind o ≠ .exp := by
  match o with
  | 0 => simp [E]
  | 1 => simp [E]
  | 2 => simp [E]
  | 3 => simp [E]
  | 4 => simp [E]
  | 5 => simp [E]
  | (k + 6) => simp [E]

theorem wf : E.WF rank := by
  refine ⟨fun o => ?_, fun o => ?_, ?_⟩
  · simp only [E]; split <;> omega
  · simp only [E]; split <;> omega
  · intro o n e eye hk
    obtain ⟨rfl, ⟨rfl, rfl, rfl⟩ | ⟨rfl, rfl, rfl⟩⟩ := kinds hk
    · refine ⟨rfl, rfl, rfl, ?_, rfl, rfl, ?_⟩
      · simp [DimOk, MNode.dims, MBin.dimOk, MBin.odims, MBin.padOk, MUn.dimOk, E]
      · intro q hq
        simp only [MEnv.item, MNode.objs, List.mem_append, List.mem_singleton] at hq
        rcases hq with ((rfl | rfl) | rfl) | rfl <;> decide
    · refine ⟨rfl, rfl, rfl, ?_, rfl, rfl, ?_⟩
      · simp [DimOk, MNode.dims, MBin.dimOk, MBin.odims, MBin.padOk, MUn.dimOk, E]
      · intro q hq
        simp only [MEnv.item, MNode.objs, List.mem_append, List.mem_singleton] at hq
        rcases hq with ((rfl | rfl) | rfl) | rfl <;> decide

theorem detX : (toMatrix 2 (MVal ctx rank 0)).det ≠ 0 := by
  have hm : toMatrix 2 (MVal ctx rank 0) = !![1, 2; 3, 4] := by
    ext a b; fin_cases a <;> fin_cases b <;> simp [toMatrix, MVal, valOf, valO, E, rank, ctx]
  rw [hm, Matrix.det_fin_two]
  norm_num

theorem revQueryOk {X : ℕ} (hX : E.kind X = .var) : RevQueryOk ctx rank 3 X := by
  have hg : Cfg.CPU ⟨.eigen, false, .cpu⟩ := rfl
  refine ⟨⟨wf, backend_sound hg _ (Or.inl rfl), ?_, ⟨fun _ _ _ _ _ _ _ => backend_invSound hg rfl _, ?_⟩⟩,
    ⟨_, _, _, rfl⟩, ?_, ?_, hX, ⟨?_, ?_⟩, ?_, ?_, ?_⟩
  · intro o n e eye hk i j hi hj
    obtain ⟨rfl, _⟩ := kinds hk
    have h1 : i < 1 := hi
    have h2 : j < 1 := hj
    obtain rfl : i = 0 := by omega
    obtain rfl : j = 0 := by omega
    rfl
  · intro p _ n e eye hk
    obtain ⟨_, ⟨_, _, rfl⟩ | ⟨_, _, rfl⟩⟩ := kinds hk
    · exact ⟨⟨trivial, trivial, detX⟩, trivial⟩
    · exact ⟨⟨trivial, trivial, fun _ => detX⟩, trivial⟩
  · rintro q _ ⟨n, e, eye, hk⟩
    obtain ⟨_, ⟨rfl, _⟩ | ⟨rfl, _⟩⟩ := kinds hk <;> exact ⟨rfl, rfl⟩
  · intro o p ho hp l k i j hl hk hi hj h
    rcases vars ho with rfl | rfl <;> rcases vars hp with rfl | rfl <;>
      simp [ctx, E] at hl hk hi hj h ⊢ <;> omega
  · intro q _ n e eye hk
    obtain ⟨_, ⟨_, rfl, rfl⟩ | ⟨_, rfl, rfl⟩⟩ := kinds hk <;>
      simp [MEnv.item, MNode.nums]
  · intro q _ p _ n e eye n' e' eye' hk hk' m hm hm'
    obtain ⟨_, ⟨rfl, rfl, rfl⟩ | ⟨rfl, rfl, rfl⟩⟩ := kinds hk <;>
      obtain ⟨_, ⟨rfl, rfl, rfl⟩ | ⟨rfl, rfl, rfl⟩⟩ := kinds hk' <;>
      simp [MEnv.item, MNode.nums] at hm hm' ⊢ <;> omega
  · intro q _ hk; exact absurd hk (noExp q)
  · intro q n e eye _ hk
    obtain ⟨_, ⟨_, _, rfl⟩ | ⟨_, _, rfl⟩⟩ := kinds hk <;>
      simp [CoeffConst, MUn.coeffConst]
  · intro q n e eye _ hk
    obtain ⟨_, ⟨_, _, rfl⟩ | ⟨_, _, rfl⟩⟩ := kinds hk <;>
      simp [ConvRev, MBin.revOk]

theorem reaches : MReach E 3 0 :=
  MReach.refl.step (n := 30) rfl (by simp [MEnv.item, MNode.objs])

/-- The hypotheses of `C30_reverse_eq_forward_partial` are met by `Y` and `X`. -/
example : ∃ s' m s'' m', matPreComp ctx 3 3 MSt.fresh = some s' ∧ matDevalR E 3 0 s' = some m ∧
      matDevalF ctx 3 0 (.obj 3) MSt.fresh = some (s'', m') ∧ m.rows = m'.rows ∧ m.cols = m'.cols ∧
      ∀ i j, i < m.rows → j < m.cols → m.get? i j = m'.get? i j :=
  C30_reverse_eq_forward_partial (E := E) (rank := rank) MHist.fresh ctx rfl
    (backend_kronSound (g := ⟨.eigen, false, .cpu⟩) rfl rfl _) (PadsOk.of_empty rfl rfl)
    (revQueryOk rfl) (by decide) (Or.inr fun _ _ h => h) reaches

/-- The hypotheses of `C40_missing_variable_zero_partial` are met by `Y` and `W`. -/
example : ∃ s' m, matPreComp ctx 3 3 MSt.fresh = some s' ∧ matDevalR E 3 5 s' = some m ∧
      m.rows = 1 ∧ m.cols = 1 ∧ (∀ i j, i < m.rows → j < m.cols → m.get? i j = some 0) ∧
      ∀ i j, i < 2 → j < 2 → MDer ctx 5 rank 3 0 0 i j = 0 := by
  refine C40_missing_variable_zero_partial (E := E) (rank := rank) MHist.fresh ctx rfl
    (revQueryOk rfl) (by decide) (fun _ _ _ _ _ _ _ _ _ h => h.elim) ?_
  intro h
  have : ∀ p, MReach E 3 p → p ∈ ({0, 1, 2, 3, 4} : Set ℕ) := by
    intro p hp
    induction hp with
    | refl => simp
    | step _ hk hq _ =>
      obtain ⟨rfl, ⟨_, rfl, rfl⟩ | ⟨_, rfl, rfl⟩⟩ := kinds hk <;>
        simp [MEnv.item, MNode.objs] at hq ⊢ <;> omega
  simpa using this 5 h

end RExample

/-! ## Where it fails -/

namespace RBad

/-- `X` (object 0) and `W` (5): 2×1 variables; `t` (6): 1×1 variable; identity 1×1 (1), 2×2 (8);
`F = X + X` (2, 2×1); `Y = transpose(F) * X` (3); `q = t + t` (4), `p = q + q` (7), `Z = p + t` (9);
`C = e * t` (10) with a scalar expression `e` equal to `t`'s element; `R = transpose(X) * X` (11);
`v(1,1,X.getMatrixPtr())` (12), a view of the first element of `X`; `G = transpose(X) * X + v` (13). -/
def E : MEnv ℚ where
  kind := fun o => match o with
    | 0 => .var
    | 5 => .var
    | 6 => .var
    | 2 => .form 20 (.bin 21 .add (.obj 0) (.obj 0)) 1
    | 3 => .form 30 (.bin 31 .mul (.un 32 .tr (.obj 2)) (.obj 0)) 1
    | 4 => .form 40 (.bin 41 .add (.obj 6) (.obj 6)) 1
    | 7 => .form 70 (.bin 71 .add (.obj 4) (.obj 4)) 1
    | 9 => .form 90 (.bin 91 .add (.obj 7) (.obj 6)) 1
    | 10 => .form 100 (.un 101 (.smulE 20) (.obj 6)) 1
    | 11 => .form 110 (.bin 111 .mul (.un 112 .tr (.obj 0)) (.obj 0)) 1
    | 12 => .var
    | 13 => .form 130 (.bin 131 .add (.bin 132 .mul (.un 133 .tr (.obj 0)) (.obj 0)) (.obj 12)) 1
    | _ => .num
  rows := fun o => if o = 0 ∨ o = 5 ∨ o = 2 then 2 else 1
  cols := fun _ => 1
  el := fun o i _ => if o = 0 then i else if o = 12 then 0 else if o = 5 then 2 + i else if o = 6 then 4 else 5
  vid := id

/-- `X = [2,3]`, `t = 3`, the scalar expression number 20 is `t`'s element. -/
def ctx : MCtx ℚ :=
  ⟨naiveB Sched.seq, Sched.seq, E,
    ⟨fun a => match a with | 0 => 2 | 1 => 3 | 4 => 3 | 5 => 1 | 20 => 3 | _ => 0,
     fun a v => if a = v ∨ (a = 20 ∧ v = 4) then 1 else 0⟩⟩

/-- **C30 fails for a nested named formula that is not 1×1**: `PreComp(Y)` with
`F = X + X; Y = transpose(F) * X` aborts, although `DevalF(Y, X)` works and although
`R = transpose(X) * X` without the nested name works. -/
theorem C30_nested_formula_aborts :
    (matPreComp ctx 5 3 MSt.fresh).isNone ∧
    (matDevalF ctx 5 0 (.obj 3) MSt.fresh).map (fun p => p.2.data) = some [8, 12] ∧
    ((matPreComp ctx 5 11 MSt.fresh).bind fun s => (matDevalR E 11 0 s).map Mat.data)
      = some [4, 6] := by decide +kernel

/-- **C30 fails for a scalar coefficient that depends on `X`**: with `C = e * T` and the scalar
expression `e` equal to the element of `T`, `DevalF(C, T) = 2t = 6`, but `DevalR(C, T) = t = 3`. -/
theorem C30_coefficient_missed_counterexample :
    (matDevalF ctx 5 6 (.obj 10) MSt.fresh).map (fun p => p.2.data) = some [6] ∧
    ((matPreComp ctx 5 10 MSt.fresh).bind fun s => (matDevalR E 10 6 s).map Mat.data) = some [3] := by
  decide +kernel

/-- **C30 fails after a query of a part of the formula** (`NoGaps` is needed): with `q = T + T`,
`p = q + q`, `Z = p + T`, the derivative of `Z` is 5.  If `Eval(q)` comes before, `PreComp(Z)` leaves
`q` marked as visited with an empty cache, and `DevalR(Z, T)` is 1. -/
theorem C30_gap_counterexample :
    ((matPreComp ctx 5 9 MSt.fresh).bind fun s => (matDevalR E 9 6 s).map Mat.data) = some [5] ∧
    (do let (s, _) ← matEval ctx 5 (.obj 4) MSt.fresh
        let s ← matPreComp ctx 5 9 s
        (matDevalR E 9 6 s).map Mat.data) = some [1] := by decide +kernel

/-- **C30 fails for views**: `v` is a view of the first element of `X` and `G = transpose(X) * X + v`.
`DevalF(G, X) = [2*2 + 1, 2*3]`, but `DevalR(G, X) = [4, 6]`: reverse mode tells `Matrix<Variable>` objects apart by
their own numbers, not by those of their Variables, and what comes through `v` is only found as `DevalR(G, v) = 1`. -/
theorem C30_view_missed_counterexample :
    (matDevalF ctx 5 0 (.obj 13) MSt.fresh).map (fun p => p.2.data) = some [5, 6] ∧
    ((matPreComp ctx 5 13 MSt.fresh).bind fun s => (matDevalR E 13 0 s).map Mat.data) = some [4, 6] ∧
    ((matPreComp ctx 5 13 MSt.fresh).bind fun s => (matDevalR E 13 12 s).map Mat.data) = some [1] := by decide +kernel

/-- **C40 fails in the shape**: `DevalR(R, W)` for a 2×1 matrix `W` that `R` does not involve is 1×1. -/
theorem C40_missing_variable_shape_counterexample :
    ((matPreComp ctx 5 11 MSt.fresh).bind fun s =>
      (matDevalR E 11 5 s).map fun m => (m.rows, m.cols, m.data)) = some (1, 1, [0]) ∧
    (E.rows 5, E.cols 5) = (2, 1) := by decide +kernel

end RBad

end CoolDiff
