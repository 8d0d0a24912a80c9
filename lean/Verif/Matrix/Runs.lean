import Verif.Matrix.ExactPre

/-!
# Program runs

Any sequence of `Eval`, `DevalF` and `PreComp` queries, with any change of the scalars in between (`MHist`).
-/

set_option linter.unusedSectionVars false

namespace CoolDiff

variable {K : Type} [Field K] [DecidableEq K]

/-! ## Runs -/

/-- A program run that has reached state `s`; `U` are the matrices used by the queries so far.  It starts with
any run of the exact model (`any`; no condition on what was used before or is current).
Between queries the scalars may change in any way (every step has its own scalar layer `c.sc`), and
so may the kernels (handler selection).  An `Eval` or `DevalF` query is on a matrix that an earlier
query used, or finds only current values stored, or on an expression without gaps (`NoGapsE`); `PreComp` is on a
1×1 formula (`RevQueryOk`, with respect to some `X`) without gaps (`NoGaps`). -/
inductive MHist (E : MEnv K) (rank : ℕ → ℕ) : MSt K → (ℕ → Prop) → Prop
  | fresh : MHist E rank MSt.fresh (fun _ => False)
  | any {s M} : E.WF rank → MRun E rank s M → MHist E rank s M.used
  | eval {s U s' m} (c : MCtx K) (o f : ℕ) : MHist E rank s U → c.E = E → QueryOk c rank False o →
      rank o < f → (U o ∨ Current E (MVal c rank) o s) → matEval c f (.obj o) s = some (s', m) →
      MHist E rank s' (fun p => U p ∨ MReach E o p)
  | devalF {s U s' m} (c : MCtx K) (o X f : ℕ) : MHist E rank s U → c.E = E →
      QueryOk c rank True o → c.B.KronSound → PadsOk E X → VarsOk E → E.kind X = .var → rank o < f →
      (U o ∨ (Current E (MVal c rank) o s ∧ CurrentD c X (MDer c X rank) o s)) →
      matDevalF c f X (.obj o) s = some (s', m) →
      MHist E rank s' (fun p => U p ∨ MReach E o p)
  | precomp {s U s'} (c : MCtx K) (o X f : ℕ) : MHist E rank s U → c.E = E →
      RevQueryOk c rank o X → rank o < f → NoGaps E U o → matPreComp c f o s = some s' →
      MHist E rank s' (fun p => U p ∨ MReach E o p)
  | evalE {s U s' m} (c : MCtx K) (e : MNode K) (f : ℕ) : MHist E rank s U → c.E = E → QueryOkE c rank False e →
      (∀ q ∈ e.objs, rank q < f) → NoGapsE E U e → matEval c f e s = some (s', m) →
      MHist E rank s' (fun p => U p ∨ EReach E e p)
  | devalFE {s U s' m} (c : MCtx K) (e : MNode K) (X f : ℕ) : MHist E rank s U → c.E = E → QueryOkE c rank True e →
      c.B.KronSound → PadsOk E X → VarsOk E → E.kind X = .var → (∀ q ∈ e.objs, rank q < f) → NoGapsE E U e →
      matDevalF c f X e s = some (s', m) → MHist E rank s' (fun p => U p ∨ EReach E e p)

/-- What every run guarantees between queries. -/
theorem MHist.all {E : MEnv K} {rank : ℕ → ℕ} {s : MSt K} {U : ℕ → Prop} (h : MHist E rank s U) :
    Rest E s ∧ (∀ p, (s.obj p).visited = true ↔ U p) ∧ ∀ q, CacheAt s q := by
  induction h with
  | fresh => exact ⟨Rest.fresh E, fun p => by simp [MSt.fresh], fun _ _ => rfl⟩
  | any hwf h => exact ⟨(h.inv hwf).rest, (h.inv hwf).st.vis, h.cache hwf⟩
  | @eval s U s' m c o f _ hE hq hf hr he ih =>
    subst hE
    obtain ⟨hs, hU, hC⟩ := ih
    obtain ⟨s1, m1, e1, _, r1, v1, _, o1⟩ := matEval_spec hq.wf hq.sound hq.forms
      (valOf_solves c.E c.sc.val hq.wf hq.eyes _) hs hf (hr.imp (hU o).2 id)
    rw [he] at e1; cases e1
    refine ⟨r1, fun p => ?_, fun p => ?_⟩
    · by_cases hp : MReach c.E o p
      · exact ⟨fun _ => Or.inr hp, fun _ => r1.reach hp v1⟩
      · rw [o1 p hp, hU p]; exact ⟨Or.inl, fun h => h.resolve_right hp⟩
    · by_cases hp : MReach c.E o p
      · intro hv; rw [r1.reach hp v1] at hv; cases hv
      · intro hv; rw [o1 p hp] at hv ⊢; exact hC p hv
  | @devalF s U s' m c o X f _ hE hq hK hP hvars hX hf hr he ih =>
    subst hE
    obtain ⟨hs, hU, hC⟩ := ih
    obtain ⟨s1, m1, e1, _, r1, v1, _, _, o1⟩ := matDevalF_spec hq.wf hq.sound hK hP hq.forms
      (valOf_solves c.E c.sc.val hq.wf hq.eyes _) hvars hX
      (derOf_solves c.E c.sc.val (c.sd X) _ X hq.wf _) hs hf (hr.imp (hU o).2 id)
    rw [he] at e1; cases e1
    refine ⟨r1, fun p => ?_, fun p => ?_⟩
    · by_cases hp : MReach c.E o p
      · exact ⟨fun _ => Or.inr hp, fun _ => r1.reach hp v1⟩
      · rw [o1 p hp, hU p]; exact ⟨Or.inl, fun h => h.resolve_right hp⟩
    · by_cases hp : MReach c.E o p
      · intro hv; rw [r1.reach hp v1] at hv; cases hv
      · intro hv; rw [o1 p hp] at hv ⊢; exact hC p hv
  | @precomp s U s' c o X f _ hE hq hf hg he ih =>
    subst hE
    obtain ⟨hs, hU, hC⟩ := ih
    obtain ⟨s1, _, _, e1, _, r1, c1, v1, o1⟩ := matPreComp_spec hq hf hs hC
      (fun p n e eye q h1 h2 h3 h4 h5 => (hU p).2 (hg p n e eye q h1 h2 h3 h4 ((hU q).1 h5)))
    rw [he] at e1; cases e1
    refine ⟨r1, fun p => ?_, c1⟩
    by_cases hp : MReach c.E o p
    · exact ⟨fun _ => Or.inr hp, fun _ => v1 p hp⟩
    · rw [o1 p hp, hU p]; exact ⟨Or.inl, fun h => h.resolve_right hp⟩
  | @evalE s U s' m c e f _ hE hq hf hg he ih =>
    subst hE
    obtain ⟨hs, hU, hC⟩ := ih
    obtain ⟨s1, m1, e1, _, r1, v1, o1, _⟩ := matEvalE_spec hq.wf hq.sound hq.forms
      (valOf_solves c.E c.sc.val hq.wf hq.eyes _) hq.dims hq.inv hq.invertible hs hf
      (fun p n e' eye q h1 h2 h3 h4 => (hU p).2 (hg p n e' eye q h1 h2 h3 ((hU q).1 h4)))
    rw [he] at e1; cases e1
    refine ⟨r1, fun p => ?_, fun p => ?_⟩
    · by_cases hp : EReach c.E e p
      · exact ⟨fun _ => Or.inr hp, fun _ => v1 p hp⟩
      · rw [o1 p hp, hU p]; exact ⟨Or.inl, fun h => h.resolve_right hp⟩
    · by_cases hp : EReach c.E e p
      · intro hv; rw [v1 p hp] at hv; cases hv
      · intro hv; rw [o1 p hp] at hv ⊢; exact hC p hv
  | @devalFE s U s' m c e X f _ hE hq hK hP hvars hX hf hg he ih =>
    subst hE
    obtain ⟨hs, hU, hC⟩ := ih
    obtain ⟨s1, m1, e1, _, r1, v1, o1, _⟩ := matDevalFE_spec hq.wf hq.sound hK hP hq.forms
      (valOf_solves c.E c.sc.val hq.wf hq.eyes _) hq.dims hq.inv hq.invertible hvars hX
      (derOf_solves c.E c.sc.val (c.sd X) _ X hq.wf _) hs hf
      (fun p n e' eye q h1 h2 h3 h4 => (hU p).2 (hg p n e' eye q h1 h2 h3 ((hU q).1 h4)))
    rw [he] at e1; cases e1
    refine ⟨r1, fun p => ?_, fun p => ?_⟩
    · by_cases hp : EReach c.E e p
      · exact ⟨fun _ => Or.inr hp, fun _ => v1 p hp⟩
      · rw [o1 p hp, hU p]; exact ⟨Or.inl, fun h => h.resolve_right hp⟩
    · by_cases hp : EReach c.E e p
      · intro hv; rw [v1 p hp] at hv; cases hv
      · intro hv; rw [o1 p hp] at hv ⊢; exact hC p hv

theorem MHist.rest {E : MEnv K} {rank : ℕ → ℕ} {s : MSt K} {U : ℕ → Prop} (h : MHist E rank s U) :
    Rest E s ∧ ∀ p, (s.obj p).visited = true ↔ U p := ⟨h.all.1, h.all.2.1⟩

end CoolDiff
