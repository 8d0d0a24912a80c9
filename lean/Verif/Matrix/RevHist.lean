import Verif.Matrix.PtrRuns
import Verif.Matrix.Runs

/-!
# Runs of matrix queries, with pointers

Repeated `PreComp` calls reuse the objects of earlier ones.  `PHist` are the runs in which this does no
harm: in front of every `PreComp(Y)` that is followed by further queries, the named formulas below `Y`
that mention named formulas have been used by an earlier query (`Warm`).
-/

set_option linter.unusedSectionVars false

namespace CoolDiff

variable {K : Type} [Field K] [DecidableEq K]

/-- Every named formula below `o` that mentions a named formula has been used. -/
def Warm (E : MEnv K) (U : ℕ → Prop) (o : ℕ) : Prop :=
  ∀ q, MReach E o q → q ≠ o → Nested E q → U q

/-- The objects between queries. -/
structure PRest (E : MEnv K) (own kk : ℕ → ℕ) (p : PSt K) : Prop where
  inv : PInv own (Nested E) kk (fun _ => 0) p
  leaf : ∀ q, ¬E.isForm q → p.cache q = []

theorem PRest.fresh (E : MEnv K) (own kk : ℕ → ℕ) : PRest E own kk (PSt.fresh : PSt K) := by
  refine ⟨⟨?_, ?_, ?_⟩, fun _ _ => rfl⟩
  · intro n σ h hh; cases hh
  · intro q e he; cases he
  · intro n; exact ⟨fun σ h _ (hh : none = some h) => (by simp at hh), fun σ τ h g _ _ (hh : none = some h) => (by simp at hh)⟩

theorem PSt.fresh_val : (PSt.fresh : PSt K).val = MSt.fresh := rfl

theorem PSt.rd_nil {p : PSt K} {κ : PCache} (h : p.rd κ = []) : κ = [] := by
  simpa [PSt.rd] using h

section
variable {c : MCtx K} {rank : ℕ → ℕ} {own : ℕ → ℕ} {nd : ℕ → ℕ × ℕ} {kk : ℕ → ℕ}
  {ck : ℕ → Finset MKey}

/-- **`PreComp` with pointers** computes the same as with matrices. -/
theorem pPreComp_spec {o X f : ℕ} (hq : RevQueryOk c rank o X) (hf : rank o < f)
    (hst : Static c.E own (Nested c.E) kk ck)
    (hn : ∀ q, ∀ n e eye, c.E.kind q = .form n e eye → (MEnv.item n e eye).nums.Nodup ∧
      (∀ m ∈ (MEnv.item n e eye).nums, own m = q) ∧ NdOk c.E nd (MEnv.item n e eye))
    {p : PSt K} (hs : Rest c.E p.val) (hc : ∀ q, CacheAt p.val q)
    (hg : NoGaps c.E (fun q => (p.base.obj q).visited = true) o) (hp : PRest c.E own kk p) :
    ∃ p', pPreComp c f o p = some p' ∧ matPreComp c f o p.val = some p'.val ∧
      (Warm c.E (fun q => (p.base.obj q).visited = true) o → PRest c.E own kk p') := by
  classical
  obtain ⟨s1, e1, t1, o1, d1, c1, u1⟩ := precompReset_spec (c := c) (X := X) (V := MVal c rank)
    (D := MDer c X rank) (own := own) (nd := nd) hq.query.wf hs hc hq.root hf hg
  obtain ⟨p1, a1, rfl, r1, z1⟩ := precompResetP_spec hq.root e1
  let bs : ℕ → ℕ := fun m => if ∃ q, MReach c.E o q ∧ ∃ n e eye, c.E.kind q = .form n e eye ∧
    m ∈ (MEnv.item n e eye).nums then p1.cnt m else 0
  have i0 := r1.inv hp.inv
  have hleaf1 : ∀ q, ¬c.E.isForm q → p1.cache q = [] := fun q hq' => by
    rcases r1.cache q with h | h
    · rw [h]; exact hp.leaf q hq'
    · exact h
  have q1 : PTInv c rank (MReach c.E o) own (Nested c.E) kk bs ck (rank o + 1) p1 := by
    refine ⟨⟨i0.slot, i0.cache, fun n => (i0.node n).mono (fun _ => Nat.zero_le _)⟩, ?_, ?_, ?_, ?_⟩
    · intro q _ _ hv
      exact PSt.rd_nil (c1 q hv)
    · intro q hqS n e eye hk _ m hm
      exact (if_pos ⟨q, hqS, n, e, eye, hk, hm⟩).symm
    · intro q hqS _ _ hv
      have : (p1.base.obj q).visited = false := u1 q hqS
      rw [this] at hv; cases hv
    · intro q _; exact hleaf1 q
  obtain ⟨p2, e2, e2v, q2, f2⟩ := mtravP_spec (hq.revOk (fun q _ => hn q)) hst f (rank o + 1) hf o
    MReach.refl (by omega) p1 t1 q1
  refine ⟨p2, ?_, ?_, fun hw => ⟨⟨q2.inv.slot, q2.inv.cache, fun n => ?_⟩, fun q hl => ?_⟩⟩
  · simp [pPreComp, a1, e2]
  · simp [matPreComp, e1, e2v]
  · refine (q2.inv.node n).mono (fun hmg => ?_)
    by_cases hex : ∃ q, MReach c.E o q ∧ ∃ n' e eye, c.E.kind q = .form n' e eye ∧
        n ∈ (MEnv.item n' e eye).nums
    · have hbs : bs n = p1.cnt n := if_pos hex
      obtain ⟨q, hqS, n', e, eye, hk, hm⟩ := hex
      rw [hst.own q n' e eye hk n hm] at hmg
      rw [hbs]
      by_cases hqo : q = o
      · subst hqo; rw [z1 n' e eye hk n hm]
      · rw [r1.clr q n' e eye hk (hw q hqS hqo hmg) (u1 q hqS) n hm]
    · exact le_of_eq (if_neg hex)
  · by_cases hS : MReach c.E o q
    · exact q2.leaf q hS hl
    · rw [f2.cache q (fun h => hS h.1)]; exact hleaf1 q hl

/-- **`Eval` with pointers.** -/
theorem pEval_spec {o f : ℕ} (hq : QueryOk c rank False o) (hf : rank o < f) {p : PSt K}
    (hs : Rest c.E p.val) (hcur : (p.base.obj o).visited = true ∨ Current c.E (MVal c rank) o p.val)
    (hp : PRest c.E own kk p) :
    ∃ p' m, pEval c f o p = some (p', m) ∧ matEval c f (.obj o) p.val = some (p'.val, m) ∧
      PRest c.E own kk p' := by
  obtain ⟨s0, e0, i0, _, _, _⟩ := hs.prepare (V := MVal c rank) hq.wf hf hcur
  obtain ⟨p0, a0, rfl, r0⟩ := presetO_spec c.E f o p s0 e0
  obtain ⟨s1, m, e1, _, f1, _⟩ := mevalO_spec hq.wf hq.sound (MReach.closed c.E o) hq.forms
    (valOf_solves c.E c.sc.val hq.wf hq.eyes _) f (rank o + 1) hf o MReach.refl (by omega) p0.val i0
  have hv : (p0.setBase s1).val = s1 := PSt.setBase_val (fun q => f1.cache q)
  refine ⟨p0.setBase s1, m, ?_, ?_, (r0.inv hp.inv).setBase _, fun q hl => ?_⟩
  · simp [pEval, a0, PSt.run_eq e1]
  · rw [hv]; simp [matEval, mresetE, evalE, e0, e1]
  · show p0.cache q = []
    rcases r0.cache q with h | h
    · rw [h]; exact hp.leaf q hl
    · exact h

/-- **`DevalF` with pointers.** -/
theorem pDevalF_spec {o X f : ℕ} (hq : QueryOk c rank True o) (hK : c.B.KronSound)
    (hP : PadsOk c.E X) (hvars : VarsOk c.E) (hX : c.E.kind X = .var) (hf : rank o < f) {p : PSt K}
    (hs : Rest c.E p.val) (hcur : (p.base.obj o).visited = true ∨
      (Current c.E (MVal c rank) o p.val ∧ CurrentD c X (MDer c X rank) o p.val))
    (hp : PRest c.E own kk p) :
    ∃ p' m, pDevalF c f X o p = some (p', m) ∧ matDevalF c f X (.obj o) p.val = some (p'.val, m) ∧
      PRest c.E own kk p' := by
  obtain ⟨s0, e0, i0, b0, _, d0⟩ := hs.prepare (V := MVal c rank) hq.wf hf (hcur.imp id And.left)
  obtain ⟨d1, d2⟩ := d0 X (MDer c X rank) (hcur.imp id And.right)
  obtain ⟨p0, a0, rfl, r0⟩ := presetO_spec c.E f o p s0 e0
  obtain ⟨s1, m, e1, _, f1, _⟩ := mfwdO_spec hq.wf hq.sound hK hP (MReach.closed c.E o) hq.forms
    (valOf_solves c.E c.sc.val hq.wf hq.eyes _) hvars hX
    (derOf_solves c.E c.sc.val (c.sd X) _ X hq.wf _) f
    (rank o + 1) hf o MReach.refl (by omega) p0.val ⟨i0, b0, d1, fun p hp _ => d2 p hp⟩
  have hv : (p0.setBase s1).val = s1 := PSt.setBase_val (fun q => f1.cache q)
  refine ⟨p0.setBase s1, m, ?_, ?_, (r0.inv hp.inv).setBase _, fun q hl => ?_⟩
  · simp [pDevalF, a0, PSt.run_eq e1]
  · rw [hv]; simp [matDevalF, mresetE, fwdE, e0, e1]
  · show p0.cache q = []
    rcases r0.cache q with h | h
    · rw [h]; exact hp.leaf q hl
    · exact h

/-- **`Eval` of an expression with pointers.** -/
theorem pEvalE_spec {e : MNode K} {f : ℕ} (hq : QueryOkE c rank False e) (hf : ∀ q ∈ e.objs, rank q < f) {p : PSt K}
    (hs : Rest c.E p.val) (hg : NoGapsE c.E (fun q => (p.base.obj q).visited = true) e) (hp : PRest c.E own kk p) :
    ∃ p' m, pEvalE c f e p = some (p', m) ∧ matEval c f e p.val = some (p'.val, m) ∧ PRest c.E own kk p' := by
  obtain ⟨s1, m, e1, _, _, _, _, s0, e0, e1', fc⟩ := matEvalE_spec hq.wf hq.sound hq.forms
    (valOf_solves c.E c.sc.val hq.wf hq.eyes _) hq.dims hq.inv hq.invertible hs hf hg
  obtain ⟨p0, a0, rfl, r0, _⟩ := presetE_spec (presetO_spec c.E f) e p s0 e0
  have hv : (p0.setBase s1).val = s1 := PSt.setBase_val (fun q => fc q)
  refine ⟨p0.setBase s1, m, ?_, ?_, (r0.inv hp.inv).setBase _, fun q hl => ?_⟩
  · simp [pEvalE, a0, PSt.run_eq e1']
  · rw [hv]; exact e1
  · show p0.cache q = []
    rcases r0.cache q with h | h
    · rw [h]; exact hp.leaf q hl
    · exact h

/-- **`DevalF` of an expression with pointers.** -/
theorem pDevalFE_spec {e : MNode K} {X f : ℕ} (hq : QueryOkE c rank True e) (hK : c.B.KronSound)
    (hP : PadsOk c.E X) (hvars : VarsOk c.E) (hX : c.E.kind X = .var) (hf : ∀ q ∈ e.objs, rank q < f) {p : PSt K}
    (hs : Rest c.E p.val) (hg : NoGapsE c.E (fun q => (p.base.obj q).visited = true) e) (hp : PRest c.E own kk p) :
    ∃ p' m, pDevalFE c f X e p = some (p', m) ∧ matDevalF c f X e p.val = some (p'.val, m) ∧
      PRest c.E own kk p' := by
  obtain ⟨s1, m, e1, _, _, _, _, s0, e0, e1', fc⟩ := matDevalFE_spec hq.wf hq.sound hK hP hq.forms
    (valOf_solves c.E c.sc.val hq.wf hq.eyes _) hq.dims hq.inv hq.invertible hvars hX
    (derOf_solves c.E c.sc.val (c.sd X) _ X hq.wf _) hs hf hg
  obtain ⟨p0, a0, rfl, r0, _⟩ := presetE_spec (presetO_spec c.E f) e p s0 e0
  have hv : (p0.setBase s1).val = s1 := PSt.setBase_val (fun q => fc q)
  refine ⟨p0.setBase s1, m, ?_, ?_, (r0.inv hp.inv).setBase _, fun q hl => ?_⟩
  · simp [pDevalFE, a0, PSt.run_eq e1']
  · rw [hv]; exact e1
  · show p0.cache q = []
    rcases r0.cache q with h | h
    · rw [h]; exact hp.leaf q hl
    · exact h

end

/-- `Eval` with pointers does what it does with matrices, in every state. -/
theorem PRest.evalE {c : MCtx K} {own kk : ℕ → ℕ} {f : ℕ} {e : MNode K} {p : PSt K} (hp : PRest c.E own kk p)
    {s' : MSt K} {m : Mat K} (h : matEval c f e p.val = some (s', m)) :
    ∃ p', pEvalE c f e p = some (p', m) ∧ p'.val = s' ∧ PRest c.E own kk p' := by
  simp only [matEval, Option.bind_eq_bind, Option.bind_eq_some_iff] at h
  obtain ⟨s0, e0, h2⟩ := h
  obtain ⟨p0, a0, rfl, r0, _⟩ := presetE_spec (presetO_spec c.E f) e p s0 e0
  refine ⟨p0.setBase s', ?_, PSt.setBase_val (evalE_kstep (mevalO_kstep c f) _ _ _ h2),
    (r0.inv hp.inv).setBase _, fun q hl => ?_⟩
  · simp [pEvalE, a0, PSt.run_eq h2]
  · show p0.cache q = []
    rcases r0.cache q with h | h
    · rw [h]; exact hp.leaf q hl
    · exact h

/-- `DevalF` with pointers does what it does with matrices, in every state. -/
theorem PRest.devalFE {c : MCtx K} {own kk : ℕ → ℕ} {f X : ℕ} {e : MNode K} {p : PSt K} (hp : PRest c.E own kk p)
    {s' : MSt K} {m : Mat K} (h : matDevalF c f X e p.val = some (s', m)) :
    ∃ p', pDevalFE c f X e p = some (p', m) ∧ p'.val = s' ∧ PRest c.E own kk p' := by
  simp only [matDevalF, Option.bind_eq_bind, Option.bind_eq_some_iff] at h
  obtain ⟨s0, e0, h2⟩ := h
  obtain ⟨p0, a0, rfl, r0, _⟩ := presetE_spec (presetO_spec c.E f) e p s0 e0
  refine ⟨p0.setBase s', ?_, PSt.setBase_val (fwdE_kstep (mevalO_kstep c f) (mfwdO_kstep c X f) _ _ _ h2),
    (r0.inv hp.inv).setBase _, fun q hl => ?_⟩
  · simp [pDevalFE, a0, PSt.run_eq h2]
  · show p0.cache q = []
    rcases r0.cache q with h | h
    · rw [h]; exact hp.leaf q hl
    · exact h

/-- A run of the exact model (`MRun`), with pointers: `Eval` and `DevalF` on any expression, whatever was used
before; `PreComp` on 1×1 formulas without gaps that are `Warm`. -/
inductive PRun (E : MEnv K) (rank : ℕ → ℕ) : PSt K → Memo K → Prop
  | fresh : PRun E rank PSt.fresh Memo.empty
  | eval {p M p' m} (c : MCtx K) (e : MNode K) (f : ℕ) : PRun E rank p M → c.E = E →
      MemoOk c rank False (M.clear E e) e → (∀ q ∈ e.objs, rank q < f) → pEvalE c f e p = some (p', m) →
      PRun E rank p' (M.afterEval c rank e)
  | devalF {p M p' m} (c : MCtx K) (X : ℕ) (e : MNode K) (f : ℕ) : PRun E rank p M → c.E = E →
      MemoOkD c rank X (M.clear E e) e → (∀ q ∈ e.objs, rank q < f) → pDevalFE c f X e p = some (p', m) →
      PRun E rank p' (M.afterDevalF c rank X e)
  | precomp {p M p'} (c : MCtx K) (o X f : ℕ) : PRun E rank p M → c.E = E → RevQueryOk c rank o X →
      rank o < f → NoGaps E M.used o → Warm E M.used o → pPreComp c f o p = some p' →
      PRun E rank p' (M.afterPre c rank o)

/-- A run with pointers is a run with matrices. -/
theorem PRun.all {E : MEnv K} {rank : ℕ → ℕ} {own : ℕ → ℕ} {nd : ℕ → ℕ × ℕ} {kk : ℕ → ℕ}
    {ck : ℕ → Finset MKey} (hwf : E.WF rank) (hst : Static E own (Nested E) kk ck)
    (hn : ∀ q, ∀ n e eye, E.kind q = .form n e eye → (MEnv.item n e eye).nums.Nodup ∧
      (∀ m ∈ (MEnv.item n e eye).nums, own m = q) ∧ NdOk E nd (MEnv.item n e eye))
    {p : PSt K} {M : Memo K} (h : PRun E rank p M) : MRun E rank p.val M ∧ PRest E own kk p := by
  induction h with
  | fresh => exact ⟨(MRun.fresh : MRun E rank MSt.fresh _), PRest.fresh E own kk⟩
  | @eval p M p' m c e f _ hE hc hf he ih =>
    subst hE
    obtain ⟨s1, m1, e1, _⟩ := (ih.1.inv hwf).eval hwf hc hf
    obtain ⟨p1, a1, rfl, a3⟩ := ih.2.evalE e1
    obtain ⟨rfl, rfl⟩ := Prod.mk.inj (Option.some.inj (he.symm.trans a1))
    exact ⟨.eval c e f ih.1 rfl hc hf e1, a3⟩
  | @devalF p M p' m c X e f _ hE hc hf he ih =>
    subst hE
    obtain ⟨s1, m1, e1, _⟩ := (ih.1.inv hwf).devalF hwf hc hf
    obtain ⟨p1, a1, rfl, a3⟩ := ih.2.devalFE e1
    obtain ⟨rfl, rfl⟩ := Prod.mk.inj (Option.some.inj (he.symm.trans a1))
    exact ⟨.devalF c X e f ih.1 rfl hc hf e1, a3⟩
  | @precomp p M p' c o X f _ hE hq hf hg hw he ih =>
    subst hE
    have hU : ∀ q, (p.base.obj q).visited = true ↔ M.used q := (ih.1.inv hwf).st.vis
    have hg' : NoGaps c.E (fun q => (p.base.obj q).visited = true) o :=
      fun q n e eye q' h1 h2 h3 h4 h5 => (hU q).2 (hg q n e eye q' h1 h2 h3 h4 ((hU q').1 h5))
    obtain ⟨p1, a1, a2, a3⟩ := pPreComp_spec hq hf hst hn (ih.1.inv hwf).rest (ih.1.cache hwf) hg' ih.2
    obtain rfl := Option.some.inj (he.symm.trans a1)
    exact ⟨.precomp c o X f ih.1 rfl hq hf hg a2, a3 (fun q h1 h2 h3 => (hU q).2 (hw q h1 h2 h3))⟩

/-- `DevalR` reads the cache through the pointers. -/
theorem pDevalR_val (E : MEnv K) (o X : ℕ) (p : PSt K) : pDevalR E o X p = matDevalR E o X p.val := by
  have h : (p.val.obj o).cache.find (.obj X) = ((p.cache o).find (.obj X)).map p.read :=
    PSt.find_rd p _ _
  simp only [pDevalR, matDevalR, h]
  cases (p.cache o).find (.obj X) <;> rfl

/-- One query, with pointers, after queries that used the matrices `U`; `R` are the matrices that it reaches.  The
conditions are those of `MHist`, and `PreComp` is `Warm`. -/
inductive PQuery (E : MEnv K) (rank : ℕ → ℕ) (U : ℕ → Prop) : (ℕ → Prop) → PSt K → PSt K → Prop
  | eval {p p' m} (c : MCtx K) {o : ℕ} (f : ℕ) : c.E = E → QueryOk c rank False o →
      rank o < f → (U o ∨ Current E (MVal c rank) o p.val) → pEval c f o p = some (p', m) →
      PQuery E rank U (MReach E o) p p'
  | devalF {p p' m} (c : MCtx K) {o : ℕ} (X f : ℕ) : c.E = E →
      QueryOk c rank True o → c.B.KronSound → PadsOk E X → VarsOk E → E.kind X = .var → rank o < f →
      (U o ∨ (Current E (MVal c rank) o p.val ∧ CurrentD c X (MDer c X rank) o p.val)) →
      pDevalF c f X o p = some (p', m) → PQuery E rank U (MReach E o) p p'
  | precomp {p p'} (c : MCtx K) {o : ℕ} (X f : ℕ) : c.E = E →
      RevQueryOk c rank o X → rank o < f → NoGaps E U o → Warm E U o → pPreComp c f o p = some p' →
      PQuery E rank U (MReach E o) p p'
  | evalE {p p' m} (c : MCtx K) (e : MNode K) (f : ℕ) : c.E = E → QueryOkE c rank False e →
      (∀ q ∈ e.objs, rank q < f) → NoGapsE E U e → pEvalE c f e p = some (p', m) → PQuery E rank U (EReach E e) p p'
  | devalFE {p p' m} (c : MCtx K) (e : MNode K) (X f : ℕ) : c.E = E → QueryOkE c rank True e → c.B.KronSound →
      PadsOk E X → VarsOk E → E.kind X = .var → (∀ q ∈ e.objs, rank q < f) → NoGapsE E U e →
      pDevalFE c f X e p = some (p', m) → PQuery E rank U (EReach E e) p p'

/-- A program run, with pointers; `U` are the matrices used so far.  It starts with any run of the exact model. -/
inductive PHist (E : MEnv K) (rank : ℕ → ℕ) : PSt K → (ℕ → Prop) → Prop
  | fresh : PHist E rank PSt.fresh (fun _ => False)
  | any {p M} : E.WF rank → PRun E rank p M → PHist E rank p M.used
  | query {p U R p'} : PHist E rank p U → PQuery E rank U R p p' →
      PHist E rank p' (fun q => U q ∨ R q)

/-- The run goes on with queries on matrices and expressions that do not use `Y`. -/
inductive PMore (E : MEnv K) (rank : ℕ → ℕ) (Y : ℕ) (p : PSt K) (U : ℕ → Prop) :
    PSt K → (ℕ → Prop) → Prop
  | refl : PMore E rank Y p U p U
  | query {p1 U1 R p2} : PMore E rank Y p U p1 U1 → ¬R Y → PQuery E rank U1 R p1 p2 →
      PMore E rank Y p U p2 (fun q => U1 q ∨ R q)

theorem PMore.hist {E : MEnv K} {rank : ℕ → ℕ} {Y : ℕ} {p p' : PSt K} {U U' : ℕ → Prop}
    (h : PHist E rank p U) (hm : PMore E rank Y p U p' U') : PHist E rank p' U' := by
  induction hm with
  | refl => exact h
  | query _ _ hq ih => exact .query ih hq

/-- A query with pointers is a query with matrices; it leaves alone what it does not reach. -/
theorem PQuery.val {E : MEnv K} {rank : ℕ → ℕ} {own : ℕ → ℕ} {nd : ℕ → ℕ × ℕ} {kk : ℕ → ℕ}
    {ck : ℕ → Finset MKey} (hst : Static E own (Nested E) kk ck)
    (hn : ∀ q, ∀ n e eye, E.kind q = .form n e eye → (MEnv.item n e eye).nums.Nodup ∧
      (∀ m ∈ (MEnv.item n e eye).nums, own m = q) ∧ NdOk E nd (MEnv.item n e eye))
    {p p' : PSt K} {U R : ℕ → Prop} (i1 : MHist E rank p.val U) (i2 : PRest E own kk p)
    (h : PQuery E rank U R p p') :
    MHist E rank p'.val (fun q => U q ∨ R q) ∧ PRest E own kk p' ∧
      ∀ q, ¬R q → p'.val.obj q = p.val.obj q := by
  obtain ⟨hs, hU, hC⟩ := i1.all
  have hU' : ∀ q, (p.base.obj q).visited = true ↔ U q := hU
  cases h with
  | @eval _ _ _ c o f hE hq hf hr he =>
    subst hE
    obtain ⟨p1, m1, a1, a2, a3⟩ := pEval_spec hq hf hs (hr.imp (hU o).2 id) i2
    obtain ⟨rfl, rfl⟩ := Prod.mk.inj (Option.some.inj (he.symm.trans a1))
    obtain ⟨s1, m1, e1, _, _, _, _, o1⟩ := matEval_spec hq.wf hq.sound hq.forms
      (valOf_solves c.E c.sc.val hq.wf hq.eyes _) hs hf (hr.imp (hU o).2 id)
    obtain ⟨rfl, rfl⟩ := Prod.mk.inj (Option.some.inj (a2.symm.trans e1))
    exact ⟨.eval c o f i1 rfl hq hf hr a2, a3, o1⟩
  | @devalF _ _ _ c o X f hE hq hK hP hvars hX hf hr he =>
    subst hE
    obtain ⟨p1, m1, a1, a2, a3⟩ := pDevalF_spec hq hK hP hvars hX hf hs (hr.imp (hU o).2 id) i2
    obtain ⟨rfl, rfl⟩ := Prod.mk.inj (Option.some.inj (he.symm.trans a1))
    obtain ⟨s1, m1, e1, _, _, _, _, _, o1⟩ := matDevalF_spec hq.wf hq.sound hK hP hq.forms
      (valOf_solves c.E c.sc.val hq.wf hq.eyes _) hvars hX
      (derOf_solves c.E c.sc.val (c.sd X) _ X hq.wf _) hs hf (hr.imp (hU o).2 id)
    obtain ⟨rfl, rfl⟩ := Prod.mk.inj (Option.some.inj (a2.symm.trans e1))
    exact ⟨.devalF c o X f i1 rfl hq hK hP hvars hX hf hr a2, a3, o1⟩
  | @precomp _ _ c o X f hE hq hf hg hw he =>
    subst hE
    have hg' : NoGaps c.E (fun q => (p.base.obj q).visited = true) o :=
      fun q n e eye q' h1 h2 h3 h4 h5 => (hU' q).2 (hg q n e eye q' h1 h2 h3 h4 ((hU' q').1 h5))
    obtain ⟨p1, a1, a2, a3⟩ := pPreComp_spec hq hf hst hn hs hC hg' i2
    obtain rfl := Option.some.inj (he.symm.trans a1)
    obtain ⟨s1, _, _, e1, _, _, _, _, o1⟩ := matPreComp_spec hq hf hs hC hg'
    obtain rfl := Option.some.inj (a2.symm.trans e1)
    exact ⟨.precomp c o X f i1 rfl hq hf hg a2,
      a3 (fun q h1 h2 h3 => (hU' q).2 (hw q h1 h2 h3)), o1⟩
  | evalE c e f hE hq hf hg he =>
    subst hE
    have hg' : NoGapsE c.E (fun q => (p.base.obj q).visited = true) e :=
      fun q n e' eye q' h1 h2 h3 h4 => (hU' q).2 (hg q n e' eye q' h1 h2 h3 ((hU' q').1 h4))
    obtain ⟨p1, m1, a1, a2, a3⟩ := pEvalE_spec hq hf hs hg' i2
    obtain ⟨rfl, rfl⟩ := Prod.mk.inj (Option.some.inj (he.symm.trans a1))
    obtain ⟨s1, m1, e1, _, _, _, o1, _⟩ := matEvalE_spec hq.wf hq.sound hq.forms
      (valOf_solves c.E c.sc.val hq.wf hq.eyes _) hq.dims hq.inv hq.invertible hs hf hg'
    obtain ⟨rfl, rfl⟩ := Prod.mk.inj (Option.some.inj (a2.symm.trans e1))
    exact ⟨.evalE c e f i1 rfl hq hf hg a2, a3, o1⟩
  | devalFE c e X f hE hq hK hP hvars hX hf hg he =>
    subst hE
    have hg' : NoGapsE c.E (fun q => (p.base.obj q).visited = true) e :=
      fun q n e' eye q' h1 h2 h3 h4 => (hU' q).2 (hg q n e' eye q' h1 h2 h3 ((hU' q').1 h4))
    obtain ⟨p1, m1, a1, a2, a3⟩ := pDevalFE_spec hq hK hP hvars hX hf hs hg' i2
    obtain ⟨rfl, rfl⟩ := Prod.mk.inj (Option.some.inj (he.symm.trans a1))
    obtain ⟨s1, m1, e1, _, _, _, o1, _⟩ := matDevalFE_spec hq.wf hq.sound hK hP hq.forms
      (valOf_solves c.E c.sc.val hq.wf hq.eyes _) hq.dims hq.inv hq.invertible hvars hX
      (derOf_solves c.E c.sc.val (c.sd X) _ X hq.wf _) hs hf hg'
    obtain ⟨rfl, rfl⟩ := Prod.mk.inj (Option.some.inj (a2.symm.trans e1))
    exact ⟨.devalFE c e X f i1 rfl hq hK hP hvars hX hf hg a2, a3, o1⟩

/-- A run with pointers is a run with matrices. -/
theorem PHist.all {E : MEnv K} {rank : ℕ → ℕ} {own : ℕ → ℕ} {nd : ℕ → ℕ × ℕ} {kk : ℕ → ℕ}
    {ck : ℕ → Finset MKey} (hst : Static E own (Nested E) kk ck)
    (hn : ∀ q, ∀ n e eye, E.kind q = .form n e eye → (MEnv.item n e eye).nums.Nodup ∧
      (∀ m ∈ (MEnv.item n e eye).nums, own m = q) ∧ NdOk E nd (MEnv.item n e eye))
    {p : PSt K} {U : ℕ → Prop} (h : PHist E rank p U) :
    MHist E rank p.val U ∧ PRest E own kk p := by
  induction h with
  | fresh => exact ⟨(MHist.fresh : MHist E rank MSt.fresh _), PRest.fresh E own kk⟩
  | any hwf h => exact ⟨.any hwf (h.all hwf hst hn).1, (h.all hwf hst hn).2⟩
  | query _ hq ih =>
    obtain ⟨a, b, _⟩ := hq.val hst hn ih.1 ih.2
    exact ⟨a, b⟩

end CoolDiff
