import Verif.Matrix.ExprHist

/-!
# Queries on expressions

`TensorR2::Eval(e)` and `TensorR2::DevalF(e, X)` for an operator expression `e` that is not a named matrix.
-/

set_option linter.unusedSectionVars false

namespace CoolDiff

variable {K : Type} [Field K] [DecidableEq K]

/-- The matrices that the expression `e` mentions, directly or through formulas. -/
def EReach (E : MEnv K) (e : MNode K) (p : ℕ) : Prop := ∃ o ∈ e.objs, MReach E o p

/-- Every formula below the expression `e` that uses an already used matrix was itself used. -/
def NoGapsE (E : MEnv K) (U : ℕ → Prop) (e : MNode K) : Prop :=
  ∀ p n e' eye q, EReach E e p → E.kind p = .form n e' eye → q ∈ (MEnv.item n e' eye).objs → U q → U p

theorem EReach.closed (E : MEnv K) (e : MNode K) : Closed E (EReach E e) := by
  rintro p ⟨o, ho, hp⟩ n e' eye hk q hq
  exact ⟨o, ho, hp.step hk hq⟩

theorem EReach.obj {E : MEnv K} {o p : ℕ} : EReach E (.obj o) p ↔ MReach E o p := by
  simp [EReach, MNode.objs]

variable {c : MCtx K} {rank : ℕ → ℕ} {V : ℕ → ℕ → ℕ → K}

theorem EReach.rank_lt (hwf : c.E.WF rank) {e : MNode K} {f : ℕ} (hf : ∀ q ∈ e.objs, rank q < f) {p : ℕ}
    (h : EReach c.E e p) : rank p < f := by
  obtain ⟨o, ho, hp⟩ := h
  exact lt_of_le_of_lt (hp.rank hwf) (hf o ho)

/-- Reset before a query on an expression clears everything it mentions. -/
theorem Rest.prepareE (hwf : c.E.WF rank) {s : MSt K} (hs : Rest c.E s) {f : ℕ} {e : MNode K}
    (hf : ∀ q ∈ e.objs, rank q < f) (hg : NoGapsE c.E (fun q => (s.obj q).visited = true) e) :
    ∃ s0, mresetE (mresetO c.E f) e s = some s0 ∧ MEInv c rank V (EReach c.E e) f s0 ∧
      DBufs c.E s0 ∧ (∀ p, ¬EReach c.E e p → s0.obj p = s.obj p) ∧
      (∀ p, EReach c.E e p → (s0.obj p).visited = false ∧ (¬c.E.isForm p → (s0.obj p).devald = false)) := by
  have hj : JInv c.E rank (EReach c.E e) f s := by
    intro p hp _ hpv n e' eye hk q hq
    by_contra h
    have : (s.obj p).visited = true := hg p n e' eye q hp hk hq (by simpa using h)
    rw [hpv] at this; cases this
  obtain ⟨s0, e0, j0, f0, v0⟩ := mresetE_spec (mresetO_spec hwf (EReach.closed c.E e) f f le_rfl) e
    (fun q hq => ⟨⟨q, hq, .refl⟩, hf q hq⟩) s hj
  have hall : ∀ p, EReach c.E e p → (s0.obj p).visited = false := by
    rintro p ⟨o, ho, hp⟩
    induction hp with
    | refl => exact v0 o ho
    | step hp hk hq ih => exact j0 _ ⟨o, ho, hp⟩ (EReach.rank_lt hwf hf ⟨o, ho, hp⟩) ih _ _ _ hk _ hq
  have hfl : ∀ p, EReach c.E e p → ¬c.E.isForm p → (s0.obj p).evald = false ∧ (s0.obj p).devald = false := by
    intro p hp hl
    have := f0.flags hs.fl p hl
    rw [hall p hp] at this
    constructor
    · by_contra h; exact absurd (this (Or.inl (by simpa using h))) (by simp)
    · by_contra h; exact absurd (this (Or.inr (by simpa using h))) (by simp)
  refine ⟨s0, e0, ⟨by rw [f0.slot]; exact hs.live, ?_, ?_, ?_, ?_⟩, ⟨?_, ?_, ?_⟩, fun p hp => f0.out p fun h => hp h.1,
    fun p hp => ⟨hall p hp, fun hl => (hfl p hp hl).2⟩⟩
  · intro p hp; rw [f0.res]; exact hs.rlive p hp
  · intro p hp hl h; rw [(hfl p hp hl).1] at h; cases h
  · intro p hp _ _ h; rw [hall p hp] at h; cases h
  · intro p hp _ _ _ _ _ h; rw [hall p hp] at h; cases h
  · intro p hp; rw [f0.dres]; exact hs.bufs.live p hp
  · intro p hp; rw [f0.dres]; exact hs.bufs.num p hp
  · intro p hp; rw [f0.dres]; exact hs.bufs.var p hp

/-- A query on an expression leaves the state in order. -/
theorem Rest.afterE (hwf : c.E.WF rank) {s s0 s1 : MSt K} (hs : Rest c.E s) {f : ℕ} {e : MNode K}
    (hf : ∀ q ∈ e.objs, rank q < f) (h0 : ∀ p, ¬EReach c.E e p → s0.obj p = s.obj p)
    (i1 : MEInv c rank V (EReach c.E e) f s1) (hb : DBufs c.E s1)
    (h1 : ∀ p, ¬(EReach c.E e p ∧ rank p < f) → s1.obj p = s0.obj p)
    (hv : ∀ q ∈ e.objs, (s1.obj q).visited = true) :
    Rest c.E s1 ∧ (∀ p, EReach c.E e p → (s1.obj p).visited = true) ∧ ∀ p, ¬EReach c.E e p → s1.obj p = s.obj p := by
  have hall : ∀ p, EReach c.E e p → (s1.obj p).visited = true := by
    rintro p ⟨o, ho, hp⟩
    induction hp with
    | refl => exact hv o ho
    | step hp hk hq ih => exact i1.vc _ ⟨o, ho, hp⟩ (EReach.rank_lt hwf hf ⟨o, ho, hp⟩) _ _ _ hk ih _ hq
  have hout : ∀ p, ¬EReach c.E e p → s1.obj p = s.obj p := fun p hp => by
    rw [h1 p (fun h => hp h.1), h0 p hp]
  refine ⟨⟨i1.live, i1.rlive, hb, ?_, ?_⟩, hall, hout⟩
  · intro p hl hp
    by_cases hr : EReach c.E e p
    · exact hall p hr
    · rw [hout p hr] at hp ⊢; exact hs.fl p hl hp
  · intro p n e' eye hk hp q hq
    by_cases hrq : EReach c.E e q
    · exact hall q hrq
    · have hr : ¬EReach c.E e p := fun h => hrq (EReach.closed c.E e p h n e' eye hk q hq)
      rw [hout p hr] at hp
      rw [hout q hrq]; exact hs.vc p n e' eye hk hp q hq

/-- **`TensorR2::Eval` on an expression.** -/
theorem matEvalE_spec (hwf : c.E.WF rank) (hB : c.B.Sound c.E.P) {d : Prop} {e : MNode K} {f : ℕ}
    (hF : FormsOk c d V (EReach c.E e)) (hV : MSolves c.E c.sc.val V (EReach c.E e)) (hd : DimOk c.E e)
    (hI : UsesInv e → c.B.InvSound) (hinv : Invertible d c.E c.sc.val V e)
    {s : MSt K} (hs : Rest c.E s) (hf : ∀ q ∈ e.objs, rank q < f)
    (hg : NoGapsE c.E (fun q => (s.obj q).visited = true) e) :
    ∃ s' m, matEval c f e s = some (s', m) ∧ Rep m (e.dims c.E).1 (e.dims c.E).2 (den c.E c.sc.val V e) ∧
      Rest c.E s' ∧ (∀ p, EReach c.E e p → (s'.obj p).visited = true) ∧ (∀ p, ¬EReach c.E e p → s'.obj p = s.obj p) ∧
      ∃ s0, mresetE (mresetO c.E f) e s = some s0 ∧ evalE c (mevalO c f) e s0 = some (s', m) ∧
        ∀ q, (s'.obj q).cache = (s0.obj q).cache := by
  obtain ⟨s0, e0, i0, b0, h0, _⟩ := hs.prepareE (V := V) hwf hf hg
  obtain ⟨s1, m, e1, i1, f1, v1, _, r1⟩ := evalE_spec hB
    (mevalO_spec hwf hB (EReach.closed c.E e) hF hV f f le_rfl) e hd hI hinv.weaken
    (fun q hq => ⟨⟨q, hq, .refl⟩, hf q hq⟩) s0 i0
  have hb : DBufs c.E s1 := by
    refine ⟨?_, ?_, ?_⟩
    · intro p hp; rw [f1.dres]; exact b0.live p hp
    · intro p hp; rw [f1.dres]; exact b0.num p hp
    · intro p hp; rw [f1.dres]; exact b0.var p hp
  obtain ⟨a1, a2, a3⟩ := hs.afterE hwf hf h0 i1 hb f1.out v1
  exact ⟨s1, m, by simp [matEval, e0, e1], r1, a1, a2, a3, s0, e0, e1, f1.cache⟩

/-- **`TensorR2::DevalF` on an expression.** -/
theorem matDevalFE_spec (hwf : c.E.WF rank) (hB : c.B.Sound c.E.P) (hK : c.B.KronSound) {e : MNode K} {f X : ℕ}
    (hP : PadsOk c.E X)
    (hF : FormsOk c True V (EReach c.E e)) (hV : MSolves c.E c.sc.val V (EReach c.E e)) (hd : DimOk c.E e)
    (hI : UsesInv e → c.B.InvSound) (hinv : Invertible True c.E c.sc.val V e)
    (hvars : VarsOk c.E) (hX : c.E.kind X = .var) {D : ℕ → ℕ → ℕ → ℕ → ℕ → K}
    (hD : MSolvesD c.E c.sc.val (c.sd X) V D X (EReach c.E e))
    {s : MSt K} (hs : Rest c.E s) (hf : ∀ q ∈ e.objs, rank q < f)
    (hg : NoGapsE c.E (fun q => (s.obj q).visited = true) e) :
    ∃ s' m, matDevalF c f X e s = some (s', m) ∧
      Rep m ((e.dims c.E).1 * c.E.rows X) ((e.dims c.E).2 * c.E.cols X)
        (lay (c.E.rows X) (c.E.cols X) (tan c.E c.sc.val (c.sd X) V D e)) ∧
      Rest c.E s' ∧ (∀ p, EReach c.E e p → (s'.obj p).visited = true) ∧ (∀ p, ¬EReach c.E e p → s'.obj p = s.obj p) ∧
      ∃ s0, mresetE (mresetO c.E f) e s = some s0 ∧ fwdE c X (mevalO c f) (mfwdO c X f) e s0 = some (s', m) ∧
        ∀ q, (s'.obj q).cache = (s0.obj q).cache := by
  obtain ⟨s0, e0, i0, b0, h0, v0⟩ := hs.prepareE (V := V) hwf hf hg
  have fi : MFInv c X rank V D (EReach c.E e) f s0 := by
    refine ⟨i0, b0, fun p hp hl h => ?_, fun p hp _ _ h => ?_⟩
    · rw [(v0 p hp).2 hl] at h; cases h
    · rw [(v0 p hp).1] at h; cases h
  obtain ⟨s1, m, e1, i1, f1, v1, r1⟩ := fwdE_spec hwf hB hK hP
    (mevalO_spec hwf hB (EReach.closed c.E e) hF hV f f le_rfl)
    (mfwdO_spec hwf hB hK hP (EReach.closed c.E e) hF hV hvars hX hD f f le_rfl) e hd hI hinv
    (fun q hq => ⟨⟨q, hq, .refl⟩, hf q hq⟩) s0 fi
  obtain ⟨a1, a2, a3⟩ := hs.afterE hwf hf h0 i1.e i1.bufs f1.out v1
  exact ⟨s1, m, by simp [matDevalF, e0, e1], r1, a1, a2, a3, s0, e0, e1, f1.cache⟩

end CoolDiff
