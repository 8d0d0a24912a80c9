import Verif.Matrix.ExprFwdExact

/-!
# What matrix queries answer after any history of `Eval` and `DevalF` queries

`MRun` keeps a record (`Memo`) of a program that evaluates and differentiates expressions of matrices in any order
while scalars change: which matrices have been used, and the values and derivatives that are stored and will be
found again.  The exact answers of the next query (`seen`, `dseen`) are written in terms of the record.
-/

set_option linter.unusedSectionVars false

namespace CoolDiff

open MNode

variable {K : Type} [Field K] [DecidableEq K]

/-! ## Specification -/

/-- A stored derivative: `el l k i j` is that of element `(l,k)` with respect to element `(i,j)` of a matrix of
dimensions `rows`, `cols`. -/
structure Deriv (K : Type) where
  rows : ℕ
  cols : ℕ
  el : ℕ → ℕ → ℕ → ℕ → K

/-- The record: the matrices that have been used, stored values, stored derivatives. -/
structure Memo (K : Type) where
  used : ℕ → Prop
  val : ℕ → Option (ℕ → ℕ → K)
  der : ℕ → Option (Deriv K)

/-- Nothing has been used yet. -/
def Memo.empty : Memo K := ⟨fun _ => False, fun _ => none, fun _ => none⟩

/-- The matrices that the reset before a query on `e` reaches: those below the matrices that `e` mentions
directly and that have been used. -/
def Memo.Cleared (E : MEnv K) (M : Memo K) (e : MNode K) (p : ℕ) : Prop := ∃ o ∈ e.objs, M.used o ∧ MReach E o p

/-- The record after the reset.  Derivatives of formulas are found again whenever the formula counts as used. -/
noncomputable def Memo.clear (E : MEnv K) (M : Memo K) (e : MNode K) : Memo K :=
  open Classical in
  { used := fun p => M.used p ∧ ¬M.Cleared E e p
    val := fun p => if M.Cleared E e p then none else M.val p
    der := fun p => if M.Cleared E e p ∧ ¬E.isForm p then none else M.der p }

/-- The matrices that a query on `e` comes across: it does not look below used formulas. -/
inductive Memo.Met (E : MEnv K) (N : Memo K) (e : MNode K) : ℕ → Prop
  | root {o} : o ∈ e.objs → Memo.Met E N e o
  | step {p q n e' eye} : Memo.Met E N e p → ¬N.used p → E.kind p = .form n e' eye →
      q ∈ (MEnv.item n e' eye).objs → Memo.Met E N e q

/-- The matrices whose values a derivative query on `e` asks for: the operands in `e` of operators whose rule needs
values, and everything in formulas that it computes. -/
def Memo.Read (E : MEnv K) (N : Memo K) (e : MNode K) (p : ℕ) : Prop :=
  p ∈ e.evals ∨ ∃ q n e' eye, N.Met E e q ∧ ¬N.used q ∧ E.kind q = .form n e' eye ∧ p ∈ (MEnv.item n e' eye).objs

/-- Values by unfolding formulas, except that stored values are taken as they are. -/
noncomputable def seenO (E : MEnv K) (sv : ℕ → K) (N : Memo K) : ℕ → ℕ → ℕ → ℕ → K
  | 0, _, _, _ => 0
  | f + 1, o, i, j =>
    match N.val o with
    | some w => w i j
    | none => match E.kind o with
      | .form _ e _ => den E sv (seenO E sv N f) e i j
      | _ => sv (E.el o i j)

/-- The value a query finds or computes for the matrix `p`. -/
noncomputable def seen (E : MEnv K) (sv : ℕ → K) (rank : ℕ → ℕ) (N : Memo K) (p i j : ℕ) : K :=
  seenO E sv N (rank p + 1) p i j

/-- The stored derivative a query finds for the matrix `p`, if any. -/
noncomputable def Memo.derAt (E : MEnv K) (N : Memo K) (p : ℕ) : Option (Deriv K) :=
  open Classical in if E.isForm p ∧ ¬N.used p then none else N.der p

/-- Derivatives with respect to `X` by the usual rules, except that stored derivatives are taken as they are. -/
noncomputable def dseenO (E : MEnv K) (sv : ℕ → K) (sd : ℕ → ℕ → ℕ → K) (V : ℕ → ℕ → ℕ → K) (X : ℕ) (N : Memo K) :
    ℕ → ℕ → ℕ → ℕ → ℕ → ℕ → K
  | 0, _, _, _, _, _ => 0
  | f + 1, o, l, k, i, j =>
    match N.derAt E o with
    | some d => d.el l k i j
    | none => match E.kind o with
      | .form _ e _ => tan E sv sd V (dseenO E sv sd V X N f) e l k i j
      | .exp => sd (E.el o l k) i j
      | .var => if E.vid (E.el o l k) = E.vid (E.el X i j) then 1 else 0
      | _ => 0

/-- The derivative a query finds or computes for the matrix `p`. -/
noncomputable def dseen (E : MEnv K) (sv : ℕ → K) (sd : ℕ → ℕ → ℕ → K) (V : ℕ → ℕ → ℕ → K) (X : ℕ) (rank : ℕ → ℕ)
    (N : Memo K) (p l k i j : ℕ) : K := dseenO E sv sd V X N (rank p + 1) p l k i j

/-- The record after `Eval(e)`. -/
noncomputable def Memo.afterEval (c : MCtx K) (rank : ℕ → ℕ) (M : Memo K) (e : MNode K) : Memo K :=
  open Classical in
  let N := M.clear c.E e
  { used := fun p => N.used p ∨ N.Met c.E e p
    val := fun p => if N.Met c.E e p then some (seen c.E c.sc.val rank N p) else N.val p
    der := N.der }

/-- The record after `DevalF(e, X)`. -/
noncomputable def Memo.afterDevalF (c : MCtx K) (rank : ℕ → ℕ) (X : ℕ) (M : Memo K) (e : MNode K) : Memo K :=
  open Classical in
  let N := M.clear c.E e
  let V := seen c.E c.sc.val rank N
  { used := fun p => N.used p ∨ N.Met c.E e p
    val := fun p => if N.Met c.E e p ∧ (c.E.isForm p ∨ N.Read c.E e p) then some (V p) else N.val p
    der := fun p => if N.Met c.E e p then
        some ⟨c.E.rows X, c.E.cols X, dseen c.E c.sc.val (c.sd X) V X rank N p⟩ else N.der p }

/-- What a query on `e` needs when the record after the reset is `N`: kernels that work, dimensions that fit, operands
of inverses that are invertible at the values the query works with. -/
structure MemoOk (c : MCtx K) (rank : ℕ → ℕ) (d : Prop) (N : Memo K) (e : MNode K) : Prop where
  sound : c.B.Sound c.E.P
  eyes : EyesOk c.E c.sc.val
  dims : DimOk c.E e
  inv : UsesInv e → c.B.InvSound
  invertible : Invertible d c.E c.sc.val (seen c.E c.sc.val rank N) e
  form : ∀ p n e' eye, N.Met c.E e p → ¬N.used p → c.E.kind p = .form n e' eye →
    (UsesInv e' → c.B.InvSound) ∧ Invertible d c.E c.sc.val (seen c.E c.sc.val rank N) e'

/-- What a derivative query needs: also, formulas that count as used must have a stored derivative, and stored
derivatives that are found must have the dimensions for `X`. -/
structure MemoOkD (c : MCtx K) (rank : ℕ → ℕ) (X : ℕ) (N : Memo K) (e : MNode K) : Prop where
  ok : MemoOk c rank True N e
  kron : c.B.KronSound
  pads : PadsOk c.E X
  vars : VarsOk c.E
  isVar : c.E.kind X = .var
  stored : ∀ p, N.Met c.E e p → c.E.isForm p → N.used p → ∃ d, N.der p = some d
  size : ∀ p d, N.Met c.E e p → N.derAt c.E p = some d → d.rows = c.E.rows X ∧ d.cols = c.E.cols X

/-! ## Facts about the record -/

section
variable {E : MEnv K} {rank : ℕ → ℕ} {sv : ℕ → K} {sd : ℕ → ℕ → ℕ → K} {N M : Memo K} {e : MNode K} {p : ℕ}

theorem Memo.Met.rank_lt (hwf : E.WF rank) {f : ℕ} (hf : ∀ q ∈ e.objs, rank q < f) (h : N.Met E e p) :
    rank p < f := by
  induction h with
  | root ho => exact hf _ ho
  | step _ _ hk hq ih => exact lt_trans ((hwf.form _ _ _ _ hk).2.2.2.2.2.2 _ hq) ih

theorem Memo.Met.reach (h : N.Met E e p) : EReach E e p := by
  induction h with
  | root ho => exact ⟨_, ho, .refl⟩
  | step _ _ hk hq ih => obtain ⟨o, ho, hr⟩ := ih; exact ⟨o, ho, hr.step hk hq⟩

theorem Memo.Cleared.met (h : M.Cleared E e p) : (M.clear E e).Met E e p := by
  obtain ⟨o, ho, hu, hr⟩ := h
  induction hr with
  | refl => exact .root ho
  | step hr hk hq ih => exact .step ih (fun h => h.2 ⟨o, ho, hu, hr⟩) hk hq

theorem Memo.Read.met (h : N.Read E e p) : N.Met E e p := by
  rcases h with h | ⟨q, n, e', eye, h1, h2, h3, h4⟩
  · exact .root (e.evals_sub h)
  · exact .step h1 h2 h3 h4

theorem seenO_stable (hwf : E.WF rank) : ∀ f g o, rank o < f → rank o < g →
    ∀ i j, i < E.rows o → j < E.cols o → seenO E sv N f o i j = seenO E sv N g o i j := by
  intro f
  induction f with
  | zero => intro g o h; omega
  | succ f ih =>
    intro g o hf hg i j hi hj
    obtain ⟨g, rfl⟩ : ∃ g', g = g' + 1 := ⟨g - 1, by omega⟩
    rcases hv : N.val o with _ | w <;> simp only [seenO, hv]
    rcases hk : E.kind o with _ | _ | _ | _ | ⟨n, e, eye⟩ <;> simp only
    obtain ⟨_, h2, h3, h4, h5, h6, h7⟩ := hwf.form o n e eye hk
    refine den_congr E sv e h4 (fun q hq i j hi hj => ?_) i j (by omega) (by omega)
    have := h7 q (by simp [MEnv.item, MNode.objs, hq])
    exact ih g q (by omega) (by omega) i j hi hj

theorem seen_some {w : ℕ → ℕ → K} (h : N.val p = some w) : seen E sv rank N p = w := by
  funext i j; simp only [seen, seenO, h]

theorem seen_leaf (h : N.val p = none) (hl : ¬E.isForm p) (i j : ℕ) :
    seen E sv rank N p i j = sv (E.el p i j) := by
  rcases hk : E.kind p with _ | _ | _ | _ | ⟨n, e, eye⟩
  · simp only [seen, seenO, h, hk]
  · simp only [seen, seenO, h, hk]
  · simp only [seen, seenO, h, hk]
  · simp only [seen, seenO, h, hk]
  · exact absurd ⟨n, e, eye, hk⟩ hl

theorem seen_form (hwf : E.WF rank) (h : N.val p = none) {n e' eye} (hk : E.kind p = .form n e' eye) {i j : ℕ}
    (hi : i < E.rows p) (hj : j < E.cols p) :
    seen E sv rank N p i j = den E sv (seen E sv rank N) e' i j := by
  obtain ⟨_, h2, h3, h4, h5, h6, h7⟩ := hwf.form p n e' eye hk
  rw [seen, seenO, h]
  simp only [hk]
  refine den_congr E sv e' h4 (fun q hq i j hi hj => ?_) i j (by omega) (by omega)
  have := h7 q (by simp [MEnv.item, MNode.objs, hq])
  exact seenO_stable hwf _ _ q (by omega) (by omega) i j hi hj

variable {V : ℕ → ℕ → ℕ → K} {X : ℕ}

theorem dseenO_stable (hwf : E.WF rank) (i j : ℕ) : ∀ f g o, rank o < f → rank o < g →
    ∀ l k, l < E.rows o → k < E.cols o → dseenO E sv sd V X N f o l k i j = dseenO E sv sd V X N g o l k i j := by
  intro f
  induction f with
  | zero => intro g o h; omega
  | succ f ih =>
    intro g o hf hg l k hl hk
    obtain ⟨g, rfl⟩ : ∃ g', g = g' + 1 := ⟨g - 1, by omega⟩
    rcases hv : N.derAt E o with _ | w <;> simp only [dseenO, hv]
    rcases hko : E.kind o with _ | _ | _ | _ | ⟨n, e, eye⟩ <;> simp only
    obtain ⟨_, h2, h3, h4, h5, h6, h7⟩ := hwf.form o n e eye hko
    refine tan_congr E sv sd V e h4 (fun q hq l k hl hk => ?_) l k (by omega) (by omega)
    have := h7 q (by simp [MEnv.item, MNode.objs, hq])
    exact ih g q (by omega) (by omega) l k hl hk

theorem dseen_some {d : Deriv K} (h : N.derAt E p = some d) : dseen E sv sd V X rank N p = d.el := by
  funext l k i j; simp only [dseen, dseenO, h]

theorem dseen_form (hwf : E.WF rank) (h : N.derAt E p = none) {n e' eye} (hk : E.kind p = .form n e' eye)
    {l k i j : ℕ} (hl : l < E.rows p) (hk' : k < E.cols p) :
    dseen E sv sd V X rank N p l k i j = tan E sv sd V (dseen E sv sd V X rank N) e' l k i j := by
  obtain ⟨_, h2, h3, h4, h5, h6, h7⟩ := hwf.form p n e' eye hk
  rw [dseen, dseenO, h]
  simp only [hk]
  refine tan_congr E sv sd V e' h4 (fun q hq l k hl hk => ?_) l k (by omega) (by omega)
  have := h7 q (by simp [MEnv.item, MNode.objs, hq])
  exact dseenO_stable hwf i j _ _ q (by omega) (by omega) l k hl hk

theorem Memo.derAt_leaf (hl : ¬E.isForm p) : N.derAt E p = N.der p := if_neg fun h => hl h.1

/-! ## Reset -/

/-- `s'` is `s` with the flags of the matrices in `C` cleared. -/
structure ResetTo (E : MEnv K) (C : ℕ → Prop) (s s' : MSt K) : Prop where
  slot : s'.slot = s.slot
  res : ∀ p, (s'.obj p).result = (s.obj p).result
  dres : ∀ p, (s'.obj p).dresult = (s.obj p).dresult
  inC : ∀ p, C p → (s'.obj p).visited = false ∧ (¬E.isForm p → (s'.obj p).evald = false ∧ (s'.obj p).devald = false)
  out : ∀ p, ¬C p → (s'.obj p).visited = (s.obj p).visited ∧ (s'.obj p).evald = (s.obj p).evald ∧
    (s'.obj p).devald = (s.obj p).devald

theorem ResetTo.obj (hwf : E.WF rank) {s s' : MSt K} (hs : Rest E s) {C : ℕ → Prop}
    (hC : ∀ p q, C p → MReach E p q → C q) (h : ResetTo E C s s') {o f : ℕ} (hf : rank o < f) :
    ∃ s1, mresetO E f o s' = some s1 ∧
      ResetTo E (fun p => C p ∨ ((s.obj o).visited = true ∧ MReach E o p)) s s1 := by
  by_cases hv : (s'.obj o).visited = true
  · have ho : ¬C o := fun hc => by rw [(h.inC o hc).1] at hv; cases hv
    have hvo : (s.obj o).visited = true := by rw [← (h.out o ho).1]; exact hv
    have hj : JInv E rank (MReach E o) (rank o + 1) s' := by
      intro p hp _ hpv n e eye hk q hq
      have hpC : C p := by
        by_contra hc
        rw [(h.out p hc).1, hs.reach hp hvo] at hpv; cases hpv
      exact (h.inC q (hC p q hpC (MReach.refl.step hk hq))).1
    obtain ⟨s1, e1, j1, f1, v1⟩ := mresetO_spec hwf (MReach.closed E o) f (rank o + 1) hf o MReach.refl (by omega)
      s' hj
    have hall : ∀ p, MReach E o p → (s1.obj p).visited = false := by
      intro p hp
      induction hp with
      | refl => exact v1
      | step hp hk hq ih => exact j1 _ hp (Nat.lt_succ_of_le (hp.rank hwf)) ih _ _ _ hk _ hq
    have hfl : FlagOk E s' := by
      intro p hl hp
      have hc : ¬C p := fun hc => by
        obtain ⟨h1, h2⟩ := (h.inC p hc).2 hl
        rw [h1, h2] at hp
        rcases hp with hp | hp <;> cases hp
      obtain ⟨h1, h2, h3⟩ := h.out p hc
      rw [h2, h3] at hp
      rw [h1]; exact hs.fl p hl hp
    refine ⟨s1, e1, f1.slot.trans h.slot, fun p => (f1.res p).trans (h.res p),
      fun p => (f1.dres p).trans (h.dres p), ?_, ?_⟩
    · intro p hp
      by_cases hr : MReach E o p
      · refine ⟨hall p hr, fun hl => ?_⟩
        have := f1.flags hfl p hl
        rw [hall p hr] at this
        constructor
        · by_contra hh; exact absurd (this (Or.inl (by simpa using hh))) (by simp)
        · by_contra hh; exact absurd (this (Or.inr (by simpa using hh))) (by simp)
      · rw [f1.out p fun hh => hr hh.1]
        exact h.inC p (hp.resolve_right fun hh => hr hh.2)
    · intro p hp
      have hr : ¬MReach E o p := fun hh => hp (Or.inr ⟨hvo, hh⟩)
      rw [f1.out p fun hh => hr hh.1]
      exact h.out p fun hh => hp (Or.inl hh)
  · have hvf : (s'.obj o).visited = false := by simpa using hv
    obtain ⟨f, rfl⟩ : ∃ f', f = f' + 1 := ⟨f - 1, by omega⟩
    have hsame : ∀ p, ((s'.setO o { s'.obj o with visited := false, cache := [] }).obj p).visited = (s'.obj p).visited ∧
        ((s'.setO o { s'.obj o with visited := false, cache := [] }).obj p).evald = (s'.obj p).evald ∧
        ((s'.setO o { s'.obj o with visited := false, cache := [] }).obj p).devald = (s'.obj p).devald ∧
        ((s'.setO o { s'.obj o with visited := false, cache := [] }).obj p).result = (s'.obj p).result ∧
        ((s'.setO o { s'.obj o with visited := false, cache := [] }).obj p).dresult = (s'.obj p).dresult := by
      intro p
      by_cases hp : p = o
      · subst hp; simp [hvf]
      · rw [setO_ne _ _ hp]; simp
    refine ⟨s'.setO o { s'.obj o with visited := false, cache := [] }, by simp [mresetO, hvf], h.slot, ?_, ?_, ?_, ?_⟩
    · intro p; rw [(hsame p).2.2.2.1]; exact h.res p
    · intro p; rw [(hsame p).2.2.2.2]; exact h.dres p
    · intro p hp
      obtain ⟨h1, h2, h3, _, _⟩ := hsame p
      rw [h1, h2, h3]
      refine h.inC p (hp.elim id fun ⟨hvo, hr⟩ => hC o p ?_ hr)
      by_contra hc
      rw [(h.out o hc).1, hvo] at hvf; cases hvf
    · intro p hp
      obtain ⟨h1, h2, h3, _, _⟩ := hsame p
      rw [h1, h2, h3]
      exact h.out p fun hh => hp (Or.inl hh)

theorem ResetTo.expr (hwf : E.WF rank) {s : MSt K} (hs : Rest E s) {f : ℕ} : ∀ (e : MNode K) (C : ℕ → Prop)
    (s' : MSt K), (∀ p q, C p → MReach E p q → C q) → ResetTo E C s s' → (∀ q ∈ e.objs, rank q < f) →
    ∃ s1, mresetE (mresetO E f) e s' = some s1 ∧
      ResetTo E (fun p => C p ∨ ∃ o ∈ e.objs, (s.obj o).visited = true ∧ MReach E o p) s s1
  | .obj o, C, s', hC, h, hf => by
    obtain ⟨s1, e1, h1⟩ := h.obj hwf hs hC (hf o (by simp [MNode.objs]))
    refine ⟨s1, e1, ?_⟩
    simpa [MNode.objs] using h1
  | .bin n op x y, C, s', hC, h, hf => by
    obtain ⟨s1, e1, h1⟩ := ResetTo.expr hwf hs x C s' hC h (fun q hq => hf q (by simp [MNode.objs, hq]))
    obtain ⟨s2, e2, h2⟩ := ResetTo.expr hwf hs y _ s1 (by
      rintro p q (hp | ⟨o, ho, hv, hr⟩) hq
      · exact Or.inl (hC p q hp hq)
      · refine Or.inr ⟨o, ho, hv, ?_⟩
        clear e1 h1
        induction hq with
        | refl => exact hr
        | step _ hk hq ih => exact ih.step hk hq) h1 (fun q hq => hf q (by simp [MNode.objs, hq]))
    refine ⟨s2, by simp [mresetE, e1, e2], ?_⟩
    have : (fun p => C p ∨ ∃ o ∈ (MNode.bin n op x y).objs, (s.obj o).visited = true ∧ MReach E o p) =
        (fun p => (C p ∨ ∃ o ∈ x.objs, (s.obj o).visited = true ∧ MReach E o p) ∨
          ∃ o ∈ y.objs, (s.obj o).visited = true ∧ MReach E o p) := by
      funext p
      simp only [MNode.objs, List.mem_append, eq_iff_iff]
      constructor
      · rintro (h | ⟨o, ho | ho, h⟩)
        · exact Or.inl (Or.inl h)
        · exact Or.inl (Or.inr ⟨o, ho, h⟩)
        · exact Or.inr ⟨o, ho, h⟩
      · rintro ((h | ⟨o, ho, h⟩) | ⟨o, ho, h⟩)
        · exact Or.inl h
        · exact Or.inr ⟨o, Or.inl ho, h⟩
        · exact Or.inr ⟨o, Or.inr ho, h⟩
    rw [this]; exact h2
  | .un _ _ x, C, s', hC, h, hf => by
    obtain ⟨s1, e1, h1⟩ := ResetTo.expr hwf hs x C s' hC h (fun q hq => hf q (by simpa [MNode.objs] using hq))
    exact ⟨s1, by simpa [mresetE] using e1, by simpa [MNode.objs] using h1⟩

/-! ## The record is right -/

/-- The heap stores what the record says. -/
structure MStored (E : MEnv K) (s : MSt K) (M : Memo K) : Prop where
  live : ∀ n, SlotsOk E.P (s.slot n)
  rlive : ∀ o, ¬E.isForm o → Live (s.obj o).result
  bufs : DBufs E s
  vis : ∀ p, (s.obj p).visited = true ↔ M.used p
  ev : ∀ p, ¬E.isForm p → ((s.obj p).evald = true ↔ ∃ w, M.val p = some w)
  fv : ∀ p, E.isForm p → (M.used p ↔ ∃ w, M.val p = some w)
  dv : ∀ p, ¬E.isForm p → ((s.obj p).devald = true ↔ ∃ d, M.der p = some d)
  fl : ∀ p, ¬E.isForm p → ((∃ w, M.val p = some w) ∨ ∃ d, M.der p = some d) → M.used p
  val : ∀ p w, M.val p = some w → ∃ m, (s.obj p).result = some m ∧ Rep m (E.rows p) (E.cols p) w
  der : ∀ p d, M.der p = some d → ∃ m, (s.obj p).dresult = some m ∧
    Rep m (E.rows p * d.rows) (E.cols p * d.cols) (lay d.rows d.cols d.el)
  eyes : ∀ p n e eye w, E.kind p = .form n e eye → M.val eye = some w →
    ∀ i j, i < E.rows eye → j < E.cols eye → w i j = if i = j then 1 else 0
  num : ∀ p d, E.kind p = .num → M.der p = some d → ∀ l k i j, l < E.rows p → k < E.cols p → i < d.rows → j < d.cols →
    d.el l k i j = 0

/-- What holds between queries. -/
structure MemoInv (E : MEnv K) (s : MSt K) (M : Memo K) : Prop where
  st : MStored E s M
  vc : ∀ p n e eye, E.kind p = .form n e eye → M.used p → ∀ q ∈ (MEnv.item n e eye).objs, M.used q

theorem MemoInv.rest {s : MSt K} (h : MemoInv E s M) : Rest E s := by
  refine ⟨h.st.live, h.st.rlive, h.st.bufs, ?_, ?_⟩
  · intro p hl hp
    rw [h.st.ev p hl, h.st.dv p hl] at hp
    exact (h.st.vis p).2 (h.st.fl p hl hp)
  · intro p n e eye hk hp q hq
    exact (h.st.vis q).2 (h.vc p n e eye hk ((h.st.vis p).1 hp) q hq)

theorem MemoInv.fresh : MemoInv E (MSt.fresh : MSt K) Memo.empty := by
  have h := Rest.fresh E (K := K)
  refine ⟨⟨h.live, h.rlive, h.bufs, ?_, ?_, ?_, ?_, ?_, ?_, ?_, ?_, ?_⟩, ?_⟩
  · simp [MSt.fresh, Memo.empty]
  · simp [MSt.fresh, Memo.empty]
  · simp [Memo.empty]
  · simp [MSt.fresh, Memo.empty]
  · simp [Memo.empty]
  · simp [Memo.empty]
  · simp [Memo.empty]
  · simp [Memo.empty]
  · simp [Memo.empty]
  · simp [Memo.empty]

/-- The reset before a query. -/
theorem MemoInv.reset (hwf : E.WF rank) {s : MSt K} (h : MemoInv E s M) {f : ℕ} (hf : ∀ q ∈ e.objs, rank q < f) :
    ∃ s0, mresetE (mresetO E f) e s = some s0 ∧ MStored E s0 (M.clear E e) := by
  obtain ⟨s0, e0, r⟩ := ResetTo.expr hwf h.rest e (fun _ => False) s (fun _ _ h => h.elim)
    ⟨rfl, fun _ => rfl, fun _ => rfl, fun _ h => h.elim, fun _ _ => ⟨rfl, rfl, rfl⟩⟩ hf
  have hC : (fun p => False ∨ ∃ o ∈ e.objs, (s.obj o).visited = true ∧ MReach E o p) = M.Cleared E e := by
    funext p
    simp only [false_or, h.st.vis, Memo.Cleared]
  rw [hC] at r
  have hval : ∀ p, ¬M.Cleared E e p → (M.clear E e).val p = M.val p := fun p hp => if_neg hp
  have hvalC : ∀ p, M.Cleared E e p → (M.clear E e).val p = none := fun p hp => if_pos hp
  have hder : ∀ p, ¬M.Cleared E e p → (M.clear E e).der p = M.der p := fun p hp => if_neg fun hh => hp hh.1
  have hderC : ∀ p, M.Cleared E e p → ¬E.isForm p → (M.clear E e).der p = none := fun p hp hl => if_pos ⟨hp, hl⟩
  have hderI : ∀ p d, (M.clear E e).der p = some d → M.der p = some d := by
    intro p d hd
    simp only [Memo.clear] at hd
    split at hd
    · cases hd
    · exact hd
  have hvalI : ∀ p w, (M.clear E e).val p = some w → M.val p = some w := by
    intro p d hd
    simp only [Memo.clear] at hd
    split at hd
    · cases hd
    · exact hd
  have husedI : ∀ p, ¬M.Cleared E e p → ((M.clear E e).used p ↔ M.used p) := fun p hp =>
    ⟨And.left, fun hh => ⟨hh, hp⟩⟩
  refine ⟨s0, e0, by rw [r.slot]; exact h.st.live, fun p hp => by rw [r.res]; exact h.st.rlive p hp,
    ⟨fun p hp => by rw [r.dres]; exact h.st.bufs.live p hp, fun p hp => by rw [r.dres]; exact h.st.bufs.num p hp,
      fun p hp => by rw [r.dres]; exact h.st.bufs.var p hp⟩, ?_, ?_, ?_, ?_, ?_, ?_, ?_, ?_, ?_⟩
  · intro p
    by_cases hp : M.Cleared E e p
    · rw [(r.inC p hp).1]
      exact ⟨fun hh => absurd hh (by simp), fun hh => absurd hp hh.2⟩
    · rw [(r.out p hp).1, h.st.vis, husedI p hp]
  · intro p hl
    by_cases hp : M.Cleared E e p
    · rw [((r.inC p hp).2 hl).1, hvalC p hp]; simp
    · rw [(r.out p hp).2.1, h.st.ev p hl, hval p hp]
  · intro p hl
    by_cases hp : M.Cleared E e p
    · rw [hvalC p hp]
      exact ⟨fun hh => absurd hp hh.2, fun hh => by simp at hh⟩
    · rw [hval p hp, husedI p hp]; exact h.st.fv p hl
  · intro p hl
    by_cases hp : M.Cleared E e p
    · rw [((r.inC p hp).2 hl).2, hderC p hp hl]; simp
    · rw [(r.out p hp).2.2, h.st.dv p hl, hder p hp]
  · intro p hl hh
    by_cases hp : M.Cleared E e p
    · rw [hvalC p hp, hderC p hp hl] at hh; simp at hh
    · rw [hval p hp, hder p hp] at hh
      exact (husedI p hp).2 (h.st.fl p hl hh)
  · intro p w hw; rw [r.res]; exact h.st.val p w (hvalI p w hw)
  · intro p d hd; rw [r.dres]; exact h.st.der p d (hderI p d hd)
  · intro p n e' eye w hk hw; exact h.st.eyes p n e' eye w hk (hvalI _ w hw)
  · intro p d hk hd; exact h.st.num p d hk (hderI p d hd)

end

section
variable {c : MCtx K} {rank : ℕ → ℕ} {N M : Memo K} {e : MNode K} {f : ℕ}

theorem MemoOk.eye {d : Prop} (hwf : c.E.WF rank) (hc : MemoOk c rank d N e) {s : MSt K} (h : MStored c.E s N)
    {p n e' eye} (hk : c.E.kind p = .form n e' eye) {i j : ℕ} (hi : i < c.E.rows eye) (hj : j < c.E.cols eye) :
    seen c.E c.sc.val rank N eye i j = if i = j then 1 else 0 := by
  rcases hv : N.val eye with _ | w
  · rw [seen_leaf hv (not_isForm_of (hwf.form p n e' eye hk).1 (by simp))]
    exact hc.eyes p n e' eye hk i j hi hj
  · rw [seen_some hv]; exact h.eyes p n e' eye w hk hv i j hi hj

theorem MStored.val_none {E : MEnv K} {s : MSt K} (h : MStored E s N) {p : ℕ} (hl : E.isForm p) (hu : ¬N.used p) :
    N.val p = none := by
  rcases hv : N.val p with _ | w
  · rfl
  · exact absurd ((h.fv p hl).2 ⟨w, hv⟩) hu

/-- The state after the reset. -/
theorem MStored.start {d : Prop} (hwf : c.E.WF rank) (hc : MemoOk c rank d N e) {s : MSt K} (h : MStored c.E s N) :
    MXInv c rank (seen c.E c.sc.val rank N) (N.Met c.E e) N.used f s := by
  refine ⟨⟨h.live, h.rlive, ?_, ?_, ?_⟩, ?_, ?_, ?_, ?_, ?_⟩
  · intro o _ hl hev
    obtain ⟨w, hw⟩ := (h.ev o hl).1 hev
    rw [seen_some hw]; exact h.val o w hw
  · intro o _ _ hl hv
    obtain ⟨w, hw⟩ := (h.fv o hl).1 ((h.vis o).1 hv)
    rw [seen_some hw]; exact h.val o w hw
  · intro o _ _ n e' eye _ hv hA
    exact absurd ((h.vis o).1 hv) hA
  · intro o _ hl hev i j _ _
    refine seen_leaf ?_ hl i j
    rcases hv : N.val o with _ | w
    · rfl
    · rw [(h.ev o hl).2 ⟨w, hv⟩] at hev; cases hev
  · intro o ho _ n e' eye hk hv
    have hu : ¬N.used o := fun hu => by rw [(h.vis o).2 hu] at hv; cases hv
    obtain ⟨h1, h2⟩ := hc.form o n e' eye ho hu hk
    exact ⟨h1, h2.weaken, fun i j hi hj => seen_form hwf (h.val_none ⟨n, e', eye, hk⟩ hu) hk hi hj,
      fun i j hi hj => hc.eye hwf h hk hi hj⟩
  · intro o ho n e' eye hk hv q hq
    have hu : ¬N.used o := fun hu => by rw [(h.vis o).2 hu] at hv; cases hv
    exact Memo.Met.step ho hu hk hq
  · intro o _ _ n e' eye _ hv hA
    exact absurd ((h.vis o).1 hv) hA
  · intro o ho; exact (h.vis o).2 ho

theorem Memo.Met.visited (hwf : c.E.WF rank) {V : ℕ → ℕ → ℕ → K} {s : MSt K}
    (hf : ∀ q ∈ e.objs, rank q < f) (i : MXInv c rank V (N.Met c.E e) N.used f s)
    (hv : ∀ q ∈ e.objs, (s.obj q).visited = true) {p : ℕ} (hp : N.Met c.E e p) : (s.obj p).visited = true := by
  induction hp with
  | root ho => exact hv _ ho
  | step hp hu hk hq ih => exact i.me.vc _ hp (hp.rank_lt hwf hf) _ _ _ hk ih hu _ hq

/-- The state after the query. -/
theorem MemoInv.finish (hwf : c.E.WF rank) {d : Prop} (hc : MemoOk c rank d (M.clear c.E e) e)
    (hf : ∀ q ∈ e.objs, rank q < f) {s s0 s1 : MSt K} (h : MemoInv c.E s M) (h0 : MStored c.E s0 (M.clear c.E e))
    (i1 : MXInv c rank (seen c.E c.sc.val rank (M.clear c.E e)) ((M.clear c.E e).Met c.E e) (M.clear c.E e).used f s1)
    (hb : DBufs c.E s1) (hv : ∀ q ∈ e.objs, (s1.obj q).visited = true)
    (hout : ∀ p, ¬(M.clear c.E e).Met c.E e p → s1.obj p = s0.obj p ∨ ((s1.obj p).visited = (s0.obj p).visited ∧
      (s1.obj p).evald = (s0.obj p).evald ∧ (s1.obj p).devald = (s0.obj p).devald ∧
      (s1.obj p).result = (s0.obj p).result ∧ (s1.obj p).dresult = (s0.obj p).dresult))
    {M' : Memo K} {Rd : ℕ → Prop}
    (hused : ∀ p, M'.used p ↔ (M.clear c.E e).used p ∨ (M.clear c.E e).Met c.E e p)
    (hval : ∀ p, (M.clear c.E e).Met c.E e p ∧ (c.E.isForm p ∨ Rd p) →
      M'.val p = some (seen c.E c.sc.val rank (M.clear c.E e) p))
    (hval' : ∀ p, ¬((M.clear c.E e).Met c.E e p ∧ (c.E.isForm p ∨ Rd p)) → M'.val p = (M.clear c.E e).val p)
    (hev : ∀ p, (M.clear c.E e).Met c.E e p → ¬c.E.isForm p →
      ((s1.obj p).evald = true ↔ (∃ w, (M.clear c.E e).val p = some w) ∨ Rd p))
    (hder : ∀ p, ¬(M.clear c.E e).Met c.E e p → M'.der p = (M.clear c.E e).der p)
    (hdv : ∀ p, (M.clear c.E e).Met c.E e p → ¬c.E.isForm p → ((s1.obj p).devald = true ↔ ∃ d, M'.der p = some d))
    (hdd : ∀ p d, (M.clear c.E e).Met c.E e p → M'.der p = some d → ∃ m, (s1.obj p).dresult = some m ∧
      Rep m (c.E.rows p * d.rows) (c.E.cols p * d.cols) (lay d.rows d.cols d.el))
    (hnum : ∀ p d, (M.clear c.E e).Met c.E e p → c.E.kind p = .num → M'.der p = some d →
      ∀ l k i j, l < c.E.rows p → k < c.E.cols p → i < d.rows → j < d.cols → d.el l k i j = 0) :
    MemoInv c.E s1 M' := by
  set N := M.clear c.E e with hN
  have hsame : ∀ p, ¬N.Met c.E e p → (s1.obj p).visited = (s0.obj p).visited ∧
      (s1.obj p).evald = (s0.obj p).evald ∧ (s1.obj p).devald = (s0.obj p).devald ∧
      (s1.obj p).result = (s0.obj p).result ∧ (s1.obj p).dresult = (s0.obj p).dresult := by
    intro p hp
    rcases hout p hp with hh | hh
    · rw [hh]; simp
    · exact hh
  have hvm : ∀ p, N.Met c.E e p → (s1.obj p).visited = true := fun p hp => hp.visited hwf hf i1 hv
  -- the value of a met matrix that is in the record
  have hrep : ∀ p w, N.Met c.E e p → M'.val p = some w → w = seen c.E c.sc.val rank N p := by
    intro p w hp hw
    by_cases hh : N.Met c.E e p ∧ (c.E.isForm p ∨ Rd p)
    · rw [hval p hh] at hw; cases hw; rfl
    · rw [hval' p hh] at hw; exact (seen_some hw).symm
  have hsome : ∀ p, N.Met c.E e p → ¬c.E.isForm p → ((∃ w, M'.val p = some w) ↔ (∃ w, N.val p = some w) ∨ Rd p) := by
    intro p hp hl
    by_cases hh : N.Met c.E e p ∧ (c.E.isForm p ∨ Rd p)
    · rw [hval p hh]
      exact ⟨fun _ => Or.inr (hh.2.resolve_left hl), fun _ => ⟨_, rfl⟩⟩
    · rw [hval' p hh]
      exact ⟨Or.inl, fun h => h.resolve_right fun hr => hh ⟨hp, Or.inr hr⟩⟩
  have hnv : ∀ p, ¬N.Met c.E e p → M'.val p = N.val p := fun p hp => hval' p fun h => hp h.1
  refine ⟨⟨i1.me.live, i1.me.rlive, hb, ?_, ?_, ?_, ?_, ?_, ?_, ?_, ?_, ?_⟩, ?_⟩
  · intro p
    rw [hused]
    by_cases hp : N.Met c.E e p
    · exact ⟨fun _ => Or.inr hp, fun _ => hvm p hp⟩
    · rw [(hsame p hp).1, h0.vis p]
      exact ⟨Or.inl, fun hh => hh.resolve_right hp⟩
  · intro p hl
    by_cases hp : N.Met c.E e p
    · rw [hev p hp hl, hsome p hp hl]
    · rw [(hsame p hp).2.1, h0.ev p hl, hnv p hp]
  · intro p hl
    rw [hused]
    by_cases hp : N.Met c.E e p
    · exact ⟨fun _ => ⟨_, hval p ⟨hp, Or.inl hl⟩⟩, fun _ => Or.inr hp⟩
    · rw [hnv p hp, ← h0.fv p hl]
      exact ⟨fun hh => hh.resolve_right hp, Or.inl⟩
  · intro p hl
    by_cases hp : N.Met c.E e p
    · exact hdv p hp hl
    · rw [(hsame p hp).2.2.1, h0.dv p hl, hder p hp]
  · intro p hl hh
    rw [hused]
    by_cases hp : N.Met c.E e p
    · exact Or.inr hp
    · rw [hnv p hp, hder p hp] at hh; exact Or.inl (h0.fl p hl hh)
  · intro p w hw
    by_cases hp : N.Met c.E e p
    · rw [hrep p w hp hw]
      by_cases hl : c.E.isForm p
      · exact i1.me.form p hp (hp.rank_lt hwf hf) hl (hvm p hp)
      · exact i1.me.leaf p hp hl ((hev p hp hl).2 ((hsome p hp hl).1 ⟨w, hw⟩))
    · rw [hnv p hp] at hw
      rw [(hsame p hp).2.2.2.1]; exact h0.val p w hw
  · intro p d' hd
    by_cases hp : N.Met c.E e p
    · exact hdd p d' hp hd
    · rw [hder p hp] at hd
      rw [(hsame p hp).2.2.2.2]; exact h0.der p d' hd
  · intro p n e' eye w hk hw i j hi hj
    by_cases hp : N.Met c.E e eye
    · rw [hrep eye w hp hw]; exact hc.eye hwf h0 hk hi hj
    · rw [hnv eye hp] at hw; exact h0.eyes p n e' eye w hk hw i j hi hj
  · intro p d' hk hd
    by_cases hp : N.Met c.E e p
    · exact hnum p d' hp hk hd
    · rw [hder p hp] at hd; exact h0.num p d' hk hd
  · intro p n e' eye hk hp q hq
    rw [hused] at hp ⊢
    by_cases hu : N.used p
    · by_cases hq' : M.Cleared c.E e q
      · exact Or.inr hq'.met
      · exact Or.inl ⟨h.vc p n e' eye hk hu.1 q hq, hq'⟩
    · exact Or.inr (.step (hp.resolve_left hu) hu hk hq)

/-- **`Eval(e)`, whatever is stored.** -/
theorem MemoInv.eval (hwf : c.E.WF rank) {s : MSt K} (h : MemoInv c.E s M)
    (hc : MemoOk c rank False (M.clear c.E e) e) (hf : ∀ q ∈ e.objs, rank q < f) :
    ∃ s' m, matEval c f e s = some (s', m) ∧
      Rep m (e.dims c.E).1 (e.dims c.E).2 (den c.E c.sc.val (seen c.E c.sc.val rank (M.clear c.E e)) e) ∧
      MemoInv c.E s' (M.afterEval c rank e) := by
  obtain ⟨s0, e0, h0⟩ := h.reset hwf hf
  set N := M.clear c.E e with hN
  obtain ⟨s1, m, e1, i1, f1, v1, _, w1, r1⟩ := evalE_exact (Z := N.Met c.E e) hc.sound
    (mevalO_exact (Z := N.Met c.E e) hwf hc.sound
      (fun o ho hu n e' eye hk q hq => Memo.Met.step ho hu hk hq) f f le_rfl) e hc.dims hc.inv hc.invertible
    (fun q hq => ⟨.root hq, hf q hq, fun _ => .root hq⟩) s0 (h0.start hwf hc)
  have hb : DBufs c.E s1 := by
    refine ⟨?_, ?_, ?_⟩
    · intro p hp; rw [f1.fr.dres]; exact h0.bufs.live p hp
    · intro p hp; rw [f1.fr.dres]; exact h0.bufs.num p hp
    · intro p hp; rw [f1.fr.dres]; exact h0.bufs.var p hp
  have hvm : ∀ p, N.Met c.E e p → (s1.obj p).visited = true := fun p hp => hp.visited hwf hf i1 v1
  refine ⟨s1, m, by simp [matEval, e0, e1], r1, ?_⟩
  refine MemoInv.finish hwf hc hf h h0 i1 hb v1 (fun p hp => Or.inl (f1.fr.out p fun hh => hp hh.1))
    (Rd := fun _ => True) (fun _ => Iff.rfl) (fun p hp => if_pos hp.1) (fun p hp => if_neg fun hh => hp ⟨hh, Or.inr trivial⟩)
    ?_ (fun _ _ => rfl) ?_ ?_ ?_
  · intro p hp hl
    refine ⟨fun _ => Or.inr trivial, fun _ => ?_⟩
    cases hp with
    | root ho => exact w1 p ho hl
    | step hp hu hk hq => exact i1.lc _ hp (hp.rank_lt hwf hf) _ _ _ hk (hvm _ hp) hu _ hq hl
  · intro p _ hl
    rw [f1.fr.dev]; exact h0.dv p hl
  · intro p d _ hd
    rw [f1.fr.dres]; exact h0.der p d hd
  · intro p d _ hk hd; exact h0.num p d hk hd

/-- **`DevalF(e, X)`, whatever is stored.** -/
theorem MemoInv.devalF (hwf : c.E.WF rank) {s : MSt K} (h : MemoInv c.E s M) {X : ℕ}
    (hc : MemoOkD c rank X (M.clear c.E e) e) (hf : ∀ q ∈ e.objs, rank q < f) :
    ∃ s' m, matDevalF c f X e s = some (s', m) ∧
      Rep m ((e.dims c.E).1 * c.E.rows X) ((e.dims c.E).2 * c.E.cols X)
        (lay (c.E.rows X) (c.E.cols X) (tan c.E c.sc.val (c.sd X) (seen c.E c.sc.val rank (M.clear c.E e))
          (dseen c.E c.sc.val (c.sd X) (seen c.E c.sc.val rank (M.clear c.E e)) X rank (M.clear c.E e)) e)) ∧
      MemoInv c.E s' (M.afterDevalF c rank X e) := by
  obtain ⟨s0, e0, h0⟩ := h.reset hwf hf
  set N := M.clear c.E e with hN
  set V := seen c.E c.sc.val rank N with hV
  set D := dseen c.E c.sc.val (c.sd X) V X rank N with hD
  have hDrep : ∀ p, N.Met c.E e p → ∀ d, N.derAt c.E p = some d → DRep c X D p (s0.obj p).dresult := by
    intro p hp d hd
    obtain ⟨h1, h2⟩ := hc.size p d hp hd
    have hd' : N.der p = some d := by
      simp only [Memo.derAt] at hd
      split at hd
      · cases hd
      · exact hd
    obtain ⟨m, hm1, hm2⟩ := h0.der p d hd'
    refine ⟨m, hm1, ?_⟩
    rw [hD, dseen_some hd, ← h1, ← h2]; exact hm2
  have hDnum : ∀ p, N.Met c.E e p → c.E.kind p = .num → ∀ l k i j, l < c.E.rows p → k < c.E.cols p →
      i < c.E.rows X → j < c.E.cols X → D p l k i j = 0 := by
    intro p hp hk l k i j hl hk' hi hj
    rcases hd : N.derAt c.E p with _ | d
    · simp only [hD, dseen, dseenO, hd, hk]
    · obtain ⟨h1, h2⟩ := hc.size p d hp hd
      rw [hD, dseen_some hd]
      rw [Memo.derAt_leaf (not_isForm_of hk (by simp))] at hd
      exact h0.num p d hk hd l k i j hl hk' (by rw [h1]; exact hi) (by rw [h2]; exact hj)
  have x0 : MDInv c X rank V D (N.Met c.E e) N.used f s0 := by
    refine ⟨h0.start hwf hc.ok, h0.bufs, ?_, ?_, ?_, ?_, ?_⟩
    · intro o ho hl hdv
      obtain ⟨d, hd⟩ := (h0.dv o hl).1 hdv
      exact hDrep o ho d (by rw [Memo.derAt_leaf hl]; exact hd)
    · intro o ho _ hl hv
      have hu := (h0.vis o).1 hv
      obtain ⟨d, hd⟩ := hc.stored o ho hl hu
      exact hDrep o ho d (by rw [Memo.derAt, if_neg fun hh => hh.2 hu]; exact hd)
    · intro o ho hl hdv
      have hnone : N.derAt c.E o = none := by
        rw [Memo.derAt_leaf hl]
        rcases hd : N.der o with _ | d
        · rfl
        · rw [(h0.dv o hl).2 ⟨d, hd⟩] at hdv; cases hdv
      refine ⟨?_, ?_, ?_⟩
      · rintro (hk | hk) l k i j _ _ _ _ <;> simp only [hD, dseen, dseenO, hnone, hk]
      · intro hk l k i j _ _ _ _; simp only [hD, dseen, dseenO, hnone, hk]
      · intro hk l k i j _ _ _ _; simp only [hD, dseen, dseenO, hnone, hk]
    · intro o ho _ n e' eye hk hv
      have hu : ¬N.used o := fun hu => by rw [(h0.vis o).2 hu] at hv; cases hv
      have hnone : N.derAt c.E o = none := if_pos ⟨⟨n, e', eye, hk⟩, hu⟩
      refine ⟨(hc.ok.form o n e' eye ho hu hk).2, fun l k i j hl hk' _ _ => dseen_form hwf hnone hk hl hk', ?_⟩
      exact hDnum eye (.step ho hu hk (by simp [MEnv.item, MNode.objs])) (hwf.form o n e' eye hk).1
    · intro o _ _ n e' eye _ hv hA
      exact absurd ((h0.vis o).1 hv) hA
  have hZ : ∀ o ∈ {p | N.Met c.E e p}, o ∉ {p | N.used p} → ∀ n e' eye, c.E.kind o = .form n e' eye →
      ∀ q ∈ (MEnv.item n e' eye).objs, q ∈ {p | N.Read c.E e p} :=
    fun o ho hu n e' eye hk q hq => Or.inr ⟨o, n, e', eye, ho, hu, hk, hq⟩
  obtain ⟨s1, m, e1, i1, f1, v1, d1, w1, r1⟩ := fwdE_exact (Z := {p | N.Read c.E e p}) hwf hc.ok.sound hc.kron hc.pads
    (mevalO_exact hwf hc.ok.sound hZ f f le_rfl)
    (mfwdO_exact hwf hc.ok.sound hc.kron hc.pads hc.vars hc.isVar hZ f f le_rfl) e hc.ok.dims hc.ok.inv hc.ok.invertible
    (fun q hq => ⟨.root hq, hf q hq⟩) (fun q hq _ => Or.inl hq) s0 x0
  have hvm : ∀ p, N.Met c.E e p → (s1.obj p).visited = true := fun p hp => hp.visited hwf hf i1.e v1
  have hdm : ∀ p, N.Met c.E e p → ¬c.E.isForm p → (s1.obj p).devald = true := by
    intro p hp hl
    cases hp with
    | root ho => exact d1 p ho hl
    | step hp hu hk hq => exact i1.ldc _ hp (hp.rank_lt hwf hf) _ _ _ hk (hvm _ hp) hu _ hq hl
  have hdr : ∀ p, N.Met c.E e p → DRep c X D p (s1.obj p).dresult := by
    intro p hp
    by_cases hl : c.E.isForm p
    · exact i1.form p hp (hp.rank_lt hwf hf) hl (hvm p hp)
    · exact i1.leaf p hp hl (hdm p hp hl)
  have hdef : ∀ p, N.Met c.E e p → (M.afterDevalF c rank X e).der p = some ⟨c.E.rows X, c.E.cols X, D p⟩ :=
    fun p hp => if_pos hp
  refine ⟨s1, m, by simp [matDevalF, e0, e1], r1, ?_⟩
  refine MemoInv.finish hwf hc.ok hf h h0 i1.e i1.bufs v1 (fun p hp => Or.inl (f1.fr.out p fun hh => hp hh.1))
    (Rd := N.Read c.E e) (fun _ => Iff.rfl) (fun p hp => if_pos hp) (fun p hp => if_neg hp)
    ?_ (fun p hp => if_neg hp) ?_ ?_ ?_
  · intro p hp hl
    constructor
    · intro hh
      exact (f1.evz p hl hh).imp (h0.ev p hl).1 id
    · rintro (hh | hh)
      · exact f1.ev p hl ((h0.ev p hl).2 hh)
      · rcases hh with hh | ⟨q, n, e', eye, hq, hu, hk, hpq⟩
        · exact w1 p hh hl
        · exact i1.e.lc q hq (hq.rank_lt hwf hf) n e' eye hk (hvm q hq) hu p hpq hl
  · intro p hp hl
    rw [hdef p hp]
    exact ⟨fun _ => ⟨_, rfl⟩, fun _ => hdm p hp hl⟩
  · intro p d hp hd
    rw [hdef p hp] at hd; cases hd
    exact hdr p hp
  · intro p d hp hk hd l k i j hl hk' hi hj
    rw [hdef p hp] at hd; cases hd
    exact hDnum p hp hk l k i j hl hk' hi hj

end

end CoolDiff
