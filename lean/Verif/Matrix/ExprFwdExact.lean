import Verif.Matrix.ExprExact

/-!
# Forward differentiation of matrices from any stored state

`mfwdO_exact` is `mfwdO_spec` without the assumption that what is stored is current.
-/

set_option linter.unusedSectionVars false

namespace CoolDiff

open Finset MNode

variable {K : Type} [Field K] [DecidableEq K]

section
variable (c : MCtx K) (X : ℕ) (rank : ℕ → ℕ) (V : ℕ → ℕ → ℕ → K) (D : ℕ → ℕ → ℕ → ℕ → ℕ → K)
  (S A Z : Set ℕ)

/-- The partial derivatives of a matrix with elements. -/
structure LeafD (o : ℕ) : Prop where
  num : (c.E.kind o = .num ∨ c.E.kind o = .par) → ∀ l k i j, l < c.E.rows o → k < c.E.cols o →
    i < c.E.rows X → j < c.E.cols X → D o l k i j = 0
  var : c.E.kind o = .var → ∀ l k i j, l < c.E.rows o → k < c.E.cols o →
    i < c.E.rows X → j < c.E.cols X →
    D o l k i j = if c.E.vid (c.E.el o l k) = c.E.vid (c.E.el X i j) then 1 else 0
  exp : c.E.kind o = .exp → ∀ l k i j, l < c.E.rows o → k < c.E.cols o →
    i < c.E.rows X → j < c.E.cols X → D o l k i j = c.sd X (c.E.el o l k) i j

/-- `MXInv`, and `D` is what is stored for the matrices that are flagged and satisfies the equations of the
others. -/
structure MDInv (r : ℕ) (s : MSt K) : Prop where
  e : MXInv c rank V S A r s
  bufs : DBufs c.E s
  leaf : ∀ o ∈ S, ¬c.E.isForm o → (s.obj o).devald = true → DRep c X D o (s.obj o).dresult
  form : ∀ o ∈ S, rank o < r → c.E.isForm o → (s.obj o).visited = true → DRep c X D o (s.obj o).dresult
  dleaf : ∀ o ∈ S, ¬c.E.isForm o → (s.obj o).devald = false → LeafD c X D o
  dform : ∀ o ∈ S, rank o < r → ∀ n e eye, c.E.kind o = .form n e eye → (s.obj o).visited = false →
    Invertible True c.E c.sc.val V e ∧
    (∀ l k i j, l < c.E.rows o → k < c.E.cols o → i < c.E.rows X → j < c.E.cols X →
      D o l k i j = tan c.E c.sc.val (c.sd X) V D e l k i j) ∧
    (∀ l k i j, l < c.E.rows eye → k < c.E.cols eye → i < c.E.rows X → j < c.E.cols X → D eye l k i j = 0)
  ldc : ∀ o ∈ S, rank o < r → ∀ n e eye, c.E.kind o = .form n e eye → (s.obj o).visited = true → o ∉ A →
    ∀ q ∈ (MEnv.item n e eye).objs, ¬c.E.isForm q → (s.obj q).devald = true

/-- `FFrame`, flags of leaves do not go down, and only leaves of `Z` become evaluated. -/
structure MDFrame (r : ℕ) (s s' : MSt K) : Prop where
  fr : FFrame rank S r s s'
  ev : ∀ o, ¬c.E.isForm o → (s.obj o).evald = true → (s'.obj o).evald = true
  evz : ∀ o, ¬c.E.isForm o → (s'.obj o).evald = true → (s.obj o).evald = true ∨ o ∈ Z
  dv : ∀ o, ¬c.E.isForm o → (s.obj o).devald = true → (s'.obj o).devald = true

/-- What `devalF` of a named matrix must achieve. -/
def MDSpecO (r : ℕ) (fw : ℕ → MSt K → Option (MSt K × Mat K)) : Prop :=
  ∀ o ∈ S, rank o < r → ∀ s, MDInv c X rank V D S A r s → ∃ s' m, fw o s = some (s', m) ∧
    MDInv c X rank V D S A r s' ∧ MDFrame c rank S Z r s s' ∧ (s'.obj o).visited = true ∧
    (¬c.E.isForm o → (s'.obj o).devald = true) ∧
    Rep m (c.E.rows o * c.E.rows X) (c.E.cols o * c.E.cols X) (lay (c.E.rows X) (c.E.cols X) (D o))

variable {c X rank V D S A Z}

theorem MDInv.setN {r : ℕ} {s : MSt K} (h : MDInv c X rank V D S A r s) (n : ℕ) {a : Slots K}
    (ha : SlotsOk c.E.P a) : MDInv c X rank V D S A r (s.setN n a) :=
  ⟨h.e.setN n ha, ⟨h.bufs.live, h.bufs.num, h.bufs.var⟩, h.leaf, h.form, h.dleaf, h.dform, h.ldc⟩

theorem MDFrame.trans {r : ℕ} {s s' s'' : MSt K} (h : MDFrame c rank S Z r s s')
    (h' : MDFrame c rank S Z r s' s'') : MDFrame c rank S Z r s s'' :=
  ⟨h.fr.trans h'.fr, fun o ho hv => h'.ev o ho (h.ev o ho hv),
    fun o ho hv => (h'.evz o ho hv).elim (h.evz o ho) Or.inr, fun o ho hv => h'.dv o ho (h.dv o ho hv)⟩

theorem MDFrame.setN {r : ℕ} {s s' : MSt K} (h : MDFrame c rank S Z r s s') (n : ℕ) (a : Slots K) :
    MDFrame c rank S Z r s (s'.setN n a) := ⟨h.fr.setN n a, h.ev, h.evz, h.dv⟩

theorem MXFrame.toD {r : ℕ} {s s' : MSt K} (h : MXFrame c rank S Z r s s') : MDFrame c rank S Z r s s' :=
  ⟨h.fr.toF, h.ev, h.evz, fun o _ hv => by rw [h.fr.dev]; exact hv⟩

/-- Evaluation of an expression all of whose matrices were visited keeps the invariant. -/
theorem MDInv.eval {r : ℕ} {s s' : MSt K} (h : MDInv c X rank V D S A r s)
    (hs' : MXInv c rank V S A r s') (hf : EFrame rank S r s s')
    (hv : ∀ q, (s'.obj q).visited = (s.obj q).visited) : MDInv c X rank V D S A r s' := by
  refine ⟨hs', ⟨?_, ?_, ?_⟩, ?_, ?_, ?_, ?_, ?_⟩
  · intro o ho; rw [hf.dres]; exact h.bufs.live o ho
  · intro o ho; rw [hf.dres]; exact h.bufs.num o ho
  · intro o ho; rw [hf.dres]; exact h.bufs.var o ho
  · intro o hS ho; rw [hf.dres, hf.dev]; exact h.leaf o hS ho
  · intro o hS hr ho; rw [hf.dres, hv]; exact h.form o hS hr ho
  · intro o hS ho; rw [hf.dev]; exact h.dleaf o hS ho
  · intro o hS hr n e eye hk; rw [hv]; exact h.dform o hS hr n e eye hk
  · intro o hS hr n e eye hk; rw [hv]
    intro h1 h2 q hq hl; rw [hf.dev]; exact h.ldc o hS hr n e eye hk h1 h2 q hq hl

/-- The matrices that the forward pass over an expression evaluates (besides those below formulas): the
operands of the operators whose rule uses their values. -/
def MNode.evals : MNode K → List ℕ
  | .obj _ => []
  | .bin _ op a b => if op.evalsOperands then a.objs ++ b.objs else a.evals ++ b.evals
  | .un _ op a => if op.evalsOperand then a.objs else a.evals

theorem MNode.evals_sub : ∀ (e : MNode K) {q : ℕ}, q ∈ e.evals → q ∈ e.objs
  | .obj _, q, h => by simp [MNode.evals] at h
  | .bin _ op a b, q, h => by
    simp only [MNode.evals] at h
    split at h
    · simpa [MNode.objs] using h
    · simp only [List.mem_append] at h
      simp only [MNode.objs, List.mem_append]
      exact h.imp (MNode.evals_sub a) (MNode.evals_sub b)
  | .un _ op a, q, h => by
    simp only [MNode.evals] at h
    split at h
    · simpa [MNode.objs] using h
    · simpa [MNode.objs] using MNode.evals_sub a h

/-- `devalF` of an expression. -/
theorem fwdE_exact (hwf : c.E.WF rank) (hB : c.B.Sound c.E.P) (hK : c.B.KronSound)
    (hP : PadsOk c.E X) {r : ℕ}
    {ev fw : ℕ → MSt K → Option (MSt K × Mat K)}
    (hev : MXSpecO c rank V S A Z r ev) (hfw : MDSpecO c X rank V D S A Z r fw) (e : MNode K) :
    DimOk c.E e → (UsesInv e → c.B.InvSound) → Invertible True c.E c.sc.val V e →
    (∀ q ∈ e.objs, q ∈ S ∧ rank q < r) → (∀ q ∈ e.evals, ¬c.E.isForm q → q ∈ Z) →
    ∀ s, MDInv c X rank V D S A r s → ∃ s' m, fwdE c X ev fw e s = some (s', m) ∧
      MDInv c X rank V D S A r s' ∧ MDFrame c rank S Z r s s' ∧ (∀ q ∈ e.objs, (s'.obj q).visited = true) ∧
      (∀ q ∈ e.objs, ¬c.E.isForm q → (s'.obj q).devald = true) ∧
      (∀ q ∈ e.evals, ¬c.E.isForm q → (s'.obj q).evald = true) ∧
      Rep m ((e.dims c.E).1 * c.E.rows X) ((e.dims c.E).2 * c.E.cols X)
        (lay (c.E.rows X) (c.E.cols X) (tan c.E c.sc.val (c.sd X) V D e)) := by
  induction e with
  | obj o =>
    intro _ _ _ hobj _ s hs
    obtain ⟨hS, hr⟩ := hobj o (by simp [MNode.objs])
    obtain ⟨s', m, h1, h2, h3, h4, h5, h6⟩ := hfw o hS hr s hs
    refine ⟨s', m, h1, h2, h3, ?_, ?_, ?_, h6⟩
    · intro q hq
      simp only [MNode.objs, List.mem_singleton] at hq
      subst hq; exact h4
    · intro q hq
      simp only [MNode.objs, List.mem_singleton] at hq
      subst hq; exact h5
    · intro q hq; simp [MNode.evals] at hq
  | bin n op x y ihx ihy =>
    intro hdim hI hinv hobj hz s hs
    obtain ⟨hdx, hdy, hd, hpad⟩ := hdim
    have hox : ∀ q ∈ x.objs, q ∈ S ∧ rank q < r := fun q hq => hobj q (by simp [MNode.objs, hq])
    have hoy : ∀ q ∈ y.objs, q ∈ S ∧ rank q < r := fun q hq => hobj q (by simp [MNode.objs, hq])
    have hzx : ∀ q ∈ x.evals, ¬c.E.isForm q → q ∈ Z := fun q hq => hz q (by
      simp only [MNode.evals]; split
      · exact List.mem_append_left _ (x.evals_sub hq)
      · exact List.mem_append_left _ hq)
    have hzy : ∀ q ∈ y.evals, ¬c.E.isForm q → q ∈ Z := fun q hq => hz q (by
      simp only [MNode.evals]; split
      · exact List.mem_append_right _ (y.evals_sub hq)
      · exact List.mem_append_right _ hq)
    obtain ⟨s1, dL, e1, i1, f1, v1, d1, w1, r1⟩ := ihx hdx (fun h => hI (Or.inl h)) hinv.1 hox hzx s hs
    obtain ⟨s2, dR, e2, i2, f2, v2, d2, w2, r2⟩ := ihy hdy (fun h => hI (Or.inr h)) hinv.2 hoy hzy s1 i1
    have v2x : ∀ q ∈ x.objs, (s2.obj q).visited = true := fun q hq => f2.fr.mono q (v1 q hq)
    by_cases hop : op.evalsOperands = true
    · obtain ⟨s3, L, e3, i3, f3, v3, u3, w3, r3⟩ := evalE_exact hB hev x hdx
        (fun h => hI (Or.inl h)) hinv.1.weaken (fun q hq => ⟨(hox q hq).1, (hox q hq).2, hz q (by
          simp [MNode.evals, hop, hq])⟩) s2 i2.e
      have I3 := i2.eval i3 f3.fr (u3 v2x)
      obtain ⟨s4, R, e4, i4, f4, v4, u4, w4, r4⟩ := evalE_exact hB hev y hdy
        (fun h => hI (Or.inr h)) hinv.2.weaken (fun q hq => ⟨(hoy q hq).1, (hoy q hq).2, hz q (by
          simp [MNode.evals, hop, hq])⟩) s3 i3
      have I4 := I3.eval i4 f4.fr (u4 (fun q hq => f3.fr.mono q (v2 q hq)))
      obtain ⟨a, m, e5, l5, r5⟩ := MBin.fwd_spec hB hK op (i4.me.live n) hd hpad hP (hwf.rpos X)
        (hwf.cpos X)
        (fun _ => r3) (fun _ => r4) r1 r2
      refine ⟨s4.setN n a, m, ?_, I4.setN n l5,
        (((f1.trans f2).trans f3.toD).trans f4.toD).setN n a, ?_, ?_, ?_, ?_⟩
      · simp [fwdE, hd, hop, e1, e2, e3, e4, e5]
      · intro q hq
        simp only [MNode.objs, List.mem_append] at hq
        rcases hq with hq | hq
        · exact f4.fr.mono q (f3.fr.mono q (v2x q hq))
        · exact f4.fr.mono q (f3.fr.mono q (v2 q hq))
      · intro q hq hl
        simp only [MNode.objs, List.mem_append] at hq
        refine f4.toD.dv q hl (f3.toD.dv q hl ?_)
        rcases hq with hq | hq
        · exact f2.dv q hl (d1 q hq hl)
        · exact d2 q hq hl
      · intro q hq hl
        simp only [MNode.evals, hop, if_true, List.mem_append] at hq
        rcases hq with hq | hq
        · exact f4.ev q hl (w3 q hq hl)
        · exact w4 q hq hl
      · rw [tan_bin]; exact r5
    · obtain ⟨a, m, e5, l5, r5⟩ := MBin.fwd_spec hB hK op (L := dL) (R := dR)
        (A := den c.E c.sc.val V x) (C := den c.E c.sc.val V y)
        (i2.e.me.live n) hd hpad hP (hwf.rpos X) (hwf.cpos X)
        (fun h => absurd h hop) (fun h => absurd h hop) r1 r2
      refine ⟨s2.setN n a, m, ?_, i2.setN n l5, (f1.trans f2).setN n a, ?_, ?_, ?_, ?_⟩
      · simp [fwdE, hd, hop, e1, e2, e5]
      · intro q hq
        simp only [MNode.objs, List.mem_append] at hq
        rcases hq with hq | hq
        · exact v2x q hq
        · exact v2 q hq
      · intro q hq hl
        simp only [MNode.objs, List.mem_append] at hq
        rcases hq with hq | hq
        · exact f2.dv q hl (d1 q hq hl)
        · exact d2 q hq hl
      · intro q hq hl
        rw [MNode.evals, if_neg hop, List.mem_append] at hq
        rcases hq with hq | hq
        · exact f2.ev q hl (w1 q hq hl)
        · exact w2 q hq hl
      · rw [tan_bin]; exact r5
  | un n op x ih =>
    intro hdim hI hinv hobj hz s hs
    obtain ⟨hdx, hd⟩ := hdim
    have hox : ∀ q ∈ x.objs, q ∈ S ∧ rank q < r :=
      fun q hq => hobj q (by simpa [MNode.objs] using hq)
    have hzx : ∀ q ∈ x.evals, ¬c.E.isForm q → q ∈ Z := fun q hq => hz q (by
      simp only [MNode.evals]; split
      · exact x.evals_sub hq
      · exact hq)
    have hIx : UsesInv x → c.B.InvSound := fun h => hI (by cases op <;> simp [UsesInv, h])
    have hIo : op.isInv → c.B.InvSound :=
      fun h => hI (by cases op <;> simp_all [UsesInv, MUn.isInv])
    have hvx : Invertible True c.E c.sc.val V x := by
      cases op <;> first | exact hinv | exact hinv.1
    have hio : op.isInv → (toMatrix (x.dims c.E).1 (den c.E c.sc.val V x)).det ≠ 0 := by
      cases op <;> intro h <;> first | exact h.elim | exact hinv.2 | exact hinv.2 trivial
    obtain ⟨s1, dR, e1, i1, f1, v1, d1, w1, r1⟩ := ih hdx hIx hvx hox hzx s hs
    obtain ⟨hp1, hp2⟩ := dims_pos hwf x
    by_cases hop : op.evalsOperand = true
    · obtain ⟨s3, R, e3, i3, f3, v3, u3, w3, r3⟩ := evalE_exact hB hev x hdx hIx hvx.weaken
        (fun q hq => ⟨(hox q hq).1, (hox q hq).2, hz q (by simp [MNode.evals, hop, hq])⟩) s1 i1.e
      have I3 := i1.eval i3 f3.fr (u3 v1)
      obtain ⟨a, m, e5, l5, r5⟩ := MUn.fwd_spec hB hK op hIo (i3.me.live n) hd (hwf.rpos X)
        (hwf.cpos X) hp1 hp2 (fun _ => r3) r1 hio
      refine ⟨s3.setN n a, m, ?_, I3.setN n l5, (f1.trans f3.toD).setN n a, ?_, ?_, ?_, ?_⟩
      · simp [fwdE, hd, hop, e1, e3, e5]
      · intro q hq; exact f3.fr.mono q (v1 q (by simpa [MNode.objs] using hq))
      · intro q hq hl; exact f3.toD.dv q hl (d1 q (by simpa [MNode.objs] using hq) hl)
      · intro q hq hl
        simp only [MNode.evals, hop, if_true] at hq
        exact w3 q hq hl
      · rw [tan_un, dims_un]; exact r5
    · obtain ⟨a, m, e5, l5, r5⟩ := MUn.fwd_spec hB hK op hIo (R := dR)
        (A := den c.E c.sc.val V x) (i1.e.me.live n) hd (hwf.rpos X)
        (hwf.cpos X) hp1 hp2 (fun h => absurd h hop) r1 hio
      refine ⟨s1.setN n a, m, ?_, i1.setN n l5, f1.setN n a, ?_, ?_, ?_, ?_⟩
      · simp [fwdE, hd, hop, e1, e5]
      · intro q hq; exact v1 q (by simpa [MNode.objs] using hq)
      · intro q hq hl; exact d1 q (by simpa [MNode.objs] using hq) hl
      · intro q hq hl
        rw [MNode.evals, if_neg hop] at hq
        exact w1 q hq hl
      · rw [tan_un, dims_un]; exact r5

/-- The derivative a matrix with elements finds or computes. -/
theorem leafFwdX (hwf : c.E.WF rank) (hvars : VarsOk c.E) (hX : c.E.kind X = .var)
    {o r : ℕ} (hS : o ∈ S) (hleaf : ¬c.E.isForm o) {s : MSt K} (hs : MDInv c X rank V D S A r s) :
    ∃ m, leafFwd c X o (s.obj o) = some m ∧
      Rep m (c.E.rows o * c.E.rows X) (c.E.cols o * c.E.cols X)
        (lay (c.E.rows X) (c.E.cols X) (D o)) ∧
      ((c.E.kind o = .num ∨ c.E.kind o = .par) → ZeroBuf (some m)) ∧
      (c.E.kind o = .var → VarBuf c.E o (some m)) := by
  by_cases hdv : (s.obj o).devald = true
  · obtain ⟨m, hm1, hm2⟩ := hs.leaf o hS hleaf hdv
    refine ⟨m, ?_, hm2, fun hk => ?_, fun hk => ?_⟩
    · rw [leafFwd, hm1, Mat.pool_self hm2.rows hm2.cols, Option.bind_some, if_pos hdv]
    · rw [← hm1]; exact hs.bufs.num o hk
    · rw [← hm1]; exact hs.bufs.var o hk
  · have hdf : (s.obj o).devald = false := by simpa using hdv
    obtain ⟨h1, h2, h3⟩ := hs.dleaf o hS hleaf hdf
    have hD : MSolvesD c.E c.sc.val (c.sd X) V D X ({o} : Set ℕ) :=
      ⟨fun p hp => by cases hp; exact h1, fun p hp => by cases hp; exact h2,
        fun p hp => by cases hp; exact h3,
        fun p hp n e eye hk => by cases hp; exact absurd ⟨n, e, eye, hk⟩ hleaf⟩
    refine leafFwd_spec (r := 0) hwf hvars hX hD rfl hleaf (s := s) ⟨⟨hs.e.me.live, hs.e.me.rlive, ?_, ?_, ?_⟩, hs.bufs, ?_, ?_⟩
    · rintro p hp hl hev; cases hp; exact hs.e.me.leaf o hS hl hev
    · intro p _ h; omega
    · intro p _ h; omega
    · rintro p hp _ h; cases hp; exact absurd h hdv
    · intro p _ h; omega

/-- `devalF` of a matrix with elements. -/
theorem mfwdO_leafX (hwf : c.E.WF rank) (hvars : VarsOk c.E) (hX : c.E.kind X = .var) {r f o : ℕ}
    (hS : o ∈ S) (hr : rank o < r) (hleaf : ¬c.E.isForm o) {s : MSt K}
    (hs : MDInv c X rank V D S A r s) :
    ∃ s' m, mfwdO c X (f + 1) o s = some (s', m) ∧
    MDInv c X rank V D S A r s' ∧ MDFrame c rank S Z r s s' ∧ (s'.obj o).visited = true ∧
    (¬c.E.isForm o → (s'.obj o).devald = true) ∧
    Rep m (c.E.rows o * c.E.rows X) (c.E.cols o * c.E.cols X)
      (lay (c.E.rows X) (c.E.cols X) (D o)) := by
  have hunf : mfwdO c X (f + 1) o s = (do
      let r ← leafFwd c X o (s.obj o)
      let s := s.setO o { s.obj o with dresult := some r, devald := true, visited := true }
      some (s, r)) := by
    rcases h : c.E.kind o with _ | _ | _ | _ | ⟨n, e, eye⟩
    · simp only [mfwdO, h]
    · simp only [mfwdO, h]
    · simp only [mfwdO, h]
    · simp only [mfwdO, h]
    · exact absurd ⟨n, e, eye, h⟩ hleaf
  obtain ⟨m, h1, h2, h3, h4⟩ := leafFwdX hwf hvars hX hS hleaf hs
  have hnf : ∀ {q n e eye}, c.E.kind q = .form n e eye → q ≠ o := by
    rintro q n e eye hk rfl; exact hleaf ⟨n, e, eye, hk⟩
  have hne : ∀ {q}, c.E.isForm q → q ≠ o := by
    rintro q hk rfl; exact hleaf hk
  have hmono : ∀ q, (s.obj q).visited = true →
      ((s.setO o { s.obj o with dresult := some m, devald := true, visited := true }).obj q).visited = true := by
    intro q hq; by_cases hqo : q = o
    · subst hqo; simp
    · rw [setO_ne _ _ hqo]; exact hq
  have hev : ∀ q, ((s.setO o { s.obj o with dresult := some m, devald := true, visited := true }).obj q).evald
      = (s.obj q).evald := by
    intro q; by_cases hqo : q = o
    · subst hqo; simp
    · rw [setO_ne _ _ hqo]
  have hres : ∀ q, ((s.setO o { s.obj o with dresult := some m, devald := true, visited := true }).obj q).result
      = (s.obj q).result := by
    intro q; by_cases hqo : q = o
    · subst hqo; simp
    · rw [setO_ne _ _ hqo]
  refine ⟨s.setO o { s.obj o with dresult := some m, devald := true, visited := true }, m,
    by rw [hunf, h1]; rfl, ⟨⟨⟨hs.e.me.live, ?_, ?_, ?_, ?_⟩, ?_, ?_, ?_, ?_, ?_⟩, ⟨?_, ?_, ?_⟩, ?_, ?_, ?_, ?_, ?_⟩,
    ⟨⟨?_, ?_, hmono⟩, ?_, ?_, ?_⟩, by simp, fun _ => by simp, h2⟩
  · intro q hq; rw [hres]; exact hs.e.me.rlive q hq
  · intro q hqS hq; rw [hev, hres]; exact hs.e.me.leaf q hqS hq
  · intro q hqS hqr hq
    rw [setO_ne _ _ (hne hq)]; exact hs.e.me.form q hqS hqr hq
  · intro q hqS hqr n e eye hk
    rw [setO_ne _ _ (hnf hk)]
    intro hv hA q' hq'
    exact hmono q' (hs.e.me.vc q hqS hqr n e eye hk hv hA q' hq')
  · intro q hqS hq; rw [hev]; exact hs.e.leaf q hqS hq
  · intro q hqS hqr n e eye hk; rw [setO_ne _ _ (hnf hk)]; exact hs.e.form q hqS hqr n e eye hk
  · intro q hqS n e eye hk; rw [setO_ne _ _ (hnf hk)]; exact hs.e.cl q hqS n e eye hk
  · intro q hqS hqr n e eye hk hv hA q' hq' hl'
    rw [setO_ne _ _ (hnf hk)] at hv
    rw [hev]; exact hs.e.lc q hqS hqr n e eye hk hv hA q' hq' hl'
  · intro q hq; exact hmono q (hs.e.av q hq)
  · intro q hq
    by_cases hqo : q = o
    · subst hqo; simp only [setO_same]; exact Live.some h2.wf
    · rw [setO_ne _ _ hqo]; exact hs.bufs.live q hq
  · intro q hq
    by_cases hqo : q = o
    · subst hqo; simp only [setO_same]; exact h3 hq
    · rw [setO_ne _ _ hqo]; exact hs.bufs.num q hq
  · intro q hq
    by_cases hqo : q = o
    · subst hqo; simp only [setO_same]; exact h4 hq
    · rw [setO_ne _ _ hqo]; exact hs.bufs.var q hq
  · intro q hqS hq
    by_cases hqo : q = o
    · subst hqo; simp only [setO_same]; intro _; exact ⟨m, rfl, h2⟩
    · rw [setO_ne _ _ hqo]; exact hs.leaf q hqS hq
  · intro q hqS hqr hq
    rw [setO_ne _ _ (hne hq)]; exact hs.form q hqS hqr hq
  · intro q hqS hq hd
    by_cases hqo : q = o
    · subst hqo; simp at hd
    · rw [setO_ne _ _ hqo] at hd; exact hs.dleaf q hqS hq hd
  · intro q hqS hqr n e eye hk; rw [setO_ne _ _ (hnf hk)]; exact hs.dform q hqS hqr n e eye hk
  · intro q hqS hqr n e eye hk hv hA q' hq' hl'
    rw [setO_ne _ _ (hnf hk)] at hv
    by_cases hqo : q' = o
    · subst hqo; simp
    · rw [setO_ne _ _ hqo]; exact hs.ldc q hqS hqr n e eye hk hv hA q' hq' hl'
  · intro q hq
    have hqo : q ≠ o := by rintro rfl; exact hq ⟨hS, hr⟩
    rw [setO_ne _ _ hqo]
  · intro q; by_cases hqo : q = o
    · subst hqo; simp
    · rw [setO_ne _ _ hqo]
  · intro q _ h; rw [hev]; exact h
  · intro q _ h; rw [hev] at h; exact Or.inl h
  · intro q _ h; by_cases hqo : q = o
    · subst hqo; simp
    · rw [setO_ne _ _ hqo]; exact h

/-- Changing a formula matrix of rank at least `r` does not concern the invariant at level `r`, as long as its
visited flag does not go down. -/
theorem MDInv.setForm {r o : ℕ} (hform : c.E.isForm o) (hr : r ≤ rank o) {s : MSt K}
    (hs : MDInv c X rank V D S A r s) {v : MObj K} (hv : (s.obj o).visited = true → v.visited = true) :
    MDInv c X rank V D S A r (s.setO o v) := by
  have hne : ∀ q, ¬c.E.isForm q → q ≠ o := fun q hq => by rintro rfl; exact hq hform
  refine ⟨⟨⟨hs.e.me.live, ?_, ?_, ?_, ?_⟩, ?_, ?_, ?_, ?_, ?_⟩, ⟨?_, ?_, ?_⟩, ?_, ?_, ?_, ?_, ?_⟩
  · intro q hq; rw [setO_ne _ _ (hne q hq)]; exact hs.e.me.rlive q hq
  · intro q hqS hq; rw [setO_ne _ _ (hne q hq)]; exact hs.e.me.leaf q hqS hq
  · intro q hqS hqr; rw [setO_ne _ _ (by rintro rfl; omega)]; exact hs.e.me.form q hqS hqr
  · intro q hqS hqr n e eye hk
    rw [setO_ne _ _ (by rintro rfl; omega)]
    intro hv' hA q' hq'
    have := hs.e.me.vc q hqS hqr n e eye hk hv' hA q' hq'
    by_cases h : q' = o
    · subst h; simpa using hv this
    · rwa [setO_ne _ _ h]
  · intro q hqS hq; rw [setO_ne _ _ (hne q hq)]; exact hs.e.leaf q hqS hq
  · intro q hqS hqr; rw [setO_ne _ _ (by rintro rfl; omega)]; exact hs.e.form q hqS hqr
  · intro q hqS n e eye hk hv'
    by_cases hqo : q = o
    · subst hqo
      refine hs.e.cl q hqS n e eye hk ?_
      by_contra hh
      rw [setO_same] at hv'
      rw [hv (by simpa using hh)] at hv'; cases hv'
    · rw [setO_ne _ _ hqo] at hv'; exact hs.e.cl q hqS n e eye hk hv'
  · intro q hqS hqr n e eye hk hv' hA q' hq' hl'
    rw [setO_ne _ _ (by rintro rfl; omega)] at hv'
    rw [setO_ne _ _ (hne q' hl')]; exact hs.e.lc q hqS hqr n e eye hk hv' hA q' hq' hl'
  · intro q hq
    by_cases hqo : q = o
    · subst hqo; rw [setO_same]; exact hv (hs.e.av q hq)
    · rw [setO_ne _ _ hqo]; exact hs.e.av q hq
  · intro q hq; rw [setO_ne _ _ (hne q hq)]; exact hs.bufs.live q hq
  · intro q hq
    rw [setO_ne _ _ (by
      rintro rfl; obtain ⟨n, e, eye, h⟩ := hform; rcases hq with hq | hq <;> rw [hq] at h <;> cases h)]
    exact hs.bufs.num q hq
  · intro q hq
    rw [setO_ne _ _ (by rintro rfl; obtain ⟨n, e, eye, h⟩ := hform; rw [hq] at h; cases h)]
    exact hs.bufs.var q hq
  · intro q hqS hq; rw [setO_ne _ _ (hne q hq)]; exact hs.leaf q hqS hq
  · intro q hqS hqr; rw [setO_ne _ _ (by rintro rfl; omega)]; exact hs.form q hqS hqr
  · intro q hqS hq; rw [setO_ne _ _ (hne q hq)]; exact hs.dleaf q hqS hq
  · intro q hqS hqr; rw [setO_ne _ _ (by rintro rfl; omega)]; exact hs.dform q hqS hqr
  · intro q hqS hqr n e eye hk hv' hA q' hq' hl'
    rw [setO_ne _ _ (by rintro rfl; omega)] at hv'
    rw [setO_ne _ _ (hne q' hl')]; exact hs.ldc q hqS hqr n e eye hk hv' hA q' hq' hl'

theorem MXInv.lower {r r' : ℕ} (hr : r' ≤ r) {s : MSt K} (h : MXInv c rank V S A r s) :
    MXInv c rank V S A r' s :=
  ⟨h.me.lower hr, h.leaf, fun o ho hl => h.form o ho (lt_of_lt_of_le hl hr), h.cl,
    fun o ho hl => h.lc o ho (lt_of_lt_of_le hl hr), h.av⟩

theorem MDInv.lower {r r' : ℕ} (hr : r' ≤ r) {s : MSt K} (h : MDInv c X rank V D S A r s) :
    MDInv c X rank V D S A r' s :=
  ⟨h.e.lower hr, h.bufs, h.leaf, fun o ho hl => h.form o ho (lt_of_lt_of_le hl hr), h.dleaf,
    fun o ho hl => h.dform o ho (lt_of_lt_of_le hl hr), fun o ho hl => h.ldc o ho (lt_of_lt_of_le hl hr)⟩

/-- **`devalF` of a named matrix**, whatever is stored. -/
theorem mfwdO_exact (hwf : c.E.WF rank) (hB : c.B.Sound c.E.P) (hK : c.B.KronSound)
    (hP : PadsOk c.E X) (hvars : VarsOk c.E) (hX : c.E.kind X = .var)
    (hZ : ∀ o ∈ S, o ∉ A → ∀ n e eye, c.E.kind o = .form n e eye → ∀ q ∈ (MEnv.item n e eye).objs, q ∈ Z) :
    ∀ f r, r ≤ f → MDSpecO c X rank V D S A Z r (mfwdO c X f) := by
  intro f
  induction f with
  | zero => intro r hrf o _ hr; omega
  | succ f ih =>
    intro r hrf o hS hr s hs
    by_cases hform : c.E.isForm o
    swap
    · exact mfwdO_leafX hwf hvars hX hS hr hform hs
    obtain ⟨n, e, eye, hk⟩ := hform
    have hform : c.E.isForm o := ⟨n, e, eye, hk⟩
    obtain ⟨hke, hre, hce, hde, her, hec, hrk⟩ := hwf.form o n e eye hk
    have hne : ∀ q, ¬c.E.isForm q → q ≠ o := fun q hq => by rintro rfl; exact hq hform
    by_cases hv : (s.obj o).visited = true
    · obtain ⟨m, hm1, hm2⟩ := hs.form o hS hr hform hv
      have hvis : ∀ q, ((s.setO o { s.obj o with devald := true }).obj q).visited = (s.obj q).visited := by
        intro q; by_cases hqo : q = o
        · subst hqo; simp
        · rw [setO_ne _ _ hqo]
      have hres : ∀ q, ((s.setO o { s.obj o with devald := true }).obj q).result = (s.obj q).result := by
        intro q; by_cases hqo : q = o
        · subst hqo; simp
        · rw [setO_ne _ _ hqo]
      have hdres : ∀ q, ((s.setO o { s.obj o with devald := true }).obj q).dresult = (s.obj q).dresult := by
        intro q; by_cases hqo : q = o
        · subst hqo; simp
        · rw [setO_ne _ _ hqo]
      refine ⟨s.setO o { s.obj o with devald := true }, m, ?_,
        ⟨⟨⟨hs.e.me.live, ?_, ?_, ?_, ?_⟩, ?_, ?_, ?_, ?_, ?_⟩, ⟨?_, ?_, ?_⟩, ?_, ?_, ?_, ?_, ?_⟩,
        ⟨⟨?_, ?_, ?_⟩, ?_, ?_, ?_⟩, by simpa using hv, fun h => absurd hform h, hm2⟩
      · simp [mfwdO, hk, hv, hm1]
      · intro q hq; rw [hres]; exact hs.e.me.rlive q hq
      · intro q hqS hq; rw [setO_ne _ _ (hne q hq)]; exact hs.e.me.leaf q hqS hq
      · intro q hqS hqr hq; rw [hvis, hres]; exact hs.e.me.form q hqS hqr hq
      · intro q hqS hqr n' e' eye' hk' hv' hA q' hq'
        rw [hvis] at hv' ⊢
        exact hs.e.me.vc q hqS hqr n' e' eye' hk' hv' hA q' hq'
      · intro q hqS hq; rw [setO_ne _ _ (hne q hq)]; exact hs.e.leaf q hqS hq
      · intro q hqS hqr n' e' eye' hk'; rw [hvis]; exact hs.e.form q hqS hqr n' e' eye' hk'
      · intro q hqS n' e' eye' hk'; rw [hvis]; exact hs.e.cl q hqS n' e' eye' hk'
      · intro q hqS hqr n' e' eye' hk' hv' hA q' hq' hl'
        rw [hvis] at hv'
        rw [setO_ne _ _ (hne q' hl')]; exact hs.e.lc q hqS hqr n' e' eye' hk' hv' hA q' hq' hl'
      · intro q hq; rw [hvis]; exact hs.e.av q hq
      · intro q hq; rw [hdres]; exact hs.bufs.live q hq
      · intro q hq; rw [hdres]; exact hs.bufs.num q hq
      · intro q hq; rw [hdres]; exact hs.bufs.var q hq
      · intro q hqS hq; rw [setO_ne _ _ (hne q hq)]; exact hs.leaf q hqS hq
      · intro q hqS hqr hq; rw [hvis, hdres]; exact hs.form q hqS hqr hq
      · intro q hqS hq; rw [setO_ne _ _ (hne q hq)]; exact hs.dleaf q hqS hq
      · intro q hqS hqr n' e' eye' hk'; rw [hvis]; exact hs.dform q hqS hqr n' e' eye' hk'
      · intro q hqS hqr n' e' eye' hk' hv' hA q' hq' hl'
        rw [hvis] at hv'
        rw [setO_ne _ _ (hne q' hl')]; exact hs.ldc q hqS hqr n' e' eye' hk' hv' hA q' hq' hl'
      · intro q hq
        rw [setO_ne _ _ (by rintro rfl; exact hq ⟨hS, hr⟩)]
      · intro q; by_cases hqo : q = o
        · subst hqo; simp
        · rw [setO_ne _ _ hqo]
      · intro q h; rw [hvis]; exact h
      · intro q hq h; rw [setO_ne _ _ (hne q hq)]; exact h
      · intro q hq h; rw [setO_ne _ _ (hne q hq)] at h; exact Or.inl h
      · intro q hq h; rw [setO_ne _ _ (hne q hq)]; exact h
    · have hvf : (s.obj o).visited = false := by simpa using hv
      have hoA : o ∉ A := fun h => hv (hs.e.av o h)
      obtain ⟨hI, _, hVo, hVeye⟩ := hs.e.form o hS hr n e eye hk hvf
      obtain ⟨hinv, hDo, hDeye⟩ := hs.dform o hS hr n e eye hk hvf
      let s0 : MSt K := (s.setO o { s.obj o with devald := true }).setO o
        { (s.setO o { s.obj o with devald := true }).obj o with visited := true }
      have hs0 : ∀ q, q ≠ o → s0.obj q = s.obj q := by
        intro q hq; simp only [s0]; rw [setO_ne _ _ hq, setO_ne _ _ hq]
      have hs0o : s0.obj o = { s.obj o with devald := true, visited := true } := by simp [s0]
      have i0 : MDInv c X rank V D S A (rank o) s0 :=
        ((hs.lower hr.le).setForm (v := { s.obj o with devald := true }) hform le_rfl
          (fun h => h)).setForm (v := { (s.setO o { s.obj o with devald := true }).obj o with
            visited := true }) hform le_rfl (fun _ => rfl)
      have hidim : (MEnv.item n e eye).dims c.E = (c.E.rows o, c.E.cols o) := by
        simp only [MEnv.item, MNode.dims, MBin.odims, hce, her, hec]
      have hid : DimOk c.E (MEnv.item n e eye) :=
        ⟨hde, trivial, by simp [MBin.dimOk, MNode.dims, hre], trivial⟩
      have hiI : UsesInv (MEnv.item n e eye) → c.B.InvSound := fun h => h.elim hI (fun h => h.elim)
      have hiinv : Invertible True c.E c.sc.val V (MEnv.item n e eye) := ⟨hinv, trivial⟩
      have hcl := hs.e.cl o hS n e eye hk hvf
      have hZo : ∀ q ∈ (MEnv.item n e eye).objs, q ∈ Z := hZ o hS hoA n e eye hk
      have hevs := mevalO_exact (V := V) hwf hB hZ f (rank o) (by omega)
      obtain ⟨s1, d, e1, i1, f1, v1, d1, w1, r1⟩ := fwdE_exact hwf hB hK hP hevs
        (ih (rank o) (by omega)) (MEnv.item n e eye) hid hiI hiinv
        (fun q hq => ⟨hcl q hq, hrk q hq⟩) (fun q hq _ => hZo q (MNode.evals_sub _ hq)) s0 i0
      have i1' : MDInv c X rank V D S A (rank o)
          (s1.setO o { s1.obj o with dresult := some d, devald := true }) :=
        i1.setForm hform le_rfl (fun h => h)
      have hobjne : ∀ q ∈ (MEnv.item n e eye).objs, q ≠ o := by
        intro q hq; rintro rfl; exact absurd (hrk q hq) (lt_irrefl _)
      obtain ⟨s2, m, e2, i2, f2, v2, u2, w2, r2⟩ := evalE_exact hB hevs (MEnv.item n e eye) hid hiI
        hiinv.weaken (fun q hq => ⟨hcl q hq, hrk q hq, fun _ => hZo q hq⟩) _ i1'.e
      have i2' := i1'.eval i2 f2.fr (u2 (fun q hq => by rw [setO_ne _ _ (hobjne q hq)]; exact v1 q hq))
      have h1o : s1.obj o = s0.obj o := f1.fr.out o (fun h => by omega)
      have h2o : s2.obj o = { s1.obj o with dresult := some d, devald := true } := by
        rw [f2.fr.out o (fun h => by omega)]; simp
      have h2q : ∀ q, q ≠ o → ¬rank q < rank o → s2.obj q = s.obj q := by
        intro q hqo hlt
        rw [f2.fr.out q (fun h => hlt h.2), setO_ne _ _ hqo, f1.fr.out q (fun h => hlt h.2), hs0 q hqo]
      have hrep : Rep m (c.E.rows o) (c.E.cols o) (V o) := by
        rw [hidim] at r2
        refine r2.congr fun i j hi hj => ?_
        rw [den_item hre hce hVeye (by rw [← hec]; exact hj), hVo i j hi hj]
      have hdrep : Rep d (c.E.rows o * c.E.rows X) (c.E.cols o * c.E.cols X)
          (lay (c.E.rows X) (c.E.cols X) (D o)) := by
        rw [hidim] at r1
        refine r1.congr fun p q hp hq => ?_
        have hl := div_lt_of_lt_mul' hp
        have hk' := div_lt_of_lt_mul' hq
        have hi := Nat.mod_lt p (hwf.rpos X)
        have hj := Nat.mod_lt q (hwf.cpos X)
        simp only [lay]
        rw [tan_item hre hce hVeye (by rw [← hec]; exact hk'), hDo _ _ _ _ hl hk' hi hj]
        intro t ht
        exact hDeye _ _ _ _ (by rw [hre]; exact ht) (by rw [hce, ← hec]; exact hk') hi hj
      have mono2 : ∀ q, (s.obj q).visited = true → (s2.obj q).visited = true := by
        intro q hq
        apply f2.fr.mono
        by_cases hqo : q = o
        · subst hqo; exact absurd hq hv
        · rw [setO_ne _ _ hqo]; apply f1.fr.mono; rwa [hs0 q hqo]
      have ev2 : ∀ q, ¬c.E.isForm q → (s.obj q).evald = true → (s2.obj q).evald = true := by
        intro q hq h
        refine f2.ev q hq ?_
        rw [setO_ne _ _ (hne q hq)]
        exact f1.ev q hq (by rw [hs0 q (hne q hq)]; exact h)
      have dv2 : ∀ q, ¬c.E.isForm q → (s.obj q).devald = true → (s2.obj q).devald = true := by
        intro q hq h
        refine f2.toD.dv q hq ?_
        rw [setO_ne _ _ (hne q hq)]
        exact f1.dv q hq (by rw [hs0 q (hne q hq)]; exact h)
      have i3 : MDInv c X rank V D S A (rank o)
          (s2.setO o { s2.obj o with result := some m, evald := true }) :=
        i2'.setForm hform le_rfl (fun h => h)
      have hvis3 : ∀ q, ((s2.setO o { s2.obj o with result := some m, evald := true }).obj q).visited
          = (s2.obj q).visited := by
        intro q; by_cases hqo : q = o
        · subst hqo; simp
        · rw [setO_ne _ _ hqo]
      have hov : (s2.obj o).visited = true := by simp [h2o, h1o, hs0o]
      refine ⟨s2.setO o { s2.obj o with result := some m, evald := true }, d, ?_,
        ⟨⟨⟨i3.e.me.live, i3.e.me.rlive, i3.e.me.leaf, ?_, ?_⟩, i3.e.leaf, ?_, i3.e.cl, ?_, i3.e.av⟩, i3.bufs,
          i3.leaf, ?_, i3.dleaf, ?_, ?_⟩, ⟨⟨?_, ?_, ?_⟩, ?_, ?_, ?_⟩, ?_, fun h => absurd hform h, hdrep⟩
      · simp only [mfwdO, hk, setO_same, hvf]
        simp only [s0, setO_same, hvf] at e1
        simp [e1, e2]
      · intro q hqS hqr hq
        by_cases hqo : q = o
        · subst hqo; simp only [setO_same]; intro _; exact ⟨m, rfl, hrep⟩
        · by_cases hlt : rank q < rank o
          · exact i3.e.me.form q hqS hlt hq
          · rw [setO_ne _ _ hqo, h2q q hqo hlt]; exact hs.e.me.form q hqS hqr hq
      · intro q hqS hqr n' e' eye' hk' hv' hA q' hq'
        rw [hvis3] at hv' ⊢
        by_cases hqo : q = o
        · subst hqo
          rw [hk] at hk'; cases hk'
          exact v2 q' hq'
        · by_cases hlt : rank q < rank o
          · exact i2.me.vc q hqS hlt n' e' eye' hk' hv' hA q' hq'
          · rw [h2q q hqo hlt] at hv'
            exact mono2 q' (hs.e.me.vc q hqS hqr n' e' eye' hk' hv' hA q' hq')
      · intro q hqS hqr n' e' eye' hk' hv'
        by_cases hqo : q = o
        · subst hqo; rw [hvis3, hov] at hv'; cases hv'
        · by_cases hlt : rank q < rank o
          · exact i3.e.form q hqS hlt n' e' eye' hk' hv'
          · rw [setO_ne _ _ hqo, h2q q hqo hlt] at hv'; exact hs.e.form q hqS hqr n' e' eye' hk' hv'
      · intro q hqS hqr n' e' eye' hk' hv' hA q' hq' hl'
        by_cases hqo : q = o
        · subst hqo
          rw [hk] at hk'; cases hk'
          rw [setO_ne _ _ (hne q' hl')]; exact w2 q' hq' hl'
        · by_cases hlt : rank q < rank o
          · exact i3.e.lc q hqS hlt n' e' eye' hk' hv' hA q' hq' hl'
          · rw [setO_ne _ _ hqo, h2q q hqo hlt] at hv'
            rw [setO_ne _ _ (hne q' hl')]
            exact ev2 q' hl' (hs.e.lc q hqS hqr n' e' eye' hk' hv' hA q' hq' hl')
      · intro q hqS hqr hq
        by_cases hqo : q = o
        · subst hqo; simp only [setO_same]; intro _; rw [h2o]; exact ⟨d, rfl, hdrep⟩
        · by_cases hlt : rank q < rank o
          · exact i3.form q hqS hlt hq
          · rw [setO_ne _ _ hqo, h2q q hqo hlt]; exact hs.form q hqS hqr hq
      · intro q hqS hqr n' e' eye' hk' hv'
        by_cases hqo : q = o
        · subst hqo; rw [hvis3, hov] at hv'; cases hv'
        · by_cases hlt : rank q < rank o
          · exact i3.dform q hqS hlt n' e' eye' hk' hv'
          · rw [setO_ne _ _ hqo, h2q q hqo hlt] at hv'; exact hs.dform q hqS hqr n' e' eye' hk' hv'
      · intro q hqS hqr n' e' eye' hk' hv' hA q' hq' hl'
        by_cases hqo : q = o
        · subst hqo
          rw [hk] at hk'; cases hk'
          rw [setO_ne _ _ (hne q' hl')]
          refine f2.toD.dv q' hl' ?_
          rw [setO_ne _ _ (hne q' hl')]; exact d1 q' hq' hl'
        · by_cases hlt : rank q < rank o
          · exact i3.ldc q hqS hlt n' e' eye' hk' hv' hA q' hq' hl'
          · rw [setO_ne _ _ hqo, h2q q hqo hlt] at hv'
            rw [setO_ne _ _ (hne q' hl')]
            exact dv2 q' hl' (hs.ldc q hqS hqr n' e' eye' hk' hv' hA q' hq' hl')
      · intro q hq
        have hqo : q ≠ o := by rintro rfl; exact hq ⟨hS, hr⟩
        have hno : ¬(q ∈ S ∧ rank q < rank o) := fun h => hq ⟨h.1, by omega⟩
        rw [setO_ne _ _ hqo, f2.fr.out q hno, setO_ne _ _ hqo, f1.fr.out q hno, hs0 q hqo]
      · intro q; by_cases hqo : q = o
        · subst hqo; simp [h2o, h1o, hs0o]
        · rw [setO_ne _ _ hqo, f2.fr.cache, setO_ne _ _ hqo, f1.fr.cache, hs0 q hqo]
      · intro q hq; rw [hvis3]; exact mono2 q hq
      · intro q hq h; rw [setO_ne _ _ (hne q hq)]; exact ev2 q hq h
      · intro q hq h
        rw [setO_ne _ _ (hne q hq)] at h
        rcases f2.evz q hq h with h | h
        · rw [setO_ne _ _ (hne q hq)] at h
          exact (f1.evz q hq h).imp (fun h => by rwa [hs0 q (hne q hq)] at h) id
        · exact Or.inr h
      · intro q hq h; rw [setO_ne _ _ (hne q hq)]; exact dv2 q hq h
      · rw [hvis3]; exact hov

end

end CoolDiff
