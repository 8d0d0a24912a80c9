import Verif.Matrix.MHist

/-!
# Evaluation of matrices from any stored state

`mevalO_exact` is `mevalO_spec` without the assumption that what is stored is current: `V` has to satisfy the
equations of the matrices that the query computes, and to be what is stored for the others.
-/

set_option linter.unusedSectionVars false

namespace CoolDiff

open MNode

variable {K : Type} [Field K] [DecidableEq K]

/-! ## The invariant -/

section
variable (c : MCtx K) (rank : ℕ → ℕ) (V : ℕ → ℕ → ℕ → K) (S A Z : Set ℕ)

/-- `MEInv`, where the matrices in `A` need not be above visited ones. -/
structure MEInvA (r : ℕ) (s : MSt K) : Prop where
  live : ∀ n, SlotsOk c.E.P (s.slot n)
  rlive : ∀ o, ¬c.E.isForm o → Live (s.obj o).result
  leaf : ∀ o ∈ S, ¬c.E.isForm o → (s.obj o).evald = true →
    ∃ m, (s.obj o).result = some m ∧ Rep m (c.E.rows o) (c.E.cols o) (V o)
  form : ∀ o ∈ S, rank o < r → c.E.isForm o → (s.obj o).visited = true →
    ∃ m, (s.obj o).result = some m ∧ Rep m (c.E.rows o) (c.E.cols o) (V o)
  vc : ∀ o ∈ S, rank o < r → ∀ n e eye, c.E.kind o = .form n e eye → (s.obj o).visited = true → o ∉ A →
    ∀ q ∈ (MEnv.item n e eye).objs, (s.obj q).visited = true

/-- `MEInvA`, and `V` satisfies the equations of the matrices that are not flagged; `S` contains everything met
(`cl`), and the leaves of the formulas that were computed, those visited and not in `A`, are evaluated. -/
structure MXInv (r : ℕ) (s : MSt K) : Prop where
  me : MEInvA c rank V S A r s
  leaf : ∀ o ∈ S, ¬c.E.isForm o → (s.obj o).evald = false →
    ∀ i j, i < c.E.rows o → j < c.E.cols o → V o i j = c.sc.val (c.E.el o i j)
  form : ∀ o ∈ S, rank o < r → ∀ n e eye, c.E.kind o = .form n e eye → (s.obj o).visited = false →
    (UsesInv e → c.B.InvSound) ∧ Invertible False c.E c.sc.val V e ∧
    (∀ i j, i < c.E.rows o → j < c.E.cols o → V o i j = den c.E c.sc.val V e i j) ∧
    (∀ i j, i < c.E.rows eye → j < c.E.cols eye → V eye i j = if i = j then 1 else 0)
  cl : ∀ o ∈ S, ∀ n e eye, c.E.kind o = .form n e eye → (s.obj o).visited = false →
    ∀ q ∈ (MEnv.item n e eye).objs, q ∈ S
  lc : ∀ o ∈ S, rank o < r → ∀ n e eye, c.E.kind o = .form n e eye → (s.obj o).visited = true → o ∉ A →
    ∀ q ∈ (MEnv.item n e eye).objs, ¬c.E.isForm q → (s.obj q).evald = true
  av : ∀ o ∈ A, (s.obj o).visited = true

/-- `EFrame`, evaluated leaves stay evaluated, and only those of `Z` become so. -/
structure MXFrame (r : ℕ) (s s' : MSt K) : Prop where
  fr : EFrame rank S r s s'
  ev : ∀ o, ¬c.E.isForm o → (s.obj o).evald = true → (s'.obj o).evald = true
  evz : ∀ o, ¬c.E.isForm o → (s'.obj o).evald = true → (s.obj o).evald = true ∨ o ∈ Z

/-- What `eval` of a named matrix must achieve. -/
def MXSpecO (r : ℕ) (ev : ℕ → MSt K → Option (MSt K × Mat K)) : Prop :=
  ∀ o ∈ S, rank o < r → (¬c.E.isForm o → o ∈ Z) → ∀ s, MXInv c rank V S A r s → ∃ s' m, ev o s = some (s', m) ∧
    MXInv c rank V S A r s' ∧ MXFrame c rank S Z r s s' ∧ (s'.obj o).visited = true ∧
    ((s.obj o).visited = true → ∀ q, (s'.obj q).visited = (s.obj q).visited) ∧
    (¬c.E.isForm o → (s'.obj o).evald = true) ∧ Rep m (c.E.rows o) (c.E.cols o) (V o)

variable {c rank V S A Z}

theorem MEInvA.setN {r : ℕ} {s : MSt K} (h : MEInvA c rank V S A r s) (n : ℕ) {a : Slots K}
    (ha : SlotsOk c.E.P a) : MEInvA c rank V S A r (s.setN n a) :=
  ⟨setN_live h.live n ha, h.rlive, h.leaf, h.form, h.vc⟩

theorem MEInvA.lower {r r' : ℕ} (hr : r' ≤ r) {s : MSt K} (h : MEInvA c rank V S A r s) :
    MEInvA c rank V S A r' s :=
  ⟨h.live, h.rlive, h.leaf, fun o ho hl => h.form o ho (lt_of_lt_of_le hl hr),
    fun o ho hl => h.vc o ho (lt_of_lt_of_le hl hr)⟩

theorem MXInv.setN {r : ℕ} {s : MSt K} (h : MXInv c rank V S A r s) (n : ℕ) {a : Slots K}
    (ha : SlotsOk c.E.P a) : MXInv c rank V S A r (s.setN n a) :=
  ⟨h.me.setN n ha, h.leaf, h.form, h.cl, h.lc, h.av⟩

theorem MXFrame.trans {r : ℕ} {s s' s'' : MSt K} (h : MXFrame c rank S Z r s s')
    (h' : MXFrame c rank S Z r s' s'') : MXFrame c rank S Z r s s'' :=
  ⟨h.fr.trans h'.fr, fun o ho hv => h'.ev o ho (h.ev o ho hv),
    fun o ho hv => (h'.evz o ho hv).elim (h.evz o ho) Or.inr⟩

theorem MXFrame.setN {r : ℕ} {s s' : MSt K} (h : MXFrame c rank S Z r s s') (n : ℕ) (a : Slots K) :
    MXFrame c rank S Z r s (s'.setN n a) := ⟨h.fr.setN n a, h.ev, h.evz⟩

/-- `eval` of an expression. -/
theorem evalE_exact (hB : c.B.Sound c.E.P) {r : ℕ} {ev : ℕ → MSt K → Option (MSt K × Mat K)}
    (hev : MXSpecO c rank V S A Z r ev) (e : MNode K) :
    DimOk c.E e → (UsesInv e → c.B.InvSound) → Invertible False c.E c.sc.val V e →
    (∀ q ∈ e.objs, q ∈ S ∧ rank q < r ∧ (¬c.E.isForm q → q ∈ Z)) →
    ∀ s, MXInv c rank V S A r s → ∃ s' m, evalE c ev e s = some (s', m) ∧
      MXInv c rank V S A r s' ∧ MXFrame c rank S Z r s s' ∧ (∀ q ∈ e.objs, (s'.obj q).visited = true) ∧
      ((∀ q ∈ e.objs, (s.obj q).visited = true) → ∀ q, (s'.obj q).visited = (s.obj q).visited) ∧
      (∀ q ∈ e.objs, ¬c.E.isForm q → (s'.obj q).evald = true) ∧
      Rep m (e.dims c.E).1 (e.dims c.E).2 (den c.E c.sc.val V e) := by
  induction e with
  | obj o =>
    intro _ _ _ hobj s hs
    obtain ⟨hS, hr, hz⟩ := hobj o (by simp [MNode.objs])
    obtain ⟨s', m, h1, h2, h3, h4, hw, h5, h6⟩ := hev o hS hr hz s hs
    refine ⟨s', m, h1, h2, h3, ?_, fun h => hw (h o (by simp [MNode.objs])), ?_, h6⟩
    · intro q hq
      simp only [MNode.objs, List.mem_singleton] at hq
      subst hq; exact h4
    · intro q hq
      simp only [MNode.objs, List.mem_singleton] at hq
      subst hq; exact h5
  | bin n op x y ihx ihy =>
    intro hdim hI hinv hobj s hs
    obtain ⟨hdx, hdy, hd, hpad⟩ := hdim
    obtain ⟨s1, L, e1, i1, f1, v1, u1, w1, r1⟩ := ihx hdx (fun h => hI (Or.inl h)) hinv.1
      (fun q hq => hobj q (by simp [MNode.objs, hq])) s hs
    obtain ⟨s2, R, e2, i2, f2, v2, u2, w2, r2⟩ := ihy hdy (fun h => hI (Or.inr h)) hinv.2
      (fun q hq => hobj q (by simp [MNode.objs, hq])) s1 i1
    obtain ⟨a, m, e3, l3, r3⟩ := MBin.eval_spec hB op (i2.me.live n) hd hpad r1 r2
    refine ⟨s2.setN n a, m, ?_, i2.setN n l3, (f1.trans f2).setN n a, ?_, ?_, ?_, ?_⟩
    · simp [evalE, hd, e1, e2, e3]
    · intro q hq
      simp only [MNode.objs, List.mem_append] at hq
      rcases hq with hq | hq
      · exact f2.fr.mono q (v1 q hq)
      · exact v2 q hq
    · intro h q
      have h1 := u1 fun q hq => h q (by simp [MNode.objs, hq])
      have h2 := u2 fun q hq => by rw [h1]; exact h q (by simp [MNode.objs, hq])
      exact (h2 q).trans (h1 q)
    · intro q hq hl
      simp only [MNode.objs, List.mem_append] at hq
      rcases hq with hq | hq
      · exact f2.ev q hl (w1 q hq hl)
      · exact w2 q hq hl
    · rw [den_bin]; exact r3
  | un n op x ih =>
    intro hdim hI hinv hobj s hs
    obtain ⟨hdx, hd⟩ := hdim
    obtain ⟨s1, R, e1, i1, f1, v1, u1, w1, r1⟩ := ih hdx
      (fun h => hI (by cases op <;> simp [UsesInv, h]))
      (by cases op <;> first | exact hinv | exact hinv.1)
      (fun q hq => hobj q (by simpa [MNode.objs] using hq)) s hs
    obtain ⟨a, m, e3, l3, r3⟩ := MUn.eval_spec hB op
      (fun h => hI (by cases op <;> simp_all [UsesInv, MUn.isInv])) (i1.me.live n) hd r1
      (by cases op <;> first | trivial | exact hinv.2)
    refine ⟨s1.setN n a, m, ?_, i1.setN n l3, f1.setN n a, ?_, fun h => u1 (by simpa [MNode.objs] using h), ?_, ?_⟩
    · simp [evalE, hd, e1, e3]
    · intro q hq; exact v1 q (by simpa [MNode.objs] using hq)
    · intro q hq; exact w1 q (by simpa [MNode.objs] using hq)
    · rw [dims_un, den_un]; exact r3

/-- The existing lemma on leaves, for one leaf. -/
theorem mevalO_leafX (hwf : c.E.WF rank) {r f o : ℕ}
    (hS : o ∈ S) (hr : rank o < r) (hleaf : ¬c.E.isForm o) (hz : o ∈ Z) {s : MSt K}
    (hs : MXInv c rank V S A r s) :
    ∃ s' m, mevalO c (f + 1) o s = some (s', m) ∧
    MXInv c rank V S A r s' ∧ MXFrame c rank S Z r s s' ∧ (s'.obj o).visited = true ∧
    ((s.obj o).visited = true → ∀ q, (s'.obj q).visited = (s.obj q).visited) ∧
    (¬c.E.isForm o → (s'.obj o).evald = true) ∧
    Rep m (c.E.rows o) (c.E.cols o) (V o) := by
  have hunf : mevalO c (f + 1) o s = (do
      let r ← leafEval c o (s.obj o)
      let s := s.setO o { s.obj o with result := some r, evald := true, visited := true }
      some (s, r)) := by
    rcases h : c.E.kind o with _ | _ | _ | _ | ⟨n, e, eye⟩
    · simp only [mevalO, h]
    · simp only [mevalO, h]
    · simp only [mevalO, h]
    · simp only [mevalO, h]
    · exact absurd ⟨n, e, eye, h⟩ hleaf
  obtain ⟨p, hp, pr, pc, pwf⟩ := Mat.pool_spec (hs.me.rlive o hleaf) (hwf.rpos o) (hwf.cpos o)
  have hval : ∃ m, leafEval c o (s.obj o) = some m ∧
      Rep m (c.E.rows o) (c.E.cols o) (V o) := by
    rw [leafEval, hp, Option.bind_some]
    by_cases hev : (s.obj o).evald = true
    · obtain ⟨m, hm1, hm2⟩ := hs.me.leaf o hS hleaf hev
      rw [if_pos hev]
      refine ⟨p, rfl, ?_⟩
      rw [hm1, Mat.pool_self hm2.rows hm2.cols] at hp
      cases hp; exact hm2
    · rw [if_neg hev]
      obtain ⟨m, h1, h2⟩ := rawFill (g := fun i j => c.sc.val (c.E.el o i j)) pwf pr pc
      exact ⟨m, h1, h2.congr fun i j hi hj => (hs.leaf o hS hleaf (by simpa using hev) i j hi hj).symm⟩
  obtain ⟨m, hm1, hm2⟩ := hval
  have hob : ∀ q, q ≠ o → ((s.setO o { s.obj o with result := some m, evald := true, visited := true }).obj q)
      = s.obj q := fun q hq => setO_ne _ _ hq
  have hmono : ∀ q, (s.obj q).visited = true →
      ((s.setO o { s.obj o with result := some m, evald := true, visited := true }).obj q).visited = true := by
    intro q; by_cases hqo : q = o
    · subst hqo; simp
    · rw [hob q hqo]; exact id
  refine ⟨s.setO o { s.obj o with result := some m, evald := true, visited := true }, m,
    by rw [hunf, hm1]; rfl,
    ⟨⟨hs.me.live, ?_, ?_, ?_, ?_⟩, ?_, ?_, ?_, ?_, fun q hq => hmono q (hs.av q hq)⟩,
    ⟨⟨?_, ?_, ?_, ?_, hmono⟩, ?_, ?_⟩, by simp, ?_,
    fun _ => by simp, hm2⟩
  · intro q hq
    by_cases hqo : q = o
    · subst hqo; simp only [setO_same]; exact Live.some hm2.wf
    · rw [hob q hqo]; exact hs.me.rlive q hq
  · intro q hqS hq
    by_cases hqo : q = o
    · subst hqo; simp only [setO_same]; intro _; exact ⟨m, rfl, hm2⟩
    · rw [hob q hqo]; exact hs.me.leaf q hqS hq
  · intro q hqS hqr hq
    have hqo : q ≠ o := by rintro rfl; exact hleaf hq
    rw [hob q hqo]; exact hs.me.form q hqS hqr hq
  · intro q hqS hqr n e eye hk
    have hqo : q ≠ o := by rintro rfl; exact hleaf ⟨n, e, eye, hk⟩
    rw [hob q hqo]
    intro hv hA q' hq'
    exact hmono q' (hs.me.vc q hqS hqr n e eye hk hv hA q' hq')
  · intro q hqS hq hev
    by_cases hqo : q = o
    · subst hqo; simp at hev
    · rw [hob q hqo] at hev; exact hs.leaf q hqS hq hev
  · intro q hqS hqr n e eye hk hv
    have hqo : q ≠ o := by rintro rfl; exact hleaf ⟨n, e, eye, hk⟩
    rw [hob q hqo] at hv
    exact hs.form q hqS hqr n e eye hk hv
  · intro q hqS n e eye hk hv
    have hqo : q ≠ o := by rintro rfl; exact hleaf ⟨n, e, eye, hk⟩
    rw [hob q hqo] at hv
    exact hs.cl q hqS n e eye hk hv
  · intro q hqS hqr n e eye hk hv hA q' hq' hl'
    have hqo : q ≠ o := by rintro rfl; exact hleaf ⟨n, e, eye, hk⟩
    rw [hob q hqo] at hv
    by_cases hqo' : q' = o
    · subst hqo'; simp
    · rw [hob q' hqo']; exact hs.lc q hqS hqr n e eye hk hv hA q' hq' hl'
  · intro q hq
    have hqo : q ≠ o := by rintro rfl; exact hq ⟨hS, hr⟩
    rw [hob q hqo]
  · intro q; by_cases hqo : q = o
    · subst hqo; simp
    · rw [hob q hqo]
  · intro q; by_cases hqo : q = o
    · subst hqo; simp
    · rw [hob q hqo]
  · intro q; by_cases hqo : q = o
    · subst hqo; simp
    · rw [hob q hqo]
  · intro q _ hv
    by_cases hqo : q = o
    · subst hqo; simp
    · rw [hob q hqo]; exact hv
  · intro q _ hv
    by_cases hqo : q = o
    · subst hqo; exact Or.inr hz
    · rw [hob q hqo] at hv; exact Or.inl hv
  · intro hv q
    by_cases hqo : q = o
    · subst hqo; simp [hv]
    · rw [hob q hqo]

/-- **`eval` of a named matrix**, whatever is stored. -/
theorem mevalO_exact (hwf : c.E.WF rank) (hB : c.B.Sound c.E.P) 
    (hZ : ∀ o ∈ S, o ∉ A → ∀ n e eye, c.E.kind o = .form n e eye → ∀ q ∈ (MEnv.item n e eye).objs, q ∈ Z) :
    ∀ f r, r ≤ f → MXSpecO c rank V S A Z r (mevalO c f) := by
  intro f
  induction f with
  | zero => intro r hrf o _ hr; omega
  | succ f ih =>
    intro r hrf o hS hr hz s hs
    by_cases hform : c.E.isForm o
    swap
    · exact mevalO_leafX hwf hS hr hform (hz hform) hs
    obtain ⟨n, e, eye, hk⟩ := hform
    have hform : c.E.isForm o := ⟨n, e, eye, hk⟩
    obtain ⟨_, hre, hce, hde, her, hec, hrk⟩ := hwf.form o n e eye hk
    by_cases hv : (s.obj o).visited = true
    · obtain ⟨m, hm1, hm2⟩ := hs.me.form o hS hr hform hv
      have hne : ∀ q, ¬c.E.isForm q → q ≠ o := fun q hq => by rintro rfl; exact hq hform
      have hvis : ∀ q, ((s.setO o { s.obj o with evald := true }).obj q).visited = (s.obj q).visited := by
        intro q; by_cases hqo : q = o
        · subst hqo; simp
        · rw [setO_ne _ _ hqo]
      have hres : ∀ q, ((s.setO o { s.obj o with evald := true }).obj q).result = (s.obj q).result := by
        intro q; by_cases hqo : q = o
        · subst hqo; simp
        · rw [setO_ne _ _ hqo]
      refine ⟨s.setO o { s.obj o with evald := true }, m, ?_, ⟨⟨hs.me.live, ?_, ?_, ?_, ?_⟩, ?_, ?_, ?_, ?_, ?_⟩,
        ⟨⟨?_, ?_, ?_, ?_, ?_⟩, ?_, ?_⟩, by simpa using hv, fun _ => hvis, fun h => absurd hform h, hm2⟩
      · simp [mevalO, hk, hv, hm1]
      · intro q hq; rw [hres]; exact hs.me.rlive q hq
      · intro q hqS hq; rw [setO_ne _ _ (hne q hq)]; exact hs.me.leaf q hqS hq
      · intro q hqS hqr hq; rw [hvis, hres]; exact hs.me.form q hqS hqr hq
      · intro q hqS hqr n' e' eye' hk' hv' hA q' hq'
        rw [hvis] at hv' ⊢
        exact hs.me.vc q hqS hqr n' e' eye' hk' hv' hA q' hq'
      · intro q hqS hq hev; rw [setO_ne _ _ (hne q hq)] at hev; exact hs.leaf q hqS hq hev
      · intro q hqS hqr n' e' eye' hk' hv'; rw [hvis] at hv'
        exact hs.form q hqS hqr n' e' eye' hk' hv'
      · intro q hqS n' e' eye' hk' hv'; rw [hvis] at hv'
        exact hs.cl q hqS n' e' eye' hk' hv'
      · intro q hqS hqr n' e' eye' hk' hv' hA q' hq' hl'
        rw [hvis] at hv'
        rw [setO_ne _ _ (hne q' hl')]; exact hs.lc q hqS hqr n' e' eye' hk' hv' hA q' hq' hl'
      · intro q hq; rw [hvis]; exact hs.av q hq
      · intro q hq
        have hqo : q ≠ o := by rintro rfl; exact hq ⟨hS, hr⟩
        rw [setO_ne _ _ hqo]
      · intro q; by_cases hqo : q = o
        · subst hqo; simp
        · rw [setO_ne _ _ hqo]
      · intro q; by_cases hqo : q = o
        · subst hqo; simp
        · rw [setO_ne _ _ hqo]
      · intro q; by_cases hqo : q = o
        · subst hqo; simp
        · rw [setO_ne _ _ hqo]
      · intro q h; rw [hvis]; exact h
      · intro q hq h; rw [setO_ne _ _ (hne q hq)]; exact h
      · intro q hq h; rw [setO_ne _ _ (hne q hq)] at h; exact Or.inl h
    · have hvf : (s.obj o).visited = false := by simpa using hv
      obtain ⟨hI, hinv, hVo, hVeye⟩ := hs.form o hS hr n e eye hk hvf
      let s0 : MSt K := (s.setO o { s.obj o with evald := true }).setO o
        { (s.setO o { s.obj o with evald := true }).obj o with visited := true }
      have hs0 : ∀ q, q ≠ o → s0.obj q = s.obj q := by
        intro q hq; simp only [s0]; rw [setO_ne _ _ hq, setO_ne _ _ hq]
      have hs0o : s0.obj o = { s.obj o with evald := true, visited := true } := by simp [s0]
      have hne : ∀ q, ¬c.E.isForm q → q ≠ o := fun q hq => by rintro rfl; exact hq hform
      have i0 : MXInv c rank V S A (rank o) s0 := by
        refine ⟨⟨hs.me.live, ?_, ?_, ?_, ?_⟩, ?_, ?_, ?_, ?_, ?_⟩
        · intro q hq; rw [hs0 q (hne q hq)]; exact hs.me.rlive q hq
        · intro q hqS hq; rw [hs0 q (hne q hq)]; exact hs.me.leaf q hqS hq
        · intro q hqS hqr
          have hqo : q ≠ o := by rintro rfl; omega
          rw [hs0 q hqo]; exact hs.me.form q hqS (by omega)
        · intro q hqS hqr n' e' eye' hk' hv' hA q' hq'
          have hqo : q ≠ o := by rintro rfl; omega
          rw [hs0 q hqo] at hv'
          have h2 := hs.me.vc q hqS (by omega) n' e' eye' hk' hv' hA q' hq'
          by_cases hqo' : q' = o
          · subst hqo'; rw [hs0o]
          · rwa [hs0 q' hqo']
        · intro q hqS hq hev; rw [hs0 q (hne q hq)] at hev; exact hs.leaf q hqS hq hev
        · intro q hqS hqr n' e' eye' hk' hv'
          have hqo : q ≠ o := by rintro rfl; omega
          rw [hs0 q hqo] at hv'
          exact hs.form q hqS (by omega) n' e' eye' hk' hv'
        · intro q hqS n' e' eye' hk' hv'
          by_cases hqo : q = o
          · subst hqo; rw [hs0o] at hv'; cases hv'
          · rw [hs0 q hqo] at hv'; exact hs.cl q hqS n' e' eye' hk' hv'
        · intro q hqS hqr n' e' eye' hk' hv' hA q' hq' hl'
          have hqo : q ≠ o := by rintro rfl; omega
          rw [hs0 q hqo] at hv'
          rw [hs0 q' (hne q' hl')]
          exact hs.lc q hqS (by omega) n' e' eye' hk' hv' hA q' hq' hl'
        · intro q hq
          by_cases hqo : q = o
          · subst hqo; rw [hs0o]
          · rw [hs0 q hqo]; exact hs.av q hq
      have hidim : (MEnv.item n e eye).dims c.E = (c.E.rows o, c.E.cols o) := by
        simp only [MEnv.item, MNode.dims, MBin.odims, hce, her, hec]
      have hoA : o ∉ A := fun h => by rw [hs.av o h] at hvf; cases hvf
      obtain ⟨s1, m, e1, i1, f1, v1, _, w1, r1⟩ := evalE_exact hB
        (ih (rank o) (by omega)) (MEnv.item n e eye)
        ⟨hde, trivial, by simp [MBin.dimOk, MNode.dims, hre], trivial⟩
        (fun h => h.elim hI (fun h => h.elim)) ⟨hinv, trivial⟩
        (fun q hq => ⟨hs.cl o hS n e eye hk hvf q hq, hrk q hq, fun _ => hZ o hS hoA n e eye hk q hq⟩) s0 i0
      have hso : s1.obj o = s0.obj o := f1.fr.out o (fun h => by omega)
      have hrep : Rep m (c.E.rows o) (c.E.cols o) (V o) := by
        rw [hidim] at r1
        refine r1.congr fun i j hi hj => ?_
        rw [den_item hre hce hVeye (by rw [← hec]; exact hj), hVo i j hi hj]
      have hvis : ∀ q, ((s1.setO o { s1.obj o with result := some m, evald := true }).obj q).visited
          = (s1.obj q).visited := by
        intro q; by_cases hqo : q = o
        · subst hqo; simp
        · rw [setO_ne _ _ hqo]
      have hmono : ∀ q, (s.obj q).visited = true → (s1.obj q).visited = true := by
        intro q hq; by_cases hqo : q = o
        · subst hqo; simp [hso, hs0o]
        · apply f1.fr.mono; rwa [hs0 q hqo]
      have hold : ∀ q, ¬rank q < rank o → q ≠ o → s1.obj q = s.obj q := by
        intro q hlt hqo
        rw [f1.fr.out q (fun h => hlt h.2), hs0 q hqo]
      refine ⟨s1.setO o { s1.obj o with result := some m, evald := true }, m, ?_,
        ⟨⟨i1.me.live, ?_, ?_, ?_, ?_⟩, ?_, ?_, ?_, ?_, ?_⟩, ⟨⟨?_, ?_, ?_, ?_, ?_⟩, ?_, ?_⟩, ?_,
        fun h => absurd h hv, fun h => absurd hform h, hrep⟩
      · simp only [mevalO, hk, setO_same, hvf]
        simp only [s0, setO_same, hvf] at e1
        simp [e1]
      · intro q hq; rw [setO_ne _ _ (hne q hq)]; exact i1.me.rlive q hq
      · intro q hqS hq; rw [setO_ne _ _ (hne q hq)]; exact i1.me.leaf q hqS hq
      · intro q hqS hqr hq
        by_cases hqo : q = o
        · subst hqo; simp only [setO_same]; intro _; exact ⟨m, rfl, hrep⟩
        · rw [setO_ne _ _ hqo]
          by_cases hlt : rank q < rank o
          · exact i1.me.form q hqS hlt hq
          · rw [hold q hlt hqo]; exact hs.me.form q hqS hqr hq
      · intro q hqS hqr n' e' eye' hk' hv' hA q' hq'
        rw [hvis] at hv' ⊢
        by_cases hqo : q = o
        · subst hqo
          rw [hk] at hk'; cases hk'
          exact v1 q' hq'
        · by_cases hlt : rank q < rank o
          · exact i1.me.vc q hqS hlt n' e' eye' hk' hv' hA q' hq'
          · rw [hold q hlt hqo] at hv'
            exact hmono q' (hs.me.vc q hqS hqr n' e' eye' hk' hv' hA q' hq')
      · intro q hqS hq hev; rw [setO_ne _ _ (hne q hq)] at hev; exact i1.leaf q hqS hq hev
      · intro q hqS hqr n' e' eye' hk' hv'
        rw [hvis] at hv'
        by_cases hqo : q = o
        · subst hqo; rw [hso, hs0o] at hv'; cases hv'
        · by_cases hlt : rank q < rank o
          · exact i1.form q hqS hlt n' e' eye' hk' hv'
          · rw [hold q hlt hqo] at hv'; exact hs.form q hqS hqr n' e' eye' hk' hv'
      · intro q hqS n' e' eye' hk' hv'
        rw [hvis] at hv'; exact i1.cl q hqS n' e' eye' hk' hv'
      · intro q hqS hqr n' e' eye' hk' hv' hA q' hq' hl'
        rw [hvis] at hv'
        rw [setO_ne _ _ (hne q' hl')]
        by_cases hqo : q = o
        · subst hqo
          rw [hk] at hk'; cases hk'
          exact w1 q' hq' hl'
        · by_cases hlt : rank q < rank o
          · exact i1.lc q hqS hlt n' e' eye' hk' hv' hA q' hq' hl'
          · rw [hold q hlt hqo] at hv'
            exact f1.ev q' hl' (by
              rw [hs0 q' (hne q' hl')]; exact hs.lc q hqS hqr n' e' eye' hk' hv' hA q' hq' hl')
      · intro q hq; rw [hvis]; exact i1.av q hq
      · intro q hq
        have hqo : q ≠ o := by rintro rfl; exact hq ⟨hS, hr⟩
        rw [setO_ne _ _ hqo, f1.fr.out q (fun h => hq ⟨h.1, by omega⟩), hs0 q hqo]
      · intro q; by_cases hqo : q = o
        · subst hqo; simp [hso, hs0o]
        · rw [setO_ne _ _ hqo, f1.fr.dres, hs0 q hqo]
      · intro q; by_cases hqo : q = o
        · subst hqo; simp [hso, hs0o]
        · rw [setO_ne _ _ hqo, f1.fr.dev, hs0 q hqo]
      · intro q; by_cases hqo : q = o
        · subst hqo; simp [hso, hs0o]
        · rw [setO_ne _ _ hqo, f1.fr.cache, hs0 q hqo]
      · intro q hq; rw [hvis]; exact hmono q hq
      · intro q hq h
        rw [setO_ne _ _ (hne q hq)]
        exact f1.ev q hq (by rw [hs0 q (hne q hq)]; exact h)
      · intro q hq h
        rw [setO_ne _ _ (hne q hq)] at h
        exact (f1.evz q hq h).imp (fun h => by rwa [hs0 q (hne q hq)] at h) id
      · rw [hvis]; simp [hso, hs0o]

end


end CoolDiff
