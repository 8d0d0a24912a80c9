import Verif.Matrix.ExprFwd

/-!
# Reset of matrix expressions, and the state between queries

`reset()` descends only into matrices whose visited flag is set.  Between queries (`Rest`) everything
a visited formula mentions is visited, so resetting a visited matrix clears everything below it.
-/

set_option linter.unusedSectionVars false

namespace CoolDiff

variable {K : Type} [Field K] [DecidableEq K]

/-- `p` is `o` or is mentioned, directly or through other formulas, by the formula of `o`. -/
inductive MReach (E : MEnv K) (o : ℕ) : ℕ → Prop
  | refl : MReach E o o
  | step {p q n e eye} : MReach E o p → E.kind p = .form n e eye →
      q ∈ (MEnv.item n e eye).objs → MReach E o q

theorem MReach.closed (E : MEnv K) (o : ℕ) : Closed E (MReach E o) :=
  fun _ hp _ _ _ hk _ hq => MReach.step hp hk hq

theorem MReach.rank {E : MEnv K} {rank : ℕ → ℕ} (hwf : E.WF rank) {o p : ℕ} (h : MReach E o p) :
    rank p ≤ rank o := by
  induction h with
  | refl => exact le_rfl
  | step _ hk hq ih => exact ((hwf.form _ _ _ _ hk).2.2.2.2.2.2 _ hq).le.trans ih

/-- A matrix with cleared flags mentions only matrices with cleared flags (below rank `r`, in `S`). -/
def JInv (E : MEnv K) (rank : ℕ → ℕ) (S : Set ℕ) (r : ℕ) (s : MSt K) : Prop :=
  ∀ p ∈ S, rank p < r → (s.obj p).visited = false → ∀ n e eye, E.kind p = .form n e eye →
    ∀ q ∈ (MEnv.item n e eye).objs, (s.obj q).visited = false

/-- An element matrix that is evaluated or differentiated is visited. -/
def FlagOk (E : MEnv K) (s : MSt K) : Prop :=
  ∀ o, ¬E.isForm o → ((s.obj o).evald = true ∨ (s.obj o).devald = true) →
    (s.obj o).visited = true

/-- What reset leaves alone. -/
structure MRFrame (E : MEnv K) (rank : ℕ → ℕ) (S : Set ℕ) (r : ℕ) (s s' : MSt K) : Prop where
  slot : s'.slot = s.slot
  out : ∀ o, ¬(o ∈ S ∧ rank o < r) → s'.obj o = s.obj o
  res : ∀ o, (s'.obj o).result = (s.obj o).result
  dres : ∀ o, (s'.obj o).dresult = (s.obj o).dresult
  down : ∀ o, (s.obj o).visited = false → (s'.obj o).visited = false
  flags : FlagOk E s → FlagOk E s'

variable {E : MEnv K} {rank : ℕ → ℕ} {S : Set ℕ}

theorem MRFrame.refl (r : ℕ) (s : MSt K) : MRFrame E rank S r s s :=
  ⟨rfl, fun _ _ => rfl, fun _ => rfl, fun _ => rfl, fun _ h => h, id⟩

theorem MRFrame.trans {r : ℕ} {s s' s'' : MSt K} (h : MRFrame E rank S r s s')
    (h' : MRFrame E rank S r s' s'') : MRFrame E rank S r s s'' :=
  ⟨h'.slot.trans h.slot, fun o ho => (h'.out o ho).trans (h.out o ho),
    fun o => (h'.res o).trans (h.res o), fun o => (h'.dres o).trans (h.dres o),
    fun o ho => h'.down o (h.down o ho), fun hf => h'.flags (h.flags hf)⟩

theorem mresetE_spec {r : ℕ} {rs : ℕ → MSt K → Option (MSt K)}
    (hrs : ∀ o ∈ S, rank o < r → ∀ s, JInv E rank S r s → ∃ s', rs o s = some s' ∧
      JInv E rank S r s' ∧ MRFrame E rank S r s s' ∧ (s'.obj o).visited = false) (e : MNode K) :
    (∀ q ∈ e.objs, q ∈ S ∧ rank q < r) → ∀ s, JInv E rank S r s →
    ∃ s', mresetE rs e s = some s' ∧ JInv E rank S r s' ∧ MRFrame E rank S r s s' ∧
      ∀ q ∈ e.objs, (s'.obj q).visited = false := by
  induction e with
  | obj o =>
    intro ho s hs
    obtain ⟨h1, h2⟩ := ho o (by simp [MNode.objs])
    obtain ⟨s', e1, i1, f1, v1⟩ := hrs o h1 h2 s hs
    refine ⟨s', e1, i1, f1, ?_⟩
    intro q hq
    simp only [MNode.objs, List.mem_singleton] at hq
    subst hq; exact v1
  | bin n op x y ihx ihy =>
    intro ho s hs
    obtain ⟨s1, e1, i1, f1, v1⟩ := ihx (fun q hq => ho q (by simp [MNode.objs, hq])) s hs
    obtain ⟨s2, e2, i2, f2, v2⟩ := ihy (fun q hq => ho q (by simp [MNode.objs, hq])) s1 i1
    refine ⟨s2, by simp [mresetE, e1, e2], i2, f1.trans f2, ?_⟩
    intro q hq
    simp only [MNode.objs, List.mem_append] at hq
    rcases hq with hq | hq
    · exact f2.down q (v1 q hq)
    · exact v2 q hq
  | un n op x ih =>
    intro ho s hs
    obtain ⟨s1, e1, i1, f1, v1⟩ := ih (fun q hq => ho q (by simpa [MNode.objs] using hq)) s hs
    exact ⟨s1, by simpa [mresetE] using e1, i1, f1, by simpa [MNode.objs] using v1⟩

/-- `reset()` clears the flags of a matrix and of everything it mentions. -/
theorem mresetO_spec (hwf : E.WF rank) (hcl : Closed E S) :
    ∀ f r, r ≤ f → ∀ o ∈ S, rank o < r → ∀ s, JInv E rank S r s → ∃ s', mresetO E f o s = some s' ∧
      JInv E rank S r s' ∧ MRFrame E rank S r s s' ∧ (s'.obj o).visited = false := by
  intro f
  induction f with
  | zero => intro r hrf o _ hr; omega
  | succ f ih =>
    intro r hrf o hS hr s hs
    by_cases hv : (s.obj o).visited = true
    · set s0 : MSt K := s.setO o { s.obj o with visited := false, evald := false, devald := false }
        with hs0
      have hs0q : ∀ q, q ≠ o → s0.obj q = s.obj q := fun q hq => setO_ne _ _ hq
      have hs0o : s0.obj o = { s.obj o with visited := false, evald := false, devald := false } := by
        simp [hs0]
      have step : ∃ s1, mresetItem E (mresetO E f) o s0 = some s1 ∧ JInv E rank S (rank o) s1 ∧
            MRFrame E rank S (rank o) s0 s1 ∧ (∀ n e eye, E.kind o = .form n e eye →
              ∀ q ∈ (MEnv.item n e eye).objs, (s1.obj q).visited = false) := by
        have j0 : JInv E rank S (rank o) s0 := by
          intro p hp hpr hpv n e eye hk q hq
          have hpo : p ≠ o := by rintro rfl; omega
          rw [hs0q p hpo] at hpv
          have hqr := (hwf.form _ _ _ _ hk).2.2.2.2.2.2 q hq
          rw [hs0q q (by rintro rfl; omega)]
          exact hs p hp (by omega) hpv n e eye hk q hq
        simp only [mresetItem]
        rcases hk : E.kind o with _ | _ | _ | _ | ⟨n, e, eye⟩
        · exact ⟨s0, rfl, j0, MRFrame.refl _ _, by simp⟩
        · exact ⟨s0, rfl, j0, MRFrame.refl _ _, by simp⟩
        · exact ⟨s0, rfl, j0, MRFrame.refl _ _, by simp⟩
        · exact ⟨s0, rfl, j0, MRFrame.refl _ _, by simp⟩
        · obtain ⟨s1, e1, i1, f1, v1⟩ := mresetE_spec (ih (rank o) (by omega)) (MEnv.item n e eye)
            (fun q hq => ⟨hcl o hS n e eye hk q hq, (hwf.form _ _ _ _ hk).2.2.2.2.2.2 q hq⟩) s0 j0
          refine ⟨s1, e1, i1, f1, ?_⟩
          intro n' e' eye' hk'
          cases hk'; exact v1
      obtain ⟨s1, e1, j1, f1, v1⟩ := step
      have h1o : s1.obj o = s0.obj o := f1.out o (fun h => by omega)
      refine ⟨s1.setO o { s1.obj o with visited := false, cache := [] }, ?_, ?_,
        ⟨f1.slot, ?_, ?_, ?_, ?_, ?_⟩, by simp⟩
      · simp only [mresetO, hv, if_true]
        rw [← hs0, e1]; rfl
      · intro p hp hpr hpv n e eye hk q hq
        have hqr := (hwf.form _ _ _ _ hk).2.2.2.2.2.2 q hq
        have key : (s1.obj q).visited = false := by
          by_cases hpo : p = o
          · subst hpo; exact v1 n e eye hk q hq
          · rw [setO_ne _ _ hpo] at hpv
            by_cases hlt : rank p < rank o
            · exact j1 p hp hlt hpv n e eye hk q hq
            · rw [f1.out p (fun h => hlt h.2), hs0q p hpo] at hpv
              have h2 := hs p hp hpr hpv n e eye hk q hq
              apply f1.down
              by_cases hqo : q = o
              · subst hqo; rw [hs0o]
              · rwa [hs0q q hqo]
        by_cases hqo : q = o
        · subst hqo; simp
        · rwa [setO_ne _ _ hqo]
      · intro q hq
        have hqo : q ≠ o := by rintro rfl; exact hq ⟨hS, hr⟩
        rw [setO_ne _ _ hqo, f1.out q (fun h => hq ⟨h.1, by omega⟩), hs0q q hqo]
      · intro q; by_cases hqo : q = o
        · subst hqo; simp [h1o, hs0o]
        · rw [setO_ne _ _ hqo, f1.res, hs0q q hqo]
      · intro q; by_cases hqo : q = o
        · subst hqo; simp [h1o, hs0o]
        · rw [setO_ne _ _ hqo, f1.dres, hs0q q hqo]
      · intro q hq; by_cases hqo : q = o
        · subst hqo; simp
        · rw [setO_ne _ _ hqo]; apply f1.down; rwa [hs0q q hqo]
      · intro hfl
        have h0 : FlagOk E s0 := by
          intro q hq
          by_cases hqo : q = o
          · subst hqo; rw [hs0o]; rintro (h | h) <;> simp at h
          · rw [hs0q q hqo]; exact hfl q hq
        have h1 := f1.flags h0
        intro q hq
        by_cases hqo : q = o
        · subst hqo; simp only [setO_same, h1o, hs0o]; rintro (h | h) <;> simp at h
        · rw [setO_ne _ _ hqo]; exact h1 q hq
    · have hvf : (s.obj o).visited = false := by simpa using hv
      refine ⟨s.setO o { s.obj o with visited := false, cache := [] }, ?_, ?_,
        ⟨rfl, ?_, ?_, ?_, ?_, ?_⟩, by simp⟩
      · simp [mresetO, hvf]
      · have hvis : ∀ q, ((s.setO o { s.obj o with visited := false, cache := [] }).obj
            q).visited = (s.obj q).visited := by
          intro q; by_cases hqo : q = o
          · subst hqo; simp [hvf]
          · rw [setO_ne _ _ hqo]
        intro p hp hpr hpv n e eye hk q hq
        rw [hvis] at hpv ⊢
        exact hs p hp hpr hpv n e eye hk q hq
      · intro q hq
        rw [setO_ne _ _ (by rintro rfl; exact hq ⟨hS, hr⟩)]
      · intro q; by_cases hqo : q = o
        · subst hqo; simp
        · rw [setO_ne _ _ hqo]
      · intro q; by_cases hqo : q = o
        · subst hqo; simp
        · rw [setO_ne _ _ hqo]
      · intro q hq; by_cases hqo : q = o
        · subst hqo; simp
        · rwa [setO_ne _ _ hqo]
      · intro hfl q hq
        by_cases hqo : q = o
        · subst hqo; simp only [setO_same]
          intro h; exact absurd (hfl q hq h) hv
        · rw [setO_ne _ _ hqo]; exact hfl q hq

/-! ## Between queries -/

/-- The state between queries: buffers in order, flags consistent. -/
structure Rest (E : MEnv K) (s : MSt K) : Prop where
  live : ∀ n, SlotsOk E.P (s.slot n)
  rlive : ∀ o, ¬E.isForm o → Live (s.obj o).result
  bufs : DBufs E s
  fl : FlagOk E s
  vc : ∀ o n e eye, E.kind o = .form n e eye → (s.obj o).visited = true →
    ∀ q ∈ (MEnv.item n e eye).objs, (s.obj q).visited = true

theorem Rest.fresh (E : MEnv K) : Rest E (MSt.fresh : MSt K) := by
  refine ⟨fun _ => SlotsOk.fresh _, fun _ _ => Live.none, ⟨fun _ _ => Live.none, ?_, ?_⟩, ?_, ?_⟩
  · intro o _ m hm; simp [MSt.fresh] at hm
  · intro o _; left; intro m hm; simp [MSt.fresh] at hm
  · intro o _ h; simp [MSt.fresh] at h
  · intro o n e eye _ h; simp [MSt.fresh] at h

/-- Everything reachable from a visited matrix is visited. -/
theorem Rest.reach {s : MSt K} (hs : Rest E s) {o p : ℕ} (h : MReach E o p)
    (ho : (s.obj o).visited = true) : (s.obj p).visited = true := by
  induction h with
  | refl => exact ho
  | step _ hk hq ih => exact hs.vc _ _ _ _ hk ih _ hq

/-- Reset before a query: of a visited matrix, clears everything reachable; of another, changes
nothing but caches. -/
theorem Rest.reset (hwf : E.WF rank) {s : MSt K} (hs : Rest E s) {f o : ℕ} (hf : rank o < f) :
    ∃ s', mresetO E f o s = some s' ∧
      s'.slot = s.slot ∧ (∀ p, (s'.obj p).result = (s.obj p).result) ∧
      (∀ p, (s'.obj p).dresult = (s.obj p).dresult) ∧ (∀ p, ¬MReach E o p → s'.obj p = s.obj p) ∧
      ((s.obj o).visited = true → ∀ p, MReach E o p → (s'.obj p).visited = false ∧
        (¬E.isForm p → (s'.obj p).evald = false ∧ (s'.obj p).devald = false)) ∧
      ((s.obj o).visited = false → ∀ p, (s'.obj p).visited = (s.obj p).visited ∧
        (s'.obj p).evald = (s.obj p).evald ∧ (s'.obj p).devald = (s.obj p).devald) := by
  by_cases hv : (s.obj o).visited = true
  · have hj : JInv E rank (MReach E o) (rank o + 1) s := by
      intro p hp _ hpv
      rw [hs.reach hp hv] at hpv; cases hpv
    obtain ⟨s', e1, j1, f1, v1⟩ := mresetO_spec hwf (MReach.closed E o) f (rank o + 1) hf o
      MReach.refl (by omega) s hj
    have hall : ∀ p, MReach E o p → (s'.obj p).visited = false := by
      intro p hp
      induction hp with
      | refl => exact v1
      | step hp hk hq ih => exact j1 _ hp (Nat.lt_succ_of_le (hp.rank hwf)) ih _ _ _ hk _ hq
    refine ⟨s', e1, f1.slot, f1.res, f1.dres, fun p hp => f1.out p (fun h => hp h.1), ?_, ?_⟩
    · intro _ p hp
      refine ⟨hall p hp, fun hl => ?_⟩
      have := f1.flags hs.fl p hl
      rw [hall p hp] at this
      constructor
      · by_contra h; exact absurd (this (Or.inl (by simpa using h))) (by simp)
      · by_contra h; exact absurd (this (Or.inr (by simpa using h))) (by simp)
    · intro h; rw [hv] at h; cases h
  · have hvf : (s.obj o).visited = false := by simpa using hv
    obtain ⟨f, rfl⟩ : ∃ f', f = f' + 1 := ⟨f - 1, by omega⟩
    refine ⟨s.setO o { s.obj o with visited := false, cache := [] }, ?_, rfl, ?_, ?_, ?_,
      fun h => absurd h hv, fun _ => ?_⟩
    · simp [mresetO, hvf]
    · intro q; by_cases hqo : q = o
      · subst hqo; simp
      · rw [setO_ne _ _ hqo]
    · intro q; by_cases hqo : q = o
      · subst hqo; simp
      · rw [setO_ne _ _ hqo]
    · intro q hq
      rw [setO_ne _ _ (by rintro rfl; exact hq MReach.refl)]
    · intro q; by_cases hqo : q = o
      · subst hqo; simp [hvf]
      · rw [setO_ne _ _ hqo]; simp

end CoolDiff
