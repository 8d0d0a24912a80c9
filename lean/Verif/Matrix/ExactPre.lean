import Verif.Matrix.ExprMemo

/-!
# `PreComp` in histories whose stored values may be stale

What a traversal leaves of the flags of the matrices with elements (`TStep`), and what is stored after a `PreComp`
before which everything below was reset (`MemoInv.precomp`).
-/

set_option linter.unusedSectionVars false

namespace CoolDiff

open MNode

variable {K : Type} [Field K] [DecidableEq K]

/-! ## Flags of the matrices with elements -/

section
variable (E : MEnv K) (S : Set ℕ)

/-- The matrices with elements below a visited formula of `S` (outside `A`) are evaluated. -/
def LeavesEv (A : Set ℕ) (s : MSt K) : Prop :=
  ∀ p ∈ S, p ∉ A → ∀ n e eye, E.kind p = .form n e eye → (s.obj p).visited = true →
    ∀ q ∈ (MEnv.item n e eye).objs, ¬E.isForm q → (s.obj q).evald = true

/-- What evaluation and traversal keep. -/
structure TStep (s s' : MSt K) : Prop where
  vis : ∀ q, (s.obj q).visited = true → (s'.obj q).visited = true
  cache : ∀ q, (s'.obj q).visited = false → (s'.obj q).cache = (s.obj q).cache
  ev : ∀ q, ¬E.isForm q → (s.obj q).evald = true → (s'.obj q).evald = true
  dv : ∀ q, ¬E.isForm q → (s'.obj q).devald = (s.obj q).devald
  lv : ∀ A, LeavesEv E S A s → LeavesEv E S A s'
  dr : ∀ q, (s'.obj q).dresult = (s.obj q).dresult

variable {E S}

theorem TStep.refl (s : MSt K) : TStep E S s s :=
  ⟨fun _ h => h, fun _ _ => rfl, fun _ _ h => h, fun _ _ => rfl, fun _ h => h, fun _ => rfl⟩

theorem TStep.trans {s s' s'' : MSt K} (h : TStep E S s s') (h' : TStep E S s' s'') : TStep E S s s'' := by
  refine ⟨fun q hq => h'.vis q (h.vis q hq), fun q hq => ?_, fun q hl hq => h'.ev q hl (h.ev q hl hq),
    fun q hl => (h'.dv q hl).trans (h.dv q hl), fun A hA => h'.lv A (h.lv A hA), fun q => (h'.dr q).trans (h.dr q)⟩
  rw [h'.cache q hq, h.cache q]
  rcases hv : (s'.obj q).visited with _ | _
  · rfl
  · rw [h'.vis q hv] at hq; cases hq

theorem TStep.setN (s : MSt K) (n : ℕ) (a : Slots K) : TStep E S s (s.setN n a) :=
  ⟨fun _ h => h, fun _ _ => rfl, fun _ _ h => h, fun _ _ => rfl, fun _ h => h, fun _ => rfl⟩

/-- What `eval` of a named matrix keeps and reaches. -/
def EvStep (E : MEnv K) (S : Set ℕ) (ev : ℕ → MSt K → Option (MSt K × Mat K)) : Prop :=
  ∀ o s r, ev o s = some r → TStep E S s r.1 ∧ (¬E.isForm o → (r.1.obj o).evald = true)

theorem evalE_step {c : MCtx K} {ev : ℕ → MSt K → Option (MSt K × Mat K)} (hev : EvStep E S ev) : ∀ (e : MNode K) s r,
    evalE c ev e s = some r → TStep E S s r.1 ∧ ∀ q ∈ e.objs, ¬E.isForm q → (r.1.obj q).evald = true
  | .obj o, s, r, h => by
    obtain ⟨h1, h2⟩ := hev o s r h
    refine ⟨h1, fun q hq => ?_⟩
    simp only [MNode.objs, List.mem_singleton] at hq
    subst hq; exact h2
  | .bin n op x y, s, r, h => by
    simp only [evalE] at h
    split at h
    · simp only [Option.bind_eq_bind, Option.bind_eq_some_iff] at h
      obtain ⟨l, h1, r', h2, a, _, h4⟩ := h
      cases h4
      obtain ⟨s1, v1⟩ := evalE_step hev x s l h1
      obtain ⟨s2, v2⟩ := evalE_step hev y l.1 r' h2
      refine ⟨(s1.trans s2).trans (TStep.setN _ _ _), fun q hq hl => ?_⟩
      simp only [MNode.objs, List.mem_append] at hq
      rcases hq with hq | hq
      · exact s2.ev q hl (v1 q hq hl)
      · exact v2 q hq hl
    · cases h
  | .un n op x, s, r, h => by
    simp only [evalE] at h
    split at h
    · simp only [Option.bind_eq_bind, Option.bind_eq_some_iff] at h
      obtain ⟨l, h1, a, _, h4⟩ := h
      cases h4
      obtain ⟨s1, v1⟩ := evalE_step hev x s l h1
      exact ⟨s1.trans (TStep.setN _ _ _), by simpa [MNode.objs] using v1⟩
    · cases h

theorem setO_dr {s : MSt K} {o : ℕ} {v : MObj K} (h : v.dresult = (s.obj o).dresult) (q : ℕ) :
    ((s.setO o v).obj q).dresult = (s.obj q).dresult := by
  by_cases hq : q = o
  · subst hq; simp [h]
  · rw [setO_ne _ _ hq]

/-- A change of one formula that does not lower its flags or touch its cache. -/
theorem TStep.setForm {s : MSt K} {o : ℕ} (ho : E.isForm o) {v : MObj K}
    (h1 : (s.obj o).visited = true → v.visited = true) (h2 : v.visited = false → v.cache = (s.obj o).cache)
    (h3 : v.visited = true → (s.obj o).visited = true) (h4 : v.dresult = (s.obj o).dresult) :
    TStep E S s (s.setO o v) := by
  have hne : ∀ q, ¬E.isForm q → q ≠ o := fun q hq => by rintro rfl; exact hq ho
  refine ⟨fun q hq => ?_, fun q hq => ?_, fun q hl hq => ?_, fun q hl => ?_, fun A hA => ?_, setO_dr h4⟩
  · by_cases hqo : q = o
    · subst hqo; simpa using h1 hq
    · rwa [setO_ne _ _ hqo]
  · by_cases hqo : q = o
    · subst hqo; simp only [setO_same] at hq ⊢; exact h2 hq
    · rw [setO_ne _ _ hqo]
  · rwa [setO_ne _ _ (hne q hl)]
  · rw [setO_ne _ _ (hne q hl)]
  · intro p hp hA' n e eye hk hv q hq hl
    rw [setO_ne _ _ (hne q hl)]
    refine hA p hp hA' n e eye hk ?_ q hq hl
    by_cases hpo : p = o
    · subst hpo; exact h3 (by simpa using hv)
    · rwa [setO_ne _ _ hpo] at hv

/-- A matrix with elements becomes visited, evaluated or neither. -/
theorem TStep.setLeaf {s : MSt K} {o : ℕ} (ho : ¬E.isForm o) {v : MObj K} (h1 : v.visited = true)
    (h2 : (s.obj o).evald = true → v.evald = true) (h3 : v.devald = (s.obj o).devald)
    (h4 : v.dresult = (s.obj o).dresult) :
    TStep E S s (s.setO o v) := by
  have hev : ∀ q, (s.obj q).evald = true → ((s.setO o v).obj q).evald = true := fun q hq => by
    by_cases hqo : q = o
    · subst hqo; simpa using h2 hq
    · rwa [setO_ne _ _ hqo]
  refine ⟨fun q hq => ?_, fun q hq => ?_, fun q _ hq => hev q hq, fun q hl => ?_, fun A hA => ?_, setO_dr h4⟩
  · by_cases hqo : q = o
    · subst hqo; simpa using h1
    · rwa [setO_ne _ _ hqo]
  · by_cases hqo : q = o
    · subst hqo; simp only [setO_same] at hq; rw [h1] at hq; cases hq
    · rw [setO_ne _ _ hqo]
  · by_cases hqo : q = o
    · subst hqo; simpa using h3
    · rw [setO_ne _ _ hqo]
  · intro p hp hA' n e eye hk hv q hq hl
    have hpo : p ≠ o := by rintro rfl; exact ho ⟨n, e, eye, hk⟩
    rw [setO_ne _ _ hpo] at hv
    exact hev q (hA p hp hA' n e eye hk hv q hq hl)

/-- The run of a body after the formula was marked as visited, ended by storing the result. -/
theorem TStep.body {s s1 : MSt K} {o n : ℕ} {e : MNode K} {eye : ℕ} (hk : E.kind o = .form n e eye) {v w : MObj K}
    (hv : v.visited = true) (h : TStep E S (s.setO o v) s1)
    (hq : ∀ q ∈ (MEnv.item n e eye).objs, ¬E.isForm q → (s1.obj q).evald = true)
    (hw : w.visited = true) (hd : v.dresult = (s.obj o).dresult) (hd' : w.dresult = (s1.obj o).dresult) :
    TStep E S s (s1.setO o w) := by
  have ho : E.isForm o := ⟨n, e, eye, hk⟩
  have hne : ∀ q, ¬E.isForm q → q ≠ o := fun q hq => by rintro rfl; exact hq ho
  refine ⟨fun q hq => ?_, fun q hq => ?_, fun q hl hq => ?_, fun q hl => ?_, fun A hA => ?_,
    fun q => (setO_dr hd' q).trans ((h.dr q).trans (setO_dr hd q))⟩
  · by_cases hqo : q = o
    · subst hqo; simpa using hw
    · rw [setO_ne _ _ hqo]; exact h.vis q (by rwa [setO_ne _ _ hqo])
  · by_cases hqo : q = o
    · subst hqo; simp only [setO_same] at hq; rw [hw] at hq; cases hq
    · rw [setO_ne _ _ hqo] at hq ⊢; rw [h.cache q hq, setO_ne _ _ hqo]
  · rw [setO_ne _ _ (hne q hl)]; exact h.ev q hl (by rwa [setO_ne _ _ (hne q hl)])
  · rw [setO_ne _ _ (hne q hl), h.dv q hl, setO_ne _ _ (hne q hl)]
  · have hA1 : LeavesEv E S (A ∪ {o}) (s.setO o v) := by
      intro p hp hA' n e eye hk hv q hq hl
      have hpo : p ≠ o := fun h => hA' (Or.inr h)
      rw [setO_ne _ _ hpo] at hv
      rw [setO_ne _ _ (hne q hl)]
      exact hA p hp (fun h => hA' (Or.inl h)) n e eye hk hv q hq hl
    have hA2 := h.lv _ hA1
    intro p hp hA' n' e' eye' hk' hv' q hq' hl
    rw [setO_ne _ _ (hne q hl)]
    by_cases hpo : p = o
    · subst hpo; rw [hk] at hk'; cases hk'; exact hq q hq' hl
    · rw [setO_ne _ _ hpo] at hv'
      exact hA2 p hp (fun h => h.elim hA' hpo) n' e' eye' hk' hv' q hq' hl

theorem mevalO_step (c : MCtx K) (S : Set ℕ) : ∀ f, EvStep c.E S (mevalO c f)
  | 0 => fun o s r h => by simp [mevalO] at h
  | f + 1 => fun o s r h => by
    by_cases hform : c.E.isForm o
    · obtain ⟨n, e, eye, hk⟩ := hform
      refine ⟨?_, fun h => absurd ⟨n, e, eye, hk⟩ h⟩
      have hform : c.E.isForm o := ⟨n, e, eye, hk⟩
      simp only [mevalO, hk] at h
      split at h
      · rename_i hv
        simp only [Option.map_eq_some_iff] at h
        obtain ⟨m, _, rfl⟩ := h
        exact TStep.setForm hform (fun h => h) (fun _ => rfl) (fun h => h) rfl
      · simp only [Option.bind_eq_bind, Option.bind_eq_some_iff] at h
        obtain ⟨t, h1, h2⟩ := h
        cases h2
        obtain ⟨s1, v1⟩ := evalE_step (mevalO_step c S f) _ _ _ h1
        have s2 := (TStep.setForm (S := S) (s := s) (o := o) (v := { s.obj o with evald := true }) hform
          (fun h => h) (fun _ => rfl) (fun h => h) rfl).trans (TStep.body hk (by rfl) s1 v1
            (w := { t.1.obj o with result := some t.2, evald := true })
            (by show (t.1.obj o).visited = true; exact s1.vis o (by simp)) (by simp) rfl)
        exact s2
    · have hunf : ∃ m, r.1 = s.setO o { s.obj o with result := m, evald := true, visited := true } := by
        rcases hk : c.E.kind o with _ | _ | _ | _ | ⟨n, e, eye⟩
        · simp only [mevalO, hk, Option.bind_eq_bind, Option.bind_eq_some_iff] at h
          obtain ⟨m, _, h⟩ := h; cases h; exact ⟨_, rfl⟩
        · simp only [mevalO, hk, Option.bind_eq_bind, Option.bind_eq_some_iff] at h
          obtain ⟨m, _, h⟩ := h; cases h; exact ⟨_, rfl⟩
        · simp only [mevalO, hk, Option.bind_eq_bind, Option.bind_eq_some_iff] at h
          obtain ⟨m, _, h⟩ := h; cases h; exact ⟨_, rfl⟩
        · simp only [mevalO, hk, Option.bind_eq_bind, Option.bind_eq_some_iff] at h
          obtain ⟨m, _, h⟩ := h; cases h; exact ⟨_, rfl⟩
        · exact absurd ⟨n, e, eye, hk⟩ hform
      obtain ⟨m, hm⟩ := hunf
      rw [hm]
      exact ⟨TStep.setLeaf hform rfl (fun _ => rfl) rfl rfl, fun _ => by simp⟩

/-- What `traverse` of a named matrix keeps. -/
def TrStep (E : MEnv K) (S : Set ℕ) (tr : ℕ → MSt K → Option (MSt K)) : Prop :=
  ∀ o s s', tr o s = some s' → TStep E S s s'

theorem unlessSeen_step {a : MNode K} {κ : MCache K} {s : MSt K} {x : Option (MCache K × MSt K)}
    {r : MCache K × MSt K} (h : unlessSeen a κ s x = some r) (hx : x = some r → TStep E S s r.2) :
    TStep E S s r.2 := by
  simp only [unlessSeen] at h
  split at h
  · cases h; exact .refl _
  · exact hx h

theorem revVals2_step {c : MCtx K} {ev : ℕ → MSt K → Option (MSt K × Mat K)} (hev : EvStep E S ev) {op : MBin}
    {x y : MNode K} {C : Mat K} {s : MSt K} {r : MSt K × Mat K × Mat K} (h : revVals2 c ev op x y C s = some r) :
    TStep E S s r.1 := by
  simp only [revVals2] at h
  split at h
  · simp only [Option.bind_eq_bind, Option.bind_eq_some_iff] at h
    obtain ⟨l, h1, r', h2, h3⟩ := h
    cases h3
    exact (evalE_step hev x s l h1).1.trans (evalE_step hev y l.1 r' h2).1
  · cases h; exact .refl _

theorem revVals1_step {c : MCtx K} {ev : ℕ → MSt K → Option (MSt K × Mat K)} (hev : EvStep E S ev) {op : MUn K}
    {x : MNode K} {C : Mat K} {s : MSt K} {r : MSt K × Mat K} (h : revVals1 c ev op x C s = some r) :
    TStep E S s r.1 := by
  simp only [revVals1] at h
  split at h
  · exact (evalE_step hev x s r h).1
  · cases h; exact .refl _

theorem travE_step {c : MCtx K} {ev : ℕ → MSt K → Option (MSt K × Mat K)} {tr : ℕ → MSt K → Option (MSt K)}
    (hev : EvStep E S ev) (htr : TrStep E S tr) : ∀ (e : MNode K) κ s r,
    travE c ev tr e κ s = some r → TStep E S s r.2
  | .obj o, κ, s, r, h => by
    simp only [travE, Option.map_eq_some_iff] at h
    obtain ⟨s', h1, rfl⟩ := h
    exact htr o s s' h1
  | .bin n op x y, κ, s, r, h => by
    simp only [travE, Option.bind_eq_bind, Option.bind_eq_some_iff] at h
    obtain ⟨p, h1, q, h2, h3⟩ := h
    refine TStep.trans (s' := p.2) ?_ ((unlessSeen_step h2 (travE_step hev htr x _ _ _)).trans
      (unlessSeen_step h3 (travE_step hev htr y _ _ _)))
    split at h1
    · cases h1; exact .refl _
    · simp only [Option.bind_eq_some_iff] at h1
      obtain ⟨p1, g1, p2, g2, p3, g3, p4, _, p5, _, g6⟩ := h1
      cases g6
      exact (((unlessSeen_step g1 (travE_step hev htr x _ _ _)).trans
        (unlessSeen_step g2 (travE_step hev htr y _ _ _))).trans (revVals2_step hev g3)).trans (.setN _ _ _)
  | .un n op x, κ, s, r, h => by
    simp only [travE, Option.bind_eq_bind, Option.bind_eq_some_iff] at h
    obtain ⟨p, h1, h2⟩ := h
    refine TStep.trans (s' := p.2) ?_ (unlessSeen_step h2 (travE_step hev htr x _ _ _))
    split at h1
    · cases h1; exact .refl _
    · simp only [Option.bind_eq_some_iff] at h1
      obtain ⟨p1, g1, p3, g3, p4, _, p5, _, g6⟩ := h1
      cases g6
      exact ((unlessSeen_step g1 (travE_step hev htr x _ _ _)).trans (revVals1_step hev g3)).trans (.setN _ _ _)

theorem travRoot_step {c : MCtx K} {ev : ℕ → MSt K → Option (MSt K × Mat K)} {tr : ℕ → MSt K → Option (MSt K)}
    (hev : EvStep E S ev) (htr : TrStep E S tr) {n : ℕ} {x y : MNode K} {s : MSt K} {r : MCache K × MSt K}
    (h : travRoot c ev tr n x y s = some r) : TStep E S s r.2 := by
  simp only [travRoot, Option.bind_eq_bind, Option.bind_eq_some_iff] at h
  obtain ⟨p, h1, q, h2, l, h3, r', h4, _, _, _, _, κ, _, t, h5, h6⟩ := h
  exact (((((unlessSeen_step h1 (travE_step hev htr x _ _ _)).trans
    (unlessSeen_step h2 (travE_step hev htr y _ _ _))).trans (evalE_step hev x _ _ h3).1).trans
    (evalE_step hev y _ _ h4).1).trans (.setN _ _ _)).trans
    ((unlessSeen_step h5 (travE_step hev htr x _ _ _)).trans (unlessSeen_step h6 (travE_step hev htr y _ _ _)))

theorem mtravO_step (c : MCtx K) (S : Set ℕ) : ∀ f, TrStep c.E S (mtravO c f)
  | 0 => fun o s s' h => by simp [mtravO] at h
  | f + 1 => fun o s s' h => by
    simp only [mtravO] at h
    split at h
    · cases h; exact .refl _
    · by_cases hform : c.E.isForm o
      · obtain ⟨n, e, eye, hk⟩ := hform
        simp only [hk, Option.bind_eq_bind, Option.bind_eq_some_iff] at h
        obtain ⟨t, h1, r, h2, h3⟩ := h
        cases h3
        have s1 := travRoot_step (S := S) (mevalO_step c S f) (mtravO_step c S f) h1
        obtain ⟨s2, v2⟩ := evalE_step (mevalO_step c S f) _ _ _ h2
        exact TStep.body hk (by rfl) (s1.trans s2) v2
          (by show (r.1.obj o).visited = true; exact s2.vis o (s1.vis o (by simp))) rfl rfl
      · have hunf : s' = s.setO o { s.obj o with visited := true } := by
          rcases hk : c.E.kind o with _ | _ | _ | _ | ⟨n, e, eye⟩
          · simp only [hk, Option.some.injEq] at h; exact h.symm
          · simp only [hk, Option.some.injEq] at h; exact h.symm
          · simp only [hk, Option.some.injEq] at h; exact h.symm
          · simp only [hk, Option.some.injEq] at h; exact h.symm
          · exact absurd ⟨n, e, eye, hk⟩ hform
        rw [hunf]
        exact TStep.setLeaf hform rfl (fun h => h) rfl rfl

end

/-! ## Forward differentiation keeps caches of matrices that are not visited -/

/-- Visited matrices stay visited, the others keep their caches. -/
structure CStep (s s' : MSt K) : Prop where
  vis : ∀ q, (s.obj q).visited = true → (s'.obj q).visited = true
  cache : ∀ q, (s'.obj q).visited = false → (s'.obj q).cache = (s.obj q).cache

theorem CStep.refl (s : MSt K) : CStep s s := ⟨fun _ h => h, fun _ _ => rfl⟩

theorem CStep.trans {s s' s'' : MSt K} (h : CStep s s') (h' : CStep s' s'') : CStep s s'' := by
  refine ⟨fun q hq => h'.vis q (h.vis q hq), fun q hq => ?_⟩
  rw [h'.cache q hq, h.cache q]
  rcases hv : (s'.obj q).visited with _ | _
  · rfl
  · rw [h'.vis q hv] at hq; cases hq

theorem CStep.setN (s : MSt K) (n : ℕ) (a : Slots K) : CStep s (s.setN n a) := ⟨fun _ h => h, fun _ _ => rfl⟩

theorem TStep.toC {E : MEnv K} {S : Set ℕ} {s s' : MSt K} (h : TStep E S s s') : CStep s s' := ⟨h.vis, h.cache⟩

theorem CStep.setO {s : MSt K} {o : ℕ} {v : MObj K} (h1 : (s.obj o).visited = true → v.visited = true)
    (h2 : v.visited = false → v.cache = (s.obj o).cache) : CStep s (s.setO o v) := by
  refine ⟨fun q hq => ?_, fun q hq => ?_⟩
  · by_cases hqo : q = o
    · subst hqo; simpa using h1 hq
    · rwa [setO_ne _ _ hqo]
  · by_cases hqo : q = o
    · subst hqo; simp only [setO_same] at hq ⊢; exact h2 hq
    · rw [setO_ne _ _ hqo]

theorem CStep.cacheAt {s s' : MSt K} (h : CStep s s') {q : ℕ} (hc : CacheAt s q) : CacheAt s' q := by
  intro hq
  rw [h.cache q hq]
  refine hc ?_
  rcases hv : (s.obj q).visited with _ | _
  · rfl
  · rw [h.vis q hv] at hq; cases hq

theorem fwdE_cstep {c : MCtx K} {X : ℕ} {ev fw : ℕ → MSt K → Option (MSt K × Mat K)} (hev : EvStep c.E ∅ ev)
    (hfw : ∀ o s r, fw o s = some r → CStep s r.1) : ∀ (e : MNode K) s r,
    fwdE c X ev fw e s = some r → CStep s r.1
  | .obj o, s, r, h => hfw o s r h
  | .bin n op x y, s, r, h => by
    simp only [fwdE] at h
    split at h
    · simp only [Option.bind_eq_bind, Option.bind_eq_some_iff] at h
      obtain ⟨dl, h1, dr, h2, h⟩ := h
      have s1 := (fwdE_cstep hev hfw x s dl h1).trans (fwdE_cstep hev hfw y dl.1 dr h2)
      split at h
      · simp only [Option.bind_eq_some_iff] at h
        obtain ⟨l, h3, r', h4, a, _, h5⟩ := h
        cases h5
        exact ((s1.trans (evalE_step hev x _ _ h3).1.toC).trans (evalE_step hev y _ _ h4).1.toC).trans (.setN _ _ _)
      · simp only [Option.bind_eq_some_iff] at h
        obtain ⟨a, _, h5⟩ := h
        cases h5
        exact s1.trans (.setN _ _ _)
    · cases h
  | .un n op x, s, r, h => by
    simp only [fwdE] at h
    split at h
    · simp only [Option.bind_eq_bind, Option.bind_eq_some_iff] at h
      obtain ⟨d, h1, h⟩ := h
      have s1 := fwdE_cstep hev hfw x s d h1
      split at h
      · simp only [Option.bind_eq_some_iff] at h
        obtain ⟨l, h3, a, _, h5⟩ := h
        cases h5
        exact (s1.trans (evalE_step hev x _ _ h3).1.toC).trans (.setN _ _ _)
      · simp only [Option.bind_eq_some_iff] at h
        obtain ⟨a, _, h5⟩ := h
        cases h5
        exact s1.trans (.setN _ _ _)
    · cases h

theorem mfwdO_cstep (c : MCtx K) (X : ℕ) : ∀ f o s r, mfwdO c X f o s = some r → CStep s r.1
  | 0, o, s, r, h => by simp [mfwdO] at h
  | f + 1, o, s, r, h => by
    by_cases hform : c.E.isForm o
    · obtain ⟨n, e, eye, hk⟩ := hform
      simp only [mfwdO, hk] at h
      split at h
      · simp only [Option.map_eq_some_iff] at h
        obtain ⟨m, _, rfl⟩ := h
        exact CStep.setO (fun h => h) (fun _ => rfl)
      · simp only [Option.bind_eq_bind, Option.bind_eq_some_iff] at h
        obtain ⟨d, h1, r', h2, h3⟩ := h
        cases h3
        have s1 := fwdE_cstep (mevalO_step c ∅ f) (mfwdO_cstep c X f) _ _ _ h1
        have s2 := (evalE_step (mevalO_step c ∅ f) _ _ _ h2).1.toC
        have s0 : CStep s (s.setO o { s.obj o with devald := true }) := CStep.setO (fun h => h) (fun _ => rfl)
        have s3 := CStep.setO (s := s.setO o { s.obj o with devald := true }) (o := o)
          (v := { (s.setO o { s.obj o with devald := true }).obj o with visited := true }) (fun _ => rfl)
          (fun h => by cases h)
        have s4 : CStep d.1 (d.1.setO o { d.1.obj o with dresult := some d.2, devald := true }) :=
          CStep.setO (fun h => h) (fun _ => rfl)
        have s5 : CStep r'.1 (r'.1.setO o { r'.1.obj o with result := some r'.2, evald := true }) :=
          CStep.setO (fun h => h) (fun _ => rfl)
        exact s0.trans (s3.trans (s1.trans (s4.trans (s2.trans s5))))
    · have hunf : ∃ m, r.1 = s.setO o { s.obj o with dresult := m, devald := true, visited := true } := by
        rcases hk : c.E.kind o with _ | _ | _ | _ | ⟨n, e, eye⟩
        · simp only [mfwdO, hk, Option.bind_eq_bind, Option.bind_eq_some_iff] at h
          obtain ⟨m, _, h⟩ := h; cases h; exact ⟨_, rfl⟩
        · simp only [mfwdO, hk, Option.bind_eq_bind, Option.bind_eq_some_iff] at h
          obtain ⟨m, _, h⟩ := h; cases h; exact ⟨_, rfl⟩
        · simp only [mfwdO, hk, Option.bind_eq_bind, Option.bind_eq_some_iff] at h
          obtain ⟨m, _, h⟩ := h; cases h; exact ⟨_, rfl⟩
        · simp only [mfwdO, hk, Option.bind_eq_bind, Option.bind_eq_some_iff] at h
          obtain ⟨m, _, h⟩ := h; cases h; exact ⟨_, rfl⟩
        · exact absurd ⟨n, e, eye, hk⟩ hform
      obtain ⟨m, hm⟩ := hunf
      rw [hm]
      exact CStep.setO (fun _ => rfl) (fun h => by cases h)

theorem matEval_cacheAt {c : MCtx K} {f : ℕ} {e : MNode K} {s s' : MSt K} {m : Mat K}
    (h : matEval c f e s = some (s', m)) {q : ℕ} (hc : CacheAt s q) : CacheAt s' q := by
  simp only [matEval, Option.bind_eq_bind, Option.bind_eq_some_iff] at h
  obtain ⟨s1, h1, h2⟩ := h
  exact (evalE_step (mevalO_step c ∅ f) _ _ _ h2).1.toC.cacheAt (CacheAt.resetE (CacheAt.reset f) _ _ _ h1 hc)

theorem matDevalF_cacheAt {c : MCtx K} {f X : ℕ} {e : MNode K} {s s' : MSt K} {m : Mat K}
    (h : matDevalF c f X e s = some (s', m)) {q : ℕ} (hc : CacheAt s q) : CacheAt s' q := by
  simp only [matDevalF, Option.bind_eq_bind, Option.bind_eq_some_iff] at h
  obtain ⟨s1, h1, h2⟩ := h
  exact (fwdE_cstep (mevalO_step c ∅ f) (mfwdO_cstep c X f) _ _ _ h2).cacheAt
    (CacheAt.resetE (CacheAt.reset f) _ _ _ h1 hc)

/-! ## The reset before `PreComp` leaves no flag without the visited one -/

/-- `FlagOk` for one matrix. -/
def FlagAt (s : MSt K) (q : ℕ) : Prop :=
  (s.obj q).visited = false → (s.obj q).evald = false ∧ (s.obj q).devald = false

theorem FlagAt.setO {s : MSt K} {q o : ℕ} {v : MObj K} (h : q ≠ o → FlagAt s q)
    (hv : q = o → v.visited = false → v.evald = false ∧ v.devald = false) : FlagAt (s.setO o v) q := by
  intro hq
  by_cases hqo : q = o
  · subst hqo; simp only [setO_same] at hq ⊢; exact hv rfl hq
  · rw [setO_ne _ _ hqo] at hq ⊢; exact h hqo hq

theorem FlagAt.resetE {rs : ℕ → MSt K → Option (MSt K)} {q : ℕ}
    (hrs : ∀ o s s', rs o s = some s' → FlagAt s q → FlagAt s' q) : ∀ (e : MNode K) s s',
    mresetE rs e s = some s' → FlagAt s q → FlagAt s' q
  | .obj o, s, s', h, hs => hrs o s s' h hs
  | .bin _ _ x y, s, s', h, hs => by
    simp only [mresetE, Option.bind_eq_bind, Option.bind_eq_some_iff] at h
    obtain ⟨s1, h1, h2⟩ := h
    exact FlagAt.resetE hrs y s1 s' h2 (FlagAt.resetE hrs x s s1 h1 hs)
  | .un _ _ x, s, s', h, hs => FlagAt.resetE hrs x s s' h hs

theorem FlagAt.reset {E : MEnv K} {q : ℕ} (hq : ¬E.isForm q) : ∀ f o (s s' : MSt K), mresetO E f o s = some s' →
    FlagAt s q → FlagAt s' q
  | 0, o, s, s', h, _ => by simp [mresetO] at h
  | f + 1, o, s, s', h, hs => by
    simp only [mresetO, Option.bind_eq_some_iff] at h
    obtain ⟨s1, h1, h2⟩ := h
    cases h2
    by_cases hv : (s.obj o).visited = true
    · rw [if_pos hv] at h1
      have h0 : FlagAt (s.setO o { s.obj o with visited := false, evald := false, devald := false }) q :=
        FlagAt.setO (fun _ => hs) (fun _ _ => ⟨rfl, rfl⟩)
      simp only [mresetItem] at h1
      by_cases hform : E.isForm o
      · obtain ⟨n, e, eye, hk⟩ := hform
        rw [hk] at h1
        have h3 := FlagAt.resetE (FlagAt.reset hq f) _ _ _ h1 h0
        exact FlagAt.setO (fun _ => h3) (fun hqo => absurd ⟨n, e, eye, hqo ▸ hk⟩ hq)
      · have : s1 = s.setO o { s.obj o with visited := false, evald := false, devald := false } := by
          rcases hk : E.kind o with _ | _ | _ | _ | ⟨n, e, eye⟩
          · simp only [hk, Option.some.injEq] at h1; exact h1.symm
          · simp only [hk, Option.some.injEq] at h1; exact h1.symm
          · simp only [hk, Option.some.injEq] at h1; exact h1.symm
          · simp only [hk, Option.some.injEq] at h1; exact h1.symm
          · exact absurd ⟨n, e, eye, hk⟩ hform
        subst this
        exact FlagAt.setO (fun _ => h0) (fun _ _ => by simp)
    · rw [if_neg hv] at h1; cases h1
      exact FlagAt.setO (fun _ => hs) (fun hqo _ => by subst hqo; exact hs (by simpa using hv))

theorem precompReset_flagAt {E : MEnv K} {f o : ℕ} {s s' : MSt K} (ho : E.isForm o)
    (h : precompReset E f o s = some s') {q : ℕ} (hq : ¬E.isForm q) (hs : FlagAt s q) : FlagAt s' q := by
  obtain ⟨n, e, eye, hk⟩ := ho
  have hqo : q ≠ o := by rintro rfl; exact hq ⟨n, e, eye, hk⟩
  simp only [precompReset, hk, mresetImpl, mresetItem, Option.bind_eq_bind, Option.bind_eq_some_iff] at h
  obtain ⟨s1, h1, h2⟩ := h
  cases h2
  exact FlagAt.setO (fun _ => FlagAt.resetE (FlagAt.reset hq f) _ _ _ h1
    (FlagAt.setO (fun _ => hs) (fun h => absurd h hqo))) (fun h => absurd h hqo)

/-! ## What is stored after `PreComp` -/

/-- The record after `PreComp(Y)`, when everything below `Y` was reset. -/
noncomputable def Memo.afterPre (c : MCtx K) (rank : ℕ → ℕ) (M : Memo K) (o : ℕ) : Memo K :=
  open Classical in
  { used := fun p => M.used p ∨ MReach c.E o p
    val := fun p => if MReach c.E o p then some (MVal c rank p) else M.val p
    der := fun p => if MReach c.E o p ∧ ¬c.E.isForm p then none else M.der p }

theorem MemoInv.precomp {c : MCtx K} {rank : ℕ → ℕ} {o X f : ℕ} {s : MSt K} {M : Memo K} (h : MemoInv c.E s M)
    (hc : ∀ q, CacheAt s q) (hq : RevQueryOk c rank o X) (hf : rank o < f) (hg : NoGaps c.E M.used o) :
    ∃ s', matPreComp c f o s = some s' ∧ MemoInv c.E s' (M.afterPre c rank o) ∧ ∀ q, CacheAt s' q := by
  have hwf := hq.query.wf
  have hs := h.rest
  obtain ⟨own, nd, hn⟩ := hq.nodes.choose
  obtain ⟨s1, e1, t1, o1, d1, c1, u1⟩ := precompReset_spec (c := c) (X := X) (V := MVal c rank)
    (D := MDer c X rank) (own := own) (nd := nd) hwf hs hc hq.root hf
    (fun p n e eye q h1 h2 h3 h4 h5 => (h.st.vis p).2 (hg p n e eye q h1 h2 h3 h4 ((h.st.vis q).1 h5)))
  obtain ⟨s2, e2, t2, f2, v2⟩ := mtravO_spec (hq.revOk hn) f (rank o + 1) hf o MReach.refl (by omega) s1 t1
  have hall := t2.me.allVisited hwf v2
  have hout : ∀ p, ¬MReach c.E o p → s2.obj p = s.obj p := fun p hp => by
    rw [f2.out p (fun h => hp h.1), o1 p hp]
  have hstep := mtravO_step c (MReach c.E o) f o s1 s2 e2
  have hlv : LeavesEv c.E (MReach c.E o) ∅ s2 := hstep.lv ∅ (fun p hp _ n e eye hk hv => by rw [u1 p hp] at hv; cases hv)
  have hdr : ∀ p, (s2.obj p).dresult = (s.obj p).dresult := fun p => (f2.dres p).trans (d1 p)
  have hlev : ∀ p, MReach c.E o p → ¬c.E.isForm p → (s2.obj p).evald = true := by
    intro p hp hl
    cases hp with
    | refl => exact absurd hq.root hl
    | step hp' hk hq' => exact hlv _ hp' (by simp) _ _ _ hk (hall _ hp') _ hq' hl
  have hldv : ∀ p, MReach c.E o p → ¬c.E.isForm p → (s2.obj p).devald = false := by
    intro p hp hl
    rw [hstep.dv p hl]
    refine (precompReset_flagAt hq.root e1 hl ?_ (u1 p hp)).2
    intro hv
    have := hs.fl p hl
    constructor
    · by_contra hne
      rw [this (Or.inl (by simpa using hne))] at hv; cases hv
    · by_contra hne
      rw [this (Or.inr (by simpa using hne))] at hv; cases hv
  have hmv : ∀ p n e eye, c.E.kind p = .form n e eye → ∀ i j, i < c.E.rows eye → j < c.E.cols eye →
      MVal c rank eye i j = if i = j then 1 else 0 := fun p n e eye hk i j hi hj =>
    ((valOf_solves c.E c.sc.val hwf hq.query.eyes Set.univ).form p trivial n e eye hk).2 i j hi hj
  have hcl : ∀ q, CacheAt s2 q := fun q => hstep.toC.cacheAt (c1 q)
  refine ⟨s2, by simp [matPreComp, e1, e2], ⟨⟨t2.me.live, t2.me.rlive, ⟨?_, ?_, ?_⟩, ?_, ?_, ?_, ?_, ?_, ?_, ?_, ?_, ?_⟩, ?_⟩,
    hcl⟩
  · intro p hp; rw [hdr]; exact hs.bufs.live p hp
  · intro p hp; rw [hdr]; exact hs.bufs.num p hp
  · intro p hp; rw [hdr]; exact hs.bufs.var p hp
  · intro p
    by_cases hp : MReach c.E o p
    · exact ⟨fun _ => Or.inr hp, fun _ => hall p hp⟩
    · rw [hout p hp, h.st.vis p]; exact ⟨Or.inl, fun h => h.resolve_right hp⟩
  · intro p hl
    by_cases hp : MReach c.E o p
    · simp [Memo.afterPre, hp, hlev p hp hl]
    · rw [hout p hp, h.st.ev p hl]; simp [Memo.afterPre, hp]
  · intro p hl
    by_cases hp : MReach c.E o p
    · simp [Memo.afterPre, hp]
    · simpa [Memo.afterPre, hp] using h.st.fv p hl
  · intro p hl
    by_cases hp : MReach c.E o p
    · simp [Memo.afterPre, hp, hl, hldv p hp hl]
    · rw [hout p hp, h.st.dv p hl]; simp [Memo.afterPre, hp]
  · intro p hl hx
    by_cases hp : MReach c.E o p
    · exact Or.inr hp
    · refine Or.inl (h.st.fl p hl ?_)
      simpa [Memo.afterPre, hp] using hx
  · intro p w hw
    by_cases hp : MReach c.E o p
    · simp only [Memo.afterPre, if_pos hp, Option.some.injEq] at hw
      subst hw
      by_cases hl : c.E.isForm p
      · exact t2.me.form p hp (Nat.lt_succ_of_le (hp.rank hwf)) hl (hall p hp)
      · exact t2.me.leaf p hp hl (hlev p hp hl)
    · rw [hout p hp]
      simp only [Memo.afterPre, if_neg hp] at hw
      exact h.st.val p w hw
  · intro p d hd
    rw [hdr]
    refine h.st.der p d ?_
    simp only [Memo.afterPre] at hd
    split at hd
    · cases hd
    · exact hd
  · intro p n e eye w hk hw i j hi hj
    by_cases hp : MReach c.E o eye
    · simp only [Memo.afterPre, if_pos hp, Option.some.injEq] at hw
      subst hw; exact hmv p n e eye hk i j hi hj
    · simp only [Memo.afterPre, if_neg hp] at hw
      exact h.st.eyes p n e eye w hk hw i j hi hj
  · intro p d hk hd
    refine h.st.num p d hk ?_
    simp only [Memo.afterPre] at hd
    split at hd
    · cases hd
    · exact hd
  · intro p n e eye hk hu q hq'
    rcases hu with hu | hu
    · exact Or.inl (h.vc p n e eye hk hu q hq')
    · exact Or.inr (hu.step hk hq')

/-! ## Runs -/

/-- A program of `Eval`, `DevalF` and `PreComp` queries, with its record.  `Eval` and `DevalF` are on any expression,
whatever was used before; `PreComp` is on a 1×1 formula without gaps. -/
inductive MRun (E : MEnv K) (rank : ℕ → ℕ) : MSt K → Memo K → Prop
  | fresh : MRun E rank MSt.fresh Memo.empty
  | eval {s M s' m} (c : MCtx K) (e : MNode K) (f : ℕ) : MRun E rank s M → c.E = E →
      MemoOk c rank False (M.clear E e) e → (∀ q ∈ e.objs, rank q < f) → matEval c f e s = some (s', m) →
      MRun E rank s' (M.afterEval c rank e)
  | devalF {s M s' m} (c : MCtx K) (X : ℕ) (e : MNode K) (f : ℕ) : MRun E rank s M → c.E = E →
      MemoOkD c rank X (M.clear E e) e → (∀ q ∈ e.objs, rank q < f) → matDevalF c f X e s = some (s', m) →
      MRun E rank s' (M.afterDevalF c rank X e)
  | precomp {s M s'} (c : MCtx K) (o X f : ℕ) : MRun E rank s M → c.E = E → RevQueryOk c rank o X →
      rank o < f → NoGaps E M.used o → matPreComp c f o s = some s' → MRun E rank s' (M.afterPre c rank o)

theorem MRun.all {E : MEnv K} {rank : ℕ → ℕ} {M : Memo K} (hwf : E.WF rank) {s : MSt K} (h : MRun E rank s M) :
    MemoInv E s M ∧ ∀ q, CacheAt s q := by
  induction h with
  | fresh => exact ⟨MemoInv.fresh, fun _ _ => rfl⟩
  | @eval s M s' m c e f _ hE hc hf he ih =>
    subst hE
    obtain ⟨s1, m1, e1, _, r⟩ := ih.1.eval hwf hc hf
    rw [he] at e1; cases e1
    exact ⟨r, fun q => matEval_cacheAt he (ih.2 q)⟩
  | @devalF s M s' m c X e f _ hE hc hf he ih =>
    subst hE
    obtain ⟨s1, m1, e1, _, r⟩ := ih.1.devalF hwf hc hf
    rw [he] at e1; cases e1
    exact ⟨r, fun q => matDevalF_cacheAt he (ih.2 q)⟩
  | @precomp s M s' c o X f _ hE hq hf hg he ih =>
    subst hE
    obtain ⟨s1, e1, r1, r2⟩ := ih.1.precomp ih.2 hq hf hg
    rw [he] at e1; cases e1
    exact ⟨r1, r2⟩

theorem MRun.inv {E : MEnv K} {rank : ℕ → ℕ} {M : Memo K} (hwf : E.WF rank) {s : MSt K} (h : MRun E rank s M) :
    MemoInv E s M := (h.all hwf).1

theorem MRun.cache {E : MEnv K} {rank : ℕ → ℕ} {M : Memo K} (hwf : E.WF rank) {s : MSt K} (h : MRun E rank s M) :
    ∀ q, CacheAt s q := (h.all hwf).2

end CoolDiff
