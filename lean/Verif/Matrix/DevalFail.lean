import Verif.Matrix.ExactPre

/-!
# When `DevalF` stops

A derivative query answers exactly if every formula that counts as used and that it comes across has a stored
derivative.  Here: if it answers, then they have one.
-/

set_option linter.unusedSectionVars false

namespace CoolDiff

variable {K : Type} [Field K] [DecidableEq K]

/-! ## Which steps touch stored derivatives -/

theorem mresetE_dr {rs : ℕ → MSt K → Option (MSt K)}
    (hrs : ∀ o s s', rs o s = some s' → ∀ q, (s'.obj q).dresult = (s.obj q).dresult) : ∀ (e : MNode K) s s',
    mresetE rs e s = some s' → ∀ q, (s'.obj q).dresult = (s.obj q).dresult
  | .obj o, s, s', h, q => hrs o s s' h q
  | .bin _ _ x y, s, s', h, q => by
    simp only [mresetE, Option.bind_eq_bind, Option.bind_eq_some_iff] at h
    obtain ⟨s1, h1, h2⟩ := h
    exact (mresetE_dr hrs y s1 s' h2 q).trans (mresetE_dr hrs x s s1 h1 q)
  | .un _ _ x, s, s', h, q => mresetE_dr hrs x s s' h q

theorem mresetItem_dr {E : MEnv K} {rs : ℕ → MSt K → Option (MSt K)}
    (hrs : ∀ o s s', rs o s = some s' → ∀ q, (s'.obj q).dresult = (s.obj q).dresult) {o : ℕ} {s s' : MSt K}
    (h : mresetItem E rs o s = some s') (q : ℕ) : (s'.obj q).dresult = (s.obj q).dresult := by
  simp only [mresetItem] at h
  split at h
  · exact mresetE_dr hrs _ _ _ h q
  · cases h; rfl

theorem mresetO_dr (E : MEnv K) : ∀ f o (s s' : MSt K), mresetO E f o s = some s' →
    ∀ q, (s'.obj q).dresult = (s.obj q).dresult
  | 0, o, s, s', h, _ => by simp [mresetO] at h
  | f + 1, o, s, s', h, q => by
    simp only [mresetO, Option.bind_eq_some_iff] at h
    obtain ⟨s1, h1, h2⟩ := h
    cases h2
    refine (setO_dr (by rfl) q).trans ?_
    split at h1
    · exact (mresetItem_dr (mresetO_dr E f) h1 q).trans (setO_dr (by rfl) q)
    · cases h1; rfl

theorem precompReset_dr {E : MEnv K} {f o : ℕ} {s s' : MSt K} (ho : E.isForm o)
    (h : precompReset E f o s = some s') (q : ℕ) : (s'.obj q).dresult = (s.obj q).dresult := by
  obtain ⟨n, e, eye, hk⟩ := ho
  simp only [precompReset, hk, mresetImpl, Option.bind_eq_some_iff] at h
  obtain ⟨s1, h1, h2⟩ := h
  cases h2
  exact (setO_dr (by rfl) q).trans ((mresetItem_dr (mresetO_dr E f) h1 q).trans (setO_dr (by rfl) q))

/-- What forward differentiation keeps: visited matrices stay visited, and a stored derivative of a formula changes
only when the formula becomes visited. -/
structure FStep (E : MEnv K) (s s' : MSt K) : Prop where
  vis : ∀ q, (s.obj q).visited = true → (s'.obj q).visited = true
  dr : ∀ q, E.isForm q → (s'.obj q).dresult = (s.obj q).dresult ∨
    ((s.obj q).visited = false ∧ (s'.obj q).visited = true)

section
variable {E : MEnv K}

theorem FStep.refl (s : MSt K) : FStep E s s := ⟨fun _ h => h, fun _ _ => Or.inl rfl⟩

theorem FStep.trans {s s' s'' : MSt K} (h : FStep E s s') (h' : FStep E s' s'') : FStep E s s'' := by
  refine ⟨fun q hq => h'.vis q (h.vis q hq), fun q hq => ?_⟩
  rcases h.dr q hq with a | ⟨a, b⟩
  · rcases h'.dr q hq with a' | ⟨a', b'⟩
    · exact Or.inl (a'.trans a)
    · refine Or.inr ⟨?_, b'⟩
      rcases hv : (s.obj q).visited with _ | _
      · rfl
      · rw [h.vis q hv] at a'; cases a'
  · exact Or.inr ⟨a, h'.vis q b⟩

theorem FStep.setN (s : MSt K) (n : ℕ) (a : Slots K) : FStep E s (s.setN n a) :=
  ⟨fun _ h => h, fun _ _ => Or.inl rfl⟩

theorem TStep.toF {S : Set ℕ} {s s' : MSt K} (h : TStep E S s s') : FStep E s s' := ⟨h.vis, fun q _ => Or.inl (h.dr q)⟩

/-- One object changes. -/
theorem FStep.setO {s : MSt K} {o : ℕ} {v : MObj K} (h1 : (s.obj o).visited = true → v.visited = true)
    (h2 : E.isForm o → v.dresult = (s.obj o).dresult) : FStep E s (s.setO o v) := by
  refine ⟨fun q hq => ?_, fun q hq => Or.inl ?_⟩
  · by_cases hqo : q = o
    · subst hqo; simpa using h1 hq
    · rwa [setO_ne _ _ hqo]
  · by_cases hqo : q = o
    · subst hqo; simpa using h2 hq
    · rw [setO_ne _ _ hqo]

end

theorem fwdE_fstep {c : MCtx K} {X : ℕ} {ev fw : ℕ → MSt K → Option (MSt K × Mat K)} (hev : EvStep c.E ∅ ev)
    (hfw : ∀ o s r, fw o s = some r → FStep c.E s r.1) : ∀ (e : MNode K) s r,
    fwdE c X ev fw e s = some r → FStep c.E s r.1
  | .obj o, s, r, h => hfw o s r h
  | .bin n op x y, s, r, h => by
    simp only [fwdE] at h
    split at h
    · simp only [Option.bind_eq_bind, Option.bind_eq_some_iff] at h
      obtain ⟨dl, h1, dr, h2, h⟩ := h
      have s1 := (fwdE_fstep hev hfw x s dl h1).trans (fwdE_fstep hev hfw y dl.1 dr h2)
      split at h
      · simp only [Option.bind_eq_some_iff] at h
        obtain ⟨l, h3, r', h4, a, _, h5⟩ := h
        cases h5
        exact ((s1.trans (evalE_step hev x _ _ h3).1.toF).trans (evalE_step hev y _ _ h4).1.toF).trans (.setN _ _ _)
      · simp only [Option.bind_eq_some_iff] at h
        obtain ⟨a, _, h5⟩ := h
        cases h5
        exact s1.trans (.setN _ _ _)
    · cases h
  | .un n op x, s, r, h => by
    simp only [fwdE] at h
    split at h
    · simp only [Option.bind_eq_bind, Option.bind_eq_some_iff] at h
      obtain ⟨d, h1, h⟩ := h
      have s1 := fwdE_fstep hev hfw x s d h1
      split at h
      · simp only [Option.bind_eq_some_iff] at h
        obtain ⟨l, h3, a, _, h5⟩ := h
        cases h5
        exact (s1.trans (evalE_step hev x _ _ h3).1.toF).trans (.setN _ _ _)
      · simp only [Option.bind_eq_some_iff] at h
        obtain ⟨a, _, h5⟩ := h
        cases h5
        exact s1.trans (.setN _ _ _)
    · cases h

/-- Running a matrix with elements. -/
theorem mfwdO_leaf_eq {c : MCtx K} {X f o : ℕ} {s : MSt K} {r : MSt K × Mat K} (hform : ¬c.E.isForm o)
    (h : mfwdO c X (f + 1) o s = some r) :
    ∃ m, r.1 = s.setO o { s.obj o with dresult := m, devald := true, visited := true } := by
  rcases hk : c.E.kind o with _ | _ | _ | _ | ⟨n, e, eye⟩
  case form => exact absurd ⟨n, e, eye, hk⟩ hform
  all_goals
    simp only [mfwdO, hk, Option.bind_eq_bind, Option.bind_eq_some_iff] at h
    obtain ⟨m, _, h⟩ := h
    cases h
    exact ⟨_, rfl⟩

theorem mfwdO_fstep (c : MCtx K) (X : ℕ) : ∀ f o s r, mfwdO c X f o s = some r → FStep c.E s r.1
  | 0, o, s, r, h => by simp [mfwdO] at h
  | f + 1, o, s, r, h => by
    by_cases hform : c.E.isForm o
    · obtain ⟨n, e, eye, hk⟩ := hform
      simp only [mfwdO, hk] at h
      split at h
      · simp only [Option.map_eq_some_iff] at h
        obtain ⟨m, _, rfl⟩ := h
        exact FStep.setO (fun h => h) (fun _ => rfl)
      · rename_i hv
        simp only [Option.bind_eq_bind, Option.bind_eq_some_iff] at h
        obtain ⟨d, h1, r', h2, h3⟩ := h
        cases h3
        have s1 := fwdE_fstep (mevalO_step c ∅ f) (mfwdO_fstep c X f) _ _ _ h1
        have s2 := (evalE_step (mevalO_step c ∅ f) _ _ _ h2).1
        have hv' : (s.obj o).visited = false := by simpa using hv
        have hn : (r'.1.obj o).visited = true := s2.vis o (by simpa using s1.vis o (by simp))
        refine ⟨fun q hq => ?_, fun q hq => ?_⟩
        · by_cases hqo : q = o
          · subst hqo; rw [hv'] at hq; cases hq
          · rw [setO_ne _ _ hqo]
            refine s2.vis q ?_
            rw [setO_ne _ _ hqo]
            refine s1.vis q ?_
            rwa [setO_ne _ _ hqo, setO_ne _ _ hqo]
        · by_cases hqo : q = o
          · subst hqo; exact Or.inr ⟨hv', by simpa using hn⟩
          · have a := s1.dr q hq
            rw [setO_ne _ _ hqo, setO_ne _ _ hqo] at a
            show ((r'.1.setO o _).obj q).dresult = _ ∨ _ ∧ ((r'.1.setO o _).obj q).visited = true
            rw [setO_ne _ _ hqo, s2.dr q, setO_ne _ _ hqo]
            exact a.imp id fun a => ⟨a.1, s2.vis q (by rw [setO_ne _ _ hqo]; exact a.2)⟩
    · obtain ⟨m, hm⟩ := mfwdO_leaf_eq hform h
      rw [hm]
      exact FStep.setO (fun _ => rfl) (fun h => absurd h hform)

/-! ## Evaluation after differentiation visits nothing new -/

theorem mevalO_same (c : MCtx K) : ∀ f o s r, mevalO c f o s = some r → (s.obj o).visited = true →
    ∀ q, (r.1.obj q).visited = (s.obj q).visited
  | 0, o, s, r, h, _, _ => by simp [mevalO] at h
  | f + 1, o, s, r, h, hv, q => by
    have key : ∀ v : MObj K, v.visited = true → ((s.setO o v).obj q).visited = (s.obj q).visited := fun v hw => by
      by_cases hqo : q = o
      · subst hqo; rw [setO_same, hw, hv]
      · rw [setO_ne _ _ hqo]
    rcases hk : c.E.kind o with _ | _ | _ | _ | ⟨n, e, eye⟩
    case form =>
      simp only [mevalO, hk, setO_same, hv, if_true, Option.map_eq_some_iff] at h
      obtain ⟨m, _, rfl⟩ := h
      exact key _ (by simpa using hv)
    all_goals
      simp only [mevalO, hk, Option.bind_eq_bind, Option.bind_eq_some_iff] at h
      obtain ⟨m, _, h⟩ := h
      cases h
      exact key _ rfl

theorem evalE_same {c : MCtx K} {f : ℕ} : ∀ (e : MNode K) s r, evalE c (mevalO c f) e s = some r →
    (∀ o ∈ e.objs, (s.obj o).visited = true) → ∀ q, (r.1.obj q).visited = (s.obj q).visited
  | .obj o, s, r, h, hv, q => mevalO_same c f o s r h (hv o (by simp [MNode.objs])) q
  | .bin n op x y, s, r, h, hv, q => by
    simp only [evalE] at h
    split at h
    · simp only [Option.bind_eq_bind, Option.bind_eq_some_iff] at h
      obtain ⟨l, h1, r', h2, a, _, h4⟩ := h
      cases h4
      have a1 := evalE_same x s l h1 (fun o ho => hv o (by simp [MNode.objs, ho]))
      exact (evalE_same y l.1 r' h2 (fun o ho => by rw [a1 o]; exact hv o (by simp [MNode.objs, ho])) q).trans (a1 q)
    · cases h
  | .un n op x, s, r, h, hv, q => by
    simp only [evalE] at h
    split at h
    · simp only [Option.bind_eq_bind, Option.bind_eq_some_iff] at h
      obtain ⟨l, h1, a, _, h4⟩ := h
      cases h4
      exact evalE_same x s l h1 (fun o ho => hv o (by simpa [MNode.objs] using ho)) q
    · cases h

/-! ## What an answer needs -/

section
variable {E : MEnv K} {N : Memo K} {e : MNode K} {o p : ℕ}

theorem Memo.Met.ofRoot (h : N.Met E e p) : ∃ o ∈ e.objs, N.Met E (.obj o) p := by
  induction h with
  | root ho => exact ⟨_, ho, .root (by simp [MNode.objs])⟩
  | step _ hu hk hq ih => obtain ⟨o, ho, h⟩ := ih; exact ⟨o, ho, h.step hu hk hq⟩

theorem Memo.Met.ofObj {n : ℕ} {e' : MNode K} {eye : ℕ} (hk : E.kind o = .form n e' eye)
    (h : N.Met E (.obj o) p) : p = o ∨ ∃ q ∈ (MEnv.item n e' eye).objs, N.Met E (.obj q) p := by
  induction h with
  | root ho => simp only [MNode.objs, List.mem_singleton] at ho; exact Or.inl ho
  | @step p q n1 e1 eye1 hm hu hk1 hq ih =>
    rcases ih with rfl | ⟨q', hq', h⟩
    · rw [hk] at hk1; cases hk1
      exact Or.inr ⟨q, hq, .root (by simp [MNode.objs])⟩
    · exact Or.inr ⟨q', hq', h.step hu hk1 hq⟩

theorem Memo.Met.stop (hs : N.used o ∨ ¬E.isForm o) (h : N.Met E (.obj o) p) : p = o := by
  induction h with
  | root ho => simpa [MNode.objs] using ho
  | @step p q n1 e1 eye1 hm hu hk1 hq ih =>
    subst ih
    rcases hs with hs | hs
    · exact absurd hs hu
    · exact absurd ⟨_, _, _, hk1⟩ hs

variable (E N) in
/-- Every used formula that is met below `o` has a stored derivative in `s0`. -/
def Stocked (s0 : MSt K) (o : ℕ) : Prop :=
  ∀ p, N.Met E (.obj o) p → E.isForm p → N.used p → ∃ d, (s0.obj p).dresult = some d

/-- During a query: what was used is visited and keeps its derivative, and what became visited (outside of the formulas
`A` that are being computed) is stocked. -/
structure StockInv (E : MEnv K) (N : Memo K) (s0 : MSt K) (A : ℕ → Prop) (s : MSt K) : Prop where
  keep : ∀ p, E.isForm p → N.used p → (s.obj p).visited = true ∧ (s.obj p).dresult = (s0.obj p).dresult
  good : ∀ p, ¬A p → (s.obj p).visited = true → ¬N.used p → Stocked E N s0 p

variable {A : ℕ → Prop} {s0 s s' : MSt K}

theorem StockInv.step (h : StockInv E N s0 A s) (hf : FStep E s s')
    (hv : ∀ q, (s'.obj q).visited = (s.obj q).visited) : StockInv E N s0 A s' := by
  refine ⟨fun p hp hu => ?_, fun p hA hp hu => h.good p hA (by rw [← hv p]; exact hp) hu⟩
  obtain ⟨h1, h2⟩ := h.keep p hp hu
  refine ⟨by rw [hv p]; exact h1, ?_⟩
  rcases hf.dr p hp with a | ⟨a, _⟩
  · exact a.trans h2
  · rw [h1] at a; cases a

end

section
variable {c : MCtx K} {rank : ℕ → ℕ} {N : Memo K} {s0 : MSt K}

/-- What a successful derivative of a named matrix shows. -/
def StockSpec (c : MCtx K) (rank : ℕ → ℕ) (N : Memo K) (s0 : MSt K) (A : ℕ → Prop)
    (fw : ℕ → MSt K → Option (MSt K × Mat K)) (o : ℕ) : Prop :=
  ∀ s r, fw o s = some r → StockInv c.E N s0 A s →
    StockInv c.E N s0 A r.1 ∧ Stocked c.E N s0 o ∧ (r.1.obj o).visited = true

theorem fwdE_stock {X f : ℕ} {A : ℕ → Prop} : ∀ (e : MNode K), (∀ o ∈ e.objs, StockSpec c rank N s0 A (mfwdO c X f) o) →
    ∀ s r, fwdE c X (mevalO c f) (mfwdO c X f) e s = some r → StockInv c.E N s0 A s →
    StockInv c.E N s0 A r.1 ∧ ∀ o ∈ e.objs, Stocked c.E N s0 o ∧ (r.1.obj o).visited = true
  | .obj o, hfw, s, r, h, hs => by
    obtain ⟨a, b, d⟩ := hfw o (by simp [MNode.objs]) s r h hs
    refine ⟨a, fun q hq => ?_⟩
    simp only [MNode.objs, List.mem_singleton] at hq
    subst hq; exact ⟨b, d⟩
  | .bin n op x y, hfw, s, r, h, hs => by
    simp only [fwdE] at h
    split at h
    · simp only [Option.bind_eq_bind, Option.bind_eq_some_iff] at h
      obtain ⟨dl, h1, dr, h2, h⟩ := h
      obtain ⟨i1, g1⟩ := fwdE_stock x (fun o ho => hfw o (by simp [MNode.objs, ho])) s dl h1 hs
      obtain ⟨i2, g2⟩ := fwdE_stock y (fun o ho => hfw o (by simp [MNode.objs, ho])) dl.1 dr h2 i1
      have f2 := fwdE_fstep (mevalO_step c ∅ f) (mfwdO_fstep c X f) y dl.1 dr h2
      have g3 : ∀ o ∈ x.objs ++ y.objs, Stocked c.E N s0 o ∧ (dr.1.obj o).visited = true := fun o ho => by
        rcases List.mem_append.1 ho with ho | ho
        · exact ⟨(g1 o ho).1, f2.vis o (g1 o ho).2⟩
        · exact g2 o ho
      split at h
      · simp only [Option.bind_eq_some_iff] at h
        obtain ⟨l, h3, r', h4, a, _, h5⟩ := h
        cases h5
        have v3 := evalE_same x _ _ h3 (fun o ho => (g3 o (by simp [ho])).2)
        have v4 := evalE_same y _ _ h4 (fun o ho => by rw [v3 o]; exact (g3 o (by simp [ho])).2)
        have i3 := i2.step (evalE_step (mevalO_step c ∅ f) x _ _ h3).1.toF v3
        have i4 := i3.step (evalE_step (mevalO_step c ∅ f) y _ _ h4).1.toF v4
        refine ⟨i4.step (.setN _ _ _) (fun _ => rfl), fun o ho => ⟨(g3 o ho).1, ?_⟩⟩
        show (r'.1.obj o).visited = true
        rw [v4 o, v3 o]; exact (g3 o ho).2
      · simp only [Option.bind_eq_some_iff] at h
        obtain ⟨a, _, h5⟩ := h
        cases h5
        exact ⟨i2.step (.setN _ _ _) (fun _ => rfl), g3⟩
    · cases h
  | .un n op x, hfw, s, r, h, hs => by
    simp only [fwdE] at h
    split at h
    · simp only [Option.bind_eq_bind, Option.bind_eq_some_iff] at h
      obtain ⟨d, h1, h⟩ := h
      obtain ⟨i1, g1⟩ := fwdE_stock x (fun o ho => hfw o (by simpa [MNode.objs] using ho)) s d h1 hs
      split at h
      · simp only [Option.bind_eq_some_iff] at h
        obtain ⟨l, h3, a, _, h5⟩ := h
        cases h5
        have v3 := evalE_same x _ _ h3 (fun o ho => (g1 o ho).2)
        have i3 := i1.step (evalE_step (mevalO_step c ∅ f) x _ _ h3).1.toF v3
        refine ⟨i3.step (.setN _ _ _) (fun _ => rfl), fun o ho => ⟨(g1 o ho).1, ?_⟩⟩
        show (l.1.obj o).visited = true
        rw [v3 o]; exact (g1 o ho).2
      · simp only [Option.bind_eq_some_iff] at h
        obtain ⟨a, _, h5⟩ := h
        cases h5
        exact ⟨i1.step (.setN _ _ _) (fun _ => rfl), g1⟩
    · cases h

theorem mfwdO_stock (hwf : c.E.WF rank) {X : ℕ} : ∀ f (A : ℕ → Prop) o, (∀ a, A a → rank o < rank a) →
    StockSpec c rank N s0 A (mfwdO c X f) o
  | 0, A, o, _, s, r, h, _ => by simp [mfwdO] at h
  | f + 1, A, o, hA, s, r, h, hs => by
    have hoA : ¬A o := fun h => lt_irrefl _ (hA o h)
    by_cases hform : c.E.isForm o
    · have hform' := hform
      obtain ⟨n, e, eye, hk⟩ := hform
      have h' := h
      simp only [mfwdO, hk] at h
      split at h
      · rename_i hv
        have hv : (s.obj o).visited = true := by simpa using hv
        simp only [Option.map_eq_some_iff] at h
        obtain ⟨m, hm, rfl⟩ := h
        have hm : (s.obj o).dresult = some m := by simpa using hm
        have hvis : ∀ q, ((s.setO o { s.obj o with devald := true }).obj q).visited = (s.obj q).visited := fun q => by
          by_cases hqo : q = o
          · subst hqo; simp
          · rw [setO_ne _ _ hqo]
        refine ⟨hs.step (FStep.setO (fun h => h) (fun _ => rfl)) hvis, ?_, by rw [hvis o]; exact hv⟩
        by_cases hu : N.used o
        · intro p hp _ _
          obtain rfl := Memo.Met.stop (Or.inl hu) hp
          exact ⟨m, by rw [← (hs.keep p hform' hu).2]; exact hm⟩
        · exact hs.good o hoA hv hu
      · rename_i hv
        have hv : (s.obj o).visited = false := by simpa using hv
        have hu : ¬N.used o := fun hu => by
          rw [(hs.keep o hform' hu).1] at hv; cases hv
        simp only [Option.bind_eq_bind, Option.bind_eq_some_iff] at h
        obtain ⟨d, h1, r', h2, h3⟩ := h
        cases h3
        -- the state in which the body runs
        set s1 := (s.setO o { s.obj o with devald := true }).setO o
          { (s.setO o { s.obj o with devald := true }).obj o with visited := true } with hs1
        have ne1 : ∀ q, q ≠ o → s1.obj q = s.obj q := fun q hq => by rw [hs1, setO_ne _ _ hq, setO_ne _ _ hq]
        have hne : ∀ p, N.used p → p ≠ o := fun p hp => by rintro rfl; exact hu hp
        have i1 : StockInv c.E N s0 (fun q => A q ∨ q = o) s1 := by
          refine ⟨fun p hp hpu => by rw [ne1 p (hne p hpu)]; exact hs.keep p hp hpu, fun p hpA hpv hpu => ?_⟩
          have hpo : p ≠ o := fun h => hpA (Or.inr h)
          rw [ne1 p hpo] at hpv
          exact hs.good p (fun h => hpA (Or.inl h)) hpv hpu
        have hrk := (hwf.form o n e eye hk).2.2.2.2.2.2
        obtain ⟨i2, g2⟩ := fwdE_stock (MEnv.item n e eye) (fun q hq => mfwdO_stock hwf f _ q (fun a ha => by
          rcases ha with ha | rfl
          · exact lt_trans (hrk q hq) (hA a ha)
          · exact hrk q hq)) _ _ h1 i1
        -- storing the derivative
        set s2 := d.1.setO o { d.1.obj o with dresult := some d.2, devald := true } with hs2
        have v2 : ∀ q, (s2.obj q).visited = (d.1.obj q).visited := fun q => by
          by_cases hqo : q = o
          · subst hqo; simp [hs2]
          · rw [hs2, setO_ne _ _ hqo]
        have i3 : StockInv c.E N s0 (fun q => A q ∨ q = o) s2 := by
          refine ⟨fun p hp hpu => by rw [hs2, setO_ne _ _ (hne p hpu)]; exact i2.keep p hp hpu, fun p hpA hpv hpu =>
            i2.good p hpA (by rw [← v2 p]; exact hpv) hpu⟩
        have v3 := evalE_same _ _ _ h2 (fun q hq => by rw [v2 q]; exact (g2 q hq).2)
        have i4 := i3.step (evalE_step (mevalO_step c ∅ f) _ _ _ h2).1.toF v3
        have hgood : Stocked c.E N s0 o := fun p hp hpf hpu => by
          rcases hp.ofObj hk with rfl | ⟨q, hq, h⟩
          · exact absurd hpu hu
          · exact (g2 q hq).1 p h hpf hpu
        have ho4 : (r'.1.obj o).visited = true := by
          have f1 := fwdE_fstep (mevalO_step c ∅ f) (mfwdO_fstep c X f) _ _ _ h1
          rw [v3 o, v2 o]
          exact f1.vis o (by simp [hs1])
        refine ⟨⟨fun p hp hpu => ?_, fun p hpA hpv hpu => ?_⟩, hgood, ?_⟩
        · show ((r'.1.setO o _).obj p).visited = true ∧ ((r'.1.setO o _).obj p).dresult = _
          rw [setO_ne _ _ (hne p hpu)]; exact i4.keep p hp hpu
        · by_cases hpo : p = o
          · subst hpo; exact hgood
          · have hpv : ((r'.1.setO o _).obj p).visited = true := hpv
            rw [setO_ne _ _ hpo] at hpv
            exact i4.good p (fun h => h.elim hpA hpo) hpv hpu
        · show ((r'.1.setO o _).obj o).visited = true
          simpa using ho4
    · obtain ⟨m, hm⟩ := mfwdO_leaf_eq hform h
      rw [hm]
      have hst : Stocked c.E N s0 o := fun p hp hpf _ => by
        obtain rfl := Memo.Met.stop (Or.inr hform) hp
        exact absurd hpf hform
      have hne : ∀ p, c.E.isForm p → p ≠ o := fun p hp => by rintro rfl; exact hform hp
      refine ⟨⟨fun p hp hpu => ?_, fun p hpA hpv hpu => ?_⟩, hst, by simp⟩
      · rw [setO_ne _ _ (hne p hp)]; exact hs.keep p hp hpu
      · by_cases hpo : p = o
        · subst hpo; exact hst
        · rw [setO_ne _ _ hpo] at hpv; exact hs.good p hpA hpv hpu

end

/-! ## Over a run -/

/-- Only formulas whose derivative the record knows have one stored. -/
def DerKnown (E : MEnv K) (s : MSt K) (M : Memo K) : Prop :=
  ∀ p, E.isForm p → ∀ d, (s.obj p).dresult = some d → ∃ d', M.der p = some d'

theorem Memo.clear_der_form {E : MEnv K} {M : Memo K} {e : MNode K} {p : ℕ} (hp : E.isForm p) :
    (M.clear E e).der p = M.der p := if_neg fun h => h.2 hp

theorem MRun.derKnown {E : MEnv K} {rank : ℕ → ℕ} {M : Memo K} (hwf : E.WF rank) {s : MSt K} (h : MRun E rank s M) :
    DerKnown E s M := by
  induction h with
  | fresh => intro p _ d hd; simp [MSt.fresh] at hd
  | @eval s M s' m c e f _ hE hc hf he ih =>
    subst hE
    simp only [matEval, Option.bind_eq_bind, Option.bind_eq_some_iff] at he
    obtain ⟨s1, h1, h2⟩ := he
    intro p hp d hd
    rw [(evalE_step (mevalO_step c ∅ f) _ _ _ h2).1.dr p, mresetE_dr (mresetO_dr c.E f) _ _ _ h1 p] at hd
    obtain ⟨d', h3⟩ := ih p hp d hd
    exact ⟨d', by show (M.clear c.E e).der p = _; rw [Memo.clear_der_form hp]; exact h3⟩
  | @devalF s M s' m c X e f hr hE hc hf he ih =>
    subst hE
    obtain ⟨s0', e0, st⟩ := (hr.inv hwf).reset hwf hf
    obtain ⟨s1', m', e1, _, inv'⟩ := (hr.inv hwf).devalF hwf hc hf
    rw [he] at e1; cases e1
    simp only [matDevalF, Option.bind_eq_bind, Option.bind_eq_some_iff] at he
    obtain ⟨s1, h1, h2⟩ := he
    rw [h1] at e0; cases e0
    intro p hp d hd
    have hf2 := fwdE_fstep (mevalO_step c ∅ f) (mfwdO_fstep c X f) _ _ _ h2
    by_cases hm : (M.clear c.E e).Met c.E e p
    · exact ⟨_, if_pos hm⟩
    · have hd' : (M.afterDevalF c rank X e).der p = M.der p :=
        (if_neg hm).trans (Memo.clear_der_form hp)
      rw [hd']
      rcases hf2.dr p hp with a | ⟨a, b⟩
      · rw [a, mresetE_dr (mresetO_dr c.E f) _ _ _ h1 p] at hd
        exact ih p hp d hd
      · exfalso
        have hu := (inv'.st.vis p).1 b
        rcases hu with hu | hu
        · rw [(st.vis p).2 hu] at a; cases a
        · exact hm hu
  | @precomp s M s' c o X f _ hE hq hf hg he ih =>
    subst hE
    simp only [matPreComp, Option.bind_eq_bind, Option.bind_eq_some_iff] at he
    obtain ⟨s1, h1, h2⟩ := he
    intro p hp d hd
    rw [(mtravO_step c ∅ f _ _ _ h2).dr p, precompReset_dr hq.root h1 p] at hd
    obtain ⟨d', h3⟩ := ih p hp d hd
    exact ⟨d', (if_neg fun h => h.2 hp).trans h3⟩

/-- If `DevalF(e, X)` answers, then every formula that counts as used and that it comes across has a stored
derivative. -/
theorem MRun.devalF_stored {E : MEnv K} {rank : ℕ → ℕ} {M : Memo K} (hwf : E.WF rank) {s : MSt K}
    (h : MRun E rank s M) {c : MCtx K} (hE : c.E = E) {e : MNode K} {X f : ℕ} (hf : ∀ q ∈ e.objs, rank q < f)
    {r : MSt K × Mat K} (he : matDevalF c f X e s = some r) :
    ∀ p, (M.clear E e).Met E e p → E.isForm p → (M.clear E e).used p → ∃ d, M.der p = some d := by
  subst hE
  obtain ⟨s0', e0, st⟩ := (h.inv hwf).reset hwf hf
  simp only [matDevalF, Option.bind_eq_bind, Option.bind_eq_some_iff] at he
  obtain ⟨s0, h1, h2⟩ := he
  obtain rfl := Option.some.inj (h1.symm.trans e0)
  have i0 : StockInv c.E (M.clear c.E e) s0 (fun _ => False) s0 :=
    ⟨fun p _ hu => ⟨(st.vis p).2 hu, rfl⟩, fun p _ hv hu => absurd ((st.vis p).1 hv) hu⟩
  obtain ⟨_, g⟩ := fwdE_stock (rank := rank) e (fun o _ => mfwdO_stock hwf f _ o (fun _ h => h.elim)) _ _ h2 i0
  intro p hp hpf hpu
  obtain ⟨o, ho, hm⟩ := hp.ofRoot
  obtain ⟨d, hd⟩ := (g o ho).1 p hm hpf hpu
  rw [mresetE_dr (mresetO_dr c.E f) _ _ _ h1 p] at hd
  exact h.derKnown hwf p hpf d hd

end CoolDiff
