import Verif.Scalar.SymSession

/-!
# What `SymDiff` leaves behind

Facts needed to follow several `SymDiff` calls on the same root with queries of the results in
between (gradient and Hessian loops).
-/

set_option linter.unusedSectionVars false

namespace CoolDiff

variable {K : Type} [Field K] [DecidableEq K]
variable {P : Prim K} {H : ℕ → Prop} {rf : ℕ → Bool → List Bool → Bool}

/-! ## The result is a temporary of the root -/

/-- The derivative temporaries and the object `Variable::t1` are the same. -/
structure KeepD (s s' : SSt K) : Prop where
  dtmp : s'.tm.dtmp = s.tm.dtmp
  odtmp : s'.tm.odtmp = s.tm.odtmp
  one : s'.one = s.one

theorem KeepD.refl (s : SSt K) : KeepD s s := ⟨rfl, rfl, rfl⟩

theorem KeepD.trans {s s' s'' : SSt K} (h : KeepD s s') (h' : KeepD s' s'') : KeepD s s'' :=
  ⟨h'.dtmp.trans h.dtmp, h'.odtmp.trans h.odtmp, h'.one.trans h.one⟩

theorem inst_keepD {f : List Bool → Bool} {call : Hole → SSt K → Option (Ref × SSt K)}
    (hc : ∀ h s r, call h s = some r → KeepD s r.2) (t : Tm K) :
    ∀ path s r, inst f call path t s = some r → KeepD s r.2 := by
  induction t with
  | hole h =>
      intro path s r hr
      simp only [inst, Option.map_eq_some_iff] at hr
      obtain ⟨q, h1, rfl⟩ := hr
      exact hc h s q h1
  | un g a ih =>
      intro path s r hr
      simp only [inst, Option.map_eq_some_iff] at hr
      obtain ⟨q, h1, rfl⟩ := hr
      exact ih path s q h1
  | bin g a b iha ihb =>
      intro path s r hr
      simp only [inst] at hr
      split at hr <;> simp only [Option.bind_eq_some_iff, Option.map_eq_some_iff] at hr <;>
        obtain ⟨q, h1, q', h2, rfl⟩ := hr
      · exact (ihb _ s q h1).trans (iha _ q.2 q' h2)
      · exact (iha _ s q h1).trans (ihb _ q.2 q' h2)

theorem symEvalN_keepD (i : Node K) : ∀ (s : SSt K) r, symEvalN rf i s = some r → KeepD s r.2 := by
  induction i with
  | leaf o =>
      intro s r h
      simp only [symEvalN, Option.some.injEq] at h
      rw [← h]; exact .refl s
  | par p =>
      intro s r h
      simp only [symEvalN, Option.some.injEq] at h
      rw [← h]; exact .refl s
  | op1 n f a ih =>
      intro s r h
      simp only [symEvalN] at h
      split at h
      · simp only [Option.some.injEq] at h
        rw [← h]; exact .refl s
      · simp only [Option.bind_eq_some_iff, Option.map_eq_some_iff] at h
        obtain ⟨t, -, q, h1, rfl⟩ := h
        have := inst_keepD (f := rf n false) (fun hh s r hr => by
          cases hh <;> simp only [reduceCtorEq] at hr
          exact ih s r hr) t [] s q h1
        exact ⟨this.dtmp, this.odtmp, this.one⟩
  | op2 n f a b iha ihb =>
      intro s r h
      simp only [symEvalN] at h
      split at h
      · simp only [Option.some.injEq] at h
        rw [← h]; exact .refl s
      · simp only [Option.bind_eq_some_iff, Option.map_eq_some_iff] at h
        obtain ⟨t, -, q, h1, rfl⟩ := h
        have := inst_keepD (f := rf n false) (fun hh s r hr => by
          cases hh <;> simp only [reduceCtorEq] at hr
          · exact iha s r hr
          · exact ihb s r hr) t [] s q h1
        exact ⟨this.dtmp, this.odtmp, this.one⟩

/-- The operator numbers of the top of a tree are among its operators. -/
theorem symDevalN_target {k : ℕ} {recD : ℕ → SSt K → Option (ℕ × SSt K)} {i : Node K} {s : SSt K}
    {d : ℕ × SSt K} (h : symDevalN P rf k recD i s = some d) :
    d.1 = 0 ∨ (∃ o, i = .leaf o ∧ recD o s = some d) ∨ ∃ n ∈ i.opIds, d.1 ∈ (d.2.tm.odtmp n).map Prod.snd := by
  cases i with
  | leaf o => exact Or.inr (Or.inl ⟨o, rfl, h⟩)
  | par p =>
      simp only [symDevalN, Option.some.injEq] at h
      rw [← h]; exact Or.inl rfl
  | op1 n f a =>
      refine Or.inr (Or.inr ⟨n, by simp [Node.opIds], ?_⟩)
      simp only [symDevalN] at h
      split at h
      · rename_i e he
        simp only [Option.some.injEq] at h
        rw [← h]
        exact List.mem_map.2 ⟨(k, e), findDer_mem he, rfl⟩
      · simp only [Option.bind_eq_some_iff, Option.map_eq_some_iff] at h
        obtain ⟨t, -, q, -, rfl⟩ := h
        simp [SSt.setODTmp]
  | op2 n f a b =>
      refine Or.inr (Or.inr ⟨n, by simp [Node.opIds], ?_⟩)
      simp only [symDevalN] at h
      split at h
      · rename_i e he
        simp only [Option.some.injEq] at h
        rw [← h]
        exact List.mem_map.2 ⟨(k, e), findDer_mem he, rfl⟩
      · simp only [Option.bind_eq_some_iff, Option.map_eq_some_iff] at h
        obtain ⟨t, -, q, -, rfl⟩ := h
        simp [SSt.setODTmp]

/-- After the loop, the derivative temporary is what the last right-hand side returned. -/
theorem symItems_last {k o : ℕ} {recD : ℕ → SSt K → Option (ℕ × SSt K)} (is : List (Node K)) :
    ∀ (s s' : SSt K), is ≠ [] → symItems P rf k recD o is s = some s' →
      ∃ i ∈ is, ∃ s1 d, symDevalN P rf k recD i s1 = some d ∧
        s'.tm.dtmp = Function.update d.2.tm.dtmp o (some d.1) ∧ s'.tm.odtmp = d.2.tm.odtmp ∧
        s'.one = d.2.one := by
  induction is with
  | nil => intro s s' h; exact absurd rfl h
  | cons i is ih =>
      intro s s' _ h
      simp only [symItems, Option.bind_eq_some_iff] at h
      obtain ⟨d, h1, v, h2, h3⟩ := h
      by_cases he : is = []
      · subst he
        simp only [symItems, Option.some.injEq] at h3
        have := symEvalN_keepD i _ v h2
        refine ⟨i, by simp, s, d, h1, ?_, ?_, ?_⟩ <;> rw [← h3]
        · exact this.dtmp
        · exact this.odtmp
        · exact this.one
      · obtain ⟨j, hj, r⟩ := ih _ s' he h3
        exact ⟨j, List.mem_cons_of_mem _ hj, r⟩

theorem symDevalO_res {k fuel o : ℕ} {s : SSt K} {d : ℕ × SSt K}
    (h : symDevalO P rf k fuel o s = some d) : d.1 = d.2.one ∨ d.2.tm.dtmp o = some d.1 := by
  cases fuel with
  | zero => simp [symDevalO] at h
  | succ f =>
      rw [symDevalO, Option.bind_eq_some_iff] at h
      obtain ⟨s1, -, h2⟩ := h
      split at h2
      · simp only [Option.some.injEq] at h2
        rw [← h2]; exact Or.inl rfl
      · rw [Option.map_eq_some_iff] at h2
        obtain ⟨e, h3, rfl⟩ := h2
        exact Or.inr h3

/-- The result of differentiating an Expression is `Variable::t0`, `Variable::t1`, or an object that
every reset of the root reaches. -/
theorem symDevalO_target {k fuel y : ℕ} {s : SSt K} {d : ℕ × SSt K}
    (h : symDevalO P rf k fuel y s = some d) (hy : y < s.st.defs.size)
    (hi : s.st.defs.items y ≠ []) (hv : s.st.mem.visited y = false) :
    d.1 = 0 ∨ d.1 = d.2.one ∨
      ∃ b ∈ itemTargets d.2.tm (s.st.defs.items y), ∀ (D : Defs K) V, Touch D d.2.tm V b d.1 := by
  have hr := symDevalO_res h
  cases fuel with
  | zero => simp [symDevalO] at h
  | succ f =>
      have hie : (ensureD y s).st.defs.items y = s.st.defs.items y := by
        unfold ensureD
        split
        · rfl
        · simp only [SSt.setDTmp, newVar, Function.update_apply]
          rw [if_neg (by omega)]
      have hve : (ensureD y s).st.mem.visited y = false := by
        unfold ensureD
        split
        · exact hv
        · simp only [SSt.setDTmp, newVar, Function.update_apply]
          rw [if_neg (by omega)]
          exact hv
      rw [symDevalO, if_pos hve, hie, Option.bind_eq_some_iff] at h
      obtain ⟨s1, h1, h2⟩ := h
      rw [Option.map_eq_some_iff] at h1
      obtain ⟨s2, h3, rfl⟩ := h1
      have hd2 : d.2 = s2.setVis y false := by
        split at h2
        · simp only [Option.some.injEq] at h2
          rw [← h2]
        · rw [Option.map_eq_some_iff] at h2
          obtain ⟨e, -, rfl⟩ := h2
          rfl
      have htm : d.2.tm = s2.tm := by rw [hd2]; rfl
      have hone : d.2.one = s2.one := by rw [hd2]; rfl
      rcases hr with hr | hr
      · exact Or.inr (Or.inl hr)
      · obtain ⟨i, hi', s3, r, e1, e2, e3, e4⟩ := symItems_last _ _ _ hi h3
        have hd1 : d.1 = r.1 := by
          rw [htm, e2, Function.update_self] at hr
          exact (Option.some.inj hr).symm
        rcases symDevalN_target e1 with h0 | ⟨o, rfl, ho⟩ | ⟨n, hn, hn'⟩
        · exact Or.inl (hd1.trans h0)
        · rcases symDevalO_res ho with h0 | h0
          · exact Or.inr (Or.inl (by rw [hd1, h0, hone, e4]))
          · refine Or.inr (Or.inr ⟨o, mem_itemTargets.2 ⟨_, hi', Or.inl (by simp [Node.leaves])⟩, fun D V =>
              .obj ?_ .refl⟩)
            have : d.2.tm.dtmp o = some d.1 := by
              rw [htm, e2, Function.update_apply]
              split
              · rw [hd1]
              · rw [h0, hd1]
            exact List.mem_append_right _ (by simp [this])
        · refine Or.inr (Or.inr ⟨d.1, mem_itemTargets.2 ⟨i, hi', Or.inr ⟨n, hn, ?_⟩⟩, fun D V => .refl⟩)
          rw [hd1, Tmps.opTargets, htm, e3]
          exact List.mem_append_right _ hn'

/-! ## `SymDiff` with the objects that nothing else refers to kept apart -/

/-- `SymDiff` is `symDeval` and a new Expression that refers to the result. -/
theorem Full.symDeval {g : GS K} (h : Full P H g) {y x : ℕ} (hy : y < g.D.size) (hx : H x)
    (hs : SafeS g.D g.tm (fun q => g.vis q = true) y)
    (hok : ∀ q, Reach g.D y q → ∀ i ∈ g.D.items q, i.SymOk) :
    ∃ e g', CoolDiff.symDiff P rf y x g.s = some (mkExpr (.var e) (GS.s g')) ∧ Full P H g' ∧
      DExt ({ g with T := g.T ∪ {q | Reach g.D y q} }.withMem g'.s.st.mem) g' ∧ e ∈ g'.T ∧
      g'.vis y = false ∧ (∀ q < g.D.size, g'.vis q = true → g.vis q = true) ∧
      (∀ b ∈ itemTargets g.tm (g.D.items y), ∀ q < g.D.size,
        Touch g.D g.tm (fun q => g.vis q = true) b q → g'.vis q = false) ∧
      (g.D.items y ≠ [] → e = 0 ∨ e = g'.s.one ∨
        ∃ b ∈ itemTargets g'.tm (g.D.items y), ∀ (D : Defs K) V, Touch D g'.tm V b e) := by
  obtain ⟨m, hm, hc, hanti⟩ := h.reset hy hs
  have hvy := (resetImplS_spec g.D g.tm _ y g.s.st.mem m hm).1
  set B : Set ℕ := {q | Reach g.D y q} with hB
  have hBl : ∀ q ∈ B, q < g.D.size := fun q hq => Reach.lt h.good.d.wf.closed hy hq
  have h1 := (h.addT hBl (fun q hq i hi p hp => Reach.step hq hi hp)).withMem (m := m) hc.plain
  set g1 : GS K := GS.withMem { g with T := g.T ∪ B } m with hg1
  obtain ⟨r, hr⟩ := exists_over g.ord g.D.size
  obtain ⟨e, g2, a1, a2, a3, a4, a5, a6⟩ := symDevalO_spec (rf := rf) (B := B) (n0 := g.D.size)
    (x := x) (k := g.D.nidx x) g.D.fuel g1 y r (h1 r)
    ⟨le_refl _, fun p hp => ⟨Or.inr hp, hBl p hp⟩, fun p hp i hi o ho => Reach.step hp hi ho, hok, hx,
      rfl⟩ Reach.refl (hr y hy) (hr _ h.good.d.one.1) (fun q hq hi _ => hc.clean q hq hi)
    ((unv_le _ _).trans_lt (by simp [Defs.fuel]))
  have hx3 : DExt g1 g2 := a3.ext
  have hfull : Full P H g2 := a2.full fun q hq => by
    rcases Nat.lt_or_ge q g1.D.size with hq' | hq'
    · rw [a3.ext.ord q hq']; exact hr q hq'
    · exact a3.ordNew q hq' hq
  refine ⟨e, g2, ?_, hfull, ?_, a4, ?_, fun q hq hv => ?_, fun b hb q hq ht => ?_, fun hi => ?_⟩
  · have a1 : symDevalO P rf (g.s.st.defs.nidx x) g.s.st.defs.fuel y
        { g.s with st := ⟨g.s.st.defs, m⟩ } = some (e, g2.s) := a1
    simp only [CoolDiff.symDiff, hm, Option.bind_some, a1, Option.map_some]
  · exact ⟨hx3.size, hx3.items, hx3.base, hx3.nidx, hx3.par, hx3.psize, hx3.next, hx3.T, hx3.ord,
      hx3.newops, hx3.one, fun _ _ => rfl, hx3.visNew⟩
  · rw [hx3.vis y hy]; exact hvy
  · rw [hx3.vis q hq] at hv; exact (hanti q hv).1
  · rw [hx3.vis q hq]; exact resetImplS_touch hm hb ht
  · exact symDevalO_target a1 hy hi hvy

theorem mkExpr_var_items {s : SSt K} {e : ℕ} (hne : (mkExpr (.var e) s).1 ≠ e) :
    (mkExpr (.var e) s).2.st.defs.items (mkExpr (.var e) s).1 =
      [stored (.var e) (newExpr s.st).2.defs.next] := by
  show (define (newExpr s.st).1 (.var e) (newExpr s.st).2).defs.items (newExpr s.st).1 = _
  rw [define_items]
  rw [if_neg (by simp only [Exp.leaves, List.mem_singleton]; exact hne)]
  rfl

theorem Reach.of_mkExpr {s : SSt K} {e q : ℕ} (hne : (mkExpr (.var e) s).1 ≠ e)
    (h : Reach (mkExpr (.var e) s).2.st.defs (mkExpr (.var e) s).1 q) :
    q = (mkExpr (.var e) s).1 ∨ Reach (mkExpr (.var e) s).2.st.defs e q := by
  induction h with
  | refl => exact Or.inl rfl
  | @step q p i hq hi hp ih =>
      rcases ih with rfl | ih
      · right
        rw [mkExpr_var_items hne] at hi
        simp only [List.mem_singleton] at hi
        subst hi
        rw [stored_leaves] at hp
        simp only [Exp.leaves, List.mem_singleton] at hp
        subst hp
        exact .refl
      · exact Or.inr (ih.step hi hp)

/-- `S` is a set of objects, closed under definitions, that contains everything temporaries refer to
and everything below `y`, such that every flagged Expression of `S` is reached by a reset of `y`. -/
structure Calm (P : Prim K) (a : Sess K) (S : Set ℕ) (y : ℕ) : Prop where
  inv : SInv P ⟨a.s, a.H, S⟩
  below : ∀ q, Reach a.s.st.defs y q → q ∈ S
  flags : ∀ q ∈ S, a.s.st.defs.items q ≠ [] → q ≠ y → a.s.st.mem.visited q = true →
    ∃ b ∈ itemTargets a.s.tm (a.s.st.defs.items y),
      Touch a.s.st.defs a.s.tm (fun q => a.s.st.mem.visited q = true) b q

theorem Calm.safe {a : Sess K} {S : Set ℕ} {y : ℕ} (h : Calm P a S y) :
    SafeS a.s.st.defs a.s.tm (fun q => a.s.st.mem.visited q = true) y := fun q hq hne hi hv =>
  h.flags q (h.below q hq) hi hne hv

/-- `SymDiff` of `y`: the new Expression `d` is kept out of the set; no Expression of the set is
flagged. -/
theorem Calm.symDiff {a : Sess K} {S : Set ℕ} {y x : ℕ} (h : Calm P a S y) (hx : a.H x)
    (hok : ∀ q, Reach a.s.st.defs y q → ∀ i ∈ a.s.st.defs.items q, i.SymOk)
    (hi : a.s.st.defs.items y ≠ []) :
    ∃ d s' e S', CoolDiff.symDiff P rf y x a.s = some (d, s') ∧ SInv P ⟨s', a.H, S'⟩ ∧
      a.s.st.defs.size ≤ d ∧ d < s'.st.defs.size ∧ d ∉ S' ∧
      (∀ q, q ∈ S' → q ∈ S ∨ a.s.st.defs.size ≤ q) ∧ (∀ q ∈ S, q ∈ S') ∧
      (∀ q ∈ S', s'.st.defs.items q ≠ [] → s'.st.mem.visited q = false) ∧ e ∈ S' ∧
      Reach s'.st.defs d e ∧
      (∀ q, Reach s'.st.defs d q → q = d ∨ Reach s'.st.defs e q) ∧ s'.st.defs.items d ≠ [] ∧
      (∀ q < a.s.st.defs.size, s'.st.defs.items q = a.s.st.defs.items q) ∧
      (∀ q < a.s.st.defs.size, s'.st.defs.base q = a.s.st.defs.base q) ∧
      s'.st.defs.par = a.s.st.defs.par ∧ a.s.st.defs.size ≤ s'.st.defs.size ∧
      (e = 0 ∨ e = s'.one ∨ ∃ b ∈ itemTargets s'.tm (a.s.st.defs.items y), ∀ (D : Defs K) V,
        Touch D s'.tm V b e) := by
  obtain ⟨ord, hf⟩ := h.inv
  have hlt : ∀ q ∈ S, q < a.s.st.defs.size := hf.good.d.lt
  have hy : y < a.s.st.defs.size := hlt y (h.below y .refl)
  obtain ⟨e, g2, h1, h2, h3, h4, h5, h6, h7, h8⟩ := hf.symDeval (rf := rf) hy hx h.safe hok
  have h1 : CoolDiff.symDiff P rf y x a.s = some (mkExpr (.var e) g2.s) := h1
  have hsz : a.s.st.defs.size ≤ g2.s.st.defs.size := h3.size
  have hd : (mkExpr (.var e) g2.s).1 = g2.s.st.defs.size := rfl
  have hel : e < g2.s.st.defs.size := h2.good.d.lt e h4
  have hdn : (mkExpr (.var e) g2.s).1 ≠ e := by rw [hd]; omega
  have hss : (mkExpr (.var e) g2.s).2.st.defs.size = g2.s.st.defs.size + 1 := rfl
  -- the ghost session: `newExpr`, then `define`
  have hi0 : SInv P (⟨g2.s, a.H, g2.T⟩ : Sess K) := ⟨g2.ord, h2⟩
  have hi1 := (step_newExpr hi0).1
  have hdT : g2.s.st.defs.size ∉ g2.T := fun hh => by
    have : g2.s.st.defs.size < g2.s.st.defs.size := h2.good.d.lt _ hh
    omega
  have hit1 : ∀ q < g2.s.st.defs.size, (newExpr g2.s.st).2.defs.items q = g2.s.st.defs.items q := by
    intro q hq
    simp only [newExpr, Function.update_apply]
    rw [if_neg (by omega)]
  have hitd : (newExpr g2.s.st).2.defs.items g2.s.st.defs.size = [.leaf 0] := by simp [newExpr]
  have hre : ¬ Reach (newExpr g2.s.st).2.defs e g2.s.st.defs.size := by
    intro hr
    have : ∀ q, Reach (newExpr g2.s.st).2.defs e q → q ∈ g2.T := by
      intro q hq
      induction hq with
      | refl => exact h4
      | @step q p i _ hi hp ih =>
          rw [hit1 q (h2.good.d.lt q ih)] at hi
          exact h2.good.d.closed q ih i hi p hp
    exact hdT (this _ hr)
  have hi2 := (step_define hi1 (y := g2.s.st.defs.size) (e := .var e)
    (show g2.s.st.defs.size < g2.s.st.defs.size + 1 by omega) hdT
    (by show (newExpr g2.s.st).2.defs.items g2.s.st.defs.size ≠ []; rw [hitd]; simp)
    (by intro p hp; simp only [Exp.leaves, List.mem_singleton] at hp; subst hp
        show p < g2.s.st.defs.size + 1; omega)
    (by simp [Exp.pars])
    (by intro p hp; simp only [Exp.leaves, List.mem_singleton] at hp; subst hp; exact Or.inr hre)).1
  have hit2 : ∀ q < g2.s.st.defs.size, (mkExpr (.var e) g2.s).2.st.defs.items q = g2.s.st.defs.items q := by
    intro q hq
    show (define (newExpr g2.s.st).1 (.var e) (newExpr g2.s.st).2).defs.items q = _
    rw [define_items_ne (by show q ≠ g2.s.st.defs.size; omega), hit1 q hq]
  have hvis2 : ∀ q < g2.s.st.defs.size, (mkExpr (.var e) g2.s).2.st.mem.visited q = g2.s.st.mem.visited q := by
    intro q hq
    show Function.update g2.s.st.mem.visited g2.s.st.defs.size false q = _
    rw [Function.update_of_ne (by omega)]
  have hTg : ∀ q, q ∈ g2.T ↔ (q ∈ S ∨ Reach a.s.st.defs y q) ∨
      (a.s.st.defs.size ≤ q ∧ q < g2.s.st.defs.size) := h3.T
  have hbase2 : ∀ q < a.s.st.defs.size, (mkExpr (.var e) g2.s).2.st.defs.base q = a.s.st.defs.base q := by
    intro q hq
    show Function.update g2.s.st.defs.base g2.s.st.defs.size 0 q = _
    rw [Function.update_of_ne (by omega)]
    exact h3.base q hq
  refine ⟨(mkExpr (.var e) g2.s).1, (mkExpr (.var e) g2.s).2, e, g2.T, h1, hi2, hsz, by rw [hd, hss]; omega,
    hdT, fun q hq => ?_, fun q hq => (hTg q).2 (Or.inl (Or.inl hq)), fun q hq hqi => ?_, h4,
    Reach.of_leaf (i := stored (.var e) (newExpr g2.s.st).2.defs.next) (by rw [mkExpr_var_items hdn]; simp)
      (by rw [stored_leaves]; simp [Exp.leaves]), fun q hq => Reach.of_mkExpr hdn hq, ?_, fun q hq => ?_, hbase2, ?_, by rw [hss]; omega, ?_⟩
  · rcases (hTg q).1 hq with (hh | hh) | hh
    · exact Or.inl hh
    · exact Or.inl (h.below q hh)
    · exact Or.inr hh.1
  · have hql : q < g2.s.st.defs.size := h2.good.d.lt q hq
    rw [hit2 q hql] at hqi
    rw [hvis2 q hql]
    rcases Nat.lt_or_ge q a.s.st.defs.size with hq' | hq'
    · have hqS : q ∈ S := by
        rcases (hTg q).1 hq with (hh | hh) | hh
        · exact hh
        · exact h.below q hh
        · omega
      by_cases hqy : q = y
      · rw [hqy]; exact h5
      · have hqi' : a.s.st.defs.items q ≠ [] := by
          have := h3.items q hq'
          have this : g2.s.st.defs.items q = a.s.st.defs.items q := this
          rw [← this]; exact hqi
        cases hv : g2.s.st.mem.visited q with
        | false => rfl
        | true =>
            obtain ⟨b, hb, ht⟩ := h.flags q hqS hqi' hqy (h6 q hq' hv)
            have := h7 b hb q hq' ht
            have this : g2.s.st.mem.visited q = false := this
            rw [this] at hv
            simp at hv
    · exact h3.visNew q hq' hql
  · show (define (newExpr g2.s.st).1 (.var e) (newExpr g2.s.st).2).defs.items (newExpr g2.s.st).1 ≠ []
    rw [define_items]
    simp
  · rw [hit2 q (by omega)]
    exact h3.items q hq
  · exact h3.par
  · rcases h8 hi with hh | hh | ⟨b, hb, hh⟩
    · exact Or.inl hh
    · exact Or.inr (Or.inl hh)
    · exact Or.inr (Or.inr ⟨b, hb, hh⟩)

/-- `f = d;` and `PreComp(f)` for an Expression `f` that nothing refers to. -/
theorem Calm.ref {s' : SSt K} {H : ℕ → Prop} {S' T' : Set ℕ} {y d e f : ℕ}
    (hinv : SInv P (⟨s', H, S'⟩ : Sess K)) (hy : y ∈ S') (hd : d < s'.st.defs.size) (hdS : d ∉ S')
    (hf : f < s'.st.defs.size) (hfS : f ∉ S') (hfd : f ≠ d) (hfi : s'.st.defs.items f ≠ [])
    (hdi : s'.st.defs.items d ≠ []) (heS : e ∈ S')
    (hde : Reach s'.st.defs d e) (hrd : ∀ q, Reach s'.st.defs d q → q = d ∨ Reach s'.st.defs e q)
    (hun : ∀ q ∈ S', s'.st.defs.items q ≠ [] → s'.st.mem.visited q = false)
    (htg : e = 0 ∨ e = s'.one ∨ ∃ b ∈ itemTargets s'.tm (s'.st.defs.items y), ∀ (D : Defs K) V,
        Touch D s'.tm V b e) :
    ¬ Reach s'.st.defs d f ∧
    SafeS (assignRef f d s'.st).defs s'.tm (fun q => (assignRef f d s'.st).mem.visited q = true) f ∧
    ∃ m, PreCompS P f { s' with st := assignRef f d s'.st } =
        some { s' with st := ⟨(assignRef f d s'.st).defs, m⟩ } ∧
      Calm P (⟨{ s' with st := ⟨(assignRef f d s'.st).defs, m⟩ }, H, T'⟩ : Sess K) S' y := by
  have hcl : ∀ q ∈ S', ∀ i ∈ s'.st.defs.items q, ∀ p ∈ i.leaves, p ∈ S' := by
    obtain ⟨ord, hff⟩ := hinv
    exact hff.good.d.closed
  have hS : ∀ p q, p ∈ S' → Reach s'.st.defs p q → q ∈ S' := by
    intro p q hp hq
    induction hq with
    | refl => exact hp
    | step _ hi hl ih => exact hcl _ ih _ hi _ hl
  have hnr : ¬ Reach s'.st.defs d f := by
    intro hr
    rcases hrd f hr with hh | hh
    · exact hfd hh
    · exact hfS (hS e f heS hh)
  have hne : ∀ q, q ≠ f → (assignRef f d s'.st).defs.items q = s'.st.defs.items q := by
    intro q hq
    simp [assignRef, hq]
  have hitf : (assignRef f d s'.st).defs.items f = [.leaf d] := by
    have : (d == f) = false := by simpa using fun h => hfd h.symm
    simp [assignRef, this]
  have hSne : ∀ q ∈ S', q ≠ f := fun q hq h => hfS (h ▸ hq)
  -- what is below `f` now
  have hS2 : ∀ p q, p ∈ S' → Reach (assignRef f d s'.st).defs p q → q ∈ S' := by
    intro p q hp hq
    induction hq with
    | refl => exact hp
    | @step q p' i _ hi hl ih =>
        rw [hne q (hSne q ih)] at hi
        exact hcl _ ih _ hi _ hl
  have hd1 : ∀ i ∈ s'.st.defs.items d, ∀ p ∈ i.leaves, p = d ∨ Reach (assignRef f d s'.st).defs e p ∧ p ∈ S' := by
    intro i hi p hp
    rcases hrd p (Reach.of_leaf hi hp) with hh | hh
    · exact Or.inl hh
    · right
      refine ⟨?_, hS e p heS hh⟩
      clear hp
      induction hh with
      | refl => exact .refl
      | @step q p' i hq hi' hl ih =>
          exact ih.step (by rw [hne q (hSne q (hS e q heS hq))]; exact hi') hl
  have hrf : ∀ q, Reach (assignRef f d s'.st).defs f q → q = f ∨ q = d ∨
      (q ∈ S' ∧ Reach (assignRef f d s'.st).defs e q) := by
    intro q hq
    induction hq with
    | refl => exact Or.inl rfl
    | @step q p i hq hi hl ih =>
        rcases ih with rfl | rfl | ⟨h1, h2⟩
        · rw [hitf] at hi
          simp only [List.mem_singleton] at hi
          subst hi
          simp only [Node.leaves, List.mem_singleton] at hl
          exact Or.inr (Or.inl hl)
        · rw [hne q (Ne.symm hfd)] at hi
          rcases hd1 i hi p hl with hh | hh
          · exact Or.inr (Or.inl hh)
          · exact Or.inr (Or.inr ⟨hh.2, hh.1⟩)
        · exact Or.inr (Or.inr ⟨hS2 q p h1 (Reach.of_leaf hi hl), h2.step hi hl⟩)
  have hsafe : SafeS (assignRef f d s'.st).defs s'.tm
      (fun q => (assignRef f d s'.st).mem.visited q = true) f := by
    intro q hq hqf hqi hv
    rcases hrf q hq with hh | hh | ⟨h1, h2⟩
    · exact absurd hh hqf
    · subst hh
      exact ⟨q, mem_itemTargets.2 ⟨.leaf q, by rw [hitf]; simp, Or.inl (by simp [Node.leaves])⟩, .refl⟩
    · rw [hne q hqf] at hqi
      have hv : s'.st.mem.visited q = true := hv
      rw [hun q h1 hqi] at hv
      simp at hv
  have hinv2 := (step_defineRef hinv (y := f) (z := d) hf hfS hfi hd hdi hnr).1
  obtain ⟨ord, hff⟩ := hinv2
  obtain ⟨m, c1, c2, c3, c4⟩ := hff.preCompS (y := f) hf hsafe
  have c1 : PreCompS P f { s' with st := assignRef f d s'.st } =
        some { s' with st := ⟨(assignRef f d s'.st).defs, m⟩ } := c1
  have c3 : ∀ q, Reach (assignRef f d s'.st).defs f q → m.visited q = true := c3
  have c4 : ∀ q, ¬ Reach (assignRef f d s'.st).defs f q → m.visited q = true →
    s'.st.mem.visited q = true := fun q h1 h2 => (c4 q h1 h2).1
  refine ⟨hnr, hsafe, m, c1, ⟨ord, c2⟩, fun q hq => hS2 y q hy hq, fun q hq hqi hqy hv => ?_⟩
  have hqi : (assignRef f d s'.st).defs.items q ≠ [] := hqi
  have hv : m.visited q = true := hv
  by_cases hrq : Reach (assignRef f d s'.st).defs f q
  · have hreq : Reach (assignRef f d s'.st).defs e q := by
      rcases hrf q hrq with hh | hh | hh
      · exact absurd hh (hSne q hq)
      · exact absurd (hh ▸ hq) hdS
      · exact hh.2
    have hfe : Reach (assignRef f d s'.st).defs f e := by
      have h1 : Reach (assignRef f d s'.st).defs f d :=
        Reach.of_leaf (i := .leaf d) (by rw [hitf]; simp) (by simp [Node.leaves])
      refine h1.trans ?_
      have : ∀ z, Reach s'.st.defs d z → Reach (assignRef f d s'.st).defs d z := by
        intro z hz
        induction hz with
        | refl => exact .refl
        | @step z p i hz hi hl ih =>
            exact ih.step (by rw [hne z (fun h => hnr (h ▸ hz))]; exact hi) hl
      exact this e hde
    have hempty : ∀ z, (assignRef f d s'.st).defs.items z = [] →
        Reach (assignRef f d s'.st).defs z q → q = z := by
      intro z hz hr
      have : ∀ p, Reach (assignRef f d s'.st).defs z p → p = z := by
        intro p hp
        induction hp with
        | refl => rfl
        | @step p p' i _ hi _ ih =>
            subst ih
            rw [hz] at hi
            simp at hi
      exact this q hr
    have hzero : (assignRef f d s'.st).defs.items 0 = [] := hff.good.d.zero.2.1
    have hone : (assignRef f d s'.st).defs.items s'.one = [] := hff.good.d.one.2.1
    rcases htg with rfl | rfl | ⟨b, hb, ht⟩
    · exact absurd (hempty 0 hzero hreq ▸ hzero) hqi
    · exact absurd (hempty _ hone hreq ▸ hone) hqi
    · refine ⟨b, ?_, (ht _ _).trans ?_⟩
      · show b ∈ itemTargets s'.tm ((assignRef f d s'.st).defs.items y)
        rw [hne y (hSne y hy)]
        exact hb
      · show Touch (assignRef f d s'.st).defs s'.tm (fun q => m.visited q = true) e q
        have : ∀ z, Reach (assignRef f d s'.st).defs e z →
            Touch (assignRef f d s'.st).defs s'.tm (fun q => m.visited q = true) e z := by
          intro z hz
          induction hz with
          | refl => exact .refl
          | @step z p i hz hi hl ih =>
              exact ih.trans (.item (c3 z (hfe.trans hz)) (mem_itemTargets.2 ⟨i, hi, Or.inl hl⟩) .refl)
        exact this q hreq
  · rw [hne q (hSne q hq)] at hqi
    exact absurd (c4 q hrq hv) (by simp [hun q hq hqi])

end CoolDiff
