import Verif.Scalar.SymMain

/-!
# `symDeval` of objects
-/

set_option linter.unusedSectionVars false

namespace CoolDiff

variable {K : Type} [Field K] [DecidableEq K]
variable {P : Prim K} {H : ℕ → Prop} {B : Set ℕ} {n0 x : ℕ}
variable {rf : ℕ → Bool → List Bool → Bool}

/-- A step that touches no temporary of an object of order `w` or more, except those of `q`. -/
structure StepQ (q : ℕ) (w : ℚ) (g g' : GS K) : Prop where
  ext : DExt g g'
  frame : ∀ p < g.D.size, p ≠ q → w ≤ g.ord p →
    g'.tm.tmp p = g.tm.tmp p ∧ g'.tm.dtmp p = g.tm.dtmp p
  ordNew : ∀ p, g.D.size ≤ p → p < g'.D.size → g'.ord p < w

theorem Step.toQ {q : ℕ} {w : ℚ} {g g' : GS K} (h : Step w g g') : StepQ q w g g' :=
  ⟨h.ext, fun p hp _ hw => h.frame p hp hw, h.ordNew⟩

theorem StepQ.trans {q : ℕ} {r : ℚ} {g g' g'' : GS K} (h : StepQ q r g g') (h' : StepQ q r g' g'') :
    StepQ q r g g'' := by
  refine ⟨h.ext.trans h'.ext, fun q hq hn hr => ?_, fun q h1 h2 => ?_⟩
  · have h1 := h.frame q hq hn hr
    have h2 := h'.frame q (hq.trans_le h.ext.size) hn (by rw [h.ext.ord q hq]; exact hr)
    exact ⟨h2.1.trans h1.1, h2.2.trans h1.2⟩
  · rcases Nat.lt_or_ge q g'.D.size with e | e
    · rw [h'.ext.ord q e]; exact h.ordNew q h1 e
    · exact h'.ordNew q e h2

/-- The loop of `symDeval` over the right-hand sides. -/
theorem symItems_spec {k f q : ℕ} {L : List (Node K)} {b : K} {w : ℚ}
    {recD : ℕ → SSt K → Option (ℕ × SSt K)}
    (hrec : ∀ pre i post, L = pre ++ i :: post → ∀ g, Ctx P H B n0 x k f q L pre pre b w g →
      ∀ p ∈ i.leaves, ∃ e g',
      recD p g.s = some (e, GS.s g') ∧ Ctx P H B n0 x k f q L pre pre b w g' ∧ Step w g g' ∧
      e ∈ g'.T ∧ g'.ord e < w ∧ ∀ π ρ δ, SolT P H g'.D g'.T π ρ → TanT P x g'.D g'.T π ρ δ →
        ρ e = denv P π ρ δ q b pre p ∧ Ob P g'.D π ρ q e) (post : List (Node K)) :
    ∀ pre, L = pre ++ post → ∀ g, Ctx P H B n0 x k f q L pre pre b w g →
      ∃ g' : GS K, symItems P rf k recD q post g.s = some g'.s ∧
        Ctx P H B n0 x k f q L L L b w g' ∧ StepQ q w g g' := by
  induction post with
  | nil =>
      intro pre hL g h
      rw [List.append_nil] at hL
      subst hL
      exact ⟨g, rfl, h, (Step.refl w g).toQ⟩
  | cons i post ih =>
      intro pre hL g h
      have hi : i ∈ g.D.items q := by rw [h.items, hL]; simp
      have hok := h.be.ok q h.mem i hi
      obtain ⟨e, g1, a1, a2, a3, a4, a5, a6⟩ :=
        symDevalN_spec (rf := rf) hL (hrec pre i post hL) i g h (Node.self_subs i) hok
      have hne : g1.D.items q ≠ [] := by rw [a2.items, hL]; simp
      obtain ⟨g2, b1, b2, b3, b4, b5, b6, b7, b8, b9⟩ := a2.good.setDTmp a2.memT a4
        (by rw [a2.ordq]; exact a5) (fun hh => absurd hh hne)
      have hst : g2.s.st = g1.s.st := by rw [b1]; rfl
      have hvis : g2.vis = g1.vis := by rw [GS.vis, hst]
      have q2 : StepQ q w g1 g2 := ⟨b3, fun p _ hp _ => ⟨by rw [b7], b9 p hp⟩,
        fun p h1 h2 => by rw [b6] at h2; omega⟩
      have c2 : Ctx P H B n0 x k f q L pre (pre ++ [i]) b w g2 := by
        refine ⟨b2, a2.be.step a2.good.d b3, a2.mem, by rw [b6]; exact a2.items,
          by rw [b6]; exact a2.base, by rw [b5]; exact a2.ordq, by rw [hvis]; exact a2.vis,
          fun p hp => by rw [b6, b5, hvis]; exact a2.clean p hp, by rw [hst]; exact a2.fuel,
          fun hpre => ?_, fun _ => ⟨e, b8, ?_⟩⟩
        · obtain ⟨v, v1, v2⟩ := a2.self hpre
          exact ⟨v, by rw [b7]; exact v1, by rw [b6, b4]; exact v2⟩
        · rw [b6, b4]
          intro π ρ δ hs hd
          rw [seqDer_append]
          exact a6 π ρ δ hs hd
      obtain ⟨v, g3, d1, d2, d3, d4, d5⟩ :=
        symEvalN_spec (rf := rf) hL i g2 c2 (Node.self_subs i) hok
      obtain ⟨g4, e1, e2, e3, e4, e5, e6, e7, e8, e9⟩ := d2.good.setTmp d2.memT
        (by rw [d2.ordq]; exact d4) (by rw [d2.ordq])
      have hst4 : g4.s.st = g3.s.st := by rw [e1]; rfl
      have hvis4 : g4.vis = g3.vis := by rw [GS.vis, hst4]
      have q4 : StepQ q w g3 g4 := ⟨e3, fun p _ hp _ => ⟨e8 p hp, by rw [e9]⟩,
        fun p h1 h2 => by rw [e6] at h2; omega⟩
      have c4 : Ctx P H B n0 x k f q L (pre ++ [i]) (pre ++ [i]) b w g4 := by
        refine ⟨e2, d2.be.step d2.good.d e3, d2.mem, by rw [e6]; exact d2.items,
          by rw [e6]; exact d2.base, by rw [e5]; exact d2.ordq, by rw [hvis4]; exact d2.vis,
          fun p hp => by rw [e6, e5, hvis4]; exact d2.clean p hp, by rw [hst4]; exact d2.fuel,
          fun _ => ⟨v, e7, ?_⟩, fun hpre => ?_⟩
        · rw [e6, e4]
          intro π ρ hs
          rw [seqVal_append]
          exact d5 π ρ hs
        · obtain ⟨e, v1, v2⟩ := d2.selfD hpre
          exact ⟨e, by rw [e9]; exact v1, by rw [e6, e4]; exact v2⟩
      obtain ⟨g5, f1, f2, f3⟩ := ih (pre ++ [i]) (by rw [hL]; simp) g4 c4
      refine ⟨g5, ?_, f2, (a3.toQ.trans q2).trans ((d3.toQ.trans q4).trans f3)⟩
      rw [b1] at d1
      rw [e1] at f1
      simp only [symItems, a1, Option.bind_some, d1, f1]

/-- Making sure that there is a derivative temporary. -/
theorem ensureD_spec {g : GS K} {r : ℚ} (h : Good P H g r) {q : ℕ} (hq : q ∈ g.T) (hr : g.ord q < r) :
    ∃ g' : GS K, g'.s = ensureD q g.s ∧ Good P H g' r ∧ Step r g g' ∧
      (∃ e, g'.tm.dtmp q = some e) ∧
      StepQ q (g.ord q) g g' ∧ g'.tm.tmp = g.tm.tmp := by
  unfold ensureD
  cases hd : g.s.tm.dtmp q with
  | some e =>
      exact ⟨g, rfl, h, Step.refl r g, ⟨e, hd⟩, (Step.refl _ g).toQ, rfl⟩
  | none =>
      obtain ⟨g1, a1, a2, a3, a4, a5, a6, a7, a8⟩ := h.newConst (0 : K)
      have hql := h.d.lt q hq
      obtain ⟨g2, b1, b2, b3, b4, b5, b6, b7, b8, b9⟩ := a2.setDTmp (a3.mem hq) a4 (a5 q hql)
        (fun _ => ⟨a6, a7, a8⟩)
      have htm : g1.tm = g.tm := by rw [GS.tm, a1]
      have hsz : g1.D.size = g.D.size + 1 := by rw [GS.D, a1]; rfl
      have ho : ∀ p, g.D.size ≤ p → p < g2.D.size → g2.ord p < g.ord q := fun p h1 h2 => by
        rw [b6, hsz] at h2
        have : p = (newVar (0 : K) g.s.st).1 := by
          show p = g.D.size
          omega
        subst this
        rw [b5, ← a3.ord q hql]
        exact a5 q hql
      have ext : DExt g g2 := a3.trans b3
      refine ⟨g2, by rw [b1, a1], b2, ⟨ext, fun p hp hw => ?_, fun p h1 h2 => (ho p h1 h2).trans hr⟩,
        ⟨_, b8⟩, ⟨ext, fun p hp hpq _ => ?_, ho⟩, by rw [b7, htm]⟩
      · have : p ≠ q := by rintro rfl; exact absurd hr (not_lt.2 hw)
        rw [b7, b9 p this, htm]; exact ⟨rfl, rfl⟩
      · rw [b7, b9 p hpq, htm]; exact ⟨rfl, rfl⟩

/-- The full invariant comes back when the object under construction is finished. -/
theorem Good.restore {g g' : GS K} {r : ℚ} {q : ℕ} (h : Good P H g r) (hs : StepQ q (g.ord q) g g')
    (h' : Good P H g' (g.ord q))
    (hq : ∀ v, g'.tm.tmp q = some v → ∀ π ρ, SolT P H g'.D g'.T π ρ →
      v.val π ρ = ρ q ∧ v.Ob P g'.D π ρ q) :
    Good P H g' r := by
  refine ⟨h'.d, ⟨h'.t.tmp, fun p v hv hp π ρ hsol => ?_, h'.t.dtmp, h'.t.dtmpVal, h'.t.otmpAt,
    h'.t.odtmpAt, h'.t.otmp, h'.t.odtmp⟩, h'.plain⟩
  by_cases e : p = q
  · subst e; exact hq v hv π ρ hsol
  · rcases lt_or_ge (g'.ord p) (g.ord q) with hlt | hge
    · exact h'.t.tmpVal p v hv hlt π ρ hsol
    · rcases Nat.lt_or_ge p g.D.size with hp' | hp'
      · rw [hs.ext.ord p hp'] at hge hp
        rw [(hs.frame p hp' e hge).1] at hv
        obtain ⟨x1, x2⟩ := h.t.tmpVal p v hv hp π ρ (hs.ext.solT h.d.lt hsol)
        obtain ⟨y1, y2⟩ := h.t.tmp p v hv
        exact ⟨x1, (hs.ext.refOb h.d y1 y2).2 x2⟩
      · have hpT := (h'.t.tmp p v hv).1
        exact absurd (hs.ordNew p hp' (h'.d.lt p hpT)) (not_lt.2 hge)

theorem SSt.setVis_undo {s : SSt K} {o : ℕ} (h : s.st.mem.visited o = false) :
    (s.setVis o true).setVis o false = s := by
  obtain ⟨⟨D, m⟩, tm, one⟩ := s
  obtain ⟨a, b, c, d⟩ := m
  simp only [SSt.setVis, Mem.setVisited]
  congr
  funext q
  by_cases e : q = o
  · subst e; simp [Function.update_self]; exact h
  · simp [Function.update_of_ne e]

theorem StepQ.setVis {g g' : GS K} {q : ℕ} {w : ℚ} (h : StepQ q w (g.setVis q true) g')
    (hv : g.vis q = false) (hq : q < g.D.size) : StepQ q w g (g'.setVis q false) := by
  refine ⟨⟨h.ext.size, h.ext.items, h.ext.base, h.ext.nidx, h.ext.par, h.ext.psize, h.ext.next, h.ext.T,
    h.ext.ord, h.ext.newops, h.ext.one, fun p hp => ?_, fun p h1 h2 => ?_⟩, h.frame, h.ordNew⟩
  · by_cases e : p = q
    · subst e
      rw [hv]
      exact Function.update_self _ _ _
    · have h1 : (g'.setVis q false).vis p = g'.vis p := Function.update_of_ne e _ _
      have h2 : (g.setVis q true).vis p = g.vis p := Function.update_of_ne e _ _
      rw [h1, ← h2]
      exact h.ext.vis p hp
  · have e : p ≠ q := Nat.ne_of_gt (hq.trans_le h1)
    have h3 : (g'.setVis q false).vis p = g'.vis p := Function.update_of_ne e _ _
    rw [h3]
    exact h.ext.visNew p h1 h2

theorem StepQ.toStep {g g' : GS K} {q : ℕ} {w r : ℚ} (h : StepQ q w g g') (hw : w ≤ r)
    (hq : g.ord q < r) : Step r g g' :=
  ⟨h.ext, fun p hp hr => h.frame p hp (by rintro rfl; exact absurd hq (not_lt.2 hr)) (hw.trans hr),
    fun p h1 h2 => (h.ordNew p h1 h2).trans_le hw⟩

theorem BEnv.nidx {k : ℕ} {g : GS K} (h : BEnv H B n0 x k g) (hd : DInv H g) {q : ℕ}
    (hq : q < g.D.size) : g.D.nidx q = k ↔ q = x := by
  refine ⟨fun e => hd.wf.inj q hq x (hd.user x h.hx).1 (e.trans h.hk.symm), ?_⟩
  rintro rfl
  exact h.hk

/-- `symDeval` of an object builds its derivative. -/
theorem symDevalO_spec {k : ℕ} : ∀ (f : ℕ) (g : GS K) (p : ℕ) (r : ℚ), Good P H g r →
    BEnv H B n0 x k g → p ∈ B → g.ord p < r → g.ord g.s.one < r →
    (∀ q ∈ B, g.D.items q ≠ [] → g.ord q < r → g.vis q = false) → unv n0 g.s.st.mem < f →
    ∃ e g', symDevalO P rf k f p g.s = some (e, GS.s g') ∧ Good P H g' r ∧ Step r g g' ∧ e ∈ g'.T ∧
      g'.ord e < r ∧
      ∀ π ρ δ, SolT P H g'.D g'.T π ρ → TanT P x g'.D g'.T π ρ δ →
        ρ e = δ p ∧ Ob P g'.D π ρ p e := by
  intro f
  induction f with
  | zero => intro g p r _ _ _ _ _ _ h; omega
  | succ f ih =>
      intro g p r hg hb hp hpr h1r hcl hf
      have hpT := (hb.BT p hp).1
      have hpl := hg.d.lt p hpT
      obtain ⟨g1, a1, a2, a3, ⟨e, a4⟩, a5, a6⟩ := ensureD_spec hg hpT hpr
      have hb1 := hb.step hg.d a3.ext
      have hpT1 := a3.ext.mem hpT
      have hpl1 := a2.d.lt p hpT1
      have ho1 : g1.ord p = g.ord p := a3.ext.ord p hpl
      have hv1 : g1.vis p = g.vis p := a3.ext.vis p hpl
      have hi1 : g1.D.items p = g.D.items p := a3.ext.items p hpl
      by_cases hi : g.D.items p = []
      · -- a Variable: nothing to run
        have hcore : (if (ensureD p g.s).st.mem.visited p = false then
            (symItems P rf k (symDevalO P rf k f) p ((ensureD p g.s).st.defs.items p)
              ((ensureD p g.s).setVis p true)).map fun s => s.setVis p false
            else some (ensureD p g.s)) = some g1.s := by
          rw [← a1]
          have : g1.s.st.defs.items p = [] := hi1.trans hi
          rw [this]
          split
          · rename_i hh
            simp only [symItems, Option.map_some]
            rw [SSt.setVis_undo hh]
          · rfl
        by_cases hx : p = x
        · have hk : g1.s.st.defs.nidx p = k := (hb1.nidx a2.d hpl1).2 hx
          refine ⟨g1.s.one, g1, ?_, a2, a3, a2.d.one.2.2.2.2, ?_, fun π ρ δ hs hd => ?_⟩
          · rw [symDevalO, hcore, Option.bind_some, if_pos hk]
          · rw [a3.ext.one, a3.ext.ord _ hg.d.one.1]; exact h1r
          · obtain ⟨o1, o2, o3, o4, o5⟩ := a2.d.one
            refine ⟨?_, Ob.empty o2⟩
            rw [hs _ o5 o4, o2, o3, hd p hpT1, if_pos hx]; rfl
        · have hk : g1.s.st.defs.nidx p ≠ k := fun h => hx ((hb1.nidx a2.d hpl1).1 h)
          obtain ⟨d1, d2, d3⟩ := a2.t.dtmp p e a4
          obtain ⟨c1, c2, c3⟩ := a2.t.dtmpVal p e a4 (hi1.trans hi)
          refine ⟨e, g1, ?_, a2, a3, d2, ?_, fun π ρ δ hs hd => ?_⟩
          · have a4 : g1.s.tm.dtmp p = some e := a4
            rw [symDevalO, hcore, Option.bind_some, if_neg hk, a4, Option.map_some]
          · rw [ho1] at d3; exact d3.trans hpr
          · refine ⟨?_, Ob.empty c1⟩
            rw [hs e d2 c2, c1, c3, hd p hpT1, if_neg hx, hi1, hi]; rfl
      · -- an Expression: run the loop
        have hvf : g.vis p = false := hcl p hp hi hpr
        have hv1f : g1.vis p = false := hv1.trans hvf
        have hxp : p ≠ x := by
          rintro rfl
          exact hi (hg.d.user p hb.hx).2
        have c2 : Ctx P H B n0 x k f p (g.D.items p) [] [] (g.D.base p) (g.ord p) (g1.setVis p true) := by
          refine ⟨(a2.setVis p true).weaken hpr.le, ⟨hb1.le, hb1.BT, hb1.Bc, hb1.ok, hb1.hx, hb1.hk⟩, hp,
            hi1, a3.ext.base p hpl, ho1, Function.update_self _ _ _, fun q hq hqi hqo => ?_, ?_,
            fun h => absurd rfl h, fun h => absurd rfl h⟩
          · have hql := hg.d.lt q (hb.BT q hq).1
            have hqi : g1.D.items q ≠ [] := hqi
            have hqo : g1.ord q < g.ord p := hqo
            rw [a3.ext.items q hql] at hqi
            rw [a3.ext.ord q hql] at hqo
            have : q ≠ p := by rintro rfl; exact lt_irrefl _ hqo
            have e1 : (g1.setVis p true).vis q = g1.vis q := Function.update_of_ne this _ _
            rw [e1, a3.ext.vis q hql]
            exact hcl q hq hqi (hqo.trans hpr)
          · have e1 := unv_congr (N := n0) (m := g.s.st.mem) (m' := g1.s.st.mem)
              (fun q hq => a3.ext.vis q (hq.trans_le hb.le))
            have e2 : unv n0 (g1.setVis p true).s.st.mem < unv n0 g1.s.st.mem := by
              refine unv_lt (hb.BT p hp).2 hv1f (Function.update_self _ _ _) fun q hq => ?_
              show Function.update g1.s.st.mem.visited p true q = true
              by_cases e : q = p
              · subst e; exact Function.update_self _ _ _
              · rw [Function.update_of_ne e]; exact hq
            omega
        obtain ⟨g3, b1, b2, b3⟩ := symItems_spec (rf := rf) (recD := symDevalO P rf k f) (by
          intro pre i post hL g' hc p' hp'
          have hi' : i ∈ g'.D.items p := by rw [hc.items, hL]; simp
          by_cases e : p' = p
          · subst e
            obtain ⟨e, e1, e2⟩ := hc.selfD (hc.notSelf hL hp')
            obtain ⟨-, d2, d3⟩ := hc.good.t.dtmp p' e e1
            have hk : g'.s.st.defs.nidx p' ≠ k :=
              fun h => hxp ((hc.be.nidx hc.good.d (hc.good.d.lt p' hc.memT)).1 h)
            have e1 : g'.s.tm.dtmp p' = some e := e1
            have hv : g'.s.st.mem.visited p' = true := hc.vis
            have hen : ensureD p' g'.s = g'.s := by simp only [ensureD, e1]
            refine ⟨e, g', ?_, hc, Step.refl _ g', d2, by rw [hc.ordq] at d3; exact d3,
              fun π ρ δ hs hd => ?_⟩
            · have hf0 := hc.fuel
              obtain ⟨f, rfl⟩ : ∃ f', f = f' + 1 := ⟨f - 1, by omega⟩
              rw [symDevalO, hen, hv, if_neg (by simp), Option.bind_some, if_neg hk, e1, Option.map_some]
            · obtain ⟨x1, x2⟩ := e2 π ρ δ hs hd
              rw [x1]
              exact ⟨by simp [denv], x2⟩
          · have hlt : g'.ord p' < g.ord p := by
              rcases hc.good.d.edge p (hc.good.d.lt p hc.memT) i hi' p' hp' with h | h
              · exact absurd h e
              · rw [hc.ordq] at h; exact h
            obtain ⟨e', g'', s1, s2, s3, s4, s5, s6⟩ := ih g' p' (g.ord p) hc.good hc.be
              (hc.be.Bc p hp i hi' p' hp') hlt (hc.lows hL).2 hc.clean hc.fuel
            refine ⟨e', g'', s1, hc.step s3 s2, s3, s4, s5, fun π ρ δ hs hd => ?_⟩
            obtain ⟨x1, x2⟩ := s6 π ρ δ hs hd
            rw [x1]
            refine ⟨by simp [denv, e], x2.below (Reach.of_leaf ?_ hp')⟩
            rw [s3.ext.items p (hc.good.d.lt p hc.memT)]
            exact hi') (g.D.items p) [] rfl _ c2
        have q4 : StepQ p (g1.ord p) g1 (g3.setVis p false) := by
          rw [ho1]; exact b3.setVis hv1f hpl1
        have hsol4 : ∀ v, (g3.setVis p false).tm.tmp p = some v → ∀ π ρ,
            SolT P H (g3.setVis p false).D (g3.setVis p false).T π ρ →
              v.val π ρ = ρ p ∧ v.Ob P (g3.setVis p false).D π ρ p := by
          intro v hv π ρ hs
          obtain ⟨v', v1, v2⟩ := b2.self hi
          have hv : g3.tm.tmp p = some v := hv
          rw [v1, Option.some.injEq] at hv
          subst hv
          have hs : SolT P H g3.D g3.T π ρ := hs
          have hnH : ¬ H p := fun hH => hi (hg.d.user p hH).2
          obtain ⟨x1, x2⟩ := v2 π ρ hs
          refine ⟨?_, x2⟩
          rw [x1, hs p b2.memT hnH, b2.items, b2.base]
        have g4 : Good P H (g3.setVis p false) r :=
          a2.restore q4 (by rw [ho1]; exact b2.good.setVis p false) hsol4
        obtain ⟨e', v1, v2⟩ := b2.selfD hi
        obtain ⟨-, d2, d3⟩ := b2.good.t.dtmp p e' v1
        have hk : g3.s.st.defs.nidx p ≠ k :=
          fun h => hxp ((b2.be.nidx b2.good.d (b2.good.d.lt p b2.memT)).1 h)
        refine ⟨e', g3.setVis p false, ?_, g4, a3.trans (q4.toStep (by rw [ho1]; exact hpr.le)
          (by rw [ho1]; exact hpr)), d2, (d3.trans_le (by rw [b2.ordq])).trans hpr, fun π ρ δ hs hd => ?_⟩
        · have hv1f' : (ensureD p g.s).st.mem.visited p = false := by rw [← a1]; exact hv1f
          have b1 : symItems P rf k (symDevalO P rf k f) p ((ensureD p g.s).st.defs.items p)
              ((ensureD p g.s).setVis p true) = some g3.s := by
            rw [← a1, show g1.s.st.defs.items p = g.D.items p from hi1]; exact b1
          have v1 : g3.s.tm.dtmp p = some e' := v1
          rw [symDevalO, if_pos hv1f', b1, Option.map_some, Option.bind_some]
          show (if g3.s.st.defs.nidx p = k then _ else Option.map _ (g3.s.tm.dtmp p)) = _
          rw [if_neg hk, v1]
          rfl
        · have hs : SolT P H g3.D g3.T π ρ := hs
          have hd : TanT P x g3.D g3.T π ρ δ := hd
          obtain ⟨x1, x2⟩ := v2 π ρ δ hs hd
          refine ⟨?_, x2⟩
          rw [x1, hd p b2.memT, if_neg hxp, b2.items, b2.base]

end CoolDiff
