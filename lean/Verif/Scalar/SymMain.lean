import Verif.Scalar.SymSteps

/-!
# `symEval` and `symDeval` build the value and the derivative
-/

set_option linter.unusedSectionVars false

namespace CoolDiff

variable {K : Type} [Field K] [DecidableEq K]
variable (P : Prim K) (H : ℕ → Prop) (B : Set ℕ) (n0 x : ℕ)
variable (rf : ℕ → Bool → List Bool → Bool)

/-- The objects `B` that one differentiation goes through. -/
structure BEnv (k : ℕ) (g : GS K) : Prop where
  le : n0 ≤ g.D.size
  BT : ∀ p ∈ B, p ∈ g.T ∧ p < n0
  Bc : ∀ p ∈ B, ∀ i ∈ g.D.items p, ∀ o ∈ i.leaves, o ∈ B
  ok : ∀ p ∈ B, ∀ i ∈ g.D.items p, i.SymOk
  hx : H x
  hk : g.D.nidx x = k

/-- The situation inside `symDeval` of object `q`: the value temporary of `q` reflects the
right-hand sides `pre`, the derivative temporary the right-hand sides `dp`. -/
structure Ctx (k f q : ℕ) (L pre dp : List (Node K)) (b : K) (w : ℚ) (g : GS K) : Prop where
  good : Good P H g w
  be : BEnv H B n0 x k g
  mem : q ∈ B
  items : g.D.items q = L
  base : g.D.base q = b
  ordq : g.ord q = w
  vis : g.vis q = true
  clean : ∀ p ∈ B, g.D.items p ≠ [] → g.ord p < w → g.vis p = false
  fuel : unv n0 g.s.st.mem < f
  self : pre ≠ [] → ∃ v, g.tm.tmp q = some v ∧
    ∀ π ρ, SolT P H g.D g.T π ρ → v.val π ρ = seqVal P π ρ q pre b ∧ v.Ob P g.D π ρ q
  selfD : dp ≠ [] → ∃ e, g.tm.dtmp q = some e ∧
    ∀ π ρ δ, SolT P H g.D g.T π ρ → TanT P x g.D g.T π ρ δ →
      ρ e = seqDer P π ρ δ q dp b 0 ∧ Ob P g.D π ρ q e

variable {P H B n0 x rf}

theorem unv_congr {N : ℕ} {m m' : Mem K} (h : ∀ q < N, m'.visited q = m.visited q) :
    unv N m' = unv N m := by
  unfold unv
  congr 1
  apply Finset.filter_congr
  intro q hq
  rw [h q (Finset.mem_range.1 hq)]

theorem BEnv.step {k : ℕ} {g g' : GS K} (h : BEnv H B n0 x k g) (hd : DInv H g) (hs : DExt g g') :
    BEnv H B n0 x k g' := by
  have hB : ∀ p ∈ B, p < g.D.size := fun p hp => (h.BT p hp).2.trans_le h.le
  refine ⟨h.le.trans hs.size,
    fun p hp => ⟨hs.mem (h.BT p hp).1, (h.BT p hp).2⟩, fun p hp i hi => ?_, fun p hp i hi => ?_, h.hx,
    ?_⟩
  · rw [hs.items p (hB p hp)] at hi; exact h.Bc p hp i hi
  · rw [hs.items p (hB p hp)] at hi; exact h.ok p hp i hi
  · rw [hs.nidx x (hd.user x h.hx).1]; exact h.hk

theorem Ctx.memT {k f q : ℕ} {L pre dp : List (Node K)} {b : K} {w : ℚ} {g : GS K}
    (h : Ctx P H B n0 x k f q L pre dp b w g) : q ∈ g.T := (h.be.BT q h.mem).1

theorem Ctx.step {k f q : ℕ} {L pre dp : List (Node K)} {b : K} {w : ℚ} {g g' : GS K}
    (h : Ctx P H B n0 x k f q L pre dp b w g) (hs : Step w g g') (hg : Good P H g' w) :
    Ctx P H B n0 x k f q L pre dp b w g' := by
  have hlt := h.good.d.lt
  have hq := hlt q h.memT
  have hB : ∀ p ∈ B, p < g.D.size := fun p hp => hlt p (h.be.BT p hp).1
  have hf := hs.frame q hq (by rw [h.ordq])
  refine ⟨hg, h.be.step h.good.d hs.ext, h.mem, ?_, ?_, ?_, ?_, fun p hp hi ho => ?_,
    ?_, fun hpre => ?_, fun hpre => ?_⟩
  · rw [hs.ext.items q hq]; exact h.items
  · rw [hs.ext.base q hq]; exact h.base
  · rw [hs.ext.ord q hq]; exact h.ordq
  · rw [hs.ext.vis q hq]; exact h.vis
  · rw [hs.ext.items p (hB p hp)] at hi
    rw [hs.ext.ord p (hB p hp)] at ho
    rw [hs.ext.vis p (hB p hp)]
    exact h.clean p hp hi ho
  · have := unv_congr (N := n0) (m := g.s.st.mem) (m' := g'.s.st.mem)
      (fun q hq => hs.ext.vis q (hq.trans_le h.be.le))
    rw [this]; exact h.fuel
  · obtain ⟨v, h1, h2⟩ := h.self hpre
    refine ⟨v, hf.1.trans h1, fun π ρ hs' => ?_⟩
    obtain ⟨e1, e2⟩ := h2 π ρ (hs.ext.solT hlt hs')
    exact ⟨e1, (hs.ext.refOb h.good.d h.memT (h.good.t.tmp q v h1).2).2 e2⟩
  · obtain ⟨e, h3, h4⟩ := h.selfD hpre
    refine ⟨e, hf.2.trans h3, fun π ρ δ hs' ht => ?_⟩
    obtain ⟨e1, e2⟩ := h4 π ρ δ (hs.ext.solT hlt hs') (hs.ext.tanT hlt ht)
    exact ⟨e1, (hs.ext.ob h.good.d h.memT (h.good.t.dtmp q e h3).2.1).2 e2⟩

/-- Building a formula from correct operand calls gives the value of the formula. -/
theorem inst_spec {Q : GS K → Prop} {w : ℚ} {q : ℕ} {A : GS K → (ℕ → K) → (ℕ → K) → (ℕ → K) → Prop}
    {hv : Hole → (ℕ → K) → (ℕ → K) → (ℕ → K) → K} (hT : ∀ g, Q g → DInv H g ∧ q ∈ g.T)
    (hA : ∀ g g', Q g → Step w g g' → ∀ π ρ δ, A g' π ρ δ → A g π ρ δ)
    (rf : List Bool → Bool) (call : Hole → SSt K → Option (Ref × SSt K)) (t : Tm K) :
    (∀ h ∈ t.holes, ∀ g, Q g → ∃ v g', call h g.s = some (v, GS.s g') ∧ Q g' ∧ Step w g g' ∧
      v.Ok g' w ∧ ∀ π ρ δ, A g' π ρ δ → v.val π ρ = hv h π ρ δ ∧ v.Ob P g'.D π ρ q) →
    ∀ path g, Q g → ∃ e g', inst rf call path t g.s = some (e, GS.s g') ∧ Q g' ∧ Step w g g' ∧
      (∀ p ∈ e.leaves, p ∈ g'.T ∧ g'.ord p < w) ∧ (∀ p ∈ e.pars, p < g'.D.psize) ∧
      ∀ π ρ δ, A g' π ρ δ → e.val P π ρ = t.val P (fun h => hv h π ρ δ) ∧
        (∀ p ∈ e.leaves, Ob P g'.D π ρ q p) ∧
        ∀ C : OpClass K, t.All C P (fun h => hv h π ρ δ) → ∀ n, (e.build n).1.All C P π ρ := by
  induction t with
  | hole h =>
      intro hc path g hg
      obtain ⟨v, g', h1, h2, h3, h4, h5⟩ := hc h (by simp [Tm.holes]) g hg
      refine ⟨v.toExp, g', by simp [inst, h1], h2, h3, ?_, ?_, fun π ρ δ ha => ?_⟩
      · cases v with
        | obj o => intro p hp; simp [Ref.toExp, Exp.leaves] at hp; subst hp; exact h4
        | par p => intro p hp; simp [Ref.toExp, Exp.leaves] at hp
      · cases v with
        | obj o => intro p hp; simp [Ref.toExp, Exp.pars] at hp
        | par p => intro p hp; simp [Ref.toExp, Exp.pars] at hp; subst hp; exact h4
      · obtain ⟨e1, e2⟩ := h5 π ρ δ ha
        cases v with
        | obj o =>
            refine ⟨e1, fun p hp => ?_, fun C _ n => trivial⟩
            simp [Ref.toExp, Exp.leaves] at hp
            subst hp; exact e2
        | par p =>
            refine ⟨e1, fun p hp => ?_, fun C _ n => trivial⟩
            simp [Ref.toExp, Exp.leaves] at hp
  | un u a ih =>
      intro hc path g hg
      obtain ⟨e, g', h1, h2, h3, h4, h5, h6⟩ := ih hc path g hg
      refine ⟨u.app e, g', by simp [inst, h1], h2, h3, by rw [u.app_leaves]; exact h4,
        by rw [u.app_pars]; exact h5, fun π ρ δ ha => ?_⟩
      obtain ⟨e1, e2, e3⟩ := h6 π ρ δ ha
      refine ⟨by rw [u.app_val, e1]; rfl, by rw [u.app_leaves]; exact e2, fun C hC n => ?_⟩
      exact u.build_all (e3 C hC.1) (by rw [e1]; exact hC.2) n
  | bin u a b iha ihb =>
      intro hc path g hg
      have hca := iha fun h hh => hc h (by simp [Tm.holes, hh])
      have hcb := ihb fun h hh => hc h (by simp [Tm.holes, hh])
      by_cases hr : rf path = true
      · obtain ⟨eb, g1, b1, b2, b3, b4, b5, b6⟩ := hcb (true :: path) g hg
        obtain ⟨ea, g2, a1, a2, a3, a4, a5, a6⟩ := hca (false :: path) g1 b2
        refine ⟨u.app ea eb, g2, by simp [inst, hr, b1, a1], a2, b3.trans a3, ?_, ?_,
          fun π ρ δ ha => ?_⟩
        · rw [u.app_leaves]
          intro p hp
          rcases List.mem_append.1 hp with hp | hp
          · exact a4 p hp
          · have := b4 p hp
            exact ⟨a3.ext.mem this.1, by rw [a3.ext.ord p ((hT g1 b2).1.lt p this.1)]; exact this.2⟩
        · rw [u.app_pars]
          intro p hp
          rcases List.mem_append.1 hp with hp | hp
          · exact a5 p hp
          · rw [a3.ext.psize]; exact b5 p hp
        · obtain ⟨x1, x2, x3⟩ := a6 π ρ δ ha
          obtain ⟨y1, y2, y3⟩ := b6 π ρ δ (hA _ _ b2 a3 π ρ δ ha)
          refine ⟨by rw [u.app_val, x1, y1]; rfl, ?_, fun C hC n => ?_⟩
          · rw [u.app_leaves]
            intro p hp
            rcases List.mem_append.1 hp with hp | hp
            · exact x2 p hp
            · exact (a3.ext.ob (hT g1 b2).1 (hT g1 b2).2 (b4 p hp).1).2 (y2 p hp)
          · exact u.build_all (x3 C hC.1) (y3 C hC.2.1) (by rw [x1, y1]; exact hC.2.2) n
      · obtain ⟨ea, g1, a1, a2, a3, a4, a5, a6⟩ := hca (false :: path) g hg
        obtain ⟨eb, g2, b1, b2, b3, b4, b5, b6⟩ := hcb (true :: path) g1 a2
        refine ⟨u.app ea eb, g2, by simp [inst, hr, b1, a1], b2, a3.trans b3, ?_, ?_,
          fun π ρ δ ha => ?_⟩
        · rw [u.app_leaves]
          intro p hp
          rcases List.mem_append.1 hp with hp | hp
          · have := a4 p hp
            exact ⟨b3.ext.mem this.1, by rw [b3.ext.ord p ((hT g1 a2).1.lt p this.1)]; exact this.2⟩
          · exact b4 p hp
        · rw [u.app_pars]
          intro p hp
          rcases List.mem_append.1 hp with hp | hp
          · rw [b3.ext.psize]; exact a5 p hp
          · exact b5 p hp
        · obtain ⟨y1, y2, y3⟩ := b6 π ρ δ ha
          obtain ⟨x1, x2, x3⟩ := a6 π ρ δ (hA _ _ a2 b3 π ρ δ ha)
          refine ⟨by rw [u.app_val, x1, y1]; rfl, ?_, fun C hC n => ?_⟩
          · rw [u.app_leaves]
            intro p hp
            rcases List.mem_append.1 hp with hp | hp
            · exact (b3.ext.ob (hT g1 a2).1 (hT g1 a2).2 (a4 p hp).1).2 (x2 p hp)
            · exact y2 p hp
          · exact u.build_all (x3 C hC.1) (y3 C hC.2.1) (by rw [x1, y1]; exact hC.2.2) n

section
variable {k f q : ℕ} {L pre dp post : List (Node K)} {i : Node K} {b : K} {w : ℚ}

theorem Ctx.lows {g : GS K} (h : Ctx P H B n0 x k f q L pre dp b w g) (hL : L = pre ++ i :: post) :
    g.ord 0 < w ∧ g.ord g.s.one < w := by
  have := h.good.d.low q (h.good.d.lt q h.memT) (by rw [h.items, hL]; simp)
  rw [h.ordq] at this
  exact this

theorem Ctx.at {g : GS K} (h : Ctx P H B n0 x k f q L pre dp b w g) (hL : L = pre ++ i :: post)
    {t : Node K} (ht : t ∈ i.subs) : At g.D q pre t := ⟨i, post, by rw [h.items, hL], ht⟩

theorem Ctx.notSelf {g : GS K} (h : Ctx P H B n0 x k f q L pre dp b w g) (hL : L = pre ++ i :: post)
    (hq : q ∈ i.leaves) : pre ≠ [] := by
  rintro rfl
  exact h.good.d.first q (h.good.d.lt q h.memT) i post (by rw [h.items, hL]; rfl) hq

theorem step_mk {g g1 : GS K} {e : Exp K} (e1 : g1.s = (mkExpr e g.s).2) (e3 : DExt g g1)
    (e5 : g1.ord (mkExpr e g.s).1 < w) : Step w g g1 := by
  refine ⟨e3, fun q _ _ => by rw [GS.tm, e1]; exact ⟨rfl, rfl⟩, fun q h1 h2 => ?_⟩
  have hs : g1.D.size = g.D.size + 1 := by rw [GS.D, e1]; rfl
  have : q = g.D.size := by omega
  subst this
  exact e5

theorem step_tm {g g1 : GS K} (e3 : DExt g g1) (hD : g1.D = g.D) (h1 : g1.tm.tmp = g.tm.tmp)
    (h2 : g1.tm.dtmp = g.tm.dtmp) : Step w g g1 :=
  ⟨e3, fun q _ _ => by rw [h1, h2]; exact ⟨rfl, rfl⟩, fun q h1 h2 => by rw [hD] at h2; omega⟩

/-- Storing the value temporary of a node. -/
theorem finish_val {g : GS K} (h : Ctx P H B n0 x k f q L pre dp b w g) (hL : L = pre ++ i :: post)
    {t : Node K} (ht : t ∈ i.subs) {n : ℕ} (htop : t.top = some n) {e : Exp K}
    (hl : ∀ p ∈ e.leaves, p ∈ g.T ∧ g.ord p < w) (hp : ∀ p ∈ e.pars, p < g.D.psize)
    (hv : ∀ π ρ, SolT P H g.D g.T π ρ → e.val P π ρ = t.val P π (env P π ρ q b pre) ∧
      (∀ p ∈ e.leaves, Ob P g.D π ρ q p) ∧
      ∀ C C' : OpClass K, Closes C C' P → t.All C P π (env P π ρ q b pre) →
        ∀ n, (e.build n).1.All C' P π ρ) :
    ∃ g' : GS K, g'.s = (mkExpr e g.s).2.setOTmp n (mkExpr e g.s).1 ∧
      Ctx P H B n0 x k f q L pre dp b w g' ∧ Step w g g' ∧ (mkExpr e g.s).1 ∈ g'.T ∧
      g'.ord (mkExpr e g.s).1 < w ∧
      ∀ π ρ, SolT P H g'.D g'.T π ρ → ρ (mkExpr e g.s).1 = t.val P π (env P π ρ q b pre) ∧
        Ob P g'.D π ρ q (mkExpr e g.s).1 := by
  obtain ⟨h0, h1⟩ := h.lows hL
  obtain ⟨g1, e1, e2, e3, e4, e5, e6⟩ := h.good.mkExpr e hl hp h0 h1
  have hlt := h.good.d.lt
  have hst1 : Step w g g1 := step_mk e1 e3 e5
  have c1 := h.step hst1 e2
  have hfact : ∀ π ρ, SolT P H g1.D g1.T π ρ →
      ρ (mkExpr e g.s).1 = t.val P π (env P π ρ q b pre) ∧ Ob P g1.D π ρ q (mkExpr e g.s).1 :=
    fun π ρ hs => by
      obtain ⟨x1, x2⟩ := e6 π ρ hs
      obtain ⟨y1, y2, y3⟩ := hv π ρ (e3.solT hlt hs)
      refine ⟨x1.trans y1, fun C C' hC ha => ?_⟩
      have ha' : AllBelow C P π ρ g.D q := (allBelow_congr h.good.d.closed
        (fun p hp => e3.items p (hlt p hp)) (fun p hp => Or.inr (e3.base p (hlt p hp))) h.memT).1 ha
      refine x2 C' (y3 C C' hC ?_) hC.one fun p hp => y2 p hp C C' hC ha'
      rw [← h.base]
      exact (h.at hL ht).all ha'
  obtain ⟨g2, f1, f2, f3, f4, f5, f6, f7, f8⟩ := e2.setOTmp c1.memT (c1.at hL ht) htop e4
    (by rw [c1.ordq]; exact e5) (by rw [c1.base]; exact hfact)
  have hst2 : Step w g1 g2 := step_tm f3 f6 f7 f8
  refine ⟨g2, by rw [f1, e1], c1.step hst2 f2, hst1.trans hst2, by rw [f4]; exact e4,
    by rw [f5]; exact e5, ?_⟩
  rw [f6, f4]
  exact hfact

/-- `symEval` of a subtree builds its value. -/
theorem symEvalN_spec (hL : L = pre ++ i :: post) (t : Node K) :
    ∀ g, Ctx P H B n0 x k f q L pre dp b w g → t ∈ i.subs → t.SymOk →
      ∃ v g', symEvalN rf t g.s = some (v, GS.s g') ∧ Ctx P H B n0 x k f q L pre dp b w g' ∧
        Step w g g' ∧ v.Ok g' w ∧
        ∀ π ρ, SolT P H g'.D g'.T π ρ → v.val π ρ = t.val P π (env P π ρ q b pre) ∧
          v.Ob P g'.D π ρ q := by
  induction t with
  | leaf o =>
      intro g h ht _
      have hq := h.good.d.lt q h.memT
      have hi : i ∈ g.D.items q := by rw [h.items, hL]; simp
      have hoi : o ∈ i.leaves := Node.subs_leaves ht o (by simp [Node.leaves])
      have hoT := h.good.d.closed q h.memT i hi o hoi
      refine ⟨_, g, rfl, h, Step.refl w g, ?_, ?_⟩
      · cases hv : g.s.tm.tmp o with
        | some v =>
            obtain ⟨-, h2⟩ := h.good.t.tmp o v hv
            rcases h.good.d.edge q hq i hi o hoi with e | e
            · subst e; rw [h.ordq] at h2; exact h2
            · rw [h.ordq] at e
              cases v with
              | obj v => exact ⟨h2.1, h2.2.trans e⟩
              | par p => exact h2
        | none =>
            rcases h.good.d.edge q hq i hi o hoi with e | e
            · subst e
              obtain ⟨v, h2, -⟩ := h.self (h.notSelf hL hoi)
              rw [GS.tm, hv] at h2; simp at h2
            · rw [h.ordq] at e; exact ⟨hoT, e⟩
      · intro π ρ hs
        rcases h.good.d.edge q hq i hi o hoi with e | e
        · subst e
          obtain ⟨v, h2, h3⟩ := h.self (h.notSelf hL hoi)
          have h2 : g.s.tm.tmp o = some v := h2
          obtain ⟨x1, x2⟩ := h3 π ρ hs
          rw [h2, Option.getD_some, x1]
          exact ⟨by simp [Node.val, env], x2⟩
        · have hr : Reach g.D q o := Reach.of_leaf hi hoi
          have hoq : o ≠ q := by rintro rfl; exact lt_irrefl _ e
          rw [h.ordq] at e
          cases hv : g.s.tm.tmp o with
          | some v =>
              obtain ⟨x1, x2⟩ := h.good.t.tmpVal o v hv e π ρ hs
              rw [Option.getD_some, x1]
              exact ⟨by simp [Node.val, env, hoq], x2.below hr⟩
          | none => exact ⟨by simp [Node.val, env, hoq, Ref.val], Ob.below hr (Ob.refl _ _ _ _)⟩
  | par p =>
      intro g h ht _
      have hq := h.good.d.lt q h.memT
      have hi : i ∈ g.D.items q := by rw [h.items, hL]; simp
      exact ⟨_, g, rfl, h, Step.refl w g, h.good.d.wf.parsOK q hq i hi p
        (Node.subs_pars ht p (by simp [Node.pars])), fun π ρ hs => ⟨rfl, trivial⟩⟩
  | op1 n o a ih =>
      intro g h ht hok
      have hat := h.at hL ht
      cases hc : g.s.tm.otmp n with
      | some e =>
          obtain ⟨h1, h2, h3⟩ := h.good.t.otmp q h.memT pre _ n e hat rfl hc
          rw [h.ordq] at h2
          rw [h.base] at h3
          exact ⟨.obj e, g, by simp [symEvalN, hc], h, Step.refl w g, ⟨h1, h2⟩, h3⟩
      | none =>
          obtain ⟨t, t1, t2, t3⟩ := o.symVal_spec P hok.1
          have hsub : a ∈ i.subs := Node.subs_trans (by simp [Node.subs, Node.self_subs]) ht
          obtain ⟨e, g1, e1, e2, e3, e4, e5, e6⟩ := inst_spec (P := P) (H := H) (q := q)
            (Q := Ctx P H B n0 x k f q L pre dp b w) (w := w)
            (A := fun g π ρ _ => SolT P H g.D g.T π ρ)
            (hv := fun _ π ρ _ => a.val P π (env P π ρ q b pre))
            (fun g hg => ⟨hg.good.d, hg.memT⟩)
            (fun g g' hg hs π ρ δ ha => hs.ext.solT hg.good.d.lt ha) (rf n false)
            (fun h s => match h with
            | .evL => symEvalN rf a s
            | _ => none) t (by
              intro hh hm g hg
              rw [t2 hh hm]
              obtain ⟨v, g', v1, v2, v3, v4, v5⟩ := ih g hg hsub hok.2
              exact ⟨v, g', v1, v2, v3, v4, fun π ρ _ => v5 π ρ⟩) [] g h
          obtain ⟨g2, k1, k2, k3, k4, k5, k6⟩ := finish_val e2 hL ht rfl e4 e5 (fun π ρ hs => by
            obtain ⟨x1, x2, x3⟩ := e6 π ρ (fun _ => 0) hs
            exact ⟨by rw [x1, t3]; rfl, x2, fun C C' hC ha => x3 C' (hC.val1 o t t1 _ ha.2)⟩)
          refine ⟨.obj (mkExpr e g1.s).1, g2, ?_, k2, e3.trans k3, ⟨k4, k5⟩, k6⟩
          rw [symEvalN, hc]
          simp only [t1, Option.bind_some]
          refine (congrArg (Option.map _) e1).trans ?_
          simp only [Option.map_some, k1]
  | op2 n o a c iha ihc =>
      intro g h ht hok
      have hat := h.at hL ht
      cases hc : g.s.tm.otmp n with
      | some e =>
          obtain ⟨h1, h2, h3⟩ := h.good.t.otmp q h.memT pre _ n e hat rfl hc
          rw [h.ordq] at h2
          rw [h.base] at h3
          exact ⟨.obj e, g, by simp [symEvalN, hc], h, Step.refl w g, ⟨h1, h2⟩, h3⟩
      | none =>
          obtain ⟨t, t1, t2, t3⟩ := o.symVal_spec P hok.1
          have hsa : a ∈ i.subs := Node.subs_trans (by simp [Node.subs, Node.self_subs]) ht
          have hsc : c ∈ i.subs := Node.subs_trans (by simp [Node.subs, Node.self_subs]) ht
          obtain ⟨e, g1, e1, e2, e3, e4, e5, e6⟩ := inst_spec (P := P) (H := H) (q := q)
            (Q := Ctx P H B n0 x k f q L pre dp b w) (w := w)
            (A := fun g π ρ _ => SolT P H g.D g.T π ρ)
            (hv := fun h π ρ _ => match h with
              | .evL => a.val P π (env P π ρ q b pre)
              | _ => c.val P π (env P π ρ q b pre))
            (fun g hg => ⟨hg.good.d, hg.memT⟩)
            (fun g g' hg hs π ρ δ ha => hs.ext.solT hg.good.d.lt ha) (rf n false)
            (fun h s => match h with
            | .evL => symEvalN rf a s
            | .evR => symEvalN rf c s
            | _ => none) t (by
              intro hh hm g hg
              rcases t2 hh hm with rfl | rfl
              · obtain ⟨v, g', v1, v2, v3, v4, v5⟩ := iha g hg hsa hok.2.1
                exact ⟨v, g', v1, v2, v3, v4, fun π ρ _ => v5 π ρ⟩
              · obtain ⟨v, g', v1, v2, v3, v4, v5⟩ := ihc g hg hsc hok.2.2
                exact ⟨v, g', v1, v2, v3, v4, fun π ρ _ => v5 π ρ⟩) [] g h
          obtain ⟨g2, k1, k2, k3, k4, k5, k6⟩ := finish_val e2 hL ht rfl e4 e5 (fun π ρ hs => by
            obtain ⟨x1, x2, x3⟩ := e6 π ρ (fun _ => 0) hs
            exact ⟨by rw [x1, t3]; rfl, x2, fun C C' hC ha => x3 C' (hC.val2 o t t1 _ ha.2.2)⟩)
          refine ⟨.obj (mkExpr e g1.s).1, g2, ?_, k2, e3.trans k3, ⟨k4, k5⟩, k6⟩
          rw [symEvalN, hc]
          simp only [t1, Option.bind_some]
          refine (congrArg (Option.map _) e1).trans ?_
          simp only [Option.map_some, k1]

/-- Storing the derivative temporary of a node. -/
theorem finish_der {g : GS K} (h : Ctx P H B n0 x k f q L pre dp b w g) (hL : L = pre ++ i :: post)
    {t : Node K} (ht : t ∈ i.subs) {n : ℕ} (htop : t.top = some n) {e : Exp K}
    (hl : ∀ p ∈ e.leaves, p ∈ g.T ∧ g.ord p < w) (hp : ∀ p ∈ e.pars, p < g.D.psize)
    (hv : ∀ π ρ δ, SolT P H g.D g.T π ρ → TanT P x g.D g.T π ρ δ →
      e.val P π ρ = t.der P π (env P π ρ q b pre) (denv P π ρ δ q b pre) ∧
      (∀ p ∈ e.leaves, Ob P g.D π ρ q p) ∧
      ∀ C C' : OpClass K, Closes C C' P → t.All C P π (env P π ρ q b pre) →
        ∀ n, (e.build n).1.All C' P π ρ) :
    ∃ g' : GS K, g'.s = (mkExpr e g.s).2.setODTmp n k (mkExpr e g.s).1 ∧
      Ctx P H B n0 x k f q L pre dp b w g' ∧ Step w g g' ∧ (mkExpr e g.s).1 ∈ g'.T ∧
      g'.ord (mkExpr e g.s).1 < w ∧
      ∀ π ρ δ, SolT P H g'.D g'.T π ρ → TanT P x g'.D g'.T π ρ δ →
        ρ (mkExpr e g.s).1 = t.der P π (env P π ρ q b pre) (denv P π ρ δ q b pre) ∧
        Ob P g'.D π ρ q (mkExpr e g.s).1 := by
  obtain ⟨h0, h1⟩ := h.lows hL
  obtain ⟨g1, e1, e2, e3, e4, e5, e6⟩ := h.good.mkExpr e hl hp h0 h1
  have hlt := h.good.d.lt
  have hst1 : Step w g g1 := step_mk e1 e3 e5
  have c1 := h.step hst1 e2
  have hfact : ∀ π ρ δ, SolT P H g1.D g1.T π ρ → TanT P x g1.D g1.T π ρ δ →
      ρ (mkExpr e g.s).1 = t.der P π (env P π ρ q b pre) (denv P π ρ δ q b pre) ∧
      Ob P g1.D π ρ q (mkExpr e g.s).1 :=
    fun π ρ δ hs hd => by
      obtain ⟨x1, x2⟩ := e6 π ρ hs
      obtain ⟨y1, y2, y3⟩ := hv π ρ δ (e3.solT hlt hs) (e3.tanT hlt hd)
      refine ⟨x1.trans y1, fun C C' hC ha => ?_⟩
      have ha' : AllBelow C P π ρ g.D q := (allBelow_congr h.good.d.closed
        (fun p hp => e3.items p (hlt p hp)) (fun p hp => Or.inr (e3.base p (hlt p hp))) h.memT).1 ha
      refine x2 C' (y3 C C' hC ?_) hC.one fun p hp => y2 p hp C C' hC ha'
      rw [← h.base]
      exact (h.at hL ht).all ha'
  obtain ⟨g2, f1, f2, f3, f4, f5, f6, f7, f8⟩ := e2.setODTmp (k := k) c1.memT (c1.at hL ht) htop e4
    (by rw [c1.ordq]; exact e5) ⟨x, c1.be.hx, c1.be.hk⟩ (by
      intro x' hx' hk'
      have : x' = x := e2.d.wf.inj x' (e2.d.user x' hx').1 x (e2.d.user x h.be.hx).1
        (hk'.trans c1.be.hk.symm)
      subst this
      rw [c1.base]; exact hfact)
  have hst2 : Step w g1 g2 := step_tm f3 f6 f7 f8
  refine ⟨g2, by rw [f1, e1], c1.step hst2 f2, hst1.trans hst2, by rw [f4]; exact e4,
    by rw [f5]; exact e5, ?_⟩
  rw [f6, f4]
  exact hfact

theorem findDer_mem {l : List (ℕ × ℕ)} {k e : ℕ} (h : findDer l k = some e) : (k, e) ∈ l := by
  unfold findDer at h
  cases h' : l.find? (fun p => p.1 == k) with
  | none => rw [h'] at h; simp at h
  | some p =>
      rw [h'] at h
      have h1 := List.mem_of_find?_eq_some h'
      have h2 := List.find?_some h'
      simp only [beq_iff_eq] at h2
      simp only [Option.map_some, Option.some.injEq] at h
      subst h h2
      exact h1

/-- `symDeval` of a subtree builds its derivative, if `symDeval` of the objects does. -/
theorem symDevalN_spec (hL : L = pre ++ i :: post) {recD : ℕ → SSt K → Option (ℕ × SSt K)}
    (hrec : ∀ g, Ctx P H B n0 x k f q L pre dp b w g → ∀ p ∈ i.leaves, ∃ e g',
      recD p g.s = some (e, GS.s g') ∧ Ctx P H B n0 x k f q L pre dp b w g' ∧ Step w g g' ∧
      e ∈ g'.T ∧ g'.ord e < w ∧ ∀ π ρ δ, SolT P H g'.D g'.T π ρ → TanT P x g'.D g'.T π ρ δ →
        ρ e = denv P π ρ δ q b pre p ∧ Ob P g'.D π ρ q e) (t : Node K) :
    ∀ g, Ctx P H B n0 x k f q L pre dp b w g → t ∈ i.subs → t.SymOk →
      ∃ e g', symDevalN P rf k recD t g.s = some (e, GS.s g') ∧
        Ctx P H B n0 x k f q L pre dp b w g' ∧ Step w g g' ∧ e ∈ g'.T ∧ g'.ord e < w ∧
        ∀ π ρ δ, SolT P H g'.D g'.T π ρ → TanT P x g'.D g'.T π ρ δ →
          ρ e = t.der P π (env P π ρ q b pre) (denv P π ρ δ q b pre) ∧ Ob P g'.D π ρ q e := by
  induction t with
  | leaf o =>
      intro g h ht _
      exact hrec g h o (Node.subs_leaves ht o (by simp [Node.leaves]))
  | par p =>
      intro g h ht _
      obtain ⟨z0, z1, z2, z3, z4⟩ := h.good.d.zero
      refine ⟨0, g, rfl, h, Step.refl w g, z4, (h.lows hL).1, fun π ρ δ hs _ => ?_⟩
      refine ⟨?_, Ob.empty z1⟩
      rw [hs 0 z4 z3, z1, z2]; rfl
  | op1 n o a ih =>
      intro g h ht hok
      have hat := h.at hL ht
      cases hc : findDer (g.s.tm.odtmp n) k with
      | some e =>
          obtain ⟨h1, h2, h3⟩ := h.good.t.odtmp q h.memT pre _ n k e hat rfl (findDer_mem hc)
          rw [h.ordq] at h2
          rw [h.base] at h3
          exact ⟨e, g, by simp [symDevalN, hc], h, Step.refl w g, h1, h2, h3 x h.be.hx h.be.hk⟩
      | none =>
          obtain ⟨t, t1, t2, t3⟩ := o.symDer_spec P hok.1
          have hsub : a ∈ i.subs := Node.subs_trans (by simp [Node.subs, Node.self_subs]) ht
          obtain ⟨e, g1, e1, e2, e3, e4, e5, e6⟩ := inst_spec (P := P) (H := H) (q := q)
            (Q := Ctx P H B n0 x k f q L pre dp b w) (w := w)
            (A := fun g π ρ δ => SolT P H g.D g.T π ρ ∧ TanT P x g.D g.T π ρ δ)
            (hv := fun h π ρ δ => match h with
              | .evL => a.val P π (env P π ρ q b pre)
              | _ => a.der P π (env P π ρ q b pre) (denv P π ρ δ q b pre))
            (fun g hg => ⟨hg.good.d, hg.memT⟩)
            (fun g g' hg hs π ρ δ ha => ⟨hs.ext.solT hg.good.d.lt ha.1, hs.ext.tanT hg.good.d.lt ha.2⟩)
            (rf n true)
            (fun h s => match h with
            | .evL => symEvalN rf a s
            | .deL => (symDevalN P rf k recD a s).map fun r => (.obj r.1, r.2)
            | _ => none) t (by
              intro hh hm g hg
              rcases t2 hh hm with rfl | rfl
              · obtain ⟨v, g', v1, v2, v3, v4, v5⟩ := symEvalN_spec (rf := rf) hL a g hg hsub hok.2
                exact ⟨v, g', v1, v2, v3, v4, fun π ρ _ ha => v5 π ρ ha.1⟩
              · obtain ⟨v, g', v1, v2, v3, v4, v5, v6⟩ := ih g hg hsub hok.2
                exact ⟨.obj v, g', by simp only [v1, Option.map_some], v2, v3, ⟨v4, v5⟩,
                  fun π ρ δ ha => v6 π ρ δ ha.1 ha.2⟩) [] g h
          obtain ⟨g2, k1, k2, k3, k4, k5, k6⟩ := finish_der e2 hL ht rfl e4 e5 (fun π ρ δ hs hd => by
            obtain ⟨x1, x2, x3⟩ := e6 π ρ δ ⟨hs, hd⟩
            exact ⟨by rw [x1, t3]; rfl, x2, fun C C' hC ha => x3 C' (hC.der1 o t t1 _ ha.2)⟩)
          refine ⟨(mkExpr e g1.s).1, g2, ?_, k2, e3.trans k3, k4, k5, k6⟩
          rw [symDevalN, hc]
          simp only [t1, Option.bind_some]
          refine (congrArg (Option.map _) e1).trans ?_
          simp only [Option.map_some, k1]
  | op2 n o a c iha ihc =>
      intro g h ht hok
      have hat := h.at hL ht
      cases hc : findDer (g.s.tm.odtmp n) k with
      | some e =>
          obtain ⟨h1, h2, h3⟩ := h.good.t.odtmp q h.memT pre _ n k e hat rfl (findDer_mem hc)
          rw [h.ordq] at h2
          rw [h.base] at h3
          exact ⟨e, g, by simp [symDevalN, hc], h, Step.refl w g, h1, h2, h3 x h.be.hx h.be.hk⟩
      | none =>
          obtain ⟨t, t1, t3⟩ := o.symDer_spec P hok.1
          have hsa : a ∈ i.subs := Node.subs_trans (by simp [Node.subs, Node.self_subs]) ht
          have hsc : c ∈ i.subs := Node.subs_trans (by simp [Node.subs, Node.self_subs]) ht
          obtain ⟨e, g1, e1, e2, e3, e4, e5, e6⟩ := inst_spec (P := P) (H := H) (q := q)
            (Q := Ctx P H B n0 x k f q L pre dp b w) (w := w)
            (A := fun g π ρ δ => SolT P H g.D g.T π ρ ∧ TanT P x g.D g.T π ρ δ)
            (hv := fun h π ρ δ => match h with
              | .evL => a.val P π (env P π ρ q b pre)
              | .evR => c.val P π (env P π ρ q b pre)
              | .deL => a.der P π (env P π ρ q b pre) (denv P π ρ δ q b pre)
              | .deR => c.der P π (env P π ρ q b pre) (denv P π ρ δ q b pre))
            (fun g hg => ⟨hg.good.d, hg.memT⟩)
            (fun g g' hg hs π ρ δ ha => ⟨hs.ext.solT hg.good.d.lt ha.1, hs.ext.tanT hg.good.d.lt ha.2⟩)
            (rf n true)
            (fun h s => match h with
            | .evL => symEvalN rf a s
            | .evR => symEvalN rf c s
            | .deL => (symDevalN P rf k recD a s).map fun r => (.obj r.1, r.2)
            | .deR => (symDevalN P rf k recD c s).map fun r => (.obj r.1, r.2)) t (by
              intro hh hm g hg
              cases hh with
              | evL =>
                obtain ⟨v, g', v1, v2, v3, v4, v5⟩ := symEvalN_spec (rf := rf) hL a g hg hsa hok.2.1
                exact ⟨v, g', v1, v2, v3, v4, fun π ρ _ ha => v5 π ρ ha.1⟩
              | evR =>
                obtain ⟨v, g', v1, v2, v3, v4, v5⟩ := symEvalN_spec (rf := rf) hL c g hg hsc hok.2.2
                exact ⟨v, g', v1, v2, v3, v4, fun π ρ _ ha => v5 π ρ ha.1⟩
              | deL =>
                obtain ⟨v, g', v1, v2, v3, v4, v5, v6⟩ := iha g hg hsa hok.2.1
                exact ⟨.obj v, g', by simp only [v1, Option.map_some], v2, v3, ⟨v4, v5⟩,
                  fun π ρ δ ha => v6 π ρ δ ha.1 ha.2⟩
              | deR =>
                obtain ⟨v, g', v1, v2, v3, v4, v5, v6⟩ := ihc g hg hsc hok.2.2
                exact ⟨.obj v, g', by simp only [v1, Option.map_some], v2, v3, ⟨v4, v5⟩,
                  fun π ρ δ ha => v6 π ρ δ ha.1 ha.2⟩) [] g h
          obtain ⟨g2, k1, k2, k3, k4, k5, k6⟩ := finish_der e2 hL ht rfl e4 e5 (fun π ρ δ hs hd => by
            obtain ⟨x1, x2, x3⟩ := e6 π ρ δ ⟨hs, hd⟩
            exact ⟨by rw [x1, t3]; rfl, x2, fun C C' hC ha => x3 C' (hC.der2 o t t1 _ ha.2.2)⟩)
          refine ⟨(mkExpr e g1.s).1, g2, ?_, k2, e3.trans k3, k4, k5, k6⟩
          rw [symDevalN, hc]
          simp only [t1, Option.bind_some]
          refine (congrArg (Option.map _) e1).trans ?_
          simp only [Option.map_some, k1]

end
end CoolDiff
