import Verif.Matrix.RevHeap

/-!
# Pushing adjoints, with pointers

`push2P` and `push1P` compute the same as `push2` and `push1`, if every object of `m_cloned` that
receives a scaled entry has a buffer of its own.
-/

set_option linter.unusedSectionVars false

namespace CoolDiff

variable {K : Type} [Field K] [DecidableEq K]

section
variable {own : ℕ → ℕ} {mg : ℕ → Prop} {kk bs : ℕ → ℕ} {o : ℕ} {p p' : PSt K}

theorem PInv.inc (h : PInv own mg kk bs p) (n : ℕ) : PInv own mg kk bs (p.inc n) :=
  ⟨fun m σ g hg => let a := h.slot m σ g hg; ⟨a.rpos, a.cpos, a.len, a.bound⟩,
    fun q e he => let a := h.cache q e he; ⟨⟨a.1.rpos, a.1.cpos, a.1.len, a.1.bound⟩, a.2⟩, h.node⟩

theorem PFr.inc (n : ℕ) : PFr own o (fun m => m = n) p (p.inc n) :=
  ⟨rfl, fun m hm => by simp [PSt.inc, hm], fun _ => le_rfl, fun _ _ _ => rfl, fun _ _ => rfl⟩

theorem CacheP.fr {N : ℕ → Prop} {κ : PCache} (h : CacheP own o p κ) (hf : PFr own o N p p') :
    CacheP own o p' κ :=
  ⟨h.keys, h.bufs, fun e he => let a := h.ok e he; ⟨a.1.fr hf, a.2⟩⟩

/-! ## The clones -/

theorem cloneFold_spec (κ : PCache) (n : ℕ) : ∀ (ks : List MKey) (p : PSt K),
    (∀ k ∈ ks, k ∈ κ.keys) → ∃ p', ks.foldl (fun p k => match κ.find k with
        | some h => (p.setS n (.cln (p.cnt n)) h).inc n
        | none => p) p = p' ∧
      p'.base = p.base ∧ p'.dat = p.dat ∧ p'.next = p.next ∧ p'.cache = p.cache ∧
      p'.cnt n = p.cnt n + ks.length ∧ (∀ m, m ≠ n → p'.cnt m = p.cnt m) ∧
      (∀ m, m ≠ n → p'.slots m = p.slots m) ∧
      (∀ σ, (∀ j, σ = .cln j → j < p.cnt n ∨ p.cnt n + ks.length ≤ j) →
        p'.slots n σ = p.slots n σ) ∧
      (∀ σ h, p'.slots n σ = some h → p.slots n σ = some h ∨ ∃ e ∈ κ, e.2 = h) := by
  intro ks
  induction ks with
  | nil =>
    intro p _
    exact ⟨p, rfl, rfl, rfl, rfl, rfl, rfl, fun _ _ => rfl, fun _ _ => rfl, fun _ _ => rfl,
      fun _ _ h => Or.inl h⟩
  | cons k l ih =>
    intro p hk
    obtain ⟨h, hf⟩ := PCache.find_of_mem_keys (hk k (by simp))
    set p1 : PSt K := (p.setS n (.cln (p.cnt n)) h).inc n with hp1
    obtain ⟨p', e, b1, b2, b3, b4, b5, b6, b7, b8, b9⟩ := ih p1 (fun k' hk' => hk k' (by simp [hk']))
    have hc1 : p1.cnt n = p.cnt n + 1 := by simp [hp1, PSt.inc, PSt.setS]
    have hs1 : p1.slots n = Function.update (p.slots n) (.cln (p.cnt n)) (some h) := by
      simp [hp1, PSt.inc, PSt.setS]
    refine ⟨p', ?_, b1, b2, b3, b4, ?_, ?_, ?_, ?_, ?_⟩
    · rw [List.foldl_cons]; simp only [hf]; exact e
    · rw [b5, hc1, List.length_cons]; omega
    · intro m hm; rw [b6 m hm]; simp [hp1, PSt.inc, PSt.setS, hm]
    · intro m hm; rw [b7 m hm]; simp [hp1, PSt.inc, PSt.setS, hm]
    · intro σ hσ
      rw [b8 σ (fun j hj => by have := hσ j hj; rw [hc1]; rw [List.length_cons] at this; omega), hs1,
        Function.update_of_ne]
      rintro rfl
      have := hσ _ rfl
      rw [List.length_cons] at this; omega
    · intro σ g hg
      rcases b9 σ g hg with h1 | h1
      · rw [hs1] at h1
        by_cases hσ : σ = .cln (p.cnt n)
        · subst hσ
          rw [Function.update_self] at h1
          exact Or.inr ⟨_, PCache.find_mem hf, Option.some.inj h1⟩
        · rw [Function.update_of_ne hσ] at h1; exact Or.inl h1
      · exact Or.inr h1

theorem cloneP_spec (c : MCtx K) (hp : PInv own mg kk bs p) {κ : PCache} (hκ : CacheP own o p κ)
    {n : ℕ} (hn : own n = o) (hcnt : p.cnt n = bs n) (hkk : kk n = κ.keys.card) :
    ∃ p', cloneP c n κ p = p' ∧ p'.base = p.base ∧ PInv own mg kk bs p' ∧ CacheP own o p' κ ∧
      PFr own o (fun m => m = n) p p' ∧ p'.dat = p.dat ∧ p'.cnt n = bs n + kk n ∧
      (∀ σ, Wn (mg (own n)) (kk n) (bs n) σ → p'.slots n σ = p.slots n σ) := by
  obtain ⟨p', e, b1, b2, b3, b4, b5, b6, b7, b8, b9⟩ := cloneFold_spec κ n
    (c.π.run _ (κ.map Prod.fst)) p (fun k hk => by
      rw [PCache.keys, List.mem_toFinset]; exact c.π.mem.1 hk)
  have hlen : (c.π.run _ (κ.map Prod.fst)).length = kk n := by
    rw [(c.π.perm _ _).length_eq, List.length_map, hkk, hκ.card]
  rw [hlen, hcnt] at b5
  have hfr : PFr own o (fun m => m = n) p p' :=
    ⟨b4, fun m hm => b6 m hm, fun m => by rw [b3], fun r _ _ => by rw [b2], fun r _ => by rw [b2]⟩
  have hW : ∀ σ, Wn (mg (own n)) (kk n) (bs n) σ → p'.slots n σ = p.slots n σ := by
    intro σ hσ
    refine b8 σ fun j hj => ?_
    subst hj
    rw [hlen, hcnt]; exact Or.inr hσ.2
  refine ⟨p', e, b1, ⟨?_, hp.caches hfr, ?_⟩, hκ.fr hfr, hfr, b2, b5, hW⟩
  · intro m σ h hh
    by_cases hm : m = n
    · subst hm
      rcases b9 σ h hh with h1 | ⟨e', he, rfl⟩
      · exact (hp.slot _ _ _ h1).fr hfr
      · exact (hκ.ok e' he).1.fr hfr
    · rw [b7 m hm] at hh; exact (hp.slot _ _ _ hh).fr hfr
  · intro m
    by_cases hm : m = n
    · subst hm
      refine ⟨fun σ h hσ hs => ?_, fun σ τ h g hσ hτ hs ht => ?_⟩
      · rw [hW σ hσ] at hs; exact (hp.node m).tag σ h hσ hs
      · rw [hW σ hσ] at hs; rw [hW τ hτ] at ht; exact (hp.node m).inj σ τ h g hσ hτ hs ht
    · rw [b7 m hm]; exact hp.node m

/-! ## The merge loops -/

/-- The objects of `m_cloned` that are still to be used for scaled entries do not share buffers with the
cache. -/
def Apart (mg : ℕ → Prop) (kk bs : ℕ → ℕ) (o n : ℕ) (p : PSt K) (κ : PCache) : Prop :=
  mg o → bs n + kk n ≤ p.cnt n ∧
    ∀ j g, p.cnt n ≤ j → p.slots n (.cln j) = some g → g.buf ∉ κ.bufs

theorem mergeFoldP_spec {c : MCtx K} {kd : MKey → ℕ × ℕ} (hB : c.B.Sound c.E.P)
    {n : ℕ} (hn : own n = o) {adj : Mat K} {child : PCache} {chv : MCache K}
    (hch : CWF kd chv) : ∀ (ks : List MKey), (∀ k ∈ ks, k ∈ child.keys) →
    (ks ≠ [] → mg o ∧ ∃ A, Rep adj 1 1 A) → ∀ (p : PSt K) (κ : PCache), PInv own mg kk bs p →
    p.rd child = chv → (∀ e ∈ child, HOk p e.2 ∧ own e.2.buf.1 ≠ o) →
    CacheP own o p κ → CWF kd (p.rd κ) → Apart mg kk bs o n p κ →
    ∃ κ' p', ks.foldlM (fun r k => (child.find k).bind fun h => mergeStepP c n adj r.1 k h r.2)
        (κ, p) = some (κ', p') ∧
      ks.foldlM (fun κ k => (chv.find k).bind fun m => mergeStep c adj κ (k, m))
        (p.rd κ) = some (p'.rd κ') ∧
      PInv own mg kk bs p' ∧ CacheP own o p' κ' ∧ CWF kd (p'.rd κ') ∧ Apart mg kk bs o n p' κ' ∧
      κ'.keys = κ.keys ∪ ks.toFinset ∧ (∀ r ∈ κ'.bufs, r ∈ κ.bufs ∨ r.1 = n) ∧
      PFr own o (fun m => m = n) p p' ∧ p'.base = p.base := by
  intro ks
  induction ks with
  | nil =>
    intro _ _ p κ hp _ _ hκ hw ha
    exact ⟨κ, p, rfl, rfl, hp, hκ, hw, ha, by simp, fun r hr => Or.inl hr, PFr.refl _, rfl⟩
  | cons k l ih =>
    intro hks hmg p κ hp hcv hco hκ hw ha
    obtain ⟨hmgo, A, hA⟩ := hmg (by simp)
    obtain ⟨hbk, hap⟩ := ha hmgo
    obtain ⟨h0, hf0⟩ := PCache.find_of_mem_keys (hks k (by simp))
    have hfv : chv.find k = some (p.read h0) := by rw [← hcv, PSt.find_rd, hf0]; rfl
    have hσ : Wn (mg (own n)) (kk n) (bs n) (.cln (p.cnt n)) := ⟨by rw [hn]; exact hmgo, hbk⟩
    have hlive : Live ((p.slots n (.cln (p.cnt n))).map p.read) := by
      intro m hm
      rw [Option.map_eq_some_iff] at hm
      obtain ⟨g, hg, rfl⟩ := hm
      exact (hp.slot _ _ _ hg).wf
    obtain ⟨m1, e1, r1⟩ := hB.scalarMul (A 0 0) (r := .ext (p.read h0)) hlive rfl (hch.rep hfv)
    obtain ⟨m2, e2, r2⟩ := hB.scalarMul (A 0 0) (r := .ext (p.read h0)) (b := none)
      (fun m h => by cases h) rfl (hch.rep hfv)
    have hm12 : m2 = m1 := r2.ext r1
    subst hm12
    obtain ⟨p1, h, es, b1, rd1, i1, f1, c1, t1, so1, sn1, d1⟩ := store_spec hp hn hσ r1.wf
    have hbn : h.buf ∉ κ.bufs ∧ ∀ r ∈ κ.bufs, p1.dat r = p.dat r := by
      have : ∀ r ∈ κ.bufs, r ≠ h.buf ∧ p1.dat r = p.dat r := by
        intro r hr
        obtain ⟨e, he, rfl⟩ := List.mem_map.1 hr
        refine d1 _ (hκ.ok e he).1.bound fun g hg hb => hap _ g le_rfl hg (hb ▸ hr)
      exact ⟨fun hh => (this _ hh).1 rfl, fun r hr => (this r hr).2⟩
    set p2 := p1.inc n with hp2
    have i2 : PInv own mg kk bs p2 := i1.inc n
    have f2 : PFr own o (fun m => m = n) p p2 := (f1.mono (fun _ h => h.elim)).trans (PFr.inc n)
    have hrd2 : p2.rd κ = p.rd κ := by
      refine PSt.rd_congr fun e he => ?_
      exact hbn.2 _ (List.mem_map.2 ⟨e, he, rfl⟩)
    have hread2 : p2.read h = m2 := rd1
    have hhok : HOk p2 h := i2.slot n _ h sn1
    obtain ⟨κ3, p3, e3, v3, w3, i3, k3, ks3, bf3, f3, b3, c3, s3, d3⟩ := kaddP_spec hB i2 (hκ.fr f2)
      (by rw [hrd2]; exact hw) hhok (by rw [t1, hn]) hbn.1 (by rw [hread2]; exact r1)
    rw [hrd2, hread2] at v3
    have f13 : PFr own o (fun m => m = n) p p3 := f2.trans (f3.mono (fun _ h => h.elim))
    have hcv3 : p3.rd child = chv := by
      rw [← hcv]
      exact PSt.rd_congr fun e he => f13.dat _ (hco e he).1.bound (hco e he).2
    have ha3 : Apart mg kk bs o n p3 κ3 := by
      intro _
      have hc3 : p3.cnt n = p.cnt n + 1 := by rw [c3, hp2]; simp [PSt.inc, c1]
      rw [hc3]
      refine ⟨by omega, fun j g hj hg hb => ?_⟩
      rw [s3] at hg
      have hg1 : p1.slots n (.cln j) = some g := hg
      have hne : (PSlot.cln j) ≠ .cln (p.cnt n) := by
        intro h; cases h; omega
      have hg0 := hg1
      rw [so1 _ hne] at hg0
      rcases bf3 _ hb with h1 | h1
      · exact hap j g (by omega) hg0 h1
      · exact hne ((i1.node n).inj _ _ g h ⟨hσ.1, by omega⟩ hσ hg1 sn1 h1)
    obtain ⟨κ4, p4, e4, v4, i4, k4, w4, a4, ks4, bf4, f4, b4⟩ := ih
      (fun k' hk' => hks k' (by simp [hk'])) (fun _ => ⟨hmgo, A, hA⟩) p3 κ3 i3 hcv3
      (fun e he => ⟨(hco e he).1.fr f13, (hco e he).2⟩) k3 w3 ha3
    refine ⟨κ4, p4, ?_, ?_, i4, k4, w4, a4, ?_, ?_, f13.trans f4, ?_⟩
    · have hstep : (child.find k).bind (fun h => mergeStepP c n adj κ k h p) = some (κ3, p3) := by
        rw [hf0, Option.bind_some, mergeStepP, if_pos ⟨hA.rows, hA.cols⟩, hA.raw0, Option.bind_some,
          e1, Option.bind_some, es]
        exact e3
      rw [List.foldlM_cons]
      simp only [hstep, Option.bind_eq_bind, Option.bind_some]
      exact e4
    · have hstep : (chv.find k).bind (fun m => mergeStep c adj (p.rd κ) (k, m)) =
          some (p3.rd κ3) := by
        rw [hfv, Option.bind_some, mergeStep, if_pos ⟨hA.rows, hA.cols⟩, hA.raw0, Option.bind_some,
          e2, Option.bind_some]
        exact v3
      rw [List.foldlM_cons]
      simp only [hstep, Option.bind_eq_bind, Option.bind_some]
      exact v4
    · rw [ks4, ks3, List.toFinset_cons]
      ext a; simp only [Finset.mem_union, Finset.mem_insert]
      constructor
      · rintro ((h | h) | h)
        · exact Or.inr (Or.inl h)
        · exact Or.inl h
        · exact Or.inr (Or.inr h)
      · rintro (h | h | h)
        · exact Or.inl (Or.inr h)
        · exact Or.inl (Or.inl h)
        · exact Or.inr h
    · intro r hr
      rcases bf4 r hr with h1 | h1
      · rcases bf3 r h1 with h2 | h2
        · exact Or.inl h2
        · right; rw [h2, t1]
      · exact Or.inr h1
    · rw [b4, b3]; exact b1

/-- What pushing an adjoint needs from an operand: its own cache, if any, is in order and belongs to
another formula, and the adjoint is then 1 × 1. -/
structure ChildOk (own : ℕ → ℕ) (mg : ℕ → Prop) (kd : MKey → ℕ × ℕ) (o : ℕ) (p : PSt K) (adj : Mat K)
    (child : PCache) : Prop where
  wf : CWF kd (p.rd child)
  ok : ∀ e ∈ child, HOk p e.2 ∧ own e.2.buf.1 ≠ o
  one : child ≠ [] → mg o ∧ ∃ A, Rep adj 1 1 A

theorem ChildOk.fr {kd : MKey → ℕ × ℕ} {adj : Mat K} {child : PCache} {N : ℕ → Prop}
    (h : ChildOk own mg kd o p adj child) (hf : PFr own o N p p') :
    ChildOk own mg kd o p' adj child ∧ p'.rd child = p.rd child := by
  have hr : p'.rd child = p.rd child :=
    PSt.rd_congr fun e he => hf.dat _ (h.ok e he).1.bound (h.ok e he).2
  exact ⟨⟨by rw [hr]; exact h.wf, fun e he => ⟨(h.ok e he).1.fr hf, (h.ok e he).2⟩, h.one⟩, hr⟩

theorem mergeCP_spec {c : MCtx K} {kd : MKey → ℕ × ℕ} (hB : c.B.Sound c.E.P)
    (hp : PInv own mg kk bs p) {n : ℕ} (hn : own n = o) {adj : Mat K} {child κ : PCache}
    (hch : ChildOk own mg kd o p adj child) (hκ : CacheP own o p κ) (hw : CWF kd (p.rd κ))
    (ha : Apart mg kk bs o n p κ) :
    ∃ κ' p', mergeCP c n adj child κ p = some (κ', p') ∧
      mergeC c (p.rd κ) adj (p.rd child) = some (p'.rd κ') ∧
      PInv own mg kk bs p' ∧ CacheP own o p' κ' ∧ CWF kd (p'.rd κ') ∧ Apart mg kk bs o n p' κ' ∧
      κ'.keys = κ.keys ∪ child.keys ∧ (∀ r ∈ κ'.bufs, r ∈ κ.bufs ∨ r.1 = n) ∧
      PFr own o (fun m => m = n) p p' ∧ p'.base = p.base := by
  have hne : c.π.run _ (child.map Prod.fst) ≠ [] → child ≠ [] := by
    rintro h rfl
    exact h (List.Perm.eq_nil (c.π.perm MKey []))
  obtain ⟨κ', p', e1, v1, i1, k1, w1, a1, ks1, b1, f1, g1⟩ := mergeFoldP_spec hB hn (adj := adj)
    hch.wf (c.π.run _ (child.map Prod.fst)) (fun k hk => by
      rw [PCache.keys, List.mem_toFinset]; exact c.π.mem.1 hk) (fun h => hch.one (hne h)) p κ hp rfl
    hch.ok hκ hw ha
  refine ⟨κ', p', e1, ?_, i1, k1, w1, a1, ?_, b1, f1, g1⟩
  · rw [mergeC, PSt.rd_fst]; exact v1
  · rw [ks1, PCache.keys]
    congr 1
    ext a; simp only [PCache.keys, List.mem_toFinset]; exact c.π.mem

/-! ## Pushing -/

theorem push2P_spec {c : MCtx K} {kd : MKey → ℕ × ℕ} (hB : c.B.Sound c.E.P)
    (hp : PInv own mg kk bs p) {n : ℕ} (hn : own n = o) {x y : MNode K} {κ : PCache}
    (hκ : CacheP own o p κ) (hw : CWF kd (p.rd κ)) (htag : ∀ r ∈ κ.bufs, r.1 ≠ n)
    (hcnt : p.cnt n = bs n) (hkk : kk n = (insert y.key (insert x.key κ.keys)).card)
    {mL mR : Mat K} {A B : ℕ → ℕ → K} (hL : Rep mL (kd x.key).1 (kd x.key).2 A)
    (hR : Rep mR (kd y.key).1 (kd y.key).2 B)
    (hcx : ChildOk own mg kd o p mL (childP p x)) (hcy : ChildOk own mg kd o p mR (childP p y)) :
    ∃ κ' p', push2P c n x y mL mR κ p = some (κ', p') ∧
      push2 c x y mL mR (p.rd κ) p.val = some (p'.rd κ') ∧
      PInv own mg kk bs p' ∧ CacheP own o p' κ' ∧
      κ'.keys = insert y.key (insert x.key κ.keys) ∪ (childP p x).keys ∪ (childP p y).keys ∧
      (∀ r ∈ κ'.bufs, r ∈ κ.bufs ∨ r.1 = n) ∧
      PFr own o (fun m => m = n) p p' ∧ p'.base = p.base := by
  obtain ⟨p1, hl, e1, b1, rd1, i1, f1, c1, t1, so1, sn1, d1⟩ := store_spec (σ := .arr 0) hp hn trivial
    hL.wf
  obtain ⟨p2, hr, e2, b2, rd2, i2, f2, c2, t2, so2, sn2, d2⟩ := store_spec (σ := .arr 1) i1 hn trivial
    hR.wf
  have f12 := f1.trans f2
  have hne01 : (PSlot.arr 0) ≠ .arr 1 := by decide
  have sn1' : p2.slots n (.arr 0) = some hl := by rw [so2 _ hne01]; exact sn1
  have hlr : hl.buf ≠ hr.buf := fun h =>
    hne01 ((i2.node n).inj _ _ hl hr trivial trivial sn1' sn2 h)
  -- the cache and the left result keep their contents
  have hk1 : ∀ r ∈ κ.bufs, p1.dat r = p.dat r := by
    intro r hr'
    obtain ⟨e, he, rfl⟩ := List.mem_map.1 hr'
    exact (d1 _ (hκ.ok e he).1.bound (fun g hg hb => htag _ hr' (by
      rw [hb]; exact (hp.node n).tag (.arr 0) g trivial hg))).2
  have hk2 : ∀ r ∈ κ.bufs, p2.dat r = p.dat r := by
    intro r hr'
    obtain ⟨e, he, rfl⟩ := List.mem_map.1 hr'
    rw [(d2 _ ((hκ.ok e he).1.fr f1).bound (fun g hg hb => htag _ hr' (by
      rw [hb]; exact (i1.node n).tag (.arr 1) g trivial hg))).2]
    exact hk1 _ hr'
  have hrd2 : p2.rd κ = p.rd κ := PSt.rd_congr fun e he => hk2 _ (List.mem_map.2 ⟨e, he, rfl⟩)
  have hlok1 : HOk p1 hl := i1.slot n _ hl sn1
  have hldat : p2.dat hl.buf = p1.dat hl.buf := by
    refine (d2 _ hlok1.bound fun g hg hb => ?_).2
    exact hne01 ((i1.node n).inj _ _ hl g trivial trivial sn1 hg hb)
  have hreadL : p2.read hl = mL := by rw [← rd1]; simp [PSt.read, hldat]
  have hlok : HOk p2 hl := i2.slot n _ hl sn1'
  have hrok : HOk p2 hr := i2.slot n _ hr sn2
  obtain ⟨κ3, p3, e3, v3, w3, i3, k3, ks3, bf3, f3, b3, c3, s3, d3⟩ := kaddP_spec (k := x.key) hB i2
    (hκ.fr f12) (by rw [hrd2]; exact hw) hlok (by rw [t1, hn]) (fun h => htag _ h t1)
    (by rw [hreadL]; exact hL)
  rw [hrd2, hreadL] at v3
  have f13 := f12.trans f3
  have hrb3 : hr.buf ∉ κ3.bufs := fun h => (bf3 _ h).elim (fun h' => htag _ h' t2)
    (fun h' => hlr h'.symm)
  have hrdat : p3.dat hr.buf = p2.dat hr.buf := d3 _ (fun h => htag _ h t2)
  have hreadR : p3.read hr = mR := by rw [← rd2]; simp [PSt.read, hrdat]
  obtain ⟨κ4, p4, e4, v4, w4, i4, k4, ks4, bf4, f4, b4, c4, s4, d4⟩ := kaddP_spec (k := y.key) hB i3
    k3 w3 (hrok.fr f3) (by rw [t2, hn]) hrb3 (by rw [hreadR]; exact hR)
  rw [hreadR] at v4
  have f14 := f13.trans f4
  have hcnt4 : p4.cnt n = bs n := by rw [c4, c3, c2, c1]; exact hcnt
  obtain ⟨p5, e5, b5, i5, k5, f5, d5, c5, s5⟩ := cloneP_spec c i4 k4 hn hcnt4
    (by rw [ks4, ks3]; exact hkk)
  have f15 : PFr own o (fun m => m = n) p p5 := (f14.mono (fun _ h => h.elim)).trans f5
  have hrd5 : p5.rd κ4 = p4.rd κ4 := PSt.rd_congr fun e _ => by rw [d5]
  have bf4' : ∀ r ∈ κ4.bufs, r ∈ κ.bufs ∨ r = hl.buf ∨ r = hr.buf := by
    intro r hr'
    rcases bf4 r hr' with h1 | h1
    · rcases bf3 r h1 with h2 | h2
      · exact Or.inl h2
      · exact Or.inr (Or.inl h2)
    · exact Or.inr (Or.inr h1)
  have a5 : Apart mg kk bs o n p5 κ4 := by
    intro hmg
    rw [c5]
    refine ⟨le_rfl, fun j g hj hg hb => ?_⟩
    have hσ : Wn (mg (own n)) (kk n) (bs n) (.cln j) := ⟨by rw [hn]; exact hmg, hj⟩
    have hs0 : ∀ i, p5.slots n (.arr i) = p2.slots n (.arr i) := by
      intro i; rw [s5 (.arr i) trivial, s4, s3]
    rcases bf4' _ hb with h1 | h1 | h1
    · exact htag _ h1 ((i5.node n).tag _ g hσ hg)
    · have := (i5.node n).inj _ (.arr 0) g hl hσ trivial hg ((hs0 0).trans sn1') h1
      cases this
    · have := (i5.node n).inj _ (.arr 1) g hr hσ trivial hg ((hs0 1).trans sn2) h1
      cases this
  have hch5 : ∀ z : MNode K, childP p5 z = childP p z := by
    intro z; cases z with
    | obj q => simp only [childP]; rw [f15.cache]
    | bin _ _ _ _ => rfl
    | un _ _ _ => rfl
  obtain ⟨hcx5, rx5⟩ := hcx.fr f15
  obtain ⟨κ6, p6, e6, v6, i6, k6, w6, a6, ks6, bf6, f6, b6⟩ := mergeCP_spec hB i5 hn hcx5 k5
    (by rw [hrd5]; exact w4) a5
  obtain ⟨hcy6, ry6⟩ := hcy.fr (f15.trans f6)
  obtain ⟨κ7, p7, e7, v7, i7, k7, w7, a7, ks7, bf7, f7, b7⟩ := mergeCP_spec hB i6 hn hcy6 k6 w6 a6
  have hch6 : ∀ z : MNode K, childP p6 z = childP p z := by
    intro z; cases z with
    | obj q => simp only [childP]; rw [f6.cache, f15.cache]
    | bin _ _ _ _ => rfl
    | un _ _ _ => rfl
  have hcv : ∀ z : MNode K, childCache p.val z = p.rd (childP p z) := by
    intro z; cases z <;> rfl
  refine ⟨κ7, p7, ?_, ?_, i7, k7, ?_, ?_, (f15.trans f6).trans f7, ?_⟩
  · simp only [push2P, e1, e2, Option.bind_eq_bind]
    rw [e3]; simp only [Option.bind_some]
    rw [e4]; simp only [Option.bind_some]
    rw [e5, hch5, e6]; simp only [Option.bind_some]
    rw [hch6]; exact e7
  · simp only [push2, Option.bind_eq_bind, hcv]
    rw [v3]; simp only [Option.bind_some]
    rw [v4]; simp only [Option.bind_some]
    rw [← hrd5, ← rx5, v6]; simp only [Option.bind_some]
    rw [← ry6]; exact v7
  · rw [ks7, ks6, ks4, ks3]
  · intro r hr'
    rcases bf7 r hr' with h1 | h1
    · rcases bf6 r h1 with h2 | h2
      · rcases bf4' r h2 with h3 | h3 | h3
        · exact Or.inl h3
        · right; rw [h3]; exact t1
        · right; rw [h3]; exact t2
      · exact Or.inr h2
    · exact Or.inr h1
  · rw [b7, b6, b5, b4, b3, b2, b1]

theorem push1P_spec {c : MCtx K} {kd : MKey → ℕ × ℕ} (hB : c.B.Sound c.E.P)
    (hp : PInv own mg kk bs p) {n : ℕ} (hn : own n = o) {x : MNode K} {κ : PCache}
    (hκ : CacheP own o p κ) (hw : CWF kd (p.rd κ)) (htag : ∀ r ∈ κ.bufs, r.1 ≠ n)
    (hcnt : p.cnt n = bs n) (hkk : kk n = (insert x.key κ.keys).card)
    {m : Mat K} {A : ℕ → ℕ → K} (hm : Rep m (kd x.key).1 (kd x.key).2 A)
    (hcx : ChildOk own mg kd o p m (childP p x)) :
    ∃ κ' p', push1P c n x m κ p = some (κ', p') ∧
      push1 c x m (p.rd κ) p.val = some (p'.rd κ') ∧
      PInv own mg kk bs p' ∧ CacheP own o p' κ' ∧
      κ'.keys = insert x.key κ.keys ∪ (childP p x).keys ∧
      (∀ r ∈ κ'.bufs, r ∈ κ.bufs ∨ r.1 = n) ∧
      PFr own o (fun m => m = n) p p' ∧ p'.base = p.base := by
  obtain ⟨p1, hl, e1, b1, rd1, i1, f1, c1, t1, so1, sn1, d1⟩ := store_spec (σ := .arr 0) hp hn trivial
    hm.wf
  have hk1 : ∀ r ∈ κ.bufs, p1.dat r = p.dat r := by
    intro r hr'
    obtain ⟨e, he, rfl⟩ := List.mem_map.1 hr'
    exact (d1 _ (hκ.ok e he).1.bound (fun g hg hb => htag _ hr' (by
      rw [hb]; exact (hp.node n).tag (.arr 0) g trivial hg))).2
  have hrd1 : p1.rd κ = p.rd κ := PSt.rd_congr fun e he => hk1 _ (List.mem_map.2 ⟨e, he, rfl⟩)
  have hlok1 : HOk p1 hl := i1.slot n _ hl sn1
  obtain ⟨κ3, p3, e3, v3, w3, i3, k3, ks3, bf3, f3, b3, c3, s3, d3⟩ := kaddP_spec (k := x.key) hB i1
    (hκ.fr f1) (by rw [hrd1]; exact hw) hlok1 (by rw [t1, hn]) (fun h => htag _ h t1)
    (by rw [rd1]; exact hm)
  rw [hrd1, rd1] at v3
  have f13 := f1.trans f3
  have hcnt3 : p3.cnt n = bs n := by rw [c3, c1]; exact hcnt
  obtain ⟨p5, e5, b5, i5, k5, f5, d5, c5, s5⟩ := cloneP_spec c i3 k3 hn hcnt3
    (by rw [ks3]; exact hkk)
  have f15 : PFr own o (fun m => m = n) p p5 := (f13.mono (fun _ h => h.elim)).trans f5
  have hrd5 : p5.rd κ3 = p3.rd κ3 := PSt.rd_congr fun e _ => by rw [d5]
  have a5 : Apart mg kk bs o n p5 κ3 := by
    intro hmg
    rw [c5]
    refine ⟨le_rfl, fun j g hj hg hb => ?_⟩
    have hσ : Wn (mg (own n)) (kk n) (bs n) (.cln j) := ⟨by rw [hn]; exact hmg, hj⟩
    have hs0 : ∀ i, p5.slots n (.arr i) = p1.slots n (.arr i) := by
      intro i; rw [s5 (.arr i) trivial, s3]
    rcases bf3 _ hb with h1 | h1
    · exact htag _ h1 ((i5.node n).tag _ g hσ hg)
    · have := (i5.node n).inj _ (.arr 0) g hl hσ trivial hg ((hs0 0).trans sn1) h1
      cases this
  have hch5 : childP p5 x = childP p x := by
    cases x with
    | obj q => simp only [childP]; rw [f15.cache]
    | bin _ _ _ _ => rfl
    | un _ _ _ => rfl
  obtain ⟨hcx5, rx5⟩ := hcx.fr f15
  obtain ⟨κ6, p6, e6, v6, i6, k6, w6, a6, ks6, bf6, f6, b6⟩ := mergeCP_spec hB i5 hn hcx5 k5
    (by rw [hrd5]; exact w3) a5
  have hcv : childCache p.val x = p.rd (childP p x) := by cases x <;> rfl
  refine ⟨κ6, p6, ?_, ?_, i6, k6, ?_, ?_, f15.trans f6, ?_⟩
  · simp only [push1P, e1, Option.bind_eq_bind]
    rw [e3]; simp only [Option.bind_some]
    rw [e5, hch5]; exact e6
  · simp only [push1, Option.bind_eq_bind, hcv]
    rw [v3]; simp only [Option.bind_some]
    rw [← hrd5, ← rx5]; exact v6
  · rw [ks6, ks3]
  · intro r hr'
    rcases bf6 r hr' with h2 | h2
    · rcases bf3 r h2 with h3 | h3
      · exact Or.inl h3
      · right; rw [h3]; exact t1
    · exact Or.inr h2
  · rw [b6, b5, b3, b1]

end

end CoolDiff
