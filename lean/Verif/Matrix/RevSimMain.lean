import Verif.Matrix.RevSim

/-!
# `traverse` of named matrices, with pointers
-/

set_option linter.unusedSectionVars false

namespace CoolDiff

variable {K : Type} [Field K] [DecidableEq K]

/-! ## Changing the state of one named matrix -/

/-- Replace the cache of `o`. -/
def PSt.setC (p : PSt K) (o : ℕ) (κ : PCache) : PSt K :=
  { p with cache := Function.update p.cache o κ }

theorem PSt.setC_cache_same (p : PSt K) (o : ℕ) (κ : PCache) : (p.setC o κ).cache o = κ := by
  simp [PSt.setC]

theorem PSt.setC_cache_ne (p : PSt K) {o q : ℕ} (κ : PCache) (h : q ≠ o) :
    (p.setC o κ).cache q = p.cache q := by simp [PSt.setC, h]

theorem PSt.setO_val (p : PSt K) (o : ℕ) (v : MObj K) :
    (p.setBase (p.base.setO o v)).val = p.val.setO o { v with cache := p.rd (p.cache o) } := by
  have h : (p.setBase (p.base.setO o v)).val.obj =
      (p.val.setO o { v with cache := p.rd (p.cache o) }).obj := by
    funext q
    by_cases hq : q = o
    · subst hq
      rw [setO_same]
      show ({ (p.base.setO q v).obj q with cache := p.rd (p.cache q) } : MObj K) = _
      rw [setO_same]
    · rw [setO_ne _ _ hq]
      show ({ (p.base.setO o v).obj q with cache := p.rd (p.cache q) } : MObj K) = _
      rw [setO_ne _ _ hq]; rfl
  show (⟨(p.setBase (p.base.setO o v)).val.obj, p.base.slot⟩ : MSt K) = _
  rw [h]; rfl

theorem PSt.setOC_val (p : PSt K) (o : ℕ) (v : MObj K) (κ : PCache) :
    ((p.setBase (p.base.setO o v)).setC o κ).val = p.val.setO o { v with cache := p.rd κ } := by
  have h : ((p.setBase (p.base.setO o v)).setC o κ).val.obj =
      (p.val.setO o { v with cache := p.rd κ }).obj := by
    funext q
    by_cases hq : q = o
    · subst hq
      rw [setO_same]
      show ({ (p.base.setO q v).obj q with cache := p.rd (((p.setBase (p.base.setO q v)).setC q
        κ).cache q) } : MObj K) = _
      rw [setO_same, PSt.setC_cache_same]
    · rw [setO_ne _ _ hq]
      show ({ (p.base.setO o v).obj q with cache := p.rd (((p.setBase (p.base.setO o v)).setC o
        κ).cache q) } : MObj K) = _
      rw [setO_ne _ _ hq, PSt.setC_cache_ne _ _ hq]; rfl
  show (⟨((p.setBase (p.base.setO o v)).setC o κ).val.obj, p.base.slot⟩ : MSt K) = _
  rw [h]; rfl

section
variable (c : MCtx K) (rank : ℕ → ℕ) (S : Set ℕ) (own : ℕ → ℕ) (mg : ℕ → Prop) (kk bs : ℕ → ℕ)
  (ck : ℕ → Finset MKey)

/-- State of the objects during traversal. -/
structure PTInv (r : ℕ) (p : PSt K) : Prop where
  inv : PInv own mg kk bs p
  idle : ∀ q ∈ S, c.E.isForm q → (p.base.obj q).visited = false → p.cache q = []
  cnt : ∀ q ∈ S, ∀ n e eye, c.E.kind q = .form n e eye → (p.base.obj q).visited = false →
    ∀ m ∈ (MEnv.item n e eye).nums, p.cnt m = bs m
  keys : ∀ q ∈ S, rank q < r → c.E.isForm q → (p.base.obj q).visited = true →
    (p.cache q).keys = ck q
  leaf : ∀ q ∈ S, ¬c.E.isForm q → p.cache q = []

/-- What traversal leaves alone. -/
structure PTF (r : ℕ) (p p' : PSt K) : Prop where
  cache : ∀ q, ¬(q ∈ S ∧ rank q < r) → p'.cache q = p.cache q
  cnt : ∀ m, ¬(own m ∈ S ∧ rank (own m) < r) → p'.cnt m = p.cnt m

variable {c rank S own mg kk bs ck}

theorem PTF.refl (r : ℕ) (p : PSt K) : PTF rank S own r p p := ⟨fun _ _ => rfl, fun _ _ => rfl⟩

theorem PTF.trans {r : ℕ} {p p' p'' : PSt K} (h : PTF rank S own r p p')
    (h' : PTF rank S own r p' p'') : PTF rank S own r p p'' :=
  ⟨fun q hq => (h'.cache q hq).trans (h.cache q hq), fun m hm => (h'.cnt m hm).trans (h.cnt m hm)⟩

/-- Evaluation leaves the objects alone. -/
theorem PTInv.setBase {r : ℕ} {p : PSt K} (h : PTInv c rank S own mg kk bs ck r p) {s : MSt K}
    (hv : ∀ q, (s.obj q).visited = (p.base.obj q).visited) :
    PTInv c rank S own mg kk bs ck r (p.setBase s) :=
  ⟨h.inv.setBase s, fun q hq hf hv' => h.idle q hq hf (by rw [← hv q]; exact hv'),
    fun q hq n e eye hk hv' => h.cnt q hq n e eye hk (by rw [← hv q]; exact hv'),
    fun q hq hr hf hv' => h.keys q hq hr hf (by rw [← hv q]; exact hv'), h.leaf⟩

variable {X : ℕ} {V : ℕ → ℕ → ℕ → K} {D : ℕ → ℕ → ℕ → ℕ → ℕ → K} {nd : ℕ → ℕ × ℕ}

/-- `traverse` of a named matrix with pointers computes the same as with matrices. -/
def TSpecP (c : MCtx K) (X : ℕ) (rank : ℕ → ℕ) (V : ℕ → ℕ → ℕ → K) (D : ℕ → ℕ → ℕ → ℕ → ℕ → K)
    (S : Set ℕ) (own : ℕ → ℕ) (nd : ℕ → ℕ × ℕ) (mg : ℕ → Prop) (kk bs : ℕ → ℕ) (ck : ℕ → Finset MKey)
    (r : ℕ) (tr : ℕ → MSt K → Option (MSt K)) (trp : ℕ → PSt K → Option (PSt K)) : Prop :=
  ∀ o ∈ S, rank o < r → ∀ p, TInv c X rank V D S own nd r p.val →
    PTInv c rank S own mg kk bs ck r p → ∃ p', trp o p = some p' ∧ tr o p.val = some p'.val ∧
      PTInv c rank S own mg kk bs ck r p' ∧ PTF rank S own r p p'

/-- First pass. -/
theorem trav1P {r : ℕ} {ev : ℕ → MSt K → Option (MSt K × Mat K)}
    {tr : ℕ → MSt K → Option (MSt K)} {trp : ℕ → PSt K → Option (PSt K)}
    (htr : TSpecO c X rank V D S own nd r tr)
    (htp : TSpecP c X rank V D S own nd mg kk bs ck r tr trp) (e : MNode K) :
    (∀ q ∈ e.objs, q ∈ S ∧ rank q < r) →
    ∀ p : PSt K, TInv c X rank V D S own nd r p.val → PTInv c rank S own mg kk bs ck r p →
    ∃ p', unlessSeenP e [] p (travEP c ev trp e [] p) = some ([], p') ∧
      unlessSeen e [] p.val (travE c ev tr e [] p.val) = some ([], p'.val) ∧
      TInv c X rank V D S own nd r p'.val ∧ PTInv c rank S own mg kk bs ck r p' ∧
      PTF rank S own r p p' := by
  induction e with
  | obj o =>
    intro hobj p hs hp
    obtain ⟨h1, h2⟩ := hobj o (by simp [MNode.objs])
    by_cases hv : (p.base.obj o).visited = true
    · have hv' : (p.val.obj o).visited = true := hv
      exact ⟨p, unlessSeenP_obj hv, unlessSeen_obj hv', hs, hp, PTF.refl r p⟩
    · obtain ⟨p', e1, e2, i1, f1⟩ := htp o h1 h2 p hs hp
      obtain ⟨s', e3, i3, _, _⟩ := htr o h1 h2 p.val hs
      rw [e2] at e3; obtain rfl := Option.some.inj e3
      refine ⟨p', ?_, ?_, i3, i1, f1⟩
      · simp [unlessSeenP, visitedOf, hv, travEP, e1]
      · have hv' : ¬(p.val.obj o).visited = true := hv
        simp [unlessSeen, visitedOf, hv', travE, e2]
  | bin n op x y ihx ihy =>
    intro hobj p hs hp
    obtain ⟨p1, e1, v1, i1, q1, f1⟩ := ihx (fun q hq => hobj q (by simp [MNode.objs, hq])) p hs hp
    obtain ⟨p2, e2, v2, i2, q2, f2⟩ := ihy (fun q hq => hobj q (by simp [MNode.objs, hq])) p1 i1 q1
    refine ⟨p2, ?_, ?_, i2, q2, f1.trans f2⟩
    · simp only [unlessSeenP_bin, travEP, PCache.find, Option.bind_eq_bind, Option.bind_some]
      rw [e1]; simp only [Option.bind_some]; rw [e2]
    · simp only [unlessSeen_bin, travE, MCache.find, Option.bind_eq_bind, Option.bind_some]
      rw [v1]; simp only [Option.bind_some]; rw [v2]
  | un n op x ih =>
    intro hobj p hs hp
    obtain ⟨p1, e1, v1, i1, q1, f1⟩ := ih (fun q hq => hobj q (by simpa [MNode.objs] using hq)) p hs hp
    refine ⟨p1, ?_, ?_, i1, q1, f1⟩
    · simp only [unlessSeenP_un, travEP, PCache.find, Option.bind_eq_bind, Option.bind_some]
      rw [e1]
    · simp only [unlessSeen_un, travE, MCache.find, Option.bind_eq_bind, Option.bind_some]
      rw [v1]

theorem travRootP_spec (h : RevOk c X rank V D S own nd) (hst : Static c.E own mg kk ck)
    {o n : ℕ} {e : MNode K} {eye : ℕ}
    (hS : o ∈ S) (hk : c.E.kind o = .form n e eye)
    {ev : ℕ → MSt K → Option (MSt K × Mat K)} (hev : ESpecO c rank V S (rank o) ev)
    {tr : ℕ → MSt K → Option (MSt K)} {trp : ℕ → PSt K → Option (PSt K)}
    (htr : TSpecO c X rank V D S own nd (rank o) tr)
    (htp : TSpecP c X rank V D S own nd mg kk bs ck (rank o) tr trp)
    {p : PSt K} (hs : TInv c X rank V D S own nd (rank o) p.val)
    (hp : PTInv c rank S own mg kk bs ck (rank o) p) (hco : p.cache o = [])
    (hcnt : ∀ m ∈ (MEnv.item n e eye).nums, p.cnt m = bs m) (hvo : (p.base.obj o).visited = true) :
    ∃ κ p', travRootP c ev trp n e (.obj eye) p = some (κ, p') ∧
      travRoot c ev tr n e (.obj eye) p.val = some (p'.rd κ, p'.val) ∧
      PTInv c rank S own mg kk bs ck (rank o) p' ∧ CacheP own o p' κ ∧ κ.keys = ck o ∧
      p'.cache o = [] ∧ (∀ q, ¬(q ∈ S ∧ rank q < rank o) → p'.cache q = p.cache q) ∧
      (∀ m, ¬(own m ∈ S ∧ rank (own m) ≤ rank o) → p'.cnt m = p.cnt m) ∧
      (∀ m, own m ≠ o → ¬(own m ∈ S ∧ rank (own m) < rank o) → p'.cnt m = p.cnt m) := by
  obtain ⟨hkeye, hre, hce, _, her, hec, hrk⟩ := h.wf.form o n e eye hk
  obtain ⟨⟨hid, _, _, _⟩, hiI, ⟨hiinv, _⟩, hidim⟩ := itemOk h.wf h.F hS hk
  obtain ⟨hnod, hnown, hnnd⟩ := h.nums o hS n e eye hk
  have hnod' : e.nums.Nodup ∧ n ∉ e.nums := by
    simp only [MEnv.item, MNode.nums, List.append_nil, List.nodup_cons] at hnod
    exact ⟨hnod.2, hnod.1⟩
  have hnn : n ∈ (MEnv.item n e eye).nums := by simp [MEnv.item, MNode.nums]
  have hne : ∀ m ∈ e.nums, m ∈ (MEnv.item n e eye).nums := fun m hm => by
    simp [MEnv.item, MNode.nums, hm]
  have hnown' : ∀ m ∈ e.nums, own m = o := fun m hm => hnown m (hne m hm)
  have hnnd' : NdOk c.E nd e := hnnd.1
  obtain ⟨ho1, ho2⟩ := h.one o hS ⟨n, e, eye, hk⟩
  have hd1 : (e.dims c.E).1 = 1 := her.symm.trans ho1
  have hd2 : (e.dims c.E).2 = 1 := hec.symm.trans ho2
  rw [hd2] at hre hce
  have hxi : ∀ q ∈ e.objs, q ∈ (MEnv.item n e eye).objs := fun q hq => by
    simp [MEnv.item, MNode.objs, hq]
  have hyi : ∀ q ∈ (MNode.obj (K := K) eye).objs, q ∈ (MEnv.item n e eye).objs := fun q hq => by
    simp only [MNode.objs, List.mem_singleton] at hq; simp [MEnv.item, MNode.objs, hq]
  have hoe : ∀ q ∈ e.objs, q ∈ S ∧ rank q < rank o := fun q hq =>
    ⟨h.cl o hS n e eye hk q (hxi q hq), hrk q (hxi q hq)⟩
  have hoy : ∀ q ∈ (MNode.obj (K := K) eye).objs, q ∈ S ∧ rank q < rank o := fun q hq =>
    ⟨h.cl o hS n e eye hk q (hyi q hq), hrk q (hyi q hq)⟩
  have nil_has : ∀ k, ¬MCache.has ([] : MCache K) k := by
    rintro k ⟨m, hm⟩; simp [MCache.find] at hm
  -- first pass
  obtain ⟨p1, e1p, e1v, i1, q1, pf1⟩ := trav1P (ev := ev) htr htp e hoe p hs hp
  obtain ⟨s1, e1, _, f1, v1⟩ := trav_first (ev := ev) htr e hoe [] (fun m _ => nil_has _) p.val hs
  obtain rfl : s1 = p1.val := (Prod.mk.inj (Option.some.inj (e1.symm.trans e1v))).2
  obtain ⟨p2, e2p, e2v, i2, q2, pf2⟩ := trav1P (ev := ev) htr htp (.obj eye) hoy p1 i1 q1
  obtain ⟨s2, e2, _, f2, v2⟩ := trav_first (ev := ev) htr (.obj eye) hoy [] (fun m _ => nil_has _)
    p1.val i1
  obtain rfl : s2 = p2.val := (Prod.mk.inj (Option.some.inj (e2.symm.trans e2v))).2
  have pf12 := pf1.trans pf2
  have vx2 : ∀ q ∈ e.objs, (p2.val.obj q).visited = true := fun q hq => f2.mono q (v1 q hq)
  -- values of the operands
  obtain ⟨s3, L, e3, i3, f3, _, w3, r3⟩ := evalE_spec h.B hev e hid
    (fun hu => hiI (Or.inl hu)) hiinv.weaken hoe p2.val i2.me
  have w3' := w3 vx2
  obtain ⟨s4, R, e4, i4, f4, _, w4, r4⟩ := evalE_spec h.B hev (.obj eye) trivial
    (fun hu => hu.elim) trivial hoy s3 i3
  have w4' := w4 (fun q hq => by rw [w3']; exact v2 q hq)
  have hw : ∀ q, (s4.obj q).visited = (p2.val.obj q).visited := fun q => (w4' q).trans (w3' q)
  have t4 : TInv c X rank V D S own nd (rank o) s4 := i2.eval i4 (f3.trans f4) hw
  obtain ⟨a7, m7, e7, l7, r7⟩ := kern_spec (k := 7) (i4.live n) (h.B.transpose (i4.live n 7) r3)
  obtain ⟨a6, m6, e6, l6, r6⟩ := kern_spec (k := 6) l7 (h.B.transpose (l7 6) r4)
  simp only [hd1, hd2] at r7
  simp only [MNode.dims, hre, hce] at r6
  have t5 := t4.setN n l6
  have hv3 : (p2.setBase s3).val = s3 := PSt.setBase_val (fun q => f3.cache q)
  have hv4 : ((p2.setBase s3).setBase s4).val = s4 :=
    PSt.setBase_val (fun q => by rw [hv3]; exact f4.cache q)
  set p4 := (p2.setBase s3).setBase s4 with hp4
  set p5 := p4.setBase (p4.base.setN n a6) with hp5
  have hvp5 : p5.val = s4.setN n a6 := by rw [hp5, PSt.setN_val, hv4]
  rw [← hvp5] at t5
  have hw5 : ∀ q, (p5.val.obj q).visited = (p2.val.obj q).visited := fun q => by rw [hvp5]; exact hw q
  have q5 : PTInv c rank S own mg kk bs ck (rank o) p5 := by
    have : p5 = p2.setBase (p4.base.setN n a6) := rfl
    rw [this]
    exact q2.setBase hw
  have hc5 : p5.cache o = [] := by
    show p2.cache o = []
    rw [pf12.cache o (fun h => by omega)]; exact hco
  have hcnt5 : ∀ m ∈ (MEnv.item n e eye).nums, p5.cnt m = bs m := by
    intro m hm
    show p2.cnt m = bs m
    rw [pf12.cnt m (fun h => by rw [hnown m hm] at h; omega)]; exact hcnt m hm
  have hox5 : ∀ q ∈ e.objs, q ∈ S ∧ rank q < rank o ∧ (p5.val.obj q).visited = true :=
    fun q hq => ⟨(hoe q hq).1, (hoe q hq).2, by rw [hw5]; exact vx2 q hq⟩
  have hoy5 : ∀ q ∈ (MNode.obj (K := K) eye).objs, q ∈ S ∧ rank q < rank o ∧
      (p5.val.obj q).visited = true :=
    fun q hq => ⟨(hoy q hq).1, (hoy q hq).2, by rw [hw5]; exact v2 q hq⟩
  have rL : Rep m6 (e.dims c.E).1 (e.dims c.E).2 (fun i j => den c.E c.sc.val V (MNode.obj eye) j i) := by
    rw [hd1, hd2]; exact r6
  have rR : Rep m7 ((MNode.obj (K := K) eye).dims c.E).1 ((MNode.obj (K := K) eye).dims c.E).2
      (fun i j => den c.E c.sc.val V e j i) := by
    simp only [MNode.dims, hre, hce]; exact r7
  obtain ⟨κ1, e8, g1, ex, _⟩ := push2_spec (x := e) (y := .obj eye) (o := o) h le_rfl t5 hox5 hoy5
    hnnd' trivial hnown' (fun m hm => by simp [MNode.nums] at hm) (fun m _ => by simp [MNode.nums])
    (CWF.nil _) (fun m _ => nil_has _) (fun m _ => nil_has _) rL rR
  -- the same with pointers
  have hkeys5 : ∀ q, q ∈ S ∧ rank q < rank o ∧ (p5.val.obj q).visited = true →
      (p5.cache q).keys = ck q := by
    intro q hq
    by_cases hf : c.E.isForm q
    · exact q5.keys q hq.1 hq.2.1 hf hq.2.2
    · rw [q5.leaf q hq.1 hf, hst.leaf q hf]; rfl
  have hmge : ∀ q ∈ (MEnv.item n e eye).objs, c.E.isForm q → mg o := fun q hq hf =>
    hst.mg o n e eye hk q hq hf
  have hcx := childOk (mg := mg) h le_rfl t5 q5.inv hox5 (fun q hq => q5.leaf q (hoe q hq).1)
    (fun q hq => hmge q (hxi q hq)) rL
  have hcy := childOk (mg := mg) h le_rfl t5 q5.inv hoy5 (fun q hq => q5.leaf q (hoy q hq).1)
    (fun q hq => hmge q (hyi q hq)) rR
  have rL' := rL
  have rR' := rR
  rw [← keyDims_key hnnd'] at rL'
  rw [← keyDims_key (nd := nd) (e := MNode.obj (K := K) eye) trivial] at rR'
  obtain ⟨hk0, hkx, hky⟩ := hst.kok o n e eye hk
  obtain ⟨κp, p6, e6p, e6v, i6, c6, k6, bf6, f6, b6⟩ := push2P_spec h.B q5.inv (hnown n hnn)
    (CacheP.nil own o p5) (by simpa [PSt.rd] using CWF.nil _) (by simp [PCache.bufs]) (hcnt5 n hnn) hk0 rL' rR' hcx hcy
  rw [childKeys (fun q hq => hkeys5 q (hox5 q hq)), childKeys (fun q hq => hkeys5 q (hoy5 q hq))] at k6
  have e6v' : push2 c e (.obj eye) m6 m7 [] p5.val = some (p6.rd κp) := e6v
  rw [e8] at e6v'
  obtain rfl := Option.some.inj e6v'
  have hvp6 : p6.val = p5.val := f6.val q5.inv hc5 b6
  have hxs := sub_spec hnod'.1
  have hsx1 : ∀ m ∈ e.sub, ¬(p6.rd κp).has (.node m) := by
    intro m hm
    obtain ⟨h1, h2⟩ := hxs m hm
    rw [MCache.has, g1.keep m (hnown' m h1)]
    · exact nil_has _
    · rintro (h3 | h3)
      · exact h2 h3
      · simp [MNode.key] at h3
  have t6 : TInv c X rank V D S own nd (rank o) p6.val := by rw [hvp6]; exact t5
  have hox6 : ∀ q ∈ e.objs, q ∈ S ∧ rank q < rank o ∧ (p6.val.obj q).visited = true :=
    fun q hq => by rw [hvp6]; exact hox5 q hq
  have hP6 : P2 c.E own mg kk bs ck o e p6 κp := by
    refine ⟨i6, by rw [f6.cache]; exact hc5,
      fun q hq => by rw [f6.cache]; exact hkeys5 q (hox5 q hq),
      fun q hq hl => by rw [f6.cache]; exact q5.leaf q (hoe q hq).1 hl,
      fun q hq => hmge q (hxi q hq), c6, ?_, ?_, ?_⟩
    · intro m hm
      rw [f6.cnt m (by rintro rfl; exact hnod'.2 hm)]; exact hcnt5 m (hne m hm)
    · intro r hr hm
      rcases bf6 r hr with h1 | h1
      · simp [PCache.bufs] at h1
      · rw [h1] at hm; exact hnod'.2 hm
    · rw [k6]; exact hkx
  obtain ⟨κ2, p7, e7p, e7v, i7, c7, k7, bf7, f7⟩ := trav2P (tr := tr) (trp := trp) h le_rfl hev e hid
    (fun hu => hiI (Or.inl hu)) hiinv hnnd' (h.coeff o hS n e eye hk) (h.conv o hS n e eye hk) hnod'.1
    hnown' κp p6 _ g1.wf ex hsx1 t6 hox6 hP6
  obtain ⟨κ2v, s7, e9, i7t, f7t, w7, g2⟩ := trav_second (tr := tr) h le_rfl hev e hid
    (fun hu => hiI (Or.inl hu)) hiinv hnnd' (h.coeff o hS n e eye hk) (h.conv o hS n e eye hk) hnod'.1
    hnown' (p6.rd κp) _ g1.wf ex hsx1 p6.val t6 hox6
  obtain ⟨rfl, rfl⟩ := Prod.mk.inj (Option.some.inj (e9.symm.trans e7v))
  have hw7 : ∀ q, (p7.val.obj q).visited = (p2.val.obj q).visited := fun q => by
    rw [w7 q, hvp6, hw5 q]
  have hveye : (p7.val.obj eye).visited = true := by
    rw [hw7]; exact v2 eye (by simp [MNode.objs])
  have f57 : PFr own o (fun m => m ∈ (MEnv.item n e eye).nums) p5 p7 :=
    (f6.mono (fun m hm => by rw [hm]; exact hnn)).trans (f7.mono hne)
  have hcache7 : p7.cache = p2.cache := f57.cache
  have hcnt7 : ∀ m, m ∉ (MEnv.item n e eye).nums → p7.cnt m = p2.cnt m := fun m hm => f57.cnt m hm
  refine ⟨κ2, p7, ?_, ?_, ⟨i7, ?_, ?_, ?_, ?_⟩, c7, ?_, ?_, ?_, ?_, ?_⟩
  · simp only [travRootP, Option.bind_eq_bind]
    rw [e1p]; simp only [Option.bind_some]
    rw [e2p]; simp only [Option.bind_some]
    rw [PSt.run_eq e3]; simp only [Option.bind_some]
    rw [PSt.run_eq (by rw [hv3]; exact e4)]; simp only [Option.bind_some]
    rw [← hp4, show p4.base.slot n = s4.slot n from rfl, e7]; simp only [Option.bind_some]
    rw [e6]; simp only [Option.bind_some]
    rw [← hp5, e6p]; simp only [Option.bind_some]
    rw [e7p]; simp only [Option.bind_some]
    exact unlessSeenP_obj hveye
  · simp only [travRoot, Option.bind_eq_bind]
    rw [e1]; simp only [Option.bind_some]
    rw [e2]; simp only [Option.bind_some]
    rw [e3]; simp only [Option.bind_some]
    rw [e4]; simp only [Option.bind_some]
    rw [e7]; simp only [Option.bind_some]
    rw [e6]; simp only [Option.bind_some]
    rw [← hvp5, e8]; simp only [Option.bind_some]
    rw [← hvp6, e9]; simp only [Option.bind_some]
    exact unlessSeen_obj hveye
  · intro q hq hf hv
    rw [hcache7]
    exact q2.idle q hq hf (by rw [← PSt.visited_val, ← hw7 q]; exact hv)
  · intro q hq n' e' eye' hk' hv m hm
    have hv2' : (p2.base.obj q).visited = false := by rw [← PSt.visited_val, ← hw7 q]; exact hv
    have hqo : q ≠ o := by
      rintro rfl
      have : (p2.val.obj q).visited = true := f2.mono _ (f1.mono _ hvo)
      rw [PSt.visited_val, hv2'] at this; cases this
    rw [hcnt7 m]
    · exact q2.cnt q hq n' e' eye' hk' hv2' m hm
    · intro hm'
      exact hqo ((hst.own q n' e' eye' hk' m hm).symm.trans (hnown m hm'))
  · intro q hq hr hf hv
    rw [hcache7]
    exact q2.keys q hq hr hf (by rw [← PSt.visited_val, ← hw7 q]; exact hv)
  · intro q hq hf
    rw [hcache7]; exact q2.leaf q hq hf
  · rw [k7, k6, hst.key o n e eye hk]; rfl
  · rw [f57.cache]; exact hc5
  · intro q hq; rw [hcache7]; exact pf12.cache q hq
  · intro m hm
    rw [hcnt7 m (fun h' => hm (by rw [hnown m h']; exact ⟨hS, le_rfl⟩))]
    exact pf12.cnt m (fun h' => hm ⟨h'.1, h'.2.le⟩)
  · intro m hm1 hm2
    rw [hcnt7 m (fun h' => hm1 (hnown m h'))]
    exact pf12.cnt m hm2

/-- `Matrix<T>::traverse`. -/
theorem mtravP_spec (h : RevOk c X rank V D S own nd) (hst : Static c.E own mg kk ck) :
    ∀ f r, r ≤ f → TSpecP c X rank V D S own nd mg kk bs ck r (mtravO c f) (mtravP c f) := by
  intro f
  induction f with
  | zero => intro r hrf o _ hr; omega
  | succ f ih =>
    intro r hrf o hS hr p hs hp
    by_cases hv : (p.base.obj o).visited = true
    · have hv' : (p.val.obj o).visited = true := hv
      exact ⟨p, by simp [mtravP, hv], by simp [mtravO, hv'], hp, PTF.refl r p⟩
    have hvf : (p.base.obj o).visited = false := by simpa using hv
    have hvf' : (p.val.obj o).visited = false := hvf
    by_cases hform : c.E.isForm o
    swap
    · set p1 := p.setBase (p.base.setO o { p.base.obj o with visited := true }) with hp1
      have hval : p1.val = p.val.setO o { p.val.obj o with visited := true } := PSt.setO_val p o _
      have h1 : mtravP c (f + 1) o p = some p1 := by
        rcases hk : c.E.kind o with _ | _ | _ | _ | ⟨n, e, eye⟩
        · simp [mtravP, hvf, hk, hp1]
        · simp [mtravP, hvf, hk, hp1]
        · simp [mtravP, hvf, hk, hp1]
        · simp [mtravP, hvf, hk, hp1]
        · exact absurd ⟨n, e, eye, hk⟩ hform
      have h2 : mtravO c (f + 1) o p.val = some p1.val := by
        rw [hval]
        rcases hk : c.E.kind o with _ | _ | _ | _ | ⟨n, e, eye⟩
        · simp [mtravO, hvf', hk]
        · simp [mtravO, hvf', hk]
        · simp [mtravO, hvf', hk]
        · simp [mtravO, hvf', hk]
        · exact absurd ⟨n, e, eye, hk⟩ hform
      have hvis : ∀ q, q ≠ o → (p1.base.obj q).visited = (p.base.obj q).visited := by
        intro q hq
        show ((p.base.setO o _).obj q).visited = _
        rw [setO_ne _ _ hq]
      have hno : ∀ q, c.E.isForm q → q ≠ o := by rintro q hq rfl; exact hform hq
      refine ⟨p1, h1, h2, ⟨hp.inv.setBase _, ?_, ?_, ?_, hp.leaf⟩, ⟨fun _ _ => rfl, fun _ _ => rfl⟩⟩
      · intro q hq hf hv; exact hp.idle q hq hf (by rw [← hvis q (hno q hf)]; exact hv)
      · intro q hq n e eye hk hv
        exact hp.cnt q hq n e eye hk (by rw [← hvis q (hno q ⟨n, e, eye, hk⟩)]; exact hv)
      · intro q hq hr hf hv; exact hp.keys q hq hr hf (by rw [← hvis q (hno q hf)]; exact hv)
    obtain ⟨n, e, eye, hk⟩ := hform
    obtain ⟨_, hre, hce, _, her, hec, hrk⟩ := h.wf.form o n e eye hk
    set p0 := p.setBase (p.base.setO o { p.base.obj o with visited := true }) with hp0
    have hval0 : p0.val = p.val.setO o { p.val.obj o with visited := true } := PSt.setO_val p o _
    have hvis0 : ∀ q, q ≠ o → (p0.base.obj q).visited = (p.base.obj q).visited := by
      intro q hq
      show ((p.base.setO o _).obj q).visited = _
      rw [setO_ne _ _ hq]
    have hvo0 : (p0.base.obj o).visited = true := by
      show ((p.base.setO o _).obj o).visited = _
      rw [setO_same]
    have hnf : ∀ q, ¬c.E.isForm q → q ≠ o := by rintro q hq rfl; exact hq ⟨n, e, eye, hk⟩
    set s0 : MSt K := p.val.setO o { p.val.obj o with visited := true } with hs0def
    have hs0 : ∀ q, q ≠ o → s0.obj q = p.val.obj q := fun q hq => setO_ne _ _ hq
    have hs0o : s0.obj o = { p.val.obj o with visited := true } := by simp [hs0def]
    have i0 : TInv c X rank V D S own nd (rank o) p0.val := by
      rw [hval0]
      refine ⟨⟨hs.me.live, ?_, ?_, ?_, ?_⟩, ?_, ?_⟩
      · intro q hq; rw [hs0 q (hnf q hq)]; exact hs.me.rlive q hq
      · intro q hqS hq; rw [hs0 q (hnf q hq)]; exact hs.me.leaf q hqS hq
      · intro q hqS hqr
        have hqo : q ≠ o := by rintro rfl; omega
        rw [hs0 q hqo]; exact hs.me.form q hqS (by omega)
      · intro q hqS hqr n' e' eye' hk' hv' q' hq'
        have hqo : q ≠ o := by rintro rfl; omega
        rw [hs0 q hqo] at hv'
        have h2 := hs.me.vc q hqS (by omega) n' e' eye' hk' hv' q' hq'
        by_cases hqo' : q' = o
        · subst hqo'; rw [hs0o]
        · rwa [hs0 q' hqo']
      · intro q hqS hq; rw [hs0 q (hnf q hq)]; exact hs.leafC q hqS hq
      · intro q hqS hqr
        have hqo : q ≠ o := by rintro rfl; omega
        rw [hs0 q hqo]; exact hs.formC q hqS (by omega)
    have q0 : PTInv c rank S own mg kk bs ck (rank o) p0 := by
      refine ⟨hp.inv.setBase _, ?_, ?_, ?_, hp.leaf⟩
      · intro q hq hf hv'
        by_cases hqo : q = o
        · subst hqo; rw [hvo0] at hv'; cases hv'
        · exact hp.idle q hq hf (by rw [← hvis0 q hqo]; exact hv')
      · intro q hq n' e' eye' hk' hv'
        by_cases hqo : q = o
        · subst hqo; rw [hvo0] at hv'; cases hv'
        · exact hp.cnt q hq n' e' eye' hk' (by rw [← hvis0 q hqo]; exact hv')
      · intro q hq hqr hf hv'
        have hqo : q ≠ o := by rintro rfl; omega
        exact hp.keys q hq (by omega) hf (by rw [← hvis0 q hqo]; exact hv')
    have hev := mevalO_spec h.wf h.B h.cl h.F h.hV f (rank o) (by omega)
    have htr := mtravO_spec h f (rank o) (by omega)
    obtain ⟨κ, p1, e1p, e1v, q1, c1, k1, co1, ca1, cn1, cn1'⟩ := travRootP_spec h hst hS hk hev htr
      (ih (rank o) (by omega)) i0 q0 (hp.idle o hS ⟨n, e, eye, hk⟩ hvf)
      (hp.cnt o hS n e eye hk hvf) hvo0
    obtain ⟨κv, s1, e1, i1, f1, v1, hC⟩ := travRoot_spec h hS hk hev htr i0
    obtain ⟨rfl, rfl⟩ := Prod.mk.inj (Option.some.inj (e1.symm.trans e1v))
    obtain ⟨hid, hiI, hiinv, hidim⟩ := itemOk h.wf h.F hS hk
    obtain ⟨s2, m, e2, i2, f2, _, w2, r2⟩ := evalE_spec h.B hev (MEnv.item n e eye) hid hiI
      hiinv.weaken (fun q hq => ⟨h.cl o hS n e eye hk q hq, hrk q hq⟩) p1.val i1.me
    have w2' := w2 v1
    have hv2 : (p1.setBase s2).val = s2 := PSt.setBase_val (fun q => f2.cache q)
    set p2 := p1.setBase s2 with hp2
    set v3 : MObj K := { p2.base.obj o with result := some m, evald := true } with hv3
    set p3 : PSt K := (p2.setBase (p2.base.setO o v3)).setC o κ with hp3
    have hval3 : p3.val = s2.setO o
        { s2.obj o with result := some m, evald := true, cache := p1.rd κ } := by
      rw [hp3, PSt.setOC_val, hv2]; rfl
    have hvis3 : ∀ q, (p3.base.obj q).visited = (p1.base.obj q).visited := by
      intro q
      have h1 : (p3.base.obj q).visited = (s2.obj q).visited := by
        by_cases hq : q = o
        · subst hq
          show ((p2.base.setO q _).obj q).visited = _
          rw [setO_same]; rfl
        · show ((p2.base.setO o _).obj q).visited = _
          rw [setO_ne _ _ hq]; rfl
      rw [h1, w2' q]; rfl
    have hvis1o : (p1.base.obj o).visited = true := by
      have : (p1.val.obj o).visited = true := f1.mono o hvo0
      exact this
    have hca3 : ∀ q, q ≠ o → p3.cache q = p1.cache q := fun q hq => by
      rw [hp3, PSt.setC_cache_ne _ _ hq]; rfl
    have hca3o : p3.cache o = κ := by
      rw [hp3, PSt.setC_cache_same]
    have hmono : ∀ q, rank o ≤ rank q → q ≠ o → (p1.base.obj q).visited = (p.base.obj q).visited := by
      intro q hq hqo
      have h1 : p1.val.obj q = p0.val.obj q := f1.out q (fun h => by omega)
      have h2 : (p1.val.obj q).visited = (p0.val.obj q).visited := by rw [h1]
      exact h2.trans (hvis0 q hqo)
    refine ⟨p3, ?_, ?_, ⟨⟨?_, ?_, ?_⟩, ?_, ?_, ?_, ?_⟩, ⟨?_, ?_⟩⟩
    · simp only [mtravP, hvf, hk, Bool.false_eq_true, if_false]
      rw [← hp0, e1p]
      simp only [Option.bind_eq_bind, Option.bind_some]
      rw [PSt.run_eq e2]; rfl
    · rw [hval3]
      simp only [mtravO, hvf', hk, Bool.false_eq_true, if_false]
      rw [← hs0def, ← hval0, e1]
      simp only [Option.bind_eq_bind, Option.bind_some]
      rw [e2]; rfl
    · intro k σ g hg
      have := q1.inv.slot k σ g hg
      exact ⟨this.rpos, this.cpos, this.len, this.bound⟩
    · intro q e' he
      by_cases hq : q = o
      · subst hq
        rw [hca3o] at he
        obtain ⟨a1, a2⟩ := c1.ok e' he
        exact ⟨⟨a1.rpos, a1.cpos, a1.len, a1.bound⟩, a2⟩
      · rw [hca3 q hq] at he
        obtain ⟨a1, a2⟩ := q1.inv.cache q e' he
        exact ⟨⟨a1.rpos, a1.cpos, a1.len, a1.bound⟩, a2⟩
    · exact q1.inv.node
    · intro q hq hf hv'
      rw [hvis3] at hv'
      have hqo : q ≠ o := by rintro rfl; rw [hvis1o] at hv'; cases hv'
      rw [hca3 q hqo]; exact q1.idle q hq hf hv'
    · intro q hq n' e' eye' hk' hv' m' hm'
      rw [hvis3] at hv'
      exact q1.cnt q hq n' e' eye' hk' hv' m' hm'
    · intro q hq hqr hf hv'
      rw [hvis3] at hv'
      by_cases hqo : q = o
      · subst hqo; rw [hca3o]; exact k1
      · rw [hca3 q hqo]
        by_cases hlt : rank q < rank o
        · exact q1.keys q hq hlt hf hv'
        · rw [ca1 q (fun h => hlt h.2)]
          show (p.cache q).keys = _
          exact hp.keys q hq hqr hf (by rw [← hmono q (by omega) hqo]; exact hv')
    · intro q hq hf
      rw [hca3 q (hnf q hf)]; exact q1.leaf q hq hf
    · intro q hq
      have hqo : q ≠ o := by rintro rfl; exact hq ⟨hS, hr⟩
      rw [hca3 q hqo, ca1 q (fun h => hq ⟨h.1, by omega⟩)]; rfl
    · intro m' hm'
      show p1.cnt m' = _
      rw [cn1 m' (fun h => hm' ⟨h.1, by omega⟩)]; rfl

end

end CoolDiff
