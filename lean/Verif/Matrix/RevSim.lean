import Verif.Matrix.RevPush

/-!
# Traversal with pointers computes the same as traversal with matrices
-/

set_option linter.unusedSectionVars false

namespace CoolDiff

variable {K : Type} [Field K] [DecidableEq K]

/-! ## Keys of the caches

The keys that a formula's cache gets depend on the formula only. -/

/-- Keys that come from merging the cache of an operand. -/
def ckOf (ck : ℕ → Finset MKey) : MNode K → Finset MKey
  | .obj q => ck q
  | _ => ∅

/-- Keys after the traversal of an expression, with keys `s` before. -/
def tKeys (ck : ℕ → Finset MKey) : MNode K → Finset MKey → Finset MKey
  | .obj _, s => s
  | .bin _ _ x y, s =>
    tKeys ck y (tKeys ck x (insert y.key (insert x.key s) ∪ ckOf ck x ∪ ckOf ck y))
  | .un _ _ x, s => tKeys ck x (insert x.key s ∪ ckOf ck x)

/-- `kk n` is the number of entries that node `n` clones. -/
def KOk (ck : ℕ → Finset MKey) (kk : ℕ → ℕ) : MNode K → Finset MKey → Prop
  | .obj _, _ => True
  | .bin n _ x y, s => kk n = (insert y.key (insert x.key s)).card ∧
      KOk ck kk x (insert y.key (insert x.key s) ∪ ckOf ck x ∪ ckOf ck y) ∧
      KOk ck kk y (tKeys ck x (insert y.key (insert x.key s) ∪ ckOf ck x ∪ ckOf ck y))
  | .un n _ x, s => kk n = (insert x.key s).card ∧ KOk ck kk x (insert x.key s ∪ ckOf ck x)

/-- What is known about the formulas of a program: the owner of every node, the keys of every cache, the
numbers of clones, and which formulas mention formulas. -/
structure Static (E : MEnv K) (own : ℕ → ℕ) (mg : ℕ → Prop) (kk : ℕ → ℕ) (ck : ℕ → Finset MKey) :
    Prop where
  own : ∀ q n e eye, E.kind q = .form n e eye → ∀ m ∈ (MEnv.item n e eye).nums, own m = q
  nodup : ∀ q n e eye, E.kind q = .form n e eye → (MEnv.item n e eye).nums.Nodup
  key : ∀ q n e eye, E.kind q = .form n e eye → ck q = tKeys ck (MEnv.item n e eye) ∅
  leaf : ∀ q, ¬E.isForm q → ck q = ∅
  kok : ∀ q n e eye, E.kind q = .form n e eye → KOk ck kk (MEnv.item n e eye) ∅
  mg : ∀ q n e eye, E.kind q = .form n e eye → ∀ q' ∈ (MEnv.item n e eye).objs, E.isForm q' → mg q

/-! ## States -/

theorem PSt.setBase_val {p : PSt K} {s : MSt K}
    (h : ∀ q, (s.obj q).cache = (p.val.obj q).cache) : (p.setBase s).val = s := by
  have h1 : (p.setBase s).val.obj = s.obj := by
    funext q
    have := h q
    show ({ s.obj q with cache := p.rd (p.cache q) } : MObj K) = s.obj q
    have h2 : p.rd (p.cache q) = (s.obj q).cache := this.symm
    rw [h2]
  have h2 : (p.setBase s).val.slot = s.slot := rfl
  show (⟨(p.setBase s).val.obj, (p.setBase s).val.slot⟩ : MSt K) = s
  rw [h1, h2]

theorem PSt.setN_val (p : PSt K) (n : ℕ) (a : Slots K) :
    (p.setBase (p.base.setN n a)).val = p.val.setN n a := rfl

theorem PSt.visited_val (p : PSt K) (q : ℕ) : (p.val.obj q).visited = (p.base.obj q).visited := rfl

theorem PSt.run_eq {α : Type} {p : PSt K} {g : MSt K → Option (MSt K × α)} {s : MSt K} {a : α}
    (h : g p.val = some (s, a)) : p.run g = some (p.setBase s, a) := by
  simp [PSt.run, h]

theorem visitedOf_val (p : PSt K) (x : MNode K) : visitedOf p.base x = visitedOf p.val x := by
  cases x <;> rfl

theorem unlessSeenP_obj {q : ℕ} {κ : PCache} {p : PSt K} (h : (p.base.obj q).visited = true) {r} :
    unlessSeenP (.obj q) κ p r = some (κ, p) := by simp [unlessSeenP, visitedOf, h]

theorem unlessSeenP_bin {n : ℕ} {op : MBin} {x y : MNode K} {κ : PCache} {p : PSt K} {r} :
    unlessSeenP (.bin n op x y) κ p r = r := by simp [unlessSeenP, visitedOf]

theorem unlessSeenP_un {n : ℕ} {op : MUn K} {x : MNode K} {κ : PCache} {p : PSt K} {r} :
    unlessSeenP (.un n op x) κ p r = r := by simp [unlessSeenP, visitedOf]

section
variable {own : ℕ → ℕ} {mg : ℕ → Prop} {kk bs : ℕ → ℕ} {o : ℕ} {p p' : PSt K}

theorem PInv.setBase (h : PInv own mg kk bs p) (s : MSt K) : PInv own mg kk bs (p.setBase s) :=
  ⟨fun m σ g hg => let a := h.slot m σ g hg; ⟨a.rpos, a.cpos, a.len, a.bound⟩,
    fun q e he => let a := h.cache q e he; ⟨⟨a.1.rpos, a.1.cpos, a.1.len, a.1.bound⟩, a.2⟩, h.node⟩

theorem PFr.setBase (N : ℕ → Prop) (s : MSt K) : PFr own o N p (p.setBase s) :=
  ⟨rfl, fun _ _ => rfl, fun _ => le_rfl, fun _ _ _ => rfl, fun _ _ => rfl⟩

end

/-- The same when everything mentioned is visited: nothing happens. -/
theorem travP_idle {c : MCtx K} {ev : ℕ → MSt K → Option (MSt K × Mat K)}
    {tr : ℕ → PSt K → Option (PSt K)} (e : MNode K) (κ : PCache) (p : PSt K) :
    (∀ n ∈ e.nums, κ.find (.node n) = none) → (∀ q ∈ e.objs, (p.base.obj q).visited = true) →
    unlessSeenP e κ p (travEP c ev tr e κ p) = some (κ, p) := by
  induction e with
  | obj o => intro _ hv; exact unlessSeenP_obj (hv o (by simp [MNode.objs]))
  | bin n op x y ihx ihy =>
    intro hκ hv
    have e1 := ihx (fun m hm => hκ m (by simp [MNode.nums, hm]))
      (fun q hq => hv q (by simp [MNode.objs, hq]))
    have e2 := ihy (fun m hm => hκ m (by simp [MNode.nums, hm]))
      (fun q hq => hv q (by simp [MNode.objs, hq]))
    have hn := hκ n (by simp [MNode.nums])
    simp only [unlessSeenP_bin, travEP, hn, Option.bind_eq_bind, Option.bind_some]
    rw [e1]; simp only [Option.bind_some]; rw [e2]
  | un n op x ih =>
    intro hκ hv
    have e1 := ih (fun m hm => hκ m (by simp [MNode.nums, hm]))
      (fun q hq => hv q (by simpa [MNode.objs] using hq))
    have hn := hκ n (by simp [MNode.nums])
    simp only [unlessSeenP_un, travEP, hn, Option.bind_eq_bind, Option.bind_some]
    rw [e1]

section
variable {c : MCtx K} {X : ℕ} {rank : ℕ → ℕ} {V : ℕ → ℕ → ℕ → K} {D : ℕ → ℕ → ℕ → ℕ → ℕ → K}
  {S : Set ℕ} {own : ℕ → ℕ} {nd : ℕ → ℕ × ℕ} {mg : ℕ → Prop} {kk bs : ℕ → ℕ} {ck : ℕ → Finset MKey}

/-! ## Second pass -/

/-- State of the objects and the cache when the second pass reaches expression `e` of formula `o`. -/
structure P2 (E : MEnv K) (own : ℕ → ℕ) (mg : ℕ → Prop) (kk bs : ℕ → ℕ) (ck : ℕ → Finset MKey) (o : ℕ)
    (e : MNode K) (p : PSt K) (κ : PCache) : Prop where
  inv : PInv own mg kk bs p
  co : p.cache o = []
  keys : ∀ q ∈ e.objs, (p.cache q).keys = ck q
  leaf : ∀ q ∈ e.objs, ¬E.isForm q → p.cache q = []
  mg : ∀ q ∈ e.objs, E.isForm q → mg o
  cp : CacheP own o p κ
  cnt : ∀ m ∈ e.nums, p.cnt m = bs m
  tag : ∀ r ∈ κ.bufs, r.1 ∉ e.nums
  kok : KOk ck kk e κ.keys

theorem P2.fr {o : ℕ} {e e' : MNode K} {p p' : PSt K} {κ κ' : PCache} {N : ℕ → Prop}
    (h : P2 c.E own mg kk bs ck o e p κ) (hf : PFr own o N p p') (ho : ∀ q ∈ e'.objs, q ∈ e.objs)
    (hn : ∀ m ∈ e'.nums, m ∈ e.nums ∧ ¬N m) (hi : PInv own mg kk bs p') (hc : CacheP own o p' κ')
    (ht : ∀ r ∈ κ'.bufs, r.1 ∉ e'.nums) (hk : KOk ck kk e' κ'.keys) :
    P2 c.E own mg kk bs ck o e' p' κ' :=
  ⟨hi, by rw [hf.cache]; exact h.co, fun q hq => by rw [hf.cache]; exact h.keys q (ho q hq),
    fun q hq hl => by rw [hf.cache]; exact h.leaf q (ho q hq) hl,
    fun q hq hl => h.mg q (ho q hq) hl, hc,
    fun m hm => by rw [hf.cnt m (hn m hm).2]; exact h.cnt m (hn m hm).1, ht, hk⟩

/-- The caches of the operands, for `push2P`. -/
theorem childOk (h : RevOk c X rank V D S own nd) {o r : ℕ} (hr : r ≤ rank o) {x : MNode K}
    {p : PSt K} (hs : TInv c X rank V D S own nd r p.val) (hi : PInv own mg kk bs p)
    (hobj : ∀ q ∈ x.objs, q ∈ S ∧ rank q < r ∧ (p.val.obj q).visited = true)
    (hleaf : ∀ q ∈ x.objs, ¬c.E.isForm q → p.cache q = [])
    (hmg : ∀ q ∈ x.objs, c.E.isForm q → mg o)
    {m : Mat K} {A : ℕ → ℕ → K} (hm : Rep m (x.dims c.E).1 (x.dims c.E).2 A) :
    ChildOk own mg (keyDims c.E nd) o p m (childP p x) := by
  have key : childP p x = [] → ChildOk own mg (keyDims c.E nd) o p m (childP p x) := by
    intro he
    rw [he]
    exact ⟨CWF.nil _, by simp, fun h => absurd rfl h⟩
  cases x with
  | bin n op a b => exact key rfl
  | un n op a => exact key rfl
  | obj q =>
    have hq : q ∈ (MNode.obj (K := K) q).objs := by simp [MNode.objs]
    obtain ⟨h1, h2, h3⟩ := hobj q hq
    by_cases hf : c.E.isForm q
    swap
    · exact key (hleaf q hq hf)
    refine ⟨(hs.formC q h1 h2 hf h3).wf, ?_, fun _ => ⟨hmg q hq hf, A, ?_⟩⟩
    · intro e he
      obtain ⟨a1, a2⟩ := hi.cache q e he
      refine ⟨a1, ?_⟩
      rw [a2]; rintro rfl; omega
    · obtain ⟨b1, b2⟩ := h.one q h1 hf
      simp only [MNode.dims, b1, b2] at hm
      exact hm

theorem childKeys {x : MNode K} {p : PSt K} (hk : ∀ q ∈ x.objs, (p.cache q).keys = ck q) :
    (childP p x).keys = ckOf ck x := by
  cases x with
  | obj q => exact hk q (by simp [MNode.objs])
  | bin _ _ _ _ => rfl
  | un _ _ _ => rfl

theorem find_none_of_rd {p : PSt K} {κ : PCache} {k : MKey} (h : ¬(p.rd κ).has k) :
    κ.find k = none := by
  rw [PSt.has_rd] at h; exact (PCache.find_none_iff κ k).2 h

/-- Second pass. -/
theorem trav2P (h : RevOk c X rank V D S own nd) {o r : ℕ} (hr : r ≤ rank o)
    {ev : ℕ → MSt K → Option (MSt K × Mat K)} (hev : ESpecO c rank V S r ev)
    {tr : ℕ → MSt K → Option (MSt K)} {trp : ℕ → PSt K → Option (PSt K)} (e : MNode K) :
    DimOk c.E e → (UsesInv e → c.B.InvSound) → Invertible True c.E c.sc.val V e →
    NdOk c.E nd e → CoeffConst (c.sd X) (c.E.rows X) (c.E.cols X) e →
    ConvRev c.E c.sc.val (c.sd X) V D X e →
    e.nums.Nodup → (∀ n ∈ e.nums, own n = o) →
    ∀ (κ : PCache) (p : PSt K) (A : ℕ → ℕ → K), CWF (keyDims c.E nd) (p.rd κ) →
    EntryOk c.E (p.rd κ) A e → (∀ n ∈ e.sub, ¬(p.rd κ).has (.node n)) →
    TInv c X rank V D S own nd r p.val →
    (∀ q ∈ e.objs, q ∈ S ∧ rank q < r ∧ (p.val.obj q).visited = true) →
    P2 c.E own mg kk bs ck o e p κ →
    ∃ κ' p', unlessSeenP e κ p (travEP c ev trp e κ p) = some (κ', p') ∧
      unlessSeen e (p.rd κ) p.val (travE c ev tr e (p.rd κ) p.val) = some (p'.rd κ', p'.val) ∧
      PInv own mg kk bs p' ∧ CacheP own o p' κ' ∧ κ'.keys = tKeys ck e κ.keys ∧
      (∀ r ∈ κ'.bufs, r ∈ κ.bufs ∨ r.1 ∈ e.nums) ∧ PFr own o (fun m => m ∈ e.nums) p p' := by
  induction e with
  | obj q =>
    intro _ _ _ _ _ _ _ _ κ p A _ _ _ _ hobj hp
    have hv := (hobj q (by simp [MNode.objs])).2.2
    exact ⟨κ, p, unlessSeenP_obj hv, unlessSeen_obj hv, hp.inv, hp.cp, rfl, fun _ h => Or.inl h,
      PFr.refl _⟩
  | bin n op x y ihx ihy =>
    intro hdim hI hinv hnd hcf hcv hnum hown κ p A hκ hent hsub hs hobj hp
    obtain ⟨hdx, hdy, hd, hpad⟩ := hdim
    obtain ⟨hnx, hny, hnn⟩ := hnd
    obtain ⟨C, hfC, hC⟩ := hent
    change (p.rd κ).find (.node n) = some C at hfC
    have hfP := hfC
    rw [PSt.find_rd, Option.map_eq_some_iff] at hfP
    obtain ⟨hC0, hfP, hCr⟩ := hfP
    simp only [MNode.nums, List.nodup_cons, List.nodup_append, List.mem_append, not_or] at hnum
    obtain ⟨⟨hn0x, hn0y⟩, hnumx, hnumy, hdisj⟩ := hnum
    have hsx : ∀ q ∈ x.objs, q ∈ (MNode.bin n op x y).objs := fun q hq => by simp [MNode.objs, hq]
    have hsy : ∀ q ∈ y.objs, q ∈ (MNode.bin n op x y).objs := fun q hq => by simp [MNode.objs, hq]
    have hnmx : ∀ m ∈ x.nums, m ∈ (MNode.bin n op x y).nums := fun m hm => by simp [MNode.nums, hm]
    have hnmy : ∀ m ∈ y.nums, m ∈ (MNode.bin n op x y).nums := fun m hm => by simp [MNode.nums, hm]
    have hnn0 : n ∈ (MNode.bin n op x y).nums := by simp [MNode.nums]
    have hox := fun q hq => hobj q (hsx q hq)
    have hoy := fun q hq => hobj q (hsy q hq)
    have hwx : ∀ m ∈ x.nums, own m = o := fun m hm => hown m (hnmx m hm)
    have hwy : ∀ m ∈ y.nums, own m = o := fun m hm => hown m (hnmy m hm)
    have hax : ∀ m ∈ x.nums, ¬(p.rd κ).has (.node m) := fun m hm => hsub m (by simp [MNode.sub, hm])
    have hay : ∀ m ∈ y.nums, ¬(p.rd κ).has (.node m) := fun m hm => hsub m (by simp [MNode.sub, hm])
    have hdis : ∀ m ∈ x.nums, m ∉ y.nums := fun m hm hm' => hdisj m hm m hm' rfl
    have t1 := trav_idle (c := c) (ev := ev) (tr := tr) x _ p.val hax (fun q hq => (hox q hq).2.2)
    have t2 := trav_idle (c := c) (ev := ev) (tr := tr) y _ p.val hay (fun q hq => (hoy q hq).2.2)
    have t1' := travP_idle (c := c) (ev := ev) (tr := trp) x κ p
      (fun m hm => find_none_of_rd (hax m hm)) (fun q hq => (hox q hq).2.2)
    have t2' := travP_idle (c := c) (ev := ev) (tr := trp) y κ p
      (fun m hm => find_none_of_rd (hay m hm)) (fun q hq => (hoy q hq).2.2)
    obtain ⟨s1, L, R, e1, i1, f1, w1, rL, rR⟩ := revVals2_spec h hev op hdx hdy
      (fun hu => hI (Or.inl hu)) (fun hu => hI (Or.inr hu)) hinv.1 hinv.2 hs hox hoy C
    obtain ⟨a, mL, mR, aL, e2, l2, r2, r3, r4⟩ := MBin.rev_spec h.B op (i1.me.live n) hd hpad hcv.2.2
      rL rR hC
    have i2 := i1.setN n l2
    have hv2 : ∀ q, ((s1.setN n a).obj q).visited = (p.val.obj q).visited := w1
    -- the state after evaluation
    have hv1 : (p.setBase s1).val = s1 := PSt.setBase_val (fun q => f1.cache q)
    set p2 := (p.setBase s1).setBase ((p.setBase s1).base.setN n a) with hp2
    have hvp2 : p2.val = s1.setN n a := by rw [hp2, PSt.setN_val, hv1]
    have fr2 : PFr own o (fun _ => False) p p2 := (PFr.setBase _ s1).trans (PFr.setBase _ _)
    have hrd2 : p2.rd κ = p.rd κ := rfl
    rw [← hvp2] at i2 hv2
    have hox2 : ∀ q ∈ x.objs, q ∈ S ∧ rank q < r ∧ (p2.val.obj q).visited = true :=
      fun q hq => by rw [hv2]; exact hox q hq
    have hoy2 : ∀ q ∈ y.objs, q ∈ S ∧ rank q < r ∧ (p2.val.obj q).visited = true :=
      fun q hq => by rw [hv2]; exact hoy q hq
    obtain ⟨κ1, e3, g1, ex, ey⟩ := push2_spec h hr i2 hox2 hoy2 hnx hny hwx hwy hdis
      hκ hax hay r2 r3
    have iv2 : PInv own mg kk bs p2 := (hp.inv.setBase _).setBase _
    have hcx := childOk (mg := mg) h hr i2 iv2 hox2 (fun q hq => hp.leaf q (hsx q hq))
      (fun q hq => hp.mg q (hsx q hq)) r2
    have hcy := childOk (mg := mg) h hr i2 iv2 hoy2 (fun q hq => hp.leaf q (hsy q hq))
      (fun q hq => hp.mg q (hsy q hq)) r3
    have r2' := r2
    have r3' := r3
    rw [← keyDims_key hnx] at r2'
    rw [← keyDims_key hny] at r3'
    obtain ⟨hk0, hkx, hky⟩ := hp.kok
    obtain ⟨κp, p3, e3p, e3v, i3, c3, k3, bf3, f3, b3⟩ := push2P_spec h.B iv2
      (hown n hnn0) (hp.cp.fr fr2) (by rw [hrd2]; exact hκ) (fun r hr hh => hp.tag r hr (hh ▸ hnn0))
      (hp.cnt n hnn0) hk0 r2' r3' hcx hcy
    have hkx2 : (childP p2 x).keys = ckOf ck x := childKeys (fun q hq => hp.keys q (hsx q hq))
    have hky2 : (childP p2 y).keys = ckOf ck y := childKeys (fun q hq => hp.keys q (hsy q hq))
    rw [hkx2, hky2] at k3
    rw [hrd2, e3] at e3v
    obtain rfl := Option.some.inj e3v
    have hvp3 : p3.val = p2.val := f3.val iv2 hp.co b3
    have fr3 : PFr own o (fun m => m = n) p p3 := (fr2.mono (fun _ h => h.elim)).trans f3
    -- second visits
    have hxs := sub_spec hnumx
    have hys := sub_spec hnumy
    have hsx1 : ∀ m ∈ x.sub, ¬(p3.rd κp).has (.node m) := by
      intro m hm
      obtain ⟨h1, h2⟩ := hxs m hm
      rw [MCache.has, g1.keep m (hwx m h1)]
      · exact hax m h1
      · rintro (h3 | h3)
        · exact h2 h3
        · exact hdis m h1 (key_mem_nums h3)
    have hsy1 : ∀ m ∈ y.sub, ¬(p3.rd κp).has (.node m) := by
      intro m hm
      obtain ⟨h1, h2⟩ := hys m hm
      rw [MCache.has, g1.keep m (hwy m h1)]
      · exact hay m h1
      · rintro (h3 | h3)
        · exact hdis m (key_mem_nums h3) h1
        · exact h2 h3
    have i3t : TInv c X rank V D S own nd r p3.val := by rw [hvp3]; exact i2
    have hv3 : ∀ q, (p3.val.obj q).visited = (p.val.obj q).visited := fun q => by rw [hvp3]; exact hv2 q
    have hox3 : ∀ q ∈ x.objs, q ∈ S ∧ rank q < r ∧ (p3.val.obj q).visited = true :=
      fun q hq => by rw [hv3]; exact hox q hq
    have hP3 : P2 c.E own mg kk bs ck o x p3 κp := by
      refine hp.fr fr3 hsx (fun m hm => ⟨hnmx m hm, ?_⟩) i3 c3 ?_ ?_
      · rintro rfl; exact hn0x hm
      · intro r hr hm
        rcases bf3 r hr with h1 | h1
        · exact hp.tag r h1 (hnmx _ hm)
        · rw [h1] at hm; exact hn0x hm
      · rw [k3]; exact hkx
    obtain ⟨κ2, p4, e4p, e4v, i4, c4, k4, bf4, f4⟩ := ihx hdx (fun hu => hI (Or.inl hu)) hinv.1 hnx
      hcf.1 hcv.1 hnumx hwx κp p3 _ g1.wf ex hsx1 i3t hox3 hP3
    obtain ⟨κ2v, s4, e4, i4t, f4t, w4, g2⟩ := trav_second (tr := tr) h hr hev x hdx
      (fun hu => hI (Or.inl hu)) hinv.1 hnx hcf.1 hcv.1 hnumx hwx (p3.rd κp) _ g1.wf ex hsx1 p3.val
      i3t hox3
    have heq : (κ2v, s4) = (p4.rd κ2, p4.val) := Option.some.inj (e4.symm.trans e4v)
    obtain ⟨rfl, rfl⟩ := Prod.mk.inj heq
    have hv4 : ∀ q, (p4.val.obj q).visited = (p.val.obj q).visited := fun q => (w4 q).trans (hv3 q)
    have hxsub : ∀ m ∈ y.nums, m ∉ x.sub := fun m hm hm' => hdis m (hxs m hm').1 hm
    have ey2 := ey.of (κ' := p4.rd κ2) (fun m hm =>
      g2.keep m (hwy m (key_mem_nums hm)) (hxsub m (key_mem_nums hm)))
    have hsy2 : ∀ m ∈ y.sub, ¬(p4.rd κ2).has (.node m) := by
      intro m hm
      obtain ⟨h1, h2⟩ := hys m hm
      rw [MCache.has, g2.keep m (hwy m h1) (hxsub m h1)]
      exact hsy1 m hm
    have fr4 : PFr own o (fun m => m = n ∨ m ∈ x.nums) p p4 :=
      (fr3.mono (fun _ h => Or.inl h)).trans (f4.mono (fun _ h => Or.inr h))
    have hP4 : P2 c.E own mg kk bs ck o y p4 κ2 := by
      refine hp.fr fr4 hsy (fun m hm => ⟨hnmy m hm, ?_⟩) i4 c4 ?_ ?_
      · rintro (rfl | h1)
        · exact hn0y hm
        · exact hdis m h1 hm
      · intro r hr hm
        rcases bf4 r hr with h1 | h1
        · rcases bf3 r h1 with h2 | h2
          · exact hp.tag r h2 (hnmy _ hm)
          · rw [h2] at hm; exact hn0y hm
        · exact hdis _ h1 hm
      · rw [k4, k3]; exact hky
    obtain ⟨κ3, p5, e5p, e5v, i5, c5, k5, bf5, f5⟩ := ihy hdy (fun hu => hI (Or.inr hu)) hinv.2 hny
      hcf.2 hcv.2.1 hnumy hwy κ2 p4 _ g2.wf ey2 hsy2 i4t (fun q hq => by rw [hv4]; exact hoy q hq) hP4
    refine ⟨κ3, p5, ?_, ?_, i5, c5, ?_, ?_, ?_⟩
    · simp only [unlessSeenP_bin, travEP, hfP, Option.bind_eq_bind]
      rw [t1']; simp only [Option.bind_some]
      rw [t2']; simp only [Option.bind_some]
      rw [hCr, PSt.run_eq e1]; simp only [Option.bind_some]
      rw [show (p.setBase s1).base.slot n = s1.slot n from rfl, e2]; simp only [Option.bind_some]
      rw [← hp2, e3p]; simp only [Option.bind_some]
      rw [e4p]; simp only [Option.bind_some]
      rw [e5p]
    · simp only [unlessSeen_bin, travE, hfC, Option.bind_eq_bind]
      rw [t1]; simp only [Option.bind_some]
      rw [t2]; simp only [Option.bind_some]
      rw [e1]; simp only [Option.bind_some]
      rw [e2]; simp only [Option.bind_some]
      rw [← hvp2, e3]; simp only [Option.bind_some]
      rw [← hvp3, e4]; simp only [Option.bind_some]
      rw [e5v]
    · rw [k5, k4, k3]; rfl
    · intro r hr
      rcases bf5 r hr with h1 | h1
      · rcases bf4 r h1 with h2 | h2
        · rcases bf3 r h2 with h3 | h3
          · exact Or.inl h3
          · right; rw [h3]; exact hnn0
        · exact Or.inr (hnmx _ h2)
      · exact Or.inr (hnmy _ h1)
    · refine (fr4.mono ?_).trans (f5.mono (fun m hm => hnmy m hm))
      rintro m (rfl | hm)
      · exact hnn0
      · exact hnmx m hm
  | un n op x ih =>
    intro hdim hI hinv hnd hcf hcv hnum hown κ p A hκ hent hsub hs hobj hp
    obtain ⟨hdx, hd⟩ := hdim
    obtain ⟨hnx, hnn⟩ := hnd
    obtain ⟨C, hfC, hC⟩ := hent
    change (p.rd κ).find (.node n) = some C at hfC
    have hfP := hfC
    rw [PSt.find_rd, Option.map_eq_some_iff] at hfP
    obtain ⟨hC0, hfP, hCr⟩ := hfP
    simp only [MNode.nums, List.nodup_cons] at hnum
    obtain ⟨hn0, hnumx⟩ := hnum
    have hsx : ∀ q ∈ x.objs, q ∈ (MNode.un n op x).objs := fun q hq => by simp [MNode.objs, hq]
    have hnmx : ∀ m ∈ x.nums, m ∈ (MNode.un n op x).nums := fun m hm => by simp [MNode.nums, hm]
    have hnn0 : n ∈ (MNode.un n op x).nums := by simp [MNode.nums]
    have hox := fun q hq => hobj q (hsx q hq)
    have hwx : ∀ m ∈ x.nums, own m = o := fun m hm => hown m (hnmx m hm)
    have hax : ∀ m ∈ x.nums, ¬(p.rd κ).has (.node m) := fun m hm => hsub m (by simp [MNode.sub, hm])
    have hIx : UsesInv x → c.B.InvSound := fun hu => hI (by cases op <;> simp [UsesInv, hu])
    have hvx : Invertible True c.E c.sc.val V x := by
      cases op <;> first | exact hinv | exact hinv.1
    have t1 := trav_idle (c := c) (ev := ev) (tr := tr) x _ p.val hax (fun q hq => (hox q hq).2.2)
    have t1' := travP_idle (c := c) (ev := ev) (tr := trp) x κ p
      (fun m hm => find_none_of_rd (hax m hm)) (fun q hq => (hox q hq).2.2)
    obtain ⟨s1, R, e1, i1, f1, w1, rR⟩ := revVals1_spec h hev op hdx hIx hvx hs hox C
    rw [dims_un] at hC
    obtain ⟨a, m, e2, l2, r2⟩ := MUn.rev_spec h.B op
      (fun hu => hI (by cases op <;> simp_all [UsesInv, MUn.isInv])) (i1.me.live n) hd rR hC
      (by
        intro hu
        cases op with
        | inv => exact hinv.2
        | det => exact hinv.2 trivial
        | _ => exact hu.elim)
    have i2 := i1.setN n l2
    have hv2 : ∀ q, ((s1.setN n a).obj q).visited = (p.val.obj q).visited := w1
    have hv1 : (p.setBase s1).val = s1 := PSt.setBase_val (fun q => f1.cache q)
    set p2 := (p.setBase s1).setBase ((p.setBase s1).base.setN n a) with hp2
    have hvp2 : p2.val = s1.setN n a := by rw [hp2, PSt.setN_val, hv1]
    have fr2 : PFr own o (fun _ => False) p p2 := (PFr.setBase _ s1).trans (PFr.setBase _ _)
    have hrd2 : p2.rd κ = p.rd κ := rfl
    rw [← hvp2] at i2 hv2
    have hox2 : ∀ q ∈ x.objs, q ∈ S ∧ rank q < r ∧ (p2.val.obj q).visited = true :=
      fun q hq => by rw [hv2]; exact hox q hq
    obtain ⟨κ1, e3, g1, ex⟩ := push1_spec h hr i2 hox2 hnx hwx hκ hax r2
    have iv2 : PInv own mg kk bs p2 := (hp.inv.setBase _).setBase _
    have hcx := childOk (mg := mg) h hr i2 iv2 hox2 (fun q hq => hp.leaf q (hsx q hq))
      (fun q hq => hp.mg q (hsx q hq)) r2
    have r2' := r2
    rw [← keyDims_key hnx] at r2'
    obtain ⟨hk0, hkx⟩ := hp.kok
    obtain ⟨κp, p3, e3p, e3v, i3, c3, k3, bf3, f3, b3⟩ := push1P_spec h.B iv2
      (hown n hnn0) (hp.cp.fr fr2) (by rw [hrd2]; exact hκ) (fun r hr hh => hp.tag r hr (hh ▸ hnn0))
      (hp.cnt n hnn0) hk0 r2' hcx
    have hkx2 : (childP p2 x).keys = ckOf ck x := childKeys (fun q hq => hp.keys q (hsx q hq))
    rw [hkx2] at k3
    rw [hrd2, e3] at e3v
    obtain rfl := Option.some.inj e3v
    have hvp3 : p3.val = p2.val := f3.val iv2 hp.co b3
    have fr3 : PFr own o (fun m => m = n) p p3 := (fr2.mono (fun _ h => h.elim)).trans f3
    have hxs := sub_spec hnumx
    have hsx1 : ∀ m ∈ x.sub, ¬(p3.rd κp).has (.node m) := by
      intro m hm
      obtain ⟨h1, h2⟩ := hxs m hm
      rw [MCache.has, g1.keep m (hwx m h1) h2]
      exact hax m h1
    have i3t : TInv c X rank V D S own nd r p3.val := by rw [hvp3]; exact i2
    have hv3 : ∀ q, (p3.val.obj q).visited = (p.val.obj q).visited := fun q => by rw [hvp3]; exact hv2 q
    have hox3 : ∀ q ∈ x.objs, q ∈ S ∧ rank q < r ∧ (p3.val.obj q).visited = true :=
      fun q hq => by rw [hv3]; exact hox q hq
    have hP3 : P2 c.E own mg kk bs ck o x p3 κp := by
      refine hp.fr fr3 hsx (fun m hm => ⟨hnmx m hm, ?_⟩) i3 c3 ?_ ?_
      · rintro rfl; exact hn0 hm
      · intro r hr hm
        rcases bf3 r hr with h1 | h1
        · exact hp.tag r h1 (hnmx _ hm)
        · rw [h1] at hm; exact hn0 hm
      · rw [k3]; exact hkx
    obtain ⟨κ2, p4, e4p, e4v, i4, c4, k4, bf4, f4⟩ := ih hdx hIx hvx hnx
      hcf.1 hcv hnumx hwx κp p3 _ g1.wf ex hsx1 i3t hox3 hP3
    refine ⟨κ2, p4, ?_, ?_, i4, c4, ?_, ?_, ?_⟩
    · simp only [unlessSeenP_un, travEP, hfP, Option.bind_eq_bind]
      rw [t1']; simp only [Option.bind_some]
      rw [hCr, PSt.run_eq e1]; simp only [Option.bind_some]
      rw [show (p.setBase s1).base.slot n = s1.slot n from rfl, e2]; simp only [Option.bind_some]
      rw [← hp2, e3p]; simp only [Option.bind_some]
      rw [e4p]
    · simp only [unlessSeen_un, travE, hfC, Option.bind_eq_bind]
      rw [t1]; simp only [Option.bind_some]
      rw [e1]; simp only [Option.bind_some]
      rw [e2]; simp only [Option.bind_some]
      rw [← hvp2, e3]; simp only [Option.bind_some]
      rw [← hvp3, e4v]
    · rw [k4, k3]; rfl
    · intro r hr
      rcases bf4 r hr with h1 | h1
      · rcases bf3 r h1 with h2 | h2
        · exact Or.inl h2
        · right; rw [h2]; exact hnn0
      · exact Or.inr (hnmx _ h1)
    · refine (fr3.mono ?_).trans (f4.mono (fun m hm => hnmx m hm))
      rintro m rfl; exact hnn0

end

end CoolDiff
