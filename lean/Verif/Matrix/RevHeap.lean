import Verif.Matrix.RevPtr
import Verif.Matrix.RevMain

/-!
# Reverse-mode caches as pointers: sharing of buffers

When the operations of `RevPtr.lean` on pointers compute the same as those of `Rev.lean` on matrices.
-/

set_option linter.unusedSectionVars false

namespace CoolDiff

variable {K : Type} [Field K] [DecidableEq K]

/-! ## Caches -/

namespace PCache

/-- The keys. -/
def keys (κ : PCache) : Finset MKey := (κ.map Prod.fst).toFinset

/-- The buffers of the entries. -/
def bufs (κ : PCache) : List BufRef := κ.map fun e => e.2.buf

theorem find_put (κ : PCache) (k k' : MKey) (m : PHdr) :
    (κ.put k m).find k' = if k' = k then some m else κ.find k' := by
  induction κ with
  | nil =>
    by_cases h : k' = k
    · subst h; simp [put, find]
    · simp [put, find, h, Ne.symm h]
  | cons p l ih =>
    obtain ⟨k0, m0⟩ := p
    by_cases h0 : k0 = k
    · subst h0
      by_cases h : k' = k0
      · subst h; simp [put, find]
      · simp [put, find, h, Ne.symm h]
    · simp only [put, if_neg h0, find]
      by_cases h1 : k0 = k'
      · subst h1; simp [h0]
      · simp [h1, ih]

theorem find_mem {κ : PCache} {k : MKey} {m : PHdr} (h : κ.find k = some m) : (k, m) ∈ κ := by
  induction κ with
  | nil => simp [find] at h
  | cons p l ih =>
    obtain ⟨k0, m0⟩ := p
    by_cases h0 : k0 = k
    · subst h0; simp only [find, if_true, Option.some.injEq] at h; subst h; simp
    · simp only [find, if_neg h0] at h
      exact List.mem_cons_of_mem _ (ih h)

theorem find_none_iff (κ : PCache) (k : MKey) : κ.find k = none ↔ k ∉ κ.keys := by
  induction κ with
  | nil => simp [find, keys]
  | cons p l ih =>
    obtain ⟨k0, m0⟩ := p
    simp only [keys, List.mem_toFinset] at ih ⊢
    by_cases h : k0 = k
    · subst h; simp [find]
    · simp only [find, if_neg h, ih, List.map_cons, List.mem_cons]
      exact ⟨fun h1 h2 => h2.elim (fun h3 => h h3.symm) h1, fun h1 h2 => h1 (Or.inr h2)⟩

/-- Adding a new key appends an entry. -/
theorem put_new {κ : PCache} {k : MKey} (m : PHdr) (h : k ∉ κ.keys) : κ.put k m = κ ++ [(k, m)] := by
  induction κ with
  | nil => rfl
  | cons p l ih =>
    obtain ⟨k0, m0⟩ := p
    simp only [keys, List.map_cons, List.toFinset_cons, Finset.mem_insert, not_or] at h
    simp only [put, if_neg (Ne.symm h.1), List.cons_append]
    rw [ih h.2]

/-- Replacing an entry by one with the same buffer keeps the list of buffers. -/
theorem bufs_put {κ : PCache} {k : MKey} {m cur : PHdr} (h : κ.find k = some cur)
    (hb : m.buf = cur.buf) : (κ.put k m).bufs = κ.bufs := by
  induction κ with
  | nil => simp [find] at h
  | cons p l ih =>
    obtain ⟨k0, m0⟩ := p
    by_cases h0 : k0 = k
    · subst h0
      simp only [find, if_true, Option.some.injEq] at h
      subst h
      simp [put, bufs, hb]
    · simp only [find, if_neg h0] at h
      simp only [put, if_neg h0, bufs, List.map_cons]
      congr 1
      exact ih h

theorem fst_put {κ : PCache} {k : MKey} {m cur : PHdr} (h : κ.find k = some cur) :
    (κ.put k m).map Prod.fst = κ.map Prod.fst := by
  induction κ with
  | nil => simp [find] at h
  | cons p l ih =>
    obtain ⟨k0, m0⟩ := p
    by_cases h0 : k0 = k
    · subst h0; simp [put]
    · simp only [find, if_neg h0] at h
      simp only [put, if_neg h0, List.map_cons]
      rw [ih h]

theorem mem_put {κ : PCache} {k : MKey} {m : PHdr} {e : MKey × PHdr} (h : e ∈ κ.put k m) :
    e = (k, m) ∨ e ∈ κ := by
  induction κ with
  | nil => simpa [put] using h
  | cons p l ih =>
    obtain ⟨k0, m0⟩ := p
    by_cases h0 : k0 = k
    · subst h0
      simp only [put, if_true, List.mem_cons] at h
      rcases h with h | h
      · exact Or.inl h
      · exact Or.inr (List.mem_cons_of_mem _ h)
    · simp only [put, if_neg h0, List.mem_cons] at h
      rcases h with h | h
      · exact Or.inr (by rw [h]; simp)
      · exact (ih h).imp id (List.mem_cons_of_mem _)

theorem mem_bufs {κ : PCache} {k : MKey} {m : PHdr} (h : κ.find k = some m) : m.buf ∈ κ.bufs :=
  List.mem_map.2 ⟨_, find_mem h, rfl⟩

theorem mem_keys_of_find {κ : PCache} {k : MKey} {m : PHdr} (h : κ.find k = some m) : k ∈ κ.keys := by
  by_contra hh
  rw [(find_none_iff κ k).2 hh] at h; cases h

theorem find_of_mem_keys {κ : PCache} {k : MKey} (h : k ∈ κ.keys) : ∃ m, κ.find k = some m := by
  rcases hf : κ.find k with _ | m
  · exact absurd h ((find_none_iff κ k).1 hf)
  · exact ⟨m, rfl⟩

end PCache

namespace PSt

theorem find_rd (p : PSt K) (κ : PCache) (k : MKey) : (p.rd κ).find k = (κ.find k).map p.read := by
  induction κ with
  | nil => rfl
  | cons e l ih =>
    obtain ⟨k0, m0⟩ := e
    simp only [rd] at ih
    by_cases h : k0 = k
    · simp [rd, MCache.find, PCache.find, h]
    · simp [rd, MCache.find, PCache.find, h, ih]

theorem rd_put (p : PSt K) (κ : PCache) (k : MKey) (h : PHdr) :
    p.rd (κ.put k h) = (p.rd κ).put k (p.read h) := by
  induction κ with
  | nil => rfl
  | cons e l ih =>
    obtain ⟨k0, m0⟩ := e
    simp only [rd] at ih
    by_cases h0 : k0 = k
    · simp [rd, MCache.put, PCache.put, h0]
    · simp [rd, MCache.put, PCache.put, h0, ih]

theorem rd_fst (p : PSt K) (κ : PCache) : (p.rd κ).map Prod.fst = κ.map Prod.fst := by
  simp [rd, List.map_map, Function.comp_def]

theorem rd_congr {p p' : PSt K} {κ : PCache} (h : ∀ e ∈ κ, p'.dat e.2.buf = p.dat e.2.buf) :
    p'.rd κ = p.rd κ := by
  refine List.map_congr_left fun e he => ?_
  simp [read, h e he]

theorem has_rd (p : PSt K) (κ : PCache) (k : MKey) : (p.rd κ).has k ↔ k ∈ κ.keys := by
  rw [← MCache.mem_keys, rd_fst, PCache.keys, List.mem_toFinset]

end PSt

/-! ## Invariants of the heap -/

/-- An object in order: the buffer exists and has the right length. -/
structure HOk (p : PSt K) (h : PHdr) : Prop where
  rpos : 0 < h.rows
  cpos : 0 < h.cols
  len : (p.dat h.buf).length = h.rows * h.cols
  bound : h.buf.2 < p.next h.buf.1

theorem HOk.wf {p : PSt K} {h : PHdr} (hh : HOk p h) : (p.read h).WF := ⟨hh.rpos, hh.cpos, hh.len⟩

/-- The slots of a node that own their buffers: the results of the reverse rule and, if the formula
mentions other formulas, the objects for scaled entries (after the clones). -/
def Wn (mg : Prop) (k b : ℕ) : PSlot → Prop
  | .arr _ => True
  | .cln j => mg ∧ b + k ≤ j

/-- These slots have buffers of their own. -/
structure NodeOk (mg : Prop) (k b n : ℕ) (sl : PSlot → Option PHdr) : Prop where
  tag : ∀ σ h, Wn mg k b σ → sl σ = some h → h.buf.1 = n
  inj : ∀ σ τ h g, Wn mg k b σ → Wn mg k b τ → sl σ = some h → sl τ = some g → h.buf = g.buf → σ = τ

theorem NodeOk.mono {mg : Prop} {k b b' n : ℕ} {sl : PSlot → Option PHdr} (h : NodeOk mg k b n sl)
    (hb : mg → b ≤ b') : NodeOk mg k b' n sl := by
  have hw : ∀ σ, Wn mg k b' σ → Wn mg k b σ := by
    intro σ hσ
    cases σ with
    | arr i => trivial
    | cln j => exact ⟨hσ.1, by have := hb hσ.1; have := hσ.2; omega⟩
  exact ⟨fun σ g hσ => h.tag σ g (hw σ hσ), fun σ τ g g' hσ hτ => h.inj σ τ g g' (hw σ hσ) (hw τ hτ)⟩

theorem NodeOk.set {mg : Prop} {k b n : ℕ} {sl : PSlot → Option PHdr} (h : NodeOk mg k b n sl)
    {σ : PSlot} {g : PHdr} (hg : Wn mg k b σ → g.buf.1 = n ∧
      ∀ τ g', τ ≠ σ → Wn mg k b τ → sl τ = some g' → g'.buf ≠ g.buf) :
    NodeOk mg k b n (Function.update sl σ (some g)) := by
  constructor
  · intro τ g' hτ hs
    by_cases ht : τ = σ
    · subst ht; rw [Function.update_self] at hs; cases hs; exact (hg hτ).1
    · rw [Function.update_of_ne ht] at hs; exact h.tag τ g' hτ hs
  · intro τ υ g1 g2 hτ hυ h1 h2 hb
    by_cases ht : τ = σ <;> by_cases hu : υ = σ
    · rw [ht, hu]
    · subst ht
      rw [Function.update_self] at h1; cases h1
      rw [Function.update_of_ne hu] at h2
      exact absurd hb.symm ((hg hτ).2 υ g2 hu hυ h2)
    · subst hu
      rw [Function.update_self] at h2; cases h2
      rw [Function.update_of_ne ht] at h1
      exact absurd hb ((hg hυ).2 τ g1 ht hτ h1)
    · rw [Function.update_of_ne ht] at h1; rw [Function.update_of_ne hu] at h2
      exact h.inj τ υ g1 g2 hτ hυ h1 h2 hb

/-- Heap invariant: objects in order, cached entries of a formula in buffers of its own nodes, own
slots of the nodes separate.  `bs n`: where `m_cloned` of node `n` starts in the current run. -/
structure PInv (own : ℕ → ℕ) (mg : ℕ → Prop) (kk bs : ℕ → ℕ) (p : PSt K) : Prop where
  slot : ∀ n σ h, p.slots n σ = some h → HOk p h
  cache : ∀ q, ∀ e ∈ p.cache q, HOk p e.2 ∧ own e.2.buf.1 = q
  node : ∀ n, NodeOk (mg (own n)) (kk n) (bs n) n (p.slots n)

/-- The cache of formula `o` under construction: every key once, every buffer once, buffers of nodes
of `o`. -/
structure CacheP (own : ℕ → ℕ) (o : ℕ) (p : PSt K) (κ : PCache) : Prop where
  keys : (κ.map Prod.fst).Nodup
  bufs : κ.bufs.Nodup
  ok : ∀ e ∈ κ, HOk p e.2 ∧ own e.2.buf.1 = o

theorem CacheP.nil (own : ℕ → ℕ) (o : ℕ) (p : PSt K) : CacheP own o p [] :=
  ⟨by simp, by simp [PCache.bufs], by simp⟩

theorem CacheP.card {own : ℕ → ℕ} {o : ℕ} {p : PSt K} {κ : PCache} (h : CacheP own o p κ) :
    κ.keys.card = κ.length := by
  rw [PCache.keys, List.toFinset_card_of_nodup h.keys, List.length_map]

/-- What work on nodes `N` of formula `o` leaves alone. -/
structure PFr (own : ℕ → ℕ) (o : ℕ) (N : ℕ → Prop) (p p' : PSt K) : Prop where
  cache : p'.cache = p.cache
  cnt : ∀ n, ¬N n → p'.cnt n = p.cnt n
  next : ∀ n, p.next n ≤ p'.next n
  dat : ∀ r : BufRef, r.2 < p.next r.1 → own r.1 ≠ o → p'.dat r = p.dat r
  len : ∀ r : BufRef, r.2 < p.next r.1 → (p'.dat r).length = (p.dat r).length

section
variable {own : ℕ → ℕ} {mg : ℕ → Prop} {kk bs : ℕ → ℕ} {o : ℕ} {p p' p'' : PSt K}

theorem PFr.refl (N : ℕ → Prop) : PFr own o N p p :=
  ⟨rfl, fun _ _ => rfl, fun _ => le_rfl, fun _ _ _ => rfl, fun _ _ => rfl⟩

theorem PFr.trans {N : ℕ → Prop} (h : PFr own o N p p') (h' : PFr own o N p' p'') :
    PFr own o N p p'' :=
  ⟨h'.cache.trans h.cache, fun n hn => (h'.cnt n hn).trans (h.cnt n hn),
    fun n => (h.next n).trans (h'.next n),
    fun r hr ho => (h'.dat r (lt_of_lt_of_le hr (h.next _)) ho).trans (h.dat r hr ho),
    fun r hr => (h'.len r (lt_of_lt_of_le hr (h.next _))).trans (h.len r hr)⟩

theorem PFr.mono {N N' : ℕ → Prop} (h : PFr own o N p p') (hn : ∀ n, N n → N' n) :
    PFr own o N' p p' :=
  ⟨h.cache, fun n hn' => h.cnt n (fun h' => hn' (hn n h')), h.next, h.dat, h.len⟩

theorem HOk.fr {N : ℕ → Prop} {h : PHdr} (hh : HOk p h) (hf : PFr own o N p p') : HOk p' h :=
  ⟨hh.rpos, hh.cpos, (hf.len _ hh.bound).trans hh.len, lt_of_lt_of_le hh.bound (hf.next _)⟩

theorem PInv.caches {N : ℕ → Prop} (hp : PInv own mg kk bs p) (hf : PFr own o N p p') :
    ∀ q, ∀ e ∈ p'.cache q, HOk p' e.2 ∧ own e.2.buf.1 = q := by
  intro q e he
  rw [hf.cache] at he
  obtain ⟨h1, h2⟩ := hp.cache q e he
  exact ⟨h1.fr hf, h2⟩

/-- The caches of the other formulas keep their contents. -/
theorem PFr.rd {N : ℕ → Prop} (hf : PFr own o N p p') (hp : PInv own mg kk bs p)
    (ho : p.cache o = []) (q : ℕ) : p'.rd (p'.cache q) = p.rd (p.cache q) := by
  rw [hf.cache]
  refine PSt.rd_congr fun e he => ?_
  obtain ⟨h1, h2⟩ := hp.cache q e he
  refine hf.dat _ h1.bound ?_
  rintro h3
  rw [h2] at h3; subst h3
  rw [ho] at he; simp at he

theorem PFr.val {N : ℕ → Prop} (hf : PFr own o N p p') (hp : PInv own mg kk bs p)
    (ho : p.cache o = []) (hb : p'.base = p.base) : p'.val = p.val := by
  simp only [PSt.val, hb, hf.rd hp ho]

/-! ## Storing a result -/

theorem alloc_spec (hp : PInv own mg kk bs p) {n : ℕ} (hn : own n = o) {σ : PSlot}
    (hσ : Wn (mg (own n)) (kk n) (bs n) σ) {m : Mat K} (hm : m.WF) :
    ∃ p' h, p.alloc n σ m = (p', h) ∧ p'.base = p.base ∧ p'.read h = m ∧ PInv own mg kk bs p' ∧
      PFr own o (fun _ => False) p p' ∧ p'.cnt = p.cnt ∧ h.buf.1 = n ∧
      (∀ τ, τ ≠ σ → p'.slots n τ = p.slots n τ) ∧ p'.slots n σ = some h ∧
      (∀ r : BufRef, r.2 < p.next r.1 → r ≠ h.buf ∧ p'.dat r = p.dat r) := by
  set h : PHdr := ⟨m.rows, m.cols, (n, p.next n)⟩ with hh
  set p' : PSt K := (p.alloc n σ m).1 with hp'
  have hnext : ∀ k, p.next k ≤ p'.next k := by
    intro k
    by_cases hk : k = n
    · subst hk; simp [hp', PSt.alloc, PSt.write, PSt.setS]
    · simp [hp', PSt.alloc, PSt.write, PSt.setS, hk]
  have hnew : ∀ r : BufRef, r.2 < p.next r.1 → r ≠ h.buf := by
    rintro r hr rfl
    simp [hh] at hr
  have hdat : ∀ r : BufRef, r ≠ h.buf → p'.dat r = p.dat r := by
    intro r hr
    simp only [hp', PSt.alloc, PSt.write, PSt.setS]
    rw [Function.update_of_ne (by simpa [hh] using hr)]
  have hdath : p'.dat h.buf = m.data := by
    simp [hp', PSt.alloc, PSt.write, PSt.setS, hh]
  have hfr : PFr own o (fun _ => False) p p' :=
    ⟨rfl, fun _ _ => rfl, hnext, fun r hr _ => hdat r (hnew r hr),
      fun r hr => by rw [hdat r (hnew r hr)]⟩
  have hsn : p'.slots n = Function.update (p.slots n) σ (some h) := by
    simp [hp', PSt.alloc, PSt.write, PSt.setS, hh]
  have hso : ∀ k, k ≠ n → p'.slots k = p.slots k := by
    intro k hk; simp [hp', PSt.alloc, PSt.write, PSt.setS, hk]
  have hhok : HOk p' h :=
    ⟨hm.rpos, hm.cpos, by rw [hdath]; exact hm.len, by
      simp [hp', PSt.alloc, PSt.write, PSt.setS, hh]⟩
  refine ⟨p', h, rfl, rfl, ?_, ⟨?_, hp.caches hfr, ?_⟩, hfr, rfl, rfl, ?_, ?_, ?_⟩
  · simp only [PSt.read, hdath]; rfl
  · intro k τ g hg
    by_cases hk : k = n
    · subst hk
      rw [hsn] at hg
      by_cases ht : τ = σ
      · subst ht; rw [Function.update_self] at hg; rw [← Option.some.inj hg]; exact hhok
      · rw [Function.update_of_ne ht] at hg; exact (hp.slot _ _ _ hg).fr hfr
    · rw [hso k hk] at hg; exact (hp.slot _ _ _ hg).fr hfr
  · intro k
    by_cases hk : k = n
    · subst hk
      rw [hsn]
      exact (hp.node k).set fun _ => ⟨rfl, fun τ g' _ _ hg => hnew _ (hp.slot _ _ _ hg).bound⟩
    · rw [hso k hk]; exact hp.node k
  · intro τ ht; rw [hsn, Function.update_of_ne ht]
  · rw [hsn, Function.update_self]
  · intro r hr; exact ⟨hnew r hr, hdat r (hnew r hr)⟩

/-- Storing the result of a kernel in a slot with a buffer of its own. -/
theorem store_spec (hp : PInv own mg kk bs p) {n : ℕ} (hn : own n = o) {σ : PSlot}
    (hσ : Wn (mg (own n)) (kk n) (bs n) σ) {m : Mat K} (hm : m.WF) :
    ∃ p' h, p.store n σ m = (p', h) ∧ p'.base = p.base ∧ p'.read h = m ∧ PInv own mg kk bs p' ∧
      PFr own o (fun _ => False) p p' ∧ p'.cnt = p.cnt ∧ h.buf.1 = n ∧
      (∀ τ, τ ≠ σ → p'.slots n τ = p.slots n τ) ∧ p'.slots n σ = some h ∧
      (∀ r : BufRef, r.2 < p.next r.1 → (∀ g, p.slots n σ = some g → r ≠ g.buf) →
        r ≠ h.buf ∧ p'.dat r = p.dat r) := by
  have halloc : p.store n σ m = p.alloc n σ m → ∃ p' h, p.store n σ m = (p', h) ∧
      p'.base = p.base ∧ p'.read h = m ∧ PInv own mg kk bs p' ∧
      PFr own o (fun _ => False) p p' ∧ p'.cnt = p.cnt ∧ h.buf.1 = n ∧
      (∀ τ, τ ≠ σ → p'.slots n τ = p.slots n τ) ∧ p'.slots n σ = some h ∧
      (∀ r : BufRef, r.2 < p.next r.1 → (∀ g, p.slots n σ = some g → r ≠ g.buf) →
        r ≠ h.buf ∧ p'.dat r = p.dat r) := by
    intro he
    obtain ⟨p', h, e1, h2, h3, h4, h5, h6, h7, h8, h9, h10⟩ := alloc_spec hp hn hσ hm
    exact ⟨p', h, he.trans e1, h2, h3, h4, h5, h6, h7, h8, h9, fun r hr _ => h10 r hr⟩
  rcases hg : p.slots n σ with _ | g
  · rw [hg] at halloc; exact halloc (by simp [PSt.store, hg])
  rw [hg] at halloc
  by_cases hc : m.rows * m.cols = g.rows * g.cols
  swap
  · exact halloc (by simp [PSt.store, hg, hc])
  have hgok := hp.slot n σ g hg
  set h : PHdr := ⟨m.rows, m.cols, g.buf⟩ with hh
  set p' : PSt K := (p.write g.buf m.data).setS n σ h with hp'
  have hgt : g.buf.1 = n := (hp.node n).tag σ g hσ hg
  have hdat : ∀ r : BufRef, r ≠ g.buf → p'.dat r = p.dat r := by
    intro r hr
    simp only [hp', PSt.write, PSt.setS]
    rw [Function.update_of_ne hr]
  have hdath : p'.dat g.buf = m.data := by simp [hp', PSt.write, PSt.setS]
  have hfr : PFr own o (fun _ => False) p p' := by
    refine ⟨rfl, fun _ _ => rfl, fun _ => le_rfl, fun r hr ho => hdat r ?_, fun r hr => ?_⟩
    · rintro rfl; exact ho (by rw [hgt, hn])
    · by_cases hr' : r = g.buf
      · subst hr'; rw [hdath, hm.len, hc, hgok.len]
      · rw [hdat r hr']
  have hsn : p'.slots n = Function.update (p.slots n) σ (some h) := by
    simp [hp', PSt.write, PSt.setS]
  have hso : ∀ k, k ≠ n → p'.slots k = p.slots k := by
    intro k hk; simp [hp', PSt.write, PSt.setS, hk]
  have hhok : HOk p' h := ⟨hm.rpos, hm.cpos, by
    show (p'.dat g.buf).length = _
    rw [hdath]; exact hm.len, hgok.bound⟩
  refine ⟨p', h, by simp [PSt.store, hg, hc, hp', hh], rfl, ?_, ⟨?_, hp.caches hfr, ?_⟩, hfr, rfl,
    hgt, ?_, ?_, ?_⟩
  · show (⟨m.rows, m.cols, p'.dat g.buf⟩ : Mat K) = m
    rw [hdath]
  · intro k τ g' hg'
    by_cases hk : k = n
    · subst hk
      rw [hsn] at hg'
      by_cases ht : τ = σ
      · subst ht; rw [Function.update_self] at hg'; rw [← Option.some.inj hg']; exact hhok
      · rw [Function.update_of_ne ht] at hg'; exact (hp.slot _ _ _ hg').fr hfr
    · rw [hso k hk] at hg'; exact (hp.slot _ _ _ hg').fr hfr
  · intro k
    by_cases hk : k = n
    · subst hk
      rw [hsn]
      exact (hp.node k).set fun _ => ⟨hgt, fun τ g' ht hτ hs hb =>
        ht ((hp.node k).inj τ σ g' g hτ hσ hs hg hb)⟩
    · rw [hso k hk]; exact hp.node k
  · intro τ ht; rw [hsn, Function.update_of_ne ht]
  · rw [hsn, Function.update_self]
  · intro r _ hr
    have : r ≠ g.buf := hr g rfl
    exact ⟨this, hdat r this⟩

/-! ## Adding to an entry -/

theorem kaddP_spec {c : MCtx K} {kd : MKey → ℕ × ℕ} (hB : c.B.Sound c.E.P)
    (hp : PInv own mg kk bs p) {κ : PCache} (hκ : CacheP own o p κ) (hw : CWF kd (p.rd κ))
    {k : MKey} {h : PHdr} (hh : HOk p h) (ho : own h.buf.1 = o) (hb : h.buf ∉ κ.bufs)
    {A : ℕ → ℕ → K} (hm : Rep (p.read h) (kd k).1 (kd k).2 A) :
    ∃ κ' p', kaddP c κ k h p = some (κ', p') ∧ kadd c (p.rd κ) k (p.read h) = some (p'.rd κ') ∧
      CWF kd (p'.rd κ') ∧ PInv own mg kk bs p' ∧ CacheP own o p' κ' ∧
      κ'.keys = insert k κ.keys ∧ (∀ r ∈ κ'.bufs, r ∈ κ.bufs ∨ r = h.buf) ∧
      PFr own o (fun _ => False) p p' ∧ p'.base = p.base ∧ p'.cnt = p.cnt ∧ p'.slots = p.slots ∧
      (∀ r, r ∉ κ.bufs → p'.dat r = p.dat r) := by
  obtain ⟨κv, ev, wv, _, _, _⟩ := kadd_spec hB hw hm
  rcases hf : κ.find k with _ | cur
  · have hk : k ∉ κ.keys := (PCache.find_none_iff κ k).1 hf
    have hput := PCache.put_new h hk
    have e1 : kadd c (p.rd κ) k (p.read h) = some (p.rd (κ.put k h)) := by
      simp [kadd, PSt.find_rd, hf, PSt.rd_put]
    refine ⟨κ.put k h, p, by simp [kaddP, hf], e1, ?_, hp, ⟨?_, ?_, ?_⟩, ?_, ?_, PFr.refl _, rfl, rfl,
      rfl, fun _ _ => rfl⟩
    · rw [e1] at ev; cases ev; exact wv
    · rw [hput, List.map_append, List.nodup_append]
      refine ⟨hκ.keys, by simp, ?_⟩
      intro a ha b hb' hab
      simp only [List.map_cons, List.map_nil, List.mem_singleton] at hb'
      subst hb'; subst hab
      exact hk (by rw [PCache.keys, List.mem_toFinset]; exact ha)
    · rw [hput, PCache.bufs, List.map_append, List.nodup_append]
      refine ⟨hκ.bufs, by simp, ?_⟩
      intro a ha b hb' hab
      simp only [List.map_cons, List.map_nil, List.mem_singleton] at hb'
      subst hb'; subst hab
      exact hb ha
    · intro e he
      rcases PCache.mem_put he with rfl | he
      · exact ⟨hh, ho⟩
      · exact hκ.ok e he
    · rw [hput, PCache.keys, List.map_append, List.toFinset_append, PCache.keys]
      ext a; simp [or_comm]
    · intro r hr
      rw [hput, PCache.bufs, List.map_append, List.mem_append] at hr
      rcases hr with hr | hr
      · exact Or.inl hr
      · simp at hr; exact Or.inr hr
  · have hcm := PCache.find_mem hf
    obtain ⟨hcok, hco⟩ := hκ.ok _ hcm
    have hfv : (p.rd κ).find k = some (p.read cur) := by simp [PSt.find_rd, hf]
    have ev0 := ev
    simp only [kadd, hfv, Option.map_eq_some_iff] at ev
    obtain ⟨M, eM, rfl⟩ := ev
    obtain ⟨wM, rM, cM⟩ := wv.ok k M (by rw [MCache.find_put, if_pos rfl])
    obtain ⟨_, rC, cC⟩ := hw.ok k _ hfv
    have hlen : M.data.length = (p.dat cur.buf).length := by
      rw [wM.len, rM, cM, ← rC, ← cC]; exact hcok.len.symm
    set h' : PHdr := ⟨M.rows, M.cols, cur.buf⟩ with hh'
    set p' : PSt K := p.write cur.buf M.data with hp'
    have hdat : ∀ r, r ≠ cur.buf → p'.dat r = p.dat r := by
      intro r hr; simp [hp', PSt.write, hr]
    have hdatc : p'.dat cur.buf = M.data := by simp [hp', PSt.write]
    have hfr : PFr own o (fun _ => False) p p' := by
      refine ⟨rfl, fun _ _ => rfl, fun _ => le_rfl, fun r _ hro => hdat r ?_, fun r _ => ?_⟩
      · rintro rfl; exact hro hco
      · by_cases hr : r = cur.buf
        · subst hr; rw [hdatc, hlen]
        · rw [hdat r hr]
    have hread' : p'.read h' = M := by
      show (⟨M.rows, M.cols, p'.dat cur.buf⟩ : Mat K) = M
      rw [hdatc]
    -- the other entries keep their contents
    have hrd : p'.rd (κ.put k h') = (p.rd κ).put k M := by
      rw [PSt.rd_put, hread']
      have key : ∀ l : PCache, (l.map Prod.fst).Nodup → l.bufs.Nodup → l.find k = some cur →
          (p'.rd l).put k M = (p.rd l).put k M := by
        intro l
        induction l with
        | nil => intro _ _ h; simp [PCache.find] at h
        | cons e l ih =>
          obtain ⟨k0, m0⟩ := e
          intro h1 h2 h3
          simp only [List.map_cons, List.nodup_cons] at h1
          simp only [PCache.bufs, List.map_cons, List.nodup_cons] at h2
          by_cases h0 : k0 = k
          · subst h0
            simp only [PCache.find, if_true, Option.some.injEq] at h3
            subst h3
            simp only [PSt.rd, List.map_cons, MCache.put, if_true]
            congr 1
            refine PSt.rd_congr fun e he => hdat _ ?_
            intro hb'
            exact h2.1 (List.mem_map.2 ⟨e, he, hb'⟩)
          · simp only [PCache.find, if_neg h0] at h3
            simp only [PSt.rd, List.map_cons, MCache.put, if_neg h0]
            have hne : m0.buf ≠ cur.buf := fun hb' =>
              h2.1 (hb' ▸ PCache.mem_bufs h3)
            have := ih h1.2 h2.2 h3
            simp only [PSt.rd] at this
            rw [this]
            simp [PSt.read, hdat _ hne]
      exact key κ hκ.keys hκ.bufs hf
    have hslot : ∀ n σ g, p'.slots n σ = some g → HOk p' g := fun n σ g hg =>
      (hp.slot n σ g hg).fr hfr
    refine ⟨κ.put k h', p', by simp [kaddP, hf, eM, hp', hh'], ?_, ?_,
      ⟨hslot, hp.caches hfr, hp.node⟩, ⟨?_, ?_, ?_⟩, ?_, ?_, hfr, rfl, rfl, rfl, ?_⟩
    · rw [ev0, hrd]
    · rw [hrd]; exact wv
    · rw [PCache.fst_put hf]; exact hκ.keys
    · rw [PCache.bufs_put (m := h') hf rfl]; exact hκ.bufs
    · intro e he
      rcases PCache.mem_put he with rfl | he
      · refine ⟨⟨wM.rpos, wM.cpos, ?_, hcok.bound⟩, hco⟩
        show (p'.dat cur.buf).length = _
        rw [hdatc]; exact wM.len
      · obtain ⟨h1, h2⟩ := hκ.ok e he; exact ⟨h1.fr hfr, h2⟩
    · rw [PCache.keys, PCache.fst_put hf, ← PCache.keys, Finset.insert_eq_of_mem]
      exact PCache.mem_keys_of_find hf
    · intro r hr; rw [PCache.bufs_put (m := h') hf rfl] at hr; exact Or.inl hr
    · intro r hr
      exact hdat r (fun h => hr (h ▸ PCache.mem_bufs hf))

end

end CoolDiff
