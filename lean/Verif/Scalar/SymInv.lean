import Verif.Scalar.SymClass
import Mathlib.Algebra.Order.Field.Basic
import Mathlib.Data.Rat.Lemmas
import Mathlib.Algebra.Order.Field.Rat
import Mathlib.Order.Lattice

/-!
# Invariant of the symbolic temporaries
-/

set_option linter.unusedSectionVars false

namespace CoolDiff

variable {K : Type} [Field K] [DecidableEq K]

/-! ## Subtrees -/

/-- All subtrees of a tree. -/
def Node.subs : Node K → List (Node K)
  | .leaf o => [.leaf o]
  | .par p => [.par p]
  | .op1 n f a => .op1 n f a :: a.subs
  | .op2 n f a b => .op2 n f a b :: (a.subs ++ b.subs)

/-- The number of the root of a tree, if it is an operator. -/
def Node.top : Node K → Option ℕ
  | .leaf _ => none
  | .par _ => none
  | .op1 n _ _ => some n
  | .op2 n _ _ _ => some n

theorem Node.self_subs (t : Node K) : t ∈ t.subs := by
  cases t <;> simp [subs]

theorem Node.subs_trans {t u i : Node K} (h : u ∈ t.subs) : t ∈ i.subs → u ∈ i.subs := by
  induction i with
  | leaf o => intro h'; simp [subs] at h'; subst h'; exact h
  | par p => intro h'; simp [subs] at h'; subst h'; exact h
  | op1 n f a ih =>
      intro h'
      simp only [subs, List.mem_cons] at h' ⊢
      rcases h' with rfl | h'
      · simpa [subs] using h
      · exact Or.inr (ih h')
  | op2 n f a b iha ihb =>
      intro h'
      simp only [subs, List.mem_cons, List.mem_append] at h' ⊢
      rcases h' with rfl | h' | h'
      · simpa [subs] using h
      · exact Or.inr (Or.inl (iha h'))
      · exact Or.inr (Or.inr (ihb h'))

theorem Node.top_mem {t i : Node K} {n : ℕ} (h : t ∈ i.subs) (ht : t.top = some n) :
    n ∈ i.opIds := by
  induction i with
  | leaf o => simp [subs] at h; subst h; simp [top] at ht
  | par p => simp [subs] at h; subst h; simp [top] at ht
  | op1 m f a ih =>
      simp only [subs, List.mem_cons] at h
      simp only [opIds, List.mem_cons]
      rcases h with rfl | h
      · simp [top] at ht; exact Or.inl ht.symm
      · exact Or.inr (ih h)
  | op2 m f a b iha ihb =>
      simp only [subs, List.mem_cons, List.mem_append] at h
      simp only [opIds, List.mem_cons, List.mem_append]
      rcases h with rfl | h | h
      · simp [top] at ht; exact Or.inl ht.symm
      · exact Or.inr (Or.inl (iha h))
      · exact Or.inr (Or.inr (ihb h))

theorem Node.mem_top {i : Node K} {n : ℕ} (h : n ∈ i.opIds) : ∃ t ∈ i.subs, t.top = some n := by
  induction i with
  | leaf o => simp [opIds] at h
  | par p => simp [opIds] at h
  | op1 m f a ih =>
      simp only [opIds, List.mem_cons] at h
      rcases h with rfl | h
      · exact ⟨_, self_subs _, rfl⟩
      · obtain ⟨t, h1, h2⟩ := ih h
        exact ⟨t, by simp [subs, h1], h2⟩
  | op2 m f a b iha ihb =>
      simp only [opIds, List.mem_cons, List.mem_append] at h
      rcases h with rfl | h | h
      · exact ⟨_, self_subs _, rfl⟩
      · obtain ⟨t, h1, h2⟩ := iha h
        exact ⟨t, by simp [subs, h1], h2⟩
      · obtain ⟨t, h1, h2⟩ := ihb h
        exact ⟨t, by simp [subs, h1], h2⟩

theorem Node.subs_unique {t t' i : Node K} {n : ℕ} (hi : i.opIds.Nodup) (h : t ∈ i.subs)
    (h' : t' ∈ i.subs) (ht : t.top = some n) (ht' : t'.top = some n) : t = t' := by
  induction i with
  | leaf o => simp [subs] at h; subst h; simp [top] at ht
  | par p => simp [subs] at h; subst h; simp [top] at ht
  | op1 m f a ih =>
      simp only [opIds, List.nodup_cons] at hi
      simp only [subs, List.mem_cons] at h h'
      rcases h with rfl | h <;> rcases h' with rfl | h'
      · rfl
      · simp only [top, Option.some.injEq] at ht
        exact absurd (top_mem h' ht') (ht ▸ hi.1)
      · simp only [top, Option.some.injEq] at ht'
        exact absurd (top_mem h ht) (ht' ▸ hi.1)
      · exact ih hi.2 h h'
  | op2 m f a b iha ihb =>
      simp only [opIds, List.nodup_cons, List.mem_append, List.nodup_append] at hi
      obtain ⟨h0, ha, hb, hab⟩ := hi
      simp only [subs, List.mem_cons, List.mem_append] at h h'
      rcases h with rfl | h | h <;> rcases h' with rfl | h' | h'
      · rfl
      · simp only [top, Option.some.injEq] at ht
        exact absurd (Or.inl (top_mem h' ht')) (ht ▸ h0)
      · simp only [top, Option.some.injEq] at ht
        exact absurd (Or.inr (top_mem h' ht')) (ht ▸ h0)
      · simp only [top, Option.some.injEq] at ht'
        exact absurd (Or.inl (top_mem h ht)) (ht' ▸ h0)
      · exact iha ha h h'
      · exact absurd rfl (hab _ (top_mem h ht) _ (top_mem h' ht'))
      · simp only [top, Option.some.injEq] at ht'
        exact absurd (Or.inr (top_mem h ht)) (ht' ▸ h0)
      · exact absurd rfl (hab _ (top_mem h' ht') _ (top_mem h ht))
      · exact ihb hb h h'

theorem Node.subs_leaves {t i : Node K} (h : t ∈ i.subs) : ∀ p ∈ t.leaves, p ∈ i.leaves := by
  induction i with
  | leaf o => simp [subs] at h; subst h; exact fun _ h => h
  | par p => simp [subs] at h; subst h; exact fun _ h => h
  | op1 m f a ih =>
      simp only [subs, List.mem_cons] at h
      rcases h with rfl | h
      · exact fun _ h => h
      · exact ih h
  | op2 m f a b iha ihb =>
      simp only [subs, List.mem_cons, List.mem_append] at h
      rcases h with rfl | h | h
      · exact fun _ h => h
      · intro p hp; simp [leaves, iha h p hp]
      · intro p hp; simp [leaves, ihb h p hp]

theorem Node.subs_pars {t i : Node K} (h : t ∈ i.subs) : ∀ p ∈ t.pars, p ∈ i.pars := by
  induction i with
  | leaf o => simp [subs] at h; subst h; exact fun _ h => h
  | par p => simp [subs] at h; subst h; exact fun _ h => h
  | op1 m f a ih =>
      simp only [subs, List.mem_cons] at h
      rcases h with rfl | h
      · exact fun _ h => h
      · exact ih h
  | op2 m f a b iha ihb =>
      simp only [subs, List.mem_cons, List.mem_append] at h
      rcases h with rfl | h | h
      · exact fun _ h => h
      · intro p hp; simp [pars, iha h p hp]
      · intro p hp; simp [pars, ihb h p hp]

theorem Node.subs_symOk {t i : Node K} (h : t ∈ i.subs) (hi : i.SymOk) : t.SymOk := by
  induction i with
  | leaf o => simp [subs] at h; subst h; exact hi
  | par p => simp [subs] at h; subst h; exact hi
  | op1 m f a ih =>
      simp only [subs, List.mem_cons] at h
      rcases h with rfl | h
      · exact hi
      · exact ih h hi.2
  | op2 m f a b iha ihb =>
      simp only [subs, List.mem_cons, List.mem_append] at h
      rcases h with rfl | h | h
      · exact hi
      · exact iha h hi.2.1
      · exact ihb h hi.2.2

/-- `t` is a subtree of the right-hand side of `q` that follows the right-hand sides `pre`. -/
def At (D : Defs K) (q : ℕ) (pre : List (Node K)) (t : Node K) : Prop :=
  ∃ i post, D.items q = pre ++ i :: post ∧ t ∈ i.subs

theorem At.lt_next {D : Defs K} (hD : D.WF) {q : ℕ} (hq : q < D.size) {pre : List (Node K)}
    {t : Node K} (h : At D q pre t) {n : ℕ} (ht : t.top = some n) : n < D.next := by
  obtain ⟨i, post, hi, hs⟩ := h
  exact hD.op_lt q hq i (by rw [hi]; simp) n (Node.top_mem hs ht)

theorem At.unique {D : Defs K} (hD : D.WF) {q q' : ℕ} (hq : q < D.size) (hq' : q' < D.size)
    {pre pre' : List (Node K)} {t t' : Node K} (h : At D q pre t) (h' : At D q' pre' t') {n : ℕ}
    (ht : t.top = some n) (ht' : t'.top = some n) : q = q' ∧ pre = pre' ∧ t = t' := by
  obtain ⟨i, post, hi, hs⟩ := h
  obtain ⟨i', post', hi', hs'⟩ := h'
  have hn := Node.top_mem hs ht
  have hn' := Node.top_mem hs' ht'
  by_cases e : q = q'
  · subst e
    have hp := hD.sep q hq
    rw [hi] at hi'
    rcases List.append_eq_append_iff.1 hi' with ⟨a, ha, hb⟩ | ⟨a, ha, hb⟩
    · cases a with
      | nil =>
          simp only [List.nil_append, List.cons.injEq] at hb
          obtain ⟨rfl, -⟩ := hb
          refine ⟨rfl, by simpa using ha.symm, ?_⟩
          exact Node.subs_unique (hD.nodup q hq i (by rw [hi]; simp)) hs hs' ht ht'
      | cons j a =>
          simp only [List.cons_append, List.cons.injEq] at hb
          obtain ⟨rfl, hb⟩ := hb
          rw [hi, List.pairwise_append, List.pairwise_cons] at hp
          exact absurd hn' (hp.2.1.1 i' (by rw [hb]; simp) n hn)
    · cases a with
      | nil =>
          simp only [List.nil_append, List.cons.injEq] at hb
          obtain ⟨rfl, -⟩ := hb
          refine ⟨rfl, by simpa using ha, ?_⟩
          exact Node.subs_unique (hD.nodup q hq i' (by rw [hi]; simp)) hs hs' ht ht'
      | cons j a =>
          simp only [List.cons_append, List.cons.injEq] at hb
          obtain ⟨rfl, hb⟩ := hb
          rw [hi, hi', List.pairwise_append, List.pairwise_cons] at hp
          exact absurd hn (hp.2.1.1 i (by rw [hb]; simp) n hn')
  · exact absurd hn' (hD.sep' q hq q' hq' e i (by rw [hi]; simp) i' (by rw [hi']; simp) n hn)

/-! ## Ghost state -/

/-- A heap together with the set `T` of objects that took part in symbolic differentiation, and an
order that decreases along definitions and temporaries. -/
structure GS (K : Type) where
  s : SSt K
  T : Set ℕ
  ord : ℕ → ℚ

/-- The definitions. -/
abbrev GS.D (g : GS K) : Defs K := g.s.st.defs
/-- The temporaries. -/
abbrev GS.tm (g : GS K) : Tmps := g.s.tm
/-- The flags. -/
abbrev GS.vis (g : GS K) : ℕ → Bool := g.s.st.mem.visited

variable (P : Prim K) (H : ℕ → Prop)

/-- `ρ` satisfies the definitions of all the objects of `T`; at the user's Variables (`H`) and
Parameters it is arbitrary. -/
def SolT (D : Defs K) (T : Set ℕ) (π ρ : ℕ → K) : Prop :=
  ∀ q ∈ T, ¬ H q → ρ q = seqVal P π ρ q (D.items q) (D.base q)

/-- `δ` is the derivative of all the objects of `T` with respect to `x`. -/
def TanT (x : ℕ) (D : Defs K) (T : Set ℕ) (π ρ δ : ℕ → K) : Prop :=
  ∀ q ∈ T, δ q = if q = x then 1 else seqDer P π ρ δ q (D.items q) (D.base q) 0

/-- Value of a reference. -/
def Ref.val (π ρ : ℕ → K) : Ref → K
  | .obj o => ρ o
  | .par p => π p

/-- A reference to an object of `T` below `w`, or to a Parameter. -/
def Ref.Ok (g : GS K) (w : ℚ) : Ref → Prop
  | .obj o => o ∈ g.T ∧ g.ord o < w
  | .par p => p < g.D.psize

/-- The environment in which the right-hand side after `pre` is read: `q` has the value reached so
far. -/
def env (π ρ : ℕ → K) (q : ℕ) (b : K) (pre : List (Node K)) : ℕ → K :=
  Function.update ρ q (seqVal P π ρ q pre b)

/-- Derivatives in which the right-hand side after `pre` is read. -/
def denv (π ρ δ : ℕ → K) (q : ℕ) (b : K) (pre : List (Node K)) : ℕ → K :=
  Function.update δ q (seqDer P π ρ δ q pre b 0)

/-- Well-formedness of the definitions. -/
structure DInv (g : GS K) : Prop where
  wf : g.D.WF
  user : ∀ q, H q → q < g.D.size ∧ g.D.items q = []
  zero : 0 < g.D.size ∧ g.D.items 0 = [] ∧ g.D.base 0 = 0 ∧ ¬ H 0 ∧ 0 ∈ g.T
  one : g.s.one < g.D.size ∧ g.D.items g.s.one = [] ∧ g.D.base g.s.one = 1 ∧ ¬ H g.s.one ∧
    g.s.one ∈ g.T
  lt : ∀ q ∈ g.T, q < g.D.size
  closed : ∀ q ∈ g.T, ∀ i ∈ g.D.items q, ∀ p ∈ i.leaves, p ∈ g.T
  edge : ∀ q < g.D.size, ∀ i ∈ g.D.items q, ∀ p ∈ i.leaves, p = q ∨ g.ord p < g.ord q
  first : ∀ q < g.D.size, ∀ i is, g.D.items q = i :: is → q ∉ i.leaves
  low : ∀ q < g.D.size, g.D.items q ≠ [] → g.ord 0 < g.ord q ∧ g.ord g.s.one < g.ord q
  bare : ∀ q < g.D.size, ∀ p, .leaf p ∈ g.D.items q → ¬ H p

/-- The temporaries hold what they should; the values of objects of order `r` and more are not
covered (they may be under construction). -/
structure TmpInv (g : GS K) (r : ℚ) : Prop where
  tmp : ∀ q v, g.tm.tmp q = some v → q ∈ g.T ∧ v.Ok g (g.ord q)
  tmpVal : ∀ q v, g.tm.tmp q = some v → g.ord q < r → ∀ π ρ, SolT P H g.D g.T π ρ →
    v.val π ρ = ρ q ∧ v.Ob P g.D π ρ q
  dtmp : ∀ q e, g.tm.dtmp q = some e → q ∈ g.T ∧ e ∈ g.T ∧ g.ord e < g.ord q
  dtmpVal : ∀ q e, g.tm.dtmp q = some e → g.D.items q = [] → g.D.items e = [] ∧ ¬ H e ∧
    g.D.base e = 0
  otmpAt : ∀ n e, g.tm.otmp n = some e → ∃ q ∈ g.T, ∃ pre t, At g.D q pre t ∧ t.top = some n
  odtmpAt : ∀ n k e, (k, e) ∈ g.tm.odtmp n → (∃ x, H x ∧ g.D.nidx x = k) ∧ ∃ q ∈ g.T, ∃ pre t, At g.D q pre t ∧ t.top = some n
  otmp : ∀ q ∈ g.T, ∀ pre t n e, At g.D q pre t → t.top = some n → g.tm.otmp n = some e →
    e ∈ g.T ∧ g.ord e < g.ord q ∧
    ∀ π ρ, SolT P H g.D g.T π ρ →
      ρ e = t.val P π (env P π ρ q (g.D.base q) pre) ∧ Ob P g.D π ρ q e
  odtmp : ∀ q ∈ g.T, ∀ pre t n k e, At g.D q pre t → t.top = some n → (k, e) ∈ g.tm.odtmp n →
    e ∈ g.T ∧ g.ord e < g.ord q ∧
    ∀ x, H x → g.D.nidx x = k → ∀ π ρ δ, SolT P H g.D g.T π ρ → TanT P x g.D g.T π ρ δ →
      ρ e = t.der P π (env P π ρ q (g.D.base q) pre) (denv P π ρ δ q (g.D.base q) pre) ∧
        Ob P g.D π ρ q e

/-- Variables hold their number. -/
def PlainOk (σ : St K) : Prop :=
  ∀ q < σ.defs.size, σ.defs.items q = [] →
    σ.mem.value q = σ.defs.base q ∧ σ.mem.dvalue q = 0 ∧ σ.mem.cache q = fun _ => 0

/-- The invariant. -/
structure Good (g : GS K) (r : ℚ) : Prop where
  d : DInv H g
  t : TmpInv P H g r
  plain : PlainOk g.s.st

/-- The definitions have only been extended. -/
structure DExt (g g' : GS K) : Prop where
  size : g.D.size ≤ g'.D.size
  items : ∀ q < g.D.size, g'.D.items q = g.D.items q
  base : ∀ q < g.D.size, g'.D.base q = g.D.base q
  nidx : ∀ q < g.D.size, g'.D.nidx q = g.D.nidx q
  par : g'.D.par = g.D.par
  psize : g'.D.psize = g.D.psize
  next : g.D.next ≤ g'.D.next
  T : ∀ q, q ∈ g'.T ↔ q ∈ g.T ∨ (g.D.size ≤ q ∧ q < g'.D.size)
  ord : ∀ q < g.D.size, g'.ord q = g.ord q
  newops : ∀ q, g.D.size ≤ q → q < g'.D.size → ∀ i ∈ g'.D.items q, ∀ n ∈ i.opIds, g.D.next ≤ n
  one : g'.s.one = g.s.one
  vis : ∀ q < g.D.size, g'.vis q = g.vis q
  visNew : ∀ q, g.D.size ≤ q → q < g'.D.size → g'.vis q = false

/-- A step that touches no temporary of an object of order `r` or more. -/
structure Step (r : ℚ) (g g' : GS K) : Prop where
  ext : DExt g g'
  frame : ∀ q < g.D.size, r ≤ g.ord q → g'.tm.tmp q = g.tm.tmp q ∧ g'.tm.dtmp q = g.tm.dtmp q
  ordNew : ∀ q, g.D.size ≤ q → q < g'.D.size → g'.ord q < r

variable {P H}

theorem DExt.refl (g : GS K) : DExt g g :=
  ⟨le_refl _, fun _ _ => rfl, fun _ _ => rfl, fun _ _ => rfl, rfl, rfl, le_refl _,
    fun q => ⟨Or.inl, fun h => h.elim id fun h => by omega⟩, fun _ _ => rfl,
    fun q h h' => by omega, rfl, fun _ _ => rfl, fun q h h' => by omega⟩

theorem DExt.trans {g g' g'' : GS K} (h : DExt g g') (h' : DExt g' g'') : DExt g g'' := by
  have s1 := h.size
  have s2 := h'.size
  refine ⟨s1.trans s2, fun q hq => ?_, fun q hq => ?_, fun q hq => ?_, h'.par.trans h.par,
    h'.psize.trans h.psize, h.next.trans h'.next, fun q => ?_, fun q hq => ?_,
    fun q h1 h2 i hi n hn => ?_, h'.one.trans h.one, fun q hq => ?_, fun q h1 h2 => ?_⟩
  · rw [h'.items q (by omega), h.items q hq]
  · rw [h'.base q (by omega), h.base q hq]
  · rw [h'.nidx q (by omega), h.nidx q hq]
  · rw [h'.T, h.T]
    constructor
    · rintro ((h | h) | h)
      · exact Or.inl h
      · exact Or.inr ⟨h.1, by omega⟩
      · exact Or.inr ⟨by omega, h.2⟩
    · rintro (h | h)
      · exact Or.inl (Or.inl h)
      · by_cases e : q < g'.D.size
        · exact Or.inl (Or.inr ⟨h.1, e⟩)
        · exact Or.inr ⟨by omega, h.2⟩
  · rw [h'.ord q (by omega), h.ord q hq]
  · by_cases e : q < g'.D.size
    · rw [h'.items q e] at hi; exact h.newops q h1 e i hi n hn
    · exact h.next.trans (h'.newops q (by omega) h2 i hi n hn)
  · rw [h'.vis q (by omega), h.vis q hq]
  · by_cases e : q < g'.D.size
    · rw [h'.vis q e]; exact h.visNew q h1 e
    · exact h'.visNew q (by omega) h2

theorem Step.refl (r : ℚ) (g : GS K) : Step r g g :=
  ⟨DExt.refl g, fun _ _ _ => ⟨rfl, rfl⟩, fun q h h' => absurd h' (Nat.not_lt.2 h)⟩

theorem Step.trans {r : ℚ} {g g' g'' : GS K} (h : Step r g g') (h' : Step r g' g'') :
    Step r g g'' := by
  refine ⟨h.ext.trans h'.ext, fun q hq hr => ?_, fun q h1 h2 => ?_⟩
  · have h1 := h.frame q hq hr
    have h2 := h'.frame q (hq.trans_le h.ext.size) (by rw [h.ext.ord q hq]; exact hr)
    exact ⟨h2.1.trans h1.1, h2.2.trans h1.2⟩
  · rcases Nat.lt_or_ge q g'.D.size with e | e
    · rw [h'.ext.ord q e]; exact h.ordNew q h1 e
    · exact h'.ordNew q e h2

theorem Step.mono {r r' : ℚ} {g g' : GS K} (h : Step r g g') (hr : r ≤ r') : Step r' g g' :=
  ⟨h.ext, fun q hq hq' => h.frame q hq (hr.trans hq'),
    fun q h1 h2 => (h.ordNew q h1 h2).trans_le hr⟩

theorem DExt.mem {g g' : GS K} (h : DExt g g') {q : ℕ} (hq : q ∈ g.T) : q ∈ g'.T :=
  (h.T q).2 (Or.inl hq)

theorem DExt.solT {g g' : GS K} (h : DExt g g') (hT : ∀ q ∈ g.T, q < g.D.size) {π ρ : ℕ → K}
    (hs : SolT P H g'.D g'.T π ρ) : SolT P H g.D g.T π ρ := by
  intro q hq hH
  rw [hs q (h.mem hq) hH, h.items q (hT q hq), h.base q (hT q hq)]

theorem DExt.tanT {g g' : GS K} (h : DExt g g') (hT : ∀ q ∈ g.T, q < g.D.size) {x : ℕ}
    {π ρ δ : ℕ → K} (hs : TanT P x g'.D g'.T π ρ δ) : TanT P x g.D g.T π ρ δ := by
  intro q hq
  rw [hs q (h.mem hq), h.items q (hT q hq), h.base q (hT q hq)]

theorem DExt.ref {g g' : GS K} (h : DExt g g') (hT : ∀ q ∈ g.T, q < g.D.size) {w : ℚ} {v : Ref}
    (hv : v.Ok g w) : v.Ok g' w := by
  cases v with
  | obj o => exact ⟨h.mem hv.1, by rw [h.ord o (hT o hv.1)]; exact hv.2⟩
  | par p => show p < g'.D.psize; rw [h.psize]; exact hv

theorem DExt.ob {g g' : GS K} (h : DExt g g') (hd : DInv H g) {q e : ℕ} (hq : q ∈ g.T) (he : e ∈ g.T)
    {π ρ : ℕ → K} : Ob P g'.D π ρ q e ↔ Ob P g.D π ρ q e :=
  Ob.congr hd.closed (fun p hp => h.items p (hd.lt p hp)) (fun p hp => Or.inr (h.base p (hd.lt p hp)))
    hq he

theorem DExt.refOb {g g' : GS K} (h : DExt g g') (hd : DInv H g) {q : ℕ} {v : Ref} {w : ℚ} (hq : q ∈ g.T)
    (hv : v.Ok g w) {π ρ : ℕ → K} : v.Ob P g'.D π ρ q ↔ v.Ob P g.D π ρ q := by
  cases v with
  | obj e => exact h.ob hd hq hv.1
  | par p => exact Iff.rfl

theorem Node.All.sub {C : OpClass K} {π ρ : ℕ → K} {t i : Node K} (h : t ∈ i.subs)
    (hi : i.All C P π ρ) : t.All C P π ρ := by
  induction i with
  | leaf o => simp [subs] at h; subst h; exact hi
  | par p => simp [subs] at h; subst h; exact hi
  | op1 m f a ih =>
      simp only [subs, List.mem_cons] at h
      rcases h with rfl | h
      · exact hi
      · exact ih h hi.1
  | op2 m f a b iha ihb =>
      simp only [subs, List.mem_cons, List.mem_append] at h
      rcases h with rfl | h | h
      · exact hi
      · exact iha h hi.1
      · exact ihb h hi.2.1

theorem At.all {C : OpClass K} {D : Defs K} {q : ℕ} {pre : List (Node K)} {t : Node K} (h : At D q pre t)
    {π ρ : ℕ → K} (ha : AllBelow C P π ρ D q) : t.All C P π (env P π ρ q (D.base q) pre) := by
  obtain ⟨i, post, hi, hs⟩ := h
  have := ha q .refl
  rw [hi] at this
  exact this.append.sub hs

/-- Extending the definitions keeps the facts about temporaries. -/
theorem TmpInv.ext {g g' : GS K} {r : ℚ} (h : TmpInv P H g r) (hd : DInv H g) (he : DExt g g')
    (htm : g'.tm = g.tm) : TmpInv P H g' r := by
  have hT := hd.lt
  have hat : ∀ q ∈ g.T, ∀ pre t, At g'.D q pre t ↔ At g.D q pre t := by
    intro q hq pre t
    unfold At
    rw [he.items q (hT q hq)]
  -- a node with temporaries belongs to an old object
  have hold : ∀ q ∈ g'.T, ∀ pre t n, At g'.D q pre t → t.top = some n → n < g.D.next → q ∈ g.T := by
    intro q hq pre t n ha ht hn
    rcases (he.T q).1 hq with h1 | h1
    · exact h1
    · obtain ⟨i, post, hi, hs⟩ := ha
      have := he.newops q h1.1 h1.2 i (by rw [hi]; simp) n (Node.top_mem hs ht)
      omega
  constructor
  · intro q v hv
    rw [htm] at hv
    obtain ⟨h1, h2⟩ := h.tmp q v hv
    refine ⟨he.mem h1, ?_⟩
    rw [he.ord q (hT q h1)]
    exact he.ref hT h2
  · intro q v hv hr π ρ hs
    rw [htm] at hv
    obtain ⟨h1, h2⟩ := h.tmp q v hv
    rw [he.ord q (hT q h1)] at hr
    obtain ⟨e1, e2⟩ := h.tmpVal q v hv hr π ρ (he.solT hT hs)
    exact ⟨e1, (he.refOb hd h1 h2).2 e2⟩
  · intro q e hv
    rw [htm] at hv
    obtain ⟨h1, h2, h3⟩ := h.dtmp q e hv
    refine ⟨he.mem h1, he.mem h2, ?_⟩
    rw [he.ord q (hT q h1), he.ord e (hT e h2)]; exact h3
  · intro q e hv hi
    rw [htm] at hv
    obtain ⟨h1, h2, h3⟩ := h.dtmp q e hv
    rw [he.items q (hT q h1)] at hi
    rw [he.items e (hT e h2), he.base e (hT e h2)]
    exact h.dtmpVal q e hv hi
  · intro n e hv
    rw [htm] at hv
    obtain ⟨q, hq, pre, t, ha, ht⟩ := h.otmpAt n e hv
    exact ⟨q, he.mem hq, pre, t, (hat q hq _ _).2 ha, ht⟩
  · intro n k e hv
    rw [htm] at hv
    obtain ⟨⟨x, hx, hk⟩, q, hq, pre, t, ha, ht⟩ := h.odtmpAt n k e hv
    exact ⟨⟨x, hx, by rw [he.nidx x (hd.user x hx).1]; exact hk⟩, q, he.mem hq, pre, t, (hat q hq _ _).2 ha, ht⟩
  · intro q hq pre t n e ha ht hv
    rw [htm] at hv
    obtain ⟨q', hq', pre', t', ha', ht'⟩ := h.otmpAt n e hv
    have hq := hold q hq pre t n ha ht (ha'.lt_next hd.wf (hT _ hq') ht')
    rw [hat q hq] at ha
    obtain ⟨h1, h2, h3⟩ := h.otmp q hq pre t n e ha ht hv
    refine ⟨he.mem h1, by rw [he.ord q (hT q hq), he.ord e (hT e h1)]; exact h2, ?_⟩
    intro π ρ hs
    rw [he.base q (hT q hq)]
    obtain ⟨e1, e2⟩ := h3 π ρ (he.solT hT hs)
    exact ⟨e1, (he.ob hd hq h1).2 e2⟩
  · intro q hq pre t n k e ha ht hv
    rw [htm] at hv
    obtain ⟨-, q', hq', pre', t', ha', ht'⟩ := h.odtmpAt n k e hv
    have hq := hold q hq pre t n ha ht (ha'.lt_next hd.wf (hT _ hq') ht')
    rw [hat q hq] at ha
    obtain ⟨h1, h2, h3⟩ := h.odtmp q hq pre t n k e ha ht hv
    refine ⟨he.mem h1, by rw [he.ord q (hT q hq), he.ord e (hT e h1)]; exact h2, ?_⟩
    intro x hx hk π ρ δ hs hδ
    rw [he.base q (hT q hq)]
    rw [he.nidx x (hd.user x hx).1] at hk
    obtain ⟨e1, e2⟩ := h3 x hx hk π ρ δ (he.solT hT hs) (he.tanT hT hδ)
    exact ⟨e1, (he.ob hd hq h1).2 e2⟩

theorem TmpInv.weaken {g : GS K} {r r' : ℚ} (h : TmpInv P H g r) (hr : r' ≤ r) : TmpInv P H g r' :=
  ⟨h.tmp, fun q v hv hq => h.tmpVal q v hv (hq.trans_le hr), h.dtmp, h.dtmpVal, h.otmpAt, h.odtmpAt,
    h.otmp, h.odtmp⟩

theorem Good.weaken {g : GS K} {r r' : ℚ} (h : Good P H g r) (hr : r' ≤ r) : Good P H g r' :=
  ⟨h.d, h.t.weaken hr, h.plain⟩

end CoolDiff
