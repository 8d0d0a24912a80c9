import Verif.Scalar.SymQuery

/-!
# Sessions with symbolic differentiation
-/

set_option linter.unusedSectionVars false

namespace CoolDiff

variable {K : Type} [Field K] [DecidableEq K]

/-- A session: the heap, the user's Variables `H`, and the set `T` of objects that took part in a
`SymDiff` (the objects its root depends on, and everything it created). -/
structure Sess (K : Type) where
  s : SSt K
  H : ℕ → Prop
  T : Set ℕ

/-- One API call.  Definitions may change as long as they do not become circular and the target has
not taken part in a `SymDiff`; every query and every `SymDiff` is on a root that is `Safe` for the
flags in force; `SymDiff` is with respect to a Variable of the user and on formulas without user
operators and without `c / e`, `c ≠ 1`.  The order `rf` in which a C++ compiler evaluates the operands
of overloaded operators may be different in every `SymDiff`. -/
inductive SStep (P : Prim K) : Sess K → Sess K → Prop
  | newVar {a : Sess K} (v : K) :
      SStep P a ⟨{ a.s with st := (newVar v a.s.st).2 }, fun q => a.H q ∨ q = a.s.st.defs.size, a.T⟩
  | newPar {a : Sess K} (v : K) : SStep P a ⟨{ a.s with st := (newPar v a.s.st).2 }, a.H, a.T⟩
  | newExpr {a : Sess K} : SStep P a ⟨{ a.s with st := (newExpr a.s.st).2 }, a.H, a.T⟩
  | setVar {a : Sess K} (x : ℕ) (v : K) : a.H x →
      SStep P a ⟨{ a.s with st := assignNum x v a.s.st }, a.H, a.T⟩
  | setPar {a : Sess K} (p : ℕ) (v : K) : SStep P a ⟨{ a.s with st := assignPar p v a.s.st }, a.H, a.T⟩
  | define {a : Sess K} (y : ℕ) (e : Exp K) : y < a.s.st.defs.size → y ∉ a.T →
      a.s.st.defs.items y ≠ [] → (∀ p ∈ e.leaves, p < a.s.st.defs.size) →
      (∀ p ∈ e.pars, p < a.s.st.defs.psize) → (∀ p ∈ e.leaves, p = y ∨ ¬ Reach a.s.st.defs p y) →
      SStep P a ⟨{ a.s with st := define y e a.s.st }, a.H, a.T⟩
  | defineRef {a : Sess K} (y z : ℕ) : y < a.s.st.defs.size → y ∉ a.T →
      a.s.st.defs.items y ≠ [] → z < a.s.st.defs.size → a.s.st.defs.items z ≠ [] →
      ¬ Reach a.s.st.defs z y → SStep P a ⟨{ a.s with st := assignRef y z a.s.st }, a.H, a.T⟩
  | eval {a : Sess K} {s' : SSt K} (y : ℕ) (v : K) : y < a.s.st.defs.size →
      SafeS a.s.st.defs a.s.tm (fun q => a.s.st.mem.visited q = true) y → EvalS P y a.s = some (v, s') →
      SStep P a ⟨s', a.H, a.T⟩
  | devalF {a : Sess K} {s' : SSt K} (y x : ℕ) (v : K) : y < a.s.st.defs.size → x < a.s.st.defs.size →
      SafeS a.s.st.defs a.s.tm (fun q => a.s.st.mem.visited q = true) y → DevalFS P y x a.s = some (v, s') →
      SStep P a ⟨s', a.H, a.T⟩
  | preComp {a : Sess K} {s' : SSt K} (y : ℕ) : y < a.s.st.defs.size →
      SafeS a.s.st.defs a.s.tm (fun q => a.s.st.mem.visited q = true) y → PreCompS P y a.s = some s' →
      SStep P a ⟨s', a.H, a.T⟩
  | symDiff {a : Sess K} {s' : SSt K} (rf : ℕ → Bool → List Bool → Bool) (y x d : ℕ) :
      y < a.s.st.defs.size → a.H x → SafeS a.s.st.defs a.s.tm (fun q => a.s.st.mem.visited q = true) y →
      (∀ q, Reach a.s.st.defs y q → ∀ i ∈ a.s.st.defs.items q, i.SymOk) →
      symDiff P rf y x a.s = some (d, s') →
      SStep P a ⟨s', a.H, {q | q ∈ a.T ∨ Reach a.s.st.defs y q ∨
        (a.s.st.defs.size ≤ q ∧ q < s'.st.defs.size)}⟩

/-- The session at program start: the two statics have taken part. -/
def Sess.init : Sess K := ⟨SSt.init, fun _ => False, {0, 1}⟩

/-- `a'` is reached from `a` by API calls. -/
inductive Later (P : Prim K) (a : Sess K) : Sess K → Prop
  | refl : Later P a a
  | step {b c : Sess K} : Later P a b → SStep P b c → Later P a c

theorem Later.trans {P : Prim K} {a b c : Sess K} (h : Later P a b) (h' : Later P b c) : Later P a c := by
  induction h' with
  | refl => exact h
  | step _ hs ih => exact ih.step hs

/-- `Session P a`: `a` is the result of some sequence of API calls. -/
def Session (P : Prim K) (a : Sess K) : Prop := Later P Sess.init a

/-! ## The invariant -/

variable {P : Prim K} {H H' : ℕ → Prop}

/-- The session with an order. -/
def Sess.gs (a : Sess K) (ord : ℕ → ℚ) : GS K := ⟨a.s, a.T, ord⟩

/-- The invariant of sessions. -/
def SInv (P : Prim K) (a : Sess K) : Prop := ∃ ord, Full P a.H (a.gs ord)

/-- What later calls keep of the objects that took part in symbolic differentiation. -/
structure Kept (a b : Sess K) : Prop where
  T : ∀ q ∈ a.T, q ∈ b.T
  size : a.s.st.defs.size ≤ b.s.st.defs.size
  items : ∀ q ∈ a.T, b.s.st.defs.items q = a.s.st.defs.items q
  base : ∀ q ∈ a.T, ¬ a.H q → b.s.st.defs.base q = a.s.st.defs.base q
  H : ∀ q ∈ a.T, b.H q ↔ a.H q

theorem Kept.refl (a : Sess K) : Kept a a :=
  ⟨fun _ h => h, le_refl _, fun _ _ => rfl, fun _ _ _ => rfl, fun _ _ => Iff.rfl⟩

theorem Kept.trans {a b c : Sess K} (h : Kept a b) (h' : Kept b c) : Kept a c :=
  ⟨fun q hq => h'.T q (h.T q hq), h.size.trans h'.size,
    fun q hq => (h'.items q (h.T q hq)).trans (h.items q hq),
    fun q hq hH => (h'.base q (h.T q hq) (fun hh => hH ((h.H q hq).1 hh))).trans (h.base q hq hH),
    fun q hq => (h'.H q (h.T q hq)).trans (h.H q hq)⟩

theorem Kept.solT {a b : Sess K} (h : Kept a b) {π ρ : ℕ → K}
    (hs : SolT P b.H b.s.st.defs b.T π ρ) : SolT P a.H a.s.st.defs a.T π ρ := by
  intro q hq hH
  rw [hs q (h.T q hq) (fun hh => hH ((h.H q hq).1 hh)), h.items q hq, h.base q hq hH]

theorem Kept.tanT {a b : Sess K} (h : Kept a b) (hi : SInv P a) {x : ℕ} {π ρ δ : ℕ → K}
    (hs : TanT P x b.s.st.defs b.T π ρ δ) : TanT P x a.s.st.defs a.T π ρ δ := by
  intro q hq
  rw [hs q (h.T q hq), h.items q hq]
  by_cases hH : a.H q
  · obtain ⟨ord, hf⟩ := hi
    have : a.s.st.defs.items q = [] := (hf.good.d.user q hH).2
    rw [this]; rfl
  · rw [h.base q hq hH]

/-- Facts about temporaries survive changes elsewhere. -/
theorem TmpInv.later {a b : Sess K} {ord ord' : ℕ → ℚ} {r : ℚ} (hd : DInv a.H (a.gs ord))
    (h : TmpInv P a.H (a.gs ord) r)
    (hT : b.T = a.T) (htm : b.s.tm = a.s.tm)
    (items : ∀ q ∈ a.T, b.s.st.defs.items q = a.s.st.defs.items q)
    (base : ∀ q ∈ a.T, ¬ a.H q → b.s.st.defs.base q = a.s.st.defs.base q)
    (hH : ∀ q ∈ a.T, b.H q ↔ a.H q) (hH' : ∀ q, a.H q → b.H q)
    (nidx : ∀ q, a.H q → b.s.st.defs.nidx q = a.s.st.defs.nidx q)
    (new : ∀ q, b.H q → a.H q ∨ a.s.st.defs.next ≤ b.s.st.defs.nidx q)
    (psize : a.s.st.defs.psize ≤ b.s.st.defs.psize) (hord : ∀ q ∈ a.T, ord' q = ord q) :
    TmpInv P b.H (b.gs ord') r := by
  have hinv : ∀ π ρ, SolT P b.H b.s.st.defs b.T π ρ → SolT P a.H a.s.st.defs a.T π ρ := by
    intro π ρ hs q hq hh
    rw [hs q (hT ▸ hq) (fun h' => hh ((hH q hq).1 h')), items q hq, base q hq hh]
  have htan : ∀ x π ρ δ, TanT P x b.s.st.defs b.T π ρ δ → TanT P x a.s.st.defs a.T π ρ δ := by
    intro x π ρ δ hs q hq
    rw [hs q (hT ▸ hq), items q hq]
    by_cases hh : a.H q
    · have : a.s.st.defs.items q = [] := (hd.user q hh).2
      rw [this]; rfl
    · rw [base q hq hh]
  have hat : ∀ q ∈ a.T, ∀ pre t, At b.s.st.defs q pre t ↔ At a.s.st.defs q pre t := by
    intro q hq pre t
    unfold At
    rw [items q hq]
  have hnH : ∀ q ∈ a.T, ∀ pre t, At a.s.st.defs q pre t → ¬ a.H q := by
    rintro q hq pre t ⟨i, post, hi, -⟩ hh
    have : a.s.st.defs.items q = [] := (hd.user q hh).2
    rw [this] at hi
    simp at hi
  have hob : ∀ q ∈ a.T, ∀ e ∈ a.T, ∀ π ρ, Ob P b.s.st.defs π ρ q e ↔ Ob P a.s.st.defs π ρ q e := by
    intro q hq e he π ρ
    refine Ob.congr hd.closed items (fun p hp => ?_) hq he
    by_cases hh : a.H p
    · exact Or.inl (hd.user p hh).2
    · exact Or.inr (base p hp hh)
  have hm : ∀ q, q ∈ (a.gs ord).T ↔ q ∈ (b.gs ord').T := by
    intro q; show q ∈ a.T ↔ q ∈ b.T; rw [hT]
  have htm' : (b.gs ord').tm = (a.gs ord).tm := htm
  constructor
  · intro q v hv
    rw [htm'] at hv
    obtain ⟨h1, h2⟩ := h.tmp q v hv
    refine ⟨(hm q).1 h1, ?_⟩
    have ho : (b.gs ord').ord q = (a.gs ord).ord q := hord q h1
    rw [ho]
    cases v with
    | obj o =>
        refine ⟨(hm o).1 h2.1, ?_⟩
        have : (b.gs ord').ord o = (a.gs ord).ord o := hord o h2.1
        rw [this]; exact h2.2
    | par p => exact lt_of_lt_of_le h2 psize
  · intro q v hv hr π ρ hs
    rw [htm'] at hv
    have ho : (b.gs ord').ord q = (a.gs ord).ord q := hord q (h.tmp q v hv).1
    rw [ho] at hr
    obtain ⟨x1, x2⟩ := h.tmpVal q v hv hr π ρ (hinv π ρ hs)
    obtain ⟨y1, y2⟩ := h.tmp q v hv
    refine ⟨x1, ?_⟩
    cases v with
    | obj o => exact (hob q y1 o y2.1 π ρ).2 x2
    | par p => trivial
  · intro q e hv
    rw [htm'] at hv
    obtain ⟨h1, h2, h3⟩ := h.dtmp q e hv
    refine ⟨(hm q).1 h1, (hm e).1 h2, ?_⟩
    show ord' e < ord' q
    rw [hord q h1, hord e h2]; exact h3
  · intro q e hv hi
    rw [htm'] at hv
    obtain ⟨h1, h2, -⟩ := h.dtmp q e hv
    have hi : b.s.st.defs.items q = [] := hi
    rw [items q h1] at hi
    obtain ⟨c1, c2, c3⟩ := h.dtmpVal q e hv hi
    exact ⟨(items e h2).trans c1, fun hh => c2 ((hH e h2).1 hh), (base e h2 c2).trans c3⟩
  · intro n e hv
    rw [htm'] at hv
    obtain ⟨q, hq, pre, t, ha, ht⟩ := h.otmpAt n e hv
    exact ⟨q, (hm q).1 hq, pre, t, (hat q hq pre t).2 ha, ht⟩
  · intro n k e hv
    rw [htm'] at hv
    obtain ⟨⟨x, hx, hk⟩, q, hq, pre, t, ha, ht⟩ := h.odtmpAt n k e hv
    exact ⟨⟨x, hH' x hx, (nidx x hx).trans hk⟩, q, (hm q).1 hq, pre, t, (hat q hq pre t).2 ha, ht⟩
  · intro q hq pre t n e ha ht hv
    rw [htm'] at hv
    have hq := (hm q).2 hq
    have ha := (hat q hq pre t).1 ha
    obtain ⟨h1, h2, h3⟩ := h.otmp q hq pre t n e ha ht hv
    refine ⟨(hm e).1 h1, ?_, fun π ρ hs => ?_⟩
    · show ord' e < ord' q
      rw [hord q hq, hord e h1]; exact h2
    · rw [show (b.gs ord').D.base q = (a.gs ord).D.base q from base q hq (hnH q hq pre t ha)]
      obtain ⟨x1, x2⟩ := h3 π ρ (hinv π ρ hs)
      exact ⟨x1, (hob q hq e h1 π ρ).2 x2⟩
  · intro q hq pre t n k e ha ht hv
    rw [htm'] at hv
    have hq := (hm q).2 hq
    have ha := (hat q hq pre t).1 ha
    obtain ⟨h1, h2, h3⟩ := h.odtmp q hq pre t n k e ha ht hv
    refine ⟨(hm e).1 h1, ?_, fun x hx hk π ρ δ hs hδ => ?_⟩
    · show ord' e < ord' q
      rw [hord q hq, hord e h1]; exact h2
    · rw [show (b.gs ord').D.base q = (a.gs ord).D.base q from base q hq (hnH q hq pre t ha)]
      rcases new x hx with hx' | hx'
      · obtain ⟨x1, x2⟩ := h3 x hx' ((nidx x hx').symm.trans hk) π ρ δ (hinv π ρ hs) (htan x π ρ δ hδ)
        exact ⟨x1, (hob q hq e h1 π ρ).2 x2⟩
      · obtain ⟨⟨x', hx'', hk'⟩, -⟩ := h.odtmpAt n k e hv
        have := hd.wf.nidx_lt x' (hd.user x' hx'').1
        have hk : b.s.st.defs.nidx x = k := hk
        have hk' : a.s.st.defs.nidx x' = k := hk'
        have this : a.s.st.defs.nidx x' < a.s.st.defs.next := this
        omega


/-! ## Every call keeps the invariant -/

theorem SInv.wf {a : Sess K} (h : SInv P a) : a.s.st.WF := by
  obtain ⟨ord, hf⟩ := h
  exact ⟨hf.good.d.wf, hf.good.plain⟩

theorem step_newVar {a : Sess K} (h : SInv P a) (v : K) :
    SInv P ⟨{ a.s with st := (newVar v a.s.st).2 }, fun q => a.H q ∨ q = a.s.st.defs.size, a.T⟩ ∧
    Kept a ⟨{ a.s with st := (newVar v a.s.st).2 }, fun q => a.H q ∨ q = a.s.st.defs.size, a.T⟩ := by
  have hw := newVar_wf h.wf v
  obtain ⟨ord, hf⟩ := h
  have hd := hf.good.d
  have hT : ∀ q ∈ a.T, q < a.s.st.defs.size := hd.lt
  have hi : ∀ q < a.s.st.defs.size, (newVar v a.s.st).2.defs.items q = a.s.st.defs.items q := by
    intro q hq
    simp only [newVar, Function.update_apply]
    rw [if_neg (by omega)]
  have hb : ∀ q < a.s.st.defs.size, (newVar v a.s.st).2.defs.base q = a.s.st.defs.base q := by
    intro q hq
    simp only [newVar, Function.update_apply]
    rw [if_neg (by omega)]
  have hn : ∀ q < a.s.st.defs.size, (newVar v a.s.st).2.defs.nidx q = a.s.st.defs.nidx q := by
    intro q hq
    simp only [newVar, Function.update_apply]
    rw [if_neg (by omega)]
  have hnew : (newVar v a.s.st).2.defs.items a.s.st.defs.size = [] := by simp [newVar]
  have hsz : (newVar v a.s.st).2.defs.size = a.s.st.defs.size + 1 := rfl
  have hH : ∀ q ∈ a.T, (a.H q ∨ q = a.s.st.defs.size) ↔ a.H q := by
    intro q hq
    have := hT q hq
    constructor
    · rintro (h | h)
      · exact h
      · omega
    · exact Or.inl
  have hcase : ∀ q < (newVar v a.s.st).2.defs.size, (newVar v a.s.st).2.defs.items q ≠ [] →
      q < a.s.st.defs.size := by
    intro q hq hne
    rw [hsz] at hq
    rcases Nat.lt_or_ge q a.s.st.defs.size with h | h
    · exact h
    · have : q = a.s.st.defs.size := by omega
      subst this; exact absurd hnew hne
  have h0 : 0 < a.s.st.defs.size := hd.zero.1
  have h1 : a.s.one < a.s.st.defs.size := hd.one.1
  have hd' : DInv (fun q => a.H q ∨ q = a.s.st.defs.size) (Sess.gs ⟨{ a.s with st := (newVar v a.s.st).2 },
      fun q => a.H q ∨ q = a.s.st.defs.size, a.T⟩ ord) := by
    refine ⟨hw.defs, ?_, ⟨?_, ?_, ?_, ?_, hd.zero.2.2.2.2⟩, ⟨?_, ?_, ?_, ?_, hd.one.2.2.2.2⟩, ?_, ?_, ?_, ?_, ?_, ?_⟩
    · rintro q (hq | rfl)
      · have hq' : q < a.s.st.defs.size ∧ a.s.st.defs.items q = [] := hd.user q hq
        exact ⟨show q < (newVar v a.s.st).2.defs.size by rw [hsz]; omega, (hi q hq'.1).trans hq'.2⟩
      · exact ⟨show a.s.st.defs.size < (newVar v a.s.st).2.defs.size by rw [hsz]; omega, hnew⟩
    · show 0 < (newVar v a.s.st).2.defs.size
      rw [hsz]; omega
    · exact (hi 0 h0).trans hd.zero.2.1
    · exact (hb 0 h0).trans hd.zero.2.2.1
    · rintro (hh | hh)
      · exact hd.zero.2.2.2.1 hh
      · omega
    · show a.s.one < (newVar v a.s.st).2.defs.size
      rw [hsz]; omega
    · exact (hi _ h1).trans hd.one.2.1
    · exact (hb _ h1).trans hd.one.2.2.1
    · rintro (hh | hh)
      · exact hd.one.2.2.2.1 hh
      · have hh : a.s.one = a.s.st.defs.size := hh
        omega
    · intro q hq
      show q < (newVar v a.s.st).2.defs.size
      have := hT q hq
      rw [hsz]; omega
    · intro q hq i hi' p hp
      have hi' : i ∈ (newVar v a.s.st).2.defs.items q := hi'
      rw [hi q (hT q hq)] at hi'
      exact hd.closed q hq i hi' p hp
    · intro q hq i hi' p hp
      have hi' : i ∈ (newVar v a.s.st).2.defs.items q := hi'
      have hq' := hcase q hq (List.ne_nil_of_mem hi')
      rw [hi q hq'] at hi'
      exact hd.edge q hq' i hi' p hp
    · intro q hq i is he
      have he : (newVar v a.s.st).2.defs.items q = i :: is := he
      have hq' := hcase q hq (by rw [he]; simp)
      rw [hi q hq'] at he
      exact hd.first q hq' i is he
    · intro q hq he
      have he : (newVar v a.s.st).2.defs.items q ≠ [] := he
      have hq' := hcase q hq he
      rw [hi q hq'] at he
      exact hd.low q hq' he
    · intro q hq p hp
      have hp : .leaf p ∈ (newVar v a.s.st).2.defs.items q := hp
      have hq' := hcase q hq (List.ne_nil_of_mem hp)
      rw [hi q hq'] at hp
      rintro (hh | hh)
      · exact hd.bare q hq' p hp hh
      · have : p < a.s.st.defs.size := hd.wf.closed q hq' _ hp p (by simp [Node.leaves])
        omega
  refine ⟨⟨ord, fun r => ⟨hd', ?_, hw.plain⟩⟩, fun q hq => hq, ?_, fun q hq => hi q (hT q hq),
    fun q hq _ => hb q (hT q hq), hH⟩
  · refine TmpInv.later (a := a) (ord := ord) hd (hf r).t rfl rfl (fun q hq => hi q (hT q hq))
      (fun q hq _ => hb q (hT q hq)) hH (fun q hq => Or.inl hq) (fun q hq => hn q (hd.user q hq).1) ?_
      (le_refl _) (fun _ _ => rfl)
    rintro q (hq | rfl)
    · exact Or.inl hq
    · right
      simp [newVar]
  · show a.s.st.defs.size ≤ (newVar v a.s.st).2.defs.size
    rw [hsz]; omega

/-- Changes of the memory, the Parameters, the numbers of the user's Variables and the right-hand
sides of objects that have not taken part in a `SymDiff`. -/
theorem step_same {a : Sess K} {st : St K} (hf : SInv P a) (hw : st.WF)
    (hsz : st.defs.size = a.s.st.defs.size) (hps : a.s.st.defs.psize ≤ st.defs.psize)
    (hnx : st.defs.nidx = a.s.st.defs.nidx)
    (hi : ∀ q ∈ a.T, st.defs.items q = a.s.st.defs.items q)
    (hu : ∀ q, a.H q → st.defs.items q = [])
    (hb : ∀ q, ¬ a.H q → st.defs.base q = a.s.st.defs.base q)
    (hbare : ∀ q < a.s.st.defs.size, ∀ p, .leaf p ∈ st.defs.items q → ¬ a.H p)
    (hord : ∀ ord : ℕ → ℚ, DInv a.H (a.gs ord) → ∃ ord' : ℕ → ℚ, (∀ q ∈ a.T, ord' q = ord q) ∧
      (∀ q < a.s.st.defs.size, ∀ i ∈ st.defs.items q, ∀ p ∈ i.leaves, p = q ∨ ord' p < ord' q) ∧
      (∀ q < a.s.st.defs.size, ∀ i is, st.defs.items q = i :: is → q ∉ i.leaves) ∧
      (∀ q < a.s.st.defs.size, st.defs.items q ≠ [] → ord' 0 < ord' q ∧ ord' a.s.one < ord' q)) :
    SInv P ⟨{ a.s with st := st }, a.H, a.T⟩ ∧ Kept a ⟨{ a.s with st := st }, a.H, a.T⟩ := by
  obtain ⟨ord, hf⟩ := hf
  have hd := hf.good.d
  have hT : ∀ q ∈ a.T, q < a.s.st.defs.size := hd.lt
  obtain ⟨ord', o1, o2, o3, o4⟩ := hord ord hd
  have hd' : DInv a.H (Sess.gs ⟨{ a.s with st := st }, a.H, a.T⟩ ord') := by
    refine ⟨hw.defs, ?_, ⟨?_, ?_, ?_, hd.zero.2.2.2.1, hd.zero.2.2.2.2⟩,
      ⟨?_, ?_, ?_, hd.one.2.2.2.1, hd.one.2.2.2.2⟩, ?_, ?_, ?_, ?_, ?_, ?_⟩
    · exact fun q hq => ⟨show q < st.defs.size by rw [hsz]; exact (hd.user q hq).1, hu q hq⟩
    · show 0 < st.defs.size
      rw [hsz]; exact hd.zero.1
    · exact (hi 0 hd.zero.2.2.2.2).trans hd.zero.2.1
    · exact (hb 0 hd.zero.2.2.2.1).trans hd.zero.2.2.1
    · show a.s.one < st.defs.size
      rw [hsz]; exact hd.one.1
    · exact (hi _ hd.one.2.2.2.2).trans hd.one.2.1
    · exact (hb _ hd.one.2.2.2.1).trans hd.one.2.2.1
    · intro q hq
      show q < st.defs.size
      rw [hsz]; exact hT q hq
    · intro q hq i hi' p hp
      have hi' : i ∈ st.defs.items q := hi'
      rw [hi q hq] at hi'
      exact hd.closed q hq i hi' p hp
    · intro q hq
      have hq : q < st.defs.size := hq
      exact o2 q (hsz ▸ hq)
    · intro q hq
      have hq : q < st.defs.size := hq
      exact o3 q (hsz ▸ hq)
    · intro q hq
      have hq : q < st.defs.size := hq
      exact o4 q (hsz ▸ hq)
    · intro q hq
      have hq : q < st.defs.size := hq
      exact hbare q (hsz ▸ hq)
  refine ⟨⟨ord', fun r => ⟨hd', ?_, hw.plain⟩⟩, fun q hq => hq, le_of_eq hsz.symm, hi,
    fun q _ => hb q, fun _ _ => Iff.rfl⟩
  exact TmpInv.later (a := a) (ord := ord) hd (hf r).t rfl rfl hi
      (fun q _ => hb q) (fun _ _ => Iff.rfl) (fun _ hq => hq) (fun q _ => by rw [show _ = _ from hnx])
      (fun q hq => Or.inl hq) hps o1

/-- The same when the right-hand sides of everything stay. -/
theorem step_items {a : Sess K} {st : St K} (hf : SInv P a) (hw : st.WF)
    (hsz : st.defs.size = a.s.st.defs.size) (hps : a.s.st.defs.psize ≤ st.defs.psize)
    (hnx : st.defs.nidx = a.s.st.defs.nidx) (hi : st.defs.items = a.s.st.defs.items)
    (hb : ∀ q, ¬ a.H q → st.defs.base q = a.s.st.defs.base q) :
    SInv P ⟨{ a.s with st := st }, a.H, a.T⟩ ∧ Kept a ⟨{ a.s with st := st }, a.H, a.T⟩ := by
  refine step_same hf hw hsz hps hnx (fun q _ => by rw [hi]) (fun q hq => ?_) hb ?_ fun ord hd =>
    ⟨ord, fun _ _ => rfl, ?_, ?_, ?_⟩
  · obtain ⟨ord, hf⟩ := hf
    rw [hi]; exact (hf.good.d.user q hq).2
  · obtain ⟨ord, hf⟩ := hf
    rw [hi]; exact hf.good.d.bare
  · rw [hi]; exact hd.edge
  · rw [hi]; exact hd.first
  · rw [hi]; exact hd.low

/-- A redefinition of one object. -/
theorem step_setItems {a : Sess K} {st : St K} (hf : SInv P a) (hw : st.WF)
    (hsz : st.defs.size = a.s.st.defs.size) (hps : a.s.st.defs.psize ≤ st.defs.psize)
    (hnx : st.defs.nidx = a.s.st.defs.nidx) (hb : st.defs.base = a.s.st.defs.base) {y : ℕ}
    (hy : y < a.s.st.defs.size) (hyT : y ∉ a.T) (hye : a.s.st.defs.items y ≠ [])
    (hne : ∀ q, q ≠ y → st.defs.items q = a.s.st.defs.items q)
    (hleaf : ∀ i ∈ st.defs.items y, i ∈ a.s.st.defs.items y ∨
      ∀ p ∈ i.leaves, p = y ∨ ¬ Reach a.s.st.defs p y)
    (hfirst : ∀ i rest, st.defs.items y = i :: rest → y ∉ i.leaves)
    (hbare : ∀ p, .leaf p ∈ st.defs.items y → .leaf p ∈ a.s.st.defs.items y ∨ ¬ a.H p) :
    SInv P ⟨{ a.s with st := st }, a.H, a.T⟩ ∧ Kept a ⟨{ a.s with st := st }, a.H, a.T⟩ := by
  classical
  obtain ⟨ord₀, hf₀⟩ := hf
  have hd₀ := hf₀.good.d
  have hTy : ∀ q ∈ a.T, ¬ Reach a.s.st.defs q y := by
    intro q hq hr
    have : ∀ p, Reach a.s.st.defs q p → p ∈ a.T := by
      intro p hp
      induction hp with
      | refl => exact hq
      | step _ hi hp ih => exact hd₀.closed _ ih _ hi _ hp
    exact hyT (this y hr)
  refine step_same ⟨ord₀, hf₀⟩ hw hsz hps hnx
    (fun q hq => hne q (by rintro rfl; exact hyT hq)) (fun q hq => ?_) (fun q _ => by rw [hb])
    (fun q hq p hp => ?_) fun ord hd => ?_
  · have h := hd₀.user q hq
    rw [hne q (by rintro rfl; exact hye h.2)]; exact h.2
  · by_cases e : q = y
    · subst e
      rcases hbare p hp with h | h
      · exact hd₀.bare q hq p h
      · exact h
    · rw [hne q e] at hp
      exact hd₀.bare q hq p hp
  obtain ⟨M, hM⟩ := exists_over ord a.s.st.defs.size
  -- shift everything that depends on `y` above everything else
  have hc : ∃ c : ℚ, 0 ≤ c ∧ M ≤ ord y + c := by
    rcases le_total M (ord y) with h | h
    · exact ⟨0, le_refl _, by linarith⟩
    · exact ⟨M - ord y, by linarith, by linarith⟩
  obtain ⟨c, hc0, hc⟩ := hc
  refine ⟨fun q => if Reach a.s.st.defs q y then ord q + c else ord q, fun q hq => ?_, ?_, ?_, ?_⟩
  · show (if _ then _ else _) = _
    rw [if_neg (hTy q hq)]
  · intro q hq i hi p hp
    by_cases e : q = y
    · subst e
      have hq1 : Reach a.s.st.defs q q := Reach.refl
      simp only [hq1, if_true]
      rcases hleaf i hi with ho | hn
      · rcases hd.edge q hq i ho p hp with hpq | hpq
        · exact Or.inl hpq
        · right
          have hpq : ord p < ord q := hpq
          split <;> linarith
      · rcases hn p hp with hpq | hpq
        · exact Or.inl hpq
        · right
          rw [if_neg hpq]
          have := hM p (hsz ▸ hw.defs.closed q (hsz ▸ hq) i hi p hp)
          linarith
    · rw [hne q e] at hi
      rcases hd.edge q hq i hi p hp with hpq | hpq
      · exact Or.inl hpq
      · right
        have hpq : ord p < ord q := hpq
        by_cases hpy : Reach a.s.st.defs p y
        · have : Reach a.s.st.defs q y := (Reach.of_leaf hi hp).trans hpy
          simp only [hpy, this, if_true]; linarith
        · simp only [hpy, if_false]; split <;> linarith
  · intro q hq i is he
    by_cases e : q = y
    · subst e; exact hfirst i is he
    · rw [hne q e] at he
      exact hd.first q hq i is he
  · intro q hq he
    have h0 := hTy 0 hd.zero.2.2.2.2
    have h1 := hTy a.s.one hd.one.2.2.2.2
    simp only [h0, h1, if_false]
    have : a.s.st.defs.items q ≠ [] := by
      by_cases e : q = y
      · rw [e]; exact hye
      · rw [← hne q e]; exact he
    have hl : ord 0 < ord q ∧ ord a.s.one < ord q := hd.low q hq this
    split
    · exact ⟨by linarith [hl.1], by linarith [hl.2]⟩
    · exact hl


theorem step_newExpr {a : Sess K} (h : SInv P a) :
    SInv P ⟨{ a.s with st := (newExpr a.s.st).2 }, a.H, a.T⟩ ∧
    Kept a ⟨{ a.s with st := (newExpr a.s.st).2 }, a.H, a.T⟩ := by
  have hw0 := h.wf
  obtain ⟨ord, hf⟩ := h
  have hd := hf.good.d
  have h0 : 0 < a.s.st.defs.size := hd.zero.1
  have h1 : a.s.one < a.s.st.defs.size := hd.one.1
  have hw := newExpr_wf hw0 h0
  have hT : ∀ q ∈ a.T, q < a.s.st.defs.size := hd.lt
  have hi : ∀ q < a.s.st.defs.size, (newExpr a.s.st).2.defs.items q = a.s.st.defs.items q := by
    intro q hq
    simp only [newExpr, Function.update_apply]
    rw [if_neg (by omega)]
  have hb : ∀ q < a.s.st.defs.size, (newExpr a.s.st).2.defs.base q = a.s.st.defs.base q := by
    intro q hq
    simp only [newExpr, Function.update_apply]
    rw [if_neg (by omega)]
  have hn : ∀ q < a.s.st.defs.size, (newExpr a.s.st).2.defs.nidx q = a.s.st.defs.nidx q := by
    intro q hq
    simp only [newExpr, Function.update_apply]
    rw [if_neg (by omega)]
  have hnew : (newExpr a.s.st).2.defs.items a.s.st.defs.size = [.leaf 0] := by simp [newExpr]
  have hsz : (newExpr a.s.st).2.defs.size = a.s.st.defs.size + 1 := rfl
  set ord' : ℕ → ℚ := Function.update ord a.s.st.defs.size (max (ord 0) (ord a.s.one) + 1) with hord'
  have ho : ∀ q < a.s.st.defs.size, ord' q = ord q := by
    intro q hq
    rw [hord', Function.update_of_ne (by omega)]
  have hon : ord' a.s.st.defs.size = max (ord 0) (ord a.s.one) + 1 := by simp [hord']
  have hcase : ∀ q < (newExpr a.s.st).2.defs.size, q < a.s.st.defs.size ∨ q = a.s.st.defs.size := by
    intro q hq
    rw [hsz] at hq
    omega
  have hd' : DInv a.H (Sess.gs ⟨{ a.s with st := (newExpr a.s.st).2 }, a.H, a.T⟩ ord') := by
    refine ⟨hw.defs, ?_, ⟨?_, ?_, ?_, hd.zero.2.2.2.1, hd.zero.2.2.2.2⟩,
      ⟨?_, ?_, ?_, hd.one.2.2.2.1, hd.one.2.2.2.2⟩, ?_, ?_, ?_, ?_, ?_, ?_⟩
    · intro q hq
      have hq' : q < a.s.st.defs.size ∧ a.s.st.defs.items q = [] := hd.user q hq
      exact ⟨show q < (newExpr a.s.st).2.defs.size by rw [hsz]; omega, (hi q hq'.1).trans hq'.2⟩
    · show 0 < (newExpr a.s.st).2.defs.size
      rw [hsz]; omega
    · exact (hi 0 h0).trans hd.zero.2.1
    · exact (hb 0 h0).trans hd.zero.2.2.1
    · show a.s.one < (newExpr a.s.st).2.defs.size
      rw [hsz]; omega
    · exact (hi _ h1).trans hd.one.2.1
    · exact (hb _ h1).trans hd.one.2.2.1
    · intro q hq
      show q < (newExpr a.s.st).2.defs.size
      have := hT q hq
      rw [hsz]; omega
    · intro q hq i hi' p hp
      have hi' : i ∈ (newExpr a.s.st).2.defs.items q := hi'
      rw [hi q (hT q hq)] at hi'
      exact hd.closed q hq i hi' p hp
    · intro q hq i hi' p hp
      have hi' : i ∈ (newExpr a.s.st).2.defs.items q := hi'
      show p = q ∨ ord' p < ord' q
      rcases hcase q hq with hq' | rfl
      · rw [hi q hq'] at hi'
        have hpl : p < a.s.st.defs.size := hd.wf.closed q hq' i hi' p hp
        rw [ho q hq', ho p hpl]
        exact hd.edge q hq' i hi' p hp
      · rw [hnew] at hi'
        simp only [List.mem_singleton] at hi'
        subst hi'
        simp only [Node.leaves, List.mem_singleton] at hp
        subst hp
        right
        rw [hon, ho 0 h0]
        have := le_max_left (ord 0) (ord a.s.one)
        linarith
    · intro q hq i is he
      have he : (newExpr a.s.st).2.defs.items q = i :: is := he
      rcases hcase q hq with hq' | rfl
      · rw [hi q hq'] at he
        exact hd.first q hq' i is he
      · rw [hnew] at he
        simp only [List.cons.injEq] at he
        rw [← he.1]
        simp only [Node.leaves, List.mem_singleton]
        omega
    · intro q hq he
      have he : (newExpr a.s.st).2.defs.items q ≠ [] := he
      show ord' 0 < ord' q ∧ ord' a.s.one < ord' q
      rw [ho 0 h0, ho _ h1]
      rcases hcase q hq with hq' | rfl
      · rw [hi q hq'] at he
        rw [ho q hq']
        exact hd.low q hq' he
      · rw [hon]
        have := le_max_left (ord 0) (ord a.s.one)
        have := le_max_right (ord 0) (ord a.s.one)
        constructor <;> linarith
    · intro q hq p hp
      have hp : .leaf p ∈ (newExpr a.s.st).2.defs.items q := hp
      rcases hcase q hq with hq' | rfl
      · rw [hi q hq'] at hp
        exact hd.bare q hq' p hp
      · rw [hnew] at hp
        simp only [List.mem_singleton, Node.leaf.injEq] at hp
        subst hp
        exact hd.zero.2.2.2.1
  refine ⟨⟨ord', fun r => ⟨hd', ?_, hw.plain⟩⟩, fun q hq => hq, ?_, fun q hq => hi q (hT q hq),
    fun q hq _ => hb q (hT q hq), fun _ _ => Iff.rfl⟩
  · exact TmpInv.later (a := a) (ord := ord) hd (hf r).t rfl rfl (fun q hq => hi q (hT q hq))
      (fun q hq _ => hb q (hT q hq)) (fun _ _ => Iff.rfl) (fun q hq => hq)
      (fun q hq => hn q (hd.user q hq).1) (fun q hq => Or.inl hq)
      (le_refl _) (fun q hq => ho q (hT q hq))
  · show a.s.st.defs.size ≤ (newExpr a.s.st).2.defs.size
    rw [hsz]; omega

theorem step_define {a : Sess K} (h : SInv P a) {y : ℕ} {e : Exp K} (hy : y < a.s.st.defs.size)
    (hyT : y ∉ a.T) (hye : a.s.st.defs.items y ≠ []) (hl : ∀ p ∈ e.leaves, p < a.s.st.defs.size)
    (hp : ∀ p ∈ e.pars, p < a.s.st.defs.psize)
    (hord : ∀ p ∈ e.leaves, p = y ∨ ¬ Reach a.s.st.defs p y) :
    SInv P ⟨{ a.s with st := define y e a.s.st }, a.H, a.T⟩ ∧
    Kept a ⟨{ a.s with st := define y e a.s.st }, a.H, a.T⟩ := by
  refine step_setItems h (define_wf h.wf hy hl hp) rfl (le_refl _) rfl rfl hy hyT hye
    (fun q hq => define_items_ne hq e a.s.st) ?_ ?_ ?_
  · intro i hi
    rw [define_items] at hi
    rcases List.mem_append.1 hi with hi | hi
    · left
      split at hi
      · exact hi
      · simp at hi
    · right
      simp only [List.mem_singleton] at hi
      subst hi
      intro p hp
      rw [stored_leaves] at hp
      exact hord p hp
  · intro i rest he
    rw [define_items] at he
    split at he
    · cases hit : a.s.st.defs.items y with
      | nil => exact absurd hit hye
      | cons b c =>
          obtain ⟨ord, hf⟩ := h
          have : b = i := by
            simp only [hit, List.cons_append, List.cons.injEq] at he
            exact he.1
          subst this
          exact hf.good.d.first y hy b c hit
    · next hf =>
      simp only [List.nil_append, List.cons.injEq] at he
      rw [← he.1, stored_leaves]
      exact hf
  · intro p hp
    rw [define_items] at hp
    rcases List.mem_append.1 hp with hp | hp
    · left
      split at hp
      · exact hp
      · simp at hp
    · simp [stored] at hp

theorem step_defineRef {a : Sess K} (h : SInv P a) {y z : ℕ} (hy : y < a.s.st.defs.size)
    (hyT : y ∉ a.T) (hye : a.s.st.defs.items y ≠ []) (hz : z < a.s.st.defs.size)
    (hze : a.s.st.defs.items z ≠ []) (hord : ¬ Reach a.s.st.defs z y) :
    SInv P ⟨{ a.s with st := assignRef y z a.s.st }, a.H, a.T⟩ ∧
    Kept a ⟨{ a.s with st := assignRef y z a.s.st }, a.H, a.T⟩ := by
  have hzy : z ≠ y := by rintro rfl; exact hord Reach.refl
  have hit : (assignRef y z a.s.st).defs.items y = [.leaf z] := by
    simp [assignRef, hzy]
  refine step_setItems h (assignRef_wf h.wf hy hz) rfl (le_refl _) rfl rfl hy hyT hye
    (fun q hq => by simp [assignRef, hq]) ?_ ?_ ?_
  · intro i hi
    rw [hit] at hi
    simp only [List.mem_singleton] at hi
    subst hi
    right
    intro p hp
    simp only [Node.leaves, List.mem_singleton] at hp
    exact Or.inr (hp ▸ hord)
  · intro i rest he
    rw [hit] at he
    simp only [List.cons.injEq] at he
    rw [← he.1]
    simpa [Node.leaves] using Ne.symm hzy
  · intro p hp
    rw [hit] at hp
    simp only [List.mem_singleton, Node.leaf.injEq] at hp
    subst hp
    right
    intro hh
    obtain ⟨ord, hf⟩ := h
    exact hze (hf.good.d.user _ hh).2

theorem step_mem {a : Sess K} {ord : ℕ → ℚ} {m : Mem K} (h : Full P a.H ((a.gs ord).withMem m)) :
    SInv P ⟨((a.gs ord).withMem m).s, a.H, a.T⟩ ∧ Kept a ⟨((a.gs ord).withMem m).s, a.H, a.T⟩ :=
  ⟨⟨ord, h⟩, fun _ h => h, le_refl _, fun _ _ => rfl, fun _ _ _ => rfl, fun _ _ => Iff.rfl⟩

/-- Every call keeps the invariant. -/
theorem SStep.inv {a b : Sess K} (hs : SStep P a b) (h : SInv P a) : SInv P b ∧ Kept a b := by
  cases hs with
  | newVar v => exact step_newVar h v
  | newPar v => exact step_items h (newPar_wf h.wf v) rfl (Nat.le_succ _) rfl rfl (fun _ _ => rfl)
  | newExpr => exact step_newExpr h
  | setVar x v hx =>
      have hu : x < a.s.st.defs.size ∧ a.s.st.defs.items x = [] := by
        obtain ⟨ord, hf⟩ := h
        exact hf.good.d.user x hx
      refine step_items h (assignNum_wf h.wf hu.1 v) rfl (le_refl _) rfl ?_ ?_
      · funext q
        simp only [assignNum, Function.update_apply]
        split
        · next e => rw [e, hu.2]
        · rfl
      · intro q hq
        simp only [assignNum, Function.update_apply]
        rw [if_neg (by rintro rfl; exact hq hx)]
  | setPar p v => exact step_items h (assignPar_wf h.wf p v) rfl (le_refl _) rfl rfl (fun _ _ => rfl)
  | define y e hy hyT hye hl hp hord => exact step_define h hy hyT hye hl hp hord
  | defineRef y z hy hyT hye hz hze hord => exact step_defineRef h hy hyT hye hz hze hord
  | eval y v hy hs he =>
      obtain ⟨ord, hf⟩ := h
      obtain ⟨ρ, hρ⟩ := (hf.wellDefined hy).exists_solves (P := P)
      obtain ⟨m, h1, h2, -⟩ := hf.evalS hy hs hρ
      have h1 : EvalS P y a.s = _ := h1
      rw [h1] at he
      simp only [Option.some.injEq, Prod.mk.injEq] at he
      rw [← he.2]
      exact step_mem h2
  | devalF y x v hy hx hs he =>
      obtain ⟨ord, hf⟩ := h
      obtain ⟨ρ, hρ⟩ := (hf.wellDefined hy).exists_solves (P := P)
      obtain ⟨δ, hδ⟩ := (hf.wellDefined hy).exists_tangent (P := P) x ρ
      obtain ⟨m, h1, h2, -⟩ := hf.devalFS hy hx hs hρ hδ
      have h1 : DevalFS P y x a.s = _ := h1
      rw [h1] at he
      simp only [Option.some.injEq, Prod.mk.injEq] at he
      rw [← he.2]
      exact step_mem h2
  | preComp y hy hs he =>
      obtain ⟨ord, hf⟩ := h
      obtain ⟨m, h1, h2, -⟩ := hf.preCompS hy hs
      have h1 : PreCompS P y a.s = _ := h1
      rw [h1] at he
      simp only [Option.some.injEq] at he
      rw [← he]
      exact step_mem h2
  | symDiff rf y x d hy hx hs hok he =>
      obtain ⟨ord, hf⟩ := h
      obtain ⟨d', g', h1, h2, h3, h4, h5, h6, h7⟩ := hf.symDiff (rf := rf) hy hx hs hok
      have h1 : CoolDiff.symDiff P rf y x a.s = _ := h1
      rw [h1] at he
      simp only [Option.some.injEq, Prod.mk.injEq] at he
      obtain ⟨rfl, rfl⟩ := he
      have hT : g'.T = {q | q ∈ a.T ∨ Reach a.s.st.defs y q ∨
          (a.s.st.defs.size ≤ q ∧ q < g'.s.st.defs.size)} := by
        ext q
        have := h3.T q
        constructor
        · intro hq
          rcases this.1 hq with (hh | hh) | hh
          · exact Or.inl hh
          · exact Or.inr (Or.inl hh)
          · exact Or.inr (Or.inr hh)
        · rintro (hh | hh | hh)
          · exact this.2 (Or.inl (Or.inl hh))
          · exact this.2 (Or.inl (Or.inr hh))
          · exact this.2 (Or.inr hh)
      have hlt : ∀ q ∈ a.T, q < a.s.st.defs.size := hf.good.d.lt
      refine ⟨⟨g'.ord, ?_⟩, fun q hq => Or.inl hq, h3.size, fun q hq => h3.items q (hlt q hq),
        fun q hq _ => h3.base q (hlt q hq), fun _ _ => Iff.rfl⟩
      rw [← hT]
      exact h2

theorem Sess.init_inv : SInv P (Sess.init : Sess K) := by
  have hw : (newVar (1 : K) St.init).2.WF := newVar_wf St.init_wf 1
  have hi : ∀ q, (newVar (1 : K) St.init).2.defs.items q = [] := by
    intro q
    simp [newVar, St.init, Function.update_apply]
  refine ⟨fun _ => 0, fun r => ⟨⟨hw.defs, fun q hq => hq.elim, ⟨?_, hi 0, ?_, fun h => h, Or.inl rfl⟩,
    ⟨?_, hi _, ?_, fun h => h, Or.inr rfl⟩, ?_, fun q _ i h => ?_, fun q _ i h => ?_,
    fun q _ i is h => ?_, fun q _ h => absurd (hi q) h, fun q _ p h => ?_⟩, ?_, hw.plain⟩⟩
  · show 0 < (newVar (1 : K) St.init).2.defs.size
    simp [newVar]
  · show (newVar (1 : K) St.init).2.defs.base 0 = 0
    simp [newVar, St.init]
  · show 1 < (newVar (1 : K) St.init).2.defs.size
    simp [newVar, St.init]
  · show (newVar (1 : K) St.init).2.defs.base 1 = 1
    simp [newVar, St.init]
  · intro q hq
    show q < (newVar (1 : K) St.init).2.defs.size
    have hq : q = 0 ∨ q = 1 := hq
    have : (newVar (1 : K) St.init).2.defs.size = 2 := rfl
    omega
  · have h : i ∈ (newVar (1 : K) St.init).2.defs.items q := h
    rw [hi] at h; simp at h
  · have h : i ∈ (newVar (1 : K) St.init).2.defs.items q := h
    rw [hi] at h; simp at h
  · have h : (newVar (1 : K) St.init).2.defs.items q = i :: is := h
    rw [hi] at h; simp at h
  · have h : _ ∈ (newVar (1 : K) St.init).2.defs.items q := h
    rw [hi] at h; simp at h
  · have e : (Sess.gs (Sess.init : Sess K) (fun _ => 0)).tm = Tmps.empty := rfl
    constructor <;> rw [e] <;> simp [Tmps.empty]

theorem Later.inv {a b : Sess K} (h : Later P a b) (hi : SInv P a) : SInv P b ∧ Kept a b := by
  induction h with
  | refl => exact ⟨hi, Kept.refl a⟩
  | step _ hs ih =>
      obtain ⟨h1, h2⟩ := ih
      obtain ⟨h3, h4⟩ := hs.inv h1
      exact ⟨h3, h2.trans h4⟩

theorem Session.inv {a : Sess K} (h : Session P a) : SInv P a := (Later.inv h Sess.init_inv).1

end CoolDiff
