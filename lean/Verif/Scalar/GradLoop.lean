import Verif.Scalar.GradProof

/-!
# The loops of the gradient and Hessian functions
-/

set_option linter.unusedSectionVars false

namespace CoolDiff

variable {K : Type} [Field K] [DecidableEq K]
variable {P : Prim K} {rf : ℕ → Bool → List Bool → Bool}

/-! ## New Expressions -/

theorem newExprs_spec (n : ℕ) : ∀ a : Sess K,
    (newExprs n a.s).1 = (List.range n).map (a.s.st.defs.size + ·) ∧
    Later P a ⟨(newExprs n a.s).2, a.H, a.T⟩ ∧
    (newExprs n a.s).2.st.defs.size = a.s.st.defs.size + n ∧
    (∀ q < a.s.st.defs.size, (newExprs n a.s).2.st.defs.items q = a.s.st.defs.items q ∧
      (newExprs n a.s).2.st.defs.base q = a.s.st.defs.base q ∧
      (newExprs n a.s).2.st.mem.visited q = a.s.st.mem.visited q) ∧
    (newExprs n a.s).2.st.defs.par = a.s.st.defs.par ∧ (newExprs n a.s).2.tm = a.s.tm ∧
    ∀ q, a.s.st.defs.size ≤ q → q < a.s.st.defs.size + n →
      (newExprs n a.s).2.st.defs.items q = [.leaf 0] ∧
      (newExprs n a.s).2.st.mem.visited q = false := by
  induction n with
  | zero =>
      intro a
      exact ⟨rfl, .refl, rfl, fun _ _ => ⟨rfl, rfl, rfl⟩, rfl, rfl, fun q h1 h2 => by omega⟩
  | succ n ih =>
      intro a
      obtain ⟨h1, h2, h3, h4, h5, h6, h7⟩ := ih ⟨{ a.s with st := (newExpr a.s.st).2 }, a.H, a.T⟩
      have hsz : (newExpr a.s.st).2.defs.size = a.s.st.defs.size + 1 := rfl
      have hit : ∀ q, (newExpr a.s.st).2.defs.items q =
          Function.update a.s.st.defs.items a.s.st.defs.size [.leaf 0] q := fun _ => rfl
      have hba : ∀ q, (newExpr a.s.st).2.defs.base q =
          Function.update a.s.st.defs.base a.s.st.defs.size 0 q := fun _ => rfl
      have hvi : ∀ q, (newExpr a.s.st).2.mem.visited q =
          Function.update a.s.st.mem.visited a.s.st.defs.size false q := fun _ => rfl
      simp only [hsz] at h1 h3 h4 h7
      refine ⟨?_, (Later.refl.step .newExpr).trans h2, by simp only [newExprs]; rw [h3]; omega,
        fun q hq => ?_, h5, h6, fun q hq1 hq2 => ?_⟩
      · simp only [newExprs, h1, List.range_succ_eq_map, List.map_cons, List.map_map]
        refine congrArg₂ _ rfl (List.map_congr_left fun k _ => ?_)
        simp only [Function.comp_apply]; omega
      · obtain ⟨e1, e2, e3⟩ := h4 q (by omega)
        simp only [newExprs]
        rw [e1, e2, e3, hit, hba, hvi]
        simp only [Function.update_of_ne (show q ≠ a.s.st.defs.size by omega), and_self]
      · simp only [newExprs]
        rcases Nat.lt_or_ge q (a.s.st.defs.size + 1) with h | h
        · obtain ⟨e1, e2, e3⟩ := h4 q h
          have : q = a.s.st.defs.size := by omega
          rw [e1, e3, hit, hvi, this]
          simp
        · exact h7 q h (by omega)

/-- No Expression of the closed set `S`, which contains everything temporaries refer to, is flagged. -/
structure Quiet (P : Prim K) (s : SSt K) (H : ℕ → Prop) (S : Set ℕ) : Prop where
  inv : SInv P ⟨s, H, S⟩
  un : ∀ q ∈ S, s.st.defs.items q ≠ [] → s.st.mem.visited q = false

theorem SInv.below {a : Sess K} (h : SInv P a) {y : ℕ} (hy : y ∈ a.T) :
    ∀ q, Reach a.s.st.defs y q → q ∈ a.T := by
  obtain ⟨ord, hf⟩ := h
  intro q hq
  induction hq with
  | refl => exact hy
  | step _ hi hp ih => exact hf.good.d.closed _ ih _ hi _ hp

theorem SInv.lt {a : Sess K} (h : SInv P a) : ∀ q ∈ a.T, q < a.s.st.defs.size := by
  obtain ⟨ord, hf⟩ := h
  exact hf.good.d.lt

theorem Quiet.calm {s : SSt K} {H : ℕ → Prop} {S T : Set ℕ} (h : Quiet P s H S) {y : ℕ} (hy : y ∈ S) :
    Calm P ⟨s, H, T⟩ S y :=
  ⟨h.inv, h.inv.below hy, fun q hq hi _ hv => by
    have := h.un q hq hi
    have hv : s.st.mem.visited q = true := hv
    rw [this] at hv
    simp at hv⟩

/-- Before any query. -/
theorem Calm.of_unflagged {a : Sess K} (ha : SInv P a) (hu : a.Unflagged) {y : ℕ}
    (hy : y < a.s.st.defs.size) : Calm P a (a.T ∪ {q | Reach a.s.st.defs y q}) y := by
  obtain ⟨ord, hf⟩ := ha
  have hlt : ∀ q, Reach a.s.st.defs y q → q < a.s.st.defs.size := fun q hq =>
    Reach.lt hf.good.d.wf.closed hy hq
  refine ⟨⟨ord, hf.addT (B := {q | Reach a.s.st.defs y q}) hlt
    (fun q hq i hi p hp => Reach.step hq hi hp)⟩, fun q hq => Or.inr hq, fun q hq _ _ hv => ?_⟩
  have : q < a.s.st.defs.size := hq.elim (hf.good.d.lt q) (hlt q)
  rw [hu q this] at hv
  simp at hv

/-! ## Calls that keep a root calm -/

/-- What a call may not change of the objects that exist. -/
structure SameTo (n : ℕ) (s s' : SSt K) : Prop where
  items : ∀ q < n, s'.st.defs.items q = s.st.defs.items q
  base : ∀ q < n, s'.st.defs.base q = s.st.defs.base q
  par : s'.st.defs.par = s.st.defs.par

theorem SameTo.refl (n : ℕ) (s : SSt K) : SameTo n s s := ⟨fun _ _ => rfl, fun _ _ => rfl, rfl⟩

theorem SameTo.trans {n : ℕ} {s s' s'' : SSt K} (h : SameTo n s s') (h' : SameTo n s' s'') : SameTo n s s'' :=
  ⟨fun q hq => (h'.items q hq).trans (h.items q hq), fun q hq => (h'.base q hq).trans (h.base q hq),
    h'.par.trans h.par⟩

theorem Calm.setItems {a b : Sess K} {S : Set ℕ} {y : ℕ} (h : Calm P a S y)
    (hinv : SInv P (⟨b.s, b.H, S⟩ : Sess K)) (hi : b.s.st.defs.items = a.s.st.defs.items)
    (htm : b.s.tm = a.s.tm) (hv : b.s.st.mem.visited = a.s.st.mem.visited) : Calm P b S y :=
  h.grow hinv (fun q _ => by rw [hi]) htm fun q _ => by rw [hv]

/-- After a query of `y` everything flagged in `S` is below `y`, and all of it is flagged. -/
theorem Calm.query {a : Sess K} {S : Set ℕ} {y : ℕ} (h : Calm P a S y) {m : Mem K}
    (hinv : SInv P (⟨{ a.s with st := ⟨a.s.st.defs, m⟩ }, a.H, S⟩ : Sess K))
    (h1 : ∀ q, Reach a.s.st.defs y q → m.visited q = true)
    (h2 : ∀ q, ¬ Reach a.s.st.defs y q → m.visited q = true → a.s.st.mem.visited q = true ∧
      ∀ b ∈ itemTargets a.s.tm (a.s.st.defs.items y),
        ¬ Touch a.s.st.defs a.s.tm (fun q => a.s.st.mem.visited q = true) b q) {T : Set ℕ} :
    Calm P (⟨{ a.s with st := ⟨a.s.st.defs, m⟩ }, a.H, T⟩ : Sess K) S y := by
  refine ⟨hinv, h.below, fun q hq hqi hqy hqv => ?_⟩
  by_cases hr : Reach a.s.st.defs y q
  · exact Touch.of_reach' hr h1 hqy
  · obtain ⟨h3, h4⟩ := h2 q hr hqv
    obtain ⟨b, hb, ht⟩ := h.flags q hq hqi hqy h3
    exact absurd ht (h4 b hb)

/-- Calls on a calm root: everything one can do between gradient and Hessian computations of `y`. -/
theorem Calm.preComp {a : Sess K} {S : Set ℕ} {y : ℕ} (h : Calm P a S y) :
    ∃ m, PreCompS P y a.s = some { a.s with st := ⟨a.s.st.defs, m⟩ } ∧
      SStep P a ⟨{ a.s with st := ⟨a.s.st.defs, m⟩ }, a.H, a.T⟩ ∧
      Calm P ⟨{ a.s with st := ⟨a.s.st.defs, m⟩ }, a.H, a.T⟩ S y ∧
      ∀ q, Reach a.s.st.defs y q → m.visited q = true := by
  have hy := h.inv.lt y (h.below y .refl)
  obtain ⟨ord, hf⟩ := h.inv
  obtain ⟨m, h1, h2, h3, h4⟩ := hf.preCompS hy h.safe
  exact ⟨m, h1, .preComp y hy h.safe h1, h.query ⟨ord, h2⟩ h3 h4, h3⟩

theorem Calm.eval {a : Sess K} {S : Set ℕ} {y : ℕ} (h : Calm P a S y) :
    ∃ v m, EvalS P y a.s = some (v, { a.s with st := ⟨a.s.st.defs, m⟩ }) ∧
      SStep P a ⟨{ a.s with st := ⟨a.s.st.defs, m⟩ }, a.H, a.T⟩ ∧
      Calm P ⟨{ a.s with st := ⟨a.s.st.defs, m⟩ }, a.H, a.T⟩ S y ∧ ValueOf P a.s.st.defs y v := by
  have hy := h.inv.lt y (h.below y .refl)
  obtain ⟨ord, hf⟩ := h.inv
  obtain ⟨ρ, hρ⟩ := (hf.wellDefined hy).exists_solves (P := P)
  obtain ⟨m, h1, h2, h3, h4⟩ := hf.evalS hy h.safe hρ
  exact ⟨ρ y, m, h1, .eval y _ hy h.safe h1, h.query ⟨ord, h2⟩ h3 h4, ρ, hρ, rfl⟩

theorem Calm.devalF {a : Sess K} {S : Set ℕ} {y x : ℕ} (h : Calm P a S y)
    (hx : x < a.s.st.defs.size) :
    ∃ v m, DevalFS P y x a.s = some (v, { a.s with st := ⟨a.s.st.defs, m⟩ }) ∧
      SStep P a ⟨{ a.s with st := ⟨a.s.st.defs, m⟩ }, a.H, a.T⟩ ∧
      Calm P ⟨{ a.s with st := ⟨a.s.st.defs, m⟩ }, a.H, a.T⟩ S y ∧ DerivOf P a.s.st.defs y x v := by
  have hy := h.inv.lt y (h.below y .refl)
  obtain ⟨ord, hf⟩ := h.inv
  obtain ⟨ρ, hρ⟩ := (hf.wellDefined hy).exists_solves (P := P)
  obtain ⟨δ, hδ⟩ := (hf.wellDefined hy).exists_tangent (P := P) x ρ
  obtain ⟨m, h1, h2, h3, h4⟩ := hf.devalFS hy hx h.safe hρ hδ
  exact ⟨δ y, m, h1, .devalF y x _ hy hx h.safe h1, h.query ⟨ord, h2⟩ h3 h4, ρ, δ, hρ, hδ, rfl⟩

theorem Calm.new {a : Sess K} {S : Set ℕ} {y : ℕ} (h : Calm P a S y) (n : ℕ) :
    Calm P (⟨(newExprs n a.s).2, a.H, a.T⟩ : Sess K) S y := by
  obtain ⟨-, h2, -, h4, -, h6, -⟩ := newExprs_spec (P := P) n ⟨a.s, a.H, S⟩
  exact h.grow (h2.inv h.inv).1 (fun q hq => (h4 q hq).1) h6 fun q hq => (h4 q hq).2.2

/-! ## One entry -/

/-- The state of a loop whose results are the Expressions `n0, …, N - 1`. -/
structure LoopI (P : Prim K) (a b : Sess K) (n0 N : ℕ) (S : Set ℕ) : Prop where
  le : n0 ≤ N
  later : Later P a b
  H : b.H = a.H
  ext : SameTo n0 a.s b.s
  size : N ≤ b.s.st.defs.size
  freeS : ∀ q ∈ S, n0 ≤ q → N ≤ q
  freeT : ∀ q ∈ b.T, n0 ≤ q → N ≤ q
  cells : ∀ q, n0 ≤ q → q < N → b.s.st.defs.items q ≠ []

theorem assignRef_items_ne {f d q : ℕ} (h : q ≠ f) (s : SSt K) :
    (s.assignRef f d).st.defs.items q = s.st.defs.items q := by
  simp [SSt.assignRef, CoolDiff.assignRef, h]

theorem assignRef_items_self {f d : ℕ} (h : f ≠ d) (s : SSt K) :
    (s.assignRef f d).st.defs.items f = [.leaf d] := by
  have : (d == f) = false := by simpa using fun e => h e.symm
  simp [SSt.assignRef, CoolDiff.assignRef, this]

/-- What one `SymDiff` of the calm root `y` and the assignment of the result to the entry `f` do. -/
structure EntryD (P : Prim K) (rf : ℕ → Bool → List Bool → Bool) (a b : Sess K) (n0 N : ℕ) (y x f d : ℕ) (s' : SSt K) (S' : Set ℕ) :
    Prop where
  run : symDiff P rf y x b.s = some (d, s')
  symD : SymD P b y x d (b.diffed y s')
  step : SStep P (b.diffed y s') ⟨s'.assignRef f d, b.H, (b.diffed y s').T⟩
  loop : LoopI P a ⟨s'.assignRef f d, b.H, (b.diffed y s').T⟩ n0 N S'
  fd : f ≠ d
  dS : d ∉ S'
  dlt : d < s'.st.defs.size
  dge : N ≤ d
  ref : (s'.assignRef f d).st.defs.items f = [.leaf d]
  same : ∀ q, q ≠ f → q < b.s.st.defs.size → (s'.assignRef f d).st.defs.items q = b.s.st.defs.items q
  quiet : Quiet P s' b.H S'
  quiet' : Quiet P (s'.assignRef f d) b.H S'
  below : ∀ q, Reach (s'.assignRef f d).st.defs d q → q = d ∨ q ∈ S'
  nr : ¬ Reach s'.st.defs d f

theorem LoopI.entry {a b : Sess K} {n0 N y x f : ℕ} {S : Set ℕ} (hl : LoopI P a b n0 N S)
    (ha : SInv P a) (hc : Calm P b S y) (hx : b.H x) (hok : b.SymOk y)
    (hi : b.s.st.defs.items y ≠ []) (hf1 : n0 ≤ f) (hf2 : f < N) :
    ∃ d s' S', EntryD P rf a b n0 N y x f d s' S' ∧ (∀ q ∈ S, q ∈ S') ∧ ∃ m,
      PreCompS P f (s'.assignRef f d) =
        some { s' with st := ⟨(CoolDiff.assignRef f d s'.st).defs, m⟩ } ∧
      SStep P ⟨s'.assignRef f d, b.H, (b.diffed y s').T⟩
        ⟨{ s' with st := ⟨(CoolDiff.assignRef f d s'.st).defs, m⟩ }, b.H, (b.diffed y s').T⟩ ∧
      SafeS (CoolDiff.assignRef f d s'.st).defs s'.tm
        (fun q => (CoolDiff.assignRef f d s'.st).mem.visited q = true) f ∧
      Calm P (⟨{ s' with st := ⟨(CoolDiff.assignRef f d s'.st).defs, m⟩ }, b.H, (b.diffed y s').T⟩ : Sess K)
        S' y := by
  have hb : SInv P b := (hl.later.inv ha).1
  have hyS : y ∈ S := hc.below y .refl
  have hyl := hc.inv.lt y hyS
  have hyl : y < b.s.st.defs.size := hyl
  obtain ⟨d, s', e, S', h1, h2, h3, h4, h5, h6, h7, h8, h9, h10, h11, h12, h13, h14, h15, h16, h17⟩ :=
    hc.symDiff (rf := rf) hx hok hi
  obtain ⟨d₂, s₂, g1, g2, -, g3, -, -, -, -⟩ := symDiff_core hb hyl hx hc.safe hok rf
  rw [h1] at g1
  simp only [Option.some.injEq, Prod.mk.injEq] at g1
  obtain ⟨rfl, rfl⟩ := g1
  have hN := hl.size
  have hfd : f ≠ d := by omega
  have hfS : f ∉ S' := fun h => by
    rcases h6 f h with hh | hh
    · have := hl.freeS f hh hf1; omega
    · omega
  have hfT : f ∉ (b.diffed y s').T := by
    rintro (h | h | h)
    · have := hl.freeT f h hf1; omega
    · have := hl.freeS f (hc.below f h) hf1; omega
    · omega
  have hfi : s'.st.defs.items f ≠ [] := by
    rw [h13 f (by omega)]; exact hl.cells f hf1 hf2
  obtain ⟨c1, c2, m, c3, c4⟩ := Calm.ref (T' := (b.diffed y s').T) h2 (h7 y hyS) h4 h5 (by omega : f < s'.st.defs.size) hfS hfd
    hfi h12 h9 h10 h11 h8 (by rw [h13 y hyl]; exact h17)
  have st2 : SStep P (b.diffed y s') ⟨s'.assignRef f d, b.H, (b.diffed y s').T⟩ :=
    SStep.defineRef (a := b.diffed y s') f d (show f < s'.st.defs.size by omega) hfT hfi h4 h12 c1
  have hq' : SInv P (⟨s'.assignRef f d, b.H, S'⟩ : Sess K) :=
    ((SStep.defineRef (P := P) (a := ⟨s', b.H, S'⟩) f d (show f < s'.st.defs.size by omega) hfS hfi h4 h12
      c1).inv h2).1
  refine ⟨d, s', S', ⟨h1, ⟨hyl, hx, hc.safe, hok, rf, s', h1, rfl⟩, st2,
    ⟨hl.le, (hl.later.step g2).step st2, hl.H, ?_, ?_, ?_, ?_, ?_⟩, hfd, h5, h4, by omega,
    assignRef_items_self hfd s', fun q hq hql => by rw [assignRef_items_ne hq, h13 q hql], ⟨h2, h8⟩,
    ⟨hq', fun q hq hqi => ?_⟩, fun q hq => ?_, c1⟩, h7, m, c3, ?_, c2, c4⟩
  · have hn : n0 ≤ b.s.st.defs.size := by omega
    refine hl.ext.trans ⟨fun q hq => ?_, fun q hq => h14 q (by omega), h15⟩
    rw [assignRef_items_ne (by omega), h13 q (by omega)]
  · show N ≤ s'.st.defs.size
    omega
  · intro q hq hqn
    rcases h6 q hq with hh | hh
    · exact hl.freeS q hh hqn
    · omega
  · rintro q (h | h | h) hqn
    · exact hl.freeT q h hqn
    · exact hl.freeS q (hc.below q h) hqn
    · omega
  · intro q hq1 hq2
    show (s'.assignRef f d).st.defs.items q ≠ []
    by_cases hqf : q = f
    · subst hqf; rw [assignRef_items_self hfd]; simp
    · rw [assignRef_items_ne hqf, h13 q (by omega)]
      exact hl.cells q hq1 hq2
  · have hqi : (s'.assignRef f d).st.defs.items q ≠ [] := hqi
    rw [assignRef_items_ne (f := f) (q := q) (fun h => hfS (h ▸ hq))] at hqi
    exact h8 q hq hqi
  · have : ∀ q, Reach (s'.assignRef f d).st.defs d q → Reach s'.st.defs d q := by
      intro q hq
      induction hq with
      | refl => exact .refl
      | @step q p i _ hi hp ih =>
          refine ih.step ?_ hp
          rwa [assignRef_items_ne (f := f) (q := q) (fun h => c1 (h ▸ ih))] at hi
    rcases h11 q (this q hq) with hh | hh
    · exact Or.inl hh
    · exact Or.inr (h2.below (y := e) h9 q hh)
  · exact SStep.preComp (a := ⟨s'.assignRef f d, b.H, (b.diffed y s').T⟩) f
      (show f < s'.st.defs.size by omega) c2 c3

end CoolDiff
