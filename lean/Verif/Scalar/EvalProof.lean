import Verif.Scalar.Spec
import Mathlib.Tactic.Set
import Mathlib.Tactic.Ring
import Mathlib.Tactic.FieldSimp

/-!
# `eval` computes the solution
-/

set_option linter.unusedSectionVars false

namespace CoolDiff

variable {K : Type} [Field K] [DecidableEq K]

theorem Op1.val_eq_sem (P : Prim K) (f : Op1 K) (u : K) : f.val P u = f.sem P u := by
  cases f with
  | fn f => cases f <;> rfl
  | divC c => simp [Op1.val, Op1.sem, div_eq_mul_inv]
  | _ => rfl

theorem Op2.val_eq_sem (P : Prim K) (f : Op2 K) (u v : K) : f.val P u v = f.sem P u v := by
  cases f <;> simp [Op2.val, Op2.sem, div_eq_mul_inv]

theorem Node.val_congr (P : Prim K) (π : ℕ → K) {ρ ρ' : ℕ → K} (t : Node K)
    (h : ∀ p ∈ t.leaves, ρ p = ρ' p) : t.val P π ρ = t.val P π ρ' := by
  induction t with
  | leaf o => exact h o (by simp [Node.leaves])
  | par p => rfl
  | op1 n f a ih => simp only [Node.val]; rw [ih h]
  | op2 n f a b iha ihb =>
      simp only [Node.val]
      rw [iha fun p hp => h p (by simp [Node.leaves, hp]),
        ihb fun p hp => h p (by simp [Node.leaves, hp])]

/-- A downward closed set of objects with a rank: what `WellDefined` provides for the objects that
`y` depends on. -/
structure Ranked (D : Defs K) (S : Set ℕ) (rank : ℕ → ℕ) : Prop where
  closed : ∀ q ∈ S, ∀ i ∈ D.items q, ∀ p ∈ i.leaves, p ∈ S ∧ (p = q ∨ rank p < rank q)
  first : ∀ q ∈ S, ∀ i is, D.items q = i :: is → q ∉ i.leaves

/-- The part of `Ranked` about one object. -/
structure RankedAt (D : Defs K) (S : Set ℕ) (rank : ℕ → ℕ) (q : ℕ) : Prop where
  closed : ∀ i ∈ D.items q, ∀ p ∈ i.leaves, p ∈ S ∧ (p = q ∨ rank p < rank q)
  first : ∀ i is, D.items q = i :: is → q ∉ i.leaves

theorem Ranked.at {D : Defs K} {S : Set ℕ} {rank : ℕ → ℕ} (h : Ranked D S rank) {q : ℕ} (hq : q ∈ S) :
    RankedAt D S rank q := ⟨h.closed q hq, h.first q hq⟩

theorem WellDefined.ranked {D : Defs K} {y : ℕ} (h : WellDefined D y) :
    ∃ rank, Ranked D {q | Reach D y q} rank := by
  obtain ⟨⟨rank, hr⟩, hf⟩ := h
  exact ⟨rank, fun q hq i hi p hp => ⟨Reach.step hq hi hp, hr q hq i hi p hp⟩, hf⟩

/-- Every leaf of `t` is below `o`, or is `o` itself. -/
def Below (S : Set ℕ) (rank : ℕ → ℕ) (o : ℕ) (t : Node K) : Prop :=
  ∀ p ∈ t.leaves, p ∈ S ∧ (p = o ∨ rank p < rank o)

/-- What happens to the memory while something at rank `≤ r` is processed: flags only go up, objects
of rank `≥ r` and outside `S` are not touched. -/
structure Frame (S : Set ℕ) (rank : ℕ → ℕ) (r : ℕ) (m m' : Mem K) : Prop where
  mono : ∀ q, m.visited q = true → m'.visited q = true
  vis : ∀ q, (q ∉ S ∨ r ≤ rank q) → m'.visited q = m.visited q
  val : ∀ q, (q ∉ S ∨ r ≤ rank q) → m'.value q = m.value q
  dval : ∀ q, (q ∉ S ∨ r ≤ rank q) → m'.dvalue q = m.dvalue q
  cache : ∀ q, (q ∉ S ∨ r ≤ rank q) → m'.cache q = m.cache q

theorem Frame.refl (S : Set ℕ) (rank : ℕ → ℕ) (r : ℕ) (m : Mem K) : Frame S rank r m m :=
  ⟨fun _ h => h, fun _ _ => rfl, fun _ _ => rfl, fun _ _ => rfl, fun _ _ => rfl⟩

theorem Frame.trans {S : Set ℕ} {rank : ℕ → ℕ} {r : ℕ} {m m' m'' : Mem K}
    (h : Frame S rank r m m') (h' : Frame S rank r m' m'') : Frame S rank r m m'' :=
  ⟨fun q hq => h'.mono q (h.mono q hq), fun q hq => (h'.vis q hq).trans (h.vis q hq),
    fun q hq => (h'.val q hq).trans (h.val q hq), fun q hq => (h'.dval q hq).trans (h.dval q hq),
    fun q hq => (h'.cache q hq).trans (h.cache q hq)⟩

theorem Frame.weaken {S : Set ℕ} {rank : ℕ → ℕ} {r r' : ℕ} {m m' : Mem K}
    (h : Frame S rank r m m') (hr : r ≤ r') : Frame S rank r' m m' :=
  ⟨h.mono, fun q hq => h.vis q (hq.imp_right hr.trans), fun q hq => h.val q (hq.imp_right hr.trans),
    fun q hq => h.dval q (hq.imp_right hr.trans), fun q hq => h.cache q (hq.imp_right hr.trans)⟩

/-- Newly visited objects have all their operands visited. -/
def NewClosed (D : Defs K) (m m' : Mem K) : Prop :=
  ∀ q, m.visited q = false → m'.visited q = true →
    ∀ i ∈ D.items q, ∀ p ∈ i.leaves, m'.visited p = true

theorem NewClosed.refl (D : Defs K) (m : Mem K) : NewClosed D m m := by
  intro q h h'; simp [h] at h'

theorem NewClosed.trans {D : Defs K} {m m' m'' : Mem K} (h : NewClosed D m m')
    (h' : NewClosed D m' m'') (hm : ∀ q, m'.visited q = true → m''.visited q = true) :
    NewClosed D m m'' := by
  intro q hq hq' i hi p hp
  cases hv : m'.visited q with
  | false => exact h' q hv hq' i hi p hp
  | true => exact hm p (h q hq hv i hi p hp)

section
variable (P : Prim K) (D : Defs K) (S : Set ℕ) (rank : ℕ → ℕ) (ρ : ℕ → K)

theorem not_visited_of_mono {m m' : Mem K} (h : ∀ q, m.visited q = true → m'.visited q = true) {q : ℕ}
    (hq : m'.visited q = false) : m.visited q = false := by
  cases hv : m.visited q with
  | false => rfl
  | true => rw [h q hv] at hq; simp at hq

/-- Visited objects of rank below `r` hold the value `ρ` gives them; the others depend on objects of `S` of
smaller rank and `ρ` solves their definition. -/
structure EInv (r : ℕ) (m : Mem K) : Prop where
  vis : ∀ q ∈ S, rank q < r → m.visited q = true → m.value q = ρ q
  eqn : ∀ q ∈ S, rank q < r → m.visited q = false → RankedAt D S rank q ∧
    ρ q = seqVal P D.par ρ q (D.items q) (D.base q)

/-- Specification of a recursive call on an object below rank `r`. -/
def ESpec (r : ℕ) (rec : ℕ → Mem K → Option (K × Mem K)) : Prop :=
  ∀ q ∈ S, rank q < r → ∀ m v m', EInv P D S rank ρ r m → rec q m = some (v, m') →
    v = ρ q ∧ EInv P D S rank ρ r m' ∧ Frame S rank r m m' ∧ m'.visited q = true ∧ NewClosed D m m'

/-- Specification of a recursive call on a visited object. -/
def VisSpec (rec : ℕ → Mem K → Option (K × Mem K)) : Prop :=
  ∀ q m v m', m.visited q = true → rec q m = some (v, m') → v = m.value q ∧ m' = m

theorem evalO_vis (fuel : ℕ) : VisSpec (evalO P D fuel) := by
  intro q m v m' hv h
  cases fuel with
  | zero => simp [evalO] at h
  | succ f =>
      simp [evalO, hv] at h
      exact ⟨h.1.symm, h.2.symm⟩

/-- `eval` of a tree all of whose leaves are visited. -/
theorem evalN_vis {rec : ℕ → Mem K → Option (K × Mem K)} (hrec : VisSpec rec) (t : Node K) :
    ∀ m v m', (∀ p ∈ t.leaves, m.visited p = true) → evalN P D rec t m = some (v, m') →
      v = t.val P D.par m.value ∧ m' = m := by
  induction t with
  | leaf o =>
      intro m v m' hl h
      exact hrec o m v m' (hl o (by simp [Node.leaves])) h
  | par p =>
      intro m v m' hl h
      simp [evalN] at h
      exact ⟨h.1.symm, h.2.symm⟩
  | op1 n f a ih =>
      intro m v m' hl h
      simp only [evalN, Option.bind_eq_bind, Option.bind_eq_some_iff, Prod.exists,
        Option.some.injEq, Prod.mk.injEq] at h
      obtain ⟨u, m1, h1, rfl, rfl⟩ := h
      obtain ⟨rfl, rfl⟩ := ih m u m1 hl h1
      exact ⟨by rw [Op1.val_eq_sem]; rfl, rfl⟩
  | op2 n f a b iha ihb =>
      intro m v m' hl h
      have hla : ∀ p ∈ a.leaves, m.visited p = true := fun p hp => hl p (by simp [Node.leaves, hp])
      have hlb : ∀ p ∈ b.leaves, m.visited p = true := fun p hp => hl p (by simp [Node.leaves, hp])
      simp only [evalN] at h
      split at h
      · simp only [Option.bind_eq_bind, Option.bind_eq_some_iff, Prod.exists,
          Option.some.injEq, Prod.mk.injEq] at h
        obtain ⟨w, m1, h1, u, m2, h2, rfl, rfl⟩ := h
        obtain ⟨rfl, rfl⟩ := ihb m w m1 hlb h1
        obtain ⟨rfl, rfl⟩ := iha _ u m2 hla h2
        exact ⟨by rw [Op2.val_eq_sem]; rfl, rfl⟩
      · simp only [Option.bind_eq_bind, Option.bind_eq_some_iff, Prod.exists,
          Option.some.injEq, Prod.mk.injEq] at h
        obtain ⟨w, m1, h1, u, m2, h2, rfl, rfl⟩ := h
        obtain ⟨rfl, rfl⟩ := iha m w m1 hla h1
        obtain ⟨rfl, rfl⟩ := ihb _ u m2 hlb h2
        exact ⟨by rw [Op2.val_eq_sem]; rfl, rfl⟩

theorem evalN_spec {o : ℕ} {rec : ℕ → Mem K → Option (K × Mem K)}
    (hrec : ESpec P D S rank ρ (rank o) rec) (hvis : VisSpec rec) (t : Node K) :
    ∀ m v m', Below S rank o t → m.visited o = true → EInv P D S rank ρ (rank o) m →
      evalN P D rec t m = some (v, m') →
      v = t.val P D.par (Function.update ρ o (m.value o)) ∧ EInv P D S rank ρ (rank o) m' ∧
        Frame S rank (rank o) m m' ∧ (∀ p ∈ t.leaves, m'.visited p = true) ∧ NewClosed D m m' := by
  induction t with
  | leaf q =>
      intro m v m' hb ho hi h
      obtain ⟨hqS, hq⟩ := hb q (by simp [Node.leaves])
      by_cases hqo : q = o
      · subst hqo
        obtain ⟨rfl, rfl⟩ := hvis q m v m' ho h
        exact ⟨by simp [Node.val], hi, Frame.refl .., by simpa [Node.leaves] using ho, NewClosed.refl _ _⟩
      · have hlt := hq.resolve_left hqo
        obtain ⟨rfl, h2, h3, h4, h5⟩ := hrec q hqS hlt m v m' hi h
        exact ⟨by simp [Node.val, hqo], h2, h3, by simpa [Node.leaves] using h4, h5⟩
  | par p =>
      intro m v m' hb ho hi h
      simp [evalN] at h
      obtain ⟨rfl, rfl⟩ := h
      exact ⟨rfl, hi, Frame.refl .., by simp [Node.leaves], NewClosed.refl _ _⟩
  | op1 n f a ih =>
      intro m v m' hb ho hi h
      simp only [evalN, Option.bind_eq_bind, Option.bind_eq_some_iff, Prod.exists,
        Option.some.injEq, Prod.mk.injEq] at h
      obtain ⟨u, m1, h1, rfl, rfl⟩ := h
      obtain ⟨rfl, h2, h3, h4, h5⟩ := ih m u m1 hb ho hi h1
      exact ⟨by rw [Op1.val_eq_sem]; rfl, h2, h3, h4, h5⟩
  | op2 n f a b iha ihb =>
      intro m v m' hb ho hi h
      have hba : Below S rank o a := fun p hp => hb p (by simp [Node.leaves, hp])
      have hbb : Below S rank o b := fun p hp => hb p (by simp [Node.leaves, hp])
      simp only [evalN] at h
      split at h
      · simp only [Option.bind_eq_bind, Option.bind_eq_some_iff, Prod.exists,
          Option.some.injEq, Prod.mk.injEq] at h
        obtain ⟨w, m1, h1, u, m2, h2, rfl, rfl⟩ := h
        obtain ⟨rfl, i1, f1, l1, c1⟩ := ihb m w m1 hbb ho hi h1
        obtain ⟨rfl, i2, f2, l2, c2⟩ := iha m1 u m2 hba (f1.mono o ho) i1 h2
        refine ⟨?_, i2, f1.trans f2, ?_, c1.trans c2 f2.mono⟩
        · rw [Op2.val_eq_sem, f1.val o (Or.inr le_rfl)]; rfl
        · intro p hp
          simp only [Node.leaves, List.mem_append] at hp
          exact hp.elim (l2 p) fun hp => f2.mono p (l1 p hp)
      · simp only [Option.bind_eq_bind, Option.bind_eq_some_iff, Prod.exists,
          Option.some.injEq, Prod.mk.injEq] at h
        obtain ⟨w, m1, h1, u, m2, h2, rfl, rfl⟩ := h
        obtain ⟨rfl, i1, f1, l1, c1⟩ := iha m w m1 hba ho hi h1
        obtain ⟨rfl, i2, f2, l2, c2⟩ := ihb m1 u m2 hbb (f1.mono o ho) i1 h2
        refine ⟨?_, i2, f1.trans f2, ?_, c1.trans c2 f2.mono⟩
        · rw [Op2.val_eq_sem, f1.val o (Or.inr le_rfl)]; rfl
        · intro p hp
          simp only [Node.leaves, List.mem_append] at hp
          exact hp.elim (fun hp => f2.mono p (l1 p hp)) (l2 p)

theorem evalItems_spec {o : ℕ} (_hoS : o ∈ S) {rec : ℕ → Mem K → Option (K × Mem K)}
    (hrec : ESpec P D S rank ρ (rank o) rec) (hvis : VisSpec rec) (is : List (Node K)) :
    ∀ m m', (∀ i ∈ is, Below S rank o i) → m.visited o = true → EInv P D S rank ρ (rank o) m →
      evalItems P D rec o is m = some m' →
      m'.value o = seqVal P D.par ρ o is (m.value o) ∧ EInv P D S rank ρ (rank o) m' ∧
        (∃ m₁, Frame S rank (rank o) m m₁ ∧ m' = m₁.setValue o (m'.value o)) ∧
        (∀ i ∈ is, ∀ p ∈ i.leaves, m'.visited p = true) ∧ NewClosed D m m' := by
  induction is with
  | nil =>
      intro m m' hb ho hi h
      simp [evalItems] at h
      subst h
      exact ⟨rfl, hi, ⟨m, Frame.refl .., by simp [Mem.setValue]⟩, by simp, NewClosed.refl _ _⟩
  | cons i is ih =>
      intro m m' hb ho hi h
      simp only [evalItems, Option.bind_eq_bind, Option.bind_eq_some_iff, Prod.exists] at h
      obtain ⟨v, m1, h1, h2⟩ := h
      obtain ⟨hv, i1, f1, l1, c1⟩ :=
        evalN_spec P D S rank ρ hrec hvis i m v m1 (hb i (by simp)) ho hi h1
      have i1' : EInv P D S rank ρ (rank o) (m1.setValue o v) := by
        refine ⟨fun q hq hlt hvq => ?_, i1.eqn⟩
        have hne : q ≠ o := by rintro rfl; exact absurd hlt (lt_irrefl _)
        simpa [Mem.setValue, hne] using i1.vis q hq hlt (by simpa [Mem.setValue] using hvq)
      obtain ⟨e2, i2, ⟨m₂, f2, hm₂⟩, l2, c2⟩ := ih (m1.setValue o v) m'
        (fun j hj => hb j (by simp [hj])) (by simpa [Mem.setValue] using f1.mono o ho) i1' h2
      refine ⟨?_, i2, ⟨m₂.setValue o (m1.value o), ?_, ?_⟩, ?_, ?_⟩
      · rw [e2, seqVal, ← hv]; simp [Mem.setValue]
      · refine f1.trans ⟨fun q hq => f2.mono q hq, fun q hq => f2.vis q hq, fun q hq => ?_,
          fun q hq => f2.dval q hq, fun q hq => f2.cache q hq⟩
        by_cases hqo : q = o
        · subst hqo; simp [Mem.setValue]
        · simpa [Mem.setValue, hqo] using f2.val q hq
      · rw [hm₂]; simp [Mem.setValue]
      · intro j hj p hp
        rcases List.mem_cons.1 hj with rfl | hj
        · rw [hm₂]; exact f2.mono p (l1 p hp)
        · exact l2 j hj p hp
      · refine NewClosed.trans (m' := m1.setValue o v) c1 c2 ?_
        intro q hq; rw [hm₂]; exact f2.mono q hq

theorem evalO_spec (fuel : ℕ) :
    ∀ r, ESpec P D S rank ρ r (evalO P D fuel) := by
  induction fuel with
  | zero => intro r q _ _ m v m' _ h; simp [evalO] at h
  | succ f ih =>
      intro r o hoS hor m v m' hi h
      cases hvo : m.visited o with
      | true =>
          obtain ⟨rfl, rfl⟩ := evalO_vis P D (f + 1) o m v m' hvo h
          exact ⟨hi.vis o hoS hor hvo, hi, Frame.refl .., hvo, NewClosed.refl _ _⟩
      | false =>
          simp only [evalO, hvo, if_true, Option.bind_eq_bind, Option.bind_eq_some_iff,
            Option.some.injEq, Prod.mk.injEq] at h
          obtain ⟨m1, h1, rfl, rfl⟩ := h
          set m0 := (m.setValue o (D.base o)).setVisited o true with hm0
          have hne : ∀ q, rank q < rank o → q ≠ o := by rintro q hq rfl; exact lt_irrefl _ hq
          have i0 : EInv P D S rank ρ (rank o) m0 := by
            constructor <;> intro q hq hlt hvq <;> have := hne q hlt <;>
              simp [hm0, Mem.setValue, Mem.setVisited, this] at hvq ⊢
            · exact hi.vis q hq (hlt.trans hor) hvq
            · exact hi.eqn q hq (hlt.trans hor) hvq
          obtain ⟨e, i1, ⟨m₁, fr, hm1⟩, l1, c1⟩ := evalItems_spec P D S rank ρ hoS (ih (rank o))
            (evalO_vis P D f) (D.items o) m0 m1 (hi.eqn o hoS hor hvo).1.closed
            (by simp [hm0, Mem.setVisited]) i0 h1
          have e' : m1.value o = ρ o := by
            rw [e, (hi.eqn o hoS hor hvo).2]; simp [hm0, Mem.setValue, Mem.setVisited]
          have hvo1 : m1.visited o = true := by
            rw [hm1]; exact fr.mono o (by simp [hm0, Mem.setVisited])
          have hmono : ∀ q, m.visited q = true → m1.visited q = true := by
            intro q hq
            rw [hm1]
            refine fr.mono q ?_
            by_cases h : q = o
            · subst h; simp [hm0, Mem.setVisited]
            · simpa [hm0, Mem.setVisited, Mem.setValue, h] using hq
          have hfr : Frame S rank r m m1 := by
            have key : ∀ q, (q ∉ S ∨ r ≤ rank q) → q ≠ o ∧ (q ∉ S ∨ rank o ≤ rank q) := by
              intro q hq
              refine ⟨?_, hq.imp_right fun h => hor.le.trans h⟩
              rintro rfl
              exact hq.elim (fun h => h hoS) fun h => absurd hor (not_lt.2 h)
            refine ⟨hmono, ?_, ?_, ?_, ?_⟩ <;> intro q hq <;> obtain ⟨hqo, hq'⟩ := key q hq <;>
              rw [hm1]
            · simpa [hm0, Mem.setVisited, Mem.setValue, hqo] using fr.vis q hq'
            · simpa [hm0, Mem.setVisited, Mem.setValue, hqo] using fr.val q hq'
            · simpa [hm0, Mem.setVisited, Mem.setValue, hqo] using fr.dval q hq'
            · simpa [hm0, Mem.setVisited, Mem.setValue, hqo] using fr.cache q hq'
          refine ⟨e', ⟨?_, fun q hq hlt hvq => hi.eqn q hq hlt
            (not_visited_of_mono hmono hvq)⟩, hfr, hvo1, ?_⟩
          · intro q hq hlt hvq
            by_cases hqo : q = o
            · subst hqo; exact e'
            · by_cases hlt' : rank q < rank o
              · exact i1.vis q hq hlt' hvq
              · have hq' : q ∉ S ∨ rank o ≤ rank q := Or.inr (not_lt.1 hlt')
                have hv := fr.val q hq'
                have hvv := fr.vis q hq'
                rw [hm1] at hvq ⊢
                simp [hm0, Mem.setVisited, Mem.setValue, hqo] at hv hvv hvq ⊢
                rw [hv]
                exact hi.vis q hq hlt (by rw [← hvv]; exact hvq)
          · intro q hq hq' i hii p hp
            by_cases hqo : q = o
            · subst hqo; exact l1 i hii p hp
            · exact c1 q (by simpa [hm0, Mem.setVisited, Mem.setValue, hqo] using hq) hq' i hii p hp

end

end CoolDiff
