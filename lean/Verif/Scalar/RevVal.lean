import Verif.Scalar.RevObj
import Verif.Scalar.FwdProof

/-!
# The values computed by `traverse`

Reverse traversal evaluates what it traverses, whatever the derivative caches contain.
-/

set_option linter.unusedSectionVars false

namespace CoolDiff

variable {K : Type} [Field K] [DecidableEq K]

section
variable (P : Prim K) (D : Defs K) (S : Set ℕ) (rank : ℕ → ℕ) (ρ : ℕ → K)

structure RVInv (r : ℕ) (m : Mem K) : Prop extends EInv P D S rank ρ r m where
  plain : ∀ q ∈ S, rank q < r → D.items q = [] → m.value q = D.base q

/-- Specification of `traverse` on an object below rank `r`, as far as values are concerned. -/
def TVSpec (r : ℕ) (rec : ℕ → Mem K → Option (Mem K)) : Prop :=
  ∀ q ∈ S, rank q < r → ∀ m m', RVInv P D S rank ρ r m → rec q m = some m' →
    RVInv P D S rank ρ r m' ∧ Frame S rank r m m' ∧ m'.visited q = true ∧ NewClosed D m m'

variable {recE : ℕ → Mem K → Option (K × Mem K)} {recT : ℕ → Mem K → Option (Mem K)}

theorem revN_val {o : ℕ} (hE : VisSpec recE) (hT : TVSpec P D S rank ρ (rank o) recT) (t : Node K) :
    ∀ c m c' m', Below S rank o t → m.visited o = true → RVInv P D S rank ρ (rank o) m →
      unlessVisited t c m (revN P D recE recT t c m) = some (c', m') →
      RVInv P D S rank ρ (rank o) m' ∧ Frame S rank (rank o) m m' ∧
        (∀ p ∈ t.leaves, m'.visited p = true) ∧ NewClosed D m m' := by
  induction t with
  | leaf q =>
      intro c m c' m' hb ho hi h
      obtain ⟨hqS, hq⟩ := hb q (by simp [Node.leaves])
      by_cases hvq : m.visited q = true
      · simp [unlessVisited, nodeVisited, hvq] at h
        obtain ⟨rfl, rfl⟩ := h
        exact ⟨hi, Frame.refl .., by simpa [Node.leaves] using hvq, NewClosed.refl _ _⟩
      · have hqo : q ≠ o := by rintro rfl; exact hvq ho
        have hlt := hq.resolve_left hqo
        simp only [unlessVisited, nodeVisited, hvq, if_false, revN, Option.bind_eq_bind,
          Option.bind_eq_some_iff, Option.some.injEq, Prod.mk.injEq, Bool.false_eq_true] at h
        obtain ⟨m1, h1, rfl, rfl⟩ := h
        obtain ⟨h2, h3, h4, h5⟩ := hT q hqS hlt m m1 hi h1
        exact ⟨h2, h3, by simpa [Node.leaves] using h4, h5⟩
  | par p =>
      intro c m c' m' hb ho hi h
      simp [unlessVisited, nodeVisited, revN] at h
      obtain ⟨rfl, rfl⟩ := h
      exact ⟨hi, Frame.refl .., by simp [Node.leaves], NewClosed.refl _ _⟩
  | op1 n f a ih =>
      intro c m c' m' hb ho hi h
      simp only [unlessVisited, nodeVisited, Bool.false_eq_true, if_false, revN,
        Option.bind_eq_bind, Option.bind_eq_some_iff, Prod.exists] at h
      obtain ⟨c1, m1, h1, u, m2, h2, h3⟩ := h
      obtain ⟨i1, f1, l1, n1⟩ := ih c m c1 m1 hb ho hi h1
      obtain ⟨rfl, -⟩ := val1_vis P D hE f a _ u m2 l1 h2
      obtain ⟨i2, f2, l2, n2⟩ := ih _ _ c' m' hb (f1.mono o ho) i1 h3
      exact ⟨i2, f1.trans f2, l2, n1.trans n2 f2.mono⟩
  | op2 n f a b iha ihb =>
      intro c m c' m' hb ho hi h
      have hba : Below S rank o a := fun p hp => hb p (by simp [Node.leaves, hp])
      have hbb : Below S rank o b := fun p hp => hb p (by simp [Node.leaves, hp])
      simp only [unlessVisited, nodeVisited, Bool.false_eq_true, if_false, revN,
        Option.bind_eq_bind, Option.bind_eq_some_iff, Prod.exists] at h
      obtain ⟨c1, m1, h1, c2, m2, h2, u, v, m3, h3, c4, m4, h4, h5⟩ := h
      obtain ⟨i1, f1, l1, n1⟩ := iha c m c1 m1 hba ho hi h1
      obtain ⟨i2, f2, l2, n2⟩ := ihb _ _ c2 m2 hbb (f1.mono o ho) i1 h2
      have f12 := f1.trans f2
      obtain ⟨rfl, -⟩ := val2_vis P D hE f a b _ u v m3 (fun p hp => f2.mono p (l1 p hp)) l2 h3
      obtain ⟨i3, f3, l3, n3⟩ := iha _ _ c4 m4 hba (f12.mono o ho) i2 h4
      obtain ⟨i4, f4, l4, n4⟩ := ihb _ _ c' m' hbb ((f12.trans f3).mono o ho) i3 h5
      refine ⟨i4, (f12.trans f3).trans f4, ?_, ((n1.trans n2 f2.mono).trans n3 f3.mono).trans n4 f4.mono⟩
      intro p hp
      simp only [Node.leaves, List.mem_append] at hp
      exact hp.elim (fun hp => f4.mono p (l3 p hp)) (l4 p)

theorem revRoot_val {o : ℕ} (hE : VisSpec recE) (hT : TVSpec P D S rank ρ (rank o) recT)
    (hV : TVisSpec recT) (t : Node K) (m : Mem K) (c' : Cache K) (m' : Mem K)
    (hb : Below S rank o t) (ho : m.visited o = true) (hi : RVInv P D S rank ρ (rank o) m)
    (h : revRoot P D recE recT t m = some (c', m')) :
    RVInv P D S rank ρ (rank o) m' ∧ Frame S rank (rank o) m m' ∧
        (∀ p ∈ t.leaves, m'.visited p = true) ∧ NewClosed D m m' := by
  have H := revN_val P D S rank ρ hE hT
  cases t with
  | leaf q =>
      simp only [revRoot, Option.bind_eq_bind, Option.bind_eq_some_iff, Option.some.injEq,
        Prod.mk.injEq] at h
      obtain ⟨m1, h1, rfl, rfl⟩ := h
      obtain ⟨hqS, hq⟩ := hb q (by simp [Node.leaves])
      by_cases hvq : m.visited q = true
      · obtain rfl := hV q m m1 hvq h1
        exact ⟨hi, Frame.refl .., by simpa [Node.leaves] using hvq, NewClosed.refl _ _⟩
      · have hqo : q ≠ o := by rintro rfl; exact hvq ho
        obtain ⟨h2, h3, h4, h5⟩ := hT q hqS (hq.resolve_left hqo) m m1 hi h1
        exact ⟨h2, h3, by simpa [Node.leaves] using h4, h5⟩
  | par p =>
      simp [revRoot] at h
      obtain ⟨rfl, rfl⟩ := h
      exact ⟨hi, Frame.refl .., by simp [Node.leaves], NewClosed.refl _ _⟩
  | op1 n f a =>
      simp only [revRoot, Option.bind_eq_bind, Option.bind_eq_some_iff, Prod.exists] at h
      obtain ⟨c1, m1, h1, u, m2, h2, h3⟩ := h
      obtain ⟨i1, f1, l1, n1⟩ := H a _ m c1 m1 hb ho hi h1
      obtain ⟨rfl, -⟩ := val1_vis P D hE f a _ u m2 l1 h2
      obtain ⟨i2, f2, l2, n2⟩ := H a _ _ c' m' hb (f1.mono o ho) i1 h3
      exact ⟨i2, f1.trans f2, l2, n1.trans n2 f2.mono⟩
  | op2 n f a b =>
      have hba : Below S rank o a := fun p hp => hb p (by simp [Node.leaves, hp])
      have hbb : Below S rank o b := fun p hp => hb p (by simp [Node.leaves, hp])
      simp only [revRoot, Option.bind_eq_bind, Option.bind_eq_some_iff, Prod.exists] at h
      obtain ⟨c1, m1, h1, c2, m2, h2, u, v, m3, h3, c4, m4, h4, h5⟩ := h
      obtain ⟨i1, f1, l1, n1⟩ := H a _ m c1 m1 hba ho hi h1
      obtain ⟨i2, f2, l2, n2⟩ := H b _ _ c2 m2 hbb (f1.mono o ho) i1 h2
      have f12 := f1.trans f2
      obtain ⟨rfl, -⟩ := val2_vis P D hE f a b _ u v m3 (fun p hp => f2.mono p (l1 p hp)) l2 h3
      obtain ⟨i3, f3, l3, n3⟩ := H a _ _ c4 m4 hba (f12.mono o ho) i2 h4
      obtain ⟨i4, f4, l4, n4⟩ := H b _ _ c' m' hbb ((f12.trans f3).mono o ho) i3 h5
      refine ⟨i4, (f12.trans f3).trans f4, ?_, ((n1.trans n2 f2.mono).trans n3 f3.mono).trans n4 f4.mono⟩
      intro p hp
      simp only [Node.leaves, List.mem_append] at hp
      exact hp.elim (fun hp => f4.mono p (l3 p hp)) (l4 p)

theorem revItems_val {o : ℕ} (hE : VisSpec recE) (hT : TVSpec P D S rank ρ (rank o) recT)
    (hV : TVisSpec recT) (is : List (Node K)) :
    ∀ m m', (∀ i ∈ is, Below S rank o i) → m.visited o = true → RVInv P D S rank ρ (rank o) m →
      revItems P D recE recT o is m = some m' →
      m'.value o = seqVal P D.par ρ o is (m.value o) ∧ RVInv P D S rank ρ (rank o) m' ∧
        (∃ m₁, Frame S rank (rank o) m m₁ ∧ m' = (m₁.setValue o (m'.value o)).setCache o (m'.cache o)) ∧
        (∀ i ∈ is, ∀ p ∈ i.leaves, m'.visited p = true) ∧ NewClosed D m m' := by
  induction is with
  | nil =>
      intro m m' hb ho hi h
      simp [revItems] at h
      subst h
      exact ⟨rfl, hi, ⟨m, Frame.refl .., by simp [Mem.setValue, Mem.setCache]⟩, by simp, NewClosed.refl _ _⟩
  | cons i is ih =>
      intro m m' hb ho hi h
      simp only [revItems, Option.bind_eq_bind, Option.bind_eq_some_iff, Prod.exists] at h
      obtain ⟨c, m1, h1, v, m2, h2, h3⟩ := h
      obtain ⟨i1, f1, l1, c1⟩ := revRoot_val P D S rank ρ hE hT hV i m c m1 (hb i (by simp)) ho hi h1
      obtain ⟨hv, rfl⟩ := evalN_vis P D hE i m1 v m2 l1 h2
      have hv' : v = i.val P D.par (Function.update ρ o (m.value o)) := by
        rw [hv]
        apply Node.val_congr
        intro p hp
        by_cases hpo : p = o
        · subst hpo; simp [f1.val p (Or.inr le_rfl)]
        · obtain ⟨a, b⟩ := hb i (by simp) p hp
          simp [hpo, i1.vis p a (b.resolve_left hpo) (l1 p hp)]
      have hne : ∀ q, rank q < rank o → q ≠ o := by rintro q hq rfl; exact lt_irrefl _ hq
      have i1' : RVInv P D S rank ρ (rank o) ((m2.setValue o v).setCache o c) := by
        refine ⟨⟨fun q hq hlt hvq => ?_, i1.eqn⟩, fun q hq hlt he => ?_⟩
        · simpa [Mem.setValue, Mem.setCache, hne q hlt] using i1.vis q hq hlt hvq
        · simpa [Mem.setValue, Mem.setCache, hne q hlt] using i1.plain q hq hlt he
      obtain ⟨e2, i2, ⟨m₂, f2, hm₂⟩, l2, c2⟩ := ih _ m'
        (fun j hj => hb j (by simp [hj])) (by simpa [Mem.setValue, Mem.setCache] using f1.mono o ho) i1' h3
      refine ⟨?_, i2, ⟨(m₂.setValue o (m2.value o)).setCache o (m2.cache o), ?_, ?_⟩, ?_, ?_⟩
      · rw [e2, seqVal, ← hv']; simp [Mem.setValue, Mem.setCache]
      · refine f1.trans ⟨fun q hq => f2.mono q hq, fun q hq => f2.vis q hq, fun q hq => ?_,
          fun q hq => f2.dval q hq, fun q hq => ?_⟩
        · by_cases hqo : q = o
          · subst hqo; simp [Mem.setValue, Mem.setCache]
          · simpa [Mem.setValue, Mem.setCache, hqo] using f2.val q hq
        · by_cases hqo : q = o
          · subst hqo; simp [Mem.setValue, Mem.setCache]
          · simpa [Mem.setValue, Mem.setCache, hqo] using f2.cache q hq
      · rw [hm₂]; simp [Mem.setValue, Mem.setCache]
      · intro j hj p hp
        rcases List.mem_cons.1 hj with rfl | hj
        · rw [hm₂]; exact f2.mono p (l1 p hp)
        · exact l2 j hj p hp
      · refine NewClosed.trans (m' := (m2.setValue o v).setCache o c) c1 c2 ?_
        intro q hq; rw [hm₂]; exact f2.mono q hq

theorem revO_val (fuel : ℕ) :
    ∀ r, TVSpec P D S rank ρ r (revO P D fuel) := by
  induction fuel with
  | zero => intro r q _ _ m m' _ h; simp [revO] at h
  | succ f ih =>
      intro r o hoS hor m m1 hi h
      cases hvo : m.visited o with
      | true =>
          obtain rfl := revO_vis P D (f + 1) o m m1 hvo h
          exact ⟨hi, Frame.refl .., hvo, NewClosed.refl _ _⟩
      | false =>
          simp only [revO, hvo, if_true] at h
          set m0 := m.setVisited o true with hm0
          have hne : ∀ q, rank q < rank o → q ≠ o := by rintro q hq rfl; exact lt_irrefl _ hq
          have i0 : RVInv P D S rank ρ (rank o) m0 := by
            refine ⟨⟨fun q hq hlt hvq => ?_, fun q hq hlt hvq => ?_⟩, fun q hq hlt he => ?_⟩
            · exact hi.vis q hq (hlt.trans hor) (by simpa [hm0, Mem.setVisited, hne q hlt] using hvq)
            · exact hi.eqn q hq (hlt.trans hor) (by simpa [hm0, Mem.setVisited, hne q hlt] using hvq)
            · exact hi.plain q hq (hlt.trans hor) he
          obtain ⟨e, i1, ⟨m₁, fr, hm1⟩, l1, c1⟩ := revItems_val P D S rank ρ (evalO_vis P D f)
            (ih (rank o)) (revO_vis P D f) (D.items o) m0 m1 (hi.eqn o hoS hor hvo).1.closed
            (by simp [hm0, Mem.setVisited]) i0 h
          have e' : m1.value o = ρ o := by
            rw [e, (hi.eqn o hoS hor hvo).2]
            have hp := hi.plain o hoS hor
            have hf := (hi.eqn o hoS hor hvo).1.first
            cases hit : D.items o with
            | nil => simpa [seqVal, hm0, Mem.setVisited] using hp hit
            | cons i is => exact seqVal_start P D.par ρ o i is (hf i is hit) _ _
          have hvo1 : m1.visited o = true := by
            rw [hm1]; exact fr.mono o (by simp [hm0, Mem.setVisited])
          have hmono : ∀ q, m.visited q = true → m1.visited q = true := by
            intro q hq
            rw [hm1]
            refine fr.mono q ?_
            by_cases h : q = o
            · subst h; simp [hm0, Mem.setVisited]
            · simpa [hm0, Mem.setVisited, h] using hq
          have hfr : Frame S rank r m m1 := by
            have key : ∀ q, (q ∉ S ∨ r ≤ rank q) → q ≠ o ∧ (q ∉ S ∨ rank o ≤ rank q) := by
              intro q hq
              refine ⟨?_, hq.imp_right fun h => hor.le.trans h⟩
              rintro rfl
              exact hq.elim (fun h => h hoS) fun h => absurd hor (not_lt.2 h)
            refine ⟨hmono, ?_, ?_, ?_, ?_⟩ <;> intro q hq <;> obtain ⟨hqo, hq'⟩ := key q hq <;>
              rw [hm1]
            · simpa [hm0, Mem.setVisited, Mem.setValue, Mem.setCache, hqo] using fr.vis q hq'
            · simpa [hm0, Mem.setVisited, Mem.setValue, Mem.setCache, hqo] using fr.val q hq'
            · simpa [hm0, Mem.setVisited, Mem.setValue, Mem.setCache, hqo] using fr.dval q hq'
            · simpa [hm0, Mem.setVisited, Mem.setValue, Mem.setCache, hqo] using fr.cache q hq'
          refine ⟨⟨⟨fun q hq hlt hvq => ?_, fun q hq hlt hvq => hi.eqn q hq hlt
            (not_visited_of_mono hmono hvq)⟩, fun q hq hlt he => ?_⟩, hfr, hvo1, ?_⟩
          · by_cases hqo : q = o
            · subst hqo; exact e'
            · by_cases hlt' : rank q < rank o
              · exact i1.vis q hq hlt' hvq
              · have hq' : q ∉ S ∨ rank o ≤ rank q := Or.inr (not_lt.1 hlt')
                have hv := fr.val q hq'
                have hvv := fr.vis q hq'
                rw [hm1] at hvq ⊢
                simp [hm0, Mem.setVisited, Mem.setValue, Mem.setCache, hqo] at hv hvv hvq ⊢
                rw [hv]
                exact hi.vis q hq hlt (by rw [← hvv]; exact hvq)
          · by_cases hqo : q = o
            · subst hqo; rw [e, he]; exact hi.plain q hq hlt he
            · by_cases hlt' : rank q < rank o
              · exact i1.plain q hq hlt' he
              · have hv := fr.val q (Or.inr (not_lt.1 hlt'))
                rw [hm1]
                simp [hm0, Mem.setVisited, Mem.setValue, Mem.setCache, hqo] at hv ⊢
                rw [hv]
                exact hi.plain q hq hlt he
          · intro q hq hq' i hii p hp
            by_cases hqo : q = o
            · subst hqo; exact l1 i hii p hp
            · exact c1 q (by simpa [hm0, Mem.setVisited, hqo] using hq) hq' i hii p hp

end

end CoolDiff
