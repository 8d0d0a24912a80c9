import Verif.Scalar.EvalProof

/-!
# `devalF` computes the tangent
-/

set_option linter.unusedSectionVars false

namespace CoolDiff

variable {K : Type} [Field K] [DecidableEq K]

theorem Op1.fwd_eq (P : Prim K) (f : Op1 K) (u du : K) : f.fwd P u du = f.der P u * du := by
  cases f with
  | fn f =>
      cases f <;> simp [Op1.fwd, Fn.fwd, Op1.der, pow_two, neg_div]
      rw [← neg_mul, ← inv_neg, neg_sub]
  | divC c => simp only [Op1.fwd, Op1.der]; field_simp
  | _ => simp [Op1.fwd, Op1.der] <;> ring

theorem Op1.fwd_unused (P : Prim K) (f : Op1 K) (h : f.usesVal = false) (u du : K) :
    f.fwd P 0 du = f.der P u * du := by
  cases f <;> simp [Op1.usesVal] at h <;> simp [Op1.fwd, Op1.der]

theorem Op2.fwd_eq (P : Prim K) (f : Op2 K) (u v du dv : K) :
    f.fwd P u v du dv = f.derL P u v * du + f.derR P u v * dv := by
  cases f with
  | div =>
      simp only [Op2.fwd, Op2.derL, Op2.derR]
      by_cases hv : v = 0
      · simp [hv]
      · field_simp; ring
  | _ => simp only [Op2.fwd, Op2.derL, Op2.derR]; try ring

theorem Op2.fwd_unused (P : Prim K) (f : Op2 K) (h : f.usesVal = false) (u v du dv : K) :
    f.fwd P 0 0 du dv = f.derL P u v * du + f.derR P u v * dv := by
  cases f <;> simp [Op2.usesVal] at h <;> (simp [Op2.fwd, Op2.derL, Op2.derR]; try ring)

theorem Node.der_congr (P : Prim K) (π : ℕ → K) {ρ ρ' δ δ' : ℕ → K} (t : Node K)
    (h : ∀ p ∈ t.leaves, ρ p = ρ' p) (hd : ∀ p ∈ t.leaves, δ p = δ' p) :
    t.der P π ρ δ = t.der P π ρ' δ' := by
  induction t with
  | leaf o => exact hd o (by simp [Node.leaves])
  | par p => rfl
  | op1 n f a ih =>
      simp only [Node.der]; rw [ih h hd, Node.val_congr P π a h]
  | op2 n f a b iha ihb =>
      have ha : ∀ p ∈ a.leaves, ρ p = ρ' p := fun p hp => h p (by simp [Node.leaves, hp])
      have hb : ∀ p ∈ b.leaves, ρ p = ρ' p := fun p hp => h p (by simp [Node.leaves, hp])
      simp only [Node.der]
      rw [iha ha fun p hp => hd p (by simp [Node.leaves, hp]),
        ihb hb fun p hp => hd p (by simp [Node.leaves, hp]), Node.val_congr P π a ha,
        Node.val_congr P π b hb]

/-- When the first right-hand side does not mention `o`, the starting value is irrelevant. -/
theorem seqVal_start (P : Prim K) (π ρ : ℕ → K) (o : ℕ) (i : Node K) (is : List (Node K))
    (h : o ∉ i.leaves) (v v' : K) :
    seqVal P π ρ o (i :: is) v = seqVal P π ρ o (i :: is) v' := by
  simp only [seqVal]
  rw [Node.val_congr P π (ρ' := Function.update ρ o v') i]
  intro p hp
  have : p ≠ o := by rintro rfl; exact h hp
  simp [this]

theorem seqDer_start (P : Prim K) (π ρ δ : ℕ → K) (o : ℕ) (i : Node K) (is : List (Node K))
    (h : o ∉ i.leaves) (v v' d d' : K) :
    seqDer P π ρ δ o (i :: is) v d = seqDer P π ρ δ o (i :: is) v' d' := by
  have hρ : ∀ p ∈ i.leaves, Function.update ρ o v p = Function.update ρ o v' p := by
    intro p hp
    have : p ≠ o := by rintro rfl; exact h hp
    simp [this]
  have hδ : ∀ p ∈ i.leaves, Function.update δ o d p = Function.update δ o d' p := by
    intro p hp
    have : p ≠ o := by rintro rfl; exact h hp
    simp [this]
  simp only [seqDer]
  rw [Node.val_congr P π i hρ, Node.der_congr P π i hρ hδ]

section
variable (P : Prim K) (D : Defs K) (S : Set ℕ) (rank : ℕ → ℕ) (ρ δ : ℕ → K) (x : ℕ)

/-- Forward-mode invariant below rank `r`: visited objects hold value and derivative; objects
without equations always hold their number and derivative 0; for objects that are not visited `ρ` and
`δ` solve the definition. -/
structure FInv (r : ℕ) (m : Mem K) : Prop where
  vis : ∀ q ∈ S, rank q < r → m.visited q = true → m.value q = ρ q ∧ (q ≠ x → m.dvalue q = δ q)
  plain : ∀ q ∈ S, rank q < r → D.items q = [] → m.value q = D.base q ∧ m.dvalue q = 0
  eqn : ∀ q ∈ S, rank q < r → m.visited q = false → RankedAt D S rank q ∧
    ρ q = seqVal P D.par ρ q (D.items q) (D.base q) ∧
      (q ≠ x → δ q = seqDer P D.par ρ δ q (D.items q) (D.base q) 0)

/-- Specification of `devalF` on an object below rank `r`. -/
def FSpec (r : ℕ) (rec : ℕ → Mem K → Option (K × Mem K)) : Prop :=
  ∀ q ∈ S, rank q < r → ∀ m v m', FInv P D S rank ρ δ x r m → rec q m = some (v, m') →
    v = δ q ∧ FInv P D S rank ρ δ x r m' ∧ Frame S rank r m m' ∧ m'.visited q = true ∧
      NewClosed D m m'

/-- Specification of `devalF` on a visited object. -/
def FVisSpec (o : ℕ) (rec : ℕ → Mem K → Option (K × Mem K)) : Prop :=
  ∀ m v m', m.visited o = true → rec o m = some (v, m') →
    v = (if o = x then 1 else m.dvalue o) ∧ m' = m

theorem fwdO_vis (o : ℕ) (hk : D.nidx o = D.nidx x ↔ o = x) (fuel : ℕ) :
    FVisSpec x o (fwdO P D (D.nidx x) fuel) := by
  intro m v m' hv h
  cases fuel with
  | zero => simp [fwdO] at h
  | succ f =>
      simp only [fwdO, hv, Bool.true_eq_false, if_false, Option.some.injEq, Prod.mk.injEq, hk] at h
      exact ⟨h.1.symm, h.2.symm⟩

theorem fwdN_spec {o : ℕ} {recE recD : ℕ → Mem K → Option (K × Mem K)}
    (hE : VisSpec recE) (hD : FSpec P D S rank ρ δ x (rank o) recD) (hV : FVisSpec x o recD)
    (t : Node K) :
    ∀ m v m', Below S rank o t → m.visited o = true → FInv P D S rank ρ δ x (rank o) m →
      fwdN P D recE recD t m = some (v, m') →
      v = t.der P D.par (Function.update ρ o (m.value o))
          (Function.update δ o (if o = x then 1 else m.dvalue o)) ∧
        FInv P D S rank ρ δ x (rank o) m' ∧ Frame S rank (rank o) m m' ∧
        (∀ p ∈ t.leaves, m'.visited p = true) ∧ NewClosed D m m' := by
  -- value of a subtree all of whose leaves are visited and below `o`
  have hval : ∀ (a : Node K) (m m₁ m₂ : Mem K) (u : K), Below S rank o a →
      Frame S rank (rank o) m m₁ → FInv P D S rank ρ δ x (rank o) m₁ →
      (∀ p ∈ a.leaves, m₁.visited p = true) → evalN P D recE a m₁ = some (u, m₂) →
      u = a.val P D.par (Function.update ρ o (m.value o)) ∧ m₂ = m₁ := by
    intro a m m₁ m₂ u hb fr inv hl h
    obtain ⟨rfl, rfl⟩ := evalN_vis P D hE a m₁ u m₂ hl h
    refine ⟨Node.val_congr P D.par a fun p hp => ?_, rfl⟩
    obtain ⟨hpS, hpo⟩ := hb p hp
    by_cases h : p = o
    · subst h; simp [fr.val p (Or.inr le_rfl)]
    · simp [h, (inv.vis p hpS (hpo.resolve_left h) (hl p hp)).1]
  induction t with
  | leaf q =>
      intro m v m' hb ho hi h
      obtain ⟨hqS, hq⟩ := hb q (by simp [Node.leaves])
      by_cases hqo : q = o
      · subst hqo
        obtain ⟨rfl, rfl⟩ := hV m v m' ho h
        exact ⟨by simp [Node.der], hi, Frame.refl .., by simpa [Node.leaves] using ho,
          NewClosed.refl _ _⟩
      · have hlt := hq.resolve_left hqo
        obtain ⟨rfl, h2, h3, h4, h5⟩ := hD q hqS hlt m v m' hi h
        exact ⟨by simp [Node.der, hqo], h2, h3, by simpa [Node.leaves] using h4, h5⟩
  | par p =>
      intro m v m' hb ho hi h
      simp [fwdN] at h
      obtain ⟨rfl, rfl⟩ := h
      exact ⟨rfl, hi, Frame.refl .., by simp [Node.leaves], NewClosed.refl _ _⟩
  | op1 n f a ih =>
      intro m v m' hb ho hi h
      simp only [fwdN, Option.bind_eq_bind, Option.bind_eq_some_iff, Prod.exists] at h
      obtain ⟨du, m1, h1, h⟩ := h
      obtain ⟨rfl, i1, f1, l1, c1⟩ := ih m du m1 hb ho hi h1
      cases hu : f.usesVal with
      | false =>
          simp [hu] at h
          obtain ⟨rfl, rfl⟩ := h
          exact ⟨Op1.fwd_unused P f hu _ _, i1, f1, l1, c1⟩
      | true =>
          simp only [hu, if_true, Option.bind_eq_some_iff, Prod.exists, Option.some.injEq,
            Prod.mk.injEq] at h
          obtain ⟨u, m2, h2, rfl, rfl⟩ := h
          obtain ⟨rfl, rfl⟩ := hval a m m1 m2 u hb f1 i1 l1 h2
          exact ⟨Op1.fwd_eq P f _ _, i1, f1, l1, c1⟩
  | op2 n f a b iha ihb =>
      intro m v m' hb ho hi h
      have hba : Below S rank o a := fun p hp => hb p (by simp [Node.leaves, hp])
      have hbb : Below S rank o b := fun p hp => hb p (by simp [Node.leaves, hp])
      simp only [fwdN, Option.bind_eq_bind, Option.bind_eq_some_iff, Prod.exists] at h
      obtain ⟨du, m1, h1, dv, m2, h2, h⟩ := h
      obtain ⟨rfl, i1, f1, l1, c1⟩ := iha m du m1 hba ho hi h1
      obtain ⟨rfl, i2, f2, l2, c2⟩ := ihb m1 dv m2 hbb (f1.mono o ho) i1 h2
      have f12 := f1.trans f2
      have c12 := c1.trans c2 f2.mono
      have l1' : ∀ p ∈ a.leaves, m2.visited p = true := fun p hp => f2.mono p (l1 p hp)
      have l12 : ∀ p ∈ (Node.op2 n f a b).leaves, m2.visited p = true := by
        intro p hp
        simp only [Node.leaves, List.mem_append] at hp
        exact hp.elim (l1' p) (l2 p)
      rw [f1.val o (Or.inr le_rfl), f1.dval o (Or.inr le_rfl)] at h
      cases hu : f.usesVal with
      | false =>
          simp [hu] at h
          obtain ⟨rfl, rfl⟩ := h
          exact ⟨Op2.fwd_unused P f hu _ _ _ _, i2, f12, l12, c12⟩
      | true =>
          simp only [hu, if_true] at h
          split at h
          · simp only [Option.bind_eq_some_iff, Prod.exists, Option.some.injEq,
              Prod.mk.injEq] at h
            obtain ⟨w, m3, h3, u, m4, h4, rfl, rfl⟩ := h
            obtain ⟨rfl, rfl⟩ := hval b m m2 m3 w hbb f12 i2 l2 h3
            obtain ⟨rfl, rfl⟩ := hval a m _ m4 u hba f12 i2 l1' h4
            exact ⟨Op2.fwd_eq P f _ _ _ _, i2, f12, l12, c12⟩
          · simp only [Option.bind_eq_some_iff, Prod.exists, Option.some.injEq,
              Prod.mk.injEq] at h
            obtain ⟨u, m3, h3, w, m4, h4, rfl, rfl⟩ := h
            obtain ⟨rfl, rfl⟩ := hval a m m2 m3 u hba f12 i2 l1' h3
            obtain ⟨rfl, rfl⟩ := hval b m _ m4 w hbb f12 i2 l2 h4
            exact ⟨Op2.fwd_eq P f _ _ _ _, i2, f12, l12, c12⟩

theorem fwdItems_spec {o : ℕ} {recE recD : ℕ → Mem K → Option (K × Mem K)}
    (hE : VisSpec recE) (hD : FSpec P D S rank ρ δ x (rank o) recD) (hV : FVisSpec x o recD)
    (is : List (Node K)) :
    ∀ m m', (∀ i ∈ is, Below S rank o i) → m.visited o = true → FInv P D S rank ρ δ x (rank o) m →
      fwdItems P D recE recD o is m = some m' →
      m'.value o = seqVal P D.par ρ o is (m.value o) ∧
        (o ≠ x → m'.dvalue o = seqDer P D.par ρ δ o is (m.value o) (m.dvalue o)) ∧
        FInv P D S rank ρ δ x (rank o) m' ∧
        (∃ m₁, Frame S rank (rank o) m m₁ ∧
          m' = (m₁.setDValue o (m'.dvalue o)).setValue o (m'.value o)) ∧
        (∀ i ∈ is, ∀ p ∈ i.leaves, m'.visited p = true) ∧ NewClosed D m m' := by
  induction is with
  | nil =>
      intro m m' hb ho hi h
      simp [fwdItems] at h
      subst h
      exact ⟨rfl, fun _ => rfl, hi,
        ⟨m, Frame.refl .., by simp [Mem.setValue, Mem.setDValue]⟩, by simp, NewClosed.refl _ _⟩
  | cons i is ih =>
      intro m m' hb ho hi h
      simp only [fwdItems, Option.bind_eq_bind, Option.bind_eq_some_iff, Prod.exists] at h
      obtain ⟨d, m1, h1, v, m2, h2, h3⟩ := h
      obtain ⟨hd, i1, f1, l1, c1⟩ :=
        fwdN_spec P D S rank ρ δ x hE hD hV i m d m1 (hb i (by simp)) ho hi h1
      obtain ⟨hv, rfl⟩ := evalN_vis P D hE i (m1.setDValue o d) v m2
        (by simpa [Mem.setDValue] using l1) h2
      have hv' : v = i.val P D.par (Function.update ρ o (m.value o)) := by
        rw [hv]
        refine Node.val_congr P D.par i fun p hp => ?_
        obtain ⟨hpS, hpo⟩ := hb i (by simp) p hp
        by_cases h : p = o
        · subst h; simp [Mem.setDValue, f1.val p (Or.inr le_rfl)]
        · simp [Mem.setDValue, h, (i1.vis p hpS (hpo.resolve_left h) (l1 p hp)).1]
      set m2 := (m1.setDValue o d).setValue o v with hm2
      have hne : ∀ q, rank q < rank o → q ≠ o := by rintro q hq rfl; exact lt_irrefl _ hq
      have i2 : FInv P D S rank ρ δ x (rank o) m2 := by
        constructor
        · intro q hq hlt hvq
          simpa [hm2, Mem.setValue, Mem.setDValue, hne q hlt] using
            i1.vis q hq hlt (by simpa [hm2, Mem.setValue, Mem.setDValue] using hvq)
        · intro q hq hlt hp
          simpa [hm2, Mem.setValue, Mem.setDValue, hne q hlt] using i1.plain q hq hlt hp
        · exact i1.eqn
      obtain ⟨e1, e2, i3, ⟨m₂, f2, hm₂⟩, l2, c2⟩ := ih m2 m'
        (fun j hj => hb j (by simp [hj])) (f1.mono o ho) i2 h3
      have hmono : ∀ q, m2.visited q = true → m'.visited q = true := by
        intro q hq; rw [hm₂]; exact f2.mono q hq
      refine ⟨?_, ?_, i3, ⟨(m₂.setDValue o (m1.dvalue o)).setValue o (m1.value o), ?_, ?_⟩, ?_, ?_⟩
      · rw [e1, seqVal, ← hv']; simp [hm2, Mem.setValue]
      · intro hox
        rw [e2 hox, seqDer, ← hv']
        simp only [hox, if_false] at hd
        rw [← hd]; simp [hm2, Mem.setValue, Mem.setDValue]
      · refine f1.trans ⟨fun q hq => f2.mono q (by simpa [hm2, Mem.setValue, Mem.setDValue] using hq),
          fun q hq => f2.vis q hq, fun q hq => ?_, fun q hq => ?_, fun q hq => f2.cache q hq⟩
        · by_cases hqo : q = o
          · subst hqo; simp [Mem.setValue]
          · simpa [hm2, Mem.setValue, Mem.setDValue, hqo] using f2.val q hq
        · by_cases hqo : q = o
          · subst hqo; simp [Mem.setValue, Mem.setDValue]
          · simpa [hm2, Mem.setValue, Mem.setDValue, hqo] using f2.dval q hq
      · rw [hm₂]; simp [Mem.setValue, Mem.setDValue]
      · intro j hj p hp
        rcases List.mem_cons.1 hj with rfl | hj
        · exact hmono p (by simpa [hm2, Mem.setValue, Mem.setDValue] using l1 p hp)
        · exact l2 j hj p hp
      · exact NewClosed.trans (m' := m2) c1 c2 hmono

theorem fwdO_spec (hk : ∀ q ∈ S, D.nidx q = D.nidx x ↔ q = x)
    (hδx : x ∈ S → δ x = 1) (fuel : ℕ) :
    ∀ r, FSpec P D S rank ρ δ x r (fwdO P D (D.nidx x) fuel) := by
  induction fuel with
  | zero => intro r q _ _ m v m' _ h; simp [fwdO] at h
  | succ f ih =>
      intro r o hoS hor m v m' hi h
      have hfin : ∀ m₁ : Mem K, m₁.visited o = true → (o ≠ x → m₁.dvalue o = δ o) →
          (if D.nidx o = D.nidx x then 1 else m₁.dvalue o) = δ o := by
        intro m₁ _ hd
        by_cases hox : o = x
        · rw [hox, hδx (hox ▸ hoS)]; simp
        · simp [hk o hoS, hox, hd hox]
      cases hvo : m.visited o with
      | true =>
          simp only [fwdO, hvo, Bool.true_eq_false, if_false, Option.some.injEq,
            Prod.mk.injEq] at h
          obtain ⟨rfl, rfl⟩ := h
          exact ⟨hfin m hvo (hi.vis o hoS hor hvo).2, hi, Frame.refl .., hvo, NewClosed.refl _ _⟩
      | false =>
          simp only [fwdO, hvo, if_true, Option.bind_eq_bind, Option.bind_eq_some_iff,
            Option.some.injEq, Prod.mk.injEq] at h
          obtain ⟨m1, h1, rfl, rfl⟩ := h
          set m0 := m.setVisited o true with hm0
          have hne : ∀ q, rank q < rank o → q ≠ o := by rintro q hq rfl; exact lt_irrefl _ hq
          have i0 : FInv P D S rank ρ δ x (rank o) m0 := by
            constructor
            · intro q hq hlt hvq
              have := hne q hlt
              simp [hm0, Mem.setVisited, this] at hvq ⊢
              exact hi.vis q hq (hlt.trans hor) hvq
            · intro q hq hlt hp
              exact hi.plain q hq (hlt.trans hor) hp
            · intro q hq hlt hvq
              simp [hm0, Mem.setVisited, hne q hlt] at hvq
              exact hi.eqn q hq (hlt.trans hor) hvq
          obtain ⟨e1, e2, i1, ⟨m₁, fr, hm1⟩, l1, c1⟩ := fwdItems_spec P D S rank ρ δ x
            (evalO_vis P D f) (ih (rank o)) (fwdO_vis P D x o (hk o hoS) f) (D.items o) m0 m1
            (hi.eqn o hoS hor hvo).1.closed (by simp [hm0, Mem.setVisited]) i0 h1
          have hplain := hi.plain o hoS hor
          have e1' : m1.value o = ρ o := by
            rw [e1, (hi.eqn o hoS hor hvo).2.1]
            cases hit : D.items o with
            | nil => simp [seqVal, hm0, Mem.setVisited, (hplain hit).1]
            | cons i is => exact seqVal_start P _ _ _ _ _ ((hi.eqn o hoS hor hvo).1.first i is hit) _ _
          have e2' : o ≠ x → m1.dvalue o = δ o := by
            intro hox
            rw [e2 hox, (hi.eqn o hoS hor hvo).2.2 hox]
            cases hit : D.items o with
            | nil => simp [seqDer, hm0, Mem.setVisited, (hplain hit).2]
            | cons i is => exact seqDer_start P _ _ _ _ _ _ ((hi.eqn o hoS hor hvo).1.first i is hit) _ _ _ _
          have hvo1 : m1.visited o = true := by
            rw [hm1]; exact fr.mono o (by simp [hm0, Mem.setVisited])
          have hmono : ∀ q, m.visited q = true → m1.visited q = true := by
            intro q hq
            rw [hm1]
            refine fr.mono q ?_
            by_cases h : q = o
            · subst h; simp [hm0, Mem.setVisited]
            · simpa [hm0, Mem.setVisited, h] using hq
          have hfr : Frame S rank r m m1 := by
            have key : ∀ q, (q ∉ S ∨ r ≤ rank q) → q ≠ o ∧ (q ∉ S ∨ rank o ≤ rank q) := by
              intro q hq
              refine ⟨?_, hq.imp_right fun h => hor.le.trans h⟩
              rintro rfl
              exact hq.elim (fun h => h hoS) fun h => absurd hor (not_lt.2 h)
            refine ⟨hmono, ?_, ?_, ?_, ?_⟩ <;> intro q hq <;> obtain ⟨hqo, hq'⟩ := key q hq <;>
              rw [hm1]
            · simpa [hm0, Mem.setVisited, Mem.setValue, Mem.setDValue, hqo] using fr.vis q hq'
            · simpa [hm0, Mem.setVisited, Mem.setValue, Mem.setDValue, hqo] using fr.val q hq'
            · simpa [hm0, Mem.setVisited, Mem.setValue, Mem.setDValue, hqo] using fr.dval q hq'
            · simpa [hm0, Mem.setVisited, Mem.setValue, Mem.setDValue, hqo] using fr.cache q hq'
          refine ⟨hfin m1 hvo1 e2', ⟨?_, ?_, fun q hq hlt hvq => hi.eqn q hq hlt
            (not_visited_of_mono hmono hvq)⟩, hfr, hvo1, ?_⟩
          · intro q hq hlt hvq
            by_cases hqo : q = o
            · subst hqo; exact ⟨e1', e2'⟩
            · by_cases hlt' : rank q < rank o
              · exact i1.vis q hq hlt' hvq
              · have hq' : q ∉ S ∨ rank o ≤ rank q := Or.inr (not_lt.1 hlt')
                have hv := fr.val q hq'
                have hdv := fr.dval q hq'
                have hvv := fr.vis q hq'
                rw [hm1] at hvq ⊢
                simp [hm0, Mem.setVisited, Mem.setValue, Mem.setDValue, hqo] at hv hdv hvv hvq ⊢
                rw [hv, hdv]
                exact hi.vis q hq hlt (by rw [← hvv]; exact hvq)
          · intro q hq hlt hp
            by_cases hqo : q = o
            · subst hqo
              have : m1 = m0 := by simpa [hp, fwdItems] using h1.symm
              rw [this]
              exact hi.plain q hq hlt hp
            · by_cases hlt' : rank q < rank o
              · exact i1.plain q hq hlt' hp
              · have hq' : q ∉ S ∨ rank o ≤ rank q := Or.inr (not_lt.1 hlt')
                have hv := fr.val q hq'
                have hdv := fr.dval q hq'
                rw [hm1]
                simp [hm0, Mem.setVisited, Mem.setValue, Mem.setDValue, hqo] at hv hdv ⊢
                rw [hv, hdv]
                exact hi.plain q hq hlt hp
          · intro q hq hq' i hii p hp
            by_cases hqo : q = o
            · subst hqo; exact l1 i hii p hp
            · exact c1 q (by simpa [hm0, Mem.setVisited, hqo] using hq) hq' i hii p hp

end

end CoolDiff
