import Verif.Scalar.RevProof

/-!
# Reverse mode on objects
-/

set_option linter.unusedSectionVars false

namespace CoolDiff

variable {K : Type} [Field K] [DecidableEq K]

/-- Parameter `p` occurs in a definition of an object of `S`. -/
def ParIn (D : Defs K) (S : Set ℕ) (p : ℕ) : Prop := ∃ q ∈ S, ∃ i ∈ D.items q, p ∈ i.pars

/-- Identities are used once: what the counter `m_idx_count` guarantees. -/
structure Ids (D : Defs K) (S : Set ℕ) : Prop where
  nodup : ∀ q ∈ S, ∀ i ∈ D.items q, i.opIds.Nodup
  sep : ∀ q ∈ S, (D.items q).Pairwise fun i j => ∀ n ∈ i.opIds, n ∉ j.opIds
  sep' : ∀ p ∈ S, ∀ q ∈ S, p ≠ q → ∀ i ∈ D.items p, ∀ j ∈ D.items q, ∀ n ∈ i.opIds, n ∉ j.opIds
  leaf : ∀ p ∈ S, ∀ q ∈ S, ∀ i ∈ D.items q, D.nidx p ∉ i.opIds
  par : ∀ p, ParIn D S p → ∀ q ∈ S, ∀ i ∈ D.items q, D.pnidx p ∉ i.opIds

/-- `G q n`: the derivatives of `q` may involve the number `n`.  What this must satisfy at an object `o`
that is about to be traversed: the operators of `o` carry numbers of their own, and `o` may involve
everything its operands do. -/
structure IdsAt (D : Defs K) (G : ℕ → ℕ → Prop) (o : ℕ) : Prop where
  nodup : ∀ i ∈ D.items o, i.opIds.Nodup
  sep : (D.items o).Pairwise fun i j => ∀ n ∈ i.opIds, n ∉ j.opIds
  leaf : ∀ i ∈ D.items o, ∀ j ∈ D.items o, ∀ p ∈ j.leaves, D.nidx p ∉ i.opIds
  par : ∀ i ∈ D.items o, ∀ j ∈ D.items o, ∀ p ∈ j.pars, D.pnidx p ∉ i.opIds
  sepG : ∀ i ∈ D.items o, ∀ j ∈ D.items o, ∀ p ∈ j.leaves, p ≠ o → ∀ n ∈ i.opIds, ¬ G p n
  own : ∀ i ∈ D.items o, ∀ n ∈ i.opIds, G o n
  leafid : ∀ i ∈ D.items o, ∀ p ∈ i.leaves, G o (D.nidx p)
  parid : ∀ i ∈ D.items o, ∀ p ∈ i.pars, G o (D.pnidx p)
  sub : ∀ i ∈ D.items o, ∀ p ∈ i.leaves, p ≠ o → ∀ n, G p n → G o n

/-- The numbers of the objects, Parameters and operators that `q` depends on. -/
def Involves (D : Defs K) (q n : ℕ) : Prop :=
  ∃ r, Reach D q r ∧ (D.nidx r = n ∨ ∃ i ∈ D.items r, n ∈ i.opIds ∨ ∃ p ∈ i.pars, D.pnidx p = n)

theorem Reach.trans {D : Defs K} {a b c : ℕ} (h : Reach D a b) (h' : Reach D b c) :
    Reach D a c := by
  induction h' with
  | refl => exact h
  | step _ hi hp ih => exact Reach.step ih hi hp

theorem Reach.of_leaf {D : Defs K} {a b : ℕ} {i : Node K} (hi : i ∈ D.items a)
    (hb : b ∈ i.leaves) : Reach D a b := Reach.step Reach.refl hi hb

/-- On a well-founded part of the heap whose numbers are used once, `Involves` is as required. -/
theorem Ids.at {D : Defs K} {S : Set ℕ} {rank : ℕ → ℕ} (h : Ids D S) (hR : Ranked D S rank) {o : ℕ}
    (ho : o ∈ S) : IdsAt D (Involves D) o := by
  have hS : ∀ {q r}, q ∈ S → Reach D q r → r ∈ S ∧ rank r ≤ rank q := by
    intro q r hq hr
    induction hr with
    | refl => exact ⟨hq, le_rfl⟩
    | step _ hi hp ih =>
        obtain ⟨a, b⟩ := hR.closed _ ih.1 _ hi _ hp
        rcases b with b | b
        · exact ⟨a, b ▸ ih.2⟩
        · exact ⟨a, b.le.trans ih.2⟩
  refine ⟨h.nodup o ho, h.sep o ho, fun i hi j hj p hp => h.leaf p (hR.closed o ho j hj p hp).1 o ho i hi,
    fun i hi j hj p hp => h.par p ⟨o, ho, j, hj, hp⟩ o ho i hi, ?_,
    fun i hi n hn => ⟨o, .refl, Or.inr ⟨i, hi, Or.inl hn⟩⟩,
    fun i hi p hp => ⟨p, .of_leaf hi hp, Or.inl rfl⟩,
    fun i hi p hp => ⟨o, .refl, Or.inr ⟨i, hi, Or.inr ⟨p, hp, rfl⟩⟩⟩, ?_⟩
  · rintro i hi j hj p hp hpo n hn ⟨r, hr, hc⟩
    obtain ⟨hpS, hlt⟩ := hR.closed o ho j hj p hp
    have hlt := hlt.resolve_left hpo
    obtain ⟨hrS, hrl⟩ := hS hpS hr
    rcases hc with rfl | ⟨k, hk, hc | ⟨w, hw, rfl⟩⟩
    · exact h.leaf r hrS o ho i hi hn
    · refine h.sep' r hrS o ho ?_ k hk i hi n hc hn
      rintro rfl; omega
    · exact h.par w ⟨r, hrS, k, hk, hw⟩ o ho i hi hn
  · rintro i hi p hp - n ⟨r, hr, hc⟩
    exact ⟨r, (Reach.of_leaf hi hp).trans hr, hc⟩

section
variable (P : Prim K) (D : Defs K) (S : Set ℕ) (rank : ℕ → ℕ) (ρ δ : ℕ → K) (x kx : ℕ)
  (G : ℕ → ℕ → Prop) (Ky : ℕ → Prop)

/-- Reverse-mode invariant below rank `r`. -/
structure RInv (r : ℕ) (m : Mem K) : Prop where
  val : ∀ q ∈ S, rank q < r → m.visited q = true → m.value q = ρ q
  key : ∀ q ∈ S, rank q < r → m.visited q = true → Ky q →
    m.cache q kx = if q = x then 0 else δ q
  foreign : ∀ q ∈ S, rank q < r → m.visited q = true → ∀ n, ¬ G q n → m.cache q n = 0
  plain : ∀ q ∈ S, rank q < r → D.items q = [] →
    m.value q = D.base q ∧ m.cache q = fun _ => 0
  eqn : ∀ q ∈ S, rank q < r → m.visited q = false → (RankedAt D S rank q ∧ IdsAt D G q) ∧
    ρ q = seqVal P D.par ρ q (D.items q) (D.base q) ∧
      (q ≠ x → δ q = seqDer P D.par ρ δ q (D.items q) (D.base q) 0)

/-- Specification of `traverse` on an object below rank `r`. -/
def TSpec (r : ℕ) (rec : ℕ → Mem K → Option (Mem K)) : Prop :=
  ∀ q ∈ S, rank q < r → ∀ m m', RInv P D S rank ρ δ x kx G Ky r m → rec q m = some m' →
    RInv P D S rank ρ δ x kx G Ky r m' ∧ Frame S rank r m m' ∧ m'.visited q = true ∧ NewClosed D m m'

variable {recE : ℕ → Mem K → Option (K × Mem K)} {recT : ℕ → Mem K → Option (Mem K)}

/-- The first pass over an operand: visits its leaves, leaves the cache alone. -/
theorem revN_pre {o : ℕ} (hE : VisSpec recE) (hV : TVisSpec recT)
    (hT : TSpec P D S rank ρ δ x kx G Ky (rank o) recT) (t : Node K) :
    ∀ c m c' m', Below S rank o t → m.visited o = true → RInv P D S rank ρ δ x kx G Ky (rank o) m →
      (∀ n ∈ t.opIds, c n = 0) →
      unlessVisited t c m (revN P D recE recT t c m) = some (c', m') →
      c' = c ∧ RInv P D S rank ρ δ x kx G Ky (rank o) m' ∧ Frame S rank (rank o) m m' ∧
        (∀ p ∈ t.leaves, m'.visited p = true) ∧ NewClosed D m m' := by
  induction t with
  | leaf q =>
      intro c m c' m' hb ho hi hc h
      obtain ⟨hqS, hq⟩ := hb q (by simp [Node.leaves])
      by_cases hvq : m.visited q = true
      · simp [unlessVisited, nodeVisited, hvq] at h
        obtain ⟨rfl, rfl⟩ := h
        exact ⟨rfl, hi, Frame.refl .., by simpa [Node.leaves] using hvq, NewClosed.refl _ _⟩
      · have hqo : q ≠ o := by rintro rfl; exact hvq ho
        have hlt := hq.resolve_left hqo
        simp only [unlessVisited, nodeVisited, hvq, if_false, revN, Option.bind_eq_bind,
          Option.bind_eq_some_iff, Option.some.injEq, Prod.mk.injEq, Bool.false_eq_true] at h
        obtain ⟨m1, h1, rfl, rfl⟩ := h
        obtain ⟨h2, h3, h4, h5⟩ := hT q hqS hlt m m1 hi h1
        exact ⟨rfl, h2, h3, by simpa [Node.leaves] using h4, h5⟩
  | par p =>
      intro c m c' m' hb ho hi hc h
      simp [unlessVisited, nodeVisited, revN] at h
      obtain ⟨rfl, rfl⟩ := h
      exact ⟨rfl, hi, Frame.refl .., by simp [Node.leaves], NewClosed.refl _ _⟩
  | op1 n f a ih =>
      intro c m c' m' hb ho hi hc h
      have hca : ∀ n ∈ a.opIds, c n = 0 := fun n hn => hc n (List.mem_cons_of_mem _ hn)
      simp only [unlessVisited, nodeVisited, Bool.false_eq_true, if_false, revN,
        Option.bind_eq_bind, Option.bind_eq_some_iff, Prod.exists] at h
      obtain ⟨c1, m1, h1, u, m2, h2, h3⟩ := h
      obtain ⟨rfl, i1, f1, l1, n1⟩ := ih c m c1 m1 hb ho hi hca h1
      obtain ⟨rfl, hr, -⟩ := val1_vis P D hE f a _ u m2 l1 h2
      rw [hr, hc n (by simp [Node.opIds]), zero_mul, Cache.addAt_zero, Cache.mergeIf_zero] at h3
      obtain ⟨rfl, rfl⟩ := unless_zero P D hE hV a _ _ c' m' l1 hca h3
      exact ⟨rfl, i1, f1, l1, n1⟩
  | op2 n f a b iha ihb =>
      intro c m c' m' hb ho hi hc h
      have hca : ∀ n ∈ a.opIds, c n = 0 := fun n hn => hc n (by simp [Node.opIds, hn])
      have hcb : ∀ n ∈ b.opIds, c n = 0 := fun n hn => hc n (by simp [Node.opIds, hn])
      have hba : Below S rank o a := fun p hp => hb p (by simp [Node.leaves, hp])
      have hbb : Below S rank o b := fun p hp => hb p (by simp [Node.leaves, hp])
      simp only [unlessVisited, nodeVisited, Bool.false_eq_true, if_false, revN,
        Option.bind_eq_bind, Option.bind_eq_some_iff, Prod.exists] at h
      obtain ⟨c1, m1, h1, c2, m2, h2, u, v, m3, h3, c4, m4, h4, h5⟩ := h
      obtain ⟨rfl, i1, f1, l1, n1⟩ := iha c m c1 m1 hba ho hi hca h1
      obtain ⟨rfl, i2, f2, l2, n2⟩ := ihb _ _ c2 m2 hbb (f1.mono o ho) i1 hcb h2
      have l1' : ∀ p ∈ a.leaves, m2.visited p = true := fun p hp => f2.mono p (l1 p hp)
      obtain ⟨rfl, hL, hR, -, -⟩ := val2_vis P D hE f a b _ u v m3 l1' l2 h3
      rw [hL, hR, hc n (by simp [Node.opIds]), zero_mul, zero_mul, Cache.addAt_zero,
        Cache.addAt_zero, Cache.mergeIf_zero, Cache.mergeIf_zero] at h4
      obtain ⟨rfl, rfl⟩ := unless_zero P D hE hV a _ _ c4 m4 l1' hca h4
      obtain ⟨rfl, rfl⟩ := unless_zero P D hE hV b _ _ c' m' l2 hcb h5
      refine ⟨rfl, i2, f1.trans f2, ?_, n1.trans n2 f2.mono⟩
      intro p hp
      simp only [Node.leaves, List.mem_append] at hp
      exact hp.elim (l1' p) (l2 p)

/-- `item->traverse()` from the root: the resulting cache holds the derivative of the item with
respect to every key. -/
theorem revRoot_spec {o : ℕ} (hE : VisSpec recE) (hV : TVisSpec recT)
    (hT : TSpec P D S rank ρ δ x kx G Ky (rank o) recT) (t : Node K) (m : Mem K) (c' : Cache K) (m' : Mem K)
    (hb : Below S rank o t) (ho : m.visited o = true) (hi : RInv P D S rank ρ δ x kx G Ky (rank o) m)
    (hid : ∀ m₁, RInv P D S rank ρ δ x kx G Ky (rank o) m₁ → Frame S rank (rank o) m m₁ →
      (∀ p ∈ t.leaves, m₁.visited p = true) → IdOK D m₁ t)
    (h : revRoot P D recE recT t m = some (c', m')) :
    RInv P D S rank ρ δ x kx G Ky (rank o) m' ∧ Frame S rank (rank o) m m' ∧
      (∀ p ∈ t.leaves, m'.visited p = true) ∧ NewClosed D m m' ∧
      ∀ k, KeyOK D t k → (∀ z, t = .leaf z → D.nidx z ≠ k) →
        c' k = t.der P D.par m'.value (gamma D m' k) := by
  cases t with
  | leaf q =>
      simp only [revRoot, Option.bind_eq_bind, Option.bind_eq_some_iff, Option.some.injEq,
        Prod.mk.injEq] at h
      obtain ⟨m1, h1, rfl, rfl⟩ := h
      obtain ⟨hqS, hq⟩ := hb q (by simp [Node.leaves])
      have fin : ∀ k, KeyOK D (Node.leaf (K := K) q) k →
          (∀ z, Node.leaf (K := K) q = .leaf z → D.nidx z ≠ k) →
          m1.cache q k = (Node.leaf q).der P D.par m1.value (gamma D m1 k) := by
        intro k _ hz
        simp [Node.der, gamma, hz q rfl]
      by_cases hvq : m.visited q = true
      · obtain rfl := hV q m m1 hvq h1
        exact ⟨hi, Frame.refl .., by simpa [Node.leaves] using hvq, NewClosed.refl _ _, fin⟩
      · have hqo : q ≠ o := by rintro rfl; exact hvq ho
        obtain ⟨h2, h3, h4, h5⟩ := hT q hqS (hq.resolve_left hqo) m m1 hi h1
        exact ⟨h2, h3, by simpa [Node.leaves] using h4, h5, fin⟩
  | par p =>
      simp only [revRoot, Option.some.injEq, Prod.mk.injEq] at h
      obtain ⟨rfl, rfl⟩ := h
      exact ⟨hi, Frame.refl .., by simp [Node.leaves], NewClosed.refl _ _,
        fun k _ _ => by simp [Node.der]⟩
  | op1 n f a =>
      simp only [revRoot, Option.bind_eq_bind, Option.bind_eq_some_iff, Prod.exists] at h
      obtain ⟨c1, m1, h1, u, m2, h2, h3⟩ := h
      obtain ⟨rfl, i1, f1, l1, n1⟩ := revN_pre P D S rank ρ δ x kx G Ky hE hV hT a _ m c1 m1 hb ho hi
        (fun _ _ => rfl) h1
      obtain ⟨rfl, -, hr⟩ := val1_vis P D hE f a _ u m2 l1 h2
      obtain ⟨rfl, hk⟩ := combine1 P D (n := n) (f := f) (revN_post P D hE hV a) (fun _ h => h) l1
        (hid _ i1 f1 l1) (fun _ _ => rfl) h3
      refine ⟨i1, f1, l1, n1, fun k hkk _ => ?_⟩
      rw [hk k hkk.op1, hr]
      simp only [Node.der]
      ring
  | op2 n f a b =>
      have hba : Below S rank o a := fun p hp => hb p (by simp [Node.leaves, hp])
      have hbb : Below S rank o b := fun p hp => hb p (by simp [Node.leaves, hp])
      simp only [revRoot, Option.bind_eq_bind, Option.bind_eq_some_iff, Prod.exists] at h
      obtain ⟨c1, m1, h1, c2, m2, h2, u, v, m3, h3, c4, m4, h4, h5⟩ := h
      obtain ⟨rfl, i1, f1, l1, n1⟩ := revN_pre P D S rank ρ δ x kx G Ky hE hV hT a _ m c1 m1 hba ho hi
        (fun _ _ => rfl) h1
      obtain ⟨rfl, i2, f2, l2, n2⟩ := revN_pre P D S rank ρ δ x kx G Ky hE hV hT b _ _ c2 m2 hbb
        (f1.mono o ho) i1 (fun _ _ => rfl) h2
      have l1' : ∀ p ∈ a.leaves, m2.visited p = true := fun p hp => f2.mono p (l1 p hp)
      have l12 : ∀ p ∈ (Node.op2 n f a b).leaves, m2.visited p = true := by
        intro p hp
        simp only [Node.leaves, List.mem_append] at hp
        exact hp.elim (l1' p) (l2 p)
      obtain ⟨rfl, -, -, hL, hR⟩ := val2_vis P D hE f a b _ u v m3 l1' l2 h3
      obtain ⟨rfl, hk⟩ := combine2 P D (n := n) (f := f) (revN_post P D hE hV a)
        (revN_post P D hE hV b) (fun _ h => h) (fun _ h => h) l12
        (hid _ i2 (f1.trans f2) l12) (fun _ _ => rfl) h4 h5
      refine ⟨i2, f1.trans f2, l12, n1.trans n2 f2.mono, fun k hkk _ => ?_⟩
      rw [hk k hkk.op2l hkk.op2r, hL, hR]
      simp only [Node.der]
      ring

/-- Objects at or below `x` do not depend on `x`. -/
theorem tangent_below (hR : Ranked D S rank)
    (htan : ∀ q ∈ S, δ q = if q = x then 1 else
      seqDer P D.par ρ δ q (D.items q) (D.base q) 0) :
    ∀ r, ∀ q ∈ S, rank q ≤ r → q ≠ x → rank q ≤ rank x → δ q = 0 := by
  intro r
  induction r using Nat.strong_induction_on with
  | _ r ih =>
      intro q hq hqr hqx hle
      rw [htan q hq, if_neg hqx]
      have hleaf : ∀ i ∈ D.items q, ∀ p ∈ i.leaves, p ≠ q → δ p = 0 := by
        intro i hi p hp hpq
        obtain ⟨hpS, hlt⟩ := hR.closed q hq i hi p hp
        have hlt := hlt.resolve_left hpq
        have hpx : p ≠ x := by rintro rfl; omega
        exact ih (rank p) (by omega) p hpS le_rfl hpx (by omega)
      suffices H : ∀ is : List (Node K), (∀ i ∈ is, i ∈ D.items q) → ∀ v,
          seqDer P D.par ρ δ q is v 0 = 0 from H _ (fun _ h => h) _
      intro is
      induction is with
      | nil => intro _ v; rfl
      | cons i is ih2 =>
          intro hsub v
          have : i.der P D.par (Function.update ρ q v) (Function.update δ q 0) = 0 := by
            refine Node.der_zero P _ _ _ i fun p hp => ?_
            by_cases hpq : p = q
            · subst hpq; simp
            · simp [hpq, hleaf i (hsub i (by simp)) p hp hpq]
          simp only [seqDer, this]
          exact ih2 (fun j hj => hsub j (by simp [hj])) _

/-- Assumptions on the variable of differentiation. -/
structure KeyHyp : Prop where
  /-- its number identifies it -/
  inj : ∀ q ∈ S, D.nidx q = kx ↔ q = x
  /-- its number is not an operator's -/
  op : ∀ q ∈ S, ∀ i ∈ D.items q, kx ∉ i.opIds
  /-- its number is not a Parameter's -/
  par : ∀ p, ParIn D S p → D.pnidx p ≠ kx
  /-- no definition is a bare reference to it -/
  bare : ∀ q ∈ S, Node.leaf x ∉ D.items q
  /-- it is not defined through its own previous value -/
  notself : x ∈ S → ∀ i ∈ D.items x, x ∉ i.leaves

/-- The part of `KeyHyp` about one object. -/
structure KeyAt (o : ℕ) : Prop where
  self : D.nidx o = kx ↔ o = x
  inj : ∀ i ∈ D.items o, ∀ p ∈ i.leaves, D.nidx p = kx ↔ p = x
  op : ∀ i ∈ D.items o, kx ∉ i.opIds
  par : ∀ i ∈ D.items o, ∀ p ∈ i.pars, D.pnidx p ≠ kx
  bare : Node.leaf x ∉ D.items o
  notself : o = x → ∀ i ∈ D.items x, x ∉ i.leaves
  down : ∀ i ∈ D.items o, ∀ p ∈ i.leaves, Ky p

variable {D S x kx} in
theorem KeyHyp.at (h : KeyHyp D S x kx) {o : ℕ} (ho : o ∈ S) (hc : ∀ i ∈ D.items o, ∀ p ∈ i.leaves, p ∈ S)
    (hd : ∀ i ∈ D.items o, ∀ p ∈ i.leaves, Ky p) : KeyAt D x kx Ky o :=
  ⟨h.inj o ho, fun i hi p hp => h.inj p (hc i hi p hp), h.op o ho, fun i hi p hp => h.par p ⟨o, ho, i, hi, hp⟩,
    h.bare o ho, fun e => h.notself (e ▸ ho), hd⟩

theorem revItems_spec {o : ℕ} (hoS : o ∈ S) (hR : RankedAt D S rank o) (hIds : IdsAt D G o)
    (hx : Ky o → KeyAt D x kx Ky o) (hδx : x ∈ S → δ x = 1)
    (hbel : x ∈ S → ∀ i ∈ D.items x, ∀ p ∈ i.leaves, p ≠ x → δ p = 0)
    (hE : VisSpec recE) (hV : TVisSpec recT)
    (hT : TSpec P D S rank ρ δ x kx G Ky (rank o) recT) (is : List (Node K)) :
    ∀ dn m m', D.items o = dn ++ is → m.visited o = true → RInv P D S rank ρ δ x kx G Ky (rank o) m →
      (dn ≠ [] → ∀ n, (∀ j ∈ D.items o, ∀ p ∈ j.leaves, D.nidx p ≠ n) →
        (∀ j ∈ D.items o, ∀ p ∈ j.pars, D.pnidx p ≠ n) →
        (∀ j ∈ D.items o, ∀ p ∈ j.leaves, p ≠ o → ¬ G p n) → (∀ i ∈ dn, n ∉ i.opIds) →
        m.cache o n = 0) →
      (Ky o → dn ≠ [] → o = x → m.cache o kx = 0) →
      revItems P D recE recT o is m = some m' →
      m'.value o = seqVal P D.par ρ o is (m.value o) ∧
        (Ky o → o ≠ x → m'.cache o kx =
          seqDer P D.par ρ δ o is (m.value o) (m.cache o kx)) ∧
        (Ky o → D.items o ≠ [] → o = x → m'.cache o kx = 0) ∧
        (D.items o ≠ [] → ∀ n, ¬ G o n → m'.cache o n = 0) ∧
        RInv P D S rank ρ δ x kx G Ky (rank o) m' ∧
        (∃ m₁, Frame S rank (rank o) m m₁ ∧
          m' = (m₁.setValue o (m'.value o)).setCache o (m'.cache o)) ∧
        (∀ i ∈ is, ∀ p ∈ i.leaves, m'.visited p = true) ∧ NewClosed D m m' := by
  induction is with
  | nil =>
      intro dn m m' hdn ho hi hfor hself h
      simp [revItems] at h
      subst h
      have hdn' : dn = D.items o := by simpa using hdn.symm
      refine ⟨rfl, fun _ _ => rfl, fun hK hne hox => hself hK (by rwa [hdn']) hox, fun hne n hn => ?_, hi,
        ⟨m, Frame.refl .., by simp [Mem.setValue, Mem.setCache]⟩, by simp, NewClosed.refl _ _⟩
      exact hfor (by rwa [hdn']) n (fun j hj p hp e => hn (e ▸ hIds.leafid j hj p hp))
        (fun j hj p hp e => hn (e ▸ hIds.parid j hj p hp))
        (fun j hj p hp hpo hg => hn (hIds.sub j hj p hp hpo n hg))
        (by rw [hdn']; exact fun j hj h => hn (hIds.own j hj n h))
  | cons i is ih =>
      intro dn m m' hdn ho hi hfor hself h
      have hiI : i ∈ D.items o := by rw [hdn]; simp
      have hb : Below S rank o i := fun p hp => hR.closed i hiI p hp
      have hfirst : o ∈ i.leaves → dn ≠ [] := by
        rintro hoi rfl
        exact hR.first i is hdn hoi
      simp only [revItems, Option.bind_eq_bind, Option.bind_eq_some_iff, Prod.exists] at h
      obtain ⟨c, m1, h1, v, m2, h2, h3⟩ := h
      have hid : ∀ m₁, RInv P D S rank ρ δ x kx G Ky (rank o) m₁ → Frame S rank (rank o) m m₁ →
          (∀ p ∈ i.leaves, m₁.visited p = true) → IdOK D m₁ i := by
        intro m₁ inv fr hl
        refine ⟨hIds.nodup i hiI, hIds.leaf i hiI i hiI, hIds.par i hiI i hiI, fun p hp n hn => ?_⟩
        obtain ⟨hpS, hpo⟩ := hb p hp
        by_cases hpo' : p = o
        · subst hpo'
          rw [fr.cache p (Or.inr le_rfl)]
          refine hfor (hfirst hp) n (fun j hj q hq e => hIds.leaf i hiI j hj q hq (e ▸ hn))
            (fun j hj q hq e => hIds.par i hiI j hj q hq (e ▸ hn))
            (fun j hj q hq hqp => hIds.sepG i hiI j hj q hq hqp n hn) (fun j hj hnj => ?_)
          have := hIds.sep
          rw [hdn, List.pairwise_append] at this
          exact this.2.2 j hj i (by simp) n hnj hn
        · exact inv.foreign p hpS (hpo.resolve_left hpo') (hl p hp) n
            (hIds.sepG i hiI i hiI p hp hpo' n hn)
      obtain ⟨i1, f1, l1, n1, hk⟩ := revRoot_spec P D S rank ρ δ x kx G Ky hE hV hT i m c m1 hb ho hi hid h1
      obtain ⟨hv, rfl⟩ := evalN_vis P D hE i m1 v m2 l1 h2
      have hval : ∀ p ∈ i.leaves, m2.value p = Function.update ρ o (m.value o) p := by
        intro p hp
        obtain ⟨hpS, hpo⟩ := hb p hp
        by_cases h : p = o
        · subst h; simp [f1.val p (Or.inr le_rfl)]
        · simp [h, i1.val p hpS (hpo.resolve_left h) (l1 p hp)]
      have hv' : v = i.val P D.par (Function.update ρ o (m.value o)) := by
        rw [hv]; exact Node.val_congr P D.par i hval
      -- the new cache at the key of x
      have hcx : Ky o → c kx = i.der P D.par m2.value (gamma D m2 kx) := by
        intro hKo
        have hx := hx hKo
        refine hk kx ⟨hx.op i hiI, fun p hp => hx.par i hiI p hp⟩ ?_
        rintro z rfl e
        obtain rfl := (hx.inj _ hiI z (by simp [Node.leaves])).1 e
        exact hx.bare hiI
      have hgam : Ky o → ∀ p ∈ i.leaves, p ≠ o → gamma D m2 kx p = δ p := by
        intro hKo p hp hpo
        have hx := hx hKo
        obtain ⟨hpS, hpo'⟩ := hb p hp
        have hlt := hpo'.resolve_left hpo
        have hpi := hx.inj i hiI p hp
        unfold gamma
        rw [i1.key p hpS hlt (l1 p hp) (hx.down i hiI p hp)]
        by_cases hpx : p = x
        · subst hpx; simp [hδx hpS, hpi.2 rfl]
        · simp [hpx, hpi]
      have hcx' : Ky o → o ≠ x → c kx = i.der P D.par (Function.update ρ o (m.value o))
          (Function.update δ o (m.cache o kx)) := by
        intro hKo hox
        rw [hcx hKo]
        refine Node.der_congr P D.par i hval fun p hp => ?_
        by_cases hpo : p = o
        · subst hpo
          simp [gamma, (hx hKo).self, hox, f1.cache p (Or.inr le_rfl)]
        · simp [hpo, hgam hKo p hp hpo]
      have hcself : Ky o → o = x → c kx = 0 := by
        rintro hKo rfl
        rw [hcx hKo]
        refine Node.der_zero P _ _ _ i fun p hp => ?_
        have hpo : p ≠ o := by rintro rfl; exact (hx hKo).notself rfl i hiI hp
        obtain ⟨hpS, hpo'⟩ := hb p hp
        rw [hgam hKo p hp hpo]
        exact hbel hoS i hiI p hp hpo
      have hcfor : ∀ n, (∀ j ∈ D.items o, ∀ p ∈ j.leaves, D.nidx p ≠ n) →
          (∀ j ∈ D.items o, ∀ p ∈ j.pars, D.pnidx p ≠ n) →
          (∀ j ∈ D.items o, ∀ p ∈ j.leaves, p ≠ o → ¬ G p n) →
          (∀ j ∈ dn ++ [i], n ∉ j.opIds) → c n = 0 := by
        intro n hnS hnP hnl hnd
        rw [hk n ⟨hnd i (by simp), fun p hp => hnP i hiI p hp⟩]
        · refine Node.der_zero P _ _ _ i fun p hp => ?_
          obtain ⟨hpS, hpo⟩ := hb p hp
          have e1 : m2.cache p n = 0 := by
            by_cases h : p = o
            · subst h
              rw [f1.cache p (Or.inr le_rfl)]
              exact hfor (hfirst hp) n hnS hnP hnl fun j hj => hnd j (by simp [hj])
            · exact i1.foreign p hpS (hpo.resolve_left h) (l1 p hp) n (hnl i hiI p hp h)
          simp [gamma, hnS i hiI p hp, e1]
        · rintro z rfl
          exact hnS _ hiI z (by simp [Node.leaves])
      set m3 := (m2.setValue o v).setCache o c with hm3
      have hne : ∀ q, rank q < rank o → q ≠ o := by rintro q hq rfl; exact lt_irrefl _ hq
      have i3 : RInv P D S rank ρ δ x kx G Ky (rank o) m3 := by
        constructor
        · intro q hq hlt hvq
          simpa [hm3, Mem.setValue, Mem.setCache, hne q hlt] using i1.val q hq hlt hvq
        · intro q hq hlt hvq
          simpa [hm3, Mem.setValue, Mem.setCache, hne q hlt] using i1.key q hq hlt hvq
        · intro q hq hlt hvq
          simpa [hm3, Mem.setValue, Mem.setCache, hne q hlt] using i1.foreign q hq hlt hvq
        · intro q hq hlt hp
          simpa [hm3, Mem.setValue, Mem.setCache, hne q hlt] using i1.plain q hq hlt hp
        · exact i1.eqn
      obtain ⟨e1, e2, e3, e4, i4, ⟨m₂, f2, hm₂⟩, l2, c2⟩ := ih (dn ++ [i]) m3 m'
        (by rw [hdn]; simp) (f1.mono o ho) i3
        (fun _ n h1 h2 h3 h4 => by
          simpa [hm3, Mem.setCache] using hcfor n h1 h2 h3 h4)
        (fun hK _ hox => by simpa [hm3, Mem.setCache] using hcself hK hox) h3
      have hmono : ∀ q, m3.visited q = true → m'.visited q = true := by
        intro q hq; rw [hm₂]; exact f2.mono q hq
      refine ⟨?_, ?_, e3, e4, i4,
        ⟨(m₂.setValue o (m2.value o)).setCache o (m2.cache o), ?_, ?_⟩, ?_, ?_⟩
      · rw [e1, seqVal, ← hv']; simp [hm3, Mem.setValue, Mem.setCache]
      · intro hK hox
        rw [e2 hK hox, seqDer, ← hv', ← hcx' hK hox]
        simp [hm3, Mem.setValue, Mem.setCache]
      · refine f1.trans ⟨fun q hq => f2.mono q hq,
          fun q hq => f2.vis q hq, fun q hq => ?_, fun q hq => f2.dval q hq, fun q hq => ?_⟩
        · by_cases hqo : q = o
          · subst hqo; simp [Mem.setValue, Mem.setCache]
          · simpa [hm3, Mem.setValue, Mem.setCache, hqo] using f2.val q hq
        · by_cases hqo : q = o
          · subst hqo; simp [Mem.setValue, Mem.setCache]
          · simpa [hm3, Mem.setValue, Mem.setCache, hqo] using f2.cache q hq
      · rw [hm₂]; simp [Mem.setValue, Mem.setCache]
      · intro j hj p hp
        rcases List.mem_cons.1 hj with rfl | hj
        · exact hmono p (l1 p hp)
        · exact l2 j hj p hp
      · exact NewClosed.trans (m' := m3) n1 c2 hmono

theorem revO_spec (hx : ∀ q ∈ S, Ky q → KeyAt D x kx Ky q)
    (hδx : x ∈ S → δ x = 1)
    (hbel : x ∈ S → ∀ i ∈ D.items x, ∀ p ∈ i.leaves, p ≠ x → δ p = 0) (fuel : ℕ) :
    ∀ r, TSpec P D S rank ρ δ x kx G Ky r (revO P D fuel) := by
  induction fuel with
  | zero => intro r q _ _ m m' _ h; simp [revO] at h
  | succ f ih =>
      intro r o hoS hor m m' hi h
      cases hvo : m.visited o with
      | true =>
          obtain rfl := revO_vis P D (f + 1) o m m' hvo h
          exact ⟨hi, Frame.refl .., hvo, NewClosed.refl _ _⟩
      | false =>
          simp only [revO, hvo, if_true] at h
          set m0 := m.setVisited o true with hm0
          have hne : ∀ q, rank q < rank o → q ≠ o := by rintro q hq rfl; exact lt_irrefl _ hq
          have i0 : RInv P D S rank ρ δ x kx G Ky (rank o) m0 := by
            constructor
            · intro q hq hlt hvq
              simp [hm0, Mem.setVisited, hne q hlt] at hvq ⊢
              exact hi.val q hq (hlt.trans hor) hvq
            · intro q hq hlt hvq
              simp [hm0, Mem.setVisited, hne q hlt] at hvq ⊢
              exact hi.key q hq (hlt.trans hor) hvq
            · intro q hq hlt hvq
              simp [hm0, Mem.setVisited, hne q hlt] at hvq ⊢
              exact hi.foreign q hq (hlt.trans hor) hvq
            · intro q hq hlt hp
              exact hi.plain q hq (hlt.trans hor) hp
            · intro q hq hlt hvq
              simp [hm0, Mem.setVisited, hne q hlt] at hvq
              exact hi.eqn q hq (hlt.trans hor) hvq
          obtain ⟨e1, e2, e3, e4, i1, ⟨m₁, fr, hm1⟩, l1, c1⟩ := revItems_spec P D S rank ρ δ x kx G Ky hoS
            (hi.eqn o hoS hor hvo).1.1 (hi.eqn o hoS hor hvo).1.2 (hx o hoS) hδx hbel (evalO_vis P D f) (revO_vis P D f) (ih (rank o)) (D.items o) [] m0 m'
            (by simp) (by simp [hm0, Mem.setVisited]) i0 (by simp) (by simp) h
          have hplain := hi.plain o hoS hor
          have hnil : D.items o = [] → m' = m0 := by
            intro hit; simpa [hit, revItems] using h.symm
          have e1' : m'.value o = ρ o := by
            rw [e1, (hi.eqn o hoS hor hvo).2.1]
            cases hit : D.items o with
            | nil => simp [seqVal, hm0, Mem.setVisited, (hplain hit).1]
            | cons i is => exact seqVal_start P _ _ _ _ _ ((hi.eqn o hoS hor hvo).1.1.first i is hit) _ _
          have e2' : Ky o → m'.cache o kx = if o = x then 0 else δ o := by
            intro hK
            by_cases hox : o = x
            · rw [if_pos hox]
              cases hit : D.items o with
              | nil => rw [hnil hit]; simp [hm0, Mem.setVisited, (hplain hit).2]
              | cons i is => exact e3 hK (by rw [hit]; simp) hox
            · rw [if_neg hox, e2 hK hox, (hi.eqn o hoS hor hvo).2.2 hox]
              cases hit : D.items o with
              | nil => simp [seqDer, hm0, Mem.setVisited, (hplain hit).2]
              | cons i is => exact seqDer_start P _ _ _ _ _ _ ((hi.eqn o hoS hor hvo).1.1.first i is hit) _ _ _ _
          have e4' : ∀ n, ¬ G o n → m'.cache o n = 0 := by
            intro n hn
            cases hit : D.items o with
            | nil => rw [hnil hit]; simp [hm0, Mem.setVisited, (hplain hit).2]
            | cons i is => exact e4 (by rw [hit]; simp) n hn
          have hvo1 : m'.visited o = true := by
            rw [hm1]; exact fr.mono o (by simp [hm0, Mem.setVisited])
          have hmono : ∀ q, m.visited q = true → m'.visited q = true := by
            intro q hq
            rw [hm1]
            refine fr.mono q ?_
            by_cases h : q = o
            · subst h; simp [hm0, Mem.setVisited]
            · simpa [hm0, Mem.setVisited, h] using hq
          have hfr : Frame S rank r m m' := by
            have key : ∀ q, (q ∉ S ∨ r ≤ rank q) → q ≠ o ∧ (q ∉ S ∨ rank o ≤ rank q) := by
              intro q hq
              refine ⟨?_, hq.imp_right fun h => hor.le.trans h⟩
              rintro rfl
              exact hq.elim (fun h => h hoS) fun h => absurd hor (not_lt.2 h)
            refine ⟨hmono, ?_, ?_, ?_, ?_⟩ <;> intro q hq <;> obtain ⟨hqo, hq'⟩ := key q hq <;>
              rw [hm1]
            · simpa [hm0, Mem.setVisited, Mem.setValue, Mem.setCache, hqo] using fr.vis q hq'
            · simpa [hm0, Mem.setVisited, Mem.setValue, Mem.setCache, hqo] using fr.val q hq'
            · simpa [hm0, Mem.setVisited, Mem.setValue, Mem.setCache, hqo] using fr.dval q hq'
            · simpa [hm0, Mem.setVisited, Mem.setValue, Mem.setCache, hqo] using fr.cache q hq'
          -- objects between the rank of o and r are untouched
          have hun : ∀ q ∈ S, q ≠ o → ¬ rank q < rank o →
              m'.visited q = m.visited q ∧ m'.value q = m.value q ∧ m'.cache q = m.cache q := by
            intro q hq hqo hge
            have hq' : q ∉ S ∨ rank o ≤ rank q := Or.inr (not_lt.1 hge)
            have h1 := fr.vis q hq'
            have h2 := fr.val q hq'
            have h3 := fr.cache q hq'
            rw [hm1]
            simp [hm0, Mem.setVisited, Mem.setValue, Mem.setCache, hqo] at h1 h2 h3 ⊢
            exact ⟨h1, h2, h3⟩
          refine ⟨⟨?_, ?_, ?_, ?_, fun q hq hlt hvq => hi.eqn q hq hlt
            (not_visited_of_mono hmono hvq)⟩, hfr, hvo1, ?_⟩
          · intro q hq hlt hvq
            by_cases hqo : q = o
            · subst hqo; exact e1'
            · by_cases hlt' : rank q < rank o
              · exact i1.val q hq hlt' hvq
              · obtain ⟨h1, h2, h3⟩ := hun q hq hqo hlt'
                rw [h2]; exact hi.val q hq hlt (by rw [← h1]; exact hvq)
          · intro q hq hlt hvq
            by_cases hqo : q = o
            · subst hqo; exact e2'
            · by_cases hlt' : rank q < rank o
              · exact i1.key q hq hlt' hvq
              · obtain ⟨h1, h2, h3⟩ := hun q hq hqo hlt'
                rw [h3]; exact hi.key q hq hlt (by rw [← h1]; exact hvq)
          · intro q hq hlt hvq
            by_cases hqo : q = o
            · subst hqo; exact e4'
            · by_cases hlt' : rank q < rank o
              · exact i1.foreign q hq hlt' hvq
              · obtain ⟨h1, h2, h3⟩ := hun q hq hqo hlt'
                rw [h3]; exact hi.foreign q hq hlt (by rw [← h1]; exact hvq)
          · intro q hq hlt hp
            by_cases hqo : q = o
            · subst hqo
              rw [hnil hp]
              exact hi.plain q hq hlt hp
            · by_cases hlt' : rank q < rank o
              · exact i1.plain q hq hlt' hp
              · obtain ⟨h1, h2, h3⟩ := hun q hq hqo hlt'
                rw [h2, h3]; exact hi.plain q hq hlt hp
          · intro q hq hq' i hii p hp
            by_cases hqo : q = o
            · subst hqo; exact l1 i hii p hp
            · exact c1 q (by simpa [hm0, Mem.setVisited, hqo] using hq) hq' i hii p hp

end

end CoolDiff
