import Verif.Scalar.Reset

/-!
# Objects without equations keep their number

Whatever is queried (circular definitions included), a Variable keeps its number, its derivative cell 0
and an empty cache.
-/

set_option linter.unusedSectionVars false

namespace CoolDiff

variable {K : Type} [Field K] [DecidableEq K]

section
variable (P : Prim K) (D : Defs K)

/-- Objects without equations hold their number, with derivative 0 and an empty cache. -/
def PlainOK (m : Mem K) : Prop := ∀ q < D.size, D.items q = [] →
  m.value q = D.base q ∧ m.dvalue q = 0 ∧ m.cache q = fun _ => 0

def PlainE (rec : ℕ → Mem K → Option (K × Mem K)) : Prop :=
  ∀ q m v m', rec q m = some (v, m') → PlainOK D m → PlainOK D m'
def PlainT (rec : ℕ → Mem K → Option (Mem K)) : Prop :=
  ∀ q m m', rec q m = some m' → PlainOK D m → PlainOK D m'

variable {P D}

theorem PlainOK.setVisited {m : Mem K} (h : PlainOK D m) (o : ℕ) (b : Bool) :
    PlainOK D (m.setVisited o b) := h

theorem PlainOK.setBase {m : Mem K} (h : PlainOK D m) (o : ℕ) : PlainOK D (m.setValue o (D.base o)) := by
  intro q hq he
  have := h q hq he
  refine ⟨?_, this.2⟩
  by_cases e : q = o
  · subst e; simp [Mem.setValue]
  · simpa [Mem.setValue, e] using this.1

theorem PlainOK.setValue {m : Mem K} (h : PlainOK D m) {o : ℕ} (ho : D.items o ≠ []) (v : K) :
    PlainOK D (m.setValue o v) := by
  intro q hq he
  have e : q ≠ o := by rintro rfl; exact ho he
  simpa [Mem.setValue, e] using h q hq he

theorem PlainOK.setDValue {m : Mem K} (h : PlainOK D m) {o : ℕ} (ho : D.items o ≠ []) (v : K) :
    PlainOK D (m.setDValue o v) := by
  intro q hq he
  have e : q ≠ o := by rintro rfl; exact ho he
  simpa [Mem.setDValue, e] using h q hq he

theorem PlainOK.setCache {m : Mem K} (h : PlainOK D m) {o : ℕ} (ho : D.items o ≠ []) (c : Cache K) :
    PlainOK D (m.setCache o c) := by
  intro q hq he
  have e : q ≠ o := by rintro rfl; exact ho he
  simpa [Mem.setCache, e] using h q hq he

variable (P D)
variable {recE recD : ℕ → Mem K → Option (K × Mem K)} {recT : ℕ → Mem K → Option (Mem K)}

theorem evalN_plain (hE : PlainE D recE) (t : Node K) :
    ∀ m v m', evalN P D recE t m = some (v, m') → PlainOK D m → PlainOK D m' := by
  induction t with
  | leaf o => intro m v m' h; exact hE o m v m' h
  | par p => intro m v m' h; simp [evalN] at h; rw [h.2]; exact id
  | op1 n f a ih =>
      intro m v m' h
      simp only [evalN, Option.bind_eq_bind, Option.bind_eq_some_iff, Prod.exists,
        Option.some.injEq, Prod.mk.injEq] at h
      obtain ⟨u, m1, h1, rfl, rfl⟩ := h
      exact ih m u m1 h1
  | op2 n f a b iha ihb =>
      intro m v m' h hm
      simp only [evalN] at h
      split at h <;>
      · simp only [Option.bind_eq_bind, Option.bind_eq_some_iff, Prod.exists,
          Option.some.injEq, Prod.mk.injEq] at h
        obtain ⟨u, m1, h1, w, m2, h2, rfl, rfl⟩ := h
        first
        | exact iha m1 w m2 h2 (ihb m u m1 h1 hm)
        | exact ihb m1 w m2 h2 (iha m u m1 h1 hm)

theorem evalO_plain (fuel : ℕ) : PlainE D (evalO P D fuel) := by
  induction fuel with
  | zero => intro q m v m' h; simp [evalO] at h
  | succ f ih =>
      intro o m v m' h hm
      have items : ∀ is, (∀ i ∈ is, i ∈ D.items o) → ∀ m m',
          evalItems P D (evalO P D f) o is m = some m' → PlainOK D m → PlainOK D m' := by
        intro is
        induction is with
        | nil => intro _ m m' h; simp [evalItems] at h; rw [h]; exact id
        | cons i is ih2 =>
            intro hsub m m' h hm
            have ho : D.items o ≠ [] := List.ne_nil_of_mem (hsub i (by simp))
            simp only [evalItems, Option.bind_eq_bind, Option.bind_eq_some_iff, Prod.exists] at h
            obtain ⟨v, m1, h1, h2⟩ := h
            exact ih2 (fun j hj => hsub j (by simp [hj])) _ _ h2 ((evalN_plain P D ih i _ _ _ h1 hm).setValue ho v)
      simp only [evalO] at h
      split at h
      · simp only [Option.bind_eq_bind, Option.bind_eq_some_iff, Option.some.injEq,
          Prod.mk.injEq] at h
        obtain ⟨m1, h1, rfl, rfl⟩ := h
        exact items _ (fun _ h => h) _ _ h1 ((hm.setBase o).setVisited o true)
      · simp only [Option.some.injEq, Prod.mk.injEq] at h
        rw [← h.2]; exact hm

theorem fwdN_plain (hE : PlainE D recE) (hF : PlainE D recD) (t : Node K) :
    ∀ m v m', fwdN P D recE recD t m = some (v, m') → PlainOK D m → PlainOK D m' := by
  induction t with
  | leaf o => intro m v m' h; exact hF o m v m' h
  | par p => intro m v m' h; simp [fwdN] at h; rw [h.2]; exact id
  | op1 n f a ih =>
      intro m v m' h hm
      simp only [fwdN, Option.bind_eq_bind, Option.bind_eq_some_iff, Prod.exists] at h
      obtain ⟨du, m1, h1, h⟩ := h
      split at h
      · simp only [Option.bind_eq_some_iff, Prod.exists, Option.some.injEq, Prod.mk.injEq] at h
        obtain ⟨u, m2, h2, rfl, rfl⟩ := h
        exact evalN_plain P D hE a _ _ _ h2 (ih _ _ _ h1 hm)
      · simp only [Option.some.injEq, Prod.mk.injEq] at h
        rw [← h.2]; exact ih _ _ _ h1 hm
  | op2 n f a b iha ihb =>
      intro m v m' h hm
      simp only [fwdN, Option.bind_eq_bind, Option.bind_eq_some_iff, Prod.exists] at h
      obtain ⟨du, m1, h1, dv, m2, h2, h⟩ := h
      have h12 := ihb _ _ _ h2 (iha _ _ _ h1 hm)
      split at h
      · split at h <;>
        · simp only [Option.bind_eq_some_iff, Prod.exists, Option.some.injEq, Prod.mk.injEq] at h
          obtain ⟨u, m3, h3, w, m4, h4, rfl, rfl⟩ := h
          exact evalN_plain P D hE _ _ _ _ h4 (evalN_plain P D hE _ _ _ _ h3 h12)
      · simp only [Option.some.injEq, Prod.mk.injEq] at h
        rw [← h.2]; exact h12

theorem fwdO_plain (k fuel : ℕ) : PlainE D (fwdO P D k fuel) := by
  induction fuel with
  | zero => intro q m v m' h; simp [fwdO] at h
  | succ f ih =>
      intro o m v m' h hm
      have hE := evalO_plain P D f
      have items : ∀ is, (∀ i ∈ is, i ∈ D.items o) → ∀ m m',
          fwdItems P D (evalO P D f) (fwdO P D k f) o is m = some m' → PlainOK D m → PlainOK D m' := by
        intro is
        induction is with
        | nil => intro _ m m' h; simp [fwdItems] at h; rw [h]; exact id
        | cons i is ih2 =>
            intro hsub m m' h hm
            have ho : D.items o ≠ [] := List.ne_nil_of_mem (hsub i (by simp))
            simp only [fwdItems, Option.bind_eq_bind, Option.bind_eq_some_iff, Prod.exists] at h
            obtain ⟨d, m1, h1, v, m2, h2, h3⟩ := h
            refine ih2 (fun j hj => hsub j (by simp [hj])) _ _ h3 ?_
            exact (evalN_plain P D hE i _ _ _ h2 ((fwdN_plain P D hE ih i _ _ _ h1 hm).setDValue ho d)).setValue ho v
      simp only [fwdO] at h
      split at h
      · simp only [Option.bind_eq_bind, Option.bind_eq_some_iff, Option.some.injEq,
          Prod.mk.injEq] at h
        obtain ⟨m1, h1, rfl, rfl⟩ := h
        exact items _ (fun _ h => h) _ _ h1 (hm.setVisited o true)
      · simp only [Option.some.injEq, Prod.mk.injEq] at h
        rw [← h.2]; exact hm

theorem val1_plain (hE : PlainE D recE) (f : Op1 K) (a : Node K) (m m' : Mem K) (u : K)
    (h : val1 P D recE f a m = some (u, m')) (hm : PlainOK D m) : PlainOK D m' := by
  unfold val1 at h
  split at h
  · exact evalN_plain P D hE _ _ _ _ h hm
  · simp only [Option.some.injEq, Prod.mk.injEq] at h; rw [← h.2]; exact hm

theorem val2_plain (hE : PlainE D recE) (f : Op2 K) (a b : Node K) (m m' : Mem K) (u v : K)
    (h : val2 P D recE f a b m = some (u, v, m')) (hm : PlainOK D m) : PlainOK D m' := by
  unfold val2 at h
  split at h
  · split at h <;>
    · simp only [Option.bind_eq_bind, Option.bind_eq_some_iff, Prod.exists, Option.some.injEq,
        Prod.mk.injEq] at h
      obtain ⟨_, m1, h1, _, m2, h2, rfl, rfl, rfl⟩ := h
      exact evalN_plain P D hE _ _ _ _ h2 (evalN_plain P D hE _ _ _ _ h1 hm)
  · simp only [Option.some.injEq, Prod.mk.injEq] at h; rw [← h.2.2]; exact hm

variable {D} in
theorem unless_plain {a : Node K} {c : Cache K} {m : Mem K} {r : Option (Cache K × Mem K)}
    {c' : Cache K} {m' : Mem K} (h : unlessVisited a c m r = some (c', m'))
    (hr : r = some (c', m') → PlainOK D m → PlainOK D m') (hm : PlainOK D m) : PlainOK D m' := by
  unfold unlessVisited at h
  split at h
  · simp only [Option.some.injEq, Prod.mk.injEq] at h; rw [← h.2]; exact hm
  · exact hr h hm

theorem revN_plain (hE : PlainE D recE) (hT : PlainT D recT) (t : Node K) :
    ∀ c m c' m', revN P D recE recT t c m = some (c', m') → PlainOK D m → PlainOK D m' := by
  induction t with
  | leaf o =>
      intro c m c' m' h
      simp only [revN, Option.bind_eq_bind, Option.bind_eq_some_iff, Option.some.injEq,
        Prod.mk.injEq] at h
      obtain ⟨m1, h1, rfl, rfl⟩ := h
      exact hT _ _ _ h1
  | par p => intro c m c' m' h; simp [revN] at h; rw [h.2]; exact id
  | op1 n f a ih =>
      intro c m c' m' h hm
      simp only [revN, Option.bind_eq_bind, Option.bind_eq_some_iff, Prod.exists] at h
      obtain ⟨c1, m1, h1, u, m2, h2, h3⟩ := h
      exact unless_plain h3 (ih _ _ _ _) (val1_plain P D hE f a _ _ _ h2 (unless_plain h1 (ih _ _ _ _) hm))
  | op2 n f a b iha ihb =>
      intro c m c' m' h hm
      simp only [revN, Option.bind_eq_bind, Option.bind_eq_some_iff, Prod.exists] at h
      obtain ⟨c1, m1, h1, c2, m2, h2, u, v, m3, h3, c4, m4, h4, h5⟩ := h
      exact unless_plain h5 (ihb _ _ _ _) (unless_plain h4 (iha _ _ _ _)
        (val2_plain P D hE f a b _ _ _ _ h3 (unless_plain h2 (ihb _ _ _ _) (unless_plain h1 (iha _ _ _ _) hm))))

theorem revRoot_plain (hE : PlainE D recE) (hT : PlainT D recT) (t : Node K) (m : Mem K)
    (c' : Cache K) (m' : Mem K) (h : revRoot P D recE recT t m = some (c', m')) (hm : PlainOK D m) :
    PlainOK D m' := by
  cases t with
  | leaf o =>
      simp only [revRoot, Option.bind_eq_bind, Option.bind_eq_some_iff, Option.some.injEq,
        Prod.mk.injEq] at h
      obtain ⟨m1, h1, rfl, rfl⟩ := h
      exact hT _ _ _ h1 hm
  | par p => simp [revRoot] at h; rw [← h.2]; exact hm
  | op1 n f a =>
      simp only [revRoot, Option.bind_eq_bind, Option.bind_eq_some_iff, Prod.exists] at h
      obtain ⟨c1, m1, h1, u, m2, h2, h3⟩ := h
      exact unless_plain h3 (revN_plain P D hE hT a _ _ _ _) (val1_plain P D hE f a _ _ _ h2
        (unless_plain h1 (revN_plain P D hE hT a _ _ _ _) hm))
  | op2 n f a b =>
      simp only [revRoot, Option.bind_eq_bind, Option.bind_eq_some_iff, Prod.exists] at h
      obtain ⟨c1, m1, h1, c2, m2, h2, u, v, m3, h3, c4, m4, h4, h5⟩ := h
      exact unless_plain h5 (revN_plain P D hE hT b _ _ _ _) (unless_plain h4 (revN_plain P D hE hT a _ _ _ _)
        (val2_plain P D hE f a b _ _ _ _ h3 (unless_plain h2 (revN_plain P D hE hT b _ _ _ _)
          (unless_plain h1 (revN_plain P D hE hT a _ _ _ _) hm))))

theorem revO_plain (fuel : ℕ) : PlainT D (revO P D fuel) := by
  induction fuel with
  | zero => intro q m m' h; simp [revO] at h
  | succ f ih =>
      intro o m m' h hm
      have hE := evalO_plain P D f
      have items : ∀ is, (∀ i ∈ is, i ∈ D.items o) → ∀ m m',
          revItems P D (evalO P D f) (revO P D f) o is m = some m' → PlainOK D m → PlainOK D m' := by
        intro is
        induction is with
        | nil => intro _ m m' h; simp [revItems] at h; rw [h]; exact id
        | cons i is ih2 =>
            intro hsub m m' h hm
            have ho : D.items o ≠ [] := List.ne_nil_of_mem (hsub i (by simp))
            simp only [revItems, Option.bind_eq_bind, Option.bind_eq_some_iff, Prod.exists] at h
            obtain ⟨c, m1, h1, v, m2, h2, h3⟩ := h
            refine ih2 (fun j hj => hsub j (by simp [hj])) _ _ h3 ?_
            exact ((evalN_plain P D hE i _ _ _ h2 (revRoot_plain P D hE ih i _ _ _ h1 hm)).setValue ho v).setCache ho c
      simp only [revO] at h
      split at h
      · exact items _ (fun _ h => h) _ _ h (hm.setVisited o true)
      · simp only [Option.some.injEq] at h
        rw [← h]; exact hm

theorem resetImpl_plain (fuel y : ℕ) (m m' : Mem K) (h : resetImpl D fuel y m = some m')
    (hm : PlainOK D m) : PlainOK D m' := by
  obtain ⟨-, -, -, -, -, h6, -⟩ := resetImpl_spec D (S := Set.univ) (fun _ _ _ _ _ _ => trivial) fuel y
    trivial m m' h
  intro q hq he
  rcases h6 q with h | h
  · rw [h.1, h.2.1, h.2.2]; exact hm q hq he
  · exact h

end

end CoolDiff
