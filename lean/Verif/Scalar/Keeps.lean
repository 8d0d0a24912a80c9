import Verif.Scalar.Model

/-!
# Fields a query does not touch
-/

set_option linter.unusedSectionVars false

namespace CoolDiff

variable {K : Type} [Field K] [DecidableEq K] {α : Type}

section
variable (P : Prim K) (D : Defs K) (φ : Mem K → α)

def KeepE (rec : ℕ → Mem K → Option (K × Mem K)) : Prop :=
  ∀ q m v m', rec q m = some (v, m') → φ m' = φ m
def KeepT (rec : ℕ → Mem K → Option (Mem K)) : Prop :=
  ∀ q m m', rec q m = some m' → φ m' = φ m

variable {recE recD : ℕ → Mem K → Option (K × Mem K)} {recT : ℕ → Mem K → Option (Mem K)}

theorem evalN_keep (hE : KeepE φ recE) (t : Node K) :
    ∀ m v m', evalN P D recE t m = some (v, m') → φ m' = φ m := by
  induction t with
  | leaf o => intro m v m' h; exact hE o m v m' h
  | par p => intro m v m' h; simp [evalN] at h; rw [h.2]
  | op1 n f a ih =>
      intro m v m' h
      simp only [evalN, Option.bind_eq_bind, Option.bind_eq_some_iff, Prod.exists,
        Option.some.injEq, Prod.mk.injEq] at h
      obtain ⟨u, m1, h1, rfl, rfl⟩ := h
      exact ih m u m1 h1
  | op2 n f a b iha ihb =>
      intro m v m' h
      simp only [evalN] at h
      split at h <;>
      · simp only [Option.bind_eq_bind, Option.bind_eq_some_iff, Prod.exists,
          Option.some.injEq, Prod.mk.injEq] at h
        obtain ⟨u, m1, h1, w, m2, h2, rfl, rfl⟩ := h
        first
        | exact (iha m1 w m2 h2).trans (ihb m u m1 h1)
        | exact (ihb m1 w m2 h2).trans (iha m u m1 h1)

variable (hV : ∀ m o b, φ (Mem.setVisited m o b) = φ m) (hv : ∀ m o v, φ (Mem.setValue m o v) = φ m)
include hV hv

theorem evalO_keep (fuel : ℕ) : KeepE φ (evalO P D fuel) := by
  induction fuel with
  | zero => intro q m v m' h; simp [evalO] at h
  | succ f ih =>
      intro o m v m' h
      have items : ∀ is m m', evalItems P D (evalO P D f) o is m = some m' → φ m' = φ m := by
        intro is
        induction is with
        | nil => intro m m' h; simp [evalItems] at h; rw [h]
        | cons i is ih2 =>
            intro m m' h
            simp only [evalItems, Option.bind_eq_bind, Option.bind_eq_some_iff, Prod.exists] at h
            obtain ⟨v, m1, h1, h2⟩ := h
            rw [ih2 _ _ h2, hv, evalN_keep P D φ ih i _ _ _ h1]
      simp only [evalO] at h
      split at h
      · simp only [Option.bind_eq_bind, Option.bind_eq_some_iff, Option.some.injEq,
          Prod.mk.injEq] at h
        obtain ⟨m1, h1, rfl, rfl⟩ := h
        rw [items _ _ _ h1, hV, hv]
      · simp only [Option.some.injEq, Prod.mk.injEq] at h
        rw [h.2]

theorem fwdN_keep (hE : KeepE φ recE) (hF : KeepE φ recD) (t : Node K) :
    ∀ m v m', fwdN P D recE recD t m = some (v, m') → φ m' = φ m := by
  induction t with
  | leaf o => intro m v m' h; exact hF o m v m' h
  | par p => intro m v m' h; simp [fwdN] at h; rw [h.2]
  | op1 n f a ih =>
      intro m v m' h
      simp only [fwdN, Option.bind_eq_bind, Option.bind_eq_some_iff, Prod.exists] at h
      obtain ⟨du, m1, h1, h⟩ := h
      split at h
      · simp only [Option.bind_eq_some_iff, Prod.exists, Option.some.injEq, Prod.mk.injEq] at h
        obtain ⟨u, m2, h2, rfl, rfl⟩ := h
        exact (evalN_keep P D φ hE a _ _ _ h2).trans (ih _ _ _ h1)
      · simp only [Option.some.injEq, Prod.mk.injEq] at h
        rw [← h.2]; exact ih _ _ _ h1
  | op2 n f a b iha ihb =>
      intro m v m' h
      simp only [fwdN, Option.bind_eq_bind, Option.bind_eq_some_iff, Prod.exists] at h
      obtain ⟨du, m1, h1, dv, m2, h2, h⟩ := h
      have h12 := (ihb _ _ _ h2).trans (iha _ _ _ h1)
      split at h
      · split at h <;>
        · simp only [Option.bind_eq_some_iff, Prod.exists, Option.some.injEq, Prod.mk.injEq] at h
          obtain ⟨u, m3, h3, w, m4, h4, rfl, rfl⟩ := h
          exact ((evalN_keep P D φ hE _ _ _ _ h4).trans (evalN_keep P D φ hE _ _ _ _ h3)).trans h12
      · simp only [Option.some.injEq, Prod.mk.injEq] at h
        rw [← h.2]; exact h12

theorem fwdO_keep (hd : ∀ m o v, φ (Mem.setDValue m o v) = φ m) (k fuel : ℕ) :
    KeepE φ (fwdO P D k fuel) := by
  induction fuel with
  | zero => intro q m v m' h; simp [fwdO] at h
  | succ f ih =>
      intro o m v m' h
      have hE := evalO_keep P D φ hV hv f
      have items : ∀ is m m', fwdItems P D (evalO P D f) (fwdO P D k f) o is m = some m' →
          φ m' = φ m := by
        intro is
        induction is with
        | nil => intro m m' h; simp [fwdItems] at h; rw [h]
        | cons i is ih2 =>
            intro m m' h
            simp only [fwdItems, Option.bind_eq_bind, Option.bind_eq_some_iff, Prod.exists] at h
            obtain ⟨d, m1, h1, v, m2, h2, h3⟩ := h
            rw [ih2 _ _ h3, hv, evalN_keep P D φ hE i _ _ _ h2, hd,
              fwdN_keep P D φ hV hv hE ih i _ _ _ h1]
      simp only [fwdO] at h
      split at h
      · simp only [Option.bind_eq_bind, Option.bind_eq_some_iff, Option.some.injEq,
          Prod.mk.injEq] at h
        obtain ⟨m1, h1, rfl, rfl⟩ := h
        rw [items _ _ _ h1, hV]
      · simp only [Option.some.injEq, Prod.mk.injEq] at h
        rw [h.2]

omit hV hv in
theorem val1_keep (hE : KeepE φ recE) (f : Op1 K) (a : Node K) (m m' : Mem K) (u : K)
    (h : val1 P D recE f a m = some (u, m')) : φ m' = φ m := by
  unfold val1 at h
  split at h
  · exact evalN_keep P D φ hE _ _ _ _ h
  · simp only [Option.some.injEq, Prod.mk.injEq] at h; rw [h.2]

omit hV hv in
theorem val2_keep (hE : KeepE φ recE) (f : Op2 K) (a b : Node K) (m m' : Mem K) (u v : K)
    (h : val2 P D recE f a b m = some (u, v, m')) : φ m' = φ m := by
  unfold val2 at h
  split at h
  · split at h <;>
    · simp only [Option.bind_eq_bind, Option.bind_eq_some_iff, Prod.exists, Option.some.injEq,
        Prod.mk.injEq] at h
      obtain ⟨_, m1, h1, _, m2, h2, rfl, rfl, rfl⟩ := h
      exact (evalN_keep P D φ hE _ _ _ _ h2).trans (evalN_keep P D φ hE _ _ _ _ h1)
  · simp only [Option.some.injEq, Prod.mk.injEq] at h; rw [h.2.2]

omit hV hv in
theorem unless_keep {a : Node K} {c : Cache K} {m : Mem K} {r : Option (Cache K × Mem K)}
    {c' : Cache K} {m' : Mem K} (h : unlessVisited a c m r = some (c', m'))
    (hr : r = some (c', m') → φ m' = φ m) : φ m' = φ m := by
  unfold unlessVisited at h
  split at h
  · simp only [Option.some.injEq, Prod.mk.injEq] at h; rw [h.2]
  · exact hr h

omit hV hv in
theorem revN_keep (hE : KeepE φ recE) (hT : KeepT φ recT) (t : Node K) :
    ∀ c m c' m', revN P D recE recT t c m = some (c', m') → φ m' = φ m := by
  induction t with
  | leaf o =>
      intro c m c' m' h
      simp only [revN, Option.bind_eq_bind, Option.bind_eq_some_iff, Option.some.injEq,
        Prod.mk.injEq] at h
      obtain ⟨m1, h1, rfl, rfl⟩ := h
      exact hT _ _ _ h1
  | par p => intro c m c' m' h; simp [revN] at h; rw [h.2]
  | op1 n f a ih =>
      intro c m c' m' h
      simp only [revN, Option.bind_eq_bind, Option.bind_eq_some_iff, Prod.exists] at h
      obtain ⟨c1, m1, h1, u, m2, h2, h3⟩ := h
      exact ((unless_keep φ h3 (ih _ _ _ _)).trans (val1_keep P D φ hE f a _ _ _ h2)).trans
        (unless_keep φ h1 (ih _ _ _ _))
  | op2 n f a b iha ihb =>
      intro c m c' m' h
      simp only [revN, Option.bind_eq_bind, Option.bind_eq_some_iff, Prod.exists] at h
      obtain ⟨c1, m1, h1, c2, m2, h2, u, v, m3, h3, c4, m4, h4, h5⟩ := h
      exact ((((unless_keep φ h5 (ihb _ _ _ _)).trans (unless_keep φ h4 (iha _ _ _ _))).trans
        (val2_keep P D φ hE f a b _ _ _ _ h3)).trans (unless_keep φ h2 (ihb _ _ _ _))).trans
        (unless_keep φ h1 (iha _ _ _ _))

omit hV hv in
theorem revRoot_keep (hE : KeepE φ recE) (hT : KeepT φ recT) (t : Node K) (m : Mem K)
    (c' : Cache K) (m' : Mem K) (h : revRoot P D recE recT t m = some (c', m')) : φ m' = φ m := by
  cases t with
  | leaf o =>
      simp only [revRoot, Option.bind_eq_bind, Option.bind_eq_some_iff, Option.some.injEq,
        Prod.mk.injEq] at h
      obtain ⟨m1, h1, rfl, rfl⟩ := h
      exact hT _ _ _ h1
  | par p => simp [revRoot] at h; rw [h.2]
  | op1 n f a =>
      simp only [revRoot, Option.bind_eq_bind, Option.bind_eq_some_iff, Prod.exists] at h
      obtain ⟨c1, m1, h1, u, m2, h2, h3⟩ := h
      exact ((unless_keep φ h3 (revN_keep P D φ hE hT a _ _ _ _)).trans
        (val1_keep P D φ hE f a _ _ _ h2)).trans
        (unless_keep φ h1 (revN_keep P D φ hE hT a _ _ _ _))
  | op2 n f a b =>
      simp only [revRoot, Option.bind_eq_bind, Option.bind_eq_some_iff, Prod.exists] at h
      obtain ⟨c1, m1, h1, c2, m2, h2, u, v, m3, h3, c4, m4, h4, h5⟩ := h
      exact ((((unless_keep φ h5 (revN_keep P D φ hE hT b _ _ _ _)).trans
        (unless_keep φ h4 (revN_keep P D φ hE hT a _ _ _ _))).trans
        (val2_keep P D φ hE f a b _ _ _ _ h3)).trans
        (unless_keep φ h2 (revN_keep P D φ hE hT b _ _ _ _))).trans
        (unless_keep φ h1 (revN_keep P D φ hE hT a _ _ _ _))

theorem revO_keep (hc : ∀ m o c, φ (Mem.setCache m o c) = φ m) (fuel : ℕ) :
    KeepT φ (revO P D fuel) := by
  induction fuel with
  | zero => intro q m m' h; simp [revO] at h
  | succ f ih =>
      intro o m m' h
      have hE := evalO_keep P D φ hV hv f
      have items : ∀ is m m', revItems P D (evalO P D f) (revO P D f) o is m = some m' →
          φ m' = φ m := by
        intro is
        induction is with
        | nil => intro m m' h; simp [revItems] at h; rw [h]
        | cons i is ih2 =>
            intro m m' h
            simp only [revItems, Option.bind_eq_bind, Option.bind_eq_some_iff, Prod.exists] at h
            obtain ⟨c, m1, h1, v, m2, h2, h3⟩ := h
            rw [ih2 _ _ h3, hc, hv, evalN_keep P D φ hE i _ _ _ h2,
              revRoot_keep P D φ hE ih i _ _ _ h1]
      simp only [revO] at h
      split at h
      · rw [items _ _ _ h, hV]
      · simp only [Option.some.injEq] at h
        rw [h]

end

end CoolDiff
