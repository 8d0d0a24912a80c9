import Verif.Scalar.CostProof
import Verif.Scalar.Formula
import Mathlib.Tactic.Linarith
import Mathlib.Algebra.BigOperators.Group.Finset.Basic
import Mathlib.Algebra.Order.BigOperators.Group.Finset
import Mathlib.Algebra.Order.BigOperators.Group.List

/-!
# Bounds on the number of calls
-/

set_option linter.unusedSectionVars false

namespace CoolDiff

variable {K : Type} [Field K] [DecidableEq K] {P : Prim K} {D : Defs K}

/-! ## Weights of formulas -/

/-- The calls of `devalF` on a formula, apart from those made by the objects it mentions. -/
def Node.fwdSize : Node K → ℕ
  | .leaf _ => 1
  | .par _ => 1
  | .op1 _ _ a => a.fwdSize + a.size + 1
  | .op2 _ _ a b => a.fwdSize + b.fwdSize + (a.size + b.size) + 1

/-- The calls of `traverse` on a formula, apart from those made by the objects it mentions. -/
def Node.revSize : Node K → ℕ
  | .leaf _ => 1
  | .par _ => 1
  | .op1 _ _ a => 2 * a.revSize + a.size + 1
  | .op2 _ _ a b => 2 * (a.revSize + b.revSize) + (a.size + b.size) + 1

theorem Node.fwdSize_le (t : Node K) : t.fwdSize ≤ (t.depth + 1) * t.size := by
  induction t with
  | leaf => simp [fwdSize, size]
  | par => simp [fwdSize, size]
  | op1 n f a ih => simp only [fwdSize, size, depth]; nlinarith
  | op2 n f a b iha ihb =>
      simp only [fwdSize, size, depth]
      have h1 := Nat.mul_le_mul_right a.size (Nat.succ_le_succ (le_max_left a.depth b.depth))
      have h2 := Nat.mul_le_mul_right b.size (Nat.succ_le_succ (le_max_right a.depth b.depth))
      simp only [Nat.succ_eq_add_one] at h1 h2
      generalize max a.depth b.depth = d at *
      nlinarith

theorem Node.revSize_le (t : Node K) : t.revSize + t.size ≤ 2 ^ (t.depth + 1) * t.size := by
  induction t with
  | leaf => simp [revSize, size, depth]
  | par => simp [revSize, size, depth]
  | op1 n f a ih =>
      simp only [revSize, size, depth]
      have : 1 ≤ 2 ^ (a.depth + 1) := Nat.one_le_two_pow
      rw [pow_succ 2 (a.depth + 1)]
      nlinarith
  | op2 n f a b iha ihb =>
      simp only [revSize, size, depth]
      have h1 : 2 ^ (a.depth + 1) ≤ 2 ^ (max a.depth b.depth + 1) :=
        Nat.pow_le_pow_right (by omega) (Nat.succ_le_succ (le_max_left _ _))
      have h2 : 2 ^ (b.depth + 1) ≤ 2 ^ (max a.depth b.depth + 1) :=
        Nat.pow_le_pow_right (by omega) (Nat.succ_le_succ (le_max_right _ _))
      have h0 : 1 ≤ 2 ^ (max a.depth b.depth + 1) := Nat.one_le_two_pow
      have h1 := Nat.mul_le_mul_right a.size h1
      have h2 := Nat.mul_le_mul_right b.size h2
      rw [pow_succ 2 (max a.depth b.depth + 1)]
      generalize 2 ^ (max a.depth b.depth + 1) = d at *
      nlinarith

/-! ## Potentials -/

/-- Total weight of the objects whose flag is `b`. -/
def potential (b : Bool) (S : Finset ℕ) (w : ℕ → ℕ) (m : Mem K) : ℕ :=
  ∑ q ∈ S, if m.visited q = b then w q else 0

theorem potential_le (b : Bool) (S : Finset ℕ) (w : ℕ → ℕ) (m : Mem K) : potential b S w m ≤ ∑ q ∈ S, w q :=
  Finset.sum_le_sum fun q _ => by split <;> omega

theorem potential_congr {b : Bool} {S : Finset ℕ} {w : ℕ → ℕ} {m m' : Mem K} (h : m'.visited = m.visited) :
    potential b S w m' = potential b S w m := by
  simp only [potential, h]

theorem potential_set {b : Bool} {S : Finset ℕ} {w : ℕ → ℕ} {m m' : Mem K} {o : ℕ} (ho : o ∈ S)
    (hv : m.visited o = b) (h : m'.visited = Function.update m.visited o (!b)) :
    potential b S w m' + w o = potential b S w m := by
  rw [potential, potential, ← Finset.add_sum_erase S _ ho, ← Finset.add_sum_erase S (fun q => if m.visited q = b then w q else 0) ho]
  have : ∑ q ∈ S.erase o, (if m'.visited q = b then w q else 0) = ∑ q ∈ S.erase o, if m.visited q = b then w q else 0 :=
    Finset.sum_congr rfl fun q hq => by
      rw [h, Function.update_of_ne (Finset.ne_of_mem_erase hq)]
  rw [this, h, hv]
  simp [add_comm]

/-- `S` contains the objects mentioned in the formulas of its objects. -/
def ClosedIn (D : Defs K) (S : Finset ℕ) : Prop := ∀ q ∈ S, ∀ i ∈ D.items q, ∀ p ∈ i.leaves, p ∈ S

/-- A call of `eval`, `devalF` on an object costs 1, apart from the weight of the objects it marks. -/
def CostE (S : Finset ℕ) (w : ℕ → ℕ) (rec : ℕ → Mem K → Option (ℕ × K × Mem K)) : Prop :=
  ∀ o ∈ S, ∀ m r, rec o m = some r → r.1 + potential false S w r.2.2 ≤ 1 + potential false S w m

/-- The same for `traverse` and `reset`. -/
def CostT (b : Bool) (S : Finset ℕ) (w : ℕ → ℕ) (rec : ℕ → Mem K → Option (ℕ × Mem K)) : Prop :=
  ∀ o ∈ S, ∀ m r, rec o m = some r → r.1 + potential b S w r.2 ≤ 1 + potential b S w m

variable {S : Finset ℕ} {w : ℕ → ℕ}

/-! ## `eval` -/

theorem evalNC_le {rec : ℕ → Mem K → Option (ℕ × K × Mem K)} (hr : CostE S w rec) (t : Node K) :
    (∀ p ∈ t.leaves, p ∈ S) → ∀ m r, evalNC P D rec t m = some r →
      r.1 + potential false S w r.2.2 ≤ t.size + potential false S w m := by
  induction t with
  | leaf o => intro hl m r h; exact hr o (hl o (by simp [Node.leaves])) m r h
  | par p => intro hl m r h; simp only [evalNC, Option.some.injEq] at h; subst h; simp [Node.size]
  | op1 n f a ih =>
      intro hl m r h
      simp only [evalNC, Option.bind_eq_some_iff, Option.some.injEq] at h
      obtain ⟨x, hx, rfl⟩ := h
      have := ih hl m x hx
      simp only [Node.size]; omega
  | op2 n f a b iha ihb =>
      intro hl m r h
      have hla : ∀ p ∈ a.leaves, p ∈ S := fun p hp => hl p (by simp [Node.leaves, hp])
      have hlb : ∀ p ∈ b.leaves, p ∈ S := fun p hp => hl p (by simp [Node.leaves, hp])
      simp only [evalNC] at h
      split at h
      all_goals
        simp only [Option.bind_eq_some_iff, Option.some.injEq] at h
        obtain ⟨x, hx, y, hy, rfl⟩ := h
        simp only [Node.size]
      · have := ihb hlb m x hx
        have := iha hla _ y hy
        omega
      · have := iha hla m x hx
        have := ihb hlb _ y hy
        omega

theorem evalItemsC_le {rec : ℕ → Mem K → Option (ℕ × K × Mem K)} (hr : CostE S w rec) (o : ℕ) (is : List (Node K)) :
    (∀ i ∈ is, ∀ p ∈ i.leaves, p ∈ S) → ∀ m r, evalItemsC P D rec o is m = some r →
      r.1 + potential false S w r.2 ≤ (is.map Node.size).sum + potential false S w m := by
  induction is with
  | nil => intro hl m r h; simp only [evalItemsC, Option.some.injEq] at h; subst h; simp
  | cons i is ih =>
      intro hl m r h
      simp only [evalItemsC, Option.bind_eq_some_iff, Option.some.injEq] at h
      obtain ⟨x, hx, y, hy, rfl⟩ := h
      have h1 := evalNC_le hr i (hl i (by simp)) m x hx
      have h2 := ih (fun i hi => hl i (by simp [hi])) _ y hy
      rw [potential_congr (m := x.2.2) (m' := x.2.2.setValue o x.2.1) rfl] at h2
      simp only [List.map_cons, List.sum_cons]
      omega

theorem evalOC_le (hS : ClosedIn D S) (hw : ∀ q ∈ S, ((D.items q).map Node.size).sum ≤ w q) (fuel : ℕ) :
    CostE S w (evalOC P D fuel) := by
  induction fuel with
  | zero => intro o _ m r h; simp [evalOC] at h
  | succ fuel ih =>
      intro o ho m r h
      rw [evalOC] at h
      split at h
      · rename_i hv
        simp only [Option.bind_eq_some_iff, Option.some.injEq] at h
        obtain ⟨x, hx, rfl⟩ := h
        have h1 := evalItemsC_le ih o (D.items o) (hS o ho) _ x hx
        have h2 := potential_set (S := S) (w := w) (m := m) (m' := (m.setValue o (D.base o)).setVisited o true) ho hv rfl
        have := hw o ho
        simp only
        omega
      · simp only [Option.some.injEq] at h; subst h; exact le_refl _

/-! ## `devalF` -/

theorem fwdNC_le {recE recD : ℕ → Mem K → Option (ℕ × K × Mem K)} (hE : CostE S w recE) (hD : CostE S w recD)
    (t : Node K) : (∀ p ∈ t.leaves, p ∈ S) → ∀ m r, fwdNC P D recE recD t m = some r →
      r.1 + potential false S w r.2.2 ≤ t.fwdSize + potential false S w m := by
  induction t with
  | leaf o => intro hl m r h; exact hD o (hl o (by simp [Node.leaves])) m r h
  | par p => intro hl m r h; simp only [fwdNC, Option.some.injEq] at h; subst h; simp [Node.fwdSize]
  | op1 n f a ih =>
      intro hl m r h
      simp only [fwdNC, Option.bind_eq_some_iff] at h
      obtain ⟨x, hx, h⟩ := h
      have h1 := ih hl m x hx
      simp only [Node.fwdSize]
      split at h
      · simp only [Option.bind_eq_some_iff, Option.some.injEq] at h
        obtain ⟨y, hy, rfl⟩ := h
        have h2 := evalNC_le hE a hl _ y hy
        simp only; omega
      · simp only [Option.some.injEq] at h
        subst h
        simp only; omega
  | op2 n f a b iha ihb =>
      intro hl m r h
      have hla : ∀ p ∈ a.leaves, p ∈ S := fun p hp => hl p (by simp [Node.leaves, hp])
      have hlb : ∀ p ∈ b.leaves, p ∈ S := fun p hp => hl p (by simp [Node.leaves, hp])
      simp only [fwdNC, Option.bind_eq_some_iff] at h
      obtain ⟨x, hx, y, hy, h⟩ := h
      have h1 := iha hla m x hx
      have h2 := ihb hlb _ y hy
      simp only [Node.fwdSize]
      split at h
      · split at h
        all_goals
          simp only [Option.bind_eq_some_iff, Option.some.injEq] at h
          obtain ⟨u, hu, v, hv, rfl⟩ := h
          simp only
        · have := evalNC_le hE b hlb _ u hu
          have := evalNC_le hE a hla _ v hv
          omega
        · have := evalNC_le hE a hla _ u hu
          have := evalNC_le hE b hlb _ v hv
          omega
      · simp only [Option.some.injEq] at h
        subst h
        simp only; omega

theorem fwdItemsC_le {recE recD : ℕ → Mem K → Option (ℕ × K × Mem K)} (hE : CostE S w recE) (hD : CostE S w recD)
    (o : ℕ) (is : List (Node K)) : (∀ i ∈ is, ∀ p ∈ i.leaves, p ∈ S) → ∀ m r, fwdItemsC P D recE recD o is m = some r →
      r.1 + potential false S w r.2 ≤ (is.map fun i => i.fwdSize + i.size).sum + potential false S w m := by
  induction is with
  | nil => intro hl m r h; simp only [fwdItemsC, Option.some.injEq] at h; subst h; simp
  | cons i is ih =>
      intro hl m r h
      simp only [fwdItemsC, Option.bind_eq_some_iff, Option.some.injEq] at h
      obtain ⟨x, hx, y, hy, z, hz, rfl⟩ := h
      have h1 := fwdNC_le hE hD i (hl i (by simp)) m x hx
      have h2 := evalNC_le hE i (hl i (by simp)) _ y hy
      rw [potential_congr (m := x.2.2) (m' := x.2.2.setDValue o x.2.1) rfl] at h2
      have h3 := ih (fun i hi => hl i (by simp [hi])) _ z hz
      rw [potential_congr (m := y.2.2) (m' := y.2.2.setValue o y.2.1) rfl] at h3
      simp only [List.map_cons, List.sum_cons]
      omega

theorem fwdOC_le (hS : ClosedIn D S) (hw : ∀ q ∈ S, ((D.items q).map fun i => i.fwdSize + i.size).sum ≤ w q) (k fuel : ℕ) :
    CostE S w (fwdOC P D k fuel) := by
  have hw' : ∀ q ∈ S, ((D.items q).map Node.size).sum ≤ w q := fun q hq =>
    (List.sum_le_sum fun i _ => by omega).trans (hw q hq)
  induction fuel with
  | zero => intro o _ m r h; simp [fwdOC] at h
  | succ fuel ih =>
      intro o ho m r h
      rw [fwdOC] at h
      split at h
      · rename_i hv
        simp only [Option.bind_eq_some_iff, Option.some.injEq] at h
        obtain ⟨x, hx, rfl⟩ := h
        have h1 := fwdItemsC_le (evalOC_le hS hw' fuel) ih o (D.items o) (hS o ho) _ x hx
        have h2 := potential_set (S := S) (w := w) (m := m) (m' := m.setVisited o true) ho hv rfl
        have := hw o ho
        simp only
        omega
      · simp only [Option.some.injEq] at h; subst h; exact le_refl _

/-! ## `traverse` -/

theorem val1C_le {recE : ℕ → Mem K → Option (ℕ × K × Mem K)} (hE : CostE S w recE) (f : Op1 K) (a : Node K)
    (hl : ∀ p ∈ a.leaves, p ∈ S) {m : Mem K} {r : ℕ × K × Mem K} (h : val1C P D recE f a m = some r) :
    r.1 + potential false S w r.2.2 ≤ a.size + potential false S w m := by
  rw [val1C] at h
  split at h
  · exact evalNC_le hE a hl m r h
  · simp only [Option.some.injEq] at h; subst h; simp only; omega

theorem val2C_le {recE : ℕ → Mem K → Option (ℕ × K × Mem K)} (hE : CostE S w recE) (f : Op2 K) (a b : Node K)
    (hla : ∀ p ∈ a.leaves, p ∈ S) (hlb : ∀ p ∈ b.leaves, p ∈ S) {m : Mem K} {r : ℕ × K × K × Mem K}
    (h : val2C P D recE f a b m = some r) :
    r.1 + potential false S w r.2.2.2 ≤ a.size + b.size + potential false S w m := by
  rw [val2C] at h
  split at h
  · split at h
    all_goals
      simp only [Option.bind_eq_some_iff, Option.some.injEq] at h
      obtain ⟨u, hu, v, hv, rfl⟩ := h
      simp only
    · have := evalNC_le hE b hlb _ u hu
      have := evalNC_le hE a hla _ v hv
      omega
    · have := evalNC_le hE a hla _ u hu
      have := evalNC_le hE b hlb _ v hv
      omega
  · simp only [Option.some.injEq] at h; subst h; simp only; omega

theorem unlessVisitedC_le {N : ℕ} {a : Node K} {c : Cache K} {m : Mem K} {x : Option (ℕ × Cache K × Mem K)}
    (hx : ∀ r, x = some r → r.1 + potential false S w r.2.2 ≤ N + potential false S w m)
    {r : ℕ × Cache K × Mem K} (h : unlessVisitedC a c m x = some r) :
    r.1 + potential false S w r.2.2 ≤ N + potential false S w m := by
  rw [unlessVisitedC] at h
  split at h
  · simp only [Option.some.injEq] at h; subst h; simp only; omega
  · exact hx r h

theorem revNC_le {recE : ℕ → Mem K → Option (ℕ × K × Mem K)} {recT : ℕ → Mem K → Option (ℕ × Mem K)}
    (hE : CostE S w recE) (hT : CostT false S w recT) (t : Node K) : (∀ p ∈ t.leaves, p ∈ S) →
      ∀ c m r, revNC P D recE recT t c m = some r →
      r.1 + potential false S w r.2.2 ≤ t.revSize + potential false S w m := by
  induction t with
  | leaf o =>
      intro hl c m r h
      simp only [revNC, Option.bind_eq_some_iff, Option.some.injEq] at h
      obtain ⟨x, hx, rfl⟩ := h
      exact hT o (hl o (by simp [Node.leaves])) m x hx
  | par p => intro hl c m r h; simp only [revNC, Option.some.injEq] at h; subst h; simp [Node.revSize]
  | op1 n f a ih =>
      intro hl c m r h
      simp only [revNC, Option.bind_eq_some_iff, Option.some.injEq] at h
      obtain ⟨x, hx, y, hy, z, hz, rfl⟩ := h
      have h1 := unlessVisitedC_le (ih hl _ _) hx
      have h2 := val1C_le hE f a hl hy
      have h3 := unlessVisitedC_le (ih hl _ _) hz
      simp only [Node.revSize]
      omega
  | op2 n f a b iha ihb =>
      intro hl c m r h
      have hla : ∀ p ∈ a.leaves, p ∈ S := fun p hp => hl p (by simp [Node.leaves, hp])
      have hlb : ∀ p ∈ b.leaves, p ∈ S := fun p hp => hl p (by simp [Node.leaves, hp])
      simp only [revNC, Option.bind_eq_some_iff, Option.some.injEq] at h
      obtain ⟨x, hx, y, hy, v, hv, z, hz, u, hu, rfl⟩ := h
      have h1 := unlessVisitedC_le (iha hla _ _) hx
      have h2 := unlessVisitedC_le (ihb hlb _ _) hy
      have h3 := val2C_le hE f a b hla hlb hv
      have h4 := unlessVisitedC_le (iha hla _ _) hz
      have h5 := unlessVisitedC_le (ihb hlb _ _) hu
      simp only [Node.revSize]
      omega

theorem revRootC_le {recE : ℕ → Mem K → Option (ℕ × K × Mem K)} {recT : ℕ → Mem K → Option (ℕ × Mem K)}
    (hE : CostE S w recE) (hT : CostT false S w recT) (t : Node K) (hl : ∀ p ∈ t.leaves, p ∈ S)
    {m : Mem K} {r : ℕ × Cache K × Mem K} (h : revRootC P D recE recT t m = some r) :
    r.1 + potential false S w r.2.2 ≤ t.revSize + potential false S w m := by
  cases t with
  | leaf o =>
      simp only [revRootC, Option.bind_eq_some_iff, Option.some.injEq] at h
      obtain ⟨x, hx, rfl⟩ := h
      exact hT o (hl o (by simp [Node.leaves])) m x hx
  | par p => simp only [revRootC, Option.some.injEq] at h; subst h; simp [Node.revSize]
  | op1 n f a =>
      simp only [revRootC, Option.bind_eq_some_iff, Option.some.injEq] at h
      obtain ⟨x, hx, y, hy, z, hz, rfl⟩ := h
      have h1 := unlessVisitedC_le (revNC_le hE hT a hl _ _) hx
      have h2 := val1C_le hE f a hl hy
      have h3 := unlessVisitedC_le (revNC_le hE hT a hl _ _) hz
      simp only [Node.revSize]
      omega
  | op2 n f a b =>
      have hla : ∀ p ∈ a.leaves, p ∈ S := fun p hp => hl p (by simp [Node.leaves, hp])
      have hlb : ∀ p ∈ b.leaves, p ∈ S := fun p hp => hl p (by simp [Node.leaves, hp])
      simp only [revRootC, Option.bind_eq_some_iff, Option.some.injEq] at h
      obtain ⟨x, hx, y, hy, v, hv, z, hz, u, hu, rfl⟩ := h
      have h1 := unlessVisitedC_le (revNC_le hE hT a hla _ _) hx
      have h2 := unlessVisitedC_le (revNC_le hE hT b hlb _ _) hy
      have h3 := val2C_le hE f a b hla hlb hv
      have h4 := unlessVisitedC_le (revNC_le hE hT a hla _ _) hz
      have h5 := unlessVisitedC_le (revNC_le hE hT b hlb _ _) hu
      simp only [Node.revSize]
      omega

theorem revItemsC_le {recE : ℕ → Mem K → Option (ℕ × K × Mem K)} {recT : ℕ → Mem K → Option (ℕ × Mem K)}
    (hE : CostE S w recE) (hT : CostT false S w recT) (o : ℕ) (is : List (Node K)) :
    (∀ i ∈ is, ∀ p ∈ i.leaves, p ∈ S) → ∀ m r, revItemsC P D recE recT o is m = some r →
      r.1 + potential false S w r.2 ≤ (is.map fun i => i.revSize + i.size).sum + potential false S w m := by
  induction is with
  | nil => intro hl m r h; simp only [revItemsC, Option.some.injEq] at h; subst h; simp
  | cons i is ih =>
      intro hl m r h
      simp only [revItemsC, Option.bind_eq_some_iff, Option.some.injEq] at h
      obtain ⟨x, hx, y, hy, z, hz, rfl⟩ := h
      have h1 := revRootC_le hE hT i (hl i (by simp)) hx
      have h2 := evalNC_le hE i (hl i (by simp)) _ y hy
      have h3 := ih (fun i hi => hl i (by simp [hi])) _ z hz
      rw [potential_congr (m := y.2.2) (m' := (y.2.2.setValue o y.2.1).setCache o x.2.1) rfl] at h3
      simp only [List.map_cons, List.sum_cons]
      omega

theorem revOC_le (hS : ClosedIn D S) (hw : ∀ q ∈ S, ((D.items q).map fun i => i.revSize + i.size).sum ≤ w q) (fuel : ℕ) :
    CostT false S w (revOC P D fuel) := by
  have hw' : ∀ q ∈ S, ((D.items q).map Node.size).sum ≤ w q := fun q hq =>
    (List.sum_le_sum fun i _ => by omega).trans (hw q hq)
  induction fuel with
  | zero => intro o _ m r h; simp [revOC] at h
  | succ fuel ih =>
      intro o ho m r h
      rw [revOC] at h
      split at h
      · rename_i hv
        simp only [Option.bind_eq_some_iff, Option.some.injEq] at h
        obtain ⟨x, hx, rfl⟩ := h
        have h1 := revItemsC_le (evalOC_le hS hw' fuel) ih o (D.items o) (hS o ho) _ x hx
        have h2 := potential_set (S := S) (w := w) (m := m) (m' := m.setVisited o true) ho hv rfl
        have := hw o ho
        simp only
        omega
      · simp only [Option.some.injEq] at h; subst h; exact le_refl _

/-! ## `reset` -/

theorem potential_clear (D : Defs K) (m : Mem K) (o : ℕ) :
    potential true S w (m.clearObj D o) ≤ potential true S w m :=
  Finset.sum_le_sum fun q _ => by
    simp only [Mem.clearObj, Mem.setVisited, Mem.setValue, Mem.setDValue, Mem.setCache, Function.update_apply]
    by_cases h : q = o
    · simp [h]
    · simp [h]

theorem resetNC_le {rec : ℕ → Mem K → Option (ℕ × Mem K)} (hr : CostT true S w rec) (t : Node K) :
    (∀ p ∈ t.leaves, p ∈ S) → ∀ m r, resetNC rec t m = some r →
      r.1 + potential true S w r.2 ≤ t.size + potential true S w m := by
  induction t with
  | leaf o => intro hl m r h; exact hr o (hl o (by simp [Node.leaves])) m r h
  | par p => intro hl m r h; simp only [resetNC, Option.some.injEq] at h; subst h; simp [Node.size]
  | op1 n f a ih =>
      intro hl m r h
      simp only [resetNC, Option.bind_eq_some_iff, Option.some.injEq] at h
      obtain ⟨x, hx, rfl⟩ := h
      have := ih hl m x hx
      simp only [Node.size]; omega
  | op2 n f a b iha ihb =>
      intro hl m r h
      have hla : ∀ p ∈ a.leaves, p ∈ S := fun p hp => hl p (by simp [Node.leaves, hp])
      have hlb : ∀ p ∈ b.leaves, p ∈ S := fun p hp => hl p (by simp [Node.leaves, hp])
      simp only [resetNC, Option.bind_eq_some_iff, Option.some.injEq] at h
      obtain ⟨x, hx, y, hy, rfl⟩ := h
      have := iha hla m x hx
      have := ihb hlb _ y hy
      simp only [Node.size]
      omega

theorem resetItemsC_le {rec : ℕ → Mem K → Option (ℕ × Mem K)} (hr : CostT true S w rec) (is : List (Node K)) :
    (∀ i ∈ is, ∀ p ∈ i.leaves, p ∈ S) → ∀ m r, resetItemsC rec is m = some r →
      r.1 + potential true S w r.2 ≤ (is.map Node.size).sum + potential true S w m := by
  induction is with
  | nil => intro hl m r h; simp only [resetItemsC, Option.some.injEq] at h; subst h; simp
  | cons i is ih =>
      intro hl m r h
      simp only [resetItemsC, Option.bind_eq_some_iff, Option.some.injEq] at h
      obtain ⟨x, hx, y, hy, rfl⟩ := h
      have h1 := resetNC_le hr i (hl i (by simp)) m x hx
      have h2 := ih (fun i hi => hl i (by simp [hi])) _ y hy
      simp only [List.map_cons, List.sum_cons]
      omega

theorem resetOC_le (hS : ClosedIn D S) (hw : ∀ q ∈ S, ((D.items q).map Node.size).sum ≤ w q) (fuel : ℕ) :
    CostT true S w (resetOC D fuel) := by
  induction fuel with
  | zero => intro o _ m r h; simp [resetOC] at h
  | succ fuel ih =>
      intro o ho m r h
      rw [resetOC] at h
      split at h
      · rename_i hv
        simp only [Option.bind_eq_some_iff, Option.some.injEq] at h
        obtain ⟨x, hx, rfl⟩ := h
        have h1 := resetItemsC_le ih (D.items o) (hS o ho) _ x hx
        have h2 := potential_set (S := S) (w := w) (m := m) (m' := m.setVisited o false) ho hv rfl
        have := hw o ho
        have h4 := potential_clear (S := S) (w := w) D x.2 o
        simp only
        omega
      · simp only [Option.some.injEq] at h; subst h
        have h4 := potential_clear (S := S) (w := w) D m o
        simp only
        omega

/-- `resetImpl` makes at most twice as many calls as the formulas reachable have nodes. -/
theorem resetImplC_le (hS : ClosedIn D S) {y : ℕ} (hy : y ∈ S) {fuel : ℕ} {m : Mem K} {r : ℕ × Mem K}
    (h : resetImplC D fuel y m = some r) :
    r.1 ≤ 2 * ∑ q ∈ S, ((D.items q).map Node.size).sum := by
  simp only [resetImplC, Option.bind_eq_some_iff, Option.some.injEq] at h
  obtain ⟨x, hx, rfl⟩ := h
  have h1 := resetItemsC_le (w := fun q => ((D.items q).map Node.size).sum) (resetOC_le hS (fun _ _ => le_refl _) fuel)
    (D.items y) (hS y hy) _ x hx
  have h2 := potential_le true S (fun q => ((D.items q).map Node.size).sum) (m.setVisited y true)
  have h3 : ((D.items y).map Node.size).sum ≤ ∑ q ∈ S, ((D.items q).map Node.size).sum :=
    Finset.single_le_sum (f := fun q => ((D.items q).map Node.size).sum) (fun _ _ => Nat.zero_le _) hy
  simp only
  omega

/-! ## Exponentially many calls of `traverse` -/

theorem revNC_ge {recE : ℕ → Mem K → Option (ℕ × K × Mem K)} {recT : ℕ → Mem K → Option (ℕ × Mem K)} (t : Node K) :
    ∀ c m r, revNC P D recE recT t c m = some r → 2 ^ t.depth ≤ r.1 + 1 := by
  have key : ∀ (a : Node K) (c : Cache K) (m : Mem K) (r : ℕ × Cache K × Mem K),
      (∀ c m r, revNC P D recE recT a c m = some r → 2 ^ a.depth ≤ r.1 + 1) →
      unlessVisitedC a c m (revNC P D recE recT a c m) = some r → 2 ^ a.depth ≤ r.1 + 1 := by
    intro a c m r ih h
    rw [unlessVisitedC] at h
    split at h
    · rename_i hv
      cases a with
      | leaf o => simp [Node.depth]
      | par p => simp [Node.depth]
      | op1 n f a => simp [nodeVisited] at hv
      | op2 n f a b => simp [nodeVisited] at hv
    · exact ih _ _ _ h
  induction t with
  | leaf o => intro c m r h; simp [Node.depth]
  | par p => intro c m r h; simp [Node.depth]
  | op1 n f a ih =>
      intro c m r h
      simp only [revNC, Option.bind_eq_some_iff, Option.some.injEq] at h
      obtain ⟨x, hx, y, hy, z, hz, rfl⟩ := h
      have h1 := key _ _ _ _ ih hx
      have h3 := key _ _ _ _ ih hz
      simp only [Node.depth, pow_succ]
      omega
  | op2 n f a b iha ihb =>
      intro c m r h
      simp only [revNC, Option.bind_eq_some_iff, Option.some.injEq] at h
      obtain ⟨x, hx, y, hy, v, hv, z, hz, u, hu, rfl⟩ := h
      have h1 := key _ _ _ _ iha hx
      have h2 := key _ _ _ _ ihb hy
      have h4 := key _ _ _ _ iha hz
      have h5 := key _ _ _ _ ihb hu
      simp only [Node.depth, pow_succ]
      rcases max_choice a.depth b.depth with e | e <;> rw [e] <;> omega

theorem revRootC_ge {recE : ℕ → Mem K → Option (ℕ × K × Mem K)} {recT : ℕ → Mem K → Option (ℕ × Mem K)} (t : Node K)
    {m : Mem K} {r : ℕ × Cache K × Mem K} (h : revRootC P D recE recT t m = some r) : 2 ^ t.depth ≤ r.1 + 1 := by
  have key : ∀ (a : Node K) (c : Cache K) (m : Mem K) (r : ℕ × Cache K × Mem K),
      unlessVisitedC a c m (revNC P D recE recT a c m) = some r → 2 ^ a.depth ≤ r.1 + 1 := by
    intro a c m r h
    rw [unlessVisitedC] at h
    split at h
    · rename_i hv
      cases a with
      | leaf o => simp [Node.depth]
      | par p => simp [Node.depth]
      | op1 n f a => simp [nodeVisited] at hv
      | op2 n f a b => simp [nodeVisited] at hv
    · exact revNC_ge a _ _ _ h
  cases t with
  | leaf o => simp [Node.depth]
  | par p => simp [Node.depth]
  | op1 n f a =>
      simp only [revRootC, Option.bind_eq_some_iff, Option.some.injEq] at h
      obtain ⟨x, hx, y, hy, z, hz, rfl⟩ := h
      have h1 := key _ _ _ _ hx
      have h3 := key _ _ _ _ hz
      simp only [Node.depth, pow_succ]
      omega
  | op2 n f a b =>
      simp only [revRootC, Option.bind_eq_some_iff, Option.some.injEq] at h
      obtain ⟨x, hx, y, hy, v, hv, z, hz, u, hu, rfl⟩ := h
      have h1 := key _ _ _ _ hx
      have h2 := key _ _ _ _ hy
      have h4 := key _ _ _ _ hz
      have h5 := key _ _ _ _ hu
      simp only [Node.depth, pow_succ]
      rcases max_choice a.depth b.depth with e | e <;> rw [e] <;> omega

theorem revItemsC_ge {recE : ℕ → Mem K → Option (ℕ × K × Mem K)} {recT : ℕ → Mem K → Option (ℕ × Mem K)} (o : ℕ)
    (is : List (Node K)) : ∀ m r, revItemsC P D recE recT o is m = some r → ∀ i ∈ is, 2 ^ i.depth ≤ r.1 + 1 := by
  induction is with
  | nil => intro m r h i hi; simp at hi
  | cons j is ih =>
      intro m r h i hi
      simp only [revItemsC, Option.bind_eq_some_iff, Option.some.injEq] at h
      obtain ⟨x, hx, y, hy, z, hz, rfl⟩ := h
      rcases List.mem_cons.1 hi with rfl | hi
      · have := revRootC_ge i hx; simp only; omega
      · have := ih _ z hz i hi; simp only; omega

/-! ## Every node is visited at least once -/

theorem evalNC_ge {rec : ℕ → Mem K → Option (ℕ × K × Mem K)} (hr : ∀ o m r, rec o m = some r → 1 ≤ r.1) (t : Node K) :
    ∀ m r, evalNC P D rec t m = some r → t.size ≤ r.1 := by
  induction t with
  | leaf o => intro m r h; exact hr o m r h
  | par p => intro m r h; simp only [evalNC, Option.some.injEq] at h; subst h; simp [Node.size]
  | op1 n f a ih =>
      intro m r h
      simp only [evalNC, Option.bind_eq_some_iff, Option.some.injEq] at h
      obtain ⟨x, hx, rfl⟩ := h
      have := ih m x hx
      simp only [Node.size]; omega
  | op2 n f a b iha ihb =>
      intro m r h
      simp only [evalNC] at h
      split at h
      all_goals
        simp only [Option.bind_eq_some_iff, Option.some.injEq] at h
        obtain ⟨x, hx, y, hy, rfl⟩ := h
        simp only [Node.size]
      · have := ihb m x hx
        have := iha _ y hy
        omega
      · have := iha m x hx
        have := ihb _ y hy
        omega

theorem evalOC_pos (fuel : ℕ) : ∀ o (m : Mem K) r, evalOC P D fuel o m = some r → 1 ≤ r.1 := by
  cases fuel with
  | zero => intro o m r h; simp [evalOC] at h
  | succ fuel =>
      intro o m r h
      rw [evalOC] at h
      split at h
      · simp only [Option.bind_eq_some_iff, Option.some.injEq] at h
        obtain ⟨x, -, rfl⟩ := h
        simp only; omega
      · simp only [Option.some.injEq] at h; subst h; exact le_refl _

theorem evalItemsC_ge {rec : ℕ → Mem K → Option (ℕ × K × Mem K)} (hr : ∀ o m r, rec o m = some r → 1 ≤ r.1) (o : ℕ)
    (is : List (Node K)) : ∀ m r, evalItemsC P D rec o is m = some r → (is.map Node.size).sum ≤ r.1 := by
  induction is with
  | nil => intro m r h; simp
  | cons i is ih =>
      intro m r h
      simp only [evalItemsC, Option.bind_eq_some_iff, Option.some.injEq] at h
      obtain ⟨x, hx, y, hy, rfl⟩ := h
      have h1 := evalNC_ge hr i m x hx
      have h2 := ih _ y hy
      simp only [List.map_cons, List.sum_cons]
      omega

theorem fwdNC_ge {recE recD : ℕ → Mem K → Option (ℕ × K × Mem K)} (hD : ∀ o m r, recD o m = some r → 1 ≤ r.1)
    (t : Node K) : ∀ m r, fwdNC P D recE recD t m = some r → t.size ≤ r.1 := by
  induction t with
  | leaf o => intro m r h; exact hD o m r h
  | par p => intro m r h; simp only [fwdNC, Option.some.injEq] at h; subst h; simp [Node.size]
  | op1 n f a ih =>
      intro m r h
      simp only [fwdNC, Option.bind_eq_some_iff] at h
      obtain ⟨x, hx, h⟩ := h
      have h1 := ih m x hx
      simp only [Node.size]
      split at h
      · simp only [Option.bind_eq_some_iff, Option.some.injEq] at h
        obtain ⟨y, hy, rfl⟩ := h
        simp only; omega
      · simp only [Option.some.injEq] at h
        subst h
        simp only; omega
  | op2 n f a b iha ihb =>
      intro m r h
      simp only [fwdNC, Option.bind_eq_some_iff] at h
      obtain ⟨x, hx, y, hy, h⟩ := h
      have h1 := iha m x hx
      have h2 := ihb _ y hy
      simp only [Node.size]
      split at h
      · split at h
        all_goals
          simp only [Option.bind_eq_some_iff, Option.some.injEq] at h
          obtain ⟨u, hu, v, hv, rfl⟩ := h
          simp only
          omega
      · simp only [Option.some.injEq] at h
        subst h
        simp only; omega

theorem fwdOC_pos (k fuel : ℕ) : ∀ o (m : Mem K) r, fwdOC P D k fuel o m = some r → 1 ≤ r.1 := by
  cases fuel with
  | zero => intro o m r h; simp [fwdOC] at h
  | succ fuel =>
      intro o m r h
      rw [fwdOC] at h
      split at h
      · simp only [Option.bind_eq_some_iff, Option.some.injEq] at h
        obtain ⟨x, -, rfl⟩ := h
        simp only; omega
      · simp only [Option.some.injEq] at h; subst h; exact le_refl _

theorem fwdItemsC_ge {recE recD : ℕ → Mem K → Option (ℕ × K × Mem K)} (hE : ∀ o m r, recE o m = some r → 1 ≤ r.1)
    (hD : ∀ o m r, recD o m = some r → 1 ≤ r.1) (o : ℕ)
    (is : List (Node K)) : ∀ m r, fwdItemsC P D recE recD o is m = some r → 2 * (is.map Node.size).sum ≤ r.1 := by
  induction is with
  | nil => intro m r h; simp
  | cons i is ih =>
      intro m r h
      simp only [fwdItemsC, Option.bind_eq_some_iff, Option.some.injEq] at h
      obtain ⟨x, hx, y, hy, z, hz, rfl⟩ := h
      have h1 := fwdNC_ge hD i m x hx
      have h2 := evalNC_ge hE i _ y hy
      have h3 := ih _ z hz
      simp only [List.map_cons, List.sum_cons]
      omega

theorem revItemsC_ge_eval {recE : ℕ → Mem K → Option (ℕ × K × Mem K)} {recT : ℕ → Mem K → Option (ℕ × Mem K)}
    (hE : ∀ o m r, recE o m = some r → 1 ≤ r.1) (o : ℕ)
    (is : List (Node K)) : ∀ m r, revItemsC P D recE recT o is m = some r →
      ∀ i ∈ is, 2 ^ i.depth + (is.map Node.size).sum ≤ r.1 + 1 := by
  have all : ∀ is : List (Node K), ∀ m r, revItemsC P D recE recT o is m = some r → (is.map Node.size).sum ≤ r.1 := by
    intro is
    induction is with
    | nil => intro m r h; simp
    | cons i is ih =>
        intro m r h
        simp only [revItemsC, Option.bind_eq_some_iff, Option.some.injEq] at h
        obtain ⟨x, hx, y, hy, z, hz, rfl⟩ := h
        have h2 := evalNC_ge hE i _ y hy
        have h3 := ih _ z hz
        simp only [List.map_cons, List.sum_cons]
        omega
  induction is with
  | nil => intro m r h i hi; simp at hi
  | cons j is ih =>
      intro m r h i hi
      simp only [revItemsC, Option.bind_eq_some_iff, Option.some.injEq] at h
      obtain ⟨x, hx, y, hy, z, hz, rfl⟩ := h
      have h2 := evalNC_ge hE j _ y hy
      simp only [List.map_cons, List.sum_cons]
      rcases List.mem_cons.1 hi with rfl | hi
      · have := revRootC_ge i hx
        have := all _ _ _ hz
        omega
      · have := ih _ z hz i hi
        omega

theorem resetNC_ge {rec : ℕ → Mem K → Option (ℕ × Mem K)} (hr : ∀ o m r, rec o m = some r → 1 ≤ r.1) (t : Node K) :
    ∀ m r, resetNC rec t m = some r → t.size ≤ r.1 := by
  induction t with
  | leaf o => intro m r h; exact hr o m r h
  | par p => intro m r h; simp only [resetNC, Option.some.injEq] at h; subst h; simp [Node.size]
  | op1 n f a ih =>
      intro m r h
      simp only [resetNC, Option.bind_eq_some_iff, Option.some.injEq] at h
      obtain ⟨x, hx, rfl⟩ := h
      have := ih m x hx
      simp only [Node.size]; omega
  | op2 n f a b iha ihb =>
      intro m r h
      simp only [resetNC, Option.bind_eq_some_iff, Option.some.injEq] at h
      obtain ⟨x, hx, y, hy, rfl⟩ := h
      have := iha m x hx
      have := ihb _ y hy
      simp only [Node.size]
      omega

theorem resetOC_pos (fuel : ℕ) : ∀ o (m : Mem K) r, resetOC D fuel o m = some r → 1 ≤ r.1 := by
  cases fuel with
  | zero => intro o m r h; simp [resetOC] at h
  | succ fuel =>
      intro o m r h
      rw [resetOC] at h
      split at h
      · simp only [Option.bind_eq_some_iff, Option.some.injEq] at h
        obtain ⟨x, -, rfl⟩ := h
        simp only; omega
      · simp only [Option.some.injEq] at h; subst h; exact le_refl _

theorem resetItemsC_ge {rec : ℕ → Mem K → Option (ℕ × Mem K)} (hr : ∀ o m r, rec o m = some r → 1 ≤ r.1)
    (is : List (Node K)) : ∀ m r, resetItemsC rec is m = some r → (is.map Node.size).sum ≤ r.1 := by
  induction is with
  | nil => intro m r h; simp
  | cons i is ih =>
      intro m r h
      simp only [resetItemsC, Option.bind_eq_some_iff, Option.some.injEq] at h
      obtain ⟨x, hx, y, hy, rfl⟩ := h
      have h1 := resetNC_ge hr i m x hx
      have h2 := ih _ y hy
      simp only [List.map_cons, List.sum_cons]
      omega

theorem resetImplC_ge {fuel y : ℕ} {m : Mem K} {r : ℕ × Mem K} (h : resetImplC D fuel y m = some r) :
    ((D.items y).map Node.size).sum ≤ r.1 ∧ r.2.visited y = false := by
  simp only [resetImplC, Option.bind_eq_some_iff, Option.some.injEq] at h
  obtain ⟨x, hx, rfl⟩ := h
  exact ⟨resetItemsC_ge (resetOC_pos fuel) _ _ x hx, by simp [Mem.setVisited]⟩

end CoolDiff
