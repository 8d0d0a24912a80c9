import Verif.Matrix.Rev
import Verif.Matrix.ExprFwdOps

/-!
# Reverse rules of the matrix operators

The adjoints computed by the operator nodes, and the identity that ties them to the forward rules:
pairing the adjoint of a node with the derivative of the node equals the sum over the operands of
their adjoints paired with their derivatives.
-/

set_option linter.unusedSectionVars false

namespace CoolDiff

open Finset

variable {K : Type} [Field K] [DecidableEq K]

/-- `Σ_{l<r, k<c} a l k * t l k`. -/
def pair2 (r c : ℕ) (a t : ℕ → ℕ → K) : K := ∑ l ∈ range r, ∑ k ∈ range c, a l k * t l k

theorem pair2_congr {r c : ℕ} {a t a' t' : ℕ → ℕ → K}
    (h : ∀ l k, l < r → k < c → a l k * t l k = a' l k * t' l k) : pair2 r c a t = pair2 r c a' t' :=
  sum_congr rfl fun l hl => sum_congr rfl fun k hk => h l k (mem_range.1 hl) (mem_range.1 hk)

theorem pair2_one (a t : ℕ → ℕ → K) : pair2 1 1 a t = a 0 0 * t 0 0 := by simp [pair2]

theorem pair2_delta {r c i j : ℕ} (hi : i < r) (hj : j < c) (a : ℕ → ℕ → K) :
    pair2 r c a (fun l k => if l = i ∧ k = j then 1 else 0) = a i j := by
  rw [pair2, sum_eq_single i, sum_eq_single j]
  · simp
  · intro k _ hk; simp [hk]
  · intro h; exact absurd (mem_range.2 hj) h
  · intro l _ hl; simp [hl]
  · intro h; exact absurd (mem_range.2 hi) h

theorem pair2_zero {r c : ℕ} {a t : ℕ → ℕ → K} (h : ∀ l k, l < r → k < c → t l k = 0) :
    pair2 r c a t = 0 :=
  sum_eq_zero fun l hl => sum_eq_zero fun k hk => by
    rw [h l k (mem_range.1 hl) (mem_range.1 hk), mul_zero]

/-- Adjoint of the left operand. -/
def MBin.adjL (A C adj : ℕ → ℕ → K) (da db : ℕ × ℕ) : MBin → ℕ → ℕ → K
  | .add, l, k => adj l k
  | .sub, l, k => adj l k
  | .mul, l, t => ∑ k ∈ range db.2, adj l k * C t k
  | .had, l, k => adj l k * C l k
  | .conv sx sy px py, p, q => ∑ l ∈ range (convDim da.1 px db.1 sx),
      ∑ k ∈ range (convDim da.2 py db.2 sy), ∑ u ∈ range db.1, ∑ v ∈ range db.2,
        if l * sx + u = p + px ∧ k * sy + v = q + py then adj l k * C u v else 0

/-- Adjoint of the right operand. -/
def MBin.adjR (A C adj : ℕ → ℕ → K) (da db : ℕ × ℕ) : MBin → ℕ → ℕ → K
  | .add, l, k => adj l k
  | .sub, l, k => -adj l k
  | .mul, t, k => ∑ l ∈ range da.1, A l t * adj l k
  | .had, l, k => A l k * adj l k
  | .conv sx sy px py, u, v => ∑ l ∈ range (convDim da.1 px db.1 sx),
      ∑ k ∈ range (convDim da.2 py db.2 sy),
        adj l k * padded px py da.1 da.2 A (l * sx + u) (k * sy + v)

/-- The reverse rule of a node is the true one: for `conv` the strides are 1, the kernel has
`2 px + 1` rows and `2 py + 1` columns and is symmetric under rotation by 180 degrees, or the left
operand does not matter (`Z`: its derivatives are zero). -/
def MBin.revOk (db : ℕ × ℕ) (B : ℕ → ℕ → K) (Z : Prop) : MBin → Prop
  | .conv sx sy px py => sx = 1 ∧ sy = 1 ∧ db.1 = 2 * px + 1 ∧ db.2 = 2 * py + 1 ∧
      (Z ∨ ∀ u v, u ≤ 2 * px → v ≤ 2 * py → B u v = B (2 * px - u) (2 * py - v))
  | _ => True

/-- The padded matrix as a sum. -/
theorem padded_sum (px py r c : ℕ) (A : ℕ → ℕ → K) (p q : ℕ) :
    padded px py r c A p q = ∑ i ∈ range r, ∑ j ∈ range c,
      if p = i + px ∧ q = j + py then A i j else 0 := by
  rw [padded]
  split
  · rename_i h
    rw [sum_eq_single (p - px), sum_eq_single (q - py)]
    · rw [if_pos (by omega)]
    · intro j _ hj; rw [if_neg (by omega)]
    · intro h'; exact absurd (mem_range.2 (by omega)) h'
    · intro i _ hi; exact sum_eq_zero fun j _ => by rw [if_neg (by omega)]
    · intro h'; exact absurd (mem_range.2 (by omega)) h'
  · rename_i h
    refine (sum_eq_zero fun i hi => sum_eq_zero fun j hj => ?_).symm
    have := mem_range.1 hi; have := mem_range.1 hj
    rw [if_neg (by omega)]

/-- Adjoint of padding and sampling. -/
theorem conv_pairingL (sx sy px py r c kr kc o1 o2 : ℕ) (adj B T : ℕ → ℕ → K) :
    ∑ l ∈ range o1, ∑ k ∈ range o2, adj l k * (∑ u ∈ range kr, ∑ v ∈ range kc,
        padded px py r c T (l * sx + u) (k * sy + v) * B u v) =
      pair2 r c (fun p q => ∑ l ∈ range o1, ∑ k ∈ range o2, ∑ u ∈ range kr, ∑ v ∈ range kc,
        if l * sx + u = p + px ∧ k * sy + v = q + py then adj l k * B u v else 0) T := by
  have hL : ∀ l k, adj l k * (∑ u ∈ range kr, ∑ v ∈ range kc,
        padded px py r c T (l * sx + u) (k * sy + v) * B u v) =
      ∑ p ∈ range r, ∑ q ∈ range c, (∑ u ∈ range kr, ∑ v ∈ range kc,
        if l * sx + u = p + px ∧ k * sy + v = q + py then adj l k * B u v else 0) * T p q := by
    intro l k
    simp only [padded_sum, mul_sum, sum_mul]
    calc ∑ u ∈ range kr, ∑ v ∈ range kc, ∑ p ∈ range r, ∑ q ∈ range c,
          adj l k * ((if l * sx + u = p + px ∧ k * sy + v = q + py then T p q else 0) * B u v)
        = ∑ u ∈ range kr, ∑ p ∈ range r, ∑ v ∈ range kc, ∑ q ∈ range c,
          adj l k * ((if l * sx + u = p + px ∧ k * sy + v = q + py then T p q else 0) * B u v) :=
          sum_congr rfl fun u _ => sum_comm
      _ = ∑ p ∈ range r, ∑ u ∈ range kr, ∑ v ∈ range kc, ∑ q ∈ range c,
          adj l k * ((if l * sx + u = p + px ∧ k * sy + v = q + py then T p q else 0) * B u v) :=
          sum_comm
      _ = ∑ p ∈ range r, ∑ u ∈ range kr, ∑ q ∈ range c, ∑ v ∈ range kc,
          adj l k * ((if l * sx + u = p + px ∧ k * sy + v = q + py then T p q else 0) * B u v) :=
          sum_congr rfl fun p _ => sum_congr rfl fun u _ => sum_comm
      _ = ∑ p ∈ range r, ∑ q ∈ range c, ∑ u ∈ range kr, ∑ v ∈ range kc,
          adj l k * ((if l * sx + u = p + px ∧ k * sy + v = q + py then T p q else 0) * B u v) :=
          sum_congr rfl fun p _ => sum_comm
      _ = _ := by
        refine sum_congr rfl fun p _ => sum_congr rfl fun q _ => sum_congr rfl fun u _ =>
          sum_congr rfl fun v _ => ?_
        split
        · ring
        · ring
  simp only [hL, pair2]
  calc ∑ l ∈ range o1, ∑ k ∈ range o2, ∑ p ∈ range r, ∑ q ∈ range c,
        (∑ u ∈ range kr, ∑ v ∈ range kc,
          if l * sx + u = p + px ∧ k * sy + v = q + py then adj l k * B u v else 0) * T p q
      = ∑ l ∈ range o1, ∑ p ∈ range r, ∑ k ∈ range o2, ∑ q ∈ range c,
        (∑ u ∈ range kr, ∑ v ∈ range kc,
          if l * sx + u = p + px ∧ k * sy + v = q + py then adj l k * B u v else 0) * T p q :=
        sum_congr rfl fun l _ => sum_comm
    _ = ∑ p ∈ range r, ∑ l ∈ range o1, ∑ k ∈ range o2, ∑ q ∈ range c,
        (∑ u ∈ range kr, ∑ v ∈ range kc,
          if l * sx + u = p + px ∧ k * sy + v = q + py then adj l k * B u v else 0) * T p q :=
        sum_comm
    _ = ∑ p ∈ range r, ∑ l ∈ range o1, ∑ q ∈ range c, ∑ k ∈ range o2,
        (∑ u ∈ range kr, ∑ v ∈ range kc,
          if l * sx + u = p + px ∧ k * sy + v = q + py then adj l k * B u v else 0) * T p q :=
        sum_congr rfl fun p _ => sum_congr rfl fun l _ => sum_comm
    _ = ∑ p ∈ range r, ∑ q ∈ range c, ∑ l ∈ range o1, ∑ k ∈ range o2,
        (∑ u ∈ range kr, ∑ v ∈ range kc,
          if l * sx + u = p + px ∧ k * sy + v = q + py then adj l k * B u v else 0) * T p q :=
        sum_congr rfl fun p _ => sum_comm
    _ = _ := by simp only [sum_mul]

theorem conv_pairingR (kr kc o1 o2 : ℕ) (adj T : ℕ → ℕ → K) (P : ℕ → ℕ → ℕ → ℕ → K) :
    ∑ l ∈ range o1, ∑ k ∈ range o2, adj l k * (∑ u ∈ range kr, ∑ v ∈ range kc,
        P l k u v * T u v) =
      pair2 kr kc (fun u v => ∑ l ∈ range o1, ∑ k ∈ range o2, adj l k * P l k u v) T := by
  simp only [pair2, mul_sum, sum_mul]
  calc ∑ l ∈ range o1, ∑ k ∈ range o2, ∑ u ∈ range kr, ∑ v ∈ range kc,
        adj l k * (P l k u v * T u v)
      = ∑ l ∈ range o1, ∑ u ∈ range kr, ∑ k ∈ range o2, ∑ v ∈ range kc,
        adj l k * (P l k u v * T u v) := sum_congr rfl fun l _ => sum_comm
    _ = ∑ u ∈ range kr, ∑ l ∈ range o1, ∑ k ∈ range o2, ∑ v ∈ range kc,
        adj l k * (P l k u v * T u v) := sum_comm
    _ = ∑ u ∈ range kr, ∑ l ∈ range o1, ∑ v ∈ range kc, ∑ k ∈ range o2,
        adj l k * (P l k u v * T u v) := sum_congr rfl fun u _ => sum_congr rfl fun l _ => sum_comm
    _ = ∑ u ∈ range kr, ∑ v ∈ range kc, ∑ l ∈ range o1, ∑ k ∈ range o2,
        adj l k * (P l k u v * T u v) := sum_congr rfl fun u _ => sum_comm
    _ = _ := by
      refine sum_congr rfl fun u _ => sum_congr rfl fun v _ => sum_congr rfl fun l _ =>
        sum_congr rfl fun k _ => ?_
      ring

/-- For a symmetric kernel of `2 px + 1` rows and `2 py + 1` columns, convolving the adjoint with the
kernel is the adjoint of the convolution. -/
theorem conv_adjL {px py r c : ℕ} {adj B : ℕ → ℕ → K}
    (hB : ∀ u v, u ≤ 2 * px → v ≤ 2 * py → B u v = B (2 * px - u) (2 * py - v)) (p q : ℕ) :
    convSpec 1 1 px py r c (2 * px + 1) (2 * py + 1) adj B p q =
      ∑ l ∈ range r, ∑ k ∈ range c, ∑ u ∈ range (2 * px + 1), ∑ v ∈ range (2 * py + 1),
        if l * 1 + u = p + px ∧ k * 1 + v = q + py then adj l k * B u v else 0 := by
  have h1 : convSpec 1 1 px py r c (2 * px + 1) (2 * py + 1) adj B p q =
      ∑ l ∈ range r, ∑ k ∈ range c, ∑ u ∈ range (2 * px + 1), ∑ v ∈ range (2 * py + 1),
        if p + u = l + px ∧ q + v = k + py then adj l k * B u v else 0 := by
    simp only [convSpec, padded_sum, sum_mul, mul_one]
    calc ∑ u ∈ range (2 * px + 1), ∑ v ∈ range (2 * py + 1), ∑ l ∈ range r, ∑ k ∈ range c,
          (if p + u = l + px ∧ q + v = k + py then adj l k else 0) * B u v
        = ∑ u ∈ range (2 * px + 1), ∑ l ∈ range r, ∑ v ∈ range (2 * py + 1), ∑ k ∈ range c,
          (if p + u = l + px ∧ q + v = k + py then adj l k else 0) * B u v :=
          sum_congr rfl fun u _ => sum_comm
      _ = ∑ l ∈ range r, ∑ u ∈ range (2 * px + 1), ∑ v ∈ range (2 * py + 1), ∑ k ∈ range c,
          (if p + u = l + px ∧ q + v = k + py then adj l k else 0) * B u v := sum_comm
      _ = ∑ l ∈ range r, ∑ u ∈ range (2 * px + 1), ∑ k ∈ range c, ∑ v ∈ range (2 * py + 1),
          (if p + u = l + px ∧ q + v = k + py then adj l k else 0) * B u v :=
          sum_congr rfl fun l _ => sum_congr rfl fun u _ => sum_comm
      _ = ∑ l ∈ range r, ∑ k ∈ range c, ∑ u ∈ range (2 * px + 1), ∑ v ∈ range (2 * py + 1),
          (if p + u = l + px ∧ q + v = k + py then adj l k else 0) * B u v :=
          sum_congr rfl fun l _ => sum_comm
      _ = _ := by
        refine sum_congr rfl fun l _ => sum_congr rfl fun k _ => sum_congr rfl fun u _ =>
          sum_congr rfl fun v _ => ?_
        split
        · rfl
        · ring
  rw [h1]
  refine sum_congr rfl fun l _ => sum_congr rfl fun k _ => ?_
  rw [← sum_range_reflect]
  refine sum_congr rfl fun u hu => ?_
  rw [← sum_range_reflect]
  refine sum_congr rfl fun v hv => ?_
  have hu' : u ≤ 2 * px := by have := mem_range.1 hu; omega
  have hv' : v ≤ 2 * py := by have := mem_range.1 hv; omega
  have e1 : 2 * px + 1 - 1 - u = 2 * px - u := by omega
  have e2 : 2 * py + 1 - 1 - v = 2 * py - v := by omega
  rw [e1, e2, ← hB u v hu' hv']
  by_cases h : l * 1 + u = p + px ∧ k * 1 + v = q + py
  · rw [if_pos h, if_pos (by omega)]
  · rw [if_neg h, if_neg (by omega)]

theorem MBin.pairing (op : MBin) {da db : ℕ × ℕ} (hd : op.dimOk da db = true)
    (A C adj : ℕ → ℕ → K) (TA TC : ℕ → ℕ → ℕ → ℕ → K) (i j : ℕ) :
    pair2 (op.odims da db).1 (op.odims da db).2 adj (fun l k => op.tan da db A C TA TC l k i j) =
      pair2 da.1 da.2 (op.adjL A C adj da db) (fun l k => TA l k i j) +
      pair2 db.1 db.2 (op.adjR A C adj da db) (fun l k => TC l k i j) := by
  obtain ⟨r, cc⟩ := da; obtain ⟨r', cc'⟩ := db
  cases op
  · simp only [MBin.dimOk, Bool.and_eq_true, beq_iff_eq] at hd
    obtain ⟨rfl, rfl⟩ := hd
    simp only [pair2, MBin.odims, MBin.tan, MBin.adjL, MBin.adjR, ← sum_add_distrib, mul_add]
  · simp only [MBin.dimOk, Bool.and_eq_true, beq_iff_eq] at hd
    obtain ⟨rfl, rfl⟩ := hd
    simp only [pair2, MBin.odims, MBin.tan, MBin.adjL, MBin.adjR, ← sum_add_distrib]
    exact sum_congr rfl fun l _ => sum_congr rfl fun k _ => by ring
  · simp only [MBin.dimOk, beq_iff_eq] at hd
    subst hd
    simp only [pair2, MBin.odims, MBin.tan, MBin.adjL, MBin.adjR, sum_add_distrib, mul_add, mul_sum, sum_mul]
    rw [add_comm]
    congr 1
    · refine sum_congr rfl fun l _ => ?_
      rw [sum_comm]
      exact sum_congr rfl fun t _ => sum_congr rfl fun k _ => by ring
    · rw [sum_comm]
      conv_rhs => rw [sum_comm]
      refine sum_congr rfl fun k _ => ?_
      rw [sum_comm]
      exact sum_congr rfl fun t _ => sum_congr rfl fun l _ => by ring
  · simp only [MBin.dimOk, Bool.and_eq_true, beq_iff_eq] at hd
    obtain ⟨rfl, rfl⟩ := hd
    simp only [pair2, MBin.odims, MBin.tan, MBin.adjL, MBin.adjR, ← sum_add_distrib]
    exact sum_congr rfl fun l _ => sum_congr rfl fun k _ => by ring
  · rename_i sx sy px py
    have h1 : pair2 r cc (MBin.adjL A C adj (r, cc) (r', cc') (.conv sx sy px py))
        (fun l k => TA l k i j) = _ :=
      (conv_pairingL sx sy px py r cc r' cc' (convDim r px r' sx) (convDim cc py cc' sy) adj C
        (fun l k => TA l k i j)).symm
    have h2 : pair2 r' cc' (MBin.adjR A C adj (r, cc) (r', cc') (.conv sx sy px py))
        (fun l k => TC l k i j) = _ :=
      (conv_pairingR r' cc' (convDim r px r' sx) (convDim cc py cc' sy) adj
        (fun l k => TC l k i j)
        (fun l k u v => padded px py r cc A (l * sx + u) (k * sy + v))).symm
    dsimp only
    rw [h1, h2, add_comm, pair2, ← sum_add_distrib]
    simp only [MBin.odims, MBin.tan, convTan]
    refine sum_congr rfl fun l _ => ?_
    rw [← sum_add_distrib]
    refine sum_congr rfl fun k _ => ?_
    rw [← mul_add, ← sum_add_distrib]
    congr 1
    refine sum_congr rfl fun u _ => ?_
    rw [← sum_add_distrib]

theorem MBin.rev_spec {c : MCtx K} (hB : c.B.Sound c.E.P) (op : MBin) {L R C : Mat K} {a : Slots K}
    (ha : SlotsOk c.E.P a) {da db : ℕ × ℕ} {A B adj : ℕ → ℕ → K} (hd : op.dimOk da db = true)
    (hpad : op.padOk c.E da) {Z : Prop} (hrev : op.revOk db B Z)
    (hL : op.evalsOperands = true → Rep L da.1 da.2 A)
    (hR : op.evalsOperands = true → Rep R db.1 db.2 B) (hC : Rep C (op.odims da db).1 (op.odims da db).2 adj) :
    ∃ a' mL mR aL, op.rev c L R C a = some (a', mL, mR) ∧ SlotsOk c.E.P a' ∧
      Rep mL da.1 da.2 aL ∧ Rep mR db.1 db.2 (op.adjR A B adj da db) ∧
      (Z ∨ ∀ l k, l < da.1 → k < da.2 → aL l k = op.adjL A B adj da db l k) := by
  obtain ⟨r, cc⟩ := da; obtain ⟨r', cc'⟩ := db
  cases op
  · simp only [MBin.dimOk, Bool.and_eq_true, beq_iff_eq] at hd
    obtain ⟨rfl, rfl⟩ := hd
    obtain ⟨a1, m4, e4, l4, r4⟩ := kern_spec (k := 4) ha (hB.scalarMul 1 (r := .ext C) (ha 4) rfl hC)
    obtain ⟨a2, m5, e5, l5, r5⟩ := kern_spec (k := 5) l4 (hB.scalarMul 1 (r := .ext C) (l4 5) rfl hC)
    refine ⟨a2, m4, m5, _, ?_, l5, r4, r5.congr ?_, Or.inr ?_⟩
    · simp only [MBin.rev, e4, e5, Option.bind_eq_bind, Option.bind_some]
    · intro l k _ _; simp [MBin.adjR]
    · intro l k _ _; simp [MBin.adjL]
  · simp only [MBin.dimOk, Bool.and_eq_true, beq_iff_eq] at hd
    obtain ⟨rfl, rfl⟩ := hd
    obtain ⟨a1, m4, e4, l4, r4⟩ := kern_spec (k := 4) ha (hB.scalarMul 1 (r := .ext C) (ha 4) rfl hC)
    obtain ⟨a2, m5, e5, l5, r5⟩ := kern_spec (k := 5) l4
      (hB.scalarMul (-1) (r := .ext C) (l4 5) rfl hC)
    refine ⟨a2, m4, m5, _, ?_, l5, r4, r5.congr ?_, Or.inr ?_⟩
    · simp only [MBin.rev, e4, e5, Option.bind_eq_bind, Option.bind_some]
    · intro l k _ _; simp [MBin.adjR]
    · intro l k _ _; simp [MBin.adjL]
  · simp only [MBin.dimOk, beq_iff_eq] at hd
    subst hd
    replace hL := hL rfl; replace hR := hR rfl
    obtain ⟨a1, m9, e9, l9, r9⟩ := kern_spec (k := 9) ha (hB.transpose (ha 9) hL)
    obtain ⟨a2, m8, e8, l8, r8⟩ := kern_spec (k := 8) l9 (hB.transpose (l9 8) hR)
    obtain ⟨a3, m10, e10, l10, r10⟩ := kern_spec (k := 10) l8 (hB.mul (l8 10) hC r8)
    obtain ⟨a4, m11, e11, l11, r11⟩ := kern_spec (k := 11) l10 (hB.mul (l10 11) r9 hC)
    refine ⟨a4, m10, m11, _, ?_, l11, r10, r11, Or.inr fun _ _ _ _ => rfl⟩
    simp only [MBin.rev, e9, e8, e10, e11, Option.bind_eq_bind, Option.bind_some]
  · simp only [MBin.dimOk, Bool.and_eq_true, beq_iff_eq] at hd
    obtain ⟨rfl, rfl⟩ := hd
    replace hL := hL rfl; replace hR := hR rfl
    obtain ⟨a1, m9, e9, l9, r9⟩ := kern_spec (k := 9) ha (hB.scalarMul 1 (r := .ext L) (ha 9) rfl hL)
    obtain ⟨a2, m8, e8, l8, r8⟩ := kern_spec (k := 8) l9
      (hB.scalarMul 1 (r := .ext R) (l9 8) rfl hR)
    obtain ⟨a3, m10, e10, l10, r10⟩ := kern_spec (k := 10) l8
      (hB.hadamard (l := .ext C) (r := .ext m8) (l8 10) rfl hC rfl r8)
    obtain ⟨a4, m11, e11, l11, r11⟩ := kern_spec (k := 11) l10
      (hB.hadamard (l := .ext m9) (r := .ext C) (l10 11) rfl r9 rfl hC)
    refine ⟨a4, m10, m11, _, ?_, l11, r10, r11.congr ?_, Or.inr ?_⟩
    · simp only [MBin.rev, e9, e8, e10, e11, Option.bind_eq_bind, Option.bind_some]
    · intro l k _ _; simp [MBin.adjR]
    · intro l k _ _; simp [MBin.adjL]
  · rename_i sx sy px py
    obtain ⟨rfl, rfl, h1, h2, hsym⟩ := hrev
    dsimp only at h1 h2 hpad hL hR hC ⊢
    subst h1 h2
    replace hL := hL rfl; replace hR := hR rfl
    have d1 : ∀ x p : ℕ, convDim x p (2 * p + 1) 1 = x ∨ x = 0 := fun x p => by
      rw [convDim, Nat.div_one]; omega
    have e1 : convDim r px (2 * px + 1) 1 = r := (d1 r px).resolve_right (by have := hL.rpos; omega)
    have e2 : convDim cc py (2 * py + 1) 1 = cc :=
      (d1 cc py).resolve_right (by have := hL.cpos; omega)
    simp only [MBin.odims, e1, e2] at hC
    have hr := hL.rpos; have hc := hL.cpos
    obtain ⟨a1, m2, k2, l2, r2⟩ := hB.conv (sx := 1) (sy := 1) (px := px) (py := py) (k := 2) hC hR
      one_pos one_pos (by omega) (by omega) hpad (by decide) ha
    obtain ⟨a2, m3, k3, l3, r3⟩ := hB.conv (sx := 1) (sy := 1) (px := px) (py := py) (k := 3) hL hC
      one_pos one_pos (by omega) (by omega) hpad (by decide) l2
    have p1 : (1 * (R.rows - 1) + C.rows - L.rows) / 2 = px := by
      rw [hR.rows, hC.rows, hL.rows]; omega
    have p2 : (1 * (R.cols - 1) + C.cols - L.cols) / 2 = py := by
      rw [hR.cols, hC.cols, hL.cols]; omega
    have p3 : L.rows ≤ 1 * (R.rows - 1) + C.rows ∧ L.cols ≤ 1 * (R.cols - 1) + C.cols := by
      rw [hR.rows, hC.rows, hL.rows, hR.cols, hC.cols, hL.cols]; omega
    rw [e1, e2] at r2
    refine ⟨a2, m2, m3, _, ?_, l3, r2, ?_, ?_⟩
    · simp only [MBin.rev, k2, Option.bind_eq_bind, Option.bind_some]
      rw [if_pos p3, p1, p2, k3]; rfl
    · have q1 : convDim r px r 1 = 2 * px + 1 := by rw [convDim, Nat.div_one]; omega
      have q2 : convDim cc py cc 1 = 2 * py + 1 := by rw [convDim, Nat.div_one]; omega
      rw [q1, q2] at r3
      refine r3.congr fun u v _ _ => ?_
      simp only [MBin.adjR, e1, e2, convSpec]
      refine sum_congr rfl fun l _ => sum_congr rfl fun k _ => ?_
      rw [mul_comm (adj l k)]
      congr 2 <;> ring
    · refine hsym.imp id fun hsym i j _ _ => ?_
      simp only [MBin.adjL, e1, e2]
      exact conv_adjL hsym i j

/-- `pair2` sees only elements inside the shape. -/
theorem pair2_congrL {m n : ℕ} {f f' g : ℕ → ℕ → K} (h : ∀ l k, l < m → k < n → f l k = f' l k) :
    pair2 m n f g = pair2 m n f' g :=
  sum_congr rfl fun l hl => sum_congr rfl fun k hk => by
    rw [h l k (mem_range.1 hl) (mem_range.1 hk)]

theorem pair2_zeroR {m n : ℕ} {f g : ℕ → ℕ → K} (h : ∀ l k, l < m → k < n → g l k = 0) :
    pair2 m n f g = 0 :=
  sum_eq_zero fun l hl => sum_eq_zero fun k hk => by
    rw [h l k (mem_range.1 hl) (mem_range.1 hk), mul_zero]

/-- Adjoint of the operand of a unary node. -/
noncomputable def MUn.adj (sv : ℕ → K) (d : ℕ × ℕ) (A adj : ℕ → ℕ → K) : MUn K → ℕ → ℕ → K
  | .sadd _, l, k => adj l k
  | .smul v, l, k => v * adj l k
  | .saddE _, l, k => adj l k
  | .smulE s, l, k => sv s * adj l k
  | .tr, l, k => adj k l
  | .map _ df, l, k => df (A l k) * adj l k
  | .inv, p, q => -∑ b ∈ range d.1, (∑ a ∈ range d.1, invEl d.1 A a p * adj a b) * invEl d.1 A q b
  | .det, p, q => adj 0 0 * ((toMatrix d.1 A).det * invEl d.1 A q p)

/-- The scalar coefficient of an operator (`s + X`, `s * X`) does not depend on the elements of the
differentiation matrix. -/
def MUn.coeffConst (sd : ℕ → ℕ → ℕ → K) (i j : ℕ) : MUn K → Prop
  | .saddE s => sd s i j = 0
  | .smulE s => sd s i j = 0
  | _ => True

theorem MUn.pairing (op : MUn K) (sv : ℕ → K) (sd : ℕ → ℕ → ℕ → K) {d : ℕ × ℕ}
    (hd : op.dimOk d = true) (A adj : ℕ → ℕ → K) (T : ℕ → ℕ → ℕ → ℕ → K) {i j : ℕ}
    (hc : op.coeffConst sd i j) :
    pair2 (op.odims d).1 (op.odims d).2 adj (fun l k => op.tan sv sd d A T l k i j) =
      pair2 d.1 d.2 (op.adj sv d A adj) (fun l k => T l k i j) := by
  obtain ⟨r, cc⟩ := d
  cases op with
  | sadd v => rfl
  | smul v => exact pair2_congr fun l k _ _ => by simp only [MUn.tan, MUn.adj]; ring
  | saddE s =>
    exact pair2_congr fun l k _ _ => by
      simp only [MUn.tan, MUn.adj]; rw [show sd s i j = 0 from hc]; ring
  | smulE s =>
    exact pair2_congr fun l k _ _ => by
      simp only [MUn.tan, MUn.adj]; rw [show sd s i j = 0 from hc]; ring
  | tr =>
    simp only [pair2, MUn.odims, MUn.tan, MUn.adj]
    rw [sum_comm]
  | map f df => exact pair2_congr fun l k _ _ => by simp only [MUn.tan, MUn.adj]; ring
  | inv =>
    simp only [MUn.dimOk, beq_iff_eq] at hd
    subst hd
    simp only [pair2, MUn.odims, MUn.tan, MUn.adj, mul_neg, neg_mul, sum_neg_distrib, mul_sum,
      sum_mul]
    congr 1
    -- Σ_a Σ_b Σ_p Σ_q  =  Σ_p Σ_q Σ_b Σ_a
    calc ∑ a ∈ range r, ∑ b ∈ range r, ∑ p ∈ range r, ∑ q ∈ range r,
          adj a b * (invEl r A a p * T p q i j * invEl r A q b)
        = ∑ a ∈ range r, ∑ p ∈ range r, ∑ b ∈ range r, ∑ q ∈ range r,
          adj a b * (invEl r A a p * T p q i j * invEl r A q b) :=
          sum_congr rfl fun a _ => sum_comm
      _ = ∑ p ∈ range r, ∑ a ∈ range r, ∑ b ∈ range r, ∑ q ∈ range r,
          adj a b * (invEl r A a p * T p q i j * invEl r A q b) := sum_comm
      _ = ∑ p ∈ range r, ∑ a ∈ range r, ∑ q ∈ range r, ∑ b ∈ range r,
          adj a b * (invEl r A a p * T p q i j * invEl r A q b) :=
          sum_congr rfl fun p _ => sum_congr rfl fun a _ => sum_comm
      _ = ∑ p ∈ range r, ∑ q ∈ range r, ∑ a ∈ range r, ∑ b ∈ range r,
          adj a b * (invEl r A a p * T p q i j * invEl r A q b) :=
          sum_congr rfl fun p _ => sum_comm
      _ = _ := by
        refine sum_congr rfl fun p _ => sum_congr rfl fun q _ => ?_
        rw [sum_comm]
        exact sum_congr rfl fun b _ => sum_congr rfl fun a _ => by ring
  | det =>
    simp only [MUn.dimOk, beq_iff_eq] at hd
    subst hd
    simp only [MUn.odims, pair2_one, MUn.tan, mul_sum]
    simp only [pair2, MUn.adj]
    exact sum_congr rfl fun p _ => sum_congr rfl fun q _ => by ring

theorem Rep.raw0 {m : Mat K} {A : ℕ → ℕ → K} (h : Rep m 1 1 A) : m.raw? 0 = some (A 0 0) := by
  have := h.elem 0 0 one_pos one_pos
  simpa [Mat.get?, Mat.raw?, h.rows, h.cols] using this

theorem invEl_transpose (n : ℕ) (A : ℕ → ℕ → K) (i j : ℕ) :
    invEl n (fun i j => A j i) i j = invEl n A j i := by
  have h : toMatrix n (fun i j => A j i) = (toMatrix n A).transpose := by
    ext a b; rfl
  simp only [invEl, h]
  by_cases hij : i < n ∧ j < n
  · rw [dif_pos hij, dif_pos hij.symm, ← Matrix.transpose_nonsing_inv]; rfl
  · rw [dif_neg hij, dif_neg (fun h => hij h.symm)]

theorem det_transpose' (n : ℕ) (A : ℕ → ℕ → K) :
    (toMatrix n (fun i j => A j i)).det = (toMatrix n A).det := by
  have h : toMatrix n (fun i j => A j i) = (toMatrix n A).transpose := by
    ext a b; rfl
  rw [h, Matrix.det_transpose]

theorem MUn.rev_spec {c : MCtx K} (hB : c.B.Sound c.E.P) (op : MUn K)
    (hI : op.isInv → c.B.InvSound) {R C : Mat K} {a : Slots K} (ha : SlotsOk c.E.P a) {d : ℕ × ℕ}
    {A adj : ℕ → ℕ → K} (hd : op.dimOk d = true)
    (hR : op.revEvals = true → Rep R d.1 d.2 A)
    (hC : Rep C (op.odims d).1 (op.odims d).2 adj)
    (hinv : op.isInv → (toMatrix d.1 A).det ≠ 0) :
    ∃ a' m, op.rev c R C a = some (a', m) ∧ SlotsOk c.E.P a' ∧
      Rep m d.1 d.2 (op.adj c.sc.val d A adj) := by
  obtain ⟨r, cc⟩ := d
  cases op with
  | sadd v =>
    obtain ⟨a1, m, e, l, r⟩ := kern_spec (k := 3) ha (hB.scalarMul 1 (r := .ext C) (ha 3) rfl hC)
    exact ⟨a1, m, e, l, r.congr fun i j _ _ => by simp [MUn.adj]⟩
  | smul v => exact kern_spec ha (hB.scalarMul v (r := .ext C) (ha 3) rfl hC)
  | saddE s =>
    obtain ⟨a1, m, e, l, r⟩ := kern_spec (k := 8) ha (hB.scalarMul 1 (r := .ext C) (ha 8) rfl hC)
    exact ⟨a1, m, e, l, r.congr fun i j _ _ => by simp [MUn.adj]⟩
  | smulE s => exact kern_spec ha (hB.scalarMul _ (r := .ext C) (ha 12) rfl hC)
  | tr => exact kern_spec ha (hB.transpose (ha 4) hC)
  | map f df =>
    replace hR := hR rfl
    obtain ⟨a1, m5, e5, l5, r5⟩ := kern_spec (k := 5) ha (hB.unary df (r := .ext R) (ha 5) rfl hR)
    obtain ⟨a2, m6, e6, l6, r6⟩ := kern_spec (k := 6) l5
      (hB.hadamard (l := .ext m5) (r := .ext C) (l5 6) rfl r5 rfl hC)
    refine ⟨a2, m6, ?_, l6, r6⟩
    simp only [MUn.rev, e5, e6, Option.bind_eq_bind, Option.bind_some]
  | inv =>
    replace hR := hR rfl
    simp only [MUn.dimOk, beq_iff_eq] at hd
    subst hd
    have hIS := hI trivial
    have hdet := hinv trivial
    obtain ⟨a1, m11, e11, l11, r11⟩ := kern_spec (k := 11) ha (hB.transpose (ha 11) hR)
    obtain ⟨a2, m12, e12, l12, r12⟩ := kern_spec (k := 12) l11
      (hIS.inverse (l11 12) r11 (by rw [det_transpose']; exact hdet))
    change Rep m12 r r (invEl r (fun i j => A j i)) at r12
    replace r12 := r12.congr (B := fun i j => invEl r A j i) (fun i j _ _ => invEl_transpose r A i j)
    obtain ⟨a3, m13, e13, l13, r13⟩ := kern_spec (k := 13) l12 (hB.mul (l12 13) r12 hC)
    obtain ⟨a4, m14, e14, l14, r14⟩ := kern_spec (k := 14) l13 (hB.mul (l13 14) r13 r12)
    obtain ⟨a5, m15, e15, l15, r15⟩ := kern_spec (k := 15) l14
      (hB.scalarMul (-1) (r := .ext m14) (l14 15) rfl r14)
    refine ⟨a5, m15, ?_, l15, r15.congr fun i j _ _ => by simp only [MUn.adj, neg_mul, one_mul]; rfl⟩
    simp only [MUn.rev, e11, e12, e13, e14, e15, Option.bind_eq_bind, Option.bind_some]
  | det =>
    replace hR := hR rfl
    simp only [MUn.dimOk, beq_iff_eq] at hd
    subst hd
    have hIS := hI trivial
    have hdet := hinv trivial
    have ec := Rep.raw0 hC
    obtain ⟨a1, m15, e15, l15, r15⟩ := kern_spec (k := 15) ha (hIS.inverse (ha 15) hR hdet)
    change Rep m15 r r (invEl r A) at r15
    obtain ⟨a2, m16, e16, l16, r16⟩ := kern_spec (k := 16) l15 (hB.transpose (l15 16) r15)
    obtain ⟨a3, m17, e17, l17, r17⟩ := kern_spec (k := 17) l16 (hIS.det (l16 17) hR)
    have ed := Rep.raw0 r17
    obtain ⟨a4, m18, e18, l18, r18⟩ := kern_spec (k := 18) l17
      (hB.scalarMul ((toMatrix r A).det) (r := .ext m16) (l17 18) rfl r16)
    obtain ⟨a5, m19, e19, l19, r19⟩ := kern_spec (k := 19) l18
      (hB.scalarMul (adj 0 0) (r := .ext m18) (l18 19) rfl r18)
    refine ⟨a5, m19, ?_, l19, r19⟩
    simp only [MUn.rev, ec, e15, e16, e17, ed, e18, e19, Option.bind_eq_bind, Option.bind_some]

end CoolDiff
