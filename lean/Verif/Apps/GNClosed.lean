import Verif.Props.GaussNewton
import Mathlib.Analysis.SpecialFunctions.Trigonometric.Bounds

/-!
# Closed forms for the Gauss–Newton steps of the programs of example/GaussNewton/main.cpp

Mathematics only: what `n` Gauss–Newton steps (`GNSteps`, `Verif/Apps/GNSpec.lean`) with the true partial derivatives
lead to, for the three systems of that file.
-/

set_option linter.unusedSectionVars false

namespace CoolDiff

/-! ## `x*x - 2*x + 1` -/

/-- The residual of `ScalarSolve`. -/
noncomputable def sqRes (_ : ℕ) (b : ℕ → ℝ) : ℝ := b 1 * b 1 - 2 * b 1 + 1

theorem sqRes_partial (i : ℕ) (b : ℕ → ℝ) : partials sqRes i 1 b = 2 * b 1 - 2 := by
  have hid : HasDerivAt (fun t : ℝ => t) 1 (b 1) := hasDerivAt_id _
  have h : HasDerivAt (fun t : ℝ => t * t - 2 * t + 1) (2 * b 1 - 2) (b 1) := by
    refine (((hid.mul hid).sub (hid.const_mul 2)).add_const 1).congr_deriv ?_
    ring
  have := h.deriv
  simpa [partials, sqRes] using this

theorem sqRes_rank {b : ℕ → ℝ} (h : b 1 ≠ 1) : FullRank 1 [1] (partials sqRes) b := by
  intro v hv z hz
  rw [List.mem_singleton.1 hz]
  have := hv 0 one_pos
  simp only [List.map_cons, List.map_nil, List.sum_cons, List.sum_nil, sqRes_partial, add_zero, mul_eq_zero] at this
  rcases this with h' | h'
  · exact absurd (by linarith) h
  · exact h'

/-- Every step halves the distance to the double root. -/
theorem sqRes_steps {n : ℕ} {b₀ b : ℕ → ℝ} (h0 : b₀ 1 ≠ 1) (h : GNSteps 1 [1] sqRes (partials sqRes) n b₀ b) :
    b 1 = 1 + (b₀ 1 - 1) / 2 ^ n := by
  induction h with
  | zero => ring
  | @succ n b₀ b' b'' h hs ih =>
      have ih := ih h0
      obtain ⟨δ, h1, h2, -⟩ := hs
      have h1 := h1 1 (by simp)
      have h2 := h2 1 (by simp)
      simp only [List.map_cons, List.map_nil, List.sum_cons, List.sum_nil, add_zero, normalA, normalB,
        Finset.sum_range_one, sqRes_partial, sqRes] at h1
      have hne : b' 1 - 1 ≠ 0 := by
        rw [ih]
        have : b₀ 1 - 1 ≠ 0 := sub_ne_zero.2 h0
        simp [this]
      have hδ : δ 1 = (b' 1 - 1) / 2 := by
        have h3 : (b' 1 - 1) ^ 2 * (4 * δ 1 - 2 * (b' 1 - 1)) = 0 := by linear_combination h1
        rcases mul_eq_zero.1 h3 with h4 | h4
        · exact absurd (pow_eq_zero_iff (two_ne_zero)|>.1 h4) hne
        · linarith
      rw [h2, hδ, pow_succ]
      have e : b' 1 - 1 = (b₀ 1 - 1) / 2 ^ n := by rw [ih]; ring
      have e2 : b' 1 - (b' 1 - 1) / 2 = 1 + (b' 1 - 1) / 2 := by ring
      rw [e2, e, div_div]

/-! ## `x*x + y*y - 20`, `x - y + 2` -/

/-- The residuals of `NonLinearSolve`. -/
noncomputable def circRes (i : ℕ) (b : ℕ → ℝ) : ℝ :=
  match i with
  | 0 => b 1 * b 1 + b 2 * b 2 - 20
  | _ => b 1 - b 2 + 2

theorem circRes_partials (b : ℕ → ℝ) : partials circRes 0 1 b = 2 * b 1 ∧ partials circRes 0 2 b = 2 * b 2 ∧
    partials circRes 1 1 b = 1 ∧ partials circRes 1 2 b = -1 := by
  have hid : ∀ t : ℝ, HasDerivAt (fun t : ℝ => t) 1 t := fun t => hasDerivAt_id t
  refine ⟨?_, ?_, ?_, ?_⟩
  · have h : HasDerivAt (fun t : ℝ => t * t + b 2 * b 2 - 20) (2 * b 1) (b 1) := by
      refine ((((hid (b 1)).mul (hid (b 1))).add_const (b 2 * b 2)).sub_const 20).congr_deriv ?_
      ring
    simpa [partials, circRes] using h.deriv
  · have h : HasDerivAt (fun t : ℝ => b 1 * b 1 + t * t - 20) (2 * b 2) (b 2) := by
      refine ((((hid (b 2)).mul (hid (b 2))).const_add (b 1 * b 1)).sub_const 20).congr_deriv ?_
      ring
    simpa [partials, circRes] using h.deriv
  · have h : HasDerivAt (fun t : ℝ => t - b 2 + 2) 1 (b 1) := ((hid (b 1)).sub_const (b 2)).add_const 2
    simpa [partials, circRes] using h.deriv
  · have h : HasDerivAt (fun t : ℝ => b 1 - t + 2) (-1) (b 2) := ((hid (b 2)).const_sub (b 1)).add_const 2
    simpa [partials, circRes] using h.deriv

theorem circRes_rank {b : ℕ → ℝ} (h : b 1 + b 2 ≠ 0) : FullRank 2 [1, 2] (partials circRes) b := by
  obtain ⟨p1, p2, p3, p4⟩ := circRes_partials b
  intro v hv z hz
  have h0 := hv 0 (by omega)
  have h1 := hv 1 (by omega)
  simp only [List.map_cons, List.map_nil, List.sum_cons, List.sum_nil, add_zero, p1, p2, p3, p4] at h0 h1
  have e : v 1 = v 2 := by linarith
  have e2 : v 2 = 0 := by
    have : (b 1 + b 2) * v 2 = 0 := by rw [e] at h0; linarith
    exact (mul_eq_zero.1 this).resolve_left h
  simp only [List.mem_cons, List.not_mem_nil, or_false] at hz
  rcases hz with rfl | rfl
  · rw [e, e2]
  · exact e2

/-- One step solves the linearised system. -/
theorem circRes_step {b b' : ℕ → ℝ} (h : b 1 + b 2 ≠ 0) (hs : GNStep 2 [1, 2] circRes (partials circRes) b b') :
    b' 2 = b' 1 + 2 ∧ 2 * (b 1 + b 2) * (b' 1 + 1) = (b 1 + 1) ^ 2 + (b 2 - 1) ^ 2 + 18 := by
  obtain ⟨δ, h1, h2, -⟩ := hs
  obtain ⟨p1, p2, p3, p4⟩ := circRes_partials b
  have e1 := h1 1 (by simp)
  have e2 := h1 2 (by simp)
  have f1 := h2 1 (by simp)
  have f2 := h2 2 (by simp)
  simp only [List.map_cons, List.map_nil, List.sum_cons, List.sum_nil, add_zero, normalA, normalB,
    Finset.sum_range_succ, Finset.sum_range_zero, zero_add, p1, p2, p3, p4, circRes] at e1 e2
  -- u = (J δ - r)₀, w = (J δ - r)₁; Jᵀ (u, w) = 0
  set u := 2 * b 1 * δ 1 + 2 * b 2 * δ 2 - (b 1 * b 1 + b 2 * b 2 - 20) with hu
  set w := δ 1 - δ 2 - (b 1 - b 2 + 2) with hw
  have k1 : 2 * b 1 * u + w = 0 := by rw [hu, hw]; linear_combination e1
  have k2 : 2 * b 2 * u - w = 0 := by rw [hu, hw]; linear_combination e2
  have ku : u = 0 := by
    have : (b 1 + b 2) * u = 0 := by linear_combination (k1 + k2) / 2
    exact (mul_eq_zero.1 this).resolve_left h
  have kw : w = 0 := by rw [ku] at k1; linarith
  rw [hu] at ku
  rw [hw] at kw
  refine ⟨by rw [f1, f2]; linarith, ?_⟩
  rw [f1]
  linear_combination (-1) * ku - 2 * b 2 * kw

/-- On the line `y = x + 2` the step is Newton's iteration for `u² = 9`, `u = x + 1`, in which `(u-3)/(u+3)` is squared;
the first step leads from any point to that line. -/
theorem circRes_steps {n : ℕ} {b₀ b : ℕ → ℝ} (h0 : b₀ 1 + b₀ 2 ≠ 0)
    (h : GNSteps 2 [1, 2] circRes (partials circRes) (n + 1) b₀ b) :
    b 2 = b 1 + 2 ∧ 0 < (b₀ 1 + b₀ 2) * (b 1 + b 2) ∧
      (b 1 - 2) * ((b₀ 1 + 4) ^ 2 + (b₀ 2 + 2) ^ 2) ^ 2 ^ n =
        (b 1 + 4) * ((b₀ 1 - 2) ^ 2 + (b₀ 2 - 4) ^ 2) ^ 2 ^ n := by
  induction n generalizing b with
  | zero =>
      cases h with
      | @succ _ _ b' _ hz hs =>
      cases hz
      obtain ⟨e1, e2⟩ := circRes_step h0 hs
      refine ⟨e1, ?_, ?_⟩
      · rw [e1]
        nlinarith [sq_nonneg (b₀ 1 + 1), sq_nonneg (b₀ 2 - 1)]
      · have hk : (b₀ 1 + b₀ 2) * ((b 1 - 2) * ((b₀ 1 + 4) ^ 2 + (b₀ 2 + 2) ^ 2) ^ 2 ^ 0 -
            (b 1 + 4) * ((b₀ 1 - 2) ^ 2 + (b₀ 2 - 4) ^ 2) ^ 2 ^ 0) = 0 := by
          simp only [pow_zero, pow_one]
          linear_combination 6 * (b₀ 1 + b₀ 2) * e2
        exact sub_eq_zero.1 ((mul_eq_zero.1 hk).resolve_left h0)
  | succ n ih =>
      cases h with
      | @succ _ _ b' _ hp hs =>
      obtain ⟨i1, i2, i3⟩ := ih hp
      have hne : b' 1 + b' 2 ≠ 0 := fun h => by rw [h, mul_zero] at i2; exact lt_irrefl _ i2
      obtain ⟨e1, e2⟩ := circRes_step hne hs
      rw [i1] at e2 hne i2
      have hu : b' 1 + 1 ≠ 0 := fun h => hne (by linarith)
      have key : (b' 1 + 1) * (b 1 + 1) = ((b' 1 + 1) ^ 2 + 9) / 2 := by linear_combination e2 / 4
      refine ⟨e1, ?_, ?_⟩
      · rw [e1]
        have h1 : 0 < (b' 1 + 1) * (b 1 + 1) := by rw [key]; positivity
        have h2 : 0 < ((b₀ 1 + b₀ 2) * (b' 1 + 1)) * ((b' 1 + 1) * (b 1 + 1)) := mul_pos (by linarith) h1
        have h3 : ((b₀ 1 + b₀ 2) * (b' 1 + 1)) * ((b' 1 + 1) * (b 1 + 1)) =
            (b' 1 + 1) ^ 2 * ((b₀ 1 + b₀ 2) * (b 1 + 1)) := by ring
        rw [h3] at h2
        have h4 : 0 < (b' 1 + 1) ^ 2 := by positivity
        have := (mul_pos_iff_of_pos_left h4).1 h2
        linarith
      · set M := ((b₀ 1 + 4) ^ 2 + (b₀ 2 + 2) ^ 2) ^ 2 ^ n
        set N := ((b₀ 1 - 2) ^ 2 + (b₀ 2 - 4) ^ 2) ^ 2 ^ n
        have eM : ((b₀ 1 + 4) ^ 2 + (b₀ 2 + 2) ^ 2) ^ 2 ^ (n + 1) = M ^ 2 := by rw [pow_succ 2 n, pow_mul]
        have eN : ((b₀ 1 - 2) ^ 2 + (b₀ 2 - 4) ^ 2) ^ 2 ^ (n + 1) = N ^ 2 := by rw [pow_succ 2 n, pow_mul]
        rw [eM, eN]
        have hk : (b' 1 + 1) * ((b 1 - 2) * M ^ 2 - (b 1 + 4) * N ^ 2) = 0 := by
          have a1 : (b' 1 + 1) * (b 1 - 2) = (b' 1 - 2) ^ 2 / 2 := by linear_combination key
          have a2 : (b' 1 + 1) * (b 1 + 4) = (b' 1 + 4) ^ 2 / 2 := by linear_combination key
          have a3 : (b' 1 - 2) ^ 2 * M ^ 2 = (b' 1 + 4) ^ 2 * N ^ 2 := by rw [← mul_pow, ← mul_pow, i3]
          linear_combination M ^ 2 * a1 - N ^ 2 * a2 + a3 / 2
        exact sub_eq_zero.1 ((mul_eq_zero.1 hk).resolve_left hu)

/-! ## Rotation and translation of points -/

/-- The residuals of `GNMatrix`: `Y_i - (R(θ) X_i + t)` with `b 1 = θ`, `b 2 = tx`, `b 3 = ty`; residual `2*i+a` is
element `a` for data row `i`. -/
noncomputable def rotRes (x y : ℕ → ℕ → ℝ) (k : ℕ) (b : ℕ → ℝ) : ℝ :=
  if k % 2 = 0 then
    y (k / 2) 0 - (Real.cos (b 1) * x (k / 2) 0 + Real.sin (b 1) * x (k / 2) 1 + b 2)
  else
    y (k / 2) 1 - (-Real.sin (b 1) * x (k / 2) 0 + Real.cos (b 1) * x (k / 2) 1 + b 3)

theorem rotRes_even (x y : ℕ → ℕ → ℝ) (i : ℕ) (b : ℕ → ℝ) : rotRes x y (i * 2) b =
    y i 0 - (Real.cos (b 1) * x i 0 + Real.sin (b 1) * x i 1 + b 2) := by
  rw [rotRes, if_pos (by omega), Nat.mul_div_cancel _ two_pos]

theorem rotRes_odd (x y : ℕ → ℕ → ℝ) (i : ℕ) (b : ℕ → ℝ) : rotRes x y (i * 2 + 1) b =
    y i 1 - (-Real.sin (b 1) * x i 0 + Real.cos (b 1) * x i 1 + b 3) := by
  rw [rotRes, if_neg (by omega), show (i * 2 + 1) / 2 = i by omega]

theorem rotRes_partials (x y : ℕ → ℕ → ℝ) (i : ℕ) (b : ℕ → ℝ) :
    partials (rotRes x y) (i * 2) 1 b = Real.sin (b 1) * x i 0 - Real.cos (b 1) * x i 1 ∧
    partials (rotRes x y) (i * 2) 2 b = -1 ∧ partials (rotRes x y) (i * 2) 3 b = 0 ∧
    partials (rotRes x y) (i * 2 + 1) 1 b = Real.cos (b 1) * x i 0 + Real.sin (b 1) * x i 1 ∧
    partials (rotRes x y) (i * 2 + 1) 2 b = 0 ∧ partials (rotRes x y) (i * 2 + 1) 3 b = -1 := by
  have hid : ∀ t : ℝ, HasDerivAt (fun t : ℝ => t) 1 t := fun t => hasDerivAt_id t
  refine ⟨?_, ?_, ?_, ?_, ?_, ?_⟩
  · have h : HasDerivAt (fun t : ℝ => y i 0 - (Real.cos t * x i 0 + Real.sin t * x i 1 + b 2))
        (Real.sin (b 1) * x i 0 - Real.cos (b 1) * x i 1) (b 1) := by
      refine (((((Real.hasDerivAt_cos (b 1)).mul_const (x i 0)).add
        ((Real.hasDerivAt_sin (b 1)).mul_const (x i 1))).add_const (b 2)).const_sub (y i 0)).congr_deriv ?_
      ring
    simpa [partials, rotRes_even] using h.deriv
  · have h : HasDerivAt (fun t : ℝ => y i 0 - (Real.cos (b 1) * x i 0 + Real.sin (b 1) * x i 1 + t)) (-1) (b 2) :=
      ((hid (b 2)).const_add _).const_sub (y i 0)
    simpa [partials, rotRes_even] using h.deriv
  · simp [partials, rotRes_even]
  · have h : HasDerivAt (fun t : ℝ => y i 1 - (-Real.sin t * x i 0 + Real.cos t * x i 1 + b 3))
        (Real.cos (b 1) * x i 0 + Real.sin (b 1) * x i 1) (b 1) := by
      refine (((((Real.hasDerivAt_sin (b 1)).neg.mul_const (x i 0)).add
        ((Real.hasDerivAt_cos (b 1)).mul_const (x i 1))).add_const (b 3)).const_sub (y i 1)).congr_deriv ?_
      ring
    simpa [partials, rotRes_odd] using h.deriv
  · simp [partials, rotRes_odd]
  · have h : HasDerivAt (fun t : ℝ => y i 1 - (-Real.sin (b 1) * x i 0 + Real.cos (b 1) * x i 1 + t)) (-1) (b 3) :=
      ((hid (b 3)).const_add _).const_sub (y i 1)
    simpa [partials, rotRes_odd] using h.deriv

/-- Two of the points differ. -/
def TwoPoints (m : ℕ) (x : ℕ → ℕ → ℝ) : Prop := ∃ i < m, ∃ k < m, x i 0 ≠ x k 0 ∨ x i 1 ≠ x k 1

theorem rotRes_rank {m : ℕ} {x : ℕ → ℕ → ℝ} (h : TwoPoints m x) (y : ℕ → ℕ → ℝ) (b : ℕ → ℝ) :
    FullRank (m * 2) [1, 2, 3] (partials (rotRes x y)) b := by
  obtain ⟨i, hi, k, hk, hne⟩ := h
  intro v hv z hz
  have key : ∀ l < m, (Real.sin (b 1) * x l 0 - Real.cos (b 1) * x l 1) * v 1 = v 2 ∧
      (Real.cos (b 1) * x l 0 + Real.sin (b 1) * x l 1) * v 1 = v 3 := by
    intro l hl
    obtain ⟨p1, p2, p3, p4, p5, p6⟩ := rotRes_partials x y l b
    have h0 := hv (l * 2) (by omega)
    have h1 := hv (l * 2 + 1) (by omega)
    simp only [List.map_cons, List.map_nil, List.sum_cons, List.sum_nil, p1, p2, p3, p4, p5, p6] at h0 h1
    constructor <;> linarith
  obtain ⟨a1, a2⟩ := key i hi
  obtain ⟨c1, c2⟩ := key k hk
  have hsc := Real.sin_sq_add_cos_sq (b 1)
  have g0 : (x i 0 - x k 0) * v 1 = 0 := by
    linear_combination (-(x i 0 - x k 0) * v 1) * hsc + Real.sin (b 1) * (a1 - c1) + Real.cos (b 1) * (a2 - c2)
  have g1 : (x i 1 - x k 1) * v 1 = 0 := by
    linear_combination (-(x i 1 - x k 1) * v 1) * hsc - Real.cos (b 1) * (a1 - c1) + Real.sin (b 1) * (a2 - c2)
  have hv1 : v 1 = 0 := by
    rcases hne with h | h
    · exact (mul_eq_zero.1 g0).resolve_left (sub_ne_zero.2 h)
    · exact (mul_eq_zero.1 g1).resolve_left (sub_ne_zero.2 h)
  rw [hv1, mul_zero] at a1 a2
  simp only [List.mem_cons, List.not_mem_nil, or_false] at hz
  rcases hz with rfl | rfl | rfl
  · exact hv1
  · exact a1.symm
  · exact a2.symm

theorem sum_evenOdd (m : ℕ) (f : ℕ → ℝ) : ∑ k ∈ Finset.range (m * 2), f k =
    ∑ i ∈ Finset.range m, (f (i * 2) + f (i * 2 + 1)) := by
  induction m with
  | zero => simp
  | succ m ih =>
      rw [show (m + 1) * 2 = m * 2 + 1 + 1 by ring, Finset.sum_range_succ, Finset.sum_range_succ, ih,
        Finset.sum_range_succ]
      ring

/-- Spread of the points: `m² ·` (sum of the variances of the coordinates). -/
noncomputable def spread (m : ℕ) (x : ℕ → ℕ → ℝ) : ℝ :=
  m * ∑ i ∈ Finset.range m, (x i 0 ^ 2 + x i 1 ^ 2) - (∑ i ∈ Finset.range m, x i 0) ^ 2 -
    (∑ i ∈ Finset.range m, x i 1) ^ 2

/-- `m² ·` (sum of the covariances of equal coordinates). -/
noncomputable def covSame (m : ℕ) (x y : ℕ → ℕ → ℝ) : ℝ :=
  m * ∑ i ∈ Finset.range m, (x i 0 * y i 0 + x i 1 * y i 1) -
    (∑ i ∈ Finset.range m, x i 0) * (∑ i ∈ Finset.range m, y i 0) -
    (∑ i ∈ Finset.range m, x i 1) * (∑ i ∈ Finset.range m, y i 1)

/-- `m² ·` (difference of the covariances of different coordinates). -/
noncomputable def covCross (m : ℕ) (x y : ℕ → ℕ → ℝ) : ℝ :=
  m * ∑ i ∈ Finset.range m, (x i 0 * y i 1 - x i 1 * y i 0) -
    (∑ i ∈ Finset.range m, x i 0) * (∑ i ∈ Finset.range m, y i 1) +
    (∑ i ∈ Finset.range m, x i 1) * (∑ i ∈ Finset.range m, y i 0)

/-- Mean of coordinate `a`. -/
noncomputable def mean (m : ℕ) (x : ℕ → ℕ → ℝ) (a : ℕ) : ℝ := (∑ i ∈ Finset.range m, x i a) / m

theorem spread_pos {m : ℕ} {x : ℕ → ℕ → ℝ} (h : TwoPoints m x) : 0 < spread m x := by
  obtain ⟨i, hi, k, hk, hne⟩ := h
  have hm : (0 : ℝ) < m := by exact_mod_cast (by omega : 0 < m)
  have e : (m : ℝ) * spread m x = ∑ l ∈ Finset.range m, ((m * x l 0 - ∑ i ∈ Finset.range m, x i 0) ^ 2 +
      (m * x l 1 - ∑ i ∈ Finset.range m, x i 1) ^ 2) := by
    set S0 := ∑ i ∈ Finset.range m, x i 0
    set S1 := ∑ i ∈ Finset.range m, x i 1
    have : ∀ l ∈ Finset.range m, ((m * x l 0 - S0) ^ 2 + (m * x l 1 - S1) ^ 2) =
        (m : ℝ) ^ 2 * (x l 0 ^ 2 + x l 1 ^ 2) - 2 * m * S0 * x l 0 - 2 * m * S1 * x l 1 + (S0 ^ 2 + S1 ^ 2) := by
      intro l _; ring
    rw [Finset.sum_congr rfl this, Finset.sum_add_distrib, Finset.sum_sub_distrib, Finset.sum_sub_distrib,
      ← Finset.mul_sum, ← Finset.mul_sum, ← Finset.mul_sum, Finset.sum_const, Finset.card_range, nsmul_eq_mul, spread]
    ring
  refine (mul_pos_iff_of_pos_left hm).1 ?_
  rw [e]
  have hnn : ∀ l ∈ Finset.range m, 0 ≤ ((m * x l 0 - ∑ i ∈ Finset.range m, x i 0) ^ 2 +
      (m * x l 1 - ∑ i ∈ Finset.range m, x i 1) ^ 2) := fun l _ => by positivity
  refine lt_of_le_of_ne (Finset.sum_nonneg hnn) fun h0 => ?_
  have hz := (Finset.sum_eq_zero_iff_of_nonneg hnn).1 h0.symm
  have hc : ∀ l < m, (m : ℝ) * x l 0 = ∑ i ∈ Finset.range m, x i 0 ∧ (m : ℝ) * x l 1 = ∑ i ∈ Finset.range m, x i 1 := by
    intro l hl
    have := hz l (Finset.mem_range.2 hl)
    constructor <;> nlinarith [sq_nonneg (m * x l 0 - ∑ i ∈ Finset.range m, x i 0),
      sq_nonneg (m * x l 1 - ∑ i ∈ Finset.range m, x i 1)]
  obtain ⟨a1, a2⟩ := hc i hi
  obtain ⟨c1, c2⟩ := hc k hk
  rcases hne with h | h
  · exact h (mul_left_cancel₀ hm.ne' (a1.trans c1.symm))
  · exact h (mul_left_cancel₀ hm.ne' (a2.trans c2.symm))

/-- One step, for any data. -/
theorem rotRes_step {m : ℕ} {x y : ℕ → ℕ → ℝ} (h : TwoPoints m x) {b b' : ℕ → ℝ}
    (hs : GNStep (m * 2) [1, 2, 3] (rotRes x y) (partials (rotRes x y)) b b') :
    b' 1 = b 1 - (covSame m x y * Real.sin (b 1) + covCross m x y * Real.cos (b 1)) / spread m x ∧
    b' 2 = mean m y 0 - (Real.cos (b 1) * mean m x 0 + Real.sin (b 1) * mean m x 1) -
      (b 1 - b' 1) * (Real.sin (b 1) * mean m x 0 - Real.cos (b 1) * mean m x 1) ∧
    b' 3 = mean m y 1 - (-Real.sin (b 1) * mean m x 0 + Real.cos (b 1) * mean m x 1) -
      (b 1 - b' 1) * (Real.cos (b 1) * mean m x 0 + Real.sin (b 1) * mean m x 1) := by
  have hQ := spread_pos h
  have hm : (0 : ℝ) < m := by
    obtain ⟨i, hi, -⟩ := h
    exact_mod_cast (by omega : 0 < m)
  obtain ⟨δ, h1, h2, -⟩ := hs
  have e1 := h1 1 (by simp)
  have e2 := h1 2 (by simp)
  have e3 := h1 3 (by simp)
  have f1 := h2 1 (by simp)
  have f2 := h2 2 (by simp)
  have f3 := h2 3 (by simp)
  have hp := fun i => rotRes_partials x y i b
  simp only [List.map_cons, List.map_nil, List.sum_cons, List.sum_nil, add_zero, normalA, normalB, sum_evenOdd,
    fun i => (hp i).1, fun i => (hp i).2.1, fun i => (hp i).2.2.1, fun i => (hp i).2.2.2.1, fun i => (hp i).2.2.2.2.1,
    fun i => (hp i).2.2.2.2.2, rotRes_even, rotRes_odd] at e1 e2 e3
  set s := Real.sin (b 1)
  set c := Real.cos (b 1)
  have hsc : s ^ 2 + c ^ 2 = 1 := Real.sin_sq_add_cos_sq (b 1)
  set S0 := ∑ i ∈ Finset.range m, x i 0 with hS0
  set S1 := ∑ i ∈ Finset.range m, x i 1 with hS1
  set T0 := ∑ i ∈ Finset.range m, y i 0 with hT0
  set T1 := ∑ i ∈ Finset.range m, y i 1 with hT1
  set X2 := ∑ i ∈ Finset.range m, (x i 0 ^ 2 + x i 1 ^ 2) with hX2
  set C := ∑ i ∈ Finset.range m, (x i 0 * y i 0 + x i 1 * y i 1) with hC
  set D := ∑ i ∈ Finset.range m, (x i 0 * y i 1 - x i 1 * y i 0) with hD
  have hone : ∑ i ∈ Finset.range m, (1 : ℝ) = m := by simp
  have n11 : ∑ i ∈ Finset.range m, ((s * x i 0 - c * x i 1) * (s * x i 0 - c * x i 1) +
      (c * x i 0 + s * x i 1) * (c * x i 0 + s * x i 1)) = X2 := by
    rw [hX2]
    refine Finset.sum_congr rfl fun i _ => ?_
    linear_combination (x i 0 ^ 2 + x i 1 ^ 2) * hsc
  have n12 : ∑ i ∈ Finset.range m, ((s * x i 0 - c * x i 1) * -1 + (c * x i 0 + s * x i 1) * 0) = -(s * S0 - c * S1) := by
    rw [hS0, hS1, Finset.mul_sum, Finset.mul_sum, ← Finset.sum_sub_distrib, ← Finset.sum_neg_distrib]
    exact Finset.sum_congr rfl fun i _ => by ring
  have n13 : ∑ i ∈ Finset.range m, ((s * x i 0 - c * x i 1) * 0 + (c * x i 0 + s * x i 1) * -1) = -(c * S0 + s * S1) := by
    rw [hS0, hS1, Finset.mul_sum, Finset.mul_sum, ← Finset.sum_add_distrib, ← Finset.sum_neg_distrib]
    exact Finset.sum_congr rfl fun i _ => by ring
  have n21 : ∑ i ∈ Finset.range m, (-1 * (s * x i 0 - c * x i 1) + 0 * (c * x i 0 + s * x i 1)) = -(s * S0 - c * S1) := by
    rw [← n12]; exact Finset.sum_congr rfl fun i _ => by ring
  have n31 : ∑ i ∈ Finset.range m, (0 * (s * x i 0 - c * x i 1) + -1 * (c * x i 0 + s * x i 1)) = -(c * S0 + s * S1) := by
    rw [← n13]; exact Finset.sum_congr rfl fun i _ => by ring
  have n22 : ∑ i ∈ Finset.range m, ((-1 : ℝ) * -1 + 0 * 0) = m := by
    rw [← hone]; exact Finset.sum_congr rfl fun i _ => by ring
  have n33 : ∑ i ∈ Finset.range m, ((0 : ℝ) * 0 + -1 * -1) = m := by
    rw [← hone]; exact Finset.sum_congr rfl fun i _ => by ring
  have n23 : ∑ i ∈ Finset.range m, ((-1 : ℝ) * 0 + 0 * -1) = 0 := Finset.sum_eq_zero fun i _ => by ring
  have n32 : ∑ i ∈ Finset.range m, ((0 : ℝ) * -1 + -1 * 0) = 0 := Finset.sum_eq_zero fun i _ => by ring
  have nb1 : ∑ i ∈ Finset.range m, ((y i 0 - (c * x i 0 + s * x i 1 + b 2)) * (s * x i 0 - c * x i 1) +
      (y i 1 - (-s * x i 0 + c * x i 1 + b 3)) * (c * x i 0 + s * x i 1)) =
      s * C + c * D - b 2 * (s * S0 - c * S1) - b 3 * (c * S0 + s * S1) := by
    rw [hS0, hS1, hC, hD]
    simp only [Finset.mul_sum, ← Finset.sum_add_distrib, ← Finset.sum_sub_distrib]
    exact Finset.sum_congr rfl fun i _ => by ring
  have nb2 : ∑ i ∈ Finset.range m, ((y i 0 - (c * x i 0 + s * x i 1 + b 2)) * -1 +
      (y i 1 - (-s * x i 0 + c * x i 1 + b 3)) * 0) = -(T0 - (c * S0 + s * S1) - b 2 * m) := by
    rw [hS0, hS1, hT0, ← hone]
    simp only [Finset.mul_sum, ← Finset.sum_add_distrib, ← Finset.sum_sub_distrib, ← Finset.sum_neg_distrib]
    exact Finset.sum_congr rfl fun i _ => by ring
  have nb3 : ∑ i ∈ Finset.range m, ((y i 0 - (c * x i 0 + s * x i 1 + b 2)) * 0 +
      (y i 1 - (-s * x i 0 + c * x i 1 + b 3)) * -1) = -(T1 - (-s * S0 + c * S1) - b 3 * m) := by
    rw [hS0, hS1, hT1, ← hone]
    simp only [Finset.mul_sum, ← Finset.sum_add_distrib, ← Finset.sum_sub_distrib, ← Finset.sum_neg_distrib]
    exact Finset.sum_congr rfl fun i _ => by ring
  rw [n11, n12, n13, nb1] at e1
  rw [n21, n22, n23, nb2] at e2
  rw [n31, n32, n33, nb3] at e3
  have k1 : spread m x * δ 1 = covSame m x y * s + covCross m x y * c := by
    simp only [spread, covSame, covCross, ← hS0, ← hS1, ← hT0, ← hT1, ← hX2, ← hC, ← hD]
    linear_combination (m : ℝ) * e1 + (s * S0 - c * S1) * e2 + (c * S0 + s * S1) * e3 +
      ((S0 ^ 2 + S1 ^ 2) * δ 1) * hsc
  have d1 : b 1 - b' 1 = δ 1 := by rw [f1]; ring
  refine ⟨?_, ?_, ?_⟩
  · rw [f1, ← k1, mul_div_cancel_left₀ _ hQ.ne']
  · rw [d1, f2]
    simp only [mean, ← hS0, ← hS1, ← hT0]
    field_simp
    linear_combination (-1) * e2
  · rw [d1, f3]
    simp only [mean, ← hS0, ← hS1, ← hT1]
    field_simp
    linear_combination (-1) * e3

/-- The images are the points turned by `θ` and moved by `(tx, ty)`. -/
def Moved (m : ℕ) (x y : ℕ → ℕ → ℝ) (θ tx ty : ℝ) : Prop :=
  ∀ i < m, y i 0 = Real.cos θ * x i 0 + Real.sin θ * x i 1 + tx ∧ y i 1 = -Real.sin θ * x i 0 + Real.cos θ * x i 1 + ty

theorem Moved.cov {m : ℕ} {x y : ℕ → ℕ → ℝ} {θ tx ty : ℝ} (h : Moved m x y θ tx ty) :
    covSame m x y = spread m x * Real.cos θ ∧ covCross m x y = -(spread m x * Real.sin θ) ∧
    ∑ i ∈ Finset.range m, y i 0 = Real.cos θ * (∑ i ∈ Finset.range m, x i 0) + Real.sin θ * (∑ i ∈ Finset.range m, x i 1) + m * tx ∧
    ∑ i ∈ Finset.range m, y i 1 = -Real.sin θ * (∑ i ∈ Finset.range m, x i 0) + Real.cos θ * (∑ i ∈ Finset.range m, x i 1) + m * ty := by
  have hone : ∑ i ∈ Finset.range m, (1 : ℝ) = m := by simp
  have t0 : ∑ i ∈ Finset.range m, y i 0 =
      Real.cos θ * (∑ i ∈ Finset.range m, x i 0) + Real.sin θ * (∑ i ∈ Finset.range m, x i 1) + m * tx := by
    rw [← hone, Finset.sum_mul]
    simp only [Finset.mul_sum, ← Finset.sum_add_distrib]
    exact Finset.sum_congr rfl fun i hi => by rw [(h i (Finset.mem_range.1 hi)).1]; ring
  have t1 : ∑ i ∈ Finset.range m, y i 1 =
      -Real.sin θ * (∑ i ∈ Finset.range m, x i 0) + Real.cos θ * (∑ i ∈ Finset.range m, x i 1) + m * ty := by
    rw [← hone, Finset.sum_mul]
    simp only [Finset.mul_sum, ← Finset.sum_add_distrib]
    exact Finset.sum_congr rfl fun i hi => by rw [(h i (Finset.mem_range.1 hi)).2]; ring
  have c0 : ∑ i ∈ Finset.range m, (x i 0 * y i 0 + x i 1 * y i 1) =
      Real.cos θ * (∑ i ∈ Finset.range m, (x i 0 ^ 2 + x i 1 ^ 2)) + tx * (∑ i ∈ Finset.range m, x i 0) +
        ty * (∑ i ∈ Finset.range m, x i 1) := by
    simp only [Finset.mul_sum, ← Finset.sum_add_distrib]
    exact Finset.sum_congr rfl fun i hi => by
      rw [(h i (Finset.mem_range.1 hi)).1, (h i (Finset.mem_range.1 hi)).2]; ring
  have c1 : ∑ i ∈ Finset.range m, (x i 0 * y i 1 - x i 1 * y i 0) =
      -Real.sin θ * (∑ i ∈ Finset.range m, (x i 0 ^ 2 + x i 1 ^ 2)) + ty * (∑ i ∈ Finset.range m, x i 0) -
        tx * (∑ i ∈ Finset.range m, x i 1) := by
    simp only [Finset.mul_sum, ← Finset.sum_add_distrib, ← Finset.sum_sub_distrib]
    exact Finset.sum_congr rfl fun i hi => by
      rw [(h i (Finset.mem_range.1 hi)).1, (h i (Finset.mem_range.1 hi)).2]; ring
  refine ⟨?_, ?_, t0, t1⟩
  · rw [covSame, spread, c0, t0, t1]; ring
  · rw [covCross, spread, c1, t0, t1]; ring

/-- One step when the images are exact: the error `e` of the angle becomes `e - sin e`, whatever the translation, and the
error of the translation is `(1 - cos e)` times the turned centre of the points. -/
theorem Moved.step {m : ℕ} {x y : ℕ → ℕ → ℝ} {θ tx ty : ℝ} (hd : Moved m x y θ tx ty) (h : TwoPoints m x) {b b' : ℕ → ℝ}
    (hs : GNStep (m * 2) [1, 2, 3] (rotRes x y) (partials (rotRes x y)) b b') :
    b' 1 - θ = (b 1 - θ) - Real.sin (b 1 - θ) ∧
    b' 2 - tx = -(1 - Real.cos (b 1 - θ)) * (Real.cos (b 1) * mean m x 0 + Real.sin (b 1) * mean m x 1) ∧
    b' 3 - ty = -(1 - Real.cos (b 1 - θ)) * (-Real.sin (b 1) * mean m x 0 + Real.cos (b 1) * mean m x 1) := by
  have hQ := spread_pos h
  have hm : (0 : ℝ) < m := by
    obtain ⟨i, hi, -⟩ := h
    exact_mod_cast (by omega : 0 < m)
  obtain ⟨g1, g2, g3⟩ := rotRes_step h hs
  obtain ⟨c1, c2, t0, t1⟩ := hd.cov
  have e1 : b 1 - b' 1 = Real.sin (b 1 - θ) := by
    rw [g1, c1, c2, Real.sin_sub]
    field_simp
    ring
  have hsc := Real.sin_sq_add_cos_sq (b 1)
  have m0 : mean m y 0 = Real.cos θ * mean m x 0 + Real.sin θ * mean m x 1 + tx := by
    simp only [mean, t0]; field_simp
  have m1 : mean m y 1 = -Real.sin θ * mean m x 0 + Real.cos θ * mean m x 1 + ty := by
    simp only [mean, t1]; field_simp
  refine ⟨by linarith, ?_, ?_⟩
  · rw [g2, e1, m0, Real.sin_sub, Real.cos_sub]
    linear_combination (-(Real.cos θ * mean m x 0 + Real.sin θ * mean m x 1)) * hsc
  · rw [g3, e1, m1, Real.sin_sub, Real.cos_sub]
    linear_combination (-(-Real.sin θ * mean m x 0 + Real.cos θ * mean m x 1)) * hsc

/-- `n` steps: the angle. -/
theorem Moved.steps {m : ℕ} {x y : ℕ → ℕ → ℝ} {θ tx ty : ℝ} (hd : Moved m x y θ tx ty) (h : TwoPoints m x) {n : ℕ}
    {b₀ b : ℕ → ℝ} (hs : GNSteps (m * 2) [1, 2, 3] (rotRes x y) (partials (rotRes x y)) n b₀ b) :
    b 1 - θ = (fun e => e - Real.sin e)^[n] (b₀ 1 - θ) := by
  induction hs with
  | zero => rfl
  | succ _ hs ih => rw [Function.iterate_succ_apply', ← ih, (hd.step h hs).1]

/-- The angle converges. -/
theorem iterate_sub_sin (n : ℕ) {e : ℝ} (he : |e| ≤ Real.pi / 2) :
    |(fun e => e - Real.sin e)^[n] e| ≤ (1 - 2 / Real.pi) ^ n * |e| := by
  have hpi := Real.pi_pos
  have h2 : 0 ≤ 1 - 2 / Real.pi := by
    have : 2 / Real.pi ≤ 1 := (div_le_one hpi).2 Real.two_le_pi
    linarith
  have key : ∀ e : ℝ, |e| ≤ Real.pi / 2 → |e - Real.sin e| ≤ (1 - 2 / Real.pi) * |e| := by
    intro e he
    rcases le_total 0 e with h0 | h0
    · rw [abs_of_nonneg h0] at he ⊢
      have h1 := Real.mul_le_sin h0 he
      have h3 := Real.sin_le h0
      rw [abs_of_nonneg (by linarith)]
      linarith
    · rw [abs_of_nonpos h0] at he ⊢
      have h1 := Real.mul_le_sin (x := -e) (by linarith) he
      have h3 := Real.sin_le (x := -e) (by linarith)
      rw [Real.sin_neg] at h1 h3
      rw [abs_of_nonpos (by linarith)]
      linarith
  induction n with
  | zero => simp
  | succ n ih =>
      rw [Function.iterate_succ_apply']
      have hle : (1 - 2 / Real.pi) ^ n * |e| ≤ |e| := by
        refine mul_le_of_le_one_left (abs_nonneg e) (pow_le_one₀ h2 ?_)
        have : 0 ≤ 2 / Real.pi := by positivity
        linarith
      refine (key _ ((ih.trans hle).trans he)).trans ?_
      rw [pow_succ]
      calc _ ≤ (1 - 2 / Real.pi) * ((1 - 2 / Real.pi) ^ n * |e|) := mul_le_mul_of_nonneg_left ih h2
        _ = _ := by ring

end CoolDiff
