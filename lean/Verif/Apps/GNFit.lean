import Verif.Apps.GNClosed
import Mathlib.Analysis.SpecialFunctions.Complex.Arg

/-!
# Gauss–Newton for a rotation and a translation: where the iteration goes for any data

Mathematics only.  `Best m x y φ κ`: `φ` is the angle of the least squares fit of the points `y` to the turned and moved
points `x`; `κ` is the factor by which a fit that may also scale would scale.
-/

set_option linter.unusedSectionVars false

namespace CoolDiff

structure Best (m : ℕ) (x y : ℕ → ℕ → ℝ) (φ κ : ℝ) : Prop where
  scale : 0 ≤ κ
  same : covSame m x y = κ * spread m x * Real.cos φ
  cross : covCross m x y = -(κ * spread m x * Real.sin φ)

/-- There is such an angle, for any data. -/
theorem exists_best {m : ℕ} {x : ℕ → ℕ → ℝ} (h : TwoPoints m x) (y : ℕ → ℕ → ℝ) : ∃ φ κ, Best m x y φ κ := by
  have hQ := spread_pos h
  set z : ℂ := ⟨covSame m x y, -covCross m x y⟩ with hz
  refine ⟨z.arg, ‖z‖ / spread m x, ⟨by positivity, ?_, ?_⟩⟩
  · rw [div_mul_cancel₀ _ hQ.ne', Complex.norm_mul_cos_arg]
  · rw [div_mul_cancel₀ _ hQ.ne', Complex.norm_mul_sin_arg]; simp [hz]

/-- The point of the fit. -/
noncomputable def fitX (m : ℕ) (x y : ℕ → ℕ → ℝ) (φ : ℝ) : ℝ :=
  mean m y 0 - (Real.cos φ * mean m x 0 + Real.sin φ * mean m x 1)

noncomputable def fitY (m : ℕ) (x y : ℕ → ℕ → ℝ) (φ : ℝ) : ℝ :=
  mean m y 1 - (-Real.sin φ * mean m x 0 + Real.cos φ * mean m x 1)

/-- The sum of squares, for any data and at any point. -/
theorem rot_sumSq {m : ℕ} (hm : 0 < m) (x y : ℕ → ℕ → ℝ) (b : ℕ → ℝ) :
    m * sumSq (m * 2) (rotRes x y) b = spread m y + spread m x -
      2 * (covSame m x y * Real.cos (b 1) - covCross m x y * Real.sin (b 1)) +
      (m * (fitX m x y (b 1) - b 2)) ^ 2 + (m * (fitY m x y (b 1) - b 3)) ^ 2 := by
  have hm' : (m : ℝ) ≠ 0 := by exact_mod_cast hm.ne'
  simp only [sumSq, sum_evenOdd, rotRes_even, rotRes_odd, fitX, fitY, mean, spread, covSame, covCross]
  have hsc : Real.sin (b 1) ^ 2 + Real.cos (b 1) ^ 2 = 1 := Real.sin_sq_add_cos_sq (b 1)
  set s := Real.sin (b 1)
  set c := Real.cos (b 1)
  have key : ∑ i ∈ Finset.range m, ((y i 0 - (c * x i 0 + s * x i 1 + b 2)) ^ 2 +
      (y i 1 - (-s * x i 0 + c * x i 1 + b 3)) ^ 2) =
      ∑ i ∈ Finset.range m, (y i 0 ^ 2 + y i 1 ^ 2) + ∑ i ∈ Finset.range m, (x i 0 ^ 2 + x i 1 ^ 2) +
      (b 2 ^ 2 + b 3 ^ 2) * ∑ i ∈ Finset.range m, (1 : ℝ) -
      2 * c * ∑ i ∈ Finset.range m, (x i 0 * y i 0 + x i 1 * y i 1) +
      2 * s * ∑ i ∈ Finset.range m, (x i 0 * y i 1 - x i 1 * y i 0) -
      2 * b 2 * ∑ i ∈ Finset.range m, y i 0 - 2 * b 3 * ∑ i ∈ Finset.range m, y i 1 +
      2 * (b 2 * c - b 3 * s) * ∑ i ∈ Finset.range m, x i 0 + 2 * (b 2 * s + b 3 * c) * ∑ i ∈ Finset.range m, x i 1 := by
    simp only [Finset.mul_sum, ← Finset.sum_add_distrib, ← Finset.sum_sub_distrib]
    refine Finset.sum_congr rfl fun i _ => ?_
    linear_combination (x i 0 ^ 2 + x i 1 ^ 2) * hsc
  rw [key, Finset.sum_const, Finset.card_range, nsmul_eq_mul, mul_one]
  set S0 := ∑ i ∈ Finset.range m, x i 0
  set S1 := ∑ i ∈ Finset.range m, x i 1
  set T0 := ∑ i ∈ Finset.range m, y i 0
  set T1 := ∑ i ∈ Finset.range m, y i 1
  field_simp
  linear_combination (-(S0 ^ 2 + S1 ^ 2)) * hsc

/-- The fit has the least sum of squares of all rotations and translations. -/
theorem Best.least {m : ℕ} {x y : ℕ → ℕ → ℝ} {φ κ : ℝ} (h : Best m x y φ κ) (h2 : TwoPoints m x) {b : ℕ → ℝ} (h1 : b 1 = φ)
    (hx : b 2 = fitX m x y φ) (hy : b 3 = fitY m x y φ) (b' : ℕ → ℝ) :
    sumSq (m * 2) (rotRes x y) b ≤ sumSq (m * 2) (rotRes x y) b' := by
  have hm : 0 < m := by obtain ⟨i, hi, -⟩ := h2; omega
  have hm' : (0 : ℝ) < m := by exact_mod_cast hm
  have hQ := spread_pos h2
  refine le_of_mul_le_mul_left ?_ hm'
  rw [rot_sumSq hm, rot_sumSq hm, h1, hx, hy, h.same, h.cross, sub_self, sub_self]
  have e1 : Real.cos φ * Real.cos (b' 1) + Real.sin φ * Real.sin (b' 1) ≤ 1 := by
    rw [← Real.cos_sub]; exact Real.cos_le_one _
  have e2 : Real.cos φ * Real.cos φ + Real.sin φ * Real.sin φ = 1 := by
    rw [← Real.cos_sub, sub_self, Real.cos_zero]
  have hk : 0 ≤ κ * spread m x := mul_nonneg h.scale hQ.le
  nlinarith [mul_le_mul_of_nonneg_left e1 hk, sq_nonneg (m * (fitX m x y (b' 1) - b' 2)),
    sq_nonneg (m * (fitY m x y (b' 1) - b' 3))]

/-- One step, for any data. -/
theorem Best.step {m : ℕ} {x y : ℕ → ℕ → ℝ} {φ κ : ℝ} (h : Best m x y φ κ) (h2 : TwoPoints m x) {b b' : ℕ → ℝ}
    (hs : GNStep (m * 2) [1, 2, 3] (rotRes x y) (partials (rotRes x y)) b b') :
    b' 1 - φ = (b 1 - φ) - κ * Real.sin (b 1 - φ) ∧
    |b' 2 - fitX m x y φ| ≤ (2 * |b 1 - φ| + |b' 1 - φ|) * (|mean m x 0| + |mean m x 1|) ∧
    |b' 3 - fitY m x y φ| ≤ (2 * |b 1 - φ| + |b' 1 - φ|) * (|mean m x 0| + |mean m x 1|) := by
  have hQ := spread_pos h2
  obtain ⟨e1, e2, e3⟩ := rotRes_step h2 hs
  have hc : |Real.cos φ - Real.cos (b 1)| ≤ |b 1 - φ| := by
    rw [abs_sub_comm (b 1) φ]; exact Real.abs_cos_sub_cos_le _ _
  have hsn : |Real.sin φ - Real.sin (b 1)| ≤ |b 1 - φ| := by
    rw [abs_sub_comm (b 1) φ]; exact Real.abs_sin_sub_sin_le _ _
  have hd : |b 1 - b' 1| ≤ |b 1 - φ| + |b' 1 - φ| := by
    have := abs_sub (b 1 - φ) (b' 1 - φ)
    simpa using this
  have c1 := Real.abs_cos_le_one (b 1)
  have s1 := Real.abs_sin_le_one (b 1)
  have gen : ∀ u v w z p q : ℝ, |u| ≤ |b 1 - φ| → |v| ≤ |b 1 - φ| → |w| ≤ 1 → |z| ≤ 1 →
      |(u * p + v * q) - (b 1 - b' 1) * (w * p + z * q)| ≤ (2 * |b 1 - φ| + |b' 1 - φ|) * (|p| + |q|) := by
    intro u v w z p q hu hv hw hz
    refine (abs_sub _ _).trans ?_
    have k1 : |u * p + v * q| ≤ |b 1 - φ| * (|p| + |q|) := by
      refine (abs_add_le _ _).trans ?_
      rw [abs_mul, abs_mul, mul_add]
      exact add_le_add (mul_le_mul_of_nonneg_right hu (abs_nonneg _)) (mul_le_mul_of_nonneg_right hv (abs_nonneg _))
    have k2 : |w * p + z * q| ≤ |p| + |q| := by
      refine (abs_add_le _ _).trans ?_
      rw [abs_mul, abs_mul]
      refine add_le_add ?_ ?_
      · exact mul_le_of_le_one_left (abs_nonneg _) hw
      · exact mul_le_of_le_one_left (abs_nonneg _) hz
    have k3 : |(b 1 - b' 1) * (w * p + z * q)| ≤ (|b 1 - φ| + |b' 1 - φ|) * (|p| + |q|) := by
      rw [abs_mul]
      exact mul_le_mul hd k2 (abs_nonneg _) (by positivity)
    linarith
  refine ⟨?_, ?_, ?_⟩
  · rw [e1, h.same, h.cross, Real.sin_sub]
    field_simp
    ring
  · have := gen (Real.cos φ - Real.cos (b 1)) (Real.sin φ - Real.sin (b 1)) (Real.sin (b 1)) (-Real.cos (b 1)) (mean m x 0)
      (mean m x 1) hc hsn s1 (by rw [abs_neg]; exact c1)
    refine le_of_eq_of_le (congrArg abs ?_) this
    rw [e2, fitX]; ring
  · have := gen (-(Real.sin φ - Real.sin (b 1))) (Real.cos φ - Real.cos (b 1)) (Real.cos (b 1)) (Real.sin (b 1)) (mean m x 0)
      (mean m x 1) (by rw [abs_neg]; exact hsn) hc c1 s1
    refine le_of_eq_of_le (congrArg abs ?_) this
    rw [e3, fitY]; ring

theorem Best.steps {m : ℕ} {x y : ℕ → ℕ → ℝ} {φ κ : ℝ} (h : Best m x y φ κ) (h2 : TwoPoints m x) {n : ℕ}
    {b₀ b : ℕ → ℝ} (hs : GNSteps (m * 2) [1, 2, 3] (rotRes x y) (partials (rotRes x y)) n b₀ b) :
    b 1 - φ = (fun e => e - κ * Real.sin e)^[n] (b₀ 1 - φ) := by
  induction hs with
  | zero => rfl
  | succ _ hs ih => rw [Function.iterate_succ_apply', ← ih, (h.step h2 hs).1]

/-- The factor by which the error of the angle shrinks at least. -/
noncomputable def fitRate (κ : ℝ) : ℝ := max |1 - κ| |1 - 2 / Real.pi * κ|

theorem fitRate_lt {κ : ℝ} (h0 : 0 < κ) (h2 : κ < 2) : fitRate κ < 1 := by
  have hpi := Real.pi_pos
  have k1 : 2 / Real.pi ≤ 1 := (div_le_one hpi).2 Real.two_le_pi
  have k2 : 0 < 2 / Real.pi := by positivity
  refine max_lt ?_ ?_
  · rw [abs_lt]; constructor <;> linarith
  · rw [abs_lt]; constructor <;> nlinarith

theorem fitRate_nonneg (κ : ℝ) : 0 ≤ fitRate κ := (abs_nonneg _).trans (le_max_left _ _)

theorem fit_shrink {κ e : ℝ} (hk : 0 ≤ κ) (he : |e| ≤ Real.pi / 2) : |e - κ * Real.sin e| ≤ fitRate κ * |e| := by
  have pos : ∀ e : ℝ, 0 ≤ e → e ≤ Real.pi / 2 → |e - κ * Real.sin e| ≤ fitRate κ * e := by
    intro e h0 he
    have h1 := Real.mul_le_sin h0 he
    have h3 := Real.sin_le h0
    have m1 := mul_le_mul_of_nonneg_left h1 hk
    have m3 := mul_le_mul_of_nonneg_left h3 hk
    have a1 : -fitRate κ ≤ 1 - κ := (neg_le_neg (le_max_left _ _)).trans (neg_abs_le _)
    have a2 : 1 - 2 / Real.pi * κ ≤ fitRate κ := (le_abs_self _).trans (le_max_right _ _)
    have a1' := mul_le_mul_of_nonneg_right a1 h0
    have a2' := mul_le_mul_of_nonneg_right a2 h0
    rw [abs_le]
    constructor
    · nlinarith
    · nlinarith
  rcases le_total 0 e with h0 | h0
  · rw [abs_of_nonneg h0] at he ⊢; exact pos e h0 he
  · rw [abs_of_nonpos h0] at he ⊢
    have := pos (-e) (by linarith) he
    rw [Real.sin_neg] at this
    rw [← abs_neg]
    refine le_of_eq_of_le (congrArg abs ?_) this
    ring

theorem iterate_fit {κ e : ℝ} (h0 : 0 < κ) (h2 : κ < 2) (n : ℕ) (he : |e| ≤ Real.pi / 2) :
    |(fun e => e - κ * Real.sin e)^[n] e| ≤ fitRate κ ^ n * |e| := by
  have hq := fitRate_nonneg κ
  induction n with
  | zero => simp
  | succ n ih =>
      rw [Function.iterate_succ_apply']
      have hle : fitRate κ ^ n * |e| ≤ |e| := mul_le_of_le_one_left (abs_nonneg e) (pow_le_one₀ hq (fitRate_lt h0 h2).le)
      refine (fit_shrink h0.le ((ih.trans hle).trans he)).trans ?_
      rw [pow_succ]
      calc _ ≤ fitRate κ * (fitRate κ ^ n * |e|) := mul_le_mul_of_nonneg_left ih hq
        _ = _ := by ring

/-- All three unknowns converge to the fit. -/
theorem Best.converges {m : ℕ} {x y : ℕ → ℕ → ℝ} {φ κ : ℝ} (h : Best m x y φ κ) (h2 : TwoPoints m x) (hk : 0 < κ)
    (hk2 : κ < 2) {n : ℕ} {b₀ b : ℕ → ℝ}
    (hs : GNSteps (m * 2) [1, 2, 3] (rotRes x y) (partials (rotRes x y)) (n + 1) b₀ b) (h0 : |b₀ 1 - φ| ≤ Real.pi / 2) :
    |b 1 - φ| ≤ fitRate κ ^ (n + 1) * |b₀ 1 - φ| ∧
    |b 2 - fitX m x y φ| ≤ 3 * fitRate κ ^ n * |b₀ 1 - φ| * (|mean m x 0| + |mean m x 1|) ∧
    |b 3 - fitY m x y φ| ≤ 3 * fitRate κ ^ n * |b₀ 1 - φ| * (|mean m x 0| + |mean m x 1|) := by
  have k1 : |b 1 - φ| ≤ fitRate κ ^ (n + 1) * |b₀ 1 - φ| := by rw [h.steps h2 hs]; exact iterate_fit hk hk2 _ h0
  refine ⟨k1, ?_⟩
  cases hs with
  | @succ _ _ b' _ hs hl =>
      have k0 : |b' 1 - φ| ≤ fitRate κ ^ n * |b₀ 1 - φ| := by rw [h.steps h2 hs]; exact iterate_fit hk hk2 _ h0
      have k2 : fitRate κ ^ (n + 1) * |b₀ 1 - φ| ≤ fitRate κ ^ n * |b₀ 1 - φ| := by
        refine mul_le_mul_of_nonneg_right ?_ (abs_nonneg _)
        rw [pow_succ]
        exact mul_le_of_le_one_right (pow_nonneg (fitRate_nonneg κ) n) (fitRate_lt hk hk2).le
      obtain ⟨-, s2, s3⟩ := h.step h2 hl
      have hM : 0 ≤ |mean m x 0| + |mean m x 1| := by positivity
      have k3 : (2 * |b' 1 - φ| + |b 1 - φ|) * (|mean m x 0| + |mean m x 1|) ≤
          3 * fitRate κ ^ n * |b₀ 1 - φ| * (|mean m x 0| + |mean m x 1|) :=
        mul_le_mul_of_nonneg_right (by linarith) hM
      exact ⟨s2.trans k3, s3.trans k3⟩

end CoolDiff
