import Verif.Props.Machine
import Mathlib.Data.Int.Log
import Mathlib.Data.Rat.Floor
import Mathlib.Algebra.Order.Round
import Mathlib.Algebra.Order.Ring.Pow
import Mathlib.Tactic.Linarith
import Mathlib.Tactic.Positivity
import Mathlib.Tactic.FieldSimp
import Mathlib.Tactic.NormNum
import Mathlib.Tactic.LinearCombination
import Mathlib.Tactic.Ring

/-!
# C64: rounding errors of `Eval`

With operations whose results have relative error at most `u`, `Eval` returns the exact value of the written formula up to one
relative error per operation, provided nothing cancels.
-/

set_option linter.unusedSectionVars false

namespace CoolDiff.Mach

variable {K : Type} [Field K] [LinearOrder K] [IsStrictOrderedRing K]

/-! ## Specification -/

/-- The standard model of rounded arithmetic: every operation returns the exact result with relative error at most `u`
(IEEE: `u = 2^-53` for `double`, as long as nothing overflows or underflows); the numbers 1 and -1 are exact. -/
structure Rounded (R : Arith K) (u : K) : Prop where
  nonneg : 0 ≤ u
  lt_one : u < 1
  add : ∀ a b, |R.add a b - (a + b)| ≤ u * |a + b|
  sub : ∀ a b, |R.sub a b - (a - b)| ≤ u * |a - b|
  mul : ∀ a b, |R.mul a b - a * b| ≤ u * |a * b|
  div : ∀ a b, b ≠ 0 → |R.div a b - a / b| ≤ u * |a / b|
  one : R.one = 1
  negOne : R.negOne = -1

/-- The exact value of a written formula. -/
def exact (R : Arith K) (π ρ : ℕ → K) (e : Exp K) : K := wval (ofField R.prim) (· / ·) π ρ e

/-- The formula is arithmetic (`+ - * /` and numbers), no divisor is zero, and no addition or subtraction cancels: the exact
operands of a sum have the same sign, those of a difference opposite signs. -/
def NoCancel (R : Arith K) (π ρ : ℕ → K) : Exp K → Prop
  | .var _ | .par _ => True
  | .add a b => NoCancel R π ρ a ∧ NoCancel R π ρ b ∧ 0 ≤ exact R π ρ a * exact R π ρ b
  | .sub a b => NoCancel R π ρ a ∧ NoCancel R π ρ b ∧ exact R π ρ a * exact R π ρ b ≤ 0
  | .mul a b => NoCancel R π ρ a ∧ NoCancel R π ρ b
  | .div a b => NoCancel R π ρ a ∧ NoCancel R π ρ b ∧ exact R π ρ b ≠ 0
  | .addC a c | .cAdd c a => NoCancel R π ρ a ∧ 0 ≤ exact R π ρ a * c
  | .subC a c | .cSub c a => NoCancel R π ρ a ∧ exact R π ρ a * c ≤ 0
  | .neg a | .mulC a _ | .cMul _ a => NoCancel R π ρ a
  | .divC a c => NoCancel R π ρ a ∧ c ≠ 0
  | .cDiv _ a => NoCancel R π ρ a ∧ exact R π ρ a ≠ 0
  | _ => False

/-- Roundings on a path from the result to an operand, factors of a product added up.  A quotient counts twice (`u * (1 / v)`,
GenericDiv.hpp:77-83), as does `c - u` (`c + (-1) * u`, GenericSub.hpp:224-227). -/
def roundings : Exp K → ℕ
  | .add a b | .sub a b => max (roundings a) (roundings b) + 1
  | .mul a b => roundings a + roundings b + 1
  | .div a b => roundings a + roundings b + 2
  | .subC a _ => max 1 (roundings a) + 1
  | .addC a _ | .cAdd _ a | .neg a | .mulC a _ | .cMul _ a => roundings a + 1
  | .cSub _ a | .divC a _ | .cDiv _ a => roundings a + 2
  | _ => 0

/-! ## Relative errors -/

/-- `v` is `w` up to `n` relative errors. -/
def Near (u : K) (n : ℕ) (v w : K) : Prop := ∃ t, v = w * t ∧ (1 - u) ^ n ≤ t ∧ t * (1 - u) ^ n ≤ 1

section near
variable {u : K} (h0 : 0 ≤ u) (h1 : u < 1)
include h0 h1

theorem near_refl (v : K) : Near u 0 v v := ⟨1, by simp⟩

theorem near_mono {n m : ℕ} (h : n ≤ m) {v w : K} (hv : Near u n v w) : Near u m v w := by
  obtain ⟨t, rfl, h2, h3⟩ := hv
  have hp : (1 - u) ^ m ≤ (1 - u) ^ n := pow_le_pow_of_le_one (by linarith) (by linarith) h
  have hn : 0 < (1 - u) ^ n := pow_pos (by linarith) n
  refine ⟨t, rfl, hp.trans h2, le_trans ?_ h3⟩
  exact mul_le_mul_of_nonneg_left hp (by linarith)

theorem near_round {r x : K} (h : |r - x| ≤ u * |x|) : Near u 1 r x := by
  rcases eq_or_ne x 0 with rfl | hx
  · have : r = 0 := by simpa using h
    exact ⟨1, by simp [this], by simp [h0], by simp [h0]⟩
  · have hx' : 0 < |x| := abs_pos.2 hx
    have ht : |r / x - 1| ≤ u := by
      rw [show r / x - 1 = (r - x) / x by field_simp, abs_div, div_le_iff₀ hx']
      exact h
    rw [abs_le] at ht
    refine ⟨r / x, by field_simp, by simp; linarith [ht.1], ?_⟩
    rw [pow_one]
    nlinarith [mul_le_mul_of_nonneg_right (show r / x ≤ 1 + u by linarith [ht.2]) (show 0 ≤ 1 - u by linarith)]

theorem near_mul {n m : ℕ} {a a' b b' : K} (ha : Near u n a a') (hb : Near u m b b') :
    Near u (n + m) (a * b) (a' * b') := by
  obtain ⟨t, rfl, h2, h3⟩ := ha
  obtain ⟨s, rfl, h4, h5⟩ := hb
  have hn : 0 < (1 - u) ^ n := pow_pos (by linarith) n
  have hm : 0 < (1 - u) ^ m := pow_pos (by linarith) m
  refine ⟨t * s, by ring, ?_, ?_⟩
  · rw [pow_add]
    exact mul_le_mul h2 h4 hm.le (hn.le.trans h2)
  · rw [pow_add, show t * s * ((1 - u) ^ n * (1 - u) ^ m) = (t * (1 - u) ^ n) * (s * (1 - u) ^ m) by ring]
    exact mul_le_one₀ h3 (mul_nonneg (hm.le.trans h4) hm.le) h5

theorem near_trans {n m : ℕ} {r x w : K} (ha : Near u n r x) (hb : Near u m x w) : Near u (m + n) r w := by
  obtain ⟨t, rfl, h2, h3⟩ := ha
  have := near_mul h0 h1 hb ⟨t, (one_mul t).symm, h2, h3⟩
  simpa using this

theorem near_inv {n : ℕ} {a a' : K} (ha : Near u n a a') : Near u n (1 / a) (1 / a') := by
  obtain ⟨t, rfl, h2, h3⟩ := ha
  have hn : 0 < (1 - u) ^ n := pow_pos (by linarith) n
  have ht : 0 < t := hn.trans_le h2
  refine ⟨t⁻¹, ?_, ?_, ?_⟩
  · rw [one_div, one_div, mul_inv]
  · rw [← one_div, le_div_iff₀ ht, mul_comm]; exact h3
  · rw [inv_mul_le_iff₀ ht, mul_one]; exact h2

theorem near_add {n m : ℕ} {a a' b b' : K} (ha : Near u n a a') (hb : Near u m b b') (hs : 0 ≤ a' * b') :
    Near u (max n m) (a + b) (a' + b') := by
  obtain ⟨t, rfl, h2, h3⟩ := near_mono h0 h1 (le_max_left n m) ha
  obtain ⟨s, rfl, h4, h5⟩ := near_mono h0 h1 (le_max_right n m) hb
  set q := (1 - u) ^ max n m with hq
  have hqp : 0 < q := pow_pos (by linarith) _
  rcases eq_or_ne (a' + b') 0 with h | h
  · have hb' : b' = -a' := by linear_combination h
    have ha' : a' = 0 := by
      rw [hb'] at hs
      exact mul_self_eq_zero.1 (le_antisymm (by linarith [mul_neg a' a']) (mul_self_nonneg a'))
    exact near_mono h0 h1 (Nat.zero_le _) (by subst ha'; simp at hb'; subst hb'; simpa using near_refl h0 h1 (0 : K))
  · have hd : 0 < (a' + b') * (a' + b') := mul_self_pos.2 h
    have hα : 0 ≤ a' * (a' + b') := by nlinarith [mul_self_nonneg a']
    have hβ : 0 ≤ b' * (a' + b') := by nlinarith [mul_self_nonneg b']
    have e : (a' * t + b' * s) / (a' + b') =
        (a' * (a' + b') * t + b' * (a' + b') * s) / ((a' + b') * (a' + b')) := by field_simp
    refine ⟨(a' * t + b' * s) / (a' + b'), by field_simp, ?_, ?_⟩
    · rw [e, le_div_iff₀ hd]
      nlinarith [mul_le_mul_of_nonneg_left h2 hα, mul_le_mul_of_nonneg_left h4 hβ]
    · rw [e, div_mul_eq_mul_div, div_le_one hd]
      nlinarith [mul_le_mul_of_nonneg_left h3 hα, mul_le_mul_of_nonneg_left h5 hβ]

end near

/-- `n` relative errors of size `u` are at most `n u / (1 - n u)`. -/
theorem near_le {u : K} (h0 : 0 ≤ u) (h1 : u < 1) {n : ℕ} (hn : n * u < 1) {v w : K} (h : Near u n v w) :
    |v - w| ≤ n * u / (1 - n * u) * |w| := by
  obtain ⟨t, rfl, h2, h3⟩ := h
  have hb : 1 - n * u ≤ (1 - u) ^ n := by
    have := one_add_mul_le_pow (a := -u) (by linarith) n
    calc 1 - n * u = 1 + n * -u := by ring
      _ ≤ (1 + -u) ^ n := this
      _ = (1 - u) ^ n := by ring
  have hp : 0 < 1 - n * u := by linarith
  have hnu : 0 ≤ n * u := mul_nonneg (Nat.cast_nonneg n) h0
  have ht : 0 ≤ t := (hp.le.trans hb).trans h2
  have hut : t * (1 - n * u) ≤ 1 := (mul_le_mul_of_nonneg_left hb ht).trans h3
  have hlt : 1 - n * u ≤ t := hb.trans h2
  rw [show w * t - w = (t - 1) * w by ring, abs_mul]
  refine mul_le_mul_of_nonneg_right ?_ (abs_nonneg w)
  rw [abs_le, le_div_iff₀ hp, ← neg_div, div_le_iff₀ hp]
  constructor <;> nlinarith

/-! ## The stored formula -/

section
variable {R : Arith K} {u : K}

/-- The built formula computes the written one up to its roundings. -/
theorem build_near (hR : Rounded R u) (π ρ : ℕ → K) (e : Exp K) (hc : NoCancel R π ρ e) :
    ∀ n, Near u (roundings e) (nval R π ρ (build R e n).1) (exact R π ρ e) := by
  have h0 := hR.nonneg
  have h1 := hR.lt_one
  have rmul : ∀ {n m : ℕ} {a a' b b' : K}, Near u n a a' → Near u m b b' →
      Near u (n + m + 1) (R.mul a b) (a' * b') := fun ha hb =>
    near_trans h0 h1 (near_round h0 h1 (hR.mul _ _)) (near_mul h0 h1 ha hb)
  have radd : ∀ {n m : ℕ} {a a' b b' : K}, Near u n a a' → Near u m b b' → 0 ≤ a' * b' →
      Near u (max n m + 1) (R.add a b) (a' + b') := fun ha hb hs =>
    near_trans h0 h1 (near_round h0 h1 (hR.add _ _)) (near_add h0 h1 ha hb hs)
  have rneg : ∀ {n : ℕ} {a a' : K}, Near u n a a' → Near u (n + 1) (R.mul R.negOne a) (-a') := by
    intro n a a' ha
    have := rmul (near_refl h0 h1 R.negOne) ha
    rw [hR.negOne] at this ⊢
    simpa using this
  have rsub : ∀ {n m : ℕ} {a a' b b' : K}, Near u n a a' → Near u m b b' → a' * b' ≤ 0 →
      Near u (max n m + 1) (R.sub a b) (a' - b') := by
    intro n m a a' b b' ha hb hs
    refine near_trans h0 h1 (near_round h0 h1 (hR.sub _ _)) ?_
    have hb' : Near u m (-b) (-b') := by
      obtain ⟨t, rfl, h⟩ := hb
      exact ⟨t, by ring, h⟩
    simpa [sub_eq_add_neg] using near_add h0 h1 ha hb' (by linarith [mul_neg a' b'])
  have rinv : ∀ {n : ℕ} {a a' : K}, Near u n a a' → a' ≠ 0 → Near u (n + 1) (R.div R.one a) (1 / a') := by
    intro n a a' ha hne
    have hane : a ≠ 0 := by
      obtain ⟨t, rfl, h2, -⟩ := ha
      exact mul_ne_zero hne ((pow_pos (by linarith) n).trans_le h2).ne'
    rw [hR.one]
    exact near_trans h0 h1 (near_round h0 h1 (hR.div _ _ hane)) (near_inv h0 h1 ha)
  have conv : ∀ {n m : ℕ} {v w w' : K}, Near u n v w → w = w' → n ≤ m → Near u m v w' := by
    rintro n m v w w' hv rfl hnm
    exact near_mono h0 h1 hnm hv
  induction e <;> intro n <;> simp only [NoCancel] at hc <;>
    simp only [build, mk1, mk2, nval, clone_nval, Arith.op1, Arith.op2, roundings]
  case var | par => exact near_refl h0 h1 _
  case add a b iha ihb => exact radd (iha hc.1 _) (ihb hc.2.1 _) hc.2.2
  case sub a b iha ihb => exact rsub (iha hc.1 _) (ihb hc.2.1 _) hc.2.2
  case mul a b iha ihb => exact rmul (iha hc.1 _) (ihb hc.2 _)
  case div a b iha ihb =>
    exact conv (rmul (iha hc.1 n) (rinv (ihb hc.2.1 _) hc.2.2)) (div_eq_mul_one_div _ _).symm (by omega)
  case addC a c ih =>
    exact conv (radd (near_refl h0 h1 c) (ih hc.1 n) (by rw [mul_comm]; exact hc.2)) (add_comm _ _) (by omega)
  case cAdd c a ih =>
    exact conv (radd (near_refl h0 h1 c) (ih hc.1 n) (by rw [mul_comm]; exact hc.2)) rfl (by omega)
  case subC a c ih =>
    exact conv (radd (rneg (near_refl h0 h1 c)) (ih hc.1 _)
      (by linarith [neg_mul c (exact R π ρ a), mul_comm c (exact R π ρ a), hc.2])) (neg_add_eq_sub _ _) (by omega)
  case cSub c a ih =>
    exact conv (radd (near_refl h0 h1 c) (rneg (ih hc.1 _))
      (by linarith [mul_neg c (exact R π ρ a), mul_comm c (exact R π ρ a), hc.2])) (sub_eq_add_neg _ _).symm (by omega)
  case neg a ih => exact rneg (ih hc _)
  case mulC a c ih => exact conv (rmul (near_refl h0 h1 c) (ih hc n)) (mul_comm _ _) (by omega)
  case cMul c a ih => exact conv (rmul (near_refl h0 h1 c) (ih hc n)) rfl (by omega)
  case divC a c ih =>
    exact conv (rmul (rinv (near_refl h0 h1 c) hc.2) (ih hc.1 n))
      (by rw [mul_comm, ← div_eq_mul_one_div]; rfl) (by omega)
  case cDiv c a ih =>
    exact conv (rmul (near_refl h0 h1 c) (rinv (ih hc.1 n) hc.2)) (div_eq_mul_one_div _ _).symm (by omega)

/-- So does the formula stored by `y = e`, with one more rounding (`e * 1`, Expression.hpp:58-68). -/
theorem stored_near (hR : Rounded R u) (π ρ : ℕ → K) (e : Exp K) (hc : NoCancel R π ρ e) (n : ℕ) :
    Near u (roundings e + 1) (nval R π ρ (stored R e n)) (exact R π ρ e) := by
  have h0 := hR.nonneg
  have h1 := hR.lt_one
  simp only [stored, nval, clone_nval, Arith.op1]
  refine near_trans h0 h1 (near_round h0 h1 (hR.mul _ _)) ?_
  rw [hR.one, one_mul]
  exact build_near hR π ρ e hc n

/-- What `Eval(y)` returns after `y = e` is the stored formula in machine arithmetic. -/
theorem Eval_stored {σ : St K} {U : ℕ → Prop} (h : MHist R σ U) {y : ℕ}
    (hy : y < σ.defs.size) (hye : σ.defs.items y ≠ []) {e : Exp K}
    (hl : ∀ p ∈ e.leaves, p < σ.defs.size) (hp : ∀ p ∈ e.pars, p < σ.defs.psize)
    (hny : y ∉ e.leaves) (hwd : WellDefined (define R y e σ).defs y)
    (hs : Safe (define R y e σ).defs U y) :
    ∃ v σ' ρ, Eval R y (define R y e σ) = some (v, σ') ∧
      (∀ p ∈ e.leaves, ∀ w, ValueOf R (define R y e σ).defs p w ↔ w = ρ p) ∧
      v = nval R σ.defs.par ρ (stored R e σ.defs.next) := by
  obtain ⟨ρ, hρ⟩ := exists_solves (P := R) hwd
  have hd : MHist R (define R y e σ) U := .define y e h hy hye hl hp
  obtain ⟨σ', h1, -⟩ := Eval_spec R hd.inv hy hwd hs hρ
  have hf : findMe y (build R e σ.defs.next).1 = false := by
    cases hf : findMe y (build R e σ.defs.next).1 with
    | false => rfl
    | true => rw [findMe_iff', build_leaves] at hf; exact absurd hf hny
  have hi : (define R y e σ).defs.items y = [stored R e σ.defs.next] := by
    simp [define, hf]
  refine ⟨ρ y, σ', ρ, h1, fun p hp w => ?_, ?_⟩
  · have hrp : Reach (define R y e σ).defs y p :=
      Reach.step Reach.refl (i := stored R e σ.defs.next) (by rw [hi]; simp)
        (by rw [stored_leaves]; exact hp)
    have hsub : ∀ q, Reach (define R y e σ).defs p q → Reach (define R y e σ).defs y q := by
      intro q hq
      induction hq with
      | refl => exact hrp
      | step _ h1 h2 ih => exact ih.step h1 h2
    have hρp : Solves R (define R y e σ).defs p ρ := fun q hq => hρ q (hsub q hq)
    have hwp : WellDefined (define R y e σ).defs p := by
      obtain ⟨⟨rank, hr⟩, hf⟩ := hwd
      exact ⟨⟨rank, fun q hq => hr q (hsub q hq)⟩, fun q hq => hf q (hsub q hq)⟩
    constructor
    · rintro ⟨ρ', hρ', rfl⟩
      exact solves_unique hwp hρ' hρp p Reach.refl
    · rintro rfl
      exact ⟨ρ, hρp, rfl⟩
  · rw [hρ y Reach.refl, hi]
    simp only [seqVal]
    apply nval_congr
    intro p hp
    rw [stored_leaves] at hp
    rw [Function.update_of_ne]
    rintro rfl
    exact hny hp

/-- C64: in arithmetic with relative error `u` per operation, after any program, `y = e; Eval(y)` of an arithmetic formula in
which nothing cancels returns the exact value of `e` at the values `ρ` that the objects it mentions have, with relative error at
most `n u / (1 - n u)`, `n` being the roundings of `e` plus one. -/
theorem C64_rounding_error (hR : Rounded R u) {σ : St K} {U : ℕ → Prop} (h : MHist R σ U) {y : ℕ}
    (hy : y < σ.defs.size) (hye : σ.defs.items y ≠ []) {e : Exp K}
    (hl : ∀ p ∈ e.leaves, p < σ.defs.size) (hp : ∀ p ∈ e.pars, p < σ.defs.psize)
    (hny : y ∉ e.leaves) (hwd : WellDefined (define R y e σ).defs y)
    (hs : Safe (define R y e σ).defs U y) (hn : ((roundings e + 1 : ℕ) : K) * u < 1) :
    ∃ v σ' ρ, Eval R y (define R y e σ) = some (v, σ') ∧
      (∀ p ∈ e.leaves, ∀ w, ValueOf R (define R y e σ).defs p w ↔ w = ρ p) ∧
      (NoCancel R σ.defs.par ρ e → |v - exact R σ.defs.par ρ e| ≤
        ((roundings e + 1 : ℕ) : K) * u / (1 - ((roundings e + 1 : ℕ) : K) * u) * |exact R σ.defs.par ρ e|) := by
  obtain ⟨v, σ', ρ, h1, h2, rfl⟩ := Eval_stored h hy hye hl hp hny hwd hs
  exact ⟨_, σ', ρ, h1, h2, fun hc => near_le hR.nonneg hR.lt_one hn (stored_near hR _ _ e hc _)⟩

/-! ## With cancellation -/

/-- The formula is a polynomial: `+ - *` and numbers, no division. -/
def Poly : Exp K → Prop
  | .var _ | .par _ => True
  | .add a b | .sub a b | .mul a b => Poly a ∧ Poly b
  | .addC a _ | .cAdd _ a | .subC a _ | .cSub _ a | .neg a | .mulC a _ | .cMul _ a => Poly a
  | _ => False

/-- The formula with every sign made positive: absolute values of the numbers, sums for differences. -/
def magnitude (π ρ : ℕ → K) : Exp K → K
  | .var o => |ρ o|
  | .par p => |π p|
  | .add a b | .sub a b => magnitude π ρ a + magnitude π ρ b
  | .mul a b => magnitude π ρ a * magnitude π ρ b
  | .addC a c | .cAdd c a | .subC a c | .cSub c a => magnitude π ρ a + |c|
  | .mulC a c | .cMul c a => magnitude π ρ a * |c|
  | .neg a => magnitude π ρ a
  | _ => 0

/-- `v` is `w` up to `n` relative errors of parts of size at most `M`. -/
def Close (u : K) (n : ℕ) (M v w : K) : Prop := |w| ≤ M ∧ |v - w| ≤ ((1 + u) ^ n - 1) * M

section close
variable {u : K} (h0 : 0 ≤ u)
include h0

theorem close_refl (v : K) : Close u 0 |v| v v := ⟨le_refl _, by simp⟩

theorem close_mono {n m : ℕ} (h : n ≤ m) {M v w : K} (hc : Close u n M v w) : Close u m M v w := by
  refine ⟨hc.1, hc.2.trans (mul_le_mul_of_nonneg_right ?_ ((abs_nonneg w).trans hc.1))⟩
  linarith [pow_le_pow_right₀ (by linarith : (1 : K) ≤ 1 + u) h]

theorem close_size {n : ℕ} {M v w : K} (hc : Close u n M v w) : |v| ≤ (1 + u) ^ n * M := by
  have := abs_add_le (v - w) w
  rw [sub_add_cancel] at this
  linarith [hc.1, hc.2]

theorem close_round {n : ℕ} {M r v w : K} (hc : Close u n M v w) (h : |r - v| ≤ u * |v|) :
    Close u (n + 1) M r w := by
  refine ⟨hc.1, ?_⟩
  have h1 := abs_add_le (r - v) (v - w)
  rw [sub_add_sub_cancel] at h1
  have h2 := mul_le_mul_of_nonneg_left (close_size h0 hc) h0
  rw [pow_succ]
  linarith [hc.2]

theorem close_add {n m : ℕ} {M N a a' b b' : K} (ha : Close u n M a a') (hb : Close u m N b b') :
    Close u (max n m) (M + N) (a + b) (a' + b') := by
  have ha := close_mono h0 (le_max_left n m) ha
  have hb := close_mono h0 (le_max_right n m) hb
  refine ⟨(abs_add_le _ _).trans (add_le_add ha.1 hb.1), ?_⟩
  rw [show a + b - (a' + b') = (a - a') + (b - b') by ring, mul_add]
  exact (abs_add_le _ _).trans (add_le_add ha.2 hb.2)

theorem close_neg {n : ℕ} {M a a' : K} (ha : Close u n M a a') : Close u n M (-a) (-a') := by
  refine ⟨by rw [abs_neg]; exact ha.1, ?_⟩
  rw [show -a - -a' = -(a - a') by ring, abs_neg]
  exact ha.2

theorem close_mul {n m : ℕ} {M N a a' b b' : K} (ha : Close u n M a a') (hb : Close u m N b b') :
    Close u (n + m) (M * N) (a * b) (a' * b') := by
  have hM := (abs_nonneg a').trans ha.1
  have hN := (abs_nonneg b').trans hb.1
  refine ⟨by rw [abs_mul]; exact mul_le_mul ha.1 hb.1 (abs_nonneg _) hM, ?_⟩
  rw [show a * b - a' * b' = a * (b - b') + (a - a') * b' by ring, pow_add]
  refine (abs_add_le _ _).trans ?_
  rw [abs_mul, abs_mul]
  have h1 := mul_le_mul (close_size h0 ha) hb.2 (abs_nonneg _) (mul_nonneg (by positivity) hM)
  have h2 := mul_le_mul ha.2 hb.1 (abs_nonneg _) ((abs_nonneg _).trans ha.2)
  linarith

end close

/-- The built polynomial computes the written one up to its roundings. -/
theorem build_close (hR : Rounded R u) (π ρ : ℕ → K) (e : Exp K) (hc : Poly e) :
    ∀ n, Close u (roundings e) (magnitude π ρ e) (nval R π ρ (build R e n).1) (exact R π ρ e) := by
  have h0 := hR.nonneg
  have rmul : ∀ {n m : ℕ} {M N a a' b b' : K}, Close u n M a a' → Close u m N b b' →
      Close u (n + m + 1) (M * N) (R.mul a b) (a' * b') := fun ha hb =>
    close_round h0 (close_mul h0 ha hb) (hR.mul _ _)
  have radd : ∀ {n m : ℕ} {M N a a' b b' : K}, Close u n M a a' → Close u m N b b' →
      Close u (max n m + 1) (M + N) (R.add a b) (a' + b') := fun ha hb =>
    close_round h0 (close_add h0 ha hb) (hR.add _ _)
  have rsub : ∀ {n m : ℕ} {M N a a' b b' : K}, Close u n M a a' → Close u m N b b' →
      Close u (max n m + 1) (M + N) (R.sub a b) (a' - b') := fun ha hb =>
    close_round h0 (by simpa [sub_eq_add_neg] using close_add h0 ha (close_neg h0 hb)) (hR.sub _ _)
  have rneg : ∀ {n : ℕ} {M a a' : K}, Close u n M a a' → Close u (n + 1) M (R.mul R.negOne a) (-a') := by
    intro n M a a' ha
    refine close_round h0 ?_ (hR.mul _ _)
    rw [hR.negOne, neg_one_mul]
    exact close_neg h0 ha
  have conv : ∀ {n m : ℕ} {M N v w w' : K}, Close u n M v w → M = N → w = w' → n ≤ m → Close u m N v w' := by
    rintro n m M N v w w' hv rfl rfl hnm
    exact close_mono h0 hnm hv
  induction e <;> intro n <;> simp only [Poly] at hc <;>
    simp only [build, mk1, mk2, nval, clone_nval, Arith.op1, Arith.op2, roundings, magnitude]
  case var | par => exact close_refl h0 _
  case add a b iha ihb => exact radd (iha hc.1 _) (ihb hc.2 _)
  case sub a b iha ihb => exact rsub (iha hc.1 _) (ihb hc.2 _)
  case mul a b iha ihb => exact rmul (iha hc.1 _) (ihb hc.2 _)
  case addC a c ih =>
    exact conv (radd (close_refl h0 c) (ih hc n)) (add_comm _ _) (add_comm _ _) (by omega)
  case cAdd c a ih => exact conv (radd (close_refl h0 c) (ih hc n)) (add_comm _ _) rfl (by omega)
  case subC a c ih =>
    exact conv (radd (rneg (close_refl h0 c)) (ih hc _)) (add_comm _ _) (neg_add_eq_sub _ _) (by omega)
  case cSub c a ih =>
    exact conv (radd (close_refl h0 c) (rneg (ih hc _))) (add_comm _ _) (sub_eq_add_neg _ _).symm (by omega)
  case neg a ih => exact rneg (ih hc _)
  case mulC a c ih =>
    exact conv (rmul (close_refl h0 c) (ih hc n)) (mul_comm _ _) (mul_comm _ _) (by omega)
  case cMul c a ih => exact conv (rmul (close_refl h0 c) (ih hc n)) (mul_comm _ _) rfl (by omega)

/-- C64 for every polynomial, whatever cancels: the error is at most `(1+u)^n - 1` times the value of the formula with all signs
positive. -/
theorem C64_polynomial_error (hR : Rounded R u) {σ : St K} {U : ℕ → Prop} (h : MHist R σ U) {y : ℕ}
    (hy : y < σ.defs.size) (hye : σ.defs.items y ≠ []) {e : Exp K}
    (hl : ∀ p ∈ e.leaves, p < σ.defs.size) (hp : ∀ p ∈ e.pars, p < σ.defs.psize)
    (hny : y ∉ e.leaves) (hwd : WellDefined (define R y e σ).defs y)
    (hs : Safe (define R y e σ).defs U y) (hpol : Poly e) :
    ∃ v σ' ρ, Eval R y (define R y e σ) = some (v, σ') ∧
      (∀ p ∈ e.leaves, ∀ w, ValueOf R (define R y e σ).defs p w ↔ w = ρ p) ∧
      |v - exact R σ.defs.par ρ e| ≤ ((1 + u) ^ (roundings e + 1) - 1) * magnitude σ.defs.par ρ e := by
  obtain ⟨v, σ', ρ, h1, h2, rfl⟩ := Eval_stored h hy hye hl hp hny hwd hs
  refine ⟨_, σ', ρ, h1, h2, ?_⟩
  have := build_close hR σ.defs.par ρ e hpol σ.defs.next
  refine (close_round hR.nonneg this ?_).2
  simp only [stored, nval, clone_nval, Arith.op1]
  have := hR.mul R.one (nval R σ.defs.par ρ (build R e σ.defs.next).1)
  rw [hR.one, one_mul] at this
  rw [hR.one]
  exact this

end

/-! ## Double precision -/

namespace RoundEx

/-- Nearest integer, ties to even. -/
def rne (s : ℚ) : ℤ :=
  if s - ⌊s⌋ < 1 / 2 then ⌊s⌋ else if 1 / 2 < s - ⌊s⌋ then ⌊s⌋ + 1 else if ⌊s⌋ % 2 = 0 then ⌊s⌋ else ⌊s⌋ + 1

theorem rne_err (s : ℚ) : |(rne s : ℚ) - s| ≤ 1 / 2 := by
  have h1 := Int.floor_le s
  have h2 := Int.lt_floor_add_one s
  unfold rne
  split_ifs <;> rw [abs_le] <;> push_cast <;> constructor <;> linarith

/-- Rounding to 53 significant bits, nearest, ties to even: IEEE binary64 without exponent limits. -/
def rnd (q : ℚ) : ℚ := rne (q / 2 ^ (Int.log 2 |q| - 52)) * 2 ^ (Int.log 2 |q| - 52)

theorem rnd_err (q : ℚ) : |rnd q - q| ≤ 1 / 2 ^ 53 * |q| := by
  rcases eq_or_ne q 0 with rfl | hq
  · simp [rnd, rne]
  · have hp : (0 : ℚ) < 2 ^ (Int.log 2 |q| - 52) := zpow_pos (by norm_num) _
    have hl : (2 : ℚ) ^ Int.log 2 |q| ≤ |q| := by
      have := Int.zpow_log_le_self (b := 2) (by norm_num) (abs_pos.2 hq)
      simpa using this
    have e : rnd q - q = (rne (q / 2 ^ (Int.log 2 |q| - 52)) - q / 2 ^ (Int.log 2 |q| - 52)) *
        2 ^ (Int.log 2 |q| - 52) := by
      rw [rnd, sub_mul, div_mul_cancel₀ _ hp.ne']
    rw [e, abs_mul, abs_of_pos hp]
    calc _ ≤ 1 / 2 * (2 : ℚ) ^ (Int.log 2 |q| - 52) := mul_le_mul_of_nonneg_right (rne_err _) hp.le
      _ = 1 / 2 ^ 53 * 2 ^ Int.log 2 |q| := by
          rw [zpow_sub₀ (by norm_num)]; norm_num; ring
      _ ≤ _ := mul_le_mul_of_nonneg_left hl (by norm_num)

/-- Arithmetic of `double`: the exact result, rounded. -/
def F53 : Arith ℚ where
  add u v := rnd (u + v)
  sub u v := rnd (u - v)
  mul u v := rnd (u * v)
  div u v := rnd (u / v)
  neg u := -u
  one := 1
  negOne := -1
  half := 1 / 2
  prim := ⟨id, id, id, id, id, id, id, id, id, id, id, id, id, id, id, fun u _ => u⟩

theorem F53_rounded : Rounded F53 (1 / 2 ^ 53) :=
  ⟨by norm_num, by norm_num, fun _ _ => rnd_err _, fun _ _ => rnd_err _, fun _ _ => rnd_err _, fun _ _ _ => rnd_err _,
    rfl, rfl⟩

/-- `Variable x(3), z(10); Expression y;` -/
def s0 : St ℚ := (newExpr (newVar 10 (newVar 3 init).2).2).2

theorem s0_hist : MHist F53 s0 (fun _ => False) := .newExpr (.newVar 10 (.newVar 3 .init))

/-- `y = e` is well-defined for a formula over `x` and `z`. -/
theorem s1_wd (e : Exp ℚ) (he : ∀ p ∈ e.leaves, p = 1 ∨ p = 2) : WellDefined (define F53 3 e s0).defs 3 := by
  have hf : findMe 3 (build F53 e s0.defs.next).1 = false := by
    cases hf : findMe 3 (build F53 e s0.defs.next).1 with
    | false => rfl
    | true =>
        rw [findMe_iff', build_leaves] at hf
        rcases he 3 hf with h | h <;> omega
  have hi3 : (define F53 3 e s0).defs.items 3 = [stored F53 e s0.defs.next] := by simp [define, hf]
  have hi1 : (define F53 3 e s0).defs.items 1 = [] := by
    simp [define, s0, newExpr, newVar, init, Function.update]
  have hi2 : (define F53 3 e s0).defs.items 2 = [] := by
    simp [define, s0, newExpr, newVar, init, Function.update]
  have hr : ∀ q, Reach (define F53 3 e s0).defs 3 q → q = 3 ∨ q = 1 ∨ q = 2 := by
    intro q hq
    induction hq with
    | refl => exact Or.inl rfl
    | @step q p i _ hi hp ih =>
        rcases ih with rfl | rfl | rfl
        · rw [hi3, List.mem_singleton] at hi
          subst hi
          rw [stored_leaves] at hp
          exact Or.inr (he p hp)
        · simp [hi1] at hi
        · simp [hi2] at hi
  refine ⟨⟨id, fun q hq i hi p hp => ?_⟩, fun q hq i is h hqi => ?_⟩
  · rcases hr q hq with rfl | rfl | rfl
    · rw [hi3, List.mem_singleton] at hi
      subst hi
      rw [stored_leaves] at hp
      right
      rcases he p hp with rfl | rfl <;> simp
    · rw [hi1] at hi; simp at hi
    · rw [hi2] at hi; simp at hi
  · rcases hr q hq with rfl | rfl | rfl
    · rw [hi3] at h
      simp only [List.cons.injEq] at h
      rw [← h.1, stored_leaves] at hqi
      rcases he 3 hqi with h | h <;> omega
    · rw [hi1] at h; simp at h
    · rw [hi2] at h; simp at h

/-- `y = x/z + x*z;` -/
def e1 : Exp ℚ := .add (.div (.var 1) (.var 2)) (.mul (.var 1) (.var 2))

/-- The theorem applies: `3/10 + 3*10` is computed within four roundings of `30.3`. -/
example : ∃ v σ', Eval F53 3 (define F53 3 e1 s0) = some (v, σ') ∧
    |v - 303 / 10| ≤ (4 : ℕ) * (1 / 2 ^ 53 : ℚ) / (1 - (4 : ℕ) * (1 / 2 ^ 53)) * |303 / 10| := by
  have hwd := s1_wd e1 (by simp [e1, Exp.leaves])
  obtain ⟨v, σ', ρ, h1, h2, h3⟩ := C64_rounding_error F53_rounded s0_hist (y := 3) (e := e1) (by decide) (by decide)
    (by decide) (by simp [e1, Exp.pars]) (by decide) hwd (fun _ _ _ _ _ _ _ _ _ h => h)
    (by norm_num [e1, roundings])
  have hb : ∀ p w, (define F53 3 e1 s0).defs.items p = [] → (define F53 3 e1 s0).defs.base p = w →
      ValueOf F53 (define F53 3 e1 s0).defs p w := by
    intro p w hi hw
    refine ⟨fun _ => w, fun q hq => ?_, rfl⟩
    have : q = p := by
      induction hq with
      | refl => rfl
      | step _ h _ ih => subst ih; simp [hi] at h
    subst this
    simp [hi, seqVal, hw]
  have hρ1 : (3 : ℚ) = ρ 1 := (h2 1 (by simp [e1, Exp.leaves]) 3).1 (hb 1 3 (by
    simp [define, s0, newExpr, newVar, init, Function.update]) (by
    simp [define, s0, newExpr, newVar, init, Function.update]))
  have hρ2 : (10 : ℚ) = ρ 2 := (h2 2 (by simp [e1, Exp.leaves]) 10).1 (hb 2 10 (by
    simp [define, s0, newExpr, newVar, init, Function.update]) (by
    simp [define, s0, newExpr, newVar, init, Function.update]))
  refine ⟨v, σ', h1, ?_⟩
  have he : exact F53 s0.defs.par ρ e1 = 303 / 10 := by
    simp only [exact, wval, ofField, e1, ← hρ1, ← hρ2]; norm_num
  have := h3 (by
    refine ⟨⟨trivial, trivial, ?_⟩, ⟨trivial, trivial⟩, ?_⟩ <;>
      simp only [exact, wval, ofField, ← hρ1, ← hρ2] <;> norm_num)
  rw [he] at this
  exact this

/-- `y = (x + z) - x;` -/
def e2 : Exp ℚ := .sub (.add (.var 1) (.var 2)) (.var 1)

/-- The second theorem applies where the sum cancels. -/
example : ∃ v σ' ρ, Eval F53 3 (define F53 3 e2 s0) = some (v, σ') ∧
    (∀ p ∈ e2.leaves, ∀ w, ValueOf F53 (define F53 3 e2 s0).defs p w ↔ w = ρ p) ∧
    |v - exact F53 s0.defs.par ρ e2| ≤ ((1 + 1 / 2 ^ 53) ^ 3 - 1) * magnitude s0.defs.par ρ e2 :=
  C64_polynomial_error F53_rounded s0_hist (y := 3) (e := e2) (by decide) (by decide)
    (by decide) (by simp [e2, Exp.pars]) (by decide) (s1_wd e2 (by simp [e2, Exp.leaves]))
    (fun _ _ _ _ _ _ _ _ _ h => h) (by simp [e2, Poly])

/-- C64, the condition on cancellation is needed: `(x + z) - x` with `x = 2^53`, `z = 1` is 0 in `double`, the exact value is 1. -/
theorem C64_cancellation_counterexample :
    ∃ (σ : St ℚ) (e : Exp ℚ), Rounded F53 (1 / 2 ^ 53) ∧ MHist F53 σ (fun _ => False) ∧
      σ.defs.base 1 = 2 ^ 53 ∧ σ.defs.base 2 = 1 ∧ e = .sub (.add (.var 1) (.var 2)) (.var 1) ∧
      (∀ ρ : ℕ → ℚ, ρ 1 = 2 ^ 53 → ρ 2 = 1 → exact F53 σ.defs.par ρ e = 1) ∧
      (Eval F53 3 (define F53 3 e σ)).map Prod.fst = some 0 :=
  ⟨(newExpr (newVar 1 (newVar (2 ^ 53) init).2).2).2, _, F53_rounded, .newExpr (.newVar 1 (.newVar _ .init)),
    by decide +kernel, by decide +kernel, rfl,
    fun ρ h1 h2 => by simp only [exact, wval, ofField, h1, h2]; norm_num, by decide +kernel⟩

end RoundEx

end CoolDiff.Mach
