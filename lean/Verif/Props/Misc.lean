import Verif.Scalar.Real
import Mathlib.Analysis.SpecialFunctions.Trigonometric.Deriv
import Mathlib.Analysis.SpecialFunctions.Trigonometric.DerivHyp
import Mathlib.Analysis.SpecialFunctions.Sqrt
import Mathlib.Analysis.SpecialFunctions.Log.Deriv
import Mathlib.Analysis.SpecialFunctions.ExpDeriv
import Mathlib.Analysis.Calculus.Deriv.Abs
import Mathlib.Data.Complex.Basic
import Mathlib.Data.Nat.Factorial.Basic

/-!
# Parameters, the element-wise function table, complex helpers, factorials (C20, C35, C39, C42)
-/

set_option linter.unusedSectionVars false

namespace CoolDiff

/-! ## C20: assigning one Parameter to another -/

/-- A `Parameter` object: its index and the variable it points to.  Parameter.hpp (`m_nidx`),
MetaVariable.hpp:29 (`mp_tmp`).  `m_cache` (always empty for a Parameter) is dropped. -/
structure ParObj where
  nidx : ℕ
  tmp : ℕ
deriving DecidableEq

/-- Parameters and the values of the variables they point to. -/
structure ParHeap (K : Type) where
  par : ℕ → ParObj
  val : ℕ → K
  /-- number of parameters / variables allocated so far -/
  np : ℕ
  nv : ℕ

/-- A Parameter operation of a user program. -/
inductive ParOp (K : Type)
  | new (v : K)
  | copy (q : ℕ)
  | setVal (p : ℕ) (v : K)
  | assign (p q : ℕ)

/-- `Parameter(value)` (Parameter.cpp:38-41), the copy constructor (:44-47), assignment of a value
(:67-70) and copy assignment `Parameter{s}.swap(*this)` (:56-59), where `swap` exchanges `m_nidx`
and `m_cache` only (:26-29). -/
def ParOp.run {K : Type} (h : ParHeap K) : ParOp K → ParHeap K
  | .new v => ⟨fun i => if i = h.np then ⟨h.np, h.nv⟩ else h.par i,
      fun c => if c = h.nv then v else h.val c, h.np + 1, h.nv + 1⟩
  | .copy q => ⟨fun i => if i = h.np then h.par q else h.par i, h.val, h.np + 1, h.nv⟩
  | .setVal p v => { h with val := fun c => if c = (h.par p).tmp then v else h.val c }
  | .assign p q =>
    let t := h.par q
    { h with par := fun i => if i = p then { h.par p with nidx := t.nidx } else h.par i }

/-- `Parameter::eval`.  Parameter.cpp:73-75. -/
def ParHeap.eval {K : Type} (h : ParHeap K) (p : ℕ) : K := h.val (h.par p).tmp

/-- **C20 is false**: after `p = q` every Parameter (in particular `p`) evaluates to what it
evaluated to before; the value of `q` is never transferred. -/
theorem C20_assign_keeps_value {K : Type} (h : ParHeap K) (p q i : ℕ) :
    ((ParOp.assign p q).run h).eval i = h.eval i := by
  simp only [ParOp.run, ParHeap.eval]
  split
  · rename_i e; rw [e]
  · rfl

/-- A program: `Parameter p = 1, q = 2; p = q;` leaves `p` at `1`, although `q` is `2`. -/
theorem C20_counterexample :
    let h : ParHeap ℚ := ((ParOp.assign 0 1).run ((ParOp.new 2).run ((ParOp.new 1).run
      ⟨fun _ => ⟨0, 0⟩, fun _ => 0, 0, 0⟩)))
    h.eval 0 = 1 ∧ h.eval 1 = 2 := by
  decide +kernel

/-- **C20 (partial)**: what does hold — copy construction shares the value in both directions, and
assigning a number sets it. Missing: `p = q` (`C20_assign_keeps_value`). -/
theorem C20_copy_partial {K : Type} (h : ParHeap K) (q : ℕ) (hq : q < h.np) (v : K) :
    let h1 := (ParOp.copy q).run h
    h1.eval h.np = h1.eval q ∧ h1.eval q = h.eval q ∧
      ((ParOp.setVal h.np v).run h1).eval q = v ∧ ((ParOp.setVal q v).run h1).eval h.np = v := by
  have : q ≠ h.np := Nat.ne_of_lt hq
  simp [ParOp.run, ParHeap.eval, this]

/-! ## C35: the element-wise function table -/

/-- The functions of UnaryFunctions.hpp used by CommonMatFunctions.hpp:292-321. -/
inductive UFn
  | sin | cos | exp | log | sqrt | tanh | sigmoid | relu | leakyRelu | abs
deriving DecidableEq

/-- `Sin`, `Cos`, `Exp`, `Log`, `Sqrt`, `Tanh`, `Sigmoid`, `ReLU`, `LeakyReLU`, `Abs` over the
reals.  UnaryFunctions.hpp:40-165. -/
noncomputable def UFn.f : UFn → ℝ → ℝ
  | .sin => fun x => Real.sin x
  | .cos => fun x => Real.cos x
  | .exp => fun x => Real.exp x
  | .log => fun x => Real.log x
  | .sqrt => fun x => Real.sqrt x
  | .tanh => fun x => Real.tanh x
  | .sigmoid => fun x => 1 / (1 + Real.exp (-x))
  | .relu => fun x => if x ≥ 0 then x else 0
  | .leakyRelu => fun x => if x ≥ 0 then x else 0.01 * x
  | .abs => fun x => |x|

/-- The paired derivative: `DSin`, `DCos`, `Exp`, `DLog`, `DSqrt`, `DTanh`, `DSigmoid`, `DReLU`,
`DLeakyReLU`, `DAbs`.  UnaryFunctions.hpp:46-171, CommonMatFunctions.hpp:292-321. -/
noncomputable def UFn.df : UFn → ℝ → ℝ
  | .sin => fun x => Real.cos x
  | .cos => fun x => -1 * Real.sin x
  | .exp => fun x => Real.exp x
  | .log => fun x => 1 / x
  | .sqrt => fun x => 1 / (2 * Real.sqrt x)
  | .tanh => fun x => 1 - Real.tanh x * Real.tanh x
  | .sigmoid => fun x => (1 / (1 + Real.exp (-x))) * (1 - 1 / (1 + Real.exp (-x)))
  | .relu => fun x => if x ≥ 0 then 1 else 0
  | .leakyRelu => fun x => if x ≥ 0 then 1 else 0.01
  | .abs => fun x => (if 0 < x then 1 else 0) - (if x < 0 then 1 else 0)

/-- The points where the function is differentiable (and, for `log` and `sqrt`, defined). -/
def UFn.dom : UFn → ℝ → Prop
  | .log => fun x => 0 < x
  | .sqrt => fun x => 0 < x
  | .relu => fun x => x ≠ 0
  | .leakyRelu => fun x => x ≠ 0
  | .abs => fun x => x ≠ 0
  | _ => fun _ => True

theorem hasDerivAt_tanh' (x : ℝ) : HasDerivAt Real.tanh (1 - Real.tanh x * Real.tanh x) x := by
  have h1 : HasDerivAt (fun x => Real.sinh x / Real.cosh x)
      ((Real.cosh x * Real.cosh x - Real.sinh x * Real.sinh x) / Real.cosh x ^ 2) x :=
    (Real.hasDerivAt_sinh x).div (Real.hasDerivAt_cosh x) (Real.cosh_pos x).ne'
  have e : (fun x => Real.sinh x / Real.cosh x) = Real.tanh := by
    ext y; rw [Real.tanh_eq_sinh_div_cosh]
  rw [e] at h1
  refine h1.congr_deriv ?_
  rw [Real.tanh_eq_sinh_div_cosh]
  have := (Real.cosh_pos x).ne'
  field_simp

/-- **C35.** For every function of the table the paired derivative function is the derivative at
every point of differentiability. -/
theorem C35_table (u : UFn) (x : ℝ) (hx : u.dom x) : HasDerivAt u.f (u.df x) x := by
  cases u with
  | sin => exact Real.hasDerivAt_sin x
  | cos => exact (Real.hasDerivAt_cos x).congr_deriv (by simp [UFn.df])
  | exp => exact Real.hasDerivAt_exp x
  | log => exact (Real.hasDerivAt_log (ne_of_gt hx)).congr_deriv (by simp [UFn.df])
  | sqrt => exact Real.hasDerivAt_sqrt (ne_of_gt hx)
  | tanh => exact hasDerivAt_tanh' x
  | sigmoid =>
    have hp : 1 + Real.exp (-x) ≠ 0 := by positivity
    have h1 : HasDerivAt (fun x : ℝ => 1 + Real.exp (-x)) (-Real.exp (-x)) x := by
      have := ((Real.hasDerivAt_exp (-x)).comp x (hasDerivAt_neg x)).const_add 1
      exact this.congr_deriv (by ring)
    have h2 := (hasDerivAt_const x (1 : ℝ)).div h1 hp
    refine h2.congr_deriv ?_
    simp only [UFn.df]
    field_simp
    ring
  | relu =>
    rcases lt_or_gt_of_ne (show x ≠ 0 from hx) with h | h
    · have : UFn.relu.f =ᶠ[nhds x] fun _ => (0 : ℝ) := by
        filter_upwards [Iio_mem_nhds h] with y hy
        simp only [UFn.f, ge_iff_le, if_neg (not_le.2 (Set.mem_Iio.1 hy))]
      exact ((hasDerivAt_const x (0 : ℝ)).congr_of_eventuallyEq this).congr_deriv
        (by simp only [UFn.df, ge_iff_le, if_neg (not_le.2 h)])
    · have : UFn.relu.f =ᶠ[nhds x] fun y => y := by
        filter_upwards [Ioi_mem_nhds h] with y hy
        simp only [UFn.f, ge_iff_le, if_pos (Set.mem_Ioi.1 hy).le]
      exact ((hasDerivAt_id x).congr_of_eventuallyEq this).congr_deriv
        (by simp only [UFn.df, ge_iff_le, if_pos h.le])
  | leakyRelu =>
    rcases lt_or_gt_of_ne (show x ≠ 0 from hx) with h | h
    · have : UFn.leakyRelu.f =ᶠ[nhds x] fun y => 0.01 * y := by
        filter_upwards [Iio_mem_nhds h] with y hy
        simp only [UFn.f, ge_iff_le, if_neg (not_le.2 (Set.mem_Iio.1 hy))]
      exact (((hasDerivAt_id x).const_mul (0.01 : ℝ)).congr_of_eventuallyEq this).congr_deriv
        (by simp only [UFn.df, ge_iff_le, if_neg (not_le.2 h), mul_one])
    · have : UFn.leakyRelu.f =ᶠ[nhds x] fun y => y := by
        filter_upwards [Ioi_mem_nhds h] with y hy
        simp only [UFn.f, ge_iff_le, if_pos (Set.mem_Ioi.1 hy).le]
      exact ((hasDerivAt_id x).congr_of_eventuallyEq this).congr_deriv
        (by simp only [UFn.df, ge_iff_le, if_pos h.le])
  | abs =>
    rcases lt_or_gt_of_ne (show x ≠ 0 from hx) with h | h
    · exact (hasDerivAt_abs_neg h).congr_deriv
        (by simp only [UFn.df, if_neg (not_lt.2 h.le), if_pos h]; ring)
    · exact (hasDerivAt_abs_pos h).congr_deriv
        (by simp only [UFn.df, if_pos h, if_neg (not_lt.2 h.le)]; ring)

/-- The excluded points: there the functions have no derivative at all, and the table's values are
the conventions `DReLU(0) = 1`, `DLeakyReLU(0) = 1`, `DAbs(0) = 0`. -/
theorem C35_at_zero :
    UFn.relu.df 0 = 1 ∧ UFn.leakyRelu.df 0 = 1 ∧ UFn.abs.df 0 = 0 ∧
      ¬DifferentiableAt ℝ UFn.abs.f 0 := by
  refine ⟨by simp [UFn.df], by simp [UFn.df], by simp [UFn.df], not_differentiableAt_abs_zero⟩

/-- The domain hypothesis is met, e.g. by `LeakyReLU` at `-2`. -/
example : UFn.leakyRelu.dom (-2) := by norm_num [UFn.dom]

/-! ## C39: complex helper arithmetic -/

namespace Cx

/-- `operator+(Real, Type)`.  CommonHeader.cpp:26-28. -/
def addRC (v : ℝ) (z : ℂ) : ℂ := ⟨v + z.re, z.im⟩
/-- `operator+(Type, Real)`.  CommonHeader.cpp:30-32. -/
def addCR (z : ℂ) (v : ℝ) : ℂ := ⟨v + z.re, z.im⟩
/-- `operator-(Real, Type)`.  CommonHeader.cpp:35-37. -/
def subRC (v : ℝ) (z : ℂ) : ℂ := ⟨v - z.re, z.im⟩
/-- `operator-(Type, Real)`.  CommonHeader.cpp:39-41. -/
def subCR (z : ℂ) (v : ℝ) : ℂ := ⟨z.re - v, z.im⟩
/-- `operator*(Real, Type)`.  CommonHeader.cpp:44-46. -/
def mulRC (v : ℝ) (z : ℂ) : ℂ := ⟨v * z.re, v * z.im⟩
/-- `operator*(Type, Real)`.  CommonHeader.cpp:48-50. -/
def mulCR (z : ℂ) (v : ℝ) : ℂ := ⟨v * z.re, v * z.im⟩
/-- `operator/(Real, Type)`.  CommonHeader.cpp:53-56. -/
noncomputable def divRC (v : ℝ) (z : ℂ) : ℂ :=
  ⟨v * z.re / (z * z).re, -1 * v * z.im / (z * z).re⟩
/-- `operator/(Type, Real)`.  CommonHeader.cpp:58-60. -/
noncomputable def divCR (z : ℂ) (v : ℝ) : ℂ := ⟨z.re / v, z.im / v⟩
/-- `operator==(Type, Real)`, `operator==(Real, Type)`.  CommonHeader.cpp:72-78. -/
def eqCR (z : ℂ) (v : ℝ) : Prop := z.re = v ∧ z.im = v
/-- `operator!=(Type, Real)`, `operator!=(Real, Type)`.  CommonHeader.cpp:63-69. -/
def neCR (z : ℂ) (v : ℝ) : Prop := ¬(z.re = v ∧ z.im = v)

end Cx

/-- **C39 (partial)**: mixed `+`, `*`, `complex - real` and `complex / real` follow complex
arithmetic, for all operands.  Missing: `real - complex`, `real / complex`, `==`, `!=`, which are
wrong (theorems below). -/
theorem C39_mixed_partial (v : ℝ) (z : ℂ) :
    Cx.addRC v z = (v : ℂ) + z ∧ Cx.addCR z v = z + (v : ℂ) ∧ Cx.subCR z v = z - (v : ℂ) ∧
      Cx.mulRC v z = (v : ℂ) * z ∧ Cx.mulCR z v = z * (v : ℂ) ∧ Cx.divCR z v = z / (v : ℂ) := by
  refine ⟨?_, ?_, ?_, ?_, ?_, ?_⟩
  · apply Complex.ext <;> simp [Cx.addRC]
  · apply Complex.ext <;> simp [Cx.addCR, add_comm]
  · apply Complex.ext <;> simp [Cx.subCR]
  · apply Complex.ext <;> simp [Cx.mulRC]
  · apply Complex.ext <;> simp [Cx.mulCR, mul_comm]
  · apply Complex.ext <;> simp [Cx.divCR, Complex.div_ofReal_re, Complex.div_ofReal_im]

/-- `real - complex` is right exactly when the complex operand is real. -/
theorem C39_sub_wrong (v : ℝ) (z : ℂ) : Cx.subRC v z = (v : ℂ) - z ↔ z.im = 0 := by
  constructor
  · intro h
    have := congrArg Complex.im h
    simp [Cx.subRC] at this
    linarith
  · intro h
    apply Complex.ext <;> simp [Cx.subRC, h]

/-- `real / complex` is wrong for every non-zero real and every complex with non-zero imaginary part
whose real and imaginary part differ in absolute value; it is right for a real operand. -/
theorem C39_div_wrong (v : ℝ) (z : ℂ) (hv : v ≠ 0) (hz : z ≠ 0) (hd : z.re ^ 2 ≠ z.im ^ 2) :
    Cx.divRC v z = (v : ℂ) / z ↔ z.im = 0 := by
  have hn : z.re ^ 2 + z.im ^ 2 ≠ 0 := by
    intro h
    apply hz
    have h1 : z.re = 0 := by nlinarith [sq_nonneg z.re, sq_nonneg z.im]
    have h2 : z.im = 0 := by nlinarith [sq_nonneg z.re, sq_nonneg z.im]
    exact Complex.ext h1 h2
  have hd' : z.re * z.re - z.im * z.im ≠ 0 := by
    intro h; apply hd; nlinarith
  have hns : Complex.normSq z = z.re ^ 2 + z.im ^ 2 := by rw [Complex.normSq_apply]; ring
  constructor
  · intro h
    by_contra him
    have := congrArg Complex.im h
    simp only [Cx.divRC, Complex.mul_re, Complex.div_im, Complex.ofReal_im, Complex.ofReal_re, hns,
      zero_mul, zero_div, zero_sub] at this
    rw [← neg_div, div_eq_div_iff hd' hn] at this
    have h2 : v * z.im * (z.im * z.im * 2) = 0 := by linarith
    have h3 : z.im * z.im * 2 ≠ 0 := by
      have := mul_ne_zero him him
      intro h; apply this; linarith
    exact (mul_ne_zero (mul_ne_zero hv him) h3) h2
  · intro him
    have hre : z.re ≠ 0 := by intro h; apply hz; exact Complex.ext h him
    apply Complex.ext
    · simp only [Cx.divRC, Complex.mul_re, Complex.div_re, Complex.ofReal_im, Complex.ofReal_re, hns,
        him]
      field_simp
      ring
    · simp [Cx.divRC, Complex.div_im, him]

/-- `==` and `!=` between complex and real are right exactly for the real number `0` or when both
sides are different anyway. -/
theorem C39_eq_wrong :
    (∀ z : ℂ, Cx.eqCR z 0 ↔ z = ((0 : ℝ) : ℂ)) ∧
    (∀ v : ℝ, v ≠ 0 → ¬Cx.eqCR (v : ℂ) v ∧ Cx.neCR (v : ℂ) v) ∧
    (∀ v : ℝ, v ≠ 0 → Cx.eqCR ⟨v, v⟩ v ∧ (⟨v, v⟩ : ℂ) ≠ (v : ℂ)) := by
  refine ⟨fun z => ?_, fun v hv => ?_, fun v hv => ?_⟩
  · constructor
    · rintro ⟨h1, h2⟩; apply Complex.ext <;> simp [h1, h2]
    · rintro rfl; simp [Cx.eqCR]
  · have : ¬Cx.eqCR (v : ℂ) v := by rintro ⟨_, h⟩; simp at h; exact hv h.symm
    exact ⟨this, this⟩
  · refine ⟨⟨rfl, rfl⟩, fun h => ?_⟩
    have := congrArg Complex.im h
    simp at this
    exact hv this

/-! ## C42: the factorial table -/

/-- `size_t` arithmetic: results are reduced modulo `2^64`. -/
def word : ℕ := 2 ^ 64

/-- The static memo table as an association list, newest first (`UnOrderedMap<size_t, size_t>`). -/
abbrev FactMap := List (ℕ × ℕ)

/-- `static map{{0,1},{1,1}}`.  CommonMatFunctions.cpp:27. -/
def factInit : FactMap := [(0, 1), (1, 1)]

/-- `Factorial(n)`: on a miss `map[n] = n*Factorial(n-1)`; return `map[n]` (a missing key would read
`0`).  CommonMatFunctions.cpp:26-32.  `n = 0` is always present in the initial map, so the recursion
on `n-1` does not underflow from a map containing `0`; the model stops there. -/
def factorial : (n : ℕ) → FactMap → FactMap × ℕ
  | 0, m => (m, (m.lookup 0).getD 0)
  | n + 1, m =>
    let m' := if (m.lookup (n + 1)).isNone then
        let r := factorial n m
        (n + 1, (n + 1) * r.2 % word) :: r.1
      else m
    (m', (m'.lookup (n + 1)).getD 0)

/-- A sequence of calls. -/
def factCalls (m : FactMap) : List ℕ → List ℕ
  | [] => []
  | n :: ns => let r := factorial n m; r.2 :: factCalls r.1 ns

/-- The table is right modulo the word size. -/
def FactGood (m : FactMap) : Prop :=
  (m.lookup 0 = some 1) ∧ ∀ k v, m.lookup k = some v → v = k.factorial % word

theorem factorial_good (n : ℕ) : ∀ m, FactGood m →
    FactGood (factorial n m).1 ∧ (factorial n m).2 = n.factorial % word := by
  induction n with
  | zero => intro m hm; exact ⟨hm, by simp [factorial, hm.1, word]⟩
  | succ n ih =>
    intro m hm
    simp only [factorial]
    cases h : m.lookup (n + 1) with
    | some v =>
      simp only [Option.isNone_some, Bool.false_eq_true, if_false]
      exact ⟨hm, by rw [h]; exact hm.2 _ _ h⟩
    | none =>
      obtain ⟨h1, h2⟩ := ih m hm
      simp only [Option.isNone_none, if_true]
      have hv : (n + 1) * (factorial n m).2 % word = (n + 1).factorial % word := by
        rw [h2, Nat.factorial_succ, Nat.mul_mod, Nat.mod_mod, ← Nat.mul_mod]
      refine ⟨⟨?_, ?_⟩, ?_⟩
      · rw [List.lookup_cons]; exact h1.1
      · intro k v hk
        rw [List.lookup_cons] at hk
        split at hk
        · rename_i e
          have e := eq_of_beq e
          subst e
          rw [← Option.some.inj hk]; exact hv
        · exact h1.2 k v hk
      · simp [List.lookup_cons, hv]

/-- **C42.** In every sequence of calls, each call `Factorial(n)` returns `n!` modulo the word size;
hence `n!` itself whenever that fits (`n ≤ 20`). -/
theorem C42_factorial (ns : List ℕ) :
    factCalls factInit ns = ns.map (fun n => n.factorial % word) ∧
      ((∀ n ∈ ns, n.factorial < word) → factCalls factInit ns = ns.map Nat.factorial) := by
  have key : ∀ (ns : List ℕ) (m : FactMap), FactGood m →
      factCalls m ns = ns.map (fun n => n.factorial % word) := by
    intro ns
    induction ns with
    | nil => intro m _; rfl
    | cons n ns ih =>
      intro m hm
      obtain ⟨h1, h2⟩ := factorial_good n m hm
      simp only [factCalls, List.map_cons, h2, ih _ h1]
  have h0 : FactGood factInit := by
    refine ⟨rfl, fun k v hk => ?_⟩
    simp only [factInit, List.lookup_cons] at hk
    split at hk
    · rename_i e
      have e := eq_of_beq e
      subst e
      cases hk; rfl
    · split at hk
      · rename_i e
        have e := eq_of_beq e
        subst e
        cases hk; rfl
      · simp at hk
  refine ⟨key ns _ h0, fun h => ?_⟩
  rw [key ns _ h0]
  exact List.map_congr_left fun n hn => Nat.mod_eq_of_lt (h n hn)

/-- It fits exactly up to `20` (so `MatrixExp<N>` with `N ≥ 21` divides by wrapped values). -/
theorem C42_fits (n : ℕ) : n.factorial < word ↔ n ≤ 20 := by
  have h20 : Nat.factorial 20 < word := by decide
  have h21 : word ≤ Nat.factorial 21 := by decide
  constructor
  · intro h
    by_contra hn
    exact absurd (h21.trans (Nat.factorial_le (by omega : 21 ≤ n))) (not_le.2 h)
  · intro h; exact (Nat.factorial_le h).trans_lt h20

end CoolDiff
