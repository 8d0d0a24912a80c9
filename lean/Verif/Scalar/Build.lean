import Verif.Scalar.FwdProof
import Mathlib.Data.List.Nodup

/-!
# Building expressions

`Exp` is what the user writes; `Exp.build` is the sequence of operator-function calls it stands
for, with the numbers they take from the global counter.
-/

set_option linter.unusedSectionVars false

namespace CoolDiff

variable {K : Type} [Field K] [DecidableEq K]

/-- What the user can write on the right-hand side of an Expression. -/
inductive Exp (K : Type)
  | var (o : ℕ)
  | par (p : ℕ)
  | fn (f : Fn) (a : Exp K)
  | add (a b : Exp K) | sub (a b : Exp K) | mul (a b : Exp K) | div (a b : Exp K)
  | pow (a b : Exp K)
  | addC (a : Exp K) (c : K) | cAdd (c : K) (a : Exp K)
  | subC (a : Exp K) (c : K) | cSub (c : K) (a : Exp K)
  | neg (a : Exp K)
  | mulC (a : Exp K) (c : K) | cMul (c : K) (a : Exp K)
  | divC (a : Exp K) (c : K) | cDiv (c : K) (a : Exp K)
  | powC (a : Exp K) (c : K) | cPow (c : K) (a : Exp K)
  /-- operator declared with `UNARY_SCALAR_OPERATOR(f, df)` -/
  | un (f df : K → K) (a : Exp K)
  /-- operator declared with `BINARY_SCALAR_OPERATOR(f, fu, fv)` -/
  | bin (f fu fv : K → K → K) (a b : Exp K)
  /-- the same operator with a number on the left -/
  | cBin (f fu fv : K → K → K) (c : K) (a : Exp K)
  /-- the same operator with a number on the right -/
  | binC (f fu fv : K → K → K) (a : Exp K) (c : K)

namespace Exp

/-- The objects a written formula mentions. -/
def leaves : Exp K → List ℕ
  | var o => [o]
  | par _ => []
  | fn _ a | addC a _ | cAdd _ a | subC a _ | cSub _ a | neg a | mulC a _ | cMul _ a | divC a _
  | cDiv _ a | powC a _ | cPow _ a | un _ _ a | cBin _ _ _ _ a | binC _ _ _ a _ => a.leaves
  | add a b | sub a b | mul a b | div a b | pow a b | bin _ _ _ a b => a.leaves ++ b.leaves

/-- The Parameters a written formula mentions. -/
def pars : Exp K → List ℕ
  | var _ => []
  | par p => [p]
  | fn _ a | addC a _ | cAdd _ a | subC a _ | cSub _ a | neg a | mulC a _ | cMul _ a | divC a _
  | cDiv _ a | powC a _ | cPow _ a | un _ _ a | cBin _ _ _ _ a | binC _ _ _ a _ => a.pars
  | add a b | sub a b | mul a b | div a b | pow a b | bin _ _ _ a b => a.pars ++ b.pars

/-- The written arithmetic. -/
def val (P : Prim K) (π ρ : ℕ → K) : Exp K → K
  | var o => ρ o
  | par p => π p
  | fn f a => (Op1.fn f).sem P (a.val P π ρ)
  | add a b => a.val P π ρ + b.val P π ρ
  | sub a b => a.val P π ρ - b.val P π ρ
  | mul a b => a.val P π ρ * b.val P π ρ
  | div a b => a.val P π ρ / b.val P π ρ
  | pow a b => P.pow (a.val P π ρ) (b.val P π ρ)
  | addC a c => a.val P π ρ + c
  | cAdd c a => c + a.val P π ρ
  | subC a c => a.val P π ρ - c
  | cSub c a => c - a.val P π ρ
  | neg a => - a.val P π ρ
  | mulC a c => a.val P π ρ * c
  | cMul c a => c * a.val P π ρ
  | divC a c => a.val P π ρ / c
  | cDiv c a => c / a.val P π ρ
  | powC a c => P.pow (a.val P π ρ) c
  | cPow c a => P.pow c (a.val P π ρ)
  | un f _ a => f (a.val P π ρ)
  | bin f _ _ a b => f (a.val P π ρ) (b.val P π ρ)
  | cBin f _ _ c a => f c (a.val P π ρ)
  | binC f _ _ a c => f (a.val P π ρ) c

/-- The derivative of the written arithmetic, by the rules of calculus (for user operators: with
the supplied derivative functions). -/
def der (P : Prim K) (π ρ δ : ℕ → K) : Exp K → K
  | var o => δ o
  | par _ => 0
  | fn f a => (Op1.fn f).der P (a.val P π ρ) * a.der P π ρ δ
  | add a b => a.der P π ρ δ + b.der P π ρ δ
  | sub a b => a.der P π ρ δ - b.der P π ρ δ
  | mul a b => a.der P π ρ δ * b.val P π ρ + a.val P π ρ * b.der P π ρ δ
  | div a b => (a.der P π ρ δ * b.val P π ρ - a.val P π ρ * b.der P π ρ δ) / b.val P π ρ ^ 2
  | pow a b => P.pow (a.val P π ρ) (b.val P π ρ) *
      (b.val P π ρ / a.val P π ρ * a.der P π ρ δ + P.log (a.val P π ρ) * b.der P π ρ δ)
  | addC a _ => a.der P π ρ δ
  | cAdd _ a => a.der P π ρ δ
  | subC a _ => a.der P π ρ δ
  | cSub _ a => - a.der P π ρ δ
  | neg a => - a.der P π ρ δ
  | mulC a c => a.der P π ρ δ * c
  | cMul c a => c * a.der P π ρ δ
  | divC a c => a.der P π ρ δ / c
  | cDiv c a => -(c * a.der P π ρ δ) / a.val P π ρ ^ 2
  | powC a c => c * P.pow (a.val P π ρ) (c - 1) * a.der P π ρ δ
  | cPow c a => P.pow c (a.val P π ρ) * P.log c * a.der P π ρ δ
  | un _ df a => df (a.val P π ρ) * a.der P π ρ δ
  | bin _ fu fv a b => fu (a.val P π ρ) (b.val P π ρ) * a.der P π ρ δ +
      fv (a.val P π ρ) (b.val P π ρ) * b.der P π ρ δ
  | cBin _ _ fv c a => fv c (a.val P π ρ) * a.der P π ρ δ
  | binC _ fu _ a c => fu (a.val P π ρ) c * a.der P π ρ δ

end Exp

/-- An operator function with one node operand: clone the operand, allocate the node
(GenericSin.hpp:182-186, GenericSum.hpp:383-395, GenericProduct.hpp:389-401, GenericDiv.hpp:407-411,
GenericPow.hpp:558-570, ...). -/
def mk1 (f : Op1 K) (a : Node K) (n : ℕ) : Node K × ℕ :=
  let r := cloneN a n
  (.op1 r.2 f r.1, r.2 + 1)

/-- An operator function with two node operands: clone both, allocate the node (GenericSum.hpp:372-379,
GenericSub.hpp:213-220, GenericProduct.hpp:378-385, GenericDiv.hpp:396-403, GenericPow.hpp:547-554,
GenericScalarBinary.hpp:139-146). -/
def mk2 (f : Op2 K) (a b : Node K) (n : ℕ) : Node K × ℕ :=
  let r := cloneN a n
  let s := cloneN b r.2
  (.op2 s.2 f r.1 s.1, s.2 + 1)

/-- The operator-function calls a written formula stands for.  Number operands:
`x + c`, `c + x` GenericSum.hpp:383-395; `x - c` = `clone(x) + (-1)*c` GenericSub.hpp:231-234;
`c - x` = `c + (-1)*clone(x)` GenericSub.hpp:224-227; `-x` = `(-1)*clone(x)` GenericNeg.hpp:29-32;
`x * c`, `c * x` GenericProduct.hpp:389-401; `x / c` = `(1/c)*x` GenericProduct.hpp:405-409;
`c / x` GenericDiv.hpp:407-411; `pow` GenericPow.hpp:558-570; user operators
GenericScalarUnary.hpp:100-107, GenericScalarBinary.hpp:228-232 and 316-320 (a user operator with a
number operand is a one-operand node with the corresponding section of the functions). -/
def Exp.build : Exp K → ℕ → Node K × ℕ
  | var o, n => (.leaf o, n)
  | par p, n => (.par p, n)
  | fn f a, n => let r := a.build n; mk1 (.fn f) r.1 r.2
  | add a b, n => let r := a.build n; let s := b.build r.2; mk2 .add r.1 s.1 s.2
  | sub a b, n => let r := a.build n; let s := b.build r.2; mk2 .sub r.1 s.1 s.2
  | mul a b, n => let r := a.build n; let s := b.build r.2; mk2 .mul r.1 s.1 s.2
  | div a b, n => let r := a.build n; let s := b.build r.2; mk2 .div r.1 s.1 s.2
  | pow a b, n => let r := a.build n; let s := b.build r.2; mk2 .pow r.1 s.1 s.2
  | addC a c, n => let r := a.build n; mk1 (.addC c) r.1 r.2
  | cAdd c a, n => let r := a.build n; mk1 (.addC c) r.1 r.2
  | subC a c, n => let r := a.build n; let s := cloneN r.1 r.2; mk1 (.addC ((-1) * c)) s.1 s.2
  | cSub c a, n =>
      let r := a.build n
      let s := cloneN r.1 r.2
      let t := mk1 (.mulC (-1)) s.1 s.2
      mk1 (.addC c) t.1 t.2
  | neg a, n => let r := a.build n; let s := cloneN r.1 r.2; mk1 (.mulC (-1)) s.1 s.2
  | mulC a c, n => let r := a.build n; mk1 (.mulC c) r.1 r.2
  | cMul c a, n => let r := a.build n; mk1 (.mulC c) r.1 r.2
  | divC a c, n => let r := a.build n; mk1 (.mulC (1 / c)) r.1 r.2
  | cDiv c a, n => let r := a.build n; mk1 (.divC c) r.1 r.2
  | powC a c, n => let r := a.build n; mk1 (.powC c) r.1 r.2
  | cPow c a, n => let r := a.build n; mk1 (.cPow c) r.1 r.2
  | un f df a, n => let r := a.build n; mk1 (.custom f df) r.1 r.2
  | bin f fu fv a b, n => let r := a.build n; let s := b.build r.2; mk2 (.custom f fu fv) r.1 s.1 s.2
  | cBin f _ fv c a, n => let r := a.build n; mk1 (.custom (f c) (fv c)) r.1 r.2
  | binC f fu _ a c, n => let r := a.build n; mk1 (.custom (fun u => f u c) (fun u => fu u c)) r.1 r.2

/-! ## Copies -/

theorem cloneN_ids (t : Node K) : ∀ n, n ≤ (cloneN t n).2 ∧
    (∀ k ∈ (cloneN t n).1.opIds, n ≤ k ∧ k < (cloneN t n).2) ∧ (cloneN t n).1.opIds.Nodup := by
  induction t with
  | leaf o => intro n; simp [cloneN, Node.opIds]
  | par p => intro n; simp [cloneN, Node.opIds]
  | op1 m f a ih =>
      intro n
      obtain ⟨h1, h2, h3⟩ := ih n
      refine ⟨by simp [cloneN]; omega, ?_, ?_⟩
      · intro k hk
        simp only [cloneN, Node.opIds, List.mem_cons] at hk ⊢
        rcases hk with rfl | hk
        · omega
        · have := h2 k hk; omega
      · simp only [cloneN, Node.opIds, List.nodup_cons]
        exact ⟨fun h => by have := h2 _ h; omega, h3⟩
  | op2 m f a b iha ihb =>
      intro n
      obtain ⟨h1, h2, h3⟩ := iha n
      obtain ⟨g1, g2, g3⟩ := ihb (cloneN a n).2
      refine ⟨by simp [cloneN]; omega, ?_, ?_⟩
      · intro k hk
        simp only [cloneN, Node.opIds, List.mem_cons, List.mem_append] at hk ⊢
        rcases hk with rfl | hk | hk
        · omega
        · have := h2 k hk; omega
        · have := g2 k hk; omega
      · simp only [cloneN, Node.opIds, List.nodup_cons, List.mem_append]
        refine ⟨?_, ?_⟩
        · rintro (h | h)
          · have := h2 _ h; omega
          · have := g2 _ h; omega
        · rw [List.nodup_append]
          refine ⟨h3, g3, ?_⟩
          intro u hu v hv huv
          have := h2 u hu; have := g2 v hv; omega

theorem cloneN_leaves (t : Node K) : ∀ n, (cloneN t n).1.leaves = t.leaves := by
  induction t with
  | leaf | par => intro n; rfl
  | op1 m f a ih => intro n; simp [cloneN, Node.leaves, ih]
  | op2 m f a b iha ihb => intro n; simp [cloneN, Node.leaves, iha, ihb]

theorem cloneN_pars (t : Node K) : ∀ n, (cloneN t n).1.pars = t.pars := by
  induction t with
  | leaf | par => intro n; rfl
  | op1 m f a ih => intro n; simp [cloneN, Node.pars, ih]
  | op2 m f a b iha ihb => intro n; simp [cloneN, Node.pars, iha, ihb]

theorem cloneN_val (P : Prim K) (π ρ : ℕ → K) (t : Node K) :
    ∀ n, (cloneN t n).1.val P π ρ = t.val P π ρ := by
  induction t with
  | leaf | par => intro n; rfl
  | op1 m f a ih => intro n; simp [cloneN, Node.val, ih]
  | op2 m f a b iha ihb => intro n; simp [cloneN, Node.val, iha, ihb]

theorem cloneN_der (P : Prim K) (π ρ δ : ℕ → K) (t : Node K) :
    ∀ n, (cloneN t n).1.der P π ρ δ = t.der P π ρ δ := by
  induction t with
  | leaf | par => intro n; rfl
  | op1 m f a ih => intro n; simp [cloneN, Node.der, ih, cloneN_val]
  | op2 m f a b iha ihb => intro n; simp [cloneN, Node.der, iha, ihb, cloneN_val]

theorem cloneN_findMe (y : ℕ) (t : Node K) : ∀ n, findMe y (cloneN t n).1 = findMe y t := by
  induction t with
  | leaf | par => intro n; rfl
  | op1 m f a ih => intro n; simp [cloneN, findMe, ih]
  | op2 m f a b iha ihb => intro n; simp [cloneN, findMe, iha, ihb]

theorem findMe_iff (y : ℕ) (t : Node K) : findMe y t = true ↔ y ∈ t.leaves := by
  induction t with
  | leaf o =>
      simp only [findMe, Node.leaves, List.mem_singleton, beq_iff_eq]
      exact eq_comm
  | par => simp [findMe, Node.leaves]
  | op1 m f a ih => simp [findMe, Node.leaves, ih]
  | op2 m f a b iha ihb => simp [findMe, Node.leaves, iha, ihb]

/-! ## Building -/

/-- What building guarantees about numbers: nothing below the counter is reused. -/
structure BuildOK (n : ℕ) (r : Node K × ℕ) : Prop where
  le : n ≤ r.2
  ids : ∀ k ∈ r.1.opIds, n ≤ k ∧ k < r.2
  nodup : r.1.opIds.Nodup

theorem mk1_ok (f : Op1 K) (a : Node K) (n : ℕ) : BuildOK n (mk1 f a n) := by
  obtain ⟨h1, h2, h3⟩ := cloneN_ids (.op1 0 f a) n
  exact ⟨h1, h2, h3⟩

theorem mk2_ok (f : Op2 K) (a b : Node K) (n : ℕ) : BuildOK n (mk2 f a b n) := by
  obtain ⟨h1, h2, h3⟩ := cloneN_ids (.op2 0 f a b) n
  exact ⟨h1, h2, h3⟩

theorem BuildOK.mono {n m : ℕ} {r : Node K × ℕ} (h : BuildOK m r) (hm : n ≤ m) : BuildOK n r :=
  ⟨hm.trans h.le, fun k hk => ⟨hm.trans (h.ids k hk).1, (h.ids k hk).2⟩, h.nodup⟩

theorem Exp.build_ok (e : Exp K) : ∀ n, BuildOK n (e.build n) := by
  induction e with
  | var | par => intro n; exact ⟨le_refl _, by simp [build, Node.opIds], by simp [build, Node.opIds]⟩
  | add a b iha ihb | sub a b iha ihb | mul a b iha ihb | div a b iha ihb | pow a b iha ihb
  | bin f fu fv a b iha ihb =>
      intro n
      exact (mk2_ok _ _ _ _).mono ((iha n).le.trans (ihb _).le)
  | fn f a ih | addC a c ih | cAdd c a ih | mulC a c ih | cMul c a ih | divC a c ih | cDiv c a ih
  | powC a c ih | cPow c a ih | un f df a ih | cBin f fu fv c a ih | binC f fu fv a c ih =>
      intro n
      exact (mk1_ok _ _ _).mono (ih n).le
  | subC a c ih | neg a ih =>
      intro n
      exact (mk1_ok _ _ _).mono ((ih n).le.trans (cloneN_ids _ _).1)
  | cSub c a ih =>
      intro n
      exact (mk1_ok _ _ _).mono (((ih n).le.trans (cloneN_ids _ _).1).trans (mk1_ok _ _ _).le)

theorem Exp.build_leaves (e : Exp K) : ∀ n, (e.build n).1.leaves = e.leaves := by
  induction e <;> intro n <;>
    simp [build, mk1, mk2, Node.leaves, Exp.leaves, cloneN_leaves, *]

theorem Exp.build_pars (e : Exp K) : ∀ n, (e.build n).1.pars = e.pars := by
  induction e <;> intro n <;>
    simp [build, mk1, mk2, Node.pars, Exp.pars, cloneN_pars, *]

/-- The tree built for a formula has the value of the written arithmetic. -/
theorem Exp.build_val (P : Prim K) (π ρ : ℕ → K) (e : Exp K) :
    ∀ n, (e.build n).1.val P π ρ = e.val P π ρ := by
  induction e <;> intro n <;>
    simp [build, mk1, mk2, Node.val, Exp.val, cloneN_val, Op1.sem, Op2.sem, *]
  case addC => ring
  case subC => ring
  case cSub => ring
  case mulC => ring
  case divC => rw [div_eq_inv_mul]

/-- The tree built for a formula has the derivative of the written arithmetic. -/
theorem Exp.build_der (P : Prim K) (π ρ δ : ℕ → K) (e : Exp K) :
    ∀ n, (e.build n).1.der P π ρ δ = e.der P π ρ δ := by
  induction e <;> intro n <;>
    simp [build, mk1, mk2, Node.der, Exp.der, cloneN_val, cloneN_der, Op1.der, Op2.derL,
      Op2.derR, Exp.build_val, *]
  case sub => ring
  case mul => ring
  case div a b _ _ =>
      by_cases h : b.val P π ρ = 0
      · simp [h]
      · field_simp
        ring
  case pow => ring
  case mulC => ring
  case divC => rw [div_eq_inv_mul]
  case cDiv => ring

end CoolDiff
