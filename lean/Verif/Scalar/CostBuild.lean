import Verif.Scalar.CostBound

/-!
# How many operator nodes a definition allocates
-/

set_option linter.unusedSectionVars false

namespace CoolDiff

variable {K : Type} [Field K] [DecidableEq K]

/-- Number of operators of a formula. -/
def Node.ops (t : Node K) : ℕ := t.opIds.length

theorem Node.ops_le_size (t : Node K) : t.ops + 1 ≤ t.size := by
  induction t with
  | leaf => simp [ops, opIds, size]
  | par => simp [ops, opIds, size]
  | op1 n f a ih => simp only [ops, opIds, List.length_cons, size] at *; omega
  | op2 n f a b iha ihb => simp only [ops, opIds, List.length_cons, List.length_append, size] at *; omega

theorem cloneN_ops (t : Node K) : ∀ n, (cloneN t n).1.ops = t.ops ∧ (cloneN t n).2 = n + t.ops := by
  induction t with
  | leaf => intro n; simp [cloneN, Node.ops, Node.opIds]
  | par => intro n; simp [cloneN, Node.ops, Node.opIds]
  | op1 m f a ih =>
      intro n
      have h := ih n
      simp only [cloneN, Node.ops, Node.opIds, List.length_cons] at *
      omega
  | op2 m f a b iha ihb =>
      intro n
      have h := iha n
      have h' := ihb (cloneN a n).2
      simp only [cloneN, Node.ops, Node.opIds, List.length_cons, List.length_append] at *
      omega

theorem cloneN_size (t : Node K) : ∀ n, (cloneN t n).1.size = t.size := by
  induction t with
  | leaf | par => intro n; rfl
  | op1 m f a ih => intro n; simp [cloneN, Node.size, ih]
  | op2 m f a b iha ihb => intro n; simp [cloneN, Node.size, iha, ihb]

theorem cloneN_depth (t : Node K) : ∀ n, (cloneN t n).1.depth = t.depth := by
  induction t with
  | leaf | par => intro n; rfl
  | op1 m f a ih => intro n; simp [cloneN, Node.depth, ih]
  | op2 m f a b iha ihb => intro n; simp [cloneN, Node.depth, iha, ihb]

theorem mk1_ops (f : Op1 K) (a : Node K) (n : ℕ) :
    (mk1 f a n).1.ops = a.ops + 1 ∧ (mk1 f a n).2 = n + a.ops + 1 := by
  have h := cloneN_ops a n
  simp only [mk1, Node.ops, Node.opIds, List.length_cons] at *
  omega

theorem mk2_ops (f : Op2 K) (a b : Node K) (n : ℕ) :
    (mk2 f a b n).1.ops = a.ops + b.ops + 1 ∧ (mk2 f a b n).2 = n + a.ops + b.ops + 1 := by
  have h := cloneN_ops a n
  have h' := cloneN_ops b (cloneN a n).2
  simp only [mk2, Node.ops, Node.opIds, List.length_cons, List.length_append] at *
  omega

/-- Building a formula allocates at most as many operator nodes as the square of the number of its operators. -/
theorem Exp.build_alloc (e : Exp K) : ∀ n, (e.build n).2 ≤ n + (e.build n).1.ops ^ 2 := by
  have one : ∀ (f : Op1 K) (r : Node K × ℕ) (n : ℕ), r.2 ≤ n + r.1.ops ^ 2 →
      (mk1 f r.1 r.2).2 ≤ n + (mk1 f r.1 r.2).1.ops ^ 2 := by
    intro f r n h
    obtain ⟨h1, h2⟩ := mk1_ops f r.1 r.2
    rw [h1, h2]; nlinarith
  have cp : ∀ (f : Op1 K) (r : Node K × ℕ) (n : ℕ), r.2 ≤ n + r.1.ops ^ 2 →
      (mk1 f (cloneN r.1 r.2).1 (cloneN r.1 r.2).2).2 ≤
        n + (mk1 f (cloneN r.1 r.2).1 (cloneN r.1 r.2).2).1.ops ^ 2 := by
    intro f r n h
    obtain ⟨h1, h2⟩ := mk1_ops f (cloneN r.1 r.2).1 (cloneN r.1 r.2).2
    obtain ⟨h3, h4⟩ := cloneN_ops r.1 r.2
    rw [h1, h2, h3, h4]; nlinarith
  have two : ∀ (f : Op2 K) (r s : Node K × ℕ) (n : ℕ), r.2 ≤ n + r.1.ops ^ 2 → s.2 ≤ r.2 + s.1.ops ^ 2 →
      (mk2 f r.1 s.1 s.2).2 ≤ n + (mk2 f r.1 s.1 s.2).1.ops ^ 2 := by
    intro f r s n h h'
    obtain ⟨h1, h2⟩ := mk2_ops f r.1 s.1 s.2
    rw [h1, h2]; nlinarith [Nat.zero_le (r.1.ops * s.1.ops)]
  induction e with
  | var | par => intro n; simp [build]
  | fn f a ih | addC a c ih | cAdd c a ih | mulC a c ih | cMul c a ih | divC a c ih | cDiv c a ih | powC a c ih
  | cPow c a ih | un f df a ih | cBin f fu fv c a ih | binC f fu fv a c ih => intro n; exact one _ _ _ (ih n)
  | subC a c ih | neg a ih => intro n; exact cp _ _ _ (ih n)
  | cSub c a ih =>
      intro n
      have h := ih n
      simp only [build]
      obtain ⟨h3, h4⟩ := cloneN_ops (a.build n).1 (a.build n).2
      obtain ⟨h5, h6⟩ := mk1_ops (.mulC (-1)) (cloneN (a.build n).1 (a.build n).2).1 (cloneN (a.build n).1 (a.build n).2).2
      obtain ⟨h7, h8⟩ := mk1_ops (.addC c) (mk1 (.mulC (-1)) (cloneN (a.build n).1 (a.build n).2).1 (cloneN (a.build n).1 (a.build n).2).2).1
        (mk1 (.mulC (-1)) (cloneN (a.build n).1 (a.build n).2).1 (cloneN (a.build n).1 (a.build n).2).2).2
      rw [h7, h8, h5, h6, h3, h4]; nlinarith
  | add a b iha ihb | sub a b iha ihb | mul a b iha ihb | div a b iha ihb | pow a b iha ihb | bin f fu fv a b iha ihb =>
      intro n; exact two _ _ _ _ (iha n) (ihb _)

/-- How deep the operators of a written formula are nested. -/
def Exp.depth : Exp K → ℕ
  | var _ | par _ => 0
  | fn _ a | addC a _ | cAdd _ a | subC a _ | cSub _ a | neg a | mulC a _ | cMul _ a | divC a _
  | cDiv _ a | powC a _ | cPow _ a | un _ _ a | cBin _ _ _ _ a | binC _ _ _ a _ => a.depth + 1
  | add a b | sub a b | mul a b | div a b | pow a b | bin _ _ _ a b => max a.depth b.depth + 1

/-- Number of nodes of a written formula: mentions of objects and operators (numbers are part of their operator). -/
def Exp.size : Exp K → ℕ
  | var _ | par _ => 1
  | fn _ a | addC a _ | cAdd _ a | subC a _ | cSub _ a | neg a | mulC a _ | cMul _ a | divC a _
  | cDiv _ a | powC a _ | cPow _ a | un _ _ a | cBin _ _ _ _ a | binC _ _ _ a _ => a.size + 1
  | add a b | sub a b | mul a b | div a b | pow a b | bin _ _ _ a b => a.size + b.size + 1

theorem mk1_depth (f : Op1 K) (a : Node K) (n : ℕ) : (mk1 f a n).1.depth = a.depth + 1 := by
  simp [mk1, Node.depth, cloneN_depth]

theorem mk2_depth (f : Op2 K) (a b : Node K) (n : ℕ) : (mk2 f a b n).1.depth = max a.depth b.depth + 1 := by
  simp [mk2, Node.depth, cloneN_depth]

theorem mk1_size (f : Op1 K) (a : Node K) (n : ℕ) : (mk1 f a n).1.size = a.size + 1 := by
  simp [mk1, Node.size, cloneN_size]

theorem mk2_size (f : Op2 K) (a b : Node K) (n : ℕ) : (mk2 f a b n).1.size = a.size + b.size + 1 := by
  simp [mk2, Node.size, cloneN_size]

theorem Exp.build_depth (e : Exp K) : ∀ n, e.depth ≤ (e.build n).1.depth := by
  induction e with
  | var | par => intro n; simp [depth]
  | fn f a ih | addC a c ih | cAdd c a ih | mulC a c ih | cMul c a ih | divC a c ih | cDiv c a ih | powC a c ih
  | cPow c a ih | un f df a ih | cBin f fu fv c a ih | binC f fu fv a c ih | subC a c ih | neg a ih | cSub c a ih =>
      intro n
      have := ih n
      simp only [build, mk1_depth, cloneN_depth, depth]
      omega
  | add a b iha ihb | sub a b iha ihb | mul a b iha ihb | div a b iha ihb | pow a b iha ihb | bin f fu fv a b iha ihb =>
      intro n
      have := iha n
      have := ihb (a.build n).2
      simp only [build, mk2_depth, depth]
      omega

theorem Exp.build_size (e : Exp K) : ∀ n, (e.build n).1.size + 1 ≤ 2 * e.size := by
  induction e with
  | var | par => intro n; simp [build, size, Node.size]
  | fn f a ih | addC a c ih | cAdd c a ih | mulC a c ih | cMul c a ih | divC a c ih | cDiv c a ih | powC a c ih
  | cPow c a ih | un f df a ih | cBin f fu fv c a ih | binC f fu fv a c ih | subC a c ih | neg a ih | cSub c a ih =>
      intro n
      have := ih n
      simp only [build, mk1_size, cloneN_size, size]
      omega
  | add a b iha ihb | sub a b iha ihb | mul a b iha ihb | div a b iha ihb | pow a b iha ihb | bin f fu fv a b iha ihb =>
      intro n
      have := iha n
      have := ihb (a.build n).2
      simp only [build, mk2_size, size]
      omega

theorem stored_size (e : Exp K) (n : ℕ) : (stored e n).size ≤ 2 * e.size := by
  have := e.build_size n
  simp only [stored, Node.size, cloneN_size]
  omega

theorem stored_depth (e : Exp K) (n : ℕ) : e.depth + 1 ≤ (stored e n).depth := by
  have := e.build_depth n
  simp only [stored, Node.depth, cloneN_depth]
  omega

end CoolDiff
