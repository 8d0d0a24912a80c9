import Verif.Scalar.History

/-!
# What a definition means
-/

set_option linter.unusedSectionVars false

namespace CoolDiff

variable {K : Type} [Field K] [DecidableEq K]
variable {P : Prim K}

theorem Exp.val_congr (P : Prim K) (π : ℕ → K) {ρ ρ' : ℕ → K} (e : Exp K)
    (h : ∀ p ∈ e.leaves, ρ p = ρ' p) : e.val P π ρ = e.val P π ρ' := by
  rw [← e.build_val P π ρ 0, ← e.build_val P π ρ' 0]
  exact Node.val_congr P π _ (by rw [e.build_leaves]; exact h)

theorem Exp.der_congr (P : Prim K) (π : ℕ → K) {ρ ρ' δ δ' : ℕ → K} (e : Exp K)
    (h : ∀ p ∈ e.leaves, ρ p = ρ' p) (h' : ∀ p ∈ e.leaves, δ p = δ' p) :
    e.der P π ρ δ = e.der P π ρ' δ' := by
  rw [← e.build_der P π ρ δ 0, ← e.build_der P π ρ' δ' 0]
  exact Node.der_congr P π _ (by rw [e.build_leaves]; exact h) (by rw [e.build_leaves]; exact h')

/-- The tree stored by `y = e`. -/
def stored (e : Exp K) (n : ℕ) : Node K :=
  let r := e.build n
  let c := cloneN r.1 r.2
  .op1 c.2 (.mulC 1) c.1

theorem stored_leaves (e : Exp K) (n : ℕ) : (stored e n).leaves = e.leaves := by
  simp [stored, Node.leaves, cloneN_leaves, e.build_leaves]

theorem stored_val (P : Prim K) (π ρ : ℕ → K) (e : Exp K) (n : ℕ) :
    (stored e n).val P π ρ = e.val P π ρ := by
  simp [stored, Node.val, Op1.sem, cloneN_val, e.build_val]

theorem stored_der (P : Prim K) (π ρ δ : ℕ → K) (e : Exp K) (n : ℕ) :
    (stored e n).der P π ρ δ = e.der P π ρ δ := by
  simp [stored, Node.der, Op1.der, cloneN_der, e.build_der]

/-- An assignment keeps the earlier equations exactly when the right-hand side mentions the
target. -/
theorem define_items (y : ℕ) (e : Exp K) (σ : St K) :
    (define y e σ).defs.items y =
      (if y ∈ e.leaves then σ.defs.items y else []) ++ [stored e σ.defs.next] := by
  have h : findMe y (e.build σ.defs.next).1 = true ↔ y ∈ e.leaves := by
    rw [findMe_iff, e.build_leaves]
  simp only [define, assignExp, Function.update_self, stored]
  congr 1
  by_cases hy : y ∈ e.leaves
  · simp [h.2 hy, hy]
  · have : findMe y (e.build σ.defs.next).1 = false := by
      cases hf : findMe y (e.build σ.defs.next).1 with
      | false => rfl
      | true => exact absurd (h.1 hf) hy
    simp [this, hy]

theorem define_items_ne {y q : ℕ} (h : q ≠ y) (e : Exp K) (σ : St K) :
    (define y e σ).defs.items q = σ.defs.items q := by
  simp [define, assignExp, h]

theorem define_base (y : ℕ) (e : Exp K) (σ : St K) : (define y e σ).defs.base = σ.defs.base := rfl
theorem define_par (y : ℕ) (e : Exp K) (σ : St K) : (define y e σ).defs.par = σ.defs.par := rfl
theorem define_size (y : ℕ) (e : Exp K) (σ : St K) : (define y e σ).defs.size = σ.defs.size := rfl
theorem define_nidx (y : ℕ) (e : Exp K) (σ : St K) : (define y e σ).defs.nidx = σ.defs.nidx := rfl
theorem define_mem (y : ℕ) (e : Exp K) (σ : St K) : (define y e σ).mem = σ.mem := rfl

theorem seqVal_append (P : Prim K) (π ρ : ℕ → K) (o : ℕ) (l : List (Node K)) (i : Node K) :
    ∀ v, seqVal P π ρ o (l ++ [i]) v = i.val P π (Function.update ρ o (seqVal P π ρ o l v)) := by
  induction l with
  | nil => intro v; rfl
  | cons j l ih => intro v; exact ih _

theorem seqDer_append (P : Prim K) (π ρ δ : ℕ → K) (o : ℕ) (l : List (Node K)) (i : Node K) :
    ∀ v d, seqDer P π ρ δ o (l ++ [i]) v d =
      i.der P π (Function.update ρ o (seqVal P π ρ o l v))
        (Function.update δ o (seqDer P π ρ δ o l v d)) := by
  induction l with
  | nil => intro v d; rfl
  | cons j l ih => intro v d; exact ih _ _

/-- Object `y` is currently defined by the single formula `e`, not mentioning `y`. -/
def IsFormula (D : Defs K) (y : ℕ) (e : Exp K) : Prop :=
  (∃ n, D.items y = [stored e n]) ∧ y ∉ e.leaves

theorem define_isFormula {y : ℕ} {e : Exp K} (h : y ∉ e.leaves) (σ : St K) :
    IsFormula (define y e σ).defs y e :=
  ⟨⟨σ.defs.next, by rw [define_items, if_neg h]; rfl⟩, h⟩

theorem IsFormula.reach {D : Defs K} {y p : ℕ} {e : Exp K} (h : IsFormula D y e)
    (hp : p ∈ e.leaves) : Reach D y p := by
  obtain ⟨⟨n, hn⟩, -⟩ := h
  exact Reach.of_leaf (i := stored e n) (by rw [hn]; simp) (by rw [stored_leaves]; exact hp)

theorem IsFormula.val {D : Defs K} {r y : ℕ} {e : Exp K} (h : IsFormula D y e) {ρ : ℕ → K}
    (hr : Reach D r y) (hρ : Solves P D r ρ) : ρ y = e.val P D.par ρ := by
  obtain ⟨⟨n, hn⟩, hy⟩ := h
  rw [hρ y hr, hn]
  simp only [seqVal, stored_val]
  apply Exp.val_congr
  intro p hp
  rw [Function.update_of_ne]
  rintro rfl; exact hy hp

theorem IsFormula.der {D : Defs K} {r y x : ℕ} {e : Exp K} (h : IsFormula D y e) {ρ δ : ℕ → K}
    (hr : Reach D r y) (hδ : Tangent P D r x ρ δ) (hyx : y ≠ x) :
    δ y = e.der P D.par ρ δ := by
  obtain ⟨⟨n, hn⟩, hy⟩ := h
  rw [hδ y hr, if_neg hyx, hn]
  simp only [seqDer, stored_der]
  apply Exp.der_congr
  · intro p hp
    rw [Function.update_of_ne]
    rintro rfl; exact hy hp
  · intro p hp
    rw [Function.update_of_ne]
    rintro rfl; exact hy hp

theorem Solves.mono {D : Defs K} {r y : ℕ} {ρ : ℕ → K} (h : Solves P D r ρ) (hr : Reach D r y) :
    Solves P D y ρ := fun q hq => h q (hr.trans hq)

theorem Tangent.mono {D : Defs K} {r y x : ℕ} {ρ δ : ℕ → K} (h : Tangent P D r x ρ δ)
    (hr : Reach D r y) : Tangent P D y x ρ δ := fun q hq => h q (hr.trans hq)

theorem WellDefined.mono {D : Defs K} {r y : ℕ} (h : WellDefined D r) (hr : Reach D r y) :
    WellDefined D y := by
  obtain ⟨⟨rank, h1⟩, h2⟩ := h
  exact ⟨⟨rank, fun q hq => h1 q (hr.trans hq)⟩, fun q hq => h2 q (hr.trans hq)⟩

/-- A Variable's value is the number it holds. -/
theorem Solves.variable {D : Defs K} {r q : ℕ} {ρ : ℕ → K} (h : Solves P D r ρ) (hr : Reach D r q)
    (he : D.items q = []) : ρ q = D.base q := by rw [h q hr, he]; rfl

/-- A Variable's derivative is 1 with respect to itself and 0 with respect to others. -/
theorem Tangent.variable {D : Defs K} {r q x : ℕ} {ρ δ : ℕ → K} (h : Tangent P D r x ρ δ)
    (hr : Reach D r q) (he : D.items q = []) : δ q = if q = x then 1 else 0 := by
  rw [h q hr, he]; rfl

/-- Nothing below `y` mentions `x`: the derivative is zero. -/
theorem tangent_zero {D : Defs K} {y x : ℕ} (h : ¬ Reach D y x) (ρ : ℕ → K) :
    Tangent P D y x ρ (fun _ => 0) := by
  intro q hq
  have hqx : q ≠ x := by rintro rfl; exact h hq
  rw [if_neg hqx]
  have : ∀ is v, seqDer P D.par ρ (fun _ => 0) q is v 0 = 0 := by
    intro is
    induction is with
    | nil => intro v; rfl
    | cons i is ih =>
        intro v
        have : i.der P D.par (Function.update ρ q v) (Function.update (fun _ => 0) q 0) = 0 := by
          refine Node.der_zero P _ _ _ i fun p _ => ?_
          by_cases hpq : p = q
          · subst hpq; simp
          · simp [hpq]
        simp only [seqDer, this]
        exact ih _
  exact (this _ _).symm

end CoolDiff
