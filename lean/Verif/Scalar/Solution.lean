import Verif.Scalar.FwdProof
import Mathlib.Logic.Function.Iterate

/-!
# Existence and uniqueness of the specified value and derivative
-/

set_option linter.unusedSectionVars false

namespace CoolDiff

variable {K : Type} [Field K] [DecidableEq K]
variable (P : Prim K)

theorem seqVal_congr (π : ℕ → K) {ρ ρ' : ℕ → K} (o : ℕ) (is : List (Node K)) :
    ∀ v, (∀ i ∈ is, ∀ p ∈ i.leaves, p ≠ o → ρ p = ρ' p) →
      seqVal P π ρ o is v = seqVal P π ρ' o is v := by
  induction is with
  | nil => intro v _; rfl
  | cons i is ih =>
      intro v h
      have e : i.val P π (Function.update ρ o v) = i.val P π (Function.update ρ' o v) := by
        apply Node.val_congr
        intro p hp
        by_cases hpo : p = o
        · subst hpo; simp
        · simp [hpo, h i (by simp) p hp hpo]
      simp only [seqVal, e]
      exact ih _ fun j hj => h j (List.mem_cons_of_mem _ hj)

theorem seqDer_congr (π : ℕ → K) {ρ ρ' δ δ' : ℕ → K} (o : ℕ) (is : List (Node K)) :
    ∀ v d, (∀ i ∈ is, ∀ p ∈ i.leaves, p ≠ o → ρ p = ρ' p ∧ δ p = δ' p) →
      seqDer P π ρ δ o is v d = seqDer P π ρ' δ' o is v d := by
  induction is with
  | nil => intro v d _; rfl
  | cons i is ih =>
      intro v d h
      have hρ : ∀ p ∈ i.leaves, Function.update ρ o v p = Function.update ρ' o v p := by
        intro p hp
        by_cases hpo : p = o
        · subst hpo; simp
        · simp [hpo, (h i (by simp) p hp hpo).1]
      have hδ : ∀ p ∈ i.leaves, Function.update δ o d p = Function.update δ' o d p := by
        intro p hp
        by_cases hpo : p = o
        · subst hpo; simp
        · simp [hpo, (h i (by simp) p hp hpo).2]
      simp only [seqDer, Node.val_congr P π i hρ, Node.der_congr P π i hρ hδ]
      exact ih _ _ fun j hj => h j (List.mem_cons_of_mem _ hj)

/-- Fixed points of a map whose value at `q` only looks at smaller ranks. -/
theorem exists_fixpoint {α : Type} (F : (ℕ → α) → ℕ → α) (S : Set ℕ) (rank : ℕ → ℕ) (f₀ : ℕ → α)
    (hF : ∀ q ∈ S, ∀ f g : ℕ → α, (∀ p ∈ S, rank p < rank q → f p = g p) → F f q = F g q) :
    ∃ f, ∀ q ∈ S, f q = F f q := by
  have stab : ∀ n q, q ∈ S → rank q < n → (F^[n]) f₀ q = (F^[rank q + 1]) f₀ q := by
    intro n
    induction n using Nat.strong_induction_on with
    | _ n ih =>
      intro q hq hn
      obtain ⟨n, rfl⟩ : ∃ k, n = k + 1 := ⟨n - 1, by omega⟩
      rw [Function.iterate_succ_apply', Function.iterate_succ_apply']
      apply hF q hq
      intro p hp hr
      rw [ih n (by omega) p hp (by omega)]
      by_cases h : rank q < n + 1
      · by_cases h' : rank q = n
        · rw [← ih n (by omega) p hp (by omega), h']
        · rw [ih (rank q) (by omega) p hp hr]
      · omega
  refine ⟨fun q => (F^[rank q + 1]) f₀ q, fun q hq => ?_⟩
  show (F^[rank q + 1]) f₀ q = _
  rw [Function.iterate_succ_apply']
  apply hF q hq
  intro p hp hr
  exact stab (rank q) p hp hr

theorem fixpoint_unique {α : Type} (F : (ℕ → α) → ℕ → α) (S : Set ℕ) (rank : ℕ → ℕ)
    (hF : ∀ q ∈ S, ∀ f g : ℕ → α, (∀ p ∈ S, rank p < rank q → f p = g p) → F f q = F g q)
    {f g : ℕ → α} (hf : ∀ q ∈ S, f q = F f q) (hg : ∀ q ∈ S, g q = F g q) :
    ∀ q ∈ S, f q = g q := by
  have : ∀ n, ∀ q ∈ S, rank q < n → f q = g q := by
    intro n
    induction n with
    | zero => intro q _ h; omega
    | succ n ih =>
        intro q hq h
        rw [hf q hq, hg q hq]
        exact hF q hq f g fun p hp hr => ih p hp (by omega)
  exact fun q hq => this _ q hq (Nat.lt_succ_self _)

variable {P}

theorem WellDefined.local_val {D : Defs K} {y : ℕ} {rank : ℕ → ℕ}
    (hr : ∀ q, Reach D y q → ∀ i ∈ D.items q, ∀ p ∈ i.leaves, p = q ∨ rank p < rank q) :
    ∀ q ∈ {q | Reach D y q}, ∀ f g : ℕ → K,
      (∀ p ∈ {q | Reach D y q}, rank p < rank q → f p = g p) →
      seqVal P D.par f q (D.items q) (D.base q) = seqVal P D.par g q (D.items q) (D.base q) := by
  intro q hq f g hfg
  apply seqVal_congr
  intro i hi p hp hpq
  rcases hr q hq i hi p hp with h | h
  · exact absurd h hpq
  · exact hfg p (Reach.step hq hi hp) h

/-- Every well-defined object has a value. -/
theorem WellDefined.exists_solves {D : Defs K} {y : ℕ} (h : WellDefined D y) :
    ∃ ρ, Solves P D y ρ := by
  obtain ⟨⟨rank, hr⟩, -⟩ := h
  exact exists_fixpoint (fun ρ q => seqVal P D.par ρ q (D.items q) (D.base q))
    {q | Reach D y q} rank (fun _ => 0) (WellDefined.local_val hr)

/-- The value is unique. -/
theorem WellDefined.solves_unique {D : Defs K} {y : ℕ} (h : WellDefined D y) {ρ ρ' : ℕ → K}
    (h1 : Solves P D y ρ) (h2 : Solves P D y ρ') : ∀ q, Reach D y q → ρ q = ρ' q := by
  obtain ⟨⟨rank, hr⟩, -⟩ := h
  exact fixpoint_unique (fun ρ q => seqVal P D.par ρ q (D.items q) (D.base q))
    {q | Reach D y q} rank (WellDefined.local_val hr) h1 h2

theorem WellDefined.local_der {D : Defs K} {y x : ℕ} {rank : ℕ → ℕ}
    (hr : ∀ q, Reach D y q → ∀ i ∈ D.items q, ∀ p ∈ i.leaves, p = q ∨ rank p < rank q)
    (ρ : ℕ → K) :
    ∀ q ∈ {q | Reach D y q}, ∀ f g : ℕ → K,
      (∀ p ∈ {q | Reach D y q}, rank p < rank q → f p = g p) →
      (if q = x then 1 else seqDer P D.par ρ f q (D.items q) (D.base q) 0) =
      (if q = x then 1 else seqDer P D.par ρ g q (D.items q) (D.base q) 0) := by
  intro q hq f g hfg
  split
  · rfl
  · apply seqDer_congr
    intro i hi p hp hpq
    rcases hr q hq i hi p hp with h | h
    · exact absurd h hpq
    · exact ⟨rfl, hfg p (Reach.step hq hi hp) h⟩

/-- Every well-defined object has a derivative with respect to every object. -/
theorem WellDefined.exists_tangent {D : Defs K} {y : ℕ} (h : WellDefined D y) (x : ℕ)
    (ρ : ℕ → K) : ∃ δ, Tangent P D y x ρ δ := by
  obtain ⟨⟨rank, hr⟩, -⟩ := h
  exact exists_fixpoint
    (fun δ q => if q = x then 1 else seqDer P D.par ρ δ q (D.items q) (D.base q) 0)
    {q | Reach D y q} rank (fun _ => 0) (WellDefined.local_der hr ρ)

theorem Tangent.congr_left {D : Defs K} {y x : ℕ} {ρ ρ' δ : ℕ → K}
    (h : Tangent P D y x ρ δ) (he : ∀ q, Reach D y q → ρ q = ρ' q) : Tangent P D y x ρ' δ := by
  intro q hq
  rw [h q hq]
  split
  · rfl
  · exact seqDer_congr P _ _ _ _ _ fun i hi p hp _ => ⟨he p (Reach.step hq hi hp), rfl⟩

/-- The derivative is unique. -/
theorem WellDefined.tangent_unique {D : Defs K} {y x : ℕ} (h : WellDefined D y) {ρ δ δ' : ℕ → K}
    (h1 : Tangent P D y x ρ δ) (h2 : Tangent P D y x ρ δ') : ∀ q, Reach D y q → δ q = δ' q := by
  obtain ⟨⟨rank, hr⟩, -⟩ := h
  exact fixpoint_unique
    (fun δ q => if q = x then 1 else seqDer P D.par ρ δ q (D.items q) (D.base q) 0)
    {q | Reach D y q} rank (WellDefined.local_der hr ρ) h1 h2

theorem WellDefined.existsUnique_value {D : Defs K} {y : ℕ} (h : WellDefined D y) :
    ∃! v, ValueOf P D y v := by
  obtain ⟨ρ, hρ⟩ := h.exists_solves (P := P)
  refine ⟨ρ y, ⟨ρ, hρ, rfl⟩, ?_⟩
  rintro v ⟨ρ', hρ', rfl⟩
  exact h.solves_unique hρ' hρ y Reach.refl

theorem WellDefined.existsUnique_deriv {D : Defs K} {y : ℕ} (h : WellDefined D y) (x : ℕ) :
    ∃! d, DerivOf P D y x d := by
  obtain ⟨ρ, hρ⟩ := h.exists_solves (P := P)
  obtain ⟨δ, hδ⟩ := h.exists_tangent (P := P) x ρ
  refine ⟨δ y, ⟨ρ, δ, hρ, hδ, rfl⟩, ?_⟩
  rintro v ⟨ρ', δ', hρ', hδ', rfl⟩
  exact h.tangent_unique (hδ'.congr_left (h.solves_unique hρ' hρ)) hδ y Reach.refl

end CoolDiff
