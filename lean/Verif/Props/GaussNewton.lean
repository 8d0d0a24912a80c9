import Verif.Apps.GNProof
import Verif.Props.Analysis
import Mathlib.LinearAlgebra.Matrix.PosDef
import Mathlib.Algebra.Order.Star.Real
import Mathlib.Algebra.Order.BigOperators.Group.List

/-!
# C47: the Gauss–Newton driver
-/

set_option linter.unusedSectionVars false

namespace CoolDiff

section general

variable {K : Type} [Field K] [DecidableEq K] {P : Prim K} {Bk : Backend K} {Q : Pads}
variable {llt : Mat K → Mat K → Option (Mat K)} {Ok : ℕ → (ℕ → ℕ → K) → Prop}

/-- The buffers of a driver object that is new, or that was used before with as many unknowns. -/
structure GNBuf.Fits (s : GNBuf K) (n : ℕ) : Prop where
  A : s.A = none ∨ ∃ m A, s.A = some m ∧ Rep m n n A
  B : s.B = none ∨ ∃ m A, s.B = some m ∧ Rep m n 1 A
  tA1 : Live s.tA1
  tA2 : Live s.tA2
  tB : Live s.tB
  jac : s.jac = none ∨ ∃ m A, s.jac = some m ∧ Rep m 1 n A

theorem GNBuf.fits_new (n : ℕ) : ({} : GNBuf K).Fits n :=
  ⟨Or.inl rfl, Or.inl rfl, Live.none, Live.none, Live.none, Or.inl rfl⟩

theorem GNBuf.Holds.fits {s : GNBuf K} {n : ℕ} {A : ℕ → ℕ → K} {B : ℕ → K} (h : s.Holds n A B) : s.Fits n :=
  ⟨Or.inr (h.A.imp fun _ h => ⟨_, h⟩), Or.inr (h.B.imp fun _ h => ⟨_, h⟩), h.tA1, h.tA2, h.tB, h.jac⟩

theorem allocOnce_spec {p : Option (Mat K)} {r c : ℕ} (hr : 0 < r) (hc : 0 < c)
    (h : p = none ∨ ∃ m A, p = some m ∧ Rep m r c A) : ∃ m A, allocOnce p r c = some m ∧ Rep m r c A := by
  rcases h with rfl | ⟨m, A, rfl, h⟩
  · obtain ⟨m, e, h⟩ := Mat.new_spec (K := K) hr hc; exact ⟨m, _, e, h⟩
  · exact ⟨m, A, rfl, h⟩

/-- C47, over any field and with any linear solver.  `solve()` with `n` iterations, started in any history in which
`y` may be queried: the Variables end at a point reached by `n` Gauss–Newton steps for the residuals `r i` (the
value of `y` with row `i` of the data in the data Parameters) and their derivatives `J i x`; nothing but the values of
the unknowns and of the data Parameters changes; the driver can be used again. -/
theorem C47_iterations (hB : Bk.Sound Q) (hL : SolvesOn llt Ok) (π : Sched) {σ : St K} (h : Run P σ) {y : ℕ}
    {vs : List ℕ} {d : GNData K} (hy : y < σ.defs.size) (hwd : WellDefined σ.defs y)
    (hs : Safe σ.defs (fun q => σ.mem.visited q = true) y) (hne : vs ≠ []) (hnd : vs.Nodup)
    (hvs : ∀ x ∈ vs, IsVar σ.defs x ∧ x ≠ y) (hd : d.OK σ.defs) {r : ℕ → (ℕ → K) → K}
    {J : ℕ → ℕ → (ℕ → K) → K} (hM : GNModel P σ.defs y vs d σ.defs.par r J) {buf : GNBuf K}
    (hbuf : buf.Fits vs.length) (n : ℕ)
    (hok : ∀ k < n, ∀ b, GNSteps d.size vs r J k σ.defs.base b →
      Ok vs.length fun a c => normalA d.size J b (vs.getD a 0) (vs.getD c 0)) :
    ∃ buf' σ', gnSolve P Bk llt π y vs d n (buf, σ) = some (buf', σ') ∧
      GNSteps d.size vs r J n σ.defs.base σ'.defs.base ∧
      σ'.defs = σ.defs.withValues σ'.defs.base σ'.defs.par ∧ (∀ q, q ∉ d.pars → σ'.defs.par q = σ.defs.par q) ∧
      Run P σ' ∧ Safe σ'.defs (fun q => σ'.mem.visited q = true) y ∧ buf'.Fits vs.length := by
  have hpos : 0 < vs.length := List.length_pos_iff.2 hne
  obtain ⟨mA, A, eA, hA⟩ := allocOnce_spec hpos hpos hbuf.A
  obtain ⟨mB, B, eB, hB'⟩ := allocOnce_spec hpos one_pos hbuf.B
  obtain ⟨mX, eX⟩ : ∃ m, allocOnce buf.delX vs.length 1 = some m := by
    cases hx : buf.delX with
    | none => obtain ⟨m, e, -⟩ := Mat.new_spec (K := K) hpos one_pos; exact ⟨m, e⟩
    | some m => exact ⟨m, rfl⟩
  obtain ⟨buf', σ', b', e, hinv, hp, hsteps, A', B'', hb⟩ := gnLoop_spec hB hL π hy hwd hne hnd hvs hd hM n
    (b := σ.defs.base) (σ := σ) ⟨h, ⟨σ.defs.par, rfl⟩, hs⟩ (fun _ _ => rfl)
    (buf := { buf with A := some mA, B := some mB, delX := some mX }) (A := A) (B := fun i => B i 0)
    ⟨⟨mA, rfl, hA⟩, ⟨mB, rfl, hB'.congr fun i j _ hj => by rw [Nat.lt_one_iff.1 hj]⟩, hbuf.tA1, hbuf.tA2, hbuf.tB, hbuf.jac⟩ hok
  obtain ⟨p, hp'⟩ := hinv.defs
  have h1 : σ'.defs.base = b' := by rw [hp']; rfl
  have h2 : σ'.defs.par = p := by rw [hp']; rfl
  refine ⟨buf', σ', ?_, by rw [h1]; exact hsteps, by rw [h1, h2]; exact hp', hp, hinv.run, hinv.safe, hb.fits⟩
  simp only [gnSolve, eX, eA, eB, Option.bind_some, e]

end general

/-! ## Over the reals -/

/-- The partial derivative of residual `i` with respect to `x`. -/
noncomputable def partials (r : ℕ → (ℕ → ℝ) → ℝ) (i x : ℕ) (b : ℕ → ℝ) : ℝ :=
  deriv (fun t => r i (Function.update b x t)) (b x)

/-- The columns of the Jacobian are linearly independent. -/
def FullRank (m : ℕ) (vs : List ℕ) (J : ℕ → ℕ → (ℕ → ℝ) → ℝ) (b : ℕ → ℝ) : Prop :=
  ∀ v : ℕ → ℝ, (∀ i < m, (vs.map fun z => J i z b * v z).sum = 0) → ∀ z ∈ vs, v z = 0

/-- Derivatives of the definitions are partial derivatives, in the domain of differentiability. -/
theorem GNModel.hasDerivAt {D : Defs ℝ} {y : ℕ} {vs : List ℕ} {d : GNData ℝ} {p₀ : ℕ → ℝ} {r : ℕ → (ℕ → ℝ) → ℝ}
    {J : ℕ → ℕ → (ℕ → ℝ) → ℝ} (hM : GNModel realPrim D y vs d p₀ r J) (hwd : WellDefined D y) {i : ℕ}
    (hi : i < d.size) {x : ℕ} (hx : x ∈ vs) (hxv : IsVar D x) {b p : ℕ → ℝ} (hp : d.Row i p₀ p)
    (hdom : InDomain (D.withValues b p) y) :
    HasDerivAt (fun t => r i (Function.update b x t)) (J i x b) (b x) := by
  set σ : St ℝ := ⟨D.withValues b p, St.init.mem⟩ with hσ
  have hit : ∀ t, (assignNum x t σ).defs = D.withValues (Function.update b x t) p := by
    intro t
    have h1 : Function.update D.items x [] = D.items := by
      have := hxv.2.2
      rw [← this, Function.update_eq_self]
    simp only [assignNum, hσ, Defs.withValues, h1]
  have hex : ∀ t, ∃ ρ, Solves realPrim (assignNum x t σ).defs y ρ ∧ ρ y = r i (Function.update b x t) := by
    intro t; rw [hit]; exact hM.val i hi _ p hp
  choose ρ hρ hv using hex
  have hwd' : WellDefined σ.defs y := hwd.of_items rfl
  have hself : (assignNum x (b x) σ).defs = σ.defs := by rw [hit, Function.update_eq_self]
  obtain ⟨δ, hδ⟩ := hwd'.exists_tangent (P := realPrim) x (ρ (b x))
  have hsol : Solves realPrim σ.defs y (ρ (b x)) := by have := hρ (b x); rwa [hself] at this
  have hder : δ y = J i x b := by
    have h := hM.der i hi b p hp x hx
    exact (DerivOf.eq hwd' h hsol hδ).symm
  have := solves_hasDerivAt (σ := σ) hxv hwd' hdom hρ hδ y .refl
  rw [hder] at this
  have e : (fun t => r i (Function.update b x t)) = fun t => ρ t y := by funext t; rw [hv]
  rw [e]; exact this

theorem sum_toF {vs : List ℕ} (hnd : vs.Nodup) (f : ℕ → ℝ) : (vs.map f).sum = ∑ z ∈ vs.toFinset, f z :=
  (List.sum_toFinset f hnd).symm

theorem normalA_posDef {m : ℕ} {vs : List ℕ} (hnd : vs.Nodup) {J : ℕ → ℕ → (ℕ → ℝ) → ℝ} {b : ℕ → ℝ}
    (h : FullRank m vs J b) :
    (toMatrix vs.length fun a c => normalA m J b (vs.getD a 0) (vs.getD c 0)).PosDef := by
  set M : Matrix (Fin m) (Fin vs.length) ℝ := Matrix.of fun i a => J i (vs.getD a 0) b with hMdef
  have e : (toMatrix vs.length fun a c => normalA m J b (vs.getD a 0) (vs.getD c 0)) = M.conjTranspose * M := by
    ext a c
    simp only [toMatrix, Matrix.of_apply, Matrix.mul_apply, Matrix.conjTranspose_apply, hMdef, star_trivial, normalA]
    exact Finset.sum_range fun i => J i (vs.getD a 0) b * J i (vs.getD c 0) b
  rw [e]
  apply Matrix.PosDef.conjTranspose_mul_self
  rw [Matrix.mulVec_injective_iff, Fintype.linearIndependent_iff]
  intro g hg
  have hz := h (fun z => if hz : vs.idxOf z < vs.length then g ⟨vs.idxOf z, hz⟩ else 0) (fun i hi => by
    have := congrFun hg ⟨i, hi⟩
    rw [Finset.sum_apply, Pi.zero_apply] at this
    rw [sum_map_getD, Finset.sum_range]
    refine Eq.trans ?_ this
    refine Finset.sum_congr rfl fun a _ => ?_
    have ha : vs.getD (a : ℕ) 0 = vs[a] := by simp
    simp only [ha, hnd.idxOf_getElem, Fin.is_lt, dif_pos, Pi.smul_apply, smul_eq_mul, hMdef, Matrix.col_apply,
      Matrix.of_apply, Fin.getElem_fin]
    ring)
  intro a
  have := hz vs[a] (List.getElem_mem a.2)
  simpa [hnd.idxOf_getElem] using this

theorem normal_square {m : ℕ} (S : Finset ℕ) (J : ℕ → ℕ → (ℕ → ℝ) → ℝ) (b v : ℕ → ℝ) :
    ∑ x ∈ S, v x * ∑ z ∈ S, normalA m J b x z * v z = ∑ i ∈ Finset.range m, (∑ z ∈ S, J i z b * v z) ^ 2 := by
  simp only [normalA, Finset.sum_mul, Finset.mul_sum, pow_two]
  rw [Finset.sum_congr rfl fun x _ => Finset.sum_comm, Finset.sum_comm]
  refine Finset.sum_congr rfl fun i _ => ?_
  rw [Finset.sum_comm]
  exact Finset.sum_congr rfl fun x _ => Finset.sum_congr rfl fun z _ => by ring

/-- With linearly independent columns the step is determined. -/
theorem GNStep.unique {m : ℕ} {vs : List ℕ} (hnd : vs.Nodup) {r : ℕ → (ℕ → ℝ) → ℝ} {J : ℕ → ℕ → (ℕ → ℝ) → ℝ}
    {b b' b'' : ℕ → ℝ} (hf : FullRank m vs J b) (h : GNStep m vs r J b b') (h' : GNStep m vs r J b b'') : b' = b'' := by
  obtain ⟨δ, h1, h2, h3⟩ := h
  obtain ⟨δ', h1', h2', h3'⟩ := h'
  have hz : ∀ x ∈ vs.toFinset, ∑ z ∈ vs.toFinset, normalA m J b x z * (δ z - δ' z) = 0 := by
    intro x hx
    have a := h1 x (List.mem_toFinset.1 hx)
    have c := h1' x (List.mem_toFinset.1 hx)
    rw [sum_toF hnd] at a c
    simp only [mul_sub, Finset.sum_sub_distrib, a, c, sub_self]
  have hsq := normal_square (m := m) vs.toFinset J b fun z => δ z - δ' z
  rw [Finset.sum_congr rfl fun x hx => by rw [hz x hx, mul_zero], Finset.sum_const_zero] at hsq
  have h0 := (Finset.sum_eq_zero_iff_of_nonneg fun i _ => sq_nonneg _).1 hsq.symm
  have := hf (fun z => δ z - δ' z) fun i hi => by
    rw [sum_toF hnd]; exact pow_eq_zero_iff two_ne_zero |>.1 (h0 i (Finset.mem_range.2 hi))
  funext x
  by_cases hx : x ∈ vs
  · rw [h2 x hx, h2' x hx]
    have := this x hx
    linarith
  · rw [h3 x hx, h3' x hx]

theorem GNData.Row.unique {d : GNData ℝ} {D : Defs ℝ} (hd : d.OK D) {i : ℕ} (hi : i < d.size) {p₀ p p' : ℕ → ℝ}
    (h : d.Row i p₀ p) (h' : d.Row i p₀ p') : p = p' := by
  funext q
  by_cases hq : q ∈ d.pars
  · rcases List.mem_append.1 hq with hq | hq
    · cases hx : d.dx with
      | none => rw [hx] at hq; simp at hq
      | some qs =>
          rw [hx, Option.getD_some] at hq
          obtain ⟨M, A, hM, hR⟩ := hd.dx qs hx
          obtain ⟨j, hj, rfl⟩ := List.getElem_of_mem hq
          have hj' : j < qs.length := hj
          have e := hR.elem i j hi hj'
          have hq := List.getElem?_eq_getElem hj'
          rw [h.dx qs M hx hM j (by rw [hR.cols]; exact hj') _ e _ hq,
            h'.dx qs M hx hM j (by rw [hR.cols]; exact hj') _ e _ hq]
    · cases hx : d.dy with
      | none => rw [hx] at hq; simp at hq
      | some qs =>
          rw [hx, Option.getD_some] at hq
          obtain ⟨M, A, hM, hR⟩ := hd.dy qs hx
          obtain ⟨j, hj, rfl⟩ := List.getElem_of_mem hq
          have hj' : j < qs.length := hj
          have e := hR.elem i j hi hj'
          have hq := List.getElem?_eq_getElem hj'
          rw [h.dy qs M hx hM j (by rw [hR.cols]; exact hj') _ e _ hq,
            h'.dy qs M hx hM j (by rw [hR.cols]; exact hj') _ e _ hq]
  · rw [h.rest q hq, h'.rest q hq]

/-- Steps only look at the derivatives at the points they go through. -/
theorem GNStep.congr {m : ℕ} {vs : List ℕ} {r : ℕ → (ℕ → ℝ) → ℝ} {J J' : ℕ → ℕ → (ℕ → ℝ) → ℝ} {b b' : ℕ → ℝ}
    (hJ : ∀ i < m, ∀ x ∈ vs, J i x b = J' i x b) (h : GNStep m vs r J b b') : GNStep m vs r J' b b' := by
  obtain ⟨δ, h1, h2⟩ := h
  refine ⟨δ, fun x hx => ?_, h2⟩
  have hA : ∀ z ∈ vs, normalA m J b x z = normalA m J' b x z := fun z hz =>
    Finset.sum_congr rfl fun i hi => by rw [hJ i (Finset.mem_range.1 hi) x hx, hJ i (Finset.mem_range.1 hi) z hz]
  have hB : normalB m r J b x = normalB m r J' b x :=
    Finset.sum_congr rfl fun i hi => by rw [hJ i (Finset.mem_range.1 hi) x hx]
  rw [← hB, ← h1 x hx]
  congr 1
  exact List.map_congr_left fun z hz => by rw [hA z hz]

theorem GNSteps.congr {m : ℕ} {vs : List ℕ} {r : ℕ → (ℕ → ℝ) → ℝ} {J J' : ℕ → ℕ → (ℕ → ℝ) → ℝ} {b₀ : ℕ → ℝ} {n : ℕ}
    (hJ : ∀ k < n, ∀ b, GNSteps m vs r J' k b₀ b → ∀ i < m, ∀ x ∈ vs, J i x b = J' i x b) :
    ∀ k ≤ n, ∀ b, GNSteps m vs r J k b₀ b → GNSteps m vs r J' k b₀ b := by
  intro k
  induction k with
  | zero => intro _ b h; cases h; exact .zero _
  | succ k ih =>
      intro hk b h
      cases h with
      | succ h1 h2 =>
          have h1' := ih (by omega) _ h1
          exact .succ h1' (h2.congr (hJ k (by omega) _ h1'))

theorem GNSteps.unique {m : ℕ} {vs : List ℕ} (hnd : vs.Nodup) {r : ℕ → (ℕ → ℝ) → ℝ} {J : ℕ → ℕ → (ℕ → ℝ) → ℝ}
    {b₀ : ℕ → ℝ} {n : ℕ} (hf : ∀ k < n, ∀ b, GNSteps m vs r J k b₀ b → FullRank m vs J b) :
    ∀ k ≤ n, ∀ {b b'}, GNSteps m vs r J k b₀ b → GNSteps m vs r J k b₀ b' → b = b' := by
  intro k
  induction k with
  | zero => intro _ b b' h h'; cases h; cases h'; rfl
  | succ k ih =>
      intro hk b b' h h'
      cases h with
      | succ h1 h2 =>
          cases h' with
          | succ h1' h2' =>
              obtain rfl := ih (by omega) h1 h1'
              exact h2.unique hnd (hf k (by omega) _ h1) h2'

/-- C47.  `r i b` is what the definitions say `y` is worth with row `i` of the data in the data Parameters and the
values `b` in the Variables.  If at every point on the way the operators are applied inside their domains of
differentiability and the Jacobian has linearly independent columns, `solve()` with `n` iterations takes exactly `n`
Gauss–Newton steps with the true partial derivatives of the residuals, and there is only one such point. -/
theorem C47_newton {Bk : Backend ℝ} {Q : Pads} (hB : Bk.Sound Q) {llt : Mat ℝ → Mat ℝ → Option (Mat ℝ)}
    (hL : SolvesOn llt fun n A => (toMatrix n A).PosDef) (π : Sched) {σ : St ℝ} (h : Run realPrim σ) {y : ℕ}
    {vs : List ℕ} {d : GNData ℝ} (hy : y < σ.defs.size) (hwd : WellDefined σ.defs y)
    (hs : Safe σ.defs (fun q => σ.mem.visited q = true) y) (hne : vs ≠ []) (hnd : vs.Nodup)
    (hvs : ∀ x ∈ vs, IsVar σ.defs x ∧ x ≠ y) (hd : d.OK σ.defs) {r : ℕ → (ℕ → ℝ) → ℝ}
    (hr : ∀ i < d.size, ∀ b p, d.Row i σ.defs.par p → ValueOf realPrim (σ.defs.withValues b p) y (r i b))
    {buf : GNBuf ℝ} (hbuf : buf.Fits vs.length) (n : ℕ)
    (hok : ∀ k < n, ∀ b, GNSteps d.size vs r (partials r) k σ.defs.base b → FullRank d.size vs (partials r) b ∧
      ∀ i < d.size, ∀ p, d.Row i σ.defs.par p → InDomain (σ.defs.withValues b p) y) :
    ∃ buf' σ', gnSolve realPrim Bk llt π y vs d n (buf, σ) = some (buf', σ') ∧
      GNSteps d.size vs r (partials r) n σ.defs.base σ'.defs.base ∧
      (∀ b, GNSteps d.size vs r (partials r) n σ.defs.base b → b = σ'.defs.base) ∧
      σ'.defs = σ.defs.withValues σ'.defs.base σ'.defs.par ∧ (∀ q, q ∉ d.pars → σ'.defs.par q = σ.defs.par q) ∧
      Run realPrim σ' ∧ Safe σ'.defs (fun q => σ'.mem.visited q = true) y ∧ buf'.Fits vs.length := by
  have hrow : ∀ i, ∃ p, i < d.size → d.Row i σ.defs.par p := by
    intro i
    by_cases hi : i < d.size
    · obtain ⟨p, -, hp⟩ := setDataUnit_spec (σ := σ) hd hi; exact ⟨p, fun _ => hp⟩
    · exact ⟨fun _ => 0, fun h => absurd h hi⟩
  choose pr hpr using hrow
  have hex : ∀ i x b, ∃ v, DerivOf realPrim (σ.defs.withValues b (pr i)) y x v := fun i x b =>
    ((hwd.of_items (D' := σ.defs.withValues b (pr i)) rfl).existsUnique_deriv x).exists
  choose J hJ using hex
  have hM : GNModel realPrim σ.defs y vs d σ.defs.par r J :=
    ⟨hr, fun i hi b p hp x _ => by rw [hp.unique hd hi (hpr i hi)]; exact hJ i x b⟩
  have hJeq : ∀ k < n, ∀ b, GNSteps d.size vs r (partials r) k σ.defs.base b →
      ∀ i < d.size, ∀ x ∈ vs, J i x b = partials r i x b := fun k hk b hb i hi x hx =>
    (hM.hasDerivAt hwd hi hx (hvs x hx).1 (hpr i hi) ((hok k hk b hb).2 i hi _ (hpr i hi))).deriv.symm
  have hto := GNSteps.congr hJeq
  obtain ⟨buf', σ', e, h1, h2, h3, h4, h5, h6⟩ := C47_iterations hB hL π h hy hwd hs hne hnd hvs hd hM hbuf n
    (fun k hk b hb => by
      have hb' := hto k (by omega) b hb
      have hf : FullRank d.size vs J b := fun v hv => (hok k hk b hb').1 v fun i hi => by
        rw [← hv i hi]; congr 1
        exact List.map_congr_left fun z hz => by rw [hJeq k hk b hb' i hi z hz]
      exact normalA_posDef hnd hf)
  have h1' := hto n (le_refl _) _ h1
  exact ⟨buf', σ', e, h1', fun b hb => GNSteps.unique hnd (fun k hk b hb => (hok k hk b hb).1) n (le_refl _) hb h1',
    h2, h3, h4, h5, h6⟩

/-! ## What Gauss–Newton steps do -/

/-- The sum of squares that is being minimised. -/
def sumSq (m : ℕ) (r : ℕ → (ℕ → ℝ) → ℝ) (b : ℕ → ℝ) : ℝ := ∑ i ∈ Finset.range m, r i b ^ 2

/-- C47.  If an iteration leaves the values as they were, the point is stationary: every partial derivative of the sum
of squares is 0 there. -/
theorem C47_stationary {m : ℕ} {vs : List ℕ} {r : ℕ → (ℕ → ℝ) → ℝ} {b : ℕ → ℝ}
    (hd : ∀ i < m, ∀ x ∈ vs, DifferentiableAt ℝ (fun t => r i (Function.update b x t)) (b x))
    (h : GNStep m vs r (partials r) b b) :
    ∀ x ∈ vs, HasDerivAt (fun t => sumSq m r (Function.update b x t)) 0 (b x) := by
  intro x hx
  obtain ⟨δ, h1, h2, -⟩ := h
  have hδ : ∀ z ∈ vs, δ z = 0 := fun z hz => by have := h2 z hz; linarith
  have hB : normalB m r (partials r) b x = 0 := by
    rw [← h1 x hx]
    apply List.sum_eq_zero
    intro w hw
    obtain ⟨z, hz, rfl⟩ := List.mem_map.1 hw
    rw [hδ z hz, mul_zero]
  have := HasDerivAt.fun_sum (u := Finset.range m) (x := b x)
    (A := fun i t => r i (Function.update b x t) ^ 2) (A' := fun i => 2 * (r i b * partials r i x b)) fun i hi => by
      have h := ((hd i (Finset.mem_range.1 hi) x hx).hasDerivAt).pow 2
      simp only [Function.update_eq_self] at h
      refine h.congr_deriv ?_
      simp only [partials]; push_cast; ring
  rw [← Finset.mul_sum] at this
  rw [show (0 : ℝ) = 2 * ∑ i ∈ Finset.range m, r i b * partials r i x b by
    rw [show ∑ i ∈ Finset.range m, r i b * partials r i x b = 0 from hB, mul_zero]]
  exact this

theorem partials_affine {m : ℕ} {vs : List ℕ} (hnd : vs.Nodup) {r : ℕ → (ℕ → ℝ) → ℝ} {c : ℕ → ℝ} {a : ℕ → ℕ → ℝ}
    (hr : ∀ i < m, ∀ b, r i b = c i + (vs.map fun x => a i x * b x).sum) :
    ∀ i < m, ∀ x ∈ vs, ∀ b, partials r i x b = a i x := by
  intro i hi x hx b
  have e : (fun t => r i (Function.update b x t)) = fun t =>
      (c i + ∑ z ∈ vs.toFinset.erase x, a i z * b z) + a i x * t := by
    funext t
    rw [hr i hi, sum_toF hnd, ← Finset.add_sum_erase _ _ (List.mem_toFinset.2 hx), Function.update_self,
      Finset.sum_congr rfl fun z hz => by rw [Function.update_of_ne (Finset.ne_of_mem_erase hz)]]
    ring
  rw [partials, e]
  simp

/-- C47.  For residuals that are affine in the unknowns the first iteration already arrives at a point with the least
sum of squares, and stays at such points. -/
theorem C47_least_squares {m : ℕ} {vs : List ℕ} (hnd : vs.Nodup) {r : ℕ → (ℕ → ℝ) → ℝ} {c : ℕ → ℝ} {a : ℕ → ℕ → ℝ}
    (hr : ∀ i < m, ∀ b, r i b = c i + (vs.map fun x => a i x * b x).sum) {n : ℕ} {b₀ b : ℕ → ℝ}
    (h : GNSteps m vs r (partials r) (n + 1) b₀ b) : ∀ b', sumSq m r b ≤ sumSq m r b' := by
  cases h with
  | @succ _ _ b₁ _ _ h =>
  obtain ⟨δ, h1, h2, -⟩ := h
  have hp := partials_affine hnd hr
  have hr' : ∀ i < m, ∀ b, r i b = c i + ∑ x ∈ vs.toFinset, a i x * b x := fun i hi b => by rw [hr i hi, sum_toF hnd]
  have hrb : ∀ i < m, r i b = r i b₁ - ∑ x ∈ vs.toFinset, a i x * δ x := by
    intro i hi
    rw [hr' i hi, hr' i hi, add_sub_assoc, ← Finset.sum_sub_distrib]
    congr 1
    exact Finset.sum_congr rfl fun x hx => by rw [h2 x (List.mem_toFinset.1 hx)]; ring
  have hN : ∀ x ∈ vs.toFinset, ∑ i ∈ Finset.range m, r i b * a i x = 0 := by
    intro x hx
    have hx' := List.mem_toFinset.1 hx
    have := h1 x hx'
    rw [sum_toF hnd] at this
    simp only [normalA, normalB] at this
    have e1 : ∀ i ∈ Finset.range m, r i b * a i x = r i b₁ * partials r i x b₁ -
        ∑ z ∈ vs.toFinset, partials r i x b₁ * partials r i z b₁ * δ z := by
      intro i hi
      have hi := Finset.mem_range.1 hi
      rw [hrb i hi, hp i hi x hx', sub_mul, Finset.sum_mul]
      congr 1
      exact Finset.sum_congr rfl fun z hz => by rw [hp i hi z (List.mem_toFinset.1 hz)]; ring
    rw [Finset.sum_congr rfl e1, Finset.sum_sub_distrib, ← this, Finset.sum_comm, sub_eq_zero]
    exact Finset.sum_congr rfl fun z _ => by rw [Finset.sum_mul]
  intro b'
  have hdiff : ∀ i ∈ Finset.range m, r i b' ^ 2 = r i b ^ 2 + 2 * (∑ x ∈ vs.toFinset, (b' x - b x) * (r i b * a i x)) +
      (∑ x ∈ vs.toFinset, a i x * (b' x - b x)) ^ 2 := by
    intro i hi
    have e : r i b' = r i b + ∑ x ∈ vs.toFinset, a i x * (b' x - b x) := by
      rw [hr' i (Finset.mem_range.1 hi), hr' i (Finset.mem_range.1 hi), add_assoc, ← Finset.sum_add_distrib]
      congr 1
      exact Finset.sum_congr rfl fun x _ => by ring
    have e2 : ∑ x ∈ vs.toFinset, (b' x - b x) * (r i b * a i x) =
        r i b * ∑ x ∈ vs.toFinset, a i x * (b' x - b x) := by
      rw [Finset.mul_sum]; exact Finset.sum_congr rfl fun x _ => by ring
    rw [e2, e]; ring
  have hcross : ∑ i ∈ Finset.range m, ∑ x ∈ vs.toFinset, (b' x - b x) * (r i b * a i x) = 0 := by
    rw [Finset.sum_comm]
    refine Finset.sum_eq_zero fun x hx => ?_
    rw [← Finset.mul_sum, hN x hx, mul_zero]
  unfold sumSq
  rw [Finset.sum_congr rfl hdiff, Finset.sum_add_distrib, Finset.sum_add_distrib, ← Finset.mul_sum, hcross]
  have := Finset.sum_nonneg fun i (_ : i ∈ Finset.range m) => sq_nonneg (∑ x ∈ vs.toFinset, a i x * (b' x - b x))
  linarith

/-! ## The hypotheses can be met -/

/-- Positive definite systems can be solved. -/
theorem exists_llt : ∃ llt : Mat ℝ → Mat ℝ → Option (Mat ℝ), SolvesOn llt fun n A => (toMatrix n A).PosDef := by
  refine ⟨fun A B => (Eig.inverse A none).bind fun I => Naive.mul .seq I B none, ?_⟩
  intro n A B mA mB hA hB hpos
  have hu : IsUnit (toMatrix n A) := hpos.isUnit
  have hdet : (toMatrix n A).det ≠ 0 := ((Matrix.isUnit_iff_isUnit_det _).1 hu).ne_zero
  obtain ⟨I, e1, h1⟩ := Eig.inverse_spec Live.none hA hdet
  obtain ⟨X, e2, h2⟩ := Naive.mul_spec .seq Live.none h1 hB
  refine ⟨X, _, by simp only [e1, Option.bind_some, e2], h2, fun i hi => ?_⟩
  set M := toMatrix n A with hM
  have hmul : M * M⁻¹ = 1 := Matrix.mul_nonsing_inv _ ((Matrix.isUnit_iff_isUnit_det _).1 hu)
  have key : ∀ j k : Fin n, ∑ t : Fin n, A j t * M⁻¹ t k = if j = k then 1 else 0 := by
    intro j k
    have := congrFun (congrFun hmul j) k
    rw [Matrix.mul_apply, Matrix.one_apply] at this
    exact this
  rw [Finset.sum_range]
  have e3 : ∀ j : Fin n, A i j * (∑ t ∈ Finset.range n,
      (if h : (j : ℕ) < n ∧ t < n then M⁻¹ ⟨j, h.1⟩ ⟨t, h.2⟩ else 0) * B t) =
      ∑ t : Fin n, A i j * M⁻¹ j t * B t := by
    intro j
    rw [Finset.sum_range, Finset.mul_sum]
    refine Finset.sum_congr rfl fun t _ => ?_
    rw [dif_pos ⟨j.2, t.2⟩]; ring
  rw [Finset.sum_congr rfl fun j _ => e3 j, Finset.sum_comm]
  have e4 : ∀ t : Fin n, ∑ j : Fin n, A i j * M⁻¹ j t * B t = (if (⟨i, hi⟩ : Fin n) = t then 1 else 0) * B t := by
    intro t; rw [← key ⟨i, hi⟩ t, Finset.sum_mul]
  rw [Finset.sum_congr rfl fun t _ => e4 t]
  simp

namespace Ex

/-- A straight line through points: `Variable a(0), c(0); Matrix<Parameter> PX(1,1), PY(1,1); Expression y;
y = PY[0] - (a*PX[0] + c);` (objects a=1 c=2 y=3, Parameters PX=0 PY=1). -/
noncomputable def line : St ℝ :=
  define 3 (.sub (.par 1) (.add (.mul (.var 1) (.par 0)) (.var 2)))
    (newExpr (newPar 0 (newPar 0 (newVar 0 (newVar 0 St.init).2).2).2).2).2

/-- The points (0,1), (1,3), (2,4). -/
noncomputable def lineData : GNData ℝ :=
  { dx := some [0], x := some ⟨3, 1, [0, 1, 2]⟩, dy := some [1], y := some ⟨3, 1, [1, 3, 4]⟩, size := 3 }

theorem line_hist : Hist realPrim line (fun _ => False) :=
  .define 3 _ (.newExpr (.newPar 0 (.newPar 0 (.newVar 0 (.newVar 0 .init))))) (by decide) nofun (by decide)
    (by decide)

theorem line_wd : WellDefined line.defs 3 :=
  (Acyclic.of_ordered (by decide) (by decide)).wellDefined line_hist.inv.wf.defs.closed (by decide)

theorem line_rep (u v w : ℝ) : Rep (⟨3, 1, [u, v, w]⟩ : Mat ℝ) 3 1 fun i _ => [u, v, w].getD i 0 := by
  refine ⟨by omega, by omega, rfl, rfl, rfl, fun i j hi hj => ?_⟩
  obtain rfl : j = 0 := by omega
  obtain rfl | rfl | rfl : i = 0 ∨ i = 1 ∨ i = 2 := by omega
  · rfl
  · rfl
  · rfl

theorem line_ok : lineData.OK line.defs :=
  ⟨by simp [GNData.pars, lineData], by simp [GNData.pars, lineData]; decide,
    fun qs h => by cases h; exact ⟨_, _, rfl, line_rep 0 1 2⟩, fun qs h => by cases h; exact ⟨_, _, rfl, line_rep 1 3 4⟩⟩

/-- The residuals. -/
noncomputable def lineR (i : ℕ) (b : ℕ → ℝ) : ℝ := [1, 3, 4].getD i 0 - (b 1 * [0, 1, 2].getD i 0 + b 2)

theorem line_items : ∃ a b c d, line.defs.items 3 = [.op1 d (.mulC 1) (.op2 a .sub (.par 1)
    (.op2 b .add (.op2 c .mul (.leaf 1) (.par 0)) (.leaf 2)))] := ⟨_, _, _, _, rfl⟩

theorem line_reach {b p : ℕ → ℝ} {q : ℕ} (h' : Reach (line.defs.withValues b p) 3 q) : q = 1 ∨ q = 2 ∨ q = 3 := by
  have h : Reach line.defs 3 q := h'.of_items rfl
  clear h'
  obtain ⟨a, b, c, d, hi⟩ := line_items
  induction h with
  | refl => simp
  | step _ hm hp ih =>
      rcases ih with rfl | rfl | rfl
      · exact absurd hm (by rw [show line.defs.items 1 = [] from rfl]; simp)
      · exact absurd hm (by rw [show line.defs.items 2 = [] from rfl]; simp)
      · rw [hi] at hm
        simp only [List.mem_cons, List.not_mem_nil, or_false] at hm
        subst hm; simp [Node.leaves] at hp; omega

theorem line_domain (b p : ℕ → ℝ) : InDomain (line.defs.withValues b p) 3 := by
  intro ρ hρ q hq
  obtain ⟨a, b', c, d, hi⟩ := line_items
  rcases line_reach hq with rfl | rfl | rfl
  · rw [show (line.defs.withValues b p).items 1 = [] from rfl]; trivial
  · rw [show (line.defs.withValues b p).items 2 = [] from rfl]; trivial
  · rw [show (line.defs.withValues b p).items 3 = line.defs.items 3 from rfl, hi]
    simp [SeqInDom, Node.InDom, Op1.Dom, Op2.Dom]

theorem line_value (i : ℕ) (hi : i < 3) (b p : ℕ → ℝ) (hp : lineData.Row i line.defs.par p) :
    ValueOf realPrim (line.defs.withValues b p) 3 (lineR i b) := by
  have hf : IsFormula (line.defs.withValues b p) 3 (.sub (.par 1) (.add (.mul (.var 1) (.par 0)) (.var 2))) := by
    have := define_isFormula (K := ℝ) (y := 3) (e := .sub (.par 1) (.add (.mul (.var 1) (.par 0)) (.var 2))) (by decide)
      (newExpr (newPar 0 (newPar 0 (newVar 0 (newVar 0 St.init).2).2).2).2).2
    exact ⟨this.1, this.2⟩
  obtain ⟨ρ, hρ⟩ := (line_wd.of_items (D' := line.defs.withValues b p) rfl).exists_solves (P := realPrim)
  refine ⟨ρ, hρ, ?_⟩
  rw [hf.val .refl hρ]
  have h1 : ρ 1 = b 1 := hρ.variable (hf.reach (by simp [Exp.leaves])) rfl
  have h2 : ρ 2 = b 2 := hρ.variable (hf.reach (by simp [Exp.leaves])) rfl
  have e0 : p 0 = [0, 1, 2].getD i 0 :=
    hp.dx [0] _ rfl rfl 0 (by decide) _ ((line_rep 0 1 2).elem i 0 hi one_pos) 0 rfl
  have e1 : p 1 = [1, 3, 4].getD i 0 :=
    hp.dy [1] _ rfl rfl 0 (by decide) _ ((line_rep 1 3 4).elem i 0 hi one_pos) 1 rfl
  simp only [Exp.val, h1, h2, Defs.withValues, e0, e1, lineR]

theorem line_affine : ∀ i < 3, ∀ b, lineR i b = [1, 3, 4].getD i 0 +
    ([1, 2].map fun x => (if x = 1 then -([0, 1, 2].getD i 0) else -1) * b x).sum := by
  intro i _ b
  simp [lineR]; ring

theorem line_rank (b : ℕ → ℝ) : FullRank 3 [1, 2] (partials lineR) b := by
  intro v hv
  have hp := partials_affine (m := 3) (vs := [1, 2]) (by decide) line_affine
  have h0 := hv 0 (by omega)
  have h1 := hv 1 (by omega)
  simp only [List.map_cons, List.map_nil, List.sum_cons, List.sum_nil,
    hp 0 (by omega) 1 (by decide), hp 0 (by omega) 2 (by decide), hp 1 (by omega) 1 (by decide),
    hp 1 (by omega) 2 (by decide)] at h0 h1
  norm_num at h0 h1
  intro z hz
  have h2 : v 2 = 0 := h0
  have h3 : v 1 = 0 := by rw [h2] at h1; simpa using h1
  rcases List.mem_cons.1 hz with rfl | hz
  · exact h3
  · rw [List.mem_singleton.1 hz]; exact h2

/-- The hypotheses of `C47_newton` and `C47_least_squares` hold for this program: whatever the number of iterations and
whichever kernels are configured, the fitted line has the least sum of squares. -/
example {Bk : Backend ℝ} {Q : Pads} (hB : Bk.Sound Q) {llt : Mat ℝ → Mat ℝ → Option (Mat ℝ)}
    (hL : SolvesOn llt fun n A => (toMatrix n A).PosDef) (n : ℕ) :
    ∃ buf' σ', gnSolve realPrim Bk llt .seq 3 [1, 2] lineData (n + 1) ({}, line) = some (buf', σ') ∧
      ∀ b, sumSq 3 lineR σ'.defs.base ≤ sumSq 3 lineR b := by
  obtain ⟨buf', σ', e, h1, -⟩ := C47_newton hB hL .seq line_hist.run (y := 3) (vs := [1, 2]) (d := lineData) (by decide)
    line_wd (line_hist.inv.safe Safe.none) (by decide) (by decide) (fun x hx => by
      rcases List.mem_cons.1 hx with rfl | hx
      · exact ⟨⟨by decide, by decide, rfl⟩, by decide⟩
      · rw [List.mem_singleton.1 hx]; exact ⟨⟨by decide, by decide, rfl⟩, by decide⟩) line_ok
    (r := lineR) line_value (GNBuf.fits_new 2) (n + 1) (fun k _ b _ => ⟨line_rank b, fun i _ p _ => line_domain b p⟩)
  exact ⟨buf', σ', e, C47_least_squares (by decide) line_affine h1⟩

/-- `ScalarSolve` of example/GaussNewton/main.cpp:158-172: `Variable x{10}; Expression E = x*x - 2*x + 1;` and a second
Variable `z` (objects x=1 z=2 E=3). -/
def square : St ℚ :=
  define 3 (.addC (.sub (.mul (.var 1) (.var 1)) (.cMul 2 (.var 1))) 1) (newExpr (newVar 5 (newVar 10 St.init).2).2).2

/-- A solver for one unknown. -/
def div1 (A B : Mat ℚ) : Option (Mat ℚ) :=
  match A, B with
  | ⟨1, 1, [a]⟩, ⟨1, 1, [b]⟩ => some ⟨1, 1, [b / a]⟩
  | _, _ => none

/-- The code runs: 10 → 11/2 → 13/4 (each iteration halves the distance to the double root 1). -/
theorem square_two : (gnSolve P0 (backend ⟨.naive, false, .cpu⟩ .seq) div1 .seq 3 [1] {} 2 ({}, square)).map
    (fun s => s.2.defs.base 1) = some (13 / 4) := by decide +kernel

/-- The first pass over the data of a call of `solve()`. -/
def gnFirst (Bk : Backend ℚ) (y : ℕ) (vs : List ℕ) (d : GNData ℚ) (s : GNBuf ℚ × St ℚ) : Option (GNBuf ℚ × St ℚ) :=
  (allocOnce s.1.delX vs.length 1).bind fun X =>
  (allocOnce s.1.A vs.length vs.length).bind fun A =>
  (allocOnce s.1.B vs.length 1).bind fun B =>
    computeAB P0 Bk y vs d ({ s.1 with A := some A, B := some B, delX := some X }, s.2)

theorem gnSolve_abort {Bk : Backend ℚ} {llt : Mat ℚ → Mat ℚ → Option (Mat ℚ)} {π : Sched} {y : ℕ} {vs : List ℕ}
    {d : GNData ℚ} {n : ℕ} {s : GNBuf ℚ × St ℚ} (h : gnFirst Bk y vs d s = none) :
    gnSolve P0 Bk llt π y vs d (n + 1) s = none := by
  unfold gnFirst at h
  unfold gnSolve
  cases hX : allocOnce s.1.delX vs.length 1 with
  | none => rfl
  | some X =>
      cases hA : allocOnce s.1.A vs.length vs.length with
      | none => rfl
      | some A =>
          cases hB : allocOnce s.1.B vs.length 1 with
          | none => rfl
          | some B =>
              simp only [hX, hA, hB, Option.bind_some] at h ⊢
              rw [gnLoop, gnIteration, h]
              rfl

/-- C47, limit.  The buffers `m_A`, `m_B` are made once: the same driver object cannot be used with another number of
unknowns, whatever the solver and the number of iterations. -/
theorem C47_other_size :
    (gnSolve P0 (backend ⟨.naive, false, .cpu⟩ .seq) div1 .seq 3 [1] {} 1 ({}, square)).isSome = true ∧
    ∀ llt n, (gnSolve P0 (backend ⟨.naive, false, .cpu⟩ .seq) div1 .seq 3 [1] {} 1 ({}, square)).bind
      (gnSolve P0 (backend ⟨.naive, false, .cpu⟩ .seq) llt .seq 3 [1, 2] {} (n + 1)) = none := by
  constructor
  · decide +kernel
  · intro llt n
    have h : (gnSolve P0 (backend ⟨.naive, false, .cpu⟩ .seq) div1 .seq 3 [1] {} 1 ({}, square)).bind
        (gnFirst (backend ⟨.naive, false, .cpu⟩ .seq) 3 [1, 2] {}) = none := by decide +kernel
    cases hs : gnSolve P0 (backend ⟨.naive, false, .cpu⟩ .seq) div1 .seq 3 [1] {} 1 ({}, square) with
    | none => rfl
    | some s => rw [hs, Option.bind_some] at h; exact gnSolve_abort h

end Ex

end CoolDiff
