import Verif.Matrix.ExprHist
import Mathlib.Analysis.Calculus.Deriv.Mul
import Mathlib.Analysis.Calculus.Deriv.Inv
import Mathlib.Analysis.Calculus.Deriv.Add
import Mathlib.LinearAlgebra.Matrix.Adjugate

/-!
# Derivatives of the determinant and of the inverse, over the reals
-/

set_option linter.unusedSectionVars false

namespace CoolDiff

open Finset Matrix

variable {n : ℕ} {A : ℝ → Matrix (Fin n) (Fin n) ℝ} {A' : Matrix (Fin n) (Fin n) ℝ} {t : ℝ}

/-- Jacobi's formula. -/
theorem hasDerivAt_det (h : ∀ i j, HasDerivAt (fun u => A u i j) (A' i j) t) :
    HasDerivAt (fun u => (A u).det) (∑ j, ∑ i, A' i j * (A t).adjugate j i) t := by
  have h1 : HasDerivAt (fun u => ∑ σ : Equiv.Perm (Fin n), (Equiv.Perm.sign σ : ℝ) *
      ∏ i, A u (σ i) i) (∑ σ : Equiv.Perm (Fin n), (Equiv.Perm.sign σ : ℝ) *
        ∑ i, (∏ j ∈ univ.erase i, A t (σ j) j) * A' (σ i) i) t := by
    refine HasDerivAt.fun_sum fun σ _ => ?_
    refine HasDerivAt.const_mul _ ?_
    have := HasDerivAt.fun_finsetProd (u := (univ : Finset (Fin n))) (f := fun i u => A u (σ i) i)
      (f' := fun i => A' (σ i) i) (x := t) (fun i _ => h (σ i) i)
    simpa [smul_eq_mul] using this
  have e1 : (fun u => (A u).det) = fun u => ∑ σ : Equiv.Perm (Fin n), (Equiv.Perm.sign σ : ℝ) *
      ∏ i, A u (σ i) i := by
    funext u; rw [Matrix.det_apply']
  rw [e1]
  refine h1.congr_deriv ?_
  have key : ∀ j, ∑ i, A' i j * (A t).adjugate j i =
      ((A t).updateCol j (fun i => A' i j)).det := by
    intro j
    rw [Matrix.det_eq_sum_mul_adjugate_col _ j]
    refine Finset.sum_congr rfl fun i _ => ?_
    rw [Matrix.updateCol_self]
    congr 1
    rw [← Matrix.transpose_apply (M := Matrix.adjugate _) , Matrix.adjugate_transpose,
      ← Matrix.transpose_apply (M := Matrix.adjugate ((A t).updateCol j _)),
      Matrix.adjugate_transpose, Matrix.adjugate_apply, Matrix.adjugate_apply,
      ← Matrix.updateRow_transpose, Matrix.updateRow_idem]
  simp_rw [key, Matrix.det_apply']
  rw [Finset.sum_comm]
  refine Finset.sum_congr rfl fun σ _ => ?_
  rw [← Finset.mul_sum]
  congr 1
  refine Finset.sum_congr rfl fun j _ => ?_
  rw [← Finset.mul_prod_erase univ _ (mem_univ j), Matrix.updateCol_self, mul_comm]
  congr 1
  refine Finset.prod_congr rfl fun i hi => ?_
  rw [Matrix.updateCol_ne (Finset.ne_of_mem_erase hi)]

theorem differentiable_adjugate (h : ∀ i j, HasDerivAt (fun u => A u i j) (A' i j) t) (i j : Fin n) :
    DifferentiableAt ℝ (fun u => (A u).adjugate i j) t := by
  simp_rw [Matrix.adjugate_apply]
  refine (hasDerivAt_det (A' := fun p q => if p = j then 0 else A' p q) (fun p q => ?_)).differentiableAt
  by_cases hp : p = j
  · subst hp
    simp only [Matrix.updateRow_self, if_true]
    exact hasDerivAt_const _ _
  · simp only [Matrix.updateRow_ne hp, if_neg hp]
    exact h p q

/-- The derivative of the inverse. -/
theorem hasDerivAt_inv (h : ∀ i j, HasDerivAt (fun u => A u i j) (A' i j) t)
    (hdet : (A t).det ≠ 0) (i j : Fin n) :
    HasDerivAt (fun u => (A u)⁻¹ i j) (-((A t)⁻¹ * A' * (A t)⁻¹) i j) t := by
  have hd : ∀ p q, DifferentiableAt ℝ (fun u => (A u)⁻¹ p q) t := by
    intro p q
    have hdd := (hasDerivAt_det h).differentiableAt
    have : (fun u => (A u)⁻¹ p q) = fun u => (A u).det⁻¹ * (A u).adjugate p q := by
      funext u; simp [Matrix.inv_def]
    rw [this]
    exact (hdd.inv hdet).mul (differentiable_adjugate h p q)
  set N : Matrix (Fin n) (Fin n) ℝ := fun p q => deriv (fun u => (A u)⁻¹ p q) t with hN
  have hNd : ∀ p q, HasDerivAt (fun u => (A u)⁻¹ p q) (N p q) t := fun p q => (hd p q).hasDerivAt
  have hzero : A' * (A t)⁻¹ + A t * N = 0 := by
    ext p q
    have h1 : HasDerivAt (fun u => ∑ k, A u p k * (A u)⁻¹ k q)
        (∑ k, (A' p k * (A t)⁻¹ k q + A t p k * N k q)) t :=
      HasDerivAt.fun_sum fun k _ => (h p k).mul (hNd k q)
    have h2 : HasDerivAt (fun _ : ℝ => (1 : Matrix (Fin n) (Fin n) ℝ) p q) 0 t := hasDerivAt_const _ _
    have hev : (fun u => ∑ k, A u p k * (A u)⁻¹ k q) =ᶠ[nhds t]
        fun _ => (1 : Matrix (Fin n) (Fin n) ℝ) p q := by
      have hc : ContinuousAt (fun u => (A u).det) t := (hasDerivAt_det h).continuousAt
      filter_upwards [hc.eventually_ne hdet] with u hu
      rw [← Matrix.mul_apply, Matrix.mul_nonsing_inv _ (isUnit_iff_ne_zero.2 hu)]
    have := (h2.congr_of_eventuallyEq hev).unique h1
    simp only [Matrix.add_apply, Matrix.mul_apply, Matrix.zero_apply]
    rw [← Finset.sum_add_distrib, ← this]
  have hNe : N = -((A t)⁻¹ * A' * (A t)⁻¹) := by
    have h3 : A t * N = -(A' * (A t)⁻¹) := by
      rw [eq_neg_iff_add_eq_zero, add_comm]; exact hzero
    have h4 : (A t)⁻¹ * (A t * N) = (A t)⁻¹ * -(A' * (A t)⁻¹) := by rw [h3]
    rw [← Matrix.mul_assoc, Matrix.nonsing_inv_mul _ (isUnit_iff_ne_zero.2 hdet), Matrix.one_mul] at h4
    rw [h4, Matrix.mul_neg, Matrix.mul_assoc]
  have := hNd i j
  rw [hNe] at this
  exact this

/-! ## Matrix expressions -/

/-- Every element-wise function of the expression is applied where its derivative function is its
derivative. -/
def MapsOk (E : MEnv ℝ) (sv : ℕ → ℝ) (V : ℕ → ℕ → ℕ → ℝ) : MNode ℝ → Prop
  | .obj _ => True
  | .bin _ _ a b => MapsOk E sv V a ∧ MapsOk E sv V b
  | .un _ (.map f df) a => MapsOk E sv V a ∧ ∀ l k, l < (a.dims E).1 → k < (a.dims E).2 →
      HasDerivAt f (df (den E sv V a l k)) (den E sv V a l k)
  | .un _ _ a => MapsOk E sv V a

theorem den_hasDerivAt {E : MEnv ℝ} {sv : ℝ → ℕ → ℝ} {sd : ℕ → ℕ → ℕ → ℝ}
    {V : ℝ → ℕ → ℕ → ℕ → ℝ} {D : ℕ → ℕ → ℕ → ℕ → ℕ → ℝ} {i j : ℕ} {t : ℝ}
    (hs : ∀ s, HasDerivAt (fun u => sv u s) (sd s i j) t) : ∀ e : MNode ℝ, DimOk E e →
    Invertible True E (sv t) (V t) e → MapsOk E (sv t) (V t) e →
    (∀ q ∈ e.objs, ∀ l k, l < E.rows q → k < E.cols q →
      HasDerivAt (fun u => V u q l k) (D q l k i j) t) →
    ∀ l k, l < (e.dims E).1 → k < (e.dims E).2 →
      HasDerivAt (fun u => den E (sv u) (V u) e l k) (tan E (sv t) sd (V t) D e l k i j) t
  | .obj o, _, _, _, h, l, k, hl, hk => h o (by simp [MNode.objs]) l k hl hk
  | .bin _ op a b, hd, hi, hm, h, l, k, hl, hk => by
    obtain ⟨hda, hdb, hd⟩ := hd
    have iha := den_hasDerivAt hs a hda hi.1 hm.1 (fun q hq => h q (by simp [MNode.objs, hq]))
    have ihb := den_hasDerivAt hs b hdb hi.2 hm.2 (fun q hq => h q (by simp [MNode.objs, hq]))
    simp only [MNode.dims] at hl hk
    cases op <;> simp only [MBin.odims] at hl hk <;>
      simp only [MBin.dimOk, Bool.and_eq_true, beq_iff_eq] at hd <;> simp only [den, tan]
    · exact (iha l k hl (by omega)).add (ihb l k (by omega) hk)
    · exact (iha l k hl (by omega)).sub (ihb l k (by omega) hk)
    · refine HasDerivAt.fun_sum fun p hp => ?_
      have hp := mem_range.1 hp
      refine ((iha l p hl hp).mul (ihb p k (by omega) hk)).congr_deriv (by ring)
    · refine ((iha l k hl (by omega)).mul (ihb l k (by omega) hk)).congr_deriv (by ring)
    · simp only [convSpec, convTan]
      refine HasDerivAt.fun_sum fun p hp => HasDerivAt.fun_sum fun q hq => ?_
      have hb := ihb p q (mem_range.1 hp) (mem_range.1 hq)
      have ha : ∀ px py x y, HasDerivAt (fun u => padded px py (a.dims E).1 (a.dims E).2
          (den E (sv u) (V u) a) x y) (padded px py (a.dims E).1 (a.dims E).2
          (fun l k => tan E (sv t) sd (V t) D a l k i j) x y) t := by
        intro px py x y
        simp only [padded]
        split
        · rename_i hin; exact iha _ _ (by omega) (by omega)
        · exact hasDerivAt_const _ _
      exact ((ha _ _ _ _).mul hb).congr_deriv (by ring)
  | .un _ op a, hd, hi, hm, h, l, k, hl, hk => by
    obtain ⟨hda, hd⟩ := hd
    have hia : Invertible True E (sv t) (V t) a := by
      cases op <;> first | exact hi | exact hi.1
    have hma : MapsOk E (sv t) (V t) a := by
      cases op <;> first | exact hm | exact hm.1
    have iha := den_hasDerivAt hs a hda hia hma (fun q hq => h q (by simpa [MNode.objs] using hq))
    cases op with
    | sadd c => simp only [MNode.dims] at hl hk; simp only [den, tan]
                exact (iha l k hl hk).const_add c
    | smul c => simp only [MNode.dims] at hl hk; simp only [den, tan]
                exact (iha l k hl hk).const_mul c
    | saddE s => simp only [MNode.dims] at hl hk; simp only [den, tan]
                 exact (hs s).add (iha l k hl hk)
    | smulE s => simp only [MNode.dims] at hl hk; simp only [den, tan]
                 exact ((hs s).mul (iha l k hl hk)).congr_deriv (by ring)
    | tr => simp only [MNode.dims] at hl hk; simp only [den, tan]
            exact iha k l hk hl
    | map f df =>
      simp only [MNode.dims] at hl hk; simp only [den, tan]
      exact (hm.2 l k hl hk).comp t (iha l k hl hk)
    | inv =>
      simp only [MNode.dims] at hl hk; simp only [den, tan]
      simp only [MUn.dimOk, beq_iff_eq] at hd
      set N := (a.dims E).1 with hN
      have hA : ∀ p q : Fin N, HasDerivAt (fun u => toMatrix N (den E (sv u) (V u) a) p q)
          ((Matrix.of fun p q : Fin N => tan E (sv t) sd (V t) D a p q i j) p q) t :=
        fun p q => iha p q p.2 (by have := q.2; omega)
      have h2 := hasDerivAt_inv hA hi.2 ⟨l, hl⟩ ⟨k, by omega⟩
      have e1 : (fun u => invEl N (den E (sv u) (V u) a) l k) = fun u =>
          (toMatrix N (den E (sv u) (V u) a))⁻¹ ⟨l, hl⟩ ⟨k, by omega⟩ := by
        funext u; simp only [invEl]; rw [dif_pos ⟨hl, by omega⟩]
      rw [e1]
      refine h2.congr_deriv ?_
      congr 1
      simp only [Matrix.mul_apply, Matrix.of_apply, Finset.sum_mul]
      rw [Finset.sum_comm]
      rw [Finset.sum_range (n := N)]
      refine Finset.sum_congr rfl fun p _ => ?_
      rw [Finset.sum_range (n := N)]
      refine Finset.sum_congr rfl fun q _ => ?_
      simp only [invEl]
      rw [dif_pos ⟨hl, p.2⟩, dif_pos ⟨q.2, by omega⟩]
    | det =>
      simp only [den, tan]
      simp only [MUn.dimOk, beq_iff_eq] at hd
      set N := (a.dims E).1 with hN
      have hA : ∀ p q : Fin N, HasDerivAt (fun u => toMatrix N (den E (sv u) (V u) a) p q)
          ((Matrix.of fun p q : Fin N => tan E (sv t) sd (V t) D a p q i j) p q) t :=
        fun p q => iha p q p.2 (by have := q.2; omega)
      refine (hasDerivAt_det hA).congr_deriv ?_
      rw [Finset.sum_comm, Finset.sum_range (n := N)]
      refine Finset.sum_congr rfl fun p _ => ?_
      rw [Finset.sum_range (n := N)]
      refine Finset.sum_congr rfl fun q _ => ?_
      have hdet := hi.2 trivial
      simp only [invEl, Matrix.of_apply]
      rw [dif_pos ⟨q.2, p.2⟩, Matrix.inv_def]
      simp only [Matrix.smul_apply, smul_eq_mul, Ring.inverse_eq_inv']
      rw [← mul_assoc, mul_inv_cancel₀ hdet, one_mul, mul_comm]

/-- Values of matrices that satisfy their formulas at every point of a path are differentiable
along it, and the derivative is the one given by the differentiation rules. -/
theorem V_hasDerivAt {E : MEnv ℝ} {rank : ℕ → ℕ} (hwf : E.WF rank) {S : Set ℕ} (hcl : Closed E S)
    {sv : ℝ → ℕ → ℝ} {sd : ℕ → ℕ → ℕ → ℝ} {V : ℝ → ℕ → ℕ → ℕ → ℝ}
    {D : ℕ → ℕ → ℕ → ℕ → ℕ → ℝ} {X i j : ℕ} (hi : i < E.rows X) (hj : j < E.cols X) {t : ℝ}
    (hs : ∀ s, HasDerivAt (fun u => sv u s) (sd s i j) t)
    (hnum : ∀ o ∈ S, E.kind o = .num ∨ E.kind o = .par → ∀ l k, l < E.rows o → k < E.cols o →
      sd (E.el o l k) i j = 0)
    (hvar : ∀ o ∈ S, E.kind o = .var → ∀ l k, l < E.rows o → k < E.cols o →
      sd (E.el o l k) i j = if E.vid (E.el o l k) = E.vid (E.el X i j) then 1 else 0)
    (hV : ∀ u, MSolves E (sv u) (V u) S) (hD : MSolvesD E (sv t) sd (V t) D X S)
    (hI : ∀ o ∈ S, ∀ n e eye, E.kind o = .form n e eye → Invertible True E (sv t) (V t) e)
    (hM : ∀ o ∈ S, ∀ n e eye, E.kind o = .form n e eye → MapsOk E (sv t) (V t) e) :
    ∀ r o, o ∈ S → rank o < r → ∀ l k, l < E.rows o → k < E.cols o →
      HasDerivAt (fun u => V u o l k) (D o l k i j) t := by
  intro r
  induction r with
  | zero => intro o _ h; omega
  | succ r ih =>
    intro o hS hr l k hl hk
    by_cases hf : E.isForm o
    · obtain ⟨n, e, eye, hko⟩ := hf
      obtain ⟨h1, h2, h3, h4, h5, h6, h7⟩ := hwf.form o n e eye hko
      have e1 : (fun u => V u o l k) = fun u => den E (sv u) (V u) e l k := by
        funext u; exact ((hV u).form o hS n e eye hko).1 l k hl hk
      rw [e1, hD.form o hS n e eye hko l k i j hl hk hi hj]
      refine den_hasDerivAt hs e h4 (hI o hS n e eye hko) (hM o hS n e eye hko) ?_ l k
        (by omega) (by omega)
      intro q hq l k hl hk
      have hm : q ∈ (MEnv.item n e eye).objs := by simp [MEnv.item, MNode.objs, hq]
      have := h7 q hm
      exact ih q (hcl o hS n e eye hko q hm) (by omega) l k hl hk
    · have e1 : (fun u => V u o l k) = fun u => sv u (E.el o l k) := by
        funext u; exact (hV u).leaf o hS hf l k hl hk
      rw [e1]
      refine (hs _).congr_deriv ?_
      rcases hko : E.kind o with _ | _ | _ | _ | ⟨n, e, eye⟩
      · rw [hnum o hS (Or.inl hko) l k hl hk, hD.num o hS (Or.inl hko) l k i j hl hk hi hj]
      · rw [hnum o hS (Or.inr hko) l k hl hk, hD.num o hS (Or.inr hko) l k i j hl hk hi hj]
      · rw [hvar o hS hko l k hl hk, hD.var o hS hko l k i j hl hk hi hj]
      · rw [hD.exp o hS hko l k i j hl hk hi hj]
      · exact absurd ⟨n, e, eye, hko⟩ hf

end CoolDiff
