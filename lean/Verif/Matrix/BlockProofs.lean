import Verif.Matrix.KernelProofs
import Mathlib.Algebra.BigOperators.Group.Finset.Sigma

/-! # Blocks, padding, special matrices and convolution: what the code computes -/

set_option linter.unusedSectionVars false

namespace CoolDiff
open Finset

variable {K : Type} [Field K] [DecidableEq K]

theorem Mat.getBlock_spec (π : Sched) {M : Mat K} {r c A} (hM : Rep M r c A) {rs re cs ce : ℕ}
    (h1 : rs ≤ re) (h2 : re < r) (h3 : cs ≤ ce) (h4 : ce < c) {result : Option (Mat K)}
    (hlive : Live result) :
    ∃ m, M.getBlock π rs re cs ce result = some m ∧
      Rep m (re - rs + 1) (ce - cs + 1) (fun i j => A (rs + i) (cs + j)) := by
  obtain ⟨res, hres, rr, rc, rwf⟩ := Mat.pool_spec hlive (Nat.succ_pos (re - rs))
    (Nat.succ_pos (ce - cs))
  simp only [Nat.succ_eq_add_one] at hres rr rc
  obtain ⟨m, hm, hrep⟩ := forEach_rep (fun p : ℕ × ℕ => rs + p.1 - rs) (fun p => cs + p.2 - cs)
    (fun p => A (rs + p.1) (cs + p.2))
    (fun p r => do
      let i := rs + p.1
      let j := cs + p.2
      let v ← M.get? i j
      r.put? (i - rs) (j - cs) v)
    (fun i j => A (rs + i) (cs + j))
    (π.run (ℕ × ℕ) (pairs (re + 1 - rs) (ce + 1 - cs))) res rwf
    (fun p hp m' _ _ => by
      rw [π.mem, mem_pairs] at hp
      simp only
      rw [hM.elem _ _ (by omega) (by omega)]; rfl)
    (fun p hp => by rw [π.mem, mem_pairs] at hp; rw [rr]; omega)
    (fun p hp => by rw [π.mem, mem_pairs] at hp; rw [rc]; omega)
    (fun p _ => by simp only [Nat.add_sub_cancel_left])
    (fun i j hi hj => Or.inl ⟨(i, j), by
      rw [π.mem, mem_pairs]; rw [rr] at hi; rw [rc] at hj; simp only; omega, by simp, by simp⟩)
  refine ⟨m, ?_, by rw [rr, rc] at hrep; exact hrep⟩
  rw [Mat.getBlock, if_pos (by rw [hM.rows, hM.cols]; omega), hres]
  exact hm

theorem Mat.setBlock_spec (π : Sched) {M B : Mat K} {r c A br bc C} (hM : Rep M r c A)
    (hB : Rep B br bc C) {rs re cs ce : ℕ}
    (h1 : re < r) (h2 : ce < c) (h3 : re + 1 = rs + br) (h4 : ce + 1 = cs + bc) :
    ∃ m, M.setBlock π rs re cs ce B = some m ∧
      Rep m r c (fun i j => if rs ≤ i ∧ i ≤ re ∧ cs ≤ j ∧ j ≤ ce then C (i - rs) (j - cs)
        else A i j) := by
  have hb1 := hB.rpos; have hb2 := hB.cpos
  obtain ⟨m, hm, hrep⟩ := forEach_rep (fun p : ℕ × ℕ => rs + p.1) (fun p => cs + p.2)
    (fun p => C p.1 p.2)
    (fun p r => do
      let i := rs + p.1
      let j := cs + p.2
      let v ← B.get? (i - rs) (j - cs)
      r.put? i j v)
    (fun i j => if rs ≤ i ∧ i ≤ re ∧ cs ≤ j ∧ j ≤ ce then C (i - rs) (j - cs) else A i j)
    (π.run (ℕ × ℕ) (pairs (re + 1 - rs) (ce + 1 - cs))) M hM.wf
    (fun p hp m' _ _ => by
      rw [π.mem, mem_pairs] at hp
      simp only [Nat.add_sub_cancel_left]
      rw [hB.elem _ _ (by omega) (by omega)]; rfl)
    (fun p hp => by rw [π.mem, mem_pairs] at hp; rw [hM.rows]; omega)
    (fun p hp => by rw [π.mem, mem_pairs] at hp; rw [hM.cols]; omega)
    (fun p hp => by
      rw [π.mem, mem_pairs] at hp
      rw [if_pos (by omega)]; simp only [Nat.add_sub_cancel_left])
    (fun i j hi hj => by
      rw [hM.rows] at hi; rw [hM.cols] at hj
      by_cases hin : rs ≤ i ∧ i ≤ re ∧ cs ≤ j ∧ j ≤ ce
      · left
        refine ⟨(i - rs, j - cs), ?_, ?_, ?_⟩
        · rw [π.mem, mem_pairs]; simp only; omega
        · simp only; omega
        · simp only; omega
      · right; rw [if_neg hin]; exact hM.elem i j hi hj)
  refine ⟨m, ?_, by rw [hM.rows, hM.cols] at hrep; exact hrep⟩
  rw [Mat.setBlock, if_pos (by rw [hM.rows, hM.cols, hB.rows, hB.cols]; omega)]
  exact hm

/-- `pad`: the operand sits at offset `(px,py)`; the border holds whatever the buffer returned by
the pool held. -/
theorem Mat.pad_spec (π : Sched) {M : Mat K} {r c A} (hM : Rep M r c A) (px py : ℕ)
    {result : Option (Mat K)} {res : Mat K} {O : ℕ → ℕ → K}
    (hres : Mat.pool result (r + 2 * px) (c + 2 * py) = some res)
    (hO : Rep res (r + 2 * px) (c + 2 * py) O) :
    ∃ m, M.pad π px py result = some m ∧
      Rep m (r + 2 * px) (c + 2 * py) (fun i j =>
        if px ≤ i ∧ i < px + r ∧ py ≤ j ∧ j < py + c then A (i - px) (j - py) else O i j) := by
  have hr := hM.rpos; have hc := hM.cpos
  obtain ⟨m, hm, hrep⟩ := Mat.setBlock_spec π hO hM (rs := px) (re := px + r - 1) (cs := py)
    (ce := py + c - 1) (by omega) (by omega) (by omega) (by omega)
  refine ⟨m, ?_, hrep.congr fun i j _ _ => ?_⟩
  · rw [Mat.pad, hM.rows, hM.cols, hres]; exact hm
  · have e : (px ≤ i ∧ i ≤ px + r - 1 ∧ py ≤ j ∧ j ≤ py + c - 1) ↔
        (px ≤ i ∧ i < px + r ∧ py ≤ j ∧ j < py + c) := by omega
    simp only [e]

/-- What a cleared buffer (or none) gives when requested from the pool: zeros. -/
theorem Mat.pool_resetZero {b : Option (Mat K)} (h : Live b) {r c : ℕ} (hr : 0 < r) (hc : 0 < c) :
    ∃ m : Mat K, Mat.pool (b.map Mat.resetZero) r c = some m ∧ Rep m r c (fun _ _ => 0) := by
  cases b with
  | none => exact Mat.pool_none hr hc
  | some x =>
    have hx := h x rfl
    simp only [Option.map_some, Mat.pool]
    by_cases e : r * c = x.rows * x.cols
    · have e' : r * c = x.resetZero.rows * x.resetZero.cols := e
      simp only [if_pos e', Mat.reshape]
      refine ⟨_, rfl, hr, hc, rfl, rfl, ?_, ?_⟩
      · simp only [Mat.resetZero, List.length_map]; rw [hx.len, e]
      · intro i j hi hj
        have hlt : i * c + j < x.data.length := by rw [hx.len, ← e]; exact flat_lt hi hj
        simp only [Mat.get?, if_pos (And.intro hi hj), Mat.resetZero, List.getElem?_map,
          List.getElem?_eq_getElem hlt, Option.map_some]
    · have e' : ¬ r * c = x.resetZero.rows * x.resetZero.cols := e
      have : r ≠ x.resetZero.rows ∨ c ≠ x.resetZero.cols := by
        by_contra hn; push Not at hn; exact e' (by rw [hn.1, hn.2])
      simp only [if_neg e', if_pos this]
      exact Mat.new_spec hr hc

theorem Mat.eye_spec (π : Sched) {n : ℕ} (hn : 0 < n) :
    ∃ m : Mat K, Mat.eye π n = some m ∧ Rep m n n (fun i j => if i = j then 1 else 0) := by
  obtain ⟨res, hres, hO⟩ := Mat.pool_none (K := K) hn hn
  obtain ⟨m, hm, hrep⟩ := forEach_rep (fun i : ℕ => i) (fun i => i) (fun _ => (1 : K))
    (fun i m => m.put? i i 1) (fun i j => if i = j then 1 else 0)
    (π.run ℕ (List.range n)) res hO.wf (fun _ _ _ _ _ => rfl)
    (fun p hp => by rw [π.mem, List.mem_range] at hp; rw [hO.rows]; exact hp)
    (fun p hp => by rw [π.mem, List.mem_range] at hp; rw [hO.cols]; exact hp)
    (fun _ _ => by rw [if_pos rfl])
    (fun i j hi hj => by
      rw [hO.rows] at hi; rw [hO.cols] at hj
      by_cases e : i = j
      · left; exact ⟨i, by rw [π.mem, List.mem_range]; exact hi, rfl, e⟩
      · right; rw [if_neg e]; exact hO.elem i j hi hj)
  refine ⟨m, ?_, by rw [hO.rows, hO.cols] at hrep; exact hrep⟩
  rw [Mat.eye, hres]; exact hm

theorem Mat.zeros_spec {n m : ℕ} (hn : 0 < n) (hm : 0 < m) :
    ∃ z : Mat K, Mat.zeros n m = some z ∧ Rep z n m (fun _ _ => 0) := Mat.pool_none hn hm

theorem Mat.ones_spec {n m : ℕ} (hn : 0 < n) (hm : 0 < m) :
    ∃ z : Mat K, Mat.ones n m = some z ∧ Rep z n m (fun _ _ => 1) := Mat.newFill_spec hn hm 1

/-! ## Convolution -/

/-- The padded input: `A` at offset `(px,py)`, zero elsewhere. -/
def padded (px py r c : ℕ) (A : ℕ → ℕ → K) (i j : ℕ) : K :=
  if px ≤ i ∧ i < px + r ∧ py ≤ j ∧ j < py + c then A (i - px) (j - py) else 0

/-- The convolution (cross-correlation) with strides `sx, sy` and zero padding `px, py`. -/
def convSpec (sx sy px py r c kr kc : ℕ) (A B : ℕ → ℕ → K) (i j : ℕ) : K :=
  ∑ u ∈ range kr, ∑ v ∈ range kc, padded px py r c A (i * sx + u) (j * sy + v) * B u v

theorem convDim_bound {dim pad k stride i : ℕ} (hk : k ≤ dim + 2 * pad) (hs : 0 < stride)
    (hi : i < convDim dim pad k stride) : i * stride + k ≤ dim + 2 * pad := by
  rw [convDim] at hi
  have h1 : i ≤ (dim + 2 * pad - k) / stride := by omega
  have h2 : i * stride ≤ dim + 2 * pad - k := by
    calc i * stride ≤ (dim + 2 * pad - k) / stride * stride := Nat.mul_le_mul_right _ h1
      _ ≤ _ := Nat.div_mul_le_self _ _
  omega

theorem sum_pairs (g : ℕ × ℕ → K) (n m : ℕ) :
    ((pairs n m).map g).sum = ∑ u ∈ range n, ∑ v ∈ range m, g (u, v) := by
  rw [pairs, List.map_flatMap]
  rw [← sum_range_list]
  induction List.range n with
  | nil => simp
  | cons a l ih =>
    rw [List.flatMap_cons, List.sum_append, ih, List.map_cons, List.sum_cons]
    congr 1
    rw [List.map_map, ← sum_range_list]; rfl

theorem Eig.convCoeff_spec {P R : Mat K} {pr pc kr kc A B} (hP : Rep P pr pc A)
    (hR : Rep R kr kc B) {r0 c0 : ℕ} (h1 : r0 + kr ≤ pr) (h2 : c0 + kc ≤ pc) :
    Eig.convCoeff P R r0 c0 =
      some (∑ u ∈ range kr, ∑ v ∈ range kc, A (r0 + u) (c0 + v) * B u v) := by
  have := foldrM_sum (fun p : ℕ × ℕ => do
      let a ← P.raw? ((r0 + p.1) * pc + (c0 + p.2)); let b ← R.raw? (p.1 * kc + p.2); pure (a * b))
    (fun p => A (r0 + p.1) (c0 + p.2) * B p.1 p.2) (pairs kr kc) (fun p hp => by
      rw [mem_pairs] at hp
      rw [hP.raw (by omega) (by omega), hR.raw hp.1 hp.2]; rfl) 0
  rw [add_zero, sum_pairs] at this
  rw [← this, Eig.convCoeff, hR.rows, hR.cols, hP.cols]
  simp only [Option.bind_eq_bind, Option.bind_assoc]; rfl

end CoolDiff
