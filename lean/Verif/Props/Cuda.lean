import Verif.Props.Buffers
import Verif.Matrix.CudaProofs

/-!
# C43: the GPU kernels

For operands in GPU memory the kernels of include/Matrix/MatrixHandler/*/CUDA compute the same matrices
as the CPU handlers, whatever the interleaving of the threads, the contents of fresh GPU memory and
shared memory, and the old result buffer, for all shapes within the launch limits of the device.
-/

set_option linter.unusedSectionVars false

namespace CoolDiff

open Finset

variable {K : Type} [Field K] [DecidableEq K]

/-- Which handler performs a request on GPU operands of a CUDA build: the CUDA handler for exactly the
operations that have one; inverse and determinant are refused; the rest run on the host. -/
theorem C43_dispatch {g : Cfg} (h1 : g.cudaBuild = true) (h2 : g.space = .gpu) (op : MatOp) :
    performer g op.chain =
      if op ∈ [.add, .scalarAdd, .sub, .mul, .scalarMul, .kron, .hadamard, .transpose, .unary] then some .cuda
      else if op ∈ [.inverse, .det] then none else some .naive := by
  rcases g with ⟨c, b, s⟩
  simp only at h1 h2
  subst h1 h2
  cases op <;> cases c <;> rfl

/-- **C43, element-wise kernels.** `+`, `-`, Hadamard and scalar operations on the GPU: for every
interleaving of the threads, fresh memory contents `junk`, live result buffer and aliasing of operands
with the result, the result is the element-wise one. -/
theorem C43_elementwise_partial (π : Sched) (junk : ℕ → K) {b : Option (Mat K)} (hb : Live b) {l r : Src K}
    {L R : Mat K} {m n : ℕ} {A C : ℕ → ℕ → K} (hl : l.mat? b = some L) (hL : Rep L m n A)
    (hr : r.mat? b = some R) (hR : Rep R m n C) (hfit : m ≤ 65535 * 32 ∧ n ≤ (2 ^ 31 - 1) * 32) :
    (∃ M, Cuda.add π junk l r b = some M ∧ Rep M m n fun i j => A i j + C i j) ∧
    (∃ M, Cuda.sub π junk l r b = some M ∧ Rep M m n fun i j => A i j - C i j) ∧
    (∃ M, Cuda.hadamard π junk l r b = some M ∧ Rep M m n fun i j => A i j * C i j) ∧
    (∀ c, ∃ M, Cuda.scalarAdd c π junk r b = some M ∧ Rep M m n fun i j => c + C i j) ∧
    (∀ c, ∃ M, Cuda.scalarMul c π junk r b = some M ∧ Rep M m n fun i j => c * C i j) :=
  ⟨Cuda.elementwise2_spec _ π junk hb hl hL hr hR hfit, Cuda.elementwise2_spec _ π junk hb hl hL hr hR hfit,
    Cuda.elementwise2_spec _ π junk hb hl hL hr hR hfit, fun _ => Cuda.elementwise1_spec _ π junk hb hr hR hfit,
    fun _ => Cuda.elementwise1_spec _ π junk hb hr hR hfit⟩

/-- Operands of different shapes are refused. -/
theorem C43_elementwise_mismatch (π : Sched) (junk : ℕ → K) (b : Option (Mat K)) (L R : Mat K)
    (h : ¬(L.rows = R.rows ∧ L.cols = R.cols)) :
    Cuda.add π junk (.ext L) (.ext R) b = none ∧ Cuda.sub π junk (.ext L) (.ext R) b = none ∧
      Cuda.hadamard π junk (.ext L) (.ext R) b = none := by
  have h' : ¬(L.rows = R.rows ∧ R.cols = L.cols) := fun e => h ⟨e.1, e.2.symm⟩
  simp only [Cuda.add, Cuda.sub, Cuda.hadamard, Cuda.elementwise2, Src.mat?, Option.bind_eq_bind,
    Option.bind_some, if_neg h', and_self]

/-- **C43, product.** The tiled product is the matrix product: every interleaving, every content of the
shared tiles `sh` and of fresh memory, every live result buffer. -/
theorem C43_product_partial (π : Sched) (junk : ℕ → K) (sh : ℕ → ℕ → Cuda.Tile K) {b : Option (Mat K)}
    (hb : Live b) {L R : Mat K} {m k n : ℕ} {A C : ℕ → ℕ → K} (hL : Rep L m k A) (hR : Rep R k n C)
    (hfit : m ≤ 65535 * 32 ∧ n ≤ (2 ^ 31 - 1) * 32) :
    ∃ M, Cuda.mul π junk sh L R b = some M ∧ Rep M m n fun i j => ∑ t ∈ range k, A i t * C t j :=
  Cuda.mul_spec π junk sh hb hL hR hfit

/-- A product with different inner dimensions is refused. -/
theorem C43_product_mismatch (π : Sched) (junk : ℕ → K) (sh : ℕ → ℕ → Cuda.Tile K) (b : Option (Mat K))
    (L R : Mat K) (h : L.cols ≠ R.rows) : Cuda.mul π junk sh L R b = none := by
  rw [Cuda.mul, if_neg h]

/-- **C43, Kronecker product.** Unlike the CPU's naive handler (C26), the GPU kernel writes every
element, also where the left factor is zero. -/
theorem C43_kron_partial (π : Sched) (junk : ℕ → K) {b : Option (Mat K)} (hb : Live b) {L R : Mat K}
    {lr lc rr rc : ℕ} {A C : ℕ → ℕ → K} (hL : Rep L lr lc A) (hR : Rep R rr rc C)
    (hfit : lr * rr ≤ 65535 * 32 ∧ lc * rc ≤ (2 ^ 31 - 1) * 32) :
    ∃ M, Cuda.kron π junk L R b = some M ∧ Rep M (lr * rr) (lc * rc) fun i j =>
      A (i / rr) (j / rc) * C (i % rr) (j % rc) :=
  Cuda.kron_spec π junk hb hL hR hfit

/-- **C43, transpose.** -/
theorem C43_transpose_partial (π : Sched) (junk : ℕ → K) (sh : ℕ → ℕ → Cuda.Tile K) {b : Option (Mat K)}
    (hb : Live b) {R : Mat K} {m n : ℕ} {A : ℕ → ℕ → K} (hR : Rep R m n A)
    (hfit : m ≤ 65535 * 32 ∧ n ≤ (2 ^ 31 - 1) * 32) :
    ∃ M, Cuda.transpose π junk sh R b = some M ∧ Rep M n m fun i j => A j i :=
  Cuda.transpose_spec π junk sh hb hR hfit

/-- **C43, same results as the CPU.** For every CPU configuration and every pair of thread schedules,
result buffers and memory contents: the GPU's sum, difference, Hadamard product, scalar operations,
product and transpose are the CPU's. -/
theorem C43_agree_partial {g : Cfg} (hg : g.CPU) (π π' : Sched) (junk : ℕ → K) (sh : ℕ → ℕ → Cuda.Tile K)
    {b b' : Option (Mat K)} (hb : Live b) (hb' : Live b') {L R : Mat K} (hL : L.WF) (hR : R.WF)
    (hfL : L.rows ≤ 65535 * 32 ∧ L.cols ≤ (2 ^ 31 - 1) * 32)
    (hfR : R.rows ≤ 65535 * 32 ∧ R.cols ≤ (2 ^ 31 - 1) * 32) :
    Cuda.add π junk (.ext L) (.ext R) b = (backend g π').add (.ext L) (.ext R) b' ∧
    Cuda.sub π junk (.ext L) (.ext R) b = (backend g π').sub (.ext L) (.ext R) b' ∧
    Cuda.hadamard π junk (.ext L) (.ext R) b = (backend g π').hadamard (.ext L) (.ext R) b' ∧
    (∀ c, Cuda.scalarAdd c π junk (.ext R) b = (backend g π').scalarAdd c (.ext R) b') ∧
    (∀ c, Cuda.scalarMul c π junk (.ext R) b = (backend g π').scalarMul c (.ext R) b') ∧
    Cuda.mul π junk sh L R b = (backend g π').mul L R b' ∧
    Cuda.transpose π junk sh R b = (backend g π').transpose R b' := by
  have S := backend_sound0 (K := K) hg π'
  have rL := hL.rep
  have rR := hR.rep
  refine ⟨?_, ?_, ?_, fun c => ?_, fun c => ?_, ?_, ?_⟩
  · by_cases h : L.rows = R.rows ∧ L.cols = R.cols
    · rw [h.1, h.2] at rL
      exact Backend.Sound.indep
        (C43_elementwise_partial π junk hb (l := .ext L) (r := .ext R) rfl rL rfl rR hfR).1
        (S.add (l := .ext L) (r := .ext R) hb' rfl rL rfl rR)
    · rw [(C24_mismatch hg π' b' L R h).1, (C43_elementwise_mismatch π junk b L R h).1]
  · by_cases h : L.rows = R.rows ∧ L.cols = R.cols
    · rw [h.1, h.2] at rL
      exact Backend.Sound.indep
        (C43_elementwise_partial π junk hb (l := .ext L) (r := .ext R) rfl rL rfl rR hfR).2.1
        (S.sub (l := .ext L) (r := .ext R) hb' rfl rL rfl rR)
    · rw [(C24_mismatch hg π' b' L R h).2.1, (C43_elementwise_mismatch π junk b L R h).2.1]
  · by_cases h : L.rows = R.rows ∧ L.cols = R.cols
    · rw [h.1, h.2] at rL
      exact Backend.Sound.indep
        (C43_elementwise_partial π junk hb (l := .ext L) (r := .ext R) rfl rL rfl rR hfR).2.2.1
        (S.hadamard (l := .ext L) (r := .ext R) hb' rfl rL rfl rR)
    · rw [(C24_mismatch hg π' b' L R h).2.2, (C43_elementwise_mismatch π junk b L R h).2.2]
  · exact Backend.Sound.indep
      ((C43_elementwise_partial π junk hb (l := .ext R) (r := .ext R) rfl rR rfl rR hfR).2.2.2.1 c)
      (S.scalarAdd c (r := .ext R) hb' rfl rR)
  · exact Backend.Sound.indep
      ((C43_elementwise_partial π junk hb (l := .ext R) (r := .ext R) rfl rR rfl rR hfR).2.2.2.2 c)
      (S.scalarMul c (r := .ext R) hb' rfl rR)
  · by_cases h : L.cols = R.rows
    · rw [h] at rL
      exact Backend.Sound.indep (C43_product_partial π junk sh hb rL rR ⟨hfL.1, hfR.2⟩) (S.mul hb' rL rR)
    · rw [C25_mismatch hg π' b' L R h, C43_product_mismatch π junk sh b L R h]
  · exact Backend.Sound.indep (C43_transpose_partial π junk sh hb rR hfR) (S.transpose hb' rR)

/-! ## Unary functions -/

/-- The state of `device_functions_map` after a history of calls. -/
def Cuda.mapAfter (hist : List Cuda.UFn) : List (Cuda.UFn × ℕ) :=
  hist.foldl (fun m f => (Cuda.mapIndex m f).2) Cuda.deviceMap

/-- The index used for `f` after any history: its own slot if the library knows it, 0 otherwise. -/
theorem Cuda.mapIndex_mapAfter (f : Cuda.UFn) (hist : List Cuda.UFn) :
    (Cuda.mapIndex (Cuda.mapAfter hist) f).1 = (Cuda.deviceMap.lookup f).getD 0 := by
  have key : ∀ (hist : List Cuda.UFn) (m : List (Cuda.UFn × ℕ)),
      (∀ f, (m.lookup f).getD 0 = (Cuda.deviceMap.lookup f).getD 0) →
      ∀ f, ((hist.foldl (fun m f => (Cuda.mapIndex m f).2) m).lookup f).getD 0 =
        (Cuda.deviceMap.lookup f).getD 0 := by
    intro hist
    induction hist with
    | nil => intro m h; exact h
    | cons a l ih =>
      intro m h
      refine ih _ fun f => ?_
      simp only [Cuda.mapIndex]
      cases e : m.lookup a with
      | some n => exact h f
      | none =>
        simp only [List.lookup_cons]
        by_cases hf : f = a
        · subst hf
          have := h f
          rw [e] at this
          simpa using this
        · rw [show (f == a) = false by simpa using hf]
          exact h f
  rw [Cuda.mapIndex]
  have := key hist Cuda.deviceMap (fun _ => rfl) f
  rw [Cuda.mapAfter]
  cases e : (hist.foldl (fun m f => (Cuda.mapIndex m f).2) Cuda.deviceMap).lookup f with
  | some n => rw [e] at this; exact this
  | none => rw [e] at this; exact this

/-- **C43, unary functions of the library.** After any history of GPU calls, a function of the library
(`sin`, `cos`, ..., their derivatives) is applied to every element. -/
theorem C43_unary_library_partial (ap : Cuda.UFn → K → K) (hist : List Cuda.UFn) (f : Cuda.UFn)
    (hf : ∀ n, f ≠ .user n) (π : Sched) (junk : ℕ → K) {b : Option (Mat K)} (hb : Live b) {r : Src K}
    {R : Mat K} {m n : ℕ} {C : ℕ → ℕ → K} (hr : r.mat? b = some R) (hR : Rep R m n C)
    (hfit : m ≤ 65535 * 32 ∧ n ≤ (2 ^ 31 - 1) * 32) :
    ∃ M, (Cuda.unary ap (Cuda.mapAfter hist) f π junk r b).1 = some M ∧ Rep M m n fun i j => ap f (C i j) := by
  have e : Cuda.deviceFunctions[(Cuda.mapIndex (Cuda.mapAfter hist) f).1]? = some f := by
    rw [Cuda.mapIndex_mapAfter]
    cases f <;> first | rfl | exact absurd rfl (hf _)
  simp only [Cuda.unary, e, Option.bind_some]
  exact Cuda.elementwise1_spec (ap f) π junk hb hr hR hfit

/-- **C43, unary functions of the user are not applied.** After any history, a function of the user is
replaced by `sin` on the GPU: the lookup `device_functions_map[func]` inserts index 0, the slot of `sin`. -/
theorem C43_user_function_is_sin (ap : Cuda.UFn → K → K) (hist : List Cuda.UFn) (k : ℕ)
    (π : Sched) (junk : ℕ → K) {b : Option (Mat K)} (hb : Live b) {r : Src K}
    {R : Mat K} {m n : ℕ} {C : ℕ → ℕ → K} (hr : r.mat? b = some R) (hR : Rep R m n C)
    (hfit : m ≤ 65535 * 32 ∧ n ≤ (2 ^ 31 - 1) * 32) :
    ∃ M, (Cuda.unary ap (Cuda.mapAfter hist) (.user k) π junk r b).1 = some M ∧
      Rep M m n fun i j => ap .sin (C i j) := by
  have e : Cuda.deviceFunctions[(Cuda.mapIndex (Cuda.mapAfter hist) (.user k)).1]? = some .sin := by
    rw [Cuda.mapIndex_mapAfter]
    rfl
  simp only [Cuda.unary, e, Option.bind_some]
  exact Cuda.elementwise1_spec _ π junk hb hr hR hfit

/-! ## Outside the launch limits -/

/-- **C43, too many rows.** With more than `65535 * 32` rows no kernel runs and the failure is not
noticed: a sum whose left operand *is* the result returns the left operand. -/
theorem C43_too_many_rows_counterexample (π : Sched) (junk : ℕ → K) {L R : Mat K} {m n : ℕ} {A C : ℕ → ℕ → K}
    (hL : Rep L m n A) (hR : Rep R m n C) (hm : 65535 * 32 < m) :
    Cuda.add π junk .self (.ext R) (some L) = some L := by
  have hb : ¬ Cuda.blocks m 32 ≤ 65535 := by
    have h := (Nat.le_div_iff_mul_le (by decide : 0 < 32)).2 (show 65536 * 32 ≤ m + 32 - 1 by omega)
    rw [Cuda.blocks]
    omega
  simp only [Cuda.add, Cuda.elementwise2, Src.mat?, Option.bind_eq_bind, Option.bind_some, hL.rows, hR.rows,
    hL.cols, hR.cols, and_self, if_true, Cuda.pool_self junk hL.rows hL.cols, Cuda.perElement, launch,
    Cuda.threadSize]
  rw [if_neg fun h => hb h.2.2.2]

/-- The hypotheses are met by a matrix with `65535 * 32 + 1` rows, and there the sum is wrong. -/
example : ∃ (L R : Mat ℚ) (A C : ℕ → ℕ → ℚ), Rep L (65535 * 32 + 1) 1 A ∧ Rep R (65535 * 32 + 1) 1 C ∧
    ¬ Rep L (65535 * 32 + 1) 1 fun i j => A i j + C i j := by
  have h : (⟨65535 * 32 + 1, 1, List.replicate (65535 * 32 + 1) 1⟩ : Mat ℚ).WF :=
    ⟨by decide, by decide, by rw [List.length_replicate, Nat.mul_one]⟩
  refine ⟨_, _, _, _, h.rep, h.rep, fun h2 => ?_⟩
  have h3 := h.rep.raw (i := 0) (j := 0) (by decide) (by decide)
  have h4 := h2.raw (i := 0) (j := 0) (by decide) (by decide)
  rw [h3] at h4
  have h5 : (⟨65535 * 32 + 1, 1, List.replicate (65535 * 32 + 1) 1⟩ : Mat ℚ).raw? (0 * 1 + 0) = some 1 := by
    rw [Mat.raw?]
    simp only [List.getElem?_replicate]
    rw [if_pos (by decide)]
  rw [h3] at h5
  simp only [Option.some.injEq] at h4 h5
  rw [h5] at h4
  norm_num at h4

/-! ## Concrete runs -/

/-- The tiled product of a `1 × 2` and a `2 × 1` matrix with dirty tiles and a dirty result buffer. -/
example : ∃ M, (Cuda.mul Sched.rev (fun _ => 5) (fun _ _ _ _ => 7) ⟨1, 2, [1, 2]⟩ ⟨2, 1, [3, 4]⟩
    (some ⟨1, 1, [77]⟩) : Option (Mat ℚ)) = some M ∧ M.raw? 0 = some 11 := by
  have hL : (⟨1, 2, [1, 2]⟩ : Mat ℚ).WF := ⟨by decide, by decide, rfl⟩
  have hR : (⟨2, 1, [3, 4]⟩ : Mat ℚ).WF := ⟨by decide, by decide, rfl⟩
  have hb : (⟨1, 1, [77]⟩ : Mat ℚ).WF := ⟨by decide, by decide, rfl⟩
  obtain ⟨M, h1, h2⟩ := C43_product_partial Sched.rev (fun _ => (5 : ℚ)) (fun _ _ _ _ => 7) (Live.some hb) hL.rep
    hR.rep (by decide)
  refine ⟨M, h1, ?_⟩
  have := h2.raw (i := 0) (j := 0) (by decide) (by decide)
  rw [show (0 : ℕ) * 1 + 0 = 0 from rfl] at this
  rw [this]
  decide +kernel

end CoolDiff
