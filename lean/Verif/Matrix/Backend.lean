import Verif.Matrix.DervConv
import Mathlib.LinearAlgebra.Matrix.NonsingularInverse

/-!
# Handler dispatch

Which handler of the chain performs a request (GlobalParameters, MatrixStaticHandler.hpp,
MatOperators.cpp), and the resulting operations `MATRIX_ADD`, `MATRIX_MUL`, ... of a configuration.
-/

set_option linter.unusedSectionVars false

namespace CoolDiff

variable {K : Type} [Field K] [DecidableEq K]

/-- `CPUHandlerType`.  GlobalParameters.hpp:36-38. -/
inductive CPUHandler | eigen | naive
deriving DecidableEq

/-- `isCPUSpace` / `isGPUSpace` of the operands' memory strategy.  GlobalParameters.cpp:46-62. -/
inductive Space | cpu | gpu
deriving DecidableEq

/-- One handler of a chain. -/
inductive Handler | eigen | cuda | naive
deriving DecidableEq

/-- The operations of MatOperators.cpp. -/
inductive MatOp
  | add | scalarAdd | sub | mul | scalarMul | kron | hadamard | transpose | dervTranspose
  | inverse | det | trace | unary | conv | dervConv
deriving DecidableEq

/-- The handler chain of every operation, outermost handler first.  MatOperators.cpp:78-270
(`HANDLER1`, `HANDLER2`, `HANDLER3`). -/
def MatOp.chain : MatOp → List Handler
  | .add => [.eigen, .cuda, .naive]
  | .scalarAdd => [.eigen, .cuda, .naive]
  | .sub => [.eigen, .cuda, .naive]
  | .mul => [.eigen, .cuda, .naive]
  | .scalarMul => [.eigen, .cuda, .naive]
  | .kron => [.eigen, .cuda, .naive]
  | .hadamard => [.eigen, .cuda, .naive]
  | .transpose => [.eigen, .cuda, .naive]
  | .dervTranspose => [.naive]
  | .inverse => [.eigen]
  | .det => [.eigen]
  | .trace => [.eigen, .naive]
  | .unary => [.eigen, .cuda, .naive]
  | .conv => [.eigen, .naive]
  | .dervConv => [.naive]

/-- A configuration: the selected CPU handler, whether the build has `USE_CUDA_BACKEND`, and the
memory space of the operands.  GlobalParameters.hpp:46-48. -/
structure Cfg where
  cpu : CPUHandler
  cudaBuild : Bool
  space : Space
deriving DecidableEq

/-- Does handler `h` perform the request itself (otherwise it calls `T::handle`, the next one)?
`EIGEN_BACKEND_HANDLER`, `CUDA_BACKEND_HANDLER` (MatrixStaticHandler.hpp:64-71), the CUDA handlers'
`#if !defined(USE_CUDA_BACKEND)` (MatAddCUDAHandler.hpp:36-39); naive handlers never forward. -/
def Handler.takes (g : Cfg) : Handler → Bool
  | .eigen => g.cpu = .eigen ∧ g.space = .cpu
  | .cuda => g.cudaBuild ∧ g.space = .gpu
  | .naive => true

/-- The handlers that execute their own body, in order; the base class `MatrixStaticHandler::handle`
asserts false (MatrixStaticHandler.hpp:31-33), which is the result `none`. -/
def performer (g : Cfg) : List Handler → Option Handler
  | [] => none
  | h :: t => if h.takes g then some h else performer g t

/-! ## Inverse and determinant (Eigen, trusted) -/

/-- The `n × n` matrix held by a buffer, as a Mathlib matrix. -/
def toMatrix (n : ℕ) (A : ℕ → ℕ → K) : Matrix (Fin n) (Fin n) K := Matrix.of fun i j => A i j

/-- Read all elements of a buffer through the raw pointer. -/
def Mat.readAll (m : Mat K) : Option (ℕ → ℕ → K) :=
  if m.data.length = m.rows * m.cols then
    some fun i j => (m.data[i * m.cols + j]?).getD 0
  else none

/-- MatDetEigenHandler.hpp:31-57: `A.determinant()`, stored with `operator()(0,0)`. -/
noncomputable def Eig.det (rhs : Mat K) (result : Option (Mat K)) : Option (Mat K) :=
  if rhs.rows = rhs.cols then do
    let res ← Mat.pool result 1 1
    let A ← rhs.readAll
    res.put? 0 0 (toMatrix rhs.rows A).det
  else none

/-- MatInverseEigenHandler.hpp:31-60: `A.inverse()`.  Eigen's result for a singular matrix is
meaningless (it divides by a zero pivot): `none`. -/
noncomputable def Eig.inverse (rhs : Mat K) (result : Option (Mat K)) : Option (Mat K) :=
  if rhs.rows = rhs.cols then do
    let res ← Mat.pool result rhs.rows rhs.cols
    let A ← rhs.readAll
    let B := toMatrix rhs.rows A
    if B.det = 0 then none
    else eigenAssign rhs.rows rhs.cols (fun i j _ =>
      if h : i < rhs.rows ∧ j < rhs.rows then some (B⁻¹ ⟨i, h.1⟩ ⟨j, h.2⟩) else none) res
  else none

/-! ## The operations of a configuration -/

/-- The operations of MatOperators.cpp as seen by the expression nodes. -/
structure Backend (K : Type) where
  add : Src K → Src K → Option (Mat K) → Option (Mat K)
  sub : Src K → Src K → Option (Mat K) → Option (Mat K)
  hadamard : Src K → Src K → Option (Mat K) → Option (Mat K)
  scalarAdd : K → Src K → Option (Mat K) → Option (Mat K)
  scalarMul : K → Src K → Option (Mat K) → Option (Mat K)
  unary : (K → K) → Src K → Option (Mat K) → Option (Mat K)
  mul : Mat K → Mat K → Option (Mat K) → Option (Mat K)
  kron : Mat K → Mat K → Option (Mat K) → Option (Mat K)
  transpose : Mat K → Option (Mat K) → Option (Mat K)
  dervTranspose : ℕ → ℕ → ℕ → ℕ → Mat K → Option (Mat K) → Option (Mat K)
  inverse : Mat K → Option (Mat K) → Option (Mat K)
  det : Mat K → Option (Mat K) → Option (Mat K)
  trace : Mat K → Option (Mat K) → Option (Mat K)
  /-- strides, pads, operands, number of the result buffer -/
  conv : ℕ → ℕ → ℕ → ℕ → Mat K → Mat K → ℕ → Slots K → Option (Slots K × Mat K)
  /-- dimensions of the variable, strides, pads, left operand and its derivative, right operand and
  its derivative, number of the result buffer -/
  dervConv : ℕ → ℕ → ℕ → ℕ → ℕ → ℕ → Mat K → Mat K → Mat K → Mat K → ℕ → Slots K →
    Option (Slots K × Mat K)

/-- The CUDA kernels are in `Matrix/Cuda.lean`, not in `backend`: here a request performed by a CUDA handler
is `none`. -/
def pick {α β : Type} (g : Cfg) (op : MatOp) (eig nai : α → Option β) (r : α) : Option β :=
  match performer g op.chain with
  | some .eigen => eig r
  | some .naive => nai r
  | _ => none

/-- The dispatched operations used inside MatDervConvNaiveHandler.hpp:102-119. -/
def dops (g : Cfg) (π : Sched) : DOps K where
  add l r := pick g .add (Eig.add l r) (Naive.add π l r)
  hadamard l r := pick g .hadamard (Eig.hadamard l r) (Naive.hadamard π l r)
  mul l r := pick g .mul (Eig.mul l r) (Naive.mul π l r)
  kron l r := pick g .kron (Eig.kron l r) (Naive.kron π l r)

/-- MatOperators.cpp:78-270: every operation goes to the handler chosen by its chain. -/
noncomputable def backend (g : Cfg) (π : Sched) : Backend K where
  add l r := pick g .add (Eig.add l r) (Naive.add π l r)
  sub l r := pick g .sub (Eig.sub l r) (Naive.sub π l r)
  hadamard l r := pick g .hadamard (Eig.hadamard l r) (Naive.hadamard π l r)
  scalarAdd c r := pick g .scalarAdd (Eig.scalarAdd c r) (Naive.scalarAdd c π r)
  scalarMul c r := pick g .scalarMul (Eig.scalarMul c r) (Naive.scalarMul c π r)
  unary f r := pick g .unary (Eig.unary f r) (Naive.unary f π r)
  mul l r := pick g .mul (Eig.mul l r) (Naive.mul π l r)
  kron l r := pick g .kron (Eig.kron l r) (Naive.kron π l r)
  transpose r := pick g .transpose (Eig.transpose r) (Naive.transpose π r)
  dervTranspose a b c d r := pick g .dervTranspose (fun _ => none) (Naive.dervTranspose π a b c d r)
  inverse r := pick g .inverse (Eig.inverse r) (fun _ => none)
  det r := pick g .det (Eig.det r) (fun _ => none)
  trace r := pick g .trace (Eig.trace r) (Naive.trace r)
  conv sx sy px py l r k := pick g .conv (Eig.conv π sx sy px py l r k)
    (Naive.conv π sx sy px py l r k)
  dervConv xr xc sx sy px py l dl r dr k := pick g .dervConv (fun _ => none)
    (Naive.dervConv (dops g π) π xr xc sx sy px py l dl r dr k)

/-! ## What an operation has to compute -/

/-- The operations that write their whole result: correct for every old contents of the result
buffer and every aliasing of element-wise operands with the result; convolutions are correct for the
padding requests `P` of the program. -/
structure Backend.Sound (B : Backend K) (P : Pads) : Prop where
  add : ∀ {l r : Src K} {b : Option (Mat K)} {L R : Mat K} {m n A C}, Live b →
    l.mat? b = some L → Rep L m n A → r.mat? b = some R → Rep R m n C →
    ∃ M, B.add l r b = some M ∧ Rep M m n fun i j => A i j + C i j
  sub : ∀ {l r : Src K} {b : Option (Mat K)} {L R : Mat K} {m n A C}, Live b →
    l.mat? b = some L → Rep L m n A → r.mat? b = some R → Rep R m n C →
    ∃ M, B.sub l r b = some M ∧ Rep M m n fun i j => A i j - C i j
  hadamard : ∀ {l r : Src K} {b : Option (Mat K)} {L R : Mat K} {m n A C}, Live b →
    l.mat? b = some L → Rep L m n A → r.mat? b = some R → Rep R m n C →
    ∃ M, B.hadamard l r b = some M ∧ Rep M m n fun i j => A i j * C i j
  scalarAdd : ∀ (c : K) {r : Src K} {b : Option (Mat K)} {R : Mat K} {m n A}, Live b →
    r.mat? b = some R → Rep R m n A → ∃ M, B.scalarAdd c r b = some M ∧ Rep M m n fun i j => c + A i j
  scalarMul : ∀ (c : K) {r : Src K} {b : Option (Mat K)} {R : Mat K} {m n A}, Live b →
    r.mat? b = some R → Rep R m n A → ∃ M, B.scalarMul c r b = some M ∧ Rep M m n fun i j => c * A i j
  unary : ∀ (f : K → K) {r : Src K} {b : Option (Mat K)} {R : Mat K} {m n A}, Live b →
    r.mat? b = some R → Rep R m n A → ∃ M, B.unary f r b = some M ∧ Rep M m n fun i j => f (A i j)
  mul : ∀ {b : Option (Mat K)} {L R : Mat K} {m k n A C}, Live b → Rep L m k A → Rep R k n C →
    ∃ M, B.mul L R b = some M ∧ Rep M m n fun i j => ∑ t ∈ Finset.range k, A i t * C t j
  transpose : ∀ {b : Option (Mat K)} {R : Mat K} {m n A}, Live b → Rep R m n A →
    ∃ M, B.transpose R b = some M ∧ Rep M n m fun i j => A j i
  dervTranspose : ∀ {b : Option (Mat K)} {R : Mat K} {rf cf xr xc A}, Live b → 0 < rf → 0 < cf →
    0 < xr → 0 < xc → Rep R (rf * xr) (cf * xc) A →
    ∃ M, B.dervTranspose rf cf xr xc R b = some M ∧ Rep M (cf * xr) (rf * xc) fun a b =>
      A (b / xc * xr + a % xr) (a / xr * xc + b % xc)
  trace : ∀ {b : Option (Mat K)} {R : Mat K} {n A}, Live b → Rep R n n A →
    ∃ M, B.trace R b = some M ∧ Rep M 1 1 fun _ _ => ∑ k ∈ Finset.range n, A k k
  conv : ∀ {L R : Mat K} {r c kr kc A C} {sx sy px py k : ℕ} {a : Slots K},
    Rep L r c A → Rep R kr kc C → 0 < sx → 0 < sy → kr ≤ r + 2 * px →
    kc ≤ c + 2 * py → (⟨r, c, px, py⟩ : PadReq) ∈ P.Q → NoPad k → SlotsOk P a →
    ∃ a' M, B.conv sx sy px py L R k a = some (a', M) ∧ SlotsOk P a' ∧
      Rep M (convDim r px kr sx) (convDim c py kc sy) (convSpec sx sy px py r c kr kc A C)
  dervConv : ∀ {L DL R DR : Mat K} {r c kr kc xr xc A C TA TC} {sx sy px py k : ℕ}
    {a : Slots K}, Compat P.L → Compat P.D → Rep L r c A → Rep R kr kc C → 0 < xr → 0 < xc →
    Rep DL (r * xr) (c * xc) (lay xr xc TA) → Rep DR (kr * xr) (kc * xc) (lay xr xc TC) →
    0 < sx → 0 < sy → kr ≤ r + 2 * px → kc ≤ c + 2 * py → (⟨r, c, px, py⟩ : PadReq) ∈ P.L →
    (⟨r * xr, c * xc, px * xr, py * xc⟩ : PadReq) ∈ P.D → NoPad k → SlotsOk P a →
    ∃ a' M, B.dervConv xr xc sx sy px py L DL R DR k a = some (a', M) ∧ SlotsOk P a' ∧
      Rep M (convDim r px kr sx * xr) (convDim c py kc sy * xc)
        (lay xr xc (convTan sx sy px py r c kr kc A C TA TC))

/-- The Kronecker product is correct for every old contents of the result buffer. -/
def Backend.KronSound (B : Backend K) : Prop :=
  ∀ {b : Option (Mat K)} {L R : Mat K} {lr lc rr rc A C}, Live b → Rep L lr lc A → Rep R rr rc C →
    ∃ M, B.kron L R b = some M ∧ Rep M (lr * rr) (lc * rc) fun i j =>
      A (i / rr) (j / rc) * C (i % rr) (j % rc)

/-- Inverse and determinant are available and correct. -/
structure Backend.InvSound (B : Backend K) : Prop where
  inverse : ∀ {b : Option (Mat K)} {R : Mat K} {n A}, Live b → Rep R n n A →
    (toMatrix n A).det ≠ 0 → ∃ M, B.inverse R b = some M ∧ Rep M n n fun i j =>
      if h : i < n ∧ j < n then (toMatrix n A)⁻¹ ⟨i, h.1⟩ ⟨j, h.2⟩ else 0
  det : ∀ {b : Option (Mat K)} {R : Mat K} {n A}, Live b → Rep R n n A →
    ∃ M, B.det R b = some M ∧ Rep M 1 1 fun _ _ => (toMatrix n A).det

section proofs

theorem Rep.readAll {m : Mat K} {r c A} (h : Rep m r c A) :
    ∃ A', m.readAll = some A' ∧ ∀ i j, i < r → j < c → A' i j = A i j := by
  refine ⟨_, by rw [Mat.readAll, if_pos (by rw [h.len, h.rows, h.cols])], ?_⟩
  intro i j hi hj
  have := h.raw hi hj
  simp only [Mat.raw?] at this
  simp only [h.cols, this, Option.getD_some]

theorem toMatrix_congr {n : ℕ} {A A' : ℕ → ℕ → K} (h : ∀ i j, i < n → j < n → A' i j = A i j) :
    toMatrix n A' = toMatrix n A := by
  ext i j; simp only [toMatrix, Matrix.of_apply]; exact h i j i.2 j.2

theorem Rep.of_put {m : Mat K} (rwf : m.WF) (rr : m.rows = 1) (rc : m.cols = 1) (v : K) :
    ∃ m', m.put? 0 0 v = some m' ∧ Rep m' 1 1 (fun _ _ => v) := by
  obtain ⟨m1, e1, e2, e3, e4, e5⟩ := Mat.put?_spec rwf (i := 0) (j := 0) rwf.rpos rwf.cpos v
  refine ⟨m1, e1, e4.rpos.trans_eq (e2.trans rr), e4.cpos.trans_eq (e3.trans rc), e2.trans rr,
    e3.trans rc, by rw [e4.len, e2, e3, rr, rc], ?_⟩
  intro i j hi hj
  obtain rfl : i = 0 := by omega
  obtain rfl : j = 0 := by omega
  rw [e5, if_pos ⟨rfl, rfl⟩]

theorem Eig.det_spec {R : Mat K} {result : Option (Mat K)} (hlive : Live result) {n A}
    (hR : Rep R n n A) :
    ∃ m, Eig.det R result = some m ∧ Rep m 1 1 (fun _ _ => (toMatrix n A).det) := by
  obtain ⟨res, hres, rr, rc, rwf⟩ := Mat.pool_spec hlive one_pos one_pos
  obtain ⟨A', hA', hAA⟩ := hR.readAll
  obtain ⟨m, hm, hrep⟩ := Rep.of_put rwf rr rc (toMatrix n A).det
  refine ⟨m, ?_, hrep⟩
  have e1 := hR.rows; have e2 := hR.cols
  rcases R with ⟨rr', rc', d⟩
  simp only at e1 e2; subst e1; subst e2
  rw [Eig.det, if_pos rfl]
  simp only [hres, hA', Option.bind_eq_bind, Option.bind_some, toMatrix_congr hAA]
  exact hm

theorem Eig.inverse_spec {R : Mat K} {result : Option (Mat K)} (hlive : Live result) {n A}
    (hR : Rep R n n A) (hdet : (toMatrix n A).det ≠ 0) :
    ∃ m, Eig.inverse R result = some m ∧ Rep m n n (fun i j =>
      if h : i < n ∧ j < n then (toMatrix n A)⁻¹ ⟨i, h.1⟩ ⟨j, h.2⟩ else 0) := by
  obtain ⟨res, hres, rr, rc, rwf⟩ := Mat.pool_spec hlive hR.rpos hR.cpos
  obtain ⟨A', hA', hAA⟩ := hR.readAll
  obtain ⟨m, hm, hrep⟩ := eigenAssign_spec
    (A := fun i j => if h : i < n ∧ j < n then (toMatrix n A)⁻¹ ⟨i, h.1⟩ ⟨j, h.2⟩ else 0)
    (fun i j _ => if h : i < n ∧ j < n then some ((toMatrix n A)⁻¹ ⟨i, h.1⟩ ⟨j, h.2⟩) else none)
    res rwf rr rc
    (fun i j hi hj _ _ => by simp only [dif_pos (And.intro hi hj)])
  refine ⟨m, ?_, hrep⟩
  have e1 := hR.rows; have e2 := hR.cols
  rcases R with ⟨rr', rc', d⟩
  simp only at e1 e2; subst e1; subst e2
  rw [Eig.inverse, if_pos rfl]
  simp only [hres, hA', Option.bind_eq_bind, Option.bind_some, toMatrix_congr hAA, if_neg hdet]
  exact hm

/-- A configuration with CPU operands. -/
def Cfg.CPU (g : Cfg) : Prop := g.space = .cpu

theorem pick_cpu {α β : Type} {g : Cfg} (hg : g.CPU) {op : MatOp}
    (hop : op.chain = [.eigen, .cuda, .naive] ∨ op.chain = [.eigen, .naive])
    (e n : α → Option β) (r : α) :
    pick g op e n r = if g.cpu = .eigen then e r else n r := by
  rcases g with ⟨cpu, cb, sp⟩
  simp only [Cfg.CPU] at hg; subst hg
  cases cpu <;> cases cb <;> rcases hop with h | h <;>
    simp [pick, h, performer, Handler.takes]

theorem pick_naive {α β : Type} (g : Cfg) {op : MatOp} (hop : op.chain = [.naive])
    (e n : α → Option β) (r : α) : pick g op e n r = n r := by
  simp [pick, hop, performer, Handler.takes]

theorem dops_sound {g : Cfg} (hg : g.CPU) (π : Sched) : (dops (K := K) g π).Sound where
  add := fun hb hL hR => by
    simp only [dops, pick_cpu hg (op := .add) (Or.inl rfl)]; split
    · exact Eig.elementwise2_spec _ hb rfl hL rfl hR
    · exact elementwise2_spec _ π hb rfl hL rfl hR
  hadamard := fun hb hL hR => by
    simp only [dops, pick_cpu hg (op := .hadamard) (Or.inl rfl)]; split
    · exact Eig.elementwise2_spec _ hb rfl hL rfl hR
    · exact elementwise2_spec _ π hb rfl hL rfl hR
  mul := fun hb hL hR => by
    simp only [dops, pick_cpu hg (op := .mul) (Or.inl rfl)]; split
    · exact Eig.mul_spec hb hL hR
    · exact Naive.mul_spec π hb hL hR
  kron := fun hb hL hR => by
    simp only [dops, pick_cpu hg (op := .kron) (Or.inl rfl)]; split
    · exact Eig.kron_spec hb.resetZero hL hR
    · obtain ⟨z, hz, rz⟩ := Mat.pool_resetZero hb (Nat.mul_pos hL.rpos hR.rpos)
        (Nat.mul_pos hL.cpos hR.cpos)
      obtain ⟨m, h1, h2⟩ := Naive.kron_spec π hL hR hz rz
      refine ⟨m, h1, h2.congr fun i j _ _ => ?_⟩
      split
      · rename_i h0; rw [h0, zero_mul]
      · rfl

/-- On CPU operands, with either handler selected and for every execution order, every operation
except Kronecker, inverse and determinant is correct whatever the result buffer held; with the naive
handler convolutions need compatible padding requests. -/
theorem backend_sound {g : Cfg} (hg : g.CPU) (π : Sched) {P : Pads}
    (hP : g.cpu = .eigen ∨ Compat P.Q) : (backend (K := K) g π).Sound P where
  add := fun hb hl hL hr hR => by
    simp only [backend, pick_cpu hg (op := .add) (Or.inl rfl)]; split
    · exact Eig.elementwise2_spec _ hb hl hL hr hR
    · exact elementwise2_spec _ π hb hl hL hr hR
  sub := fun hb hl hL hr hR => by
    simp only [backend, pick_cpu hg (op := .sub) (Or.inl rfl)]; split
    · exact Eig.elementwise2_spec _ hb hl hL hr hR
    · exact elementwise2_spec _ π hb hl hL hr hR
  hadamard := fun hb hl hL hr hR => by
    simp only [backend, pick_cpu hg (op := .hadamard) (Or.inl rfl)]; split
    · exact Eig.elementwise2_spec _ hb hl hL hr hR
    · exact elementwise2_spec _ π hb hl hL hr hR
  scalarAdd := fun c _ _ _ _ _ _ hb hr hR => by
    simp only [backend, pick_cpu hg (op := .scalarAdd) (Or.inl rfl)]; split
    · obtain ⟨M, h1, h2⟩ := Eig.elementwise1_spec (fun v : K => v + c) hb hr hR
      exact ⟨M, h1, h2.congr fun i j _ _ => add_comm _ _⟩
    · exact elementwise1_spec _ π hb hr hR
  scalarMul := fun c _ _ _ _ _ _ hb hr hR => by
    simp only [backend, pick_cpu hg (op := .scalarMul) (Or.inl rfl)]; split
    · obtain ⟨M, h1, h2⟩ := Eig.elementwise1_spec (fun v : K => v * c) hb hr hR
      exact ⟨M, h1, h2.congr fun i j _ _ => mul_comm _ _⟩
    · exact elementwise1_spec _ π hb hr hR
  unary := fun f _ _ _ _ _ _ hb hr hR => by
    simp only [backend, pick_cpu hg (op := .unary) (Or.inl rfl)]; split
    · exact Eig.elementwise1_spec f hb hr hR
    · exact elementwise1_spec f π hb hr hR
  mul := fun hb hL hR => by
    simp only [backend, pick_cpu hg (op := .mul) (Or.inl rfl)]; split
    · exact Eig.mul_spec hb hL hR
    · exact Naive.mul_spec π hb hL hR
  transpose := fun hb hR => by
    simp only [backend, pick_cpu hg (op := .transpose) (Or.inl rfl)]; split
    · exact Eig.transpose_spec hb hR
    · exact Naive.transposeWith_spec (fun v => v) π hb hR
  dervTranspose := fun hb h1 h2 h3 h4 hR => by
    simp only [backend, pick_naive g (op := .dervTranspose) rfl]
    exact Naive.dervTranspose_spec π hb h1 h2 h3 h4 hR
  trace := fun hb hR => by
    simp only [backend, pick_cpu hg (op := .trace) (Or.inr rfl)]; split
    · exact Eig.trace_spec hb hR
    · exact Naive.trace_spec hb hR
  conv := fun hL hR hsx hsy hkr hkc hq hk ha => by
    simp only [backend, pick_cpu hg (op := .conv) (Or.inr rfl)]; split
    · exact Eig.conv_spec π hL hR hsx hsy hkr hkc hk ha
    · rename_i he
      exact Naive.conv_spec (hP.resolve_left he) π hL hR hsx hsy hkr hkc hq hk ha
  dervConv := fun hQ hD hL hR hxr hxc hDL hDR hsx hsy hkr hkc hq hqD hk ha => by
    simp only [backend, pick_naive g (op := .dervConv) rfl]
    exact Naive.dervConv_spec (dops_sound hg π) hQ hD π hL hR hxr hxc hDL hDR hsx hsy hkr hkc hq hqD
      hk ha

/-- No padding requests. -/
def Pads.none : Pads := ⟨∅, ∅, ∅⟩

theorem Compat.empty : Compat ∅ := fun _ h => h.elim

/-- The kernels, for a program without convolutions. -/
theorem backend_sound0 {g : Cfg} (hg : g.CPU) (π : Sched) :
    (backend (K := K) g π).Sound Pads.none := backend_sound hg π (Or.inr Compat.empty)

/-- Without padding requests any properly allocated buffers will do. -/
theorem SlotsOk.of_live {a : Slots K} (h : ∀ k, Live (a k)) : SlotsOk Pads.none a :=
  ⟨h, fun _ _ h => h.elim, fun _ _ h => h.elim, fun _ _ h => h.elim⟩

theorem backend_kronSound {g : Cfg} (hg : g.CPU) (he : g.cpu = .eigen) (π : Sched) :
    (backend (K := K) g π).KronSound := fun hb hL hR => by
  simp only [backend, pick_cpu hg (op := .kron) (Or.inl rfl), if_pos he]
  exact Eig.kron_spec hb hL hR

theorem backend_invSound {g : Cfg} (hg : g.CPU) (he : g.cpu = .eigen) (π : Sched) :
    (backend (K := K) g π).InvSound := by
  have hp : performer g [.eigen] = some .eigen := by
    rcases g with ⟨cpu, cb, sp⟩
    simp only [Cfg.CPU] at hg he; subst hg; subst he
    simp [performer, Handler.takes]
  constructor
  · intro b R n A hb hR hd
    simp only [backend, pick, MatOp.chain, hp]
    exact Eig.inverse_spec hb hR hd
  · intro b R n A hb hR
    simp only [backend, pick, MatOp.chain, hp]
    exact Eig.det_spec hb hR

end proofs

end CoolDiff
