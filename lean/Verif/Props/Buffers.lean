import Verif.Props.Kernels

/-!
# Buffers, special matrices, blocks and backends (C31, C32, C33, C41)
-/

set_option linter.unusedSectionVars false

namespace CoolDiff

open Finset

variable {K : Type} [Field K] [DecidableEq K]

/-! ## C31: work buffers -/

/-- **C31, shape.** Whatever matrix (or none) an operator offers for reuse, after the request
`MatrixPool(result, r, c)` there is a properly allocated matrix of exactly `r` rows and `c`
columns. -/
theorem C31_pool_shape {b : Option (Mat K)} (hb : Live b) {r c : ℕ} (hr : 0 < r) (hc : 0 < c) :
    ∃ m, Mat.pool b r c = some m ∧ m.rows = r ∧ m.cols = c ∧ m.data.length = r * c := by
  obtain ⟨m, h1, h2, h3, h4⟩ := Mat.pool_spec hb hr hc
  exact ⟨m, h1, h2, h3, by rw [h4.len, h2, h3]⟩

/-- A request with a zero dimension is refused when no buffer can be reused. -/
theorem C31_pool_zero (r c : ℕ) (h : r = 0 ∨ c = 0) : Mat.pool (none : Option (Mat K)) r c = none := by
  simp only [Mat.pool, Mat.new]; rw [if_neg]; omega

theorem Backend.Sound.indep {M M' : Option (Mat K)} {r c A}
    (h : ∃ m, M = some m ∧ Rep m r c A) (h' : ∃ m, M' = some m ∧ Rep m r c A) : M = M' := by
  obtain ⟨m, rfl, h⟩ := h; obtain ⟨m', rfl, h'⟩ := h'; rw [h.ext h']

/-- **C31, no stale contents.** For every operation of the vector-library handler and every
operation except Kronecker of the naive handler, every execution order and all live buffers
`b`, `b'`: the result matrix (shape and all elements) is the same whether the operator reuses `b` or
`b'`. -/
theorem C31_no_stale {g : Cfg} (hg : g.CPU) (π : Sched) {b b' : Option (Mat K)} (hb : Live b)
    (hb' : Live b') {L R : Mat K} (hL : L.WF) (hR : R.WF) :
    (backend g π).add (.ext L) (.ext R) b = (backend g π).add (.ext L) (.ext R) b' ∧
    (backend g π).sub (.ext L) (.ext R) b = (backend g π).sub (.ext L) (.ext R) b' ∧
    (backend g π).hadamard (.ext L) (.ext R) b = (backend g π).hadamard (.ext L) (.ext R) b' ∧
    (∀ c, (backend g π).scalarAdd c (.ext R) b = (backend g π).scalarAdd c (.ext R) b') ∧
    (∀ c, (backend g π).scalarMul c (.ext R) b = (backend g π).scalarMul c (.ext R) b') ∧
    (∀ f, (backend g π).unary f (.ext R) b = (backend g π).unary f (.ext R) b') ∧
    (backend g π).mul L R b = (backend g π).mul L R b' ∧
    (backend g π).transpose R b = (backend g π).transpose R b' ∧
    (R.rows = R.cols → (backend g π).trace R b = (backend g π).trace R b') := by
  have S := backend_sound0 (K := K) hg π
  have rL := hL.rep
  have rR := hR.rep
  refine ⟨?_, ?_, ?_, fun c => ?_, fun c => ?_, fun f => ?_, ?_, ?_, fun e => ?_⟩
  · by_cases h : L.rows = R.rows ∧ L.cols = R.cols
    · rw [h.1, h.2] at rL
      exact Backend.Sound.indep (S.add (l := .ext L) (r := .ext R) hb rfl rL rfl rR)
        (S.add (l := .ext L) (r := .ext R) hb' rfl rL rfl rR)
    · rw [(C24_mismatch hg π b L R h).1, (C24_mismatch hg π b' L R h).1]
  · by_cases h : L.rows = R.rows ∧ L.cols = R.cols
    · rw [h.1, h.2] at rL
      exact Backend.Sound.indep (S.sub (l := .ext L) (r := .ext R) hb rfl rL rfl rR)
        (S.sub (l := .ext L) (r := .ext R) hb' rfl rL rfl rR)
    · rw [(C24_mismatch hg π b L R h).2.1, (C24_mismatch hg π b' L R h).2.1]
  · by_cases h : L.rows = R.rows ∧ L.cols = R.cols
    · rw [h.1, h.2] at rL
      exact Backend.Sound.indep (S.hadamard (l := .ext L) (r := .ext R) hb rfl rL rfl rR)
        (S.hadamard (l := .ext L) (r := .ext R) hb' rfl rL rfl rR)
    · rw [(C24_mismatch hg π b L R h).2.2, (C24_mismatch hg π b' L R h).2.2]
  · exact Backend.Sound.indep (S.scalarAdd c (r := .ext R) hb rfl rR)
      (S.scalarAdd c (r := .ext R) hb' rfl rR)
  · exact Backend.Sound.indep (S.scalarMul c (r := .ext R) hb rfl rR)
      (S.scalarMul c (r := .ext R) hb' rfl rR)
  · exact Backend.Sound.indep (S.unary f (r := .ext R) hb rfl rR)
      (S.unary f (r := .ext R) hb' rfl rR)
  · by_cases h : L.cols = R.rows
    · rw [h] at rL
      exact Backend.Sound.indep (S.mul hb rL rR) (S.mul hb' rL rR)
    · rw [C25_mismatch hg π b L R h, C25_mismatch hg π b' L R h]
  · exact Backend.Sound.indep (S.transpose hb rR) (S.transpose hb' rR)
  · rw [← e] at rR
    exact Backend.Sound.indep (S.trace hb rR) (S.trace hb' rR)

theorem Backend.Sound.snd {r : Option (Slots K × Mat K)} {m n : ℕ} {f : ℕ → ℕ → K} {p : Slots K → Prop}
    (h : ∃ a M, r = some (a, M) ∧ p a ∧ Rep M m n f) :
    ∃ M, r.map Prod.snd = some M ∧ Rep M m n f := by
  obtain ⟨a, M, rfl, _, h⟩ := h
  exact ⟨M, rfl, h⟩

/-- **C31, no stale contents: Kronecker, inverse, determinant, convolution** of the vector-library
handler. -/
theorem C31_no_stale_eigen {g : Cfg} (hg : g.CPU) (he : g.cpu = .eigen) (π : Sched)
    {b b' : Option (Mat K)} (hb : Live b) (hb' : Live b') {L R : Mat K} (hL : L.WF) (hR : R.WF) :
    (backend g π).kron L R b = (backend g π).kron L R b' ∧
    (R.rows = R.cols → (backend g π).det R b = (backend g π).det R b') ∧
    (R.rows = R.cols → (toMatrix R.rows R.val).det ≠ 0 →
      (backend g π).inverse R b = (backend g π).inverse R b') ∧
    (∀ (a a' : Slots K) (k k' sx sy px py : ℕ), (∀ k, Live (a k)) → (∀ k, Live (a' k)) → NoPad k →
      NoPad k' → 0 < sx → 0 < sy → R.rows ≤ L.rows + 2 * px → R.cols ≤ L.cols + 2 * py →
      ((backend g π).conv sx sy px py L R k a).map Prod.snd =
        ((backend g π).conv sx sy px py L R k' a').map Prod.snd) := by
  have I := backend_invSound (K := K) hg he π
  have rR := hR.rep
  refine ⟨?_, fun e => ?_, fun e hd => ?_, fun a a' k k' sx sy px py ha ha' hk hk' h1 h2 h3 h4 => ?_⟩
  · exact Backend.Sound.indep (backend_kronSound (K := K) hg he π hb hL.rep rR)
      (backend_kronSound (K := K) hg he π hb' hL.rep rR)
  · rw [← e] at rR
    exact Backend.Sound.indep (I.det hb rR) (I.det hb' rR)
  · rw [← e] at rR
    exact Backend.Sound.indep (I.inverse hb rR hd) (I.inverse hb' rR hd)
  · exact Backend.Sound.indep
      (Backend.Sound.snd (C28_conv_eigen hg he π ha hk hL.rep rR h1 h2 h3 h4))
      (Backend.Sound.snd (C28_conv_eigen hg he π ha' hk' hL.rep rR h1 h2 h3 h4))

/-- **C31 is false for the naive Kronecker kernel**: the same operands give different results in two
live buffers. -/
theorem C31_naive_kron_counterexample :
    ∃ (L R b b' : Mat ℚ), L.WF ∧ R.WF ∧ Live (some b) ∧ Live (some b') ∧
      (backend ⟨.naive, false, .cpu⟩ Sched.seq).kron L R (some b) ≠
        (backend ⟨.naive, false, .cpu⟩ Sched.seq).kron L R (some b') := by
  have w : ∀ v : ℚ, (⟨1, 1, [v]⟩ : Mat ℚ).WF := fun v => ⟨one_pos, one_pos, rfl⟩
  refine ⟨⟨1, 1, [0]⟩, ⟨1, 1, [5]⟩, ⟨1, 1, [7]⟩, ⟨1, 1, [8]⟩, w 0, w 5, Live.some (w 7),
    Live.some (w 8), ?_⟩
  simp only [backend, pick_cpu (g := ⟨.naive, false, .cpu⟩) rfl (op := .kron) (Or.inl rfl)]
  decide +kernel

/-! ## C32: identity, zero and one matrices with the registry -/

/-- The memory strategies; a name that is neither `"CPUMemoryStrategy"` nor (in a CUDA build)
`"GPUPinnedMemoryStrategy"` gives a null allocator.  Matrix.hpp:77-90. -/
inductive Alloc
  | cpu
  | gpu
  | unknown (name : String)
deriving DecidableEq

/-- `Matrix(rows, cols, alloc)`: `new T[N]{}` zeroes the memory, `cudaMallocHost` does not (`junk`), a null
allocator is dereferenced (`none`).  MatrixConstructors.ipp:71-84, CPUMemoryStrategy.hpp,
GPUPinnedMemoryStrategy.hpp:37-41. -/
def Alloc.fresh (junk : ℕ → K) (r c : ℕ) : Alloc → Option (Mat K)
  | .cpu => Mat.new r c
  | .gpu => if 0 < r ∧ 0 < c then some ⟨r, c, (List.range (r * c)).map junk⟩ else none
  | .unknown _ => none

/-- The static registries of `Eye`, `Zeros`, `Ones`, keyed by the allocator name and the dimensions.
MatrixBasics.cpp:31, 68, 100. -/
structure Registry (K : Type) where
  eye : List ((Alloc × ℕ) × Mat K)
  zeros : List ((Alloc × ℕ × ℕ) × Mat K)
  ones : List ((Alloc × ℕ × ℕ) × Mat K)

/-- At program start the registries are empty. -/
def Registry.empty : Registry K := ⟨[], [], []⟩

/-- A call. -/
inductive BasicCall
  | eye (alloc : Alloc) (n : ℕ)
  | zeros (alloc : Alloc) (n m : ℕ)
  | ones (alloc : Alloc) (n m : ℕ)

/-- `Eye`, `Zeros`, `Ones`: find in the registry, otherwise build (the constructor with a value fills the
matrix, MatrixConstructors.ipp:64-67), register and return.  MatrixBasics.cpp:29-55, 61-83, 96-115. -/
def BasicCall.run (π : Sched) (junk : ℕ → K) (R : Registry K) : BasicCall → Option (Registry K × Mat K)
  | .eye a n =>
    match R.eye.lookup (a, n) with
    | some m => some (R, m)
    | none => do
      let res ← a.fresh junk n n
      let m ← forEach (π.run ℕ (List.range n)) (fun i m => m.put? i i 1) res
      pure ({ R with eye := ((a, n), m) :: R.eye }, m)
  | .zeros a n m =>
    match R.zeros.lookup (a, n, m) with
    | some x => some (R, x)
    | none => do
      let x ← a.fresh junk n m
      pure ({ R with zeros := ((a, n, m), x) :: R.zeros }, x)
  | .ones a n m =>
    match R.ones.lookup (a, n, m) with
    | some x => some (R, x)
    | none => do
      let x ← a.fresh junk n m
      let x := { x with data := x.data.map fun _ => 1 }
      pure ({ R with ones := ((a, n, m), x) :: R.ones }, x)

/-- A sequence of calls and the matrices they returned; every call has its own execution order and its own
contents of fresh GPU memory. -/
def runCalls (π : ℕ → Sched) (junk : ℕ → ℕ → K) (R : Registry K) :
    List BasicCall → Option (Registry K × List (Mat K))
  | [] => some (R, [])
  | c :: cs => do
    let (R', m) ← c.run (π cs.length) (junk cs.length) R
    let (R'', ms) ← runCalls π junk R' cs
    pure (R'', m :: ms)

/-- The allocator is known and the dimensions of a call are positive. -/
def BasicCall.Pos : BasicCall → Prop
  | .eye a n => (a = .cpu ∨ a = .gpu) ∧ 0 < n
  | .zeros a n m => (a = .cpu ∨ a = .gpu) ∧ 0 < n ∧ 0 < m
  | .ones a n m => (a = .cpu ∨ a = .gpu) ∧ 0 < n ∧ 0 < m

/-- What a call has to return: the identity, zeros, ones of the requested shape.  On the GPU only the shape,
the diagonal of `Eye` and `Ones` are right (see `C32_gpu_counterexample`). -/
def BasicCall.Spec (M : Mat K) : BasicCall → Prop
  | .eye .cpu n => Rep M n n fun i j => if i = j then 1 else 0
  | .eye _ n => ∃ A, Rep M n n A ∧ ∀ i < n, A i i = 1
  | .zeros .cpu n m => Rep M n m fun _ _ => 0
  | .zeros _ n m => ∃ A, Rep M n m A
  | .ones _ n m => Rep M n m fun _ _ => 1

/-- Every registered matrix is the right one. -/
structure Registry.Good (R : Registry K) : Prop where
  eye : ∀ a n M, R.eye.lookup (a, n) = some M → (BasicCall.eye a n).Spec M
  zeros : ∀ a n m M, R.zeros.lookup (a, n, m) = some M → (BasicCall.zeros a n m).Spec M
  ones : ∀ a n m M, R.ones.lookup (a, n, m) = some M → (BasicCall.ones a n m).Spec M

theorem lookup_cons_some {α β : Type} [BEq α] [LawfulBEq α] {k k' : α} {v w : β} {l : List (α × β)}
    (h : ((k, v) :: l).lookup k' = some w) : (k' = k ∧ w = v) ∨ l.lookup k' = some w := by
  rw [List.lookup_cons] at h
  split at h
  · rename_i e; left; exact ⟨eq_of_beq e, (Option.some.inj h).symm⟩
  · right; exact h

/-- A fresh matrix of a known allocator. -/
theorem Alloc.fresh_spec {a : Alloc} (ha : a = .cpu ∨ a = .gpu) (junk : ℕ → K) {r c : ℕ} (hr : 0 < r)
    (hc : 0 < c) : ∃ m A, a.fresh junk r c = some m ∧ Rep m r c A ∧ (a = .cpu → ∀ i j, A i j = 0) := by
  rcases ha with rfl | rfl
  · obtain ⟨m, h1, h2⟩ := Mat.new_spec (K := K) hr hc
    exact ⟨m, _, h1, h2, fun _ _ _ => rfl⟩
  · have h : (⟨r, c, (List.range (r * c)).map junk⟩ : Mat K).WF := ⟨hr, hc, by simp⟩
    exact ⟨_, _, by rw [Alloc.fresh, if_pos ⟨hr, hc⟩], h.rep, fun e => by cases e⟩

theorem BasicCall.run_good (π : Sched) (junk : ℕ → K) {R : Registry K} (hR : R.Good) (c : BasicCall)
    (hc : c.Pos) : ∃ R' M, c.run π junk R = some (R', M) ∧ R'.Good ∧ c.Spec M := by
  cases c with
  | eye a n =>
    simp only [BasicCall.run]
    cases h : R.eye.lookup (a, n) with
    | some m => exact ⟨R, m, rfl, hR, hR.eye a n m h⟩
    | none =>
      obtain ⟨res, A, hres, hO, hA⟩ := Alloc.fresh_spec hc.1 junk hc.2 hc.2
      obtain ⟨m, h1, h2⟩ := forEach_rep (fun i : ℕ => i) (fun i => i) (fun _ => (1 : K))
        (fun i m => m.put? i i 1) (fun i j => if i = j then 1 else A i j)
        (π.run ℕ (List.range n)) res hO.wf (fun _ _ _ _ _ => rfl)
        (fun p hp => by rw [π.mem, List.mem_range] at hp; rw [hO.rows]; exact hp)
        (fun p hp => by rw [π.mem, List.mem_range] at hp; rw [hO.cols]; exact hp)
        (fun _ _ => by rw [if_pos rfl])
        (fun i j hi hj => by
          rw [hO.rows] at hi; rw [hO.cols] at hj
          by_cases e : i = j
          · left; exact ⟨i, by rw [π.mem, List.mem_range]; exact hi, rfl, e⟩
          · right; rw [if_neg e]; exact hO.elem i j hi hj)
      rw [hO.rows, hO.cols] at h2
      have h3 : (BasicCall.eye a n).Spec m := by
        rcases hc.1 with rfl | rfl
        · simpa only [BasicCall.Spec, hA rfl] using h2
        · exact ⟨_, h2, fun i _ => if_pos rfl⟩
      refine ⟨{ R with eye := ((a, n), m) :: R.eye }, m, by simp [hres, h1], ⟨?_, hR.zeros, hR.ones⟩, h3⟩
      intro a' n' M hM
      rcases lookup_cons_some hM with ⟨e, rfl⟩ | hM'
      · cases e; exact h3
      · exact hR.eye a' n' M hM'
  | zeros a n m =>
    simp only [BasicCall.run]
    cases h : R.zeros.lookup (a, n, m) with
    | some x => exact ⟨R, x, rfl, hR, hR.zeros a n m x h⟩
    | none =>
      obtain ⟨x, A, h1, hO, hA⟩ := Alloc.fresh_spec hc.1 junk hc.2.1 hc.2.2
      have h2 : (BasicCall.zeros a n m).Spec x := by
        rcases hc.1 with rfl | rfl
        · have : A = fun _ _ => 0 := funext fun i => funext fun j => hA rfl i j
          rw [this] at hO; exact hO
        · exact ⟨A, hO⟩
      refine ⟨{ R with zeros := ((a, n, m), x) :: R.zeros }, x, by simp [h1],
        ⟨hR.eye, ?_, hR.ones⟩, h2⟩
      intro a' n' m' M hM
      rcases lookup_cons_some hM with ⟨e, rfl⟩ | hM'
      · cases e; exact h2
      · exact hR.zeros a' n' m' M hM'
  | ones a n m =>
    simp only [BasicCall.run]
    cases h : R.ones.lookup (a, n, m) with
    | some x => exact ⟨R, x, rfl, hR, hR.ones a n m x h⟩
    | none =>
      obtain ⟨x, A, h1, hO, -⟩ := Alloc.fresh_spec hc.1 junk hc.2.1 hc.2.2
      have h2 : Rep (⟨x.rows, x.cols, x.data.map fun _ => (1 : K)⟩ : Mat K) n m fun _ _ => (1 : K) := by
        refine Rep.of_raw ⟨hO.wf.rpos, hO.wf.cpos, by simpa using hO.wf.len⟩ hO.rows hO.cols fun i j hi hj => ?_
        have := hO.raw hi hj
        simp only [Mat.raw?] at this
        simp only [List.getElem?_map, this, Option.map_some]
      refine ⟨{ R with ones := ((a, n, m), ⟨x.rows, x.cols, x.data.map fun _ => (1 : K)⟩) :: R.ones },
        ⟨x.rows, x.cols, x.data.map fun _ => (1 : K)⟩,
        by simp only [h1, Option.bind_eq_bind, Option.bind_some, Option.pure_def],
        ⟨hR.eye, hR.zeros, ?_⟩, h2⟩
      intro a' n' m' M hM
      rcases lookup_cons_some hM with ⟨e, rfl⟩ | hM'
      · cases e; exact h2
      · exact hR.ones a' n' m' M hM'

theorem runCalls_good (π : ℕ → Sched) (junk : ℕ → ℕ → K) (cs : List BasicCall) : ∀ {R : Registry K}, R.Good →
    (∀ c ∈ cs, c.Pos) → ∃ R' Ms, runCalls π junk R cs = some (R', Ms) ∧ R'.Good ∧
      List.Forall₂ (fun c M => BasicCall.Spec M c) cs Ms := by
  induction cs with
  | nil => intro R hR _; exact ⟨R, [], rfl, hR, .nil⟩
  | cons c cs ih =>
    intro R hR hp
    obtain ⟨R1, M, h1, h2, h3⟩ := BasicCall.run_good (π cs.length) (junk cs.length) hR c (hp c (by simp))
    obtain ⟨R2, Ms, h4, h5, h6⟩ := ih h2 fun c hc => hp c (List.mem_cons_of_mem _ hc)
    exact ⟨R2, M :: Ms, by simp [runCalls, h1, h4], h5, .cons h3 h6⟩

/-- **C32.** From program start, in every sequence of calls of `Eye(n)`, `Zeros(n,m)`, `Ones(n,m)`
with positive dimensions (CPU or GPU memory, any repetition and interleaving of shapes), every call returns a
matrix of the requested shape; in CPU memory it is the identity, zero or one matrix it asked for: `Spec` says
`Eye(n)(i,j) = 1` iff `i = j` else `0`, `Zeros(n,m)(i,j) = 0`, `Ones(n,m)(i,j) = 1`; in GPU memory `Ones` and
the diagonal of `Eye` are right. -/
theorem C32_basics_partial (π : ℕ → Sched) (junk : ℕ → ℕ → K) (cs : List BasicCall) (hp : ∀ c ∈ cs, c.Pos) :
    ∃ (R : Registry K) (Ms : List (Mat K)), runCalls π junk Registry.empty cs = some (R, Ms) ∧
      List.Forall₂ (fun c M => BasicCall.Spec M c) cs Ms := by
  obtain ⟨R, Ms, h1, _, h2⟩ := runCalls_good (K := K) π junk cs (R := Registry.empty)
    ⟨fun _ _ _ h => (by simp [Registry.empty] at h), fun _ _ _ _ h => (by simp [Registry.empty] at h),
      fun _ _ _ _ h => (by simp [Registry.empty] at h)⟩ hp
  exact ⟨R, Ms, h1, h2⟩

/-- **C32, repeated calls.** A second request for the same matrix returns the matrix of the first one, also
in GPU memory. -/
theorem C32_repeated (π π' : Sched) (junk junk' : ℕ → K) {R R' : Registry K} {c : BasicCall} {M : Mat K}
    (h : c.run π junk R = some (R', M)) : c.run π' junk' R' = some (R', M) := by
  cases c with
  | eye a n =>
    simp only [BasicCall.run] at h ⊢
    cases e : R.eye.lookup (a, n) with
    | some m =>
      simp only [e, Option.some.injEq, Prod.mk.injEq] at h
      obtain ⟨rfl, rfl⟩ := h
      simp only [e]
    | none =>
      simp only [e, Option.bind_eq_bind, Option.bind_eq_some_iff, Option.pure_def, Option.some.injEq,
        Prod.mk.injEq] at h
      obtain ⟨res, _, m, _, rfl, rfl⟩ := h
      simp
  | zeros a n m =>
    simp only [BasicCall.run] at h ⊢
    cases e : R.zeros.lookup (a, n, m) with
    | some m =>
      simp only [e, Option.some.injEq, Prod.mk.injEq] at h
      obtain ⟨rfl, rfl⟩ := h
      simp only [e]
    | none =>
      simp only [e, Option.bind_eq_bind, Option.bind_eq_some_iff, Option.pure_def, Option.some.injEq,
        Prod.mk.injEq] at h
      obtain ⟨res, _, rfl, rfl⟩ := h
      simp
  | ones a n m =>
    simp only [BasicCall.run] at h ⊢
    cases e : R.ones.lookup (a, n, m) with
    | some m =>
      simp only [e, Option.some.injEq, Prod.mk.injEq] at h
      obtain ⟨rfl, rfl⟩ := h
      simp only [e]
    | none =>
      simp only [e, Option.bind_eq_bind, Option.bind_eq_some_iff, Option.pure_def, Option.some.injEq,
        Prod.mk.injEq] at h
      obtain ⟨res, _, rfl, rfl⟩ := h
      simp

/-- **C32, GPU.** In GPU memory `Zeros(1,1)` and the off-diagonal of `Eye(2)` hold whatever the fresh
memory held: the code relies on a zeroed allocation, which `cudaMallocHost` does not give. -/
theorem C32_gpu_counterexample (π : Sched) (v : K) :
    (∃ R, (BasicCall.zeros .gpu 1 1).run π (fun _ => v) Registry.empty = some (R, ⟨1, 1, [v]⟩)) ∧
    (∃ R M, (BasicCall.eye .gpu 2).run π (fun _ => v) Registry.empty = some (R, M) ∧ M.get? 0 1 = some v) := by
  refine ⟨⟨_, rfl⟩, ?_⟩
  have hO : (⟨2, 2, [v, v, v, v]⟩ : Mat K).WF := ⟨Nat.two_pos, Nat.two_pos, rfl⟩
  obtain ⟨m, h1, h2⟩ := forEach_rep (fun i : ℕ => i) (fun i => i) (fun _ => (1 : K))
    (fun i m => m.put? i i 1) (fun i j => if i = j then 1 else v)
    (π.run ℕ (List.range 2)) _ hO (fun _ _ _ _ _ => rfl)
    (fun p hp => by rw [π.mem, List.mem_range] at hp; exact hp)
    (fun p hp => by rw [π.mem, List.mem_range] at hp; exact hp)
    (fun _ _ => by rw [if_pos rfl])
    (fun i j hi hj => by
      have hi : i < 2 := hi
      have hj : j < 2 := hj
      by_cases e : i = j
      · left; exact ⟨i, by rw [π.mem, List.mem_range]; exact hi, rfl, e⟩
      · right
        rw [if_neg e]
        have h0 : ∀ k, k < 2 → k = 0 ∨ k = 1 := fun k _ => by omega
        rcases h0 i hi with rfl | rfl <;> rcases h0 j hj with rfl | rfl <;>
          first | rfl | exact absurd rfl e)
  refine ⟨{ Registry.empty with eye := ((.gpu, 2), m) :: [] }, m, ?_, ?_⟩
  · have h1 : forEach (π.run ℕ (List.range 2)) (fun i m => m.put? i i 1) (⟨2, 2, [v, v, v, v]⟩ : Mat K) =
      some m := h1
    show (do
      let m ← forEach (π.run ℕ (List.range 2)) (fun i m => m.put? i i 1) (⟨2, 2, [v, v, v, v]⟩ : Mat K)
      pure (({ Registry.empty with eye := ((Alloc.gpu, 2), m) :: [] } : Registry K), m)) = _
    rw [h1]; rfl
  · exact h2.elem 0 1 Nat.two_pos Nat.one_lt_two

/-- A call sequence with a repeated request, a transposed shape and a different allocator. -/
example : ∀ c ∈ [BasicCall.ones .cpu 2 3, .zeros .cpu 2 3, .ones .cpu 3 2, .eye .gpu 2,
    .ones .cpu 2 3], c.Pos := by
  simp [BasicCall.Pos]

/-! ## C33: blocks, padding, rows and columns -/

/-- **C33, block write.** `setBlockMat({rs,re},{cs,ce}, B)` (inclusive bounds inside the matrix,
matching the shape of `B`) writes exactly the addressed block and nothing else, in every execution
order. -/
theorem C33_setBlock (π : Sched) {M B : Mat K} {r c br bc : ℕ} {A C : ℕ → ℕ → K} (hM : Rep M r c A)
    (hB : Rep B br bc C) {rs re cs ce : ℕ} (h1 : re < r) (h2 : ce < c) (h3 : re + 1 = rs + br)
    (h4 : ce + 1 = cs + bc) :
    ∃ m, M.setBlock π rs re cs ce B = some m ∧ m.rows = r ∧ m.cols = c ∧
      (∀ i j, i < br → j < bc → m.get? (rs + i) (cs + j) = some (C i j)) ∧
      (∀ i j, i < r → j < c → ¬(rs ≤ i ∧ i ≤ re ∧ cs ≤ j ∧ j ≤ ce) → m.get? i j = M.get? i j) := by
  obtain ⟨m, e1, e2⟩ := Mat.setBlock_spec π hM hB h1 h2 h3 h4
  refine ⟨m, e1, e2.rows, e2.cols, fun i j hi hj => ?_, fun i j hi hj hn => ?_⟩
  · rw [e2.elem _ _ (by omega) (by omega), if_pos ⟨by omega, by omega, by omega, by omega⟩,
      Nat.add_sub_cancel_left, Nat.add_sub_cancel_left]
  · rw [e2.elem _ _ hi hj, if_neg hn, hM.elem _ _ hi hj]

/-- **C33, round trip.** Reading back the block just written returns it, whatever the buffer of the
read held. -/
theorem C33_roundtrip (π π' : Sched) {M B : Mat K} (hM : M.WF) (hB : B.WF) {rs re cs ce : ℕ}
    (h1 : re < M.rows) (h2 : ce < M.cols) (h3 : re + 1 = rs + B.rows) (h4 : ce + 1 = cs + B.cols)
    {b : Option (Mat K)} (hb : Live b) :
    ∃ m, M.setBlock π rs re cs ce B = some m ∧ m.getBlock π' rs re cs ce b = some B := by
  have p1 := hB.rpos
  have p2 := hB.cpos
  obtain ⟨m, e1, e2⟩ := Mat.setBlock_spec π hM.rep hB.rep h1 h2 h3 h4
  obtain ⟨x, f1, f2⟩ := Mat.getBlock_spec π' e2 (rs := rs) (re := re) (cs := cs) (ce := ce)
    (by omega) h1 (by omega) h2 hb
  refine ⟨m, e1, f1.trans (congrArg some ?_)⟩
  rw [show re - rs + 1 = B.rows by omega, show ce - cs + 1 = B.cols by omega] at f2
  refine f2.ext (hB.rep.congr fun i j hi hj => ?_)
  rw [if_pos ⟨by omega, by omega, by omega, by omega⟩, Nat.add_sub_cancel_left,
    Nat.add_sub_cancel_left]

/-- **C33, block read.** `getBlockMat` returns the addressed block. -/
theorem C33_getBlock (π : Sched) {M : Mat K} {r c : ℕ} {A : ℕ → ℕ → K} (hM : Rep M r c A)
    {rs re cs ce : ℕ} (h1 : rs ≤ re) (h2 : re < r) (h3 : cs ≤ ce) (h4 : ce < c)
    {b : Option (Mat K)} (hb : Live b) :
    ∃ m, M.getBlock π rs re cs ce b = some m ∧
      Rep m (re - rs + 1) (ce - cs + 1) fun i j => A (rs + i) (cs + j) :=
  Mat.getBlock_spec π hM h1 h2 h3 h4 hb

/-- **C33, pad.** `pad(px, py)` into a newly allocated or cleared buffer embeds the matrix at
`(px,py)` with a zero border. -/
theorem C33_pad (π : Sched) {M : Mat K} {r c : ℕ} {A : ℕ → ℕ → K} (hM : Rep M r c A) (px py : ℕ)
    {b : Option (Mat K)} (hb : Live b) :
    ∃ m, M.pad π px py (b.map Mat.resetZero) = some m ∧
      Rep m (r + 2 * px) (c + 2 * py) (padded px py r c A) := by
  have hr := hM.rpos
  have hc := hM.cpos
  obtain ⟨pb, h1, h2⟩ := Mat.pool_resetZero hb (r := r + 2 * px) (c := c + 2 * py)
    (by omega) (by omega)
  exact Mat.pad_spec π hM px py h1 h2

/-- `pad` into a reused, uncleared buffer does not give a zero border. -/
theorem C33_pad_stale_counterexample :
    (⟨1, 1, [5]⟩ : Mat ℚ).pad Sched.seq 1 0 (some ⟨3, 1, [7, 8, 9]⟩) = some ⟨3, 1, [7, 5, 9]⟩ := by
  decide +kernel

/-- **C33, getRow.** `getRow(i)` returns the elements of row `i`, as a `c × 1` matrix. -/
theorem C33_getRow {M : Mat K} {r c : ℕ} {A : ℕ → ℕ → K} (hM : Rep M r c A) {i : ℕ} (hi : i < r) :
    ∃ m, M.getRow i = some m ∧ Rep m c 1 fun n _ => A i n := by
  have hr := hM.rpos
  have hc := hM.cpos
  obtain ⟨t, ht, hT⟩ := Mat.new_spec (K := K) hc one_pos
  obtain ⟨m, e1, e2, e3, e4, e5, _⟩ := forEach_raw (fun n : ℕ => n)
    (fun n _ => M.raw? (i * c + n)) (fun n => A i n) (List.range c) t
    (by simpa using List.nodup_range)
    (fun n hn => by rw [hT.len]; simpa using hn)
    (fun n hn m' _ _ _ _ => hM.raw hi (by simpa using hn))
  refine ⟨m, ?_, ?_⟩
  · rw [Mat.getRow, if_pos (by rw [hM.rows]; exact hi), hM.cols, ht]
    exact e1
  · refine Rep.of_raw ⟨by rw [e2, hT.rows]; exact hc, by rw [e3, hT.cols]; exact one_pos,
      by rw [e4, hT.len, e2, e3, hT.rows, hT.cols]⟩ (e2.trans hT.rows) (e3.trans hT.cols) ?_
    intro a b ha hb
    obtain rfl : b = 0 := by omega
    simpa using e5 a (by simpa using ha)

/-- **C33 is false for `getColumn`**: its result does not depend on the requested column at all. -/
theorem C33_getColumn_ignores_argument (M : Mat K) {i j : ℕ} (hi : i < M.cols) (hj : j < M.cols) :
    M.getColumn i = M.getColumn j := by
  simp only [Mat.getColumn, if_pos hi, if_pos hj]

/-- … so for `[[1,2],[3,4]]` the second column is reported as `[1,3]` instead of `[2,4]`. -/
theorem C33_getColumn_counterexample :
    (⟨2, 2, [1, 2, 3, 4]⟩ : Mat ℚ).getColumn 1 = some ⟨2, 1, [1, 3]⟩ := by decide +kernel

/-- And for a wide matrix, column 0 itself is wrong: `[[1,2,3],[4,5,6]]` reports `[1,3]`. -/
theorem C33_getColumn_counterexample_wide :
    (⟨2, 3, [1, 2, 3, 4, 5, 6]⟩ : Mat ℚ).getColumn 0 = some ⟨2, 1, [1, 3]⟩ := by decide +kernel

/-! ## C41: dispatch and agreement of the backends -/

/-- The operations without a handler for the naive selection. -/
def MatOp.eigenOnly (op : MatOp) : Prop := op = .inverse ∨ op = .det

/-- **C41, dispatch.** For CPU operands and every operation, the chain has exactly one performing
handler: the vector-library handler when it is selected and part of the chain, otherwise the naive
one — except inverse and determinant with the naive selection, for which no handler performs the
request. -/
theorem C41_dispatch (g : Cfg) (hg : g.CPU) (op : MatOp) :
    performer g op.chain =
      if g.cpu = .eigen ∧ Handler.eigen ∈ op.chain then some .eigen
      else if Handler.naive ∈ op.chain then some .naive else none := by
  rcases g with ⟨cpu, cb, sp⟩
  simp only [Cfg.CPU] at hg; subst hg
  cases cpu <;> cases cb <;> cases op <;> decide

/-- Which operations are total on CPU operands. -/
theorem C41_total (g : Cfg) (hg : g.CPU) (op : MatOp) :
    (∃ h ∈ op.chain, performer g op.chain = some h) ↔ (g.cpu = .eigen ∨ ¬op.eigenOnly) := by
  rcases g with ⟨cpu, cb, sp⟩
  simp only [Cfg.CPU] at hg; subst hg
  simp only [MatOp.eigenOnly]
  cases cpu <;> cases cb <;> cases op <;> decide

/-- **C41 is false for inverse and determinant**: with the naive selection every request fails. -/
theorem C41_naive_inverse_counterexample (cb : Bool) (π : Sched) (M : Mat K) (b : Option (Mat K)) :
    (backend ⟨.naive, cb, .cpu⟩ π).inverse M b = none ∧
      (backend ⟨.naive, cb, .cpu⟩ π).det M b = none := by
  have : performer ⟨.naive, cb, .cpu⟩ [Handler.eigen] = none := by cases cb <;> decide
  simp [backend, pick, MatOp.chain, this]

/-- GPU operands: the operations with a CUDA handler go there exactly in a CUDA build; the trace,
convolution and derivative kernels have none and fall to the CPU loops of the naive handler; inverse
and determinant have no handler at all. -/
theorem C41_dispatch_gpu (cpu : CPUHandler) (cb : Bool) (op : MatOp) :
    performer ⟨cpu, cb, .gpu⟩ op.chain =
      if cb ∧ Handler.cuda ∈ op.chain then some .cuda
      else if op = .inverse ∨ op = .det then none else some .naive := by
  cases cpu <;> cases cb <;> cases op <;> decide

/-- **C41, agreement.** For live operands, every execution order and all live result buffers, the
naive and the vector-library handler return the same matrix for every operation both implement,
except Kronecker (see `C41_agree_kron_partial`). -/
theorem C41_agree {g g' : Cfg} (hg : g.CPU) (hg' : g'.CPU) (π π' : Sched) {b b' : Option (Mat K)}
    (hb : Live b) (hb' : Live b') {L R : Mat K} (hL : L.WF) (hR : R.WF) :
    (backend g π).add (.ext L) (.ext R) b = (backend g' π').add (.ext L) (.ext R) b' ∧
    (backend g π).sub (.ext L) (.ext R) b = (backend g' π').sub (.ext L) (.ext R) b' ∧
    (backend g π).hadamard (.ext L) (.ext R) b = (backend g' π').hadamard (.ext L) (.ext R) b' ∧
    (∀ c, (backend g π).scalarAdd c (.ext R) b = (backend g' π').scalarAdd c (.ext R) b') ∧
    (∀ c, (backend g π).scalarMul c (.ext R) b = (backend g' π').scalarMul c (.ext R) b') ∧
    (∀ f, (backend g π).unary f (.ext R) b = (backend g' π').unary f (.ext R) b') ∧
    (backend g π).mul L R b = (backend g' π').mul L R b' ∧
    (backend g π).transpose R b = (backend g' π').transpose R b' ∧
    (R.rows = R.cols → (backend g π).trace R b = (backend g' π').trace R b') := by
  have S := backend_sound0 (K := K) hg π
  have S' := backend_sound0 (K := K) hg' π'
  have rL := hL.rep
  have rR := hR.rep
  refine ⟨?_, ?_, ?_, fun c => ?_, fun c => ?_, fun f => ?_, ?_, ?_, fun e => ?_⟩
  · by_cases h : L.rows = R.rows ∧ L.cols = R.cols
    · rw [h.1, h.2] at rL
      exact Backend.Sound.indep (S.add (l := .ext L) (r := .ext R) hb rfl rL rfl rR)
        (S'.add (l := .ext L) (r := .ext R) hb' rfl rL rfl rR)
    · rw [(C24_mismatch hg π b L R h).1, (C24_mismatch hg' π' b' L R h).1]
  · by_cases h : L.rows = R.rows ∧ L.cols = R.cols
    · rw [h.1, h.2] at rL
      exact Backend.Sound.indep (S.sub (l := .ext L) (r := .ext R) hb rfl rL rfl rR)
        (S'.sub (l := .ext L) (r := .ext R) hb' rfl rL rfl rR)
    · rw [(C24_mismatch hg π b L R h).2.1, (C24_mismatch hg' π' b' L R h).2.1]
  · by_cases h : L.rows = R.rows ∧ L.cols = R.cols
    · rw [h.1, h.2] at rL
      exact Backend.Sound.indep (S.hadamard (l := .ext L) (r := .ext R) hb rfl rL rfl rR)
        (S'.hadamard (l := .ext L) (r := .ext R) hb' rfl rL rfl rR)
    · rw [(C24_mismatch hg π b L R h).2.2, (C24_mismatch hg' π' b' L R h).2.2]
  · exact Backend.Sound.indep (S.scalarAdd c (r := .ext R) hb rfl rR)
      (S'.scalarAdd c (r := .ext R) hb' rfl rR)
  · exact Backend.Sound.indep (S.scalarMul c (r := .ext R) hb rfl rR)
      (S'.scalarMul c (r := .ext R) hb' rfl rR)
  · exact Backend.Sound.indep (S.unary f (r := .ext R) hb rfl rR)
      (S'.unary f (r := .ext R) hb' rfl rR)
  · by_cases h : L.cols = R.rows
    · rw [h] at rL
      exact Backend.Sound.indep (S.mul hb rL rR) (S'.mul hb' rL rR)
    · rw [C25_mismatch hg π b L R h, C25_mismatch hg' π' b' L R h]
  · exact Backend.Sound.indep (S.transpose hb rR) (S'.transpose hb' rR)
  · rw [← e] at rR
    exact Backend.Sound.indep (S.trace hb rR) (S'.trace hb' rR)

/-- **C41, agreement on Kronecker (partial)**: with new result buffers the two handlers agree;
missing: reused buffers, where they do not (`C26_kron_naive_stale_counterexample`). -/
theorem C41_agree_kron_partial {g g' : Cfg} (hg : g.CPU) (hg' : g'.CPU) (π π' : Sched)
    {L R : Mat K} (hL : L.WF) (hR : R.WF) :
    (backend g π).kron L R none = (backend g' π').kron L R none := by
  have key : ∀ (g : Cfg) (_ : g.CPU) (π : Sched), ∃ M, (backend g π).kron L R none = some M ∧
      Rep M (L.rows * R.rows) (L.cols * R.cols) fun i j =>
        L.val (i / R.rows) (j / R.cols) * R.val (i % R.rows) (j % R.cols) := by
    intro g hg π
    cases hc : g.cpu with
    | eigen => exact backend_kronSound (K := K) hg hc π Live.none hL.rep hR.rep
    | naive =>
      obtain ⟨z, hz1, hz2⟩ := Mat.pool_none (K := K) (Nat.mul_pos hL.rpos hR.rpos)
        (Nat.mul_pos hL.cpos hR.cpos)
      obtain ⟨M, h1, h2⟩ := Naive.kron_spec π hL.rep hR.rep hz1 hz2
      refine ⟨M, by simp only [backend, pick_cpu hg (op := .kron) (Or.inl rfl), hc]; exact h1,
        h2.congr fun i j _ _ => ?_⟩
      split
      · rename_i h0; rw [h0, zero_mul]
      · rfl
  exact Backend.Sound.indep (key g hg π) (key g' hg' π')

/-- **C41, agreement on convolution (partial)**: with a new pad buffer (or no padding) the two
handlers agree, whatever the other buffers hold. -/
theorem C41_agree_conv_partial {g g' : Cfg} (hg : g.CPU) (hg' : g'.CPU) (he : g.cpu = .eigen)
    (hn : g'.cpu = .naive) (π π' : Sched) {a a' : Slots K} (ha : ∀ k, Live (a k))
    (ha' : ∀ k, Live (a' k)) {k k' : ℕ} (hk : NoPad k) (hk' : NoPad k') {L R : Mat K} (hL : L.WF)
    (hR : R.WF) {sx sy px py : ℕ} (hsx : 0 < sx) (hsy : 0 < sy) (h1 : R.rows ≤ L.rows + 2 * px)
    (h2 : R.cols ≤ L.cols + 2 * py) (hf : a' 30 = none ∨ (px = 0 ∧ py = 0)) :
    ((backend g π).conv sx sy px py L R k a).map Prod.snd =
      ((backend g' π').conv sx sy px py L R k' a').map Prod.snd :=
  Backend.Sound.indep
    (Backend.Sound.snd (C28_conv_eigen hg he π ha hk hL.rep hR.rep hsx hsy h1 h2))
    (Backend.Sound.snd (C28_conv_naive_partial hg' hn π' ha' hk' hL.rep hR.rep hsx hsy h1 h2
      (hf.imp (fun e m hm => by rw [e] at hm; cases hm) id)))

/-- **C41, agreement on sequences of convolutions (partial)**: any sequence of convolutions in which
two requests with the same number of padded elements, one of which pads, have the same input shape and
pads, is answered alike by the two handlers in any two processes. -/
theorem C41_agree_conv_history_partial {g g' : Cfg} (hg : g.CPU) (hg' : g'.CPU) (π π' : Sched)
    (qs : List (ConvCall K)) (hok : ∀ q ∈ qs, q.Ok)
    (hcompat : ∀ q ∈ qs, ∀ q' ∈ qs, 0 < q.px ∨ 0 < q.py →
      (q.L.rows + 2 * q.px) * (q.L.cols + 2 * q.py) =
        (q'.L.rows + 2 * q'.px) * (q'.L.cols + 2 * q'.py) →
      q.L.rows = q'.L.rows ∧ q.L.cols = q'.L.cols ∧ q.px = q'.px ∧ q.py = q'.py) :
    (ConvCall.run (backend g π) qs (fun _ => none)).map Prod.snd =
      (ConvCall.run (backend g' π') qs (fun _ => none)).map Prod.snd := by
  obtain ⟨a, Ms, e, h⟩ := C28_conv_history_partial hg π qs hok (Or.inr hcompat)
  obtain ⟨a', Ms', e', h'⟩ := C28_conv_history_partial hg' π' qs hok (Or.inr hcompat)
  rw [e, e']
  simp only [Option.map_some, Option.some.injEq]
  clear e e' hok hcompat
  induction h generalizing Ms' with
  | nil => cases h'; rfl
  | @cons q M qs Ms hq _ ih =>
    cases h' with
    | @cons _ M' _ Ms' hq' h' =>
      have := Backend.Sound.indep (M := some M) (M' := some M') ⟨M, rfl, hq⟩ ⟨M', rfl, hq'⟩
      rw [Option.some.injEq] at this
      rw [this, ih Ms' h']

/-- **C41 is false in the complex build**: the naive transpose conjugates, the vector-library one
does not; whenever some entry is not fixed by conjugation the results differ. -/
theorem C41_complex_transpose_disagrees (cj : K → K) (π : Sched) {R : Mat K} {r c : ℕ}
    {A : ℕ → ℕ → K} (hR : Rep R r c A) {i j : ℕ} (hi : i < r) (hj : j < c) (h : cj (A i j) ≠ A i j)
    {b b' : Option (Mat K)} (hb : Live b) (hb' : Live b') :
    Naive.transposeWith cj π R b ≠ Eig.transpose R b' := by
  obtain ⟨m, h1, h2⟩ := Naive.transposeWith_spec cj π hb hR
  obtain ⟨m', h1', h2'⟩ := Eig.transpose_spec hb' hR
  rw [h1, h1']
  intro e
  cases e
  have e1 := h2.elem j i hj hi
  rw [h2'.elem j i hj hi] at e1
  exact h (Option.some.inj e1).symm

/-! ## The parallel trace -/

/-- One step of an iteration of the parallel loop `tmp = tmp + (*mat)(n,n)`: iteration `n` reads
`tmp`, later it writes `tmp` (read value plus the element).  MatTraceNaiveHandler.hpp:47-49. -/
inductive TraceEv
  | rd (n : ℕ)
  | wr (n : ℕ)
deriving DecidableEq

/-- The shared `tmp` and the private register of every iteration. -/
structure TraceSt (K : Type) where
  tmp : K
  reg : ℕ → K

/-- MatTraceNaiveHandler.hpp:47-49. -/
def traceStep (a : ℕ → K) (s : TraceSt K) : TraceEv → TraceSt K
  | .rd n => { s with reg := fun m => if m = n then s.tmp else s.reg m }
  | .wr n => { s with tmp := s.reg n + a n }

/-- Run a schedule from `tmp{}` = 0. -/
def traceSteps (a : ℕ → K) (evs : List TraceEv) : K :=
  (evs.foldl (traceStep a) ⟨0, fun _ => 0⟩).tmp

/-- The schedule in which the iterations run one after the other, in the order `l`. -/
def atomicSched (l : List ℕ) : List TraceEv := l.flatMap fun n => [.rd n, .wr n]

/-- If the iterations do not overlap, every order of them gives the sum of the diagonal. -/
theorem C41_trace_atomic (a : ℕ → K) {n : ℕ} {l : List ℕ} (hl : l.Perm (List.range n)) :
    traceSteps a (atomicSched l) = ∑ k ∈ range n, a k := by
  have key : ∀ (l : List ℕ) (s : TraceSt K),
      ((atomicSched l).foldl (traceStep a) s).tmp = s.tmp + (l.map a).sum := by
    intro l
    induction l with
    | nil => intro s; simp [atomicSched]
    | cons n l ih =>
      intro s
      have : atomicSched (n :: l) = .rd n :: .wr n :: atomicSched l := rfl
      rw [this, List.foldl_cons, List.foldl_cons, ih]
      simp [traceStep, add_assoc]
  rw [traceSteps, key, zero_add, (hl.map a).sum_eq, sum_range_list]

/-- **The naive trace is wrong under `EXECUTION_PAR`**: two iterations that both read `tmp` before
either writes it lose one diagonal element, for every matrix whose first diagonal element is not
zero. -/
theorem C41_trace_race (a : ℕ → K) (h : a 0 ≠ 0) :
    traceSteps a [.rd 0, .rd 1, .wr 0, .wr 1] ≠ ∑ k ∈ range 2, a k := by
  simp [traceSteps, traceStep, Finset.sum_range_succ, h]

end CoolDiff
