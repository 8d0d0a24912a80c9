import Verif.Props.MatrixExpr

/-!
# C36 (`vec`) and C37 (copies of matrices)

`vec(X).eval()` returns the *same* result matrix as `X.eval()`, reshaped in place.  To talk about
this, this file has its own small model with an explicit heap of result matrices: `Matrix<T>::eval`
of a matrix with elements and `GenericMatVec::eval` return addresses.
-/

set_option linter.unusedSectionVars false

namespace CoolDiff

open Finset

variable {K : Type} [Field K] [DecidableEq K]

/-! ## Reshaping -/

/-- Row-major flattening of an `r × c` matrix. -/
def flatF (c : ℕ) (A : ℕ → ℕ → K) (n : ℕ) : K := A (n / c) (n % c)

/-- `reshape` keeps the buffer: the new matrix has the same row-major flattening. -/
theorem Mat.reshape_spec {m : Mat K} {r c : ℕ} {A : ℕ → ℕ → K} (h : Rep m r c A) {r' c' : ℕ}
    (hr : 0 < r') (hc : 0 < c') (hn : r' * c' = r * c) :
    ∃ m', m.reshape r' c' = some m' ∧ m'.data = m.data ∧
      Rep m' r' c' (fun i j => flatF c A (i * c' + j)) := by
  refine ⟨{ m with rows := r', cols := c' }, ?_, rfl, ⟨hr, hc, rfl, rfl, ?_, ?_⟩⟩
  · rw [Mat.reshape, if_pos (by rw [hn, h.rows, h.cols])]
  · show m.data.length = _
    rw [h.len, hn]
  · intro i j hi hj
    have hlt : i * c' + j < r * c := by rw [← hn]; exact flat_lt hi hj
    have h1 := h.elem ((i * c' + j) / c) ((i * c' + j) % c) (div_lt_of_lt_mul' hlt)
      (mod_lt_of_lt_mul hlt)
    rw [Mat.get?, h.rows, h.cols, if_pos ⟨div_lt_of_lt_mul' hlt, mod_lt_of_lt_mul hlt⟩,
      div_mul_mod] at h1
    show (Mat.get? _ i j) = _
    rw [Mat.get?, if_pos ⟨hi, hj⟩]
    exact h1

/-! ## A heap of result matrices -/

/-- Result matrices by address, `mp_result` and `m_eval` of every named matrix, next free address. -/
structure VSt (K : Type) where
  heap : ℕ → Option (Mat K)
  res : ℕ → Option ℕ
  evald : ℕ → Bool
  next : ℕ

/-- Write a cell. -/
def VSt.set (s : VSt K) (p : ℕ) (m : Mat K) : VSt K := { s with heap := Function.update s.heap p (some m) }

/-- `MatrixPool(mp_result, rows, cols)` on the heap: reshape in place if the number of elements fits,
else a new matrix.  MemoryManager.hpp:52-71 (as `Mat.pool`). -/
def VSt.pool (s : VSt K) (o r c : ℕ) : Option (VSt K × ℕ) :=
  match s.res o with
  | none => (Mat.new r c).map fun m =>
      ({ s with heap := Function.update s.heap s.next (some m),
                res := Function.update s.res o (some s.next), next := s.next + 1 }, s.next)
  | some p => (s.heap p).bind fun m =>
      if r * c = m.rows * m.cols then (m.reshape r c).map fun m' => (s.set p m', p)
      else (Mat.new r c).map fun m' =>
        ({ s with heap := Function.update s.heap s.next (some m'),
                  res := Function.update s.res o (some s.next), next := s.next + 1 }, s.next)

/-- `Matrix<T>::eval()` of a matrix with elements.  MatrixVirtuals.ipp:27-41. -/
def VSt.evalX (c : MCtx K) (o : ℕ) (s : VSt K) : Option (VSt K × ℕ) :=
  (s.pool o (c.E.rows o) (c.E.cols o)).bind fun q =>
    if q.1.evald o then some q
    else (q.1.heap q.2).bind fun m => (fillEval c o m).map fun m' =>
      ({ q.1.set q.2 m' with evald := Function.update q.1.evald o true }, q.2)

/-- `GenericMatVec::eval()` on a named matrix: reshape what the operand returned.
GenericMatVec.hpp:82-91. -/
def VSt.vecX (c : MCtx K) (o : ℕ) (s : VSt K) : Option (VSt K × ℕ) :=
  (s.evalX c o).bind fun q => (q.1.heap q.2).bind fun m =>
    (m.reshape (c.E.rows o * c.E.cols o) 1).map fun m' => (q.1.set q.2 m', q.2)

/-- `eval()` of a product: evaluate left, then right, then multiply what the two addresses hold.
GenericMatProduct.hpp:93-112. -/
def VSt.mulX (c : MCtx K) (a b : VSt K → Option (VSt K × ℕ)) (s : VSt K) : Option (Mat K) :=
  (a s).bind fun p => (b p.1).bind fun q =>
    (q.1.heap p.2).bind fun L => (q.1.heap q.2).bind fun R => c.B.mul L R none

/-- The stored result of `o` is a proper matrix; if `o` is flagged as evaluated, it has the element
values of `o` in row-major order, in whatever shape. -/
structure VInv (c : MCtx K) (o : ℕ) (s : VSt K) : Prop where
  live : ∀ p, s.res o = some p → ∃ m, s.heap p = some m ∧ m.WF
  done : s.evald o = true → ∃ p m, s.res o = some p ∧ s.heap p = some m ∧
    m.rows * m.cols = c.E.rows o * c.E.cols o ∧
    ∀ n, n < c.E.rows o * c.E.cols o →
      m.data[n]? = some (c.sc.val (c.E.el o (n / c.E.cols o) (n % c.E.cols o)))

theorem Rep.data {m : Mat K} {r c : ℕ} {A : ℕ → ℕ → K} (h : Rep m r c A) {n : ℕ} (hn : n < r * c) :
    m.data[n]? = some (flatF c A n) := by
  have h1 := h.elem (n / c) (n % c) (div_lt_of_lt_mul' hn) (mod_lt_of_lt_mul hn)
  rwa [Mat.get?, h.rows, h.cols, if_pos ⟨div_lt_of_lt_mul' hn, mod_lt_of_lt_mul hn⟩,
      div_mul_mod] at h1

theorem Rep.of_data {m : Mat K} {r c : ℕ} {A : ℕ → ℕ → K} (hr : 0 < r) (hc : 0 < c)
    (h1 : m.rows = r) (h2 : m.cols = c) (h3 : m.data.length = r * c)
    (h : ∀ n, n < r * c → m.data[n]? = some (flatF c A n)) : Rep m r c A := by
  refine ⟨hr, hc, h1, h2, h3, fun i j hi hj => ?_⟩
  rw [Mat.get?, h1, h2, if_pos ⟨hi, hj⟩, h _ (flat_lt hi hj), flatF, flat_div hj, flat_mod hj]

/-- Values of the elements of `o`. -/
def elems (c : MCtx K) (o i j : ℕ) : K := c.sc.val (c.E.el o i j)

/-- `X.eval()` in the heap model: the returned address holds the elements of `X`, in the shape of
`X`; if `X` was evaluated before, the address is the one returned before. -/
theorem evalX_spec (c : MCtx K) {o : ℕ} (hr : 0 < c.E.rows o) (hc : 0 < c.E.cols o) {s : VSt K}
    (hs : VInv c o s) : ∃ s' p m, s.evalX c o = some (s', p) ∧ s'.heap p = some m ∧
      Rep m (c.E.rows o) (c.E.cols o) (elems c o) ∧ s'.res o = some p ∧ s'.evald o = true ∧
      (s.evald o = true → s.res o = some p ∧ ∀ q, q ≠ p → s'.heap q = s.heap q) := by
  by_cases he : s.evald o = true
  · obtain ⟨p, m, h1, h2, h3, h4⟩ := hs.done he
    obtain ⟨m0, g1, g2⟩ := hs.live p h1
    rw [h2] at g1; cases g1
    have e : s.pool o (c.E.rows o) (c.E.cols o) =
        some (s.set p { m with rows := c.E.rows o, cols := c.E.cols o }, p) := by
      simp only [VSt.pool, h1, h2, Option.bind_some, if_pos h3.symm, Mat.reshape]
      rfl
    refine ⟨s.set p { m with rows := c.E.rows o, cols := c.E.cols o }, p,
      { m with rows := c.E.rows o, cols := c.E.cols o }, ?_, by simp [VSt.set], ?_, h1, he,
      fun _ => ⟨h1, fun q hq => by simp [VSt.set, hq]⟩⟩
    · rw [VSt.evalX, e, Option.bind_some, if_pos (by exact he)]
    · exact Rep.of_data hr hc rfl rfl (by show m.data.length = _; rw [g2.len, h3]) h4
  · have key : ∃ s1 p m, s.pool o (c.E.rows o) (c.E.cols o) = some (s1, p) ∧ s1.heap p = some m ∧
        m.rows = c.E.rows o ∧ m.cols = c.E.cols o ∧ m.WF ∧ s1.res o = some p ∧
        s1.evald o = s.evald o := by
      rcases h : s.res o with _ | p
      · obtain ⟨m, hm, rm⟩ := Mat.new_spec (K := K) hr hc
        refine ⟨{ s with heap := Function.update s.heap s.next (some m),
                         res := Function.update s.res o (some s.next), next := s.next + 1 }, s.next,
          m, by simp only [VSt.pool, h, hm, Option.map_some], ?_, rm.rows, rm.cols, rm.wf, ?_, rfl⟩
        · simp
        · simp
      · obtain ⟨m, g1, g2⟩ := hs.live p h
        by_cases hn : c.E.rows o * c.E.cols o = m.rows * m.cols
        · refine ⟨s.set p { m with rows := c.E.rows o, cols := c.E.cols o }, p,
            { m with rows := c.E.rows o, cols := c.E.cols o }, ?_, by simp [VSt.set], rfl, rfl,
            ⟨hr, hc, by show m.data.length = _; rw [g2.len, hn]⟩, h, rfl⟩
          simp only [VSt.pool, h, g1, Option.bind_some, if_pos hn, Mat.reshape]
          rfl
        · obtain ⟨m', hm, rm⟩ := Mat.new_spec (K := K) hr hc
          refine ⟨{ s with heap := Function.update s.heap s.next (some m'),
                           res := Function.update s.res o (some s.next), next := s.next + 1 }, s.next,
            m', by simp only [VSt.pool, h, g1, Option.bind_some, if_neg hn, hm,
            Option.map_some], ?_, rm.rows, rm.cols, rm.wf, ?_, rfl⟩
          · simp
          · simp
    obtain ⟨s1, p, m, e1, e2, e3, e4, e5, e6, e7⟩ := key
    obtain ⟨m', f1, f2⟩ := rawFill (g := fun i j => c.sc.val (c.E.el o i j)) e5 e3 e4
    refine ⟨{ s1.set p m' with evald := Function.update s1.evald o true }, p, m', ?_,
      by simp [VSt.set], f2, e6, by simp, fun h => absurd h he⟩
    rw [VSt.evalX, e1, Option.bind_some, if_neg (by rw [e7]; exact he)]
    simp only [e2, Option.bind_some]
    rw [show fillEval c o m = some m' from f1]
    rfl

/-- **C36 (value).**  For every matrix `X` with elements and every state of its stored result,
`vec(X).eval()` succeeds and yields the `(r·c) × 1` matrix of the elements of `X` in row-major
order; the numbers stored for `X` are the elements of `X` afterwards too. -/
theorem C36_vec_value (c : MCtx K) {o : ℕ} (hr : 0 < c.E.rows o) (hc : 0 < c.E.cols o) {s : VSt K}
    (hs : VInv c o s) : ∃ s' p m, s.vecX c o = some (s', p) ∧ s'.heap p = some m ∧
      m.rows = c.E.rows o * c.E.cols o ∧ m.cols = 1 ∧
      (∀ i j, i < c.E.rows o → j < c.E.cols o →
        m.get? (i * c.E.cols o + j) 0 = some (c.sc.val (c.E.el o i j))) ∧
      s'.res o = some p ∧ s'.evald o = true ∧ VInv c o s' := by
  obtain ⟨s1, p, m, e1, e2, e3, e4, e5, -⟩ := evalX_spec c hr hc hs
  obtain ⟨m', f1, f2, f3⟩ := Mat.reshape_spec e3 (r' := c.E.rows o * c.E.cols o) (c' := 1)
    (Nat.mul_pos hr hc) one_pos (by ring)
  refine ⟨s1.set p m', p, m', ?_, by simp [VSt.set], f3.rows, f3.cols, ?_, e4, e5, ⟨?_, ?_⟩⟩
  · rw [VSt.vecX, e1, Option.bind_some]
    simp only [e2, Option.bind_some, f1]
    rfl
  · intro i j hi hj
    rw [f3.elem _ 0 (flat_lt hi hj) one_pos, mul_one, add_zero, flatF, flat_div hj, flat_mod hj]
    rfl
  · intro q hq
    rw [show (s1.set p m').res = s1.res from rfl, e4] at hq
    cases hq
    exact ⟨m', by simp [VSt.set], f3.wf⟩
  · intro _
    refine ⟨p, m', e4, by simp [VSt.set], by rw [f3.rows, f3.cols]; ring, fun n hn => ?_⟩
    rw [f2, e3.data hn]
    rfl

/-- **C36 (purity fails).**  Whatever `X` (with more than one column): when `X` is evaluated again
after `vec(X)`, the matrix that `vec(X).eval()` returned is reshaped back to `X`'s shape; and
`vec(X).eval()` had itself reshaped the matrix that an earlier `X.eval()` returned.  The three calls
return the same matrix. -/
theorem C36_view_lost_counterexample (c : MCtx K) {o : ℕ} (hr : 0 < c.E.rows o)
    (hc : 1 < c.E.cols o) {s : VSt K} (hs : VInv c o s) :
    ∃ s1 s2 s3 p m1 m2 m3, s.evalX c o = some (s1, p) ∧ s1.heap p = some m1 ∧
      s1.vecX c o = some (s2, p) ∧ s2.heap p = some m2 ∧
      s2.evalX c o = some (s3, p) ∧ s3.heap p = some m3 ∧
      (m1.rows, m1.cols) = (c.E.rows o, c.E.cols o) ∧
      (m2.rows, m2.cols) = (c.E.rows o * c.E.cols o, 1) ∧
      (m3.rows, m3.cols) = (c.E.rows o, c.E.cols o) ∧
      (m2.rows, m2.cols) ≠ (m1.rows, m1.cols) := by
  have hc' : 0 < c.E.cols o := by omega
  obtain ⟨s1, p, m1, a1, a2, a3, a4, a5, -⟩ := evalX_spec c hr hc' hs
  have i1 : VInv c o s1 := by
    refine ⟨fun q hq => ?_, fun _ => ⟨p, m1, a4, a2, by rw [a3.rows, a3.cols], fun n hn => a3.data hn⟩⟩
    rw [a4] at hq; cases hq; exact ⟨m1, a2, a3.wf⟩
  obtain ⟨s2, p2, m2, b1, b2, b3, b4, -, b5, b6, b7⟩ := C36_vec_value c hr hc' i1
  have hp : p2 = p := by
    obtain ⟨s', p', m', g1, -, -, -, -, g2⟩ := evalX_spec c hr hc' i1
    have hp' := (g2 a5).1
    rw [a4] at hp'; cases hp'
    rw [VSt.vecX, g1, Option.bind_some] at b1
    simp only [Option.bind_eq_some_iff, Option.map_eq_some_iff, Prod.mk.injEq] at b1
    obtain ⟨_, _, _, _, _, h⟩ := b1
    exact h.symm
  subst hp
  obtain ⟨s3, p3, m3, d1, d2, d3, -, -, d4⟩ := evalX_spec c hr hc' b7
  have hp := (d4 b6).1
  rw [b5] at hp; cases hp
  refine ⟨s1, s2, s3, p2, m1, m2, m3, a1, a2, b1, b2, d1, d2, by rw [a3.rows, a3.cols],
    by rw [b3, b4], by rw [d3.rows, d3.cols], ?_⟩
  rw [b3, b4, a3.rows, a3.cols]
  intro h
  have := (Prod.mk.inj h).2
  omega

/-- **Counterexample.**  For the row `X = [1, 2]`, the product `vec(X) * X` (a 2 × 2 matrix) is
refused by the multiplication kernel: the left operand has been reshaped to a row by the evaluation
of the right operand. -/
theorem C36_product_counterexample :
    let E : MEnv ℚ := ⟨fun _ => .var, fun _ => 1, fun _ => 2, fun _ _ j => j, id, ∅, ∅⟩
    let c : MCtx ℚ := ⟨naiveB Sched.seq, Sched.seq, E, ⟨fun h => h + 1, fun _ _ => 0⟩⟩
    let s : VSt ℚ := ⟨fun _ => none, fun _ => none, fun _ => false, 0⟩
    VInv c 0 s ∧ MBin.dimOk .mul (2, 1) (1, 2) = true ∧
      s.mulX c (fun s => s.vecX c 0) (fun s => s.evalX c 0) = none := by
  refine ⟨⟨fun p h => by simp at h, fun h => by simp at h⟩, rfl, ?_⟩
  decide +kernel

/-- **C36 (derivative layout).**  Let `D` be what the operand's `devalF` returns for the view `Y` of
`X` as a `1 × (xr·xc)` row (entry `(l, k·(xr·xc) + (a·xc+b))` is `∂ F(l,k) / ∂ X(a,b)`).  The reshaped
matrix `vec` returns has `∂ vec(F)(l·c+k) / ∂ X(a,b)` at `((l·c+k)·xr + a, b)`, as the layout of
`DevalF` for the `(r·c) × 1` matrix `vec(F)` requires. -/
theorem C36_vec_derivative {D : Mat K} {r c xr xc : ℕ} {T : ℕ → ℕ → ℕ → ℕ → K} {A : ℕ → ℕ → K}
    (hr : 0 < r) (hc : 0 < c) (hxr : 0 < xr) (hxc : 0 < xc)
    (hD : Rep D (r * 1) (c * (xr * xc)) A)
    (hA : ∀ l k a b, l < r → k < c → a < xr → b < xc →
      A (l * 1 + 0) (k * (xr * xc) + (a * xc + b)) = T l k a b) :
    ∃ m, D.reshape (r * c * xr) (1 * xc) = some m ∧ m.rows = r * c * xr ∧ m.cols = xc ∧
      ∀ l k a b, l < r → k < c → a < xr → b < xc →
        m.get? ((l * c + k) * xr + a) b = some (T l k a b) := by
  obtain ⟨m, h1, _, h3⟩ := Mat.reshape_spec hD (r' := r * c * xr) (c' := 1 * xc)
    (Nat.mul_pos (Nat.mul_pos hr hc) hxr) (Nat.mul_pos one_pos hxc) (by ring)
  refine ⟨m, h1, h3.rows, by rw [h3.cols, one_mul], fun l k a b hl hk ha hb => ?_⟩
  rw [h3.elem _ b (flat_lt (flat_lt hl hk) ha) (by omega), one_mul]
  have e : ((l * c + k) * xr + a) * xc + b = l * (c * (xr * xc)) + (k * (xr * xc) + (a * xc + b)) := by
    ring
  have hlt : k * (xr * xc) + (a * xc + b) < c * (xr * xc) := flat_lt hk (flat_lt ha hb)
  rw [e, flatF, flat_div hlt, flat_mod hlt, ← hA l k a b hl hk ha hb]
  simp

/-- The step of `GenericMatVec::traverse` in reverse mode, for the derivative `C` that has been stored for the node:
transpose into `mp_arr[1]`, reshape to the dimensions of the operand; the result is added to what is stored for the
operand.  GenericMatVec.hpp:158-183. -/
def vecRevStep (B : Backend K) (C : Mat K) (buf : Option (Mat K)) (rows cols : ℕ) : Option (Mat K) :=
  (B.transpose C buf).bind fun m => m.reshape rows cols

theorem sum_flatF (c : ℕ) (f : ℕ → K) : ∀ r, ∑ k ∈ range (r * c), f k = ∑ i ∈ range r, ∑ j ∈ range c, f (i * c + j) := by
  intro r
  induction r with
  | zero => simp
  | succ r ih => rw [Nat.succ_mul, Finset.sum_range_add, ih, Finset.sum_range_succ]

/-- **C36 (reverse mode).**  Let `C` be the derivative of some scalar with respect to the `(r·c) × 1` matrix `vec(X)`.
For every sound backend, every content of the buffer and all dimensions, the step of `vec` in reverse mode succeeds and
yields the `r × c` derivative with respect to `X`: it has at `(i, j)` what `C` has at the place of element `(i, j)`, so
that for every change `dX` of `X` the two give the same change of the scalar. -/
theorem C36_vec_adjoint {B : Backend K} {pd : Pads} (hB : B.Sound pd) {C : Mat K} {r c : ℕ} (hr : 0 < r) (hc : 0 < c)
    {A : ℕ → ℕ → K} (hC : Rep C (r * c) 1 A) {buf : Option (Mat K)} (hb : Live buf) :
    ∃ M, vecRevStep B C buf r c = some M ∧ Rep M r c (fun i j => A (i * c + j) 0) ∧
      ∀ dX : ℕ → ℕ → K, ∑ i ∈ range r, ∑ j ∈ range c, A (i * c + j) 0 * dX i j =
        ∑ k ∈ range (r * c), A k 0 * flatF c dX k := by
  obtain ⟨T, hT, rT⟩ := hB.transpose hb hC
  obtain ⟨M, hM, -, rM⟩ := Mat.reshape_spec rT (r' := r) (c' := c) hr hc (by ring)
  refine ⟨M, by rw [vecRevStep, hT, Option.bind_some, hM], ?_, fun dX => ?_⟩
  · refine ⟨hr, hc, rM.rows, rM.cols, rM.len, fun i j hi hj => ?_⟩
    rw [rM.elem i j hi hj, flatF, Nat.mod_eq_of_lt (flat_lt hi hj), Nat.div_eq_of_lt (flat_lt hi hj)]
  · rw [sum_flatF]
    refine Finset.sum_congr rfl fun i _ => Finset.sum_congr rfl fun j hj => ?_
    rw [flatF, flat_div (Finset.mem_range.1 hj), flat_mod (Finset.mem_range.1 hj)]

/-- A 2 × 3 operand, on the naive handlers, with a buffer left over from an earlier query. -/
example : vecRevStep (naiveB Sched.seq) (⟨6, 1, [1, 2, 3, 4, 5, 6]⟩ : Mat ℚ) (some ⟨1, 1, [7]⟩) 2 3 =
    some ⟨2, 3, [1, 2, 3, 4, 5, 6]⟩ := by decide +kernel

/-! ## C37: copies -/

/-- The run-time state of a copy (`Matrix(const Matrix&)`): `m_eval`, `m_devalf` and `m_cache` are
copied; `mp_result`, `mp_dresult` and `m_visited` are not, they start as for a new matrix.
MatrixConstructors.ipp:122-144, Matrix.hpp:124. -/
def copyObj (v : MObj K) : MObj K :=
  { evald := v.evald, devald := v.devald, cache := v.cache }

/-- State after `Matrix<T> p(o)`, for matrices with elements (number, parameter, variable). -/
def copyM (s : MSt K) (o p : ℕ) : MSt K := s.setO p (copyObj (s.obj o))

theorem matEval_leaf (c : MCtx K) {f p : ℕ} (hp : ¬c.E.isForm p) {s : MSt K}
    (hv : (s.obj p).visited = false) :
    matEval c (f + 1) (.obj p) s =
      (leafEval c p { s.obj p with visited := false, cache := [] }).map fun r =>
        (s.setO p { s.obj p with result := some r, evald := true, visited := true, cache := [] }, r) := by
  have h1 : mresetO c.E (f + 1) p s = some (s.setO p { s.obj p with visited := false, cache := [] }) := by
    simp [mresetO, hv]
  have h2 : ∀ s : MSt K, mevalO c (f + 1) p s = (do
      let r ← leafEval c p (s.obj p)
      let s := s.setO p { s.obj p with result := some r, evald := true, visited := true }
      some (s, r)) := by
    intro s
    rcases h : c.E.kind p with _ | _ | _ | _ | ⟨n, e, eye⟩
    · simp only [mevalO, h]
    · simp only [mevalO, h]
    · simp only [mevalO, h]
    · simp only [mevalO, h]
    · exact absurd ⟨n, e, eye, h⟩ hp
  simp only [matEval, mresetE, evalE, h1, Option.bind_eq_bind, Option.bind_some, h2, setO_same]
  cases leafEval c p { s.obj p with visited := false, cache := [] } with
  | none => rfl
  | some r =>
    simp only [Option.bind_some, Option.map_some]
    congr 2
    simp [MSt.setO, Function.update_idem]

/-- **C37 (copy before evaluation).**  A copy of a matrix that has not been evaluated since its last
reset evaluates to the values of its elements. -/
theorem C37_copy_unevaluated_partial (c : MCtx K) {o p f : ℕ} (hp : ¬c.E.isForm p)
    (hr : 0 < c.E.rows p) (hc : 0 < c.E.cols p) {s : MSt K} (ho : (s.obj o).evald = false) :
    ∃ s' m, matEval c (f + 1) (.obj p) (copyM s o p) = some (s', m) ∧
      m.rows = c.E.rows p ∧ m.cols = c.E.cols p ∧
      ∀ i j, i < c.E.rows p → j < c.E.cols p → m.get? i j = some (c.sc.val (c.E.el p i j)) := by
  rw [matEval_leaf c hp (by simp [copyM, copyObj])]
  obtain ⟨q, hq, rq⟩ := Mat.new_spec (K := K) hr hc
  obtain ⟨m, h1, h2⟩ := rawFill (g := fun i j => c.sc.val (c.E.el p i j)) rq.wf rq.rows rq.cols
  have : leafEval c p { (copyM s o p).obj p with visited := false, cache := [] } = some m := by
    simp only [leafEval, copyM, setO_same, copyObj, ho, Mat.pool, hq, Option.bind_some]
    exact h1
  rw [this]
  exact ⟨_, m, rfl, h2.rows, h2.cols, h2.elem⟩

/-- **C37 fails: copy after evaluation.**  A copy of a matrix that was evaluated before (by itself or
as part of a formula) evaluates to the zero matrix, whatever its elements are.  (The copy keeps the
flag "already evaluated" but not the result.)  Only the next query resets the flag. -/
theorem C37_copy_evaluated_counterexample (c : MCtx K) {o p f : ℕ} (hp : ¬c.E.isForm p)
    (hr : 0 < c.E.rows p) (hc : 0 < c.E.cols p) {s : MSt K} (ho : (s.obj o).evald = true) :
    ∃ s' m, matEval c (f + 1) (.obj p) (copyM s o p) = some (s', m) ∧
      m.rows = c.E.rows p ∧ m.cols = c.E.cols p ∧
      (∀ i j, i < c.E.rows p → j < c.E.cols p → m.get? i j = some 0) ∧
      ∃ s'' m', matEval c (f + 1) (.obj p) s' = some (s'', m') ∧
        ∀ i j, i < c.E.rows p → j < c.E.cols p → m'.get? i j = some (c.sc.val (c.E.el p i j)) := by
  rw [matEval_leaf c hp (by simp [copyM, copyObj])]
  obtain ⟨q, hq, rq⟩ := Mat.new_spec (K := K) hr hc
  have : leafEval c p { (copyM s o p).obj p with visited := false, cache := [] } = some q := by
    simp only [leafEval, copyM, setO_same, copyObj, ho, Mat.pool, hq, Option.bind_some, if_true]
  rw [this]
  refine ⟨_, q, rfl, rq.rows, rq.cols, rq.elem, ?_⟩
  set s' := (copyM s o p).setO p { (copyM s o p).obj p with
    result := some q, evald := true, visited := true, cache := [] } with hs'
  obtain ⟨m, h1, h2⟩ := rawFill (g := fun i j => c.sc.val (c.E.el p i j)) rq.wf rq.rows rq.cols
  have e1 : mresetO c.E (f + 1) p s' = some (s'.setO p { s'.obj p with
      visited := false, evald := false, devald := false, cache := [] }) := by
    have hv : (s'.obj p).visited = true := by simp [hs']
    have hi : ∀ t, mresetItem c.E (mresetO c.E f) p t = some t := by
      intro t
      rcases h : c.E.kind p with _ | _ | _ | _ | ⟨n, e, eye⟩
      · simp only [mresetItem, h]
      · simp only [mresetItem, h]
      · simp only [mresetItem, h]
      · simp only [mresetItem, h]
      · exact absurd ⟨n, e, eye, h⟩ hp
    simp only [mresetO, hv, if_true, hi, Option.bind_some, setO_same]
    simp [MSt.setO, Function.update_idem]
  have e2 : matEval c (f + 1) (.obj p) s' = mevalO c (f + 1) p (s'.setO p { s'.obj p with
      visited := false, evald := false, devald := false, cache := [] }) := by
    simp only [matEval, mresetE, evalE, e1, Option.bind_eq_bind, Option.bind_some]
  have e3 : leafEval c p ((s'.setO p { s'.obj p with
      visited := false, evald := false, devald := false, cache := [] }).obj p) = some m := by
    have hres : (s'.obj p).result = some q := by simp [hs']
    simp only [leafEval, setO_same, hres, Mat.pool_self rq.rows rq.cols, Option.bind_some]
    exact h1
  refine ⟨(s'.setO p { s'.obj p with
      visited := false, evald := false, devald := false, cache := [] }).setO p
      { (s'.setO p { s'.obj p with
          visited := false, evald := false, devald := false, cache := [] }).obj p with
          result := some m, evald := true, visited := true }, m, ?_, h2.elem⟩
  · rw [e2]
    rcases h : c.E.kind p with _ | _ | _ | _ | ⟨n, e, eye⟩
    · simp only [mevalO, h, e3, Option.bind_eq_bind, Option.bind_some]
    · simp only [mevalO, h, e3, Option.bind_eq_bind, Option.bind_some]
    · simp only [mevalO, h, e3, Option.bind_eq_bind, Option.bind_some]
    · simp only [mevalO, h, e3, Option.bind_eq_bind, Option.bind_some]
    · exact absurd ⟨n, e, eye, h⟩ hp

/-- The hypotheses are met: in the example program, copy the 2 × 2 variable matrix `X` (object 0) to
object 7 before and after evaluating it. -/
example : ∃ s : MSt ℝ, (∃ m, matEval ⟨naiveB Sched.seq, Sched.seq, MExample.E ℝ,
      ⟨MExample.sv 1, MExample.der⟩⟩ 3 (.obj 0) MSt.fresh = some (s, m)) ∧
    (s.obj 0).evald = true ∧ ((MSt.fresh : MSt ℝ).obj 0).evald = false ∧
    ¬(MExample.E ℝ).isForm 7 := by
  have h0 : ¬(MExample.E ℝ).isForm 0 := by rintro ⟨n, e, eye, h⟩; cases h
  have h7 : ¬(MExample.E ℝ).isForm 7 := by rintro ⟨n, e, eye, h⟩; cases h
  obtain ⟨q, hq, rq⟩ := Mat.new_spec (K := ℝ) (r := 2) (c := 2) two_pos two_pos
  obtain ⟨m, h1, _⟩ := rawFill (g := fun i j => MExample.sv 1 ((MExample.E ℝ).el 0 i j)) rq.wf rq.rows
    rq.cols
  refine ⟨MSt.fresh.setO 0 { MSt.fresh.obj 0 with
      result := some m, evald := true, visited := true, cache := [] }, ⟨m, ?_⟩, ?_, rfl, h7⟩
  · rw [matEval_leaf _ h0 rfl]
    have : leafEval ⟨naiveB Sched.seq, Sched.seq, MExample.E ℝ, ⟨MExample.sv 1, MExample.der⟩⟩ 0
        { (MSt.fresh : MSt ℝ).obj 0 with visited := false, cache := [] } = some m := by
      have : Mat.pool (none : Option (Mat ℝ)) ((MExample.E ℝ).rows 0) ((MExample.E ℝ).cols 0) = some q := hq
      simp only [leafEval, MSt.fresh, this, Option.bind_some]
      exact h1
    rw [this]; rfl
  · simp

end CoolDiff
