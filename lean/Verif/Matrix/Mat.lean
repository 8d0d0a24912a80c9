import Mathlib.Algebra.Field.Defs
import Mathlib.Algebra.BigOperators.Group.Finset.Basic
import Mathlib.Algebra.BigOperators.Ring.Finset
import Mathlib.Data.List.Perm.Basic
import Mathlib.Tactic.Ring
import Mathlib.Tactic.Linarith

/-!
# Numerical matrices: storage, element access, buffers and loops

`Mat K` models `Matrix<Type>` seen as a numerical buffer: the two dimensions `m_rows`, `m_cols`
and the row-major buffer behind `getMatrixPtr()`.  Every access of the C++ code goes through a
bounds-checked `Option` operation: `none` stands for a failed `ASSERT` or an access outside the
buffer, so "the result is `some`" includes "no access outside a buffer".

Simplifications: `size_t` is `ℕ` (no wrap-around, except where a subtraction can underflow: there
the code's expression is kept and discussed), `Type` is a field `K`, the allocator strategy string
is dropped (CPU memory only).
-/

set_option linter.unusedSectionVars false

namespace CoolDiff

/-- `Matrix<Type>` as a buffer.  include/Matrix/Matrix.hpp:104-122 (`m_rows`, `m_cols`,
`mp_allocator`), CPUMemoryStrategy.hpp:27-40. -/
structure Mat (K : Type) where
  rows : ℕ
  cols : ℕ
  data : List K
deriving DecidableEq

namespace Mat
variable {K : Type} [Field K]

/-- A live matrix: both dimensions are positive (asserted by the constructors,
MatrixConstructors.ipp:81) and the buffer has exactly `m_rows * m_cols` elements (established by
`allocator()`, MatrixAccessors.ipp:27-33). -/
structure WF (m : Mat K) : Prop where
  rpos : 0 < m.rows
  cpos : 0 < m.cols
  len : m.data.length = m.rows * m.cols

/-- `operator()(i,j) const`: two asserts, then `getMatrixPtr()[i*m_cols+j]`.
MatrixAccessors.ipp:108-113. -/
def get? (m : Mat K) (i j : ℕ) : Option K :=
  if i < m.rows ∧ j < m.cols then m.data[i * m.cols + j]? else none

/-- Assignment through `operator()(i,j)`.  MatrixAccessors.ipp:116-121. -/
def put? (m : Mat K) (i j : ℕ) (v : K) : Option (Mat K) :=
  if i < m.rows ∧ j < m.cols ∧ i * m.cols + j < m.data.length then
    some { m with data := m.data.set (i * m.cols + j) v }
  else none

/-- `operator[](l) const`: assert `l < getNumElem()`.  MatrixAccessors.ipp:124-128. -/
def flat? (m : Mat K) (l : ℕ) : Option K :=
  if l < m.rows * m.cols then m.data[l]? else none

/-- Reading through the raw pointer `getMatrixPtr()[l]` (no assert in the code; outside the buffer
it is undefined behaviour, here `none`).  MatrixAccessors.ipp:51-58. -/
def raw? (m : Mat K) (l : ℕ) : Option K := m.data[l]?

/-- Writing through the raw pointer (outside the buffer: undefined behaviour, here `none`).
MatrixAccessors.ipp:70-77. -/
def rawPut? (m : Mat K) (l : ℕ) (v : K) : Option (Mat K) :=
  if l < m.data.length then some { m with data := m.data.set l v } else none

/-- `Matrix(rows, cols, alloc)`: asserts both dimensions positive, allocates `new T[N]{}` (zero
initialised).  MatrixConstructors.ipp:70-84, CPUMemoryStrategy.hpp:36-40. -/
def new (r c : ℕ) : Option (Mat K) :=
  if 0 < r ∧ 0 < c then some ⟨r, c, List.replicate (r * c) 0⟩ else none

/-- `Matrix(rows, cols, val, alloc)`: as above, then `std::fill` with `val`.
MatrixConstructors.ipp:64-67. -/
def newFill (r c : ℕ) (v : K) : Option (Mat K) :=
  if 0 < r ∧ 0 < c then some ⟨r, c, List.replicate (r * c) v⟩ else none

/-- `reshape`: asserts the same number of elements.  MatrixUtils.ipp:218-222. -/
def reshape (m : Mat K) (r c : ℕ) : Option (Mat K) :=
  if r * c = m.rows * m.cols then some { m with rows := r, cols := c } else none

/-- `MemoryManager::MatrixPool(result, rows, cols, ...)`; `none` = `nullptr`.
MemoryManager.hpp:52-71.  The first `else if` of the code subsumes the case of equal dimensions, so
its last branch is unreachable; it is kept here. -/
def pool (result : Option (Mat K)) (r c : ℕ) : Option (Mat K) :=
  match result with
  | none => new r c
  | some m =>
    if r * c = m.rows * m.cols then m.reshape r c
    else if r ≠ m.rows ∨ c ≠ m.cols then new r c
    else some m

/-- `MatrixPool(result, n, m, alloc, (Type)1)` from `nullptr`, as used by `Ones`.
MatrixBasics.cpp:108. -/
def poolFill (r c : ℕ) (v : K) : Option (Mat K) := newFill r c v

/-- `ResetZero`.  MetaMatrix.cpp:29-40. -/
def resetZero (m : Mat K) : Mat K := { m with data := m.data.map fun _ => 0 }

end Mat

/-- An execution order for the (possibly parallel) algorithms of the standard library: the
iterations of a `std::for_each`/`std::transform` with `EXECUTION_PAR` run in an arbitrary order
(CommonHeader.hpp:50-57); nested parallel loops are flattened to one list of pairs, so iterations of
different outer steps may interleave. -/
structure Sched where
  run : (α : Type) → List α → List α
  perm : ∀ α l, (run α l).Perm l

/-- Sequential execution (`EXECUTION_SEQ`, or the build without `USE_CXX_PARALLEL_POLICY`). -/
def Sched.seq : Sched := ⟨fun _ l => l, fun _ _ => List.Perm.refl _⟩

/-- Last iteration first: another legal order. -/
def Sched.rev : Sched := ⟨fun _ l => l.reverse, fun _ l => List.reverse_perm l⟩

theorem Sched.mem (π : Sched) {α : Type} {l : List α} {a : α} : a ∈ π.run α l ↔ a ∈ l :=
  (π.perm α l).mem_iff

theorem Sched.nodup (π : Sched) {α : Type} {l : List α} (h : l.Nodup) : (π.run α l).Nodup :=
  (π.perm α l).nodup_iff.2 h

/-- `std::for_each` over a list of iterations, each of which updates the result matrix. -/
def forEach {K ι : Type} (idx : List ι) (body : ι → Mat K → Option (Mat K)) (m : Mat K) :
    Option (Mat K) :=
  idx.foldlM (fun m n => body n m) m

/-- All pairs `(a,b)`, `a < n`, `b < m`, in the order of two nested loops. -/
def pairs (n m : ℕ) : List (ℕ × ℕ) :=
  (List.range n).flatMap fun a => (List.range m).map fun b => (a, b)

@[simp] theorem mem_pairs {n m : ℕ} {p : ℕ × ℕ} : p ∈ pairs n m ↔ p.1 < n ∧ p.2 < m := by
  rcases p with ⟨a, b⟩
  simp only [pairs, List.mem_flatMap, List.mem_range, List.mem_map, Prod.mk.injEq]
  constructor
  · rintro ⟨a', ha, b', hb, rfl, rfl⟩; exact ⟨ha, hb⟩
  · rintro ⟨ha, hb⟩; exact ⟨a, ha, b, hb, rfl, rfl⟩

/-- What a matrix buffer holds: it is `r × c`, its buffer has `r*c` cells, and element `(i,j)`
is `A i j`.  (`A` outside `i < r, j < c` is irrelevant.) -/
structure Rep {K : Type} [Field K] (m : Mat K) (r c : ℕ) (A : ℕ → ℕ → K) : Prop where
  rpos : 0 < r
  cpos : 0 < c
  rows : m.rows = r
  cols : m.cols = c
  len : m.data.length = r * c
  elem : ∀ i j, i < r → j < c → m.get? i j = some (A i j)

section basic
variable {K : Type} [Field K]

theorem Rep.wf {m : Mat K} {r c A} (h : Rep m r c A) : m.WF := by
  exact ⟨by rw [h.rows]; exact h.rpos, by rw [h.cols]; exact h.cpos,
    by rw [h.len, h.rows, h.cols]⟩

theorem Rep.congr {m : Mat K} {r c} {A B : ℕ → ℕ → K} (h : Rep m r c A)
    (hAB : ∀ i j, i < r → j < c → A i j = B i j) : Rep m r c B :=
  ⟨h.rpos, h.cpos, h.rows, h.cols, h.len, fun i j hi hj => by rw [h.elem i j hi hj, hAB i j hi hj]⟩

theorem flat_lt {i j r c : ℕ} (hi : i < r) (hj : j < c) : i * c + j < r * c := by
  calc i * c + j < i * c + c := by omega
    _ = (i + 1) * c := by ring
    _ ≤ r * c := Nat.mul_le_mul_right _ hi

theorem flat_inj {i j i' j' c : ℕ} (hj : j < c) (hj' : j' < c)
    (h : i * c + j = i' * c + j') : i = i' ∧ j = j' := by
  have hc : 0 < c := by omega
  have h1 : (i * c + j) / c = i := by
    rw [Nat.mul_comm, Nat.mul_add_div hc, Nat.div_eq_of_lt hj, Nat.add_zero]
  have h2 : (i' * c + j') / c = i' := by
    rw [Nat.mul_comm, Nat.mul_add_div hc, Nat.div_eq_of_lt hj', Nat.add_zero]
  have : i = i' := by rw [← h1, ← h2, h]
  subst this; exact ⟨rfl, by omega⟩

theorem flat_div {i j c : ℕ} (hj : j < c) : (i * c + j) / c = i := by
  have hc : 0 < c := by omega
  rw [Nat.mul_comm, Nat.mul_add_div hc, Nat.div_eq_of_lt hj, Nat.add_zero]

theorem flat_mod {i j c : ℕ} (hj : j < c) : (i * c + j) % c = j := by
  rw [Nat.mul_comm, Nat.mul_add_mod, Nat.mod_eq_of_lt hj]

/-- Row index computed by the code, `(n - n % c) / c`. -/
theorem row_eq (n c : ℕ) : (n - n % c) / c = n / c := (Nat.div_eq_sub_mod_div).symm

theorem div_lt_of_lt_mul' {n r c : ℕ} (h : n < r * c) : n / c < r := by
  rw [Nat.mul_comm] at h; exact Nat.div_lt_of_lt_mul h

theorem mod_lt_of_lt_mul {n r c : ℕ} (h : n < r * c) : n % c < c := by
  apply Nat.mod_lt
  rcases Nat.eq_zero_or_pos c with rfl | h'
  · simp at h
  · exact h'

theorem div_mul_mod (n c : ℕ) : n / c * c + n % c = n := by
  rw [Nat.mul_comm]; exact Nat.div_add_mod n c

namespace Mat

theorem get?_eq {m : Mat K} (_h : m.WF) {i j : ℕ} (hi : i < m.rows) (hj : j < m.cols) :
    m.get? i j = m.data[i * m.cols + j]? := by
  rw [get?, if_pos ⟨hi, hj⟩]

theorem get?_isSome {m : Mat K} (h : m.WF) {i j : ℕ} (hi : i < m.rows) (hj : j < m.cols) :
    ∃ v, m.get? i j = some v := by
  rw [get?_eq h hi hj]
  have : i * m.cols + j < m.data.length := by rw [h.len]; exact flat_lt hi hj
  exact ⟨_, List.getElem?_eq_getElem this⟩

/-- The matrix a well-formed buffer holds. -/
noncomputable def val (m : Mat K) (i j : ℕ) : K := (m.get? i j).getD 0

theorem WF.rep {m : Mat K} (h : m.WF) : Rep m m.rows m.cols m.val :=
  ⟨h.rpos, h.cpos, rfl, rfl, h.len, fun i j hi hj => by
    obtain ⟨v, hv⟩ := get?_isSome h hi hj
    rw [val, hv]; rfl⟩

theorem put?_spec {m : Mat K} (h : m.WF) {i j : ℕ} (hi : i < m.rows) (hj : j < m.cols) (v : K) :
    ∃ m', m.put? i j v = some m' ∧ m'.rows = m.rows ∧ m'.cols = m.cols ∧ m'.WF ∧
      ∀ i' j', m'.get? i' j' = if i' = i ∧ j' = j then some v else m.get? i' j' := by
  have hl : i * m.cols + j < m.data.length := by rw [h.len]; exact flat_lt hi hj
  refine ⟨{ m with data := m.data.set (i * m.cols + j) v }, by rw [put?, if_pos ⟨hi, hj, hl⟩],
    rfl, rfl, ⟨h.rpos, h.cpos, by simp only [List.length_set]; exact h.len⟩, ?_⟩
  intro i' j'
  simp only [get?]
  by_cases hb : i' < m.rows ∧ j' < m.cols
  · rw [if_pos hb, if_pos hb, List.getElem?_set]
    by_cases he : i * m.cols + j = i' * m.cols + j'
    · obtain ⟨h1, h2⟩ := flat_inj hj hb.2 he
      subst h1; subst h2
      simp [hl]
    · have : ¬(i' = i ∧ j' = j) := by rintro ⟨rfl, rfl⟩; exact he rfl
      rw [if_neg this, if_neg he]
  · have : ¬(i' = i ∧ j' = j) := by rintro ⟨rfl, rfl⟩; exact hb ⟨hi, hj⟩
    rw [if_neg hb, if_neg hb, if_neg this]

end Mat

/-- **Fill loop.** If every iteration writes one in-bounds element, the loop succeeds in every
order; every written element holds the written value (when all iterations writing it agree) and
every other element is unchanged. -/
theorem forEach_put {ι : Type} (r c : ι → ℕ) (v : ι → K) (body : ι → Mat K → Option (Mat K)) :
    ∀ (idx : List ι) (m : Mat K), m.WF →
      (∀ n ∈ idx, ∀ m' : Mat K, m'.rows = m.rows → m'.cols = m.cols →
        body n m' = m'.put? (r n) (c n) (v n)) →
      (∀ n ∈ idx, r n < m.rows) → (∀ n ∈ idx, c n < m.cols) →
      ∃ m', forEach idx body m = some m' ∧ m'.rows = m.rows ∧ m'.cols = m.cols ∧ m'.WF ∧
        (∀ i j, (∀ n ∈ idx, ¬(r n = i ∧ c n = j)) → m'.get? i j = m.get? i j) ∧
        (∀ n ∈ idx, (∀ n' ∈ idx, r n' = r n → c n' = c n → v n' = v n) →
          m'.get? (r n) (c n) = some (v n)) := by
  intro idx
  induction idx with
  | nil =>
    intro m hwf _ _ _
    exact ⟨m, rfl, rfl, rfl, hwf, fun _ _ _ => rfl, fun n hn => absurd hn (List.not_mem_nil)⟩
  | cons a l ih =>
    intro m hwf hb hr hc
    obtain ⟨m1, h1, hr1, hc1, hwf1, hg1⟩ :=
      Mat.put?_spec hwf (hr a (by simp)) (hc a (by simp)) (v a)
    obtain ⟨m2, h2, hr2, hc2, hwf2, hu2, hw2⟩ := ih m1 hwf1
      (fun n hn m' e1 e2 => hb n (List.mem_cons_of_mem _ hn) m' (e1.trans hr1) (e2.trans hc1))
      (fun n hn => by rw [hr1]; exact hr n (List.mem_cons_of_mem _ hn))
      (fun n hn => by rw [hc1]; exact hc n (List.mem_cons_of_mem _ hn))
    refine ⟨m2, ?_, hr2.trans hr1, hc2.trans hc1, hwf2, ?_, ?_⟩
    · rw [forEach, List.foldlM_cons, hb a (by simp) m rfl rfl, h1]; exact h2
    · intro i j hn
      rw [hu2 i j (fun n hn' => hn n (List.mem_cons_of_mem _ hn')), hg1]
      rw [if_neg]; rintro ⟨rfl, rfl⟩; exact hn a (by simp) ⟨rfl, rfl⟩
    · intro n hn hag
      by_cases hex : ∃ n' ∈ l, r n' = r n ∧ c n' = c n
      · obtain ⟨n', hn', e1, e2⟩ := hex
        have hv : v n' = v n := hag n' (List.mem_cons_of_mem _ hn') e1 e2
        rw [← e1, ← e2, ← hv]
        apply hw2 n' hn'
        intro n'' hn'' e1' e2'
        rw [hv]
        exact hag n'' (List.mem_cons_of_mem _ hn'') (e1'.trans e1) (e2'.trans e2)
      · have hna : n = a := by
          rcases List.mem_cons.1 hn with h | h
          · exact h
          · exact absurd ⟨n, h, rfl, rfl⟩ hex
        subst hna
        rw [hu2 (r n) (c n) (fun n' hn' h => hex ⟨n', hn', h⟩), hg1, if_pos ⟨rfl, rfl⟩]

/-- A fill loop that reaches every element of the matrix produces the wanted matrix, whatever the
matrix held before. -/
theorem forEach_rep {ι : Type} (r c : ι → ℕ) (v : ι → K) (body : ι → Mat K → Option (Mat K))
    (A : ℕ → ℕ → K) (idx : List ι) (m : Mat K) (hwf : m.WF)
    (hb : ∀ n ∈ idx, ∀ m' : Mat K, m'.rows = m.rows → m'.cols = m.cols →
        body n m' = m'.put? (r n) (c n) (v n))
    (hr : ∀ n ∈ idx, r n < m.rows) (hc : ∀ n ∈ idx, c n < m.cols)
    (hv : ∀ n ∈ idx, v n = A (r n) (c n))
    (hcov : ∀ i j, i < m.rows → j < m.cols → (∃ n ∈ idx, r n = i ∧ c n = j) ∨
      m.get? i j = some (A i j)) :
    ∃ m', forEach idx body m = some m' ∧ Rep m' m.rows m.cols A := by
  obtain ⟨m', h, h1, h2, h3, h4, h5⟩ := forEach_put r c v body idx m hwf hb hr hc
  refine ⟨m', h, hwf.rpos, hwf.cpos, h1, h2, by rw [h3.len, h1, h2], ?_⟩
  intro i j hi hj
  by_cases hex : ∃ n ∈ idx, r n = i ∧ c n = j
  · obtain ⟨n, hn, rfl, rfl⟩ := hex
    rw [h5 n hn, hv n hn]
    intro n' hn' e1 e2
    rw [hv n' hn', hv n hn, e1, e2]
  · rcases hcov i j hi hj with h6 | h6
    · exact absurd h6 hex
    · rw [h4 i j (fun n hn h7 => hex ⟨n, hn, h7⟩), h6]

end basic

end CoolDiff
