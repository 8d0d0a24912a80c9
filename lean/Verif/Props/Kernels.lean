import Verif.Matrix.Backend

/-!
# Properties of the numerical matrix kernels (C23 – C28, C31 – C33, C41)

The specification of a result is `Rep M r c A`: "`M` is an `r × c` matrix, its buffer has `r*c`
cells and `M(i,j) = A i j` for all `i < r`, `j < c`" (Matrix/Mat.lean).  All theorems hold for every
execution order `π` of the parallel loops and every old contents `b` of the result buffer
(`Live b`: the buffer, when there is one, is a properly allocated matrix).
-/

set_option linter.unusedSectionVars false

namespace CoolDiff

open Finset

variable {K : Type} [Field K] [DecidableEq K]

/-! ## C23: element addressing -/

/-- **C23.** In a live `r × c` matrix: every `A(i,j)` with `i < r`, `j < c` is a cell of the buffer;
distinct index pairs use distinct cells; every cell of the buffer is some `A(i,j)`; `A(i,j)` and
`A[i*c+j]` are the same element; and an index outside the shape is rejected. -/
theorem C23_addressing {m : Mat K} (h : m.WF) :
    (∀ i j, i < m.rows → j < m.cols → i * m.cols + j < m.data.length ∧
      ∃ v, m.get? i j = some v ∧ m.data[i * m.cols + j]? = some v ∧
        m.flat? (i * m.cols + j) = some v) ∧
    (∀ i j i' j', i < m.rows → j < m.cols → i' < m.rows → j' < m.cols →
      i * m.cols + j = i' * m.cols + j' → i = i' ∧ j = j') ∧
    (∀ l, l < m.data.length → ∃ i j, i < m.rows ∧ j < m.cols ∧ i * m.cols + j = l) ∧
    (∀ i j, ¬(i < m.rows ∧ j < m.cols) → m.get? i j = none ∧ ∀ v, m.put? i j v = none) ∧
    (∀ l, ¬l < m.data.length → m.flat? l = none) := by
  refine ⟨fun i j hi hj => ?_, fun i j i' j' _ hj _ hj' e => flat_inj hj hj' e, fun l hl => ?_,
    fun i j hn => ⟨by rw [Mat.get?, if_neg hn], fun v => ?_⟩, fun l hl => ?_⟩
  · have hl : i * m.cols + j < m.data.length := by rw [h.len]; exact flat_lt hi hj
    refine ⟨hl, m.data[i * m.cols + j], ?_, List.getElem?_eq_getElem hl, ?_⟩
    · rw [Mat.get?_eq h hi hj]; exact List.getElem?_eq_getElem hl
    · rw [Mat.flat?, if_pos (flat_lt hi hj)]; exact List.getElem?_eq_getElem hl
  · rw [h.len] at hl
    exact ⟨l / m.cols, l % m.cols, div_lt_of_lt_mul' hl, mod_lt_of_lt_mul hl, div_mul_mod l _⟩
  · rw [Mat.put?, if_neg fun e => hn ⟨e.1, e.2.1⟩]
  · rw [h.len] at hl; rw [Mat.flat?, if_neg hl]

/-- **C23, writing.** Assigning `A(i,j) = v` makes `A(i,j)` read `v`, changes no other element and
keeps the shape. -/
theorem C23_write {m : Mat K} (h : m.WF) {i j : ℕ} (hi : i < m.rows) (hj : j < m.cols) (v : K) :
    ∃ m', m.put? i j v = some m' ∧ m'.rows = m.rows ∧ m'.cols = m.cols ∧ m'.WF ∧
      m'.get? i j = some v ∧ ∀ i' j', ¬(i' = i ∧ j' = j) → m'.get? i' j' = m.get? i' j' := by
  obtain ⟨m', h1, h2, h3, h4, h5⟩ := Mat.put?_spec h hi hj v
  exact ⟨m', h1, h2, h3, h4, by rw [h5, if_pos ⟨rfl, rfl⟩], fun i' j' hn => by rw [h5, if_neg hn]⟩

/-- The hypothesis is met by a `2 × 3` matrix. -/
example : (⟨2, 3, [1, 2, 3, 4, 5, 6]⟩ : Mat ℚ).WF := ⟨by decide, by decide, rfl⟩

/-! ## C24: element-wise kernels -/

/-- **C24.** On CPU operands, with either handler, for every execution order, every old contents of
the result buffer, and also when an operand *is* the result matrix: `+`, `-`, Hadamard `^`, scalar
`+`, scalar `*` and unary maps succeed (no access outside a buffer), have the operands' shape, and
hold at `(i,j)` the scalar operation of the elements at `(i,j)`. -/
theorem C24_elementwise {g : Cfg} (hg : g.CPU) (π : Sched) {b : Option (Mat K)} (hb : Live b)
    {l r : Src K} {L R : Mat K} {m n : ℕ} {A C : ℕ → ℕ → K} (hl : l.mat? b = some L)
    (hL : Rep L m n A) (hr : r.mat? b = some R) (hR : Rep R m n C) :
    (∃ M, (backend g π).add l r b = some M ∧ Rep M m n fun i j => A i j + C i j) ∧
    (∃ M, (backend g π).sub l r b = some M ∧ Rep M m n fun i j => A i j - C i j) ∧
    (∃ M, (backend g π).hadamard l r b = some M ∧ Rep M m n fun i j => A i j * C i j) ∧
    (∀ c, ∃ M, (backend g π).scalarAdd c r b = some M ∧ Rep M m n fun i j => c + C i j) ∧
    (∀ c, ∃ M, (backend g π).scalarMul c r b = some M ∧ Rep M m n fun i j => c * C i j) ∧
    (∀ f, ∃ M, (backend g π).unary f r b = some M ∧ Rep M m n fun i j => f (C i j)) :=
  have S := backend_sound0 (K := K) hg π
  ⟨S.add hb hl hL hr hR, S.sub hb hl hL hr hR, S.hadamard hb hl hL hr hR,
    fun c => S.scalarAdd c hb hr hR, fun c => S.scalarMul c hb hr hR, fun f => S.unary f hb hr hR⟩

/-- **C24, shapes.** Operands of different shapes are rejected by every element-wise operation. -/
theorem C24_mismatch {g : Cfg} (hg : g.CPU) (π : Sched) (b : Option (Mat K)) (L R : Mat K)
    (h : ¬(L.rows = R.rows ∧ L.cols = R.cols)) :
    (backend g π).add (.ext L) (.ext R) b = none ∧ (backend g π).sub (.ext L) (.ext R) b = none ∧
      (backend g π).hadamard (.ext L) (.ext R) b = none := by
  have h' : ¬(L.rows = R.rows ∧ R.cols = L.cols) := fun e => h ⟨e.1, e.2.symm⟩
  simp only [backend, pick_cpu hg (op := .add) (Or.inl rfl), pick_cpu hg (op := .sub) (Or.inl rfl),
    pick_cpu hg (op := .hadamard) (Or.inl rfl), Eig.add, Eig.sub, Eig.hadamard, Naive.add,
    Naive.sub, Naive.hadamard, elementwise2, Eig.elementwise2, Src.mat?, Option.bind_eq_bind,
    Option.bind_some, if_neg h', ite_self, and_self]

/-- The hypotheses of `C24_elementwise` are met with the left operand aliasing the result, as in
`MATRIX_ADD(c, x, c)` of the reverse pass. -/
example : ∃ (b : Option (Mat ℚ)) (L R : Mat ℚ) (A C : ℕ → ℕ → ℚ),
    Live b ∧ Src.self.mat? b = some L ∧ Rep L 2 2 A ∧ (Src.ext R).mat? b = some R ∧ Rep R 2 2 C :=
  have h : (⟨2, 2, [1, 2, 3, 4]⟩ : Mat ℚ).WF := ⟨by decide, by decide, rfl⟩
  ⟨_, _, _, _, _, Live.some h, rfl, h.rep, rfl, h.rep⟩

/-! ## C25: matrix product -/

/-- **C25.** The product of an `m × k` and a `k × n` matrix is the `m × n` matrix with entries
`∑ t < k, A i t * C t j`: both handlers, every execution order, every old result buffer. -/
theorem C25_product {g : Cfg} (hg : g.CPU) (π : Sched) {b : Option (Mat K)} (hb : Live b)
    {L R : Mat K} {m k n : ℕ} {A C : ℕ → ℕ → K} (hL : Rep L m k A) (hR : Rep R k n C) :
    ∃ M, (backend g π).mul L R b = some M ∧
      Rep M m n fun i j => ∑ t ∈ range k, A i t * C t j :=
  (backend_sound0 hg π).mul hb hL hR

/-- **C25, shapes.** A product with different inner dimensions is rejected. -/
theorem C25_mismatch {g : Cfg} (hg : g.CPU) (π : Sched) (b : Option (Mat K)) (L R : Mat K)
    (h : L.cols ≠ R.rows) : (backend g π).mul L R b = none := by
  simp only [backend, pick_cpu hg (op := .mul) (Or.inl rfl), Eig.mul, Naive.mul, if_neg h, ite_self]

/-- A concrete product with a dirty result buffer of another shape. -/
example : (Naive.mul Sched.rev ⟨1, 2, [1, 2]⟩ ⟨2, 1, [3, 4]⟩ (some ⟨1, 1, [77]⟩) : Option (Mat ℚ))
    = some ⟨1, 1, [11]⟩ := by decide +kernel

/-! ## C26: Kronecker product -/

/-- **C26, vector-library handler.** Whatever the result buffer held, the Kronecker product of an
`lr × lc` matrix `A` and an `rr × rc` matrix `C` holds `A i j * C p q` at row `i*rr+p` and column
`j*rc+q`. -/
theorem C26_kron_eigen {g : Cfg} (hg : g.CPU) (he : g.cpu = .eigen) (π : Sched)
    {b : Option (Mat K)} (hb : Live b) {L R : Mat K} {lr lc rr rc : ℕ} {A C : ℕ → ℕ → K}
    (hL : Rep L lr lc A) (hR : Rep R rr rc C) :
    ∃ M, (backend g π).kron L R b = some M ∧ M.rows = lr * rr ∧ M.cols = lc * rc ∧
      ∀ i j p q, i < lr → j < lc → p < rr → q < rc →
        M.get? (i * rr + p) (j * rc + q) = some (A i j * C p q) := by
  obtain ⟨M, h1, h2⟩ := backend_kronSound (K := K) hg he π hb hL hR
  refine ⟨M, h1, h2.rows, h2.cols, fun i j p q hi hj hp hq => ?_⟩
  rw [h2.elem _ _ (flat_lt hi hp) (flat_lt hj hq), flat_div hp, flat_div hq, flat_mod hp,
    flat_mod hq]

/-- **C26, naive handler (partial).** The same entries, provided the result buffer is newly
allocated (none yet, or of a different number of elements) or the left factor has no zero entry.
Missing: a reused buffer of the same size, where the claim is false
(`C26_kron_naive_stale_counterexample`). -/
theorem C26_kron_naive_partial {g : Cfg} (hg : g.CPU) (he : g.cpu = .naive) (π : Sched)
    {b : Option (Mat K)} (hb : Live b) {L R : Mat K} {lr lc rr rc : ℕ} {A C : ℕ → ℕ → K}
    (hL : Rep L lr lc A) (hR : Rep R rr rc C)
    (hfresh : (∀ m, b = some m → m.rows * m.cols ≠ lr * rr * (lc * rc)) ∨
      ∀ i j, i < lr → j < lc → A i j ≠ 0) :
    ∃ M, (backend g π).kron L R b = some M ∧ M.rows = lr * rr ∧ M.cols = lc * rc ∧
      ∀ i j p q, i < lr → j < lc → p < rr → q < rc →
        M.get? (i * rr + p) (j * rc + q) = some (A i j * C p q) := by
  have hr : 0 < lr * rr := Nat.mul_pos hL.rpos hR.rpos
  have hc : 0 < lc * rc := Nat.mul_pos hL.cpos hR.cpos
  obtain ⟨res, hp, hrr, hrc, hwf⟩ := Mat.pool_spec hb hr hc
  have hO : Rep res (lr * rr) (lc * rc) res.val := by
    have := hwf.rep; rwa [hrr, hrc] at this
  obtain ⟨M, h1, h2⟩ := Naive.kron_spec π hL hR hp hO
  refine ⟨M, by simp only [backend, pick_cpu hg (op := .kron) (Or.inl rfl), he]; exact h1,
    h2.rows, h2.cols, fun i j p q hi hj hp' hq => ?_⟩
  rw [h2.elem _ _ (flat_lt hi hp') (flat_lt hj hq), flat_div hp', flat_div hq, flat_mod hp',
    flat_mod hq]
  split
  · rename_i h0
    rcases hfresh with hf | hf
    · have : Mat.pool b (lr * rr) (lc * rc) = Mat.new (lr * rr) (lc * rc) := by
        cases b with
        | none => rfl
        | some m =>
          have hne := hf m rfl
          rw [Mat.pool, if_neg (fun e => hne e.symm), if_pos]
          by_contra hcon
          push Not at hcon
          exact hne (by rw [← hcon.1, ← hcon.2])
      obtain ⟨z, hz1, hz2⟩ := Mat.new_spec (K := K) hr hc
      rw [this, hz1] at hp
      cases hp
      rw [← hO.elem _ _ (flat_lt hi hp') (flat_lt hj hq),
        hz2.elem _ _ (flat_lt hi hp') (flat_lt hj hq), h0, zero_mul]
    · exact absurd h0 (hf i j hi hj)
  · rfl

/-- **C26 is false for the naive handler with a reused buffer**: `kron([0], [5])` into a `1 × 1`
buffer that holds `7` leaves `7`; the vector-library handler writes `0`.  The two handlers
disagree. -/
theorem C26_kron_naive_stale_counterexample :
    ∃ (L R b : Mat ℚ), Rep L 1 1 (fun _ _ => 0) ∧ Rep R 1 1 (fun _ _ => 5) ∧ Live (some b) ∧
      (∀ π, ((backend ⟨.naive, false, .cpu⟩ π).kron L R (some b)) = some ⟨1, 1, [7]⟩) ∧
      (∀ π, ((backend ⟨.eigen, false, .cpu⟩ π).kron L R (some b)) = some ⟨1, 1, [0]⟩) := by
  have hz : ∀ v : ℚ, Rep (⟨1, 1, [v]⟩ : Mat ℚ) 1 1 (fun _ _ => v) := fun v =>
    ⟨one_pos, one_pos, rfl, rfl, rfl, fun i j hi hj => by
      obtain rfl : i = 0 := by omega
      obtain rfl : j = 0 := by omega
      rfl⟩
  refine ⟨⟨1, 1, [0]⟩, ⟨1, 1, [5]⟩, ⟨1, 1, [7]⟩, hz 0, hz 5, Live.some (hz 7).wf, fun π => ?_,
    fun π => ?_⟩
  · obtain ⟨M, h1, h2⟩ := Naive.kron_spec π (hz 0) (hz 5) (result := some ⟨1, 1, [7]⟩)
      (by exact Mat.pool_self rfl rfl) (hz 7)
    simp only [backend, pick_cpu (g := ⟨.naive, false, .cpu⟩) rfl (op := .kron) (Or.inl rfl)]
    rw [if_neg (by decide), h1]
    exact congrArg some (h2.ext ((hz 7).congr fun i j _ _ => by simp))
  · obtain ⟨M, h1, h2⟩ := backend_kronSound (K := ℚ) (g := ⟨.eigen, false, .cpu⟩) rfl rfl π
      (b := some ⟨1, 1, [7]⟩) (Live.some (hz 7).wf) (hz 0) (hz 5)
    rw [h1]
    exact congrArg some (h2.ext ((hz 0).congr fun i j _ _ => by simp))

/-! ## C27: transposes -/

/-- **C27.** `transpose` of an `m × n` matrix is the `n × m` matrix with `A j i` at `(i,j)`. -/
theorem C27_transpose {g : Cfg} (hg : g.CPU) (π : Sched) {b : Option (Mat K)} (hb : Live b)
    {R : Mat K} {m n : ℕ} {A : ℕ → ℕ → K} (hR : Rep R m n A) :
    ∃ M, (backend g π).transpose R b = some M ∧ Rep M n m fun i j => A j i :=
  (backend_sound0 hg π).transpose hb hR

/-- **C27, derivative transpose.** If `D` holds, for an `rf × cf` matrix `F` and an `xr × xc`
matrix `X`, the entry `∂F(l,k)/∂X(i,j)` at `(l*xr+i, k*xc+j)`, the derivative-transpose kernel
returns the matrix holding that same entry at block `(k,l)`, i.e. at `(k*xr+i, l*xc+j)`. -/
theorem C27_dervTranspose {g : Cfg} (hg : g.CPU) (π : Sched) {b : Option (Mat K)} (hb : Live b)
    {D : Mat K} {rf cf xr xc : ℕ} (hrf : 0 < rf) (hcf : 0 < cf) (hxr : 0 < xr) (hxc : 0 < xc)
    {dF : ℕ → ℕ → ℕ → ℕ → K} (hrows : D.rows = rf * xr) (hcols : D.cols = cf * xc) (hwf : D.WF)
    (hD : ∀ l k i j, l < rf → k < cf → i < xr → j < xc →
      D.get? (l * xr + i) (k * xc + j) = some (dF l k i j)) :
    ∃ M, (backend g π).dervTranspose rf cf xr xc D b = some M ∧ M.rows = cf * xr ∧
      M.cols = rf * xc ∧ ∀ l k i j, l < rf → k < cf → i < xr → j < xc →
        M.get? (k * xr + i) (l * xc + j) = some (dF l k i j) := by
  have hR := hwf.rep
  rw [hrows, hcols] at hR
  obtain ⟨M, h1, h2⟩ := (backend_sound0 (K := K) hg π).dervTranspose hb hrf hcf hxr hxc hR
  refine ⟨M, h1, h2.rows, h2.cols, fun l k i j hl hk hi hj => ?_⟩
  rw [h2.elem _ _ (flat_lt hk hi) (flat_lt hl hj), flat_div hi, flat_div hj, flat_mod hi,
    flat_mod hj, ← hR.elem _ _ (flat_lt hl hi) (flat_lt hk hj), hD l k i j hl hk hi hj]

/-- A non-trivial instance: a `2 × 1` function of a `1 × 2` matrix. -/
example : (Naive.dervTranspose Sched.seq 2 1 1 2 ⟨2, 2, [1, 2, 3, 4]⟩ none : Option (Mat ℚ))
    = some ⟨1, 4, [1, 2, 3, 4]⟩ := by decide +kernel

/-! ## C28: convolution -/

/-- **C28, vector-library handler.** For positive strides and a kernel that fits in the padded
input, whatever the result buffer (number `k`) and all buffers kept by the handlers held: the result
has shape `((R+2px-r)/sx+1) × ((C+2py-c)/sy+1)` and entry `(i,j)` is the sum over the kernel of
`kernel(u,v) * input(i*sx+u-px, j*sy+v-py)`, where the input is `0` outside its shape (`convSpec`). -/
theorem C28_conv_eigen {g : Cfg} (hg : g.CPU) (he : g.cpu = .eigen) (π : Sched) {a : Slots K}
    (ha : ∀ k, Live (a k)) {k : ℕ} (hk : NoPad k) {L R : Mat K} {r c kr kc : ℕ}
    {A C : ℕ → ℕ → K} (hL : Rep L r c A) (hR : Rep R kr kc C) {sx sy px py : ℕ} (hsx : 0 < sx)
    (hsy : 0 < sy) (hkr : kr ≤ r + 2 * px) (hkc : kc ≤ c + 2 * py) :
    ∃ a' M, (backend g π).conv sx sy px py L R k a = some (a', M) ∧ (∀ k, Live (a' k)) ∧
      Rep M ((r + 2 * px - kr) / sx + 1) ((c + 2 * py - kc) / sy + 1)
        (convSpec sx sy px py r c kr kc A C) := by
  simp only [backend, pick_cpu hg (op := .conv) (Or.inr rfl), if_pos he]
  obtain ⟨a', M, h1, h2, h3⟩ := Eig.conv_spec π hL hR hsx hsy hkr hkc hk (SlotsOk.of_live ha)
  exact ⟨a', M, h1, h2.live, h3⟩

/-- **C28, naive handler (partial).** The same, provided the handler's pad buffer is newly allocated
for this call (first call, or a different number of padded elements than the previous call), or
there is no padding.  Missing: a reused pad buffer with padding, where the claim is false
(`C28_conv_naive_stale_counterexample`) unless the buffer was left by the same request
(`C28_conv_history_partial`). -/
theorem C28_conv_naive_partial {g : Cfg} (hg : g.CPU) (he : g.cpu = .naive) (π : Sched)
    {a : Slots K} (ha : ∀ k, Live (a k)) {k : ℕ} (hk : NoPad k) {L R : Mat K}
    {r c kr kc : ℕ} {A C : ℕ → ℕ → K} (hL : Rep L r c A) (hR : Rep R kr kc C) {sx sy px py : ℕ}
    (hsx : 0 < sx) (hsy : 0 < sy) (hkr : kr ≤ r + 2 * px) (hkc : kc ≤ c + 2 * py)
    (hfresh : (∀ m, a 30 = some m → m.rows * m.cols ≠ (r + 2 * px) * (c + 2 * py)) ∨
      (px = 0 ∧ py = 0)) :
    ∃ a' M, (backend g π).conv sx sy px py L R k a = some (a', M) ∧ (∀ k, Live (a' k)) ∧
      Rep M ((r + 2 * px - kr) / sx + 1) ((c + 2 * py - kc) / sy + 1)
        (convSpec sx sy px py r c kr kc A C) := by
  simp only [backend, pick_cpu hg (op := .conv) (Or.inr rfl), if_neg (show ¬g.cpu = .eigen by
    rw [he]; decide)]
  have hcl : (⟨r, c, px, py⟩ : PadReq).Clean (a 30) := by
    rcases hfresh with hf | ⟨rfl, rfl⟩
    · cases hb : a 30 with
      | none => exact PadReq.clean_none _
      | some m => exact PadReq.clean_of_size (fun e => hf m hb e.symm)
    · exact PadReq.clean_of_not_proper (by simp [PadReq.proper]) (ha 30)
  have hQ : Compat ({⟨r, c, px, py⟩} : Set PadReq) := fun q hq q' hq' _ _ => by
    rw [Set.mem_singleton_iff.1 hq, Set.mem_singleton_iff.1 hq']
  have hok : SlotsOk ⟨{⟨r, c, px, py⟩}, ∅, ∅⟩ a :=
    ⟨ha, fun _ q hq => by rw [Set.mem_singleton_iff.1 hq]; exact hcl, fun _ _ h => h.elim,
      fun _ _ h => h.elim⟩
  obtain ⟨a', M, h1, h2, h3⟩ := Naive.conv_spec (P := ⟨{⟨r, c, px, py⟩}, ∅, ∅⟩) hQ π hL hR hsx hsy
    hkr hkc (Set.mem_singleton _) hk hok
  exact ⟨a', M, h1, h2.live, h3⟩

/-- One request: a convolution with strides `sx, sy` and pads `px, py` of an input with a kernel, to
result buffer `k`. -/
structure ConvCall (K : Type) where
  sx : ℕ
  sy : ℕ
  px : ℕ
  py : ℕ
  L : Mat K
  R : Mat K
  k : ℕ

namespace ConvCall

/-- A request the API accepts. -/
structure Ok (q : ConvCall K) : Prop where
  L : q.L.WF
  R : q.R.WF
  sx : 0 < q.sx
  sy : 0 < q.sy
  rows : q.R.rows ≤ q.L.rows + 2 * q.px
  cols : q.R.cols ≤ q.L.cols + 2 * q.py
  k : NoPad q.k

/-- The answer is the convolution. -/
def Right (q : ConvCall K) (M : Mat K) : Prop :=
  Rep M ((q.L.rows + 2 * q.px - q.R.rows) / q.sx + 1) ((q.L.cols + 2 * q.py - q.R.cols) / q.sy + 1)
    (convSpec q.sx q.sy q.px q.py q.L.rows q.L.cols q.R.rows q.R.cols q.L.val q.R.val)

/-- Its padding request. -/
def pad (q : ConvCall K) : PadReq := ⟨q.L.rows, q.L.cols, q.px, q.py⟩

/-- Perform requests one after the other. -/
def run (B : Backend K) : List (ConvCall K) → Slots K → Option (Slots K × List (Mat K))
  | [], a => some (a, [])
  | q :: qs, a => do
    let (a, M) ← B.conv q.sx q.sy q.px q.py q.L q.R q.k a
    let (a, Ms) ← run B qs a
    some (a, M :: Ms)

end ConvCall

/-- **C28, any number of convolutions (partial).**  Starting from a new process, every sequence of
convolutions is answered right by the vector-library handler; by the naive handler if any two requests
with the same number of padded elements, one of which pads, have the same input shape and pads.
Missing: other sequences on the naive handler, where the claim is false
(`C28_conv_naive_stale_counterexample`). -/
theorem C28_conv_history_partial {g : Cfg} (hg : g.CPU) (π : Sched) (qs : List (ConvCall K))
    (hok : ∀ q ∈ qs, q.Ok)
    (hcompat : g.cpu = .eigen ∨ ∀ q ∈ qs, ∀ q' ∈ qs, 0 < q.px ∨ 0 < q.py →
      (q.L.rows + 2 * q.px) * (q.L.cols + 2 * q.py) =
        (q'.L.rows + 2 * q'.px) * (q'.L.cols + 2 * q'.py) →
      q.L.rows = q'.L.rows ∧ q.L.cols = q'.L.cols ∧ q.px = q'.px ∧ q.py = q'.py) :
    ∃ a Ms, ConvCall.run (backend g π) qs (fun _ => none) = some (a, Ms) ∧
      List.Forall₂ ConvCall.Right qs Ms := by
  set P : Pads := ⟨{p | ∃ q ∈ qs, q.pad = p}, ∅, ∅⟩ with hP
  have hQ : g.cpu = .eigen ∨ Compat P.Q := by
    refine hcompat.imp id fun h => ?_
    rintro _ ⟨q, hq, rfl⟩ _ ⟨q', hq', rfl⟩ hp hs
    obtain ⟨h1, h2, h3, h4⟩ := h q hq q' hq' hp hs
    simp only [ConvCall.pad, h1, h2, h3, h4]
  have B := backend_sound (K := K) hg π hQ
  have key : ∀ (l : List (ConvCall K)), (∀ q ∈ l, q ∈ qs) → ∀ a : Slots K, SlotsOk P a →
      ∃ a' Ms, ConvCall.run (backend g π) l a = some (a', Ms) ∧ List.Forall₂ ConvCall.Right l Ms := by
    intro l
    induction l with
    | nil => intro _ a _; exact ⟨a, [], rfl, .nil⟩
    | cons q l ih =>
      intro hl a ha
      have hq := hl q (by simp)
      have o := hok q hq
      obtain ⟨a1, M, e1, s1, r1⟩ := B.conv o.L.rep o.R.rep o.sx o.sy o.rows o.cols ⟨q, hq, rfl⟩ o.k ha
      obtain ⟨a2, Ms, e2, r2⟩ := ih (fun q hq => hl q (by simp [hq])) a1 s1
      exact ⟨a2, M :: Ms, by simp only [ConvCall.run, e1, e2, Option.bind_eq_bind, Option.bind_some],
        .cons r1 r2⟩
  exact key qs (fun _ h => h) _ (SlotsOk.fresh P)

/-- The condition is met by padding inputs of different sizes. -/
example : ∃ qs : List (ConvCall ℚ), qs.length = 3 ∧ (∀ q ∈ qs, q.Ok) ∧
    ∀ q ∈ qs, ∀ q' ∈ qs, 0 < q.px ∨ 0 < q.py →
      (q.L.rows + 2 * q.px) * (q.L.cols + 2 * q.py) =
        (q'.L.rows + 2 * q'.px) * (q'.L.cols + 2 * q'.py) →
      q.L.rows = q'.L.rows ∧ q.L.cols = q'.L.cols ∧ q.px = q'.px ∧ q.py = q'.py := by
  refine ⟨[⟨1, 1, 1, 1, ⟨1, 1, [5]⟩, ⟨1, 1, [1]⟩, 0⟩, ⟨2, 1, 1, 0, ⟨2, 1, [5, 6]⟩, ⟨1, 1, [1]⟩, 0⟩,
    ⟨1, 1, 1, 1, ⟨1, 1, [7]⟩, ⟨1, 1, [1]⟩, 0⟩], rfl, ?_, by decide⟩
  intro q hq
  simp only [List.mem_cons, List.not_mem_nil, or_false] at hq
  rcases hq with rfl | rfl | rfl <;>
    exact ⟨⟨by decide, by decide, rfl⟩, ⟨by decide, by decide, rfl⟩, by decide, by decide, by decide,
      by decide, by decide⟩

/-- **C28 is false for the naive handler with a reused pad buffer**: in a new process, convolve a
`3 × 3` input of ones with the kernel `[1]` without padding, then the `1 × 1` input `[5]` with the
kernel `[1]` and padding `1`: the second answer has a border of stale ones instead of zeros. -/
theorem C28_conv_naive_stale_counterexample :
    (ConvCall.run (K := ℚ) (backend ⟨.naive, false, .cpu⟩ Sched.seq)
      [⟨1, 1, 0, 0, ⟨3, 3, List.replicate 9 1⟩, ⟨1, 1, [1]⟩, 0⟩,
       ⟨1, 1, 1, 1, ⟨1, 1, [5]⟩, ⟨1, 1, [1]⟩, 1⟩] (fun _ => none)).map Prod.snd =
        some [⟨3, 3, List.replicate 9 1⟩, ⟨3, 3, [1, 1, 1, 1, 5, 1, 1, 1, 1]⟩] ∧
      convSpec 1 1 1 1 1 1 1 1 (fun _ _ => 5) (fun _ _ => 1) 0 0 = (0 : ℚ) := by
  constructor
  · decide +kernel
  · simp [convSpec, padded]

/-- The hypotheses of the C28 theorems are met by a `3 × 3` input, a `2 × 2` kernel, strides `2,1`
and padding `1,0`. -/
example : (0 < 2 ∧ 0 < 1 ∧ 2 ≤ 3 + 2 * 1 ∧ 2 ≤ 3 + 2 * 0) ∧
    (Eig.conv Sched.seq 2 1 1 0 ⟨3, 3, [1, 2, 3, 4, 5, 6, 7, 8, 9]⟩ ⟨2, 2, [1, 2, 3, 4]⟩ 0
      (fun _ => none)).map Prod.snd = some (⟨2, 2, [11, 18, 67, 77]⟩ : Mat ℚ) := by
  refine ⟨by decide, ?_⟩
  decide +kernel

end CoolDiff
