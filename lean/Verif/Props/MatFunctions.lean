import Verif.Props.MatrixExpr
import Verif.Matrix.Functions
import Mathlib.Analysis.SpecialFunctions.Log.Basic
import Mathlib.Analysis.SpecialFunctions.Sqrt
import Mathlib.Algebra.BigOperators.Field

/-!
# C34: derived matrix functions

`Means E sv V e r c A` says: the expression `e` has dimensions `r × c`, all dimensions inside it fit
(so that no assertion of the library fires), and its element `(i,j)` is `A i j` when the named
matrices have the elements `V o i j`.  `C34_eval_partial` turns this into a statement about
`TensorR2::Eval` of a matrix bound to `e`.
-/

set_option linter.unusedSectionVars false

namespace CoolDiff

open Finset

variable {K : Type} [Field K] [DecidableEq K]

/-- The expression `e` denotes the `r × c` matrix `A`. -/
structure Means (E : MEnv K) (sv : ℕ → K) (V : ℕ → ℕ → ℕ → K) (e : MNode K) (r c : ℕ)
    (A : ℕ → ℕ → K) : Prop where
  dims : e.dims E = (r, c)
  ok : DimOk E e
  val : ∀ i j, i < r → j < c → den E sv V e i j = A i j

/-- Object `o` holds the `r × c` matrix `A`. -/
structure Holds (E : MEnv K) (V : ℕ → ℕ → ℕ → K) (o r c : ℕ) (A : ℕ → ℕ → K) : Prop where
  rows : E.rows o = r
  cols : E.cols o = c
  val : ∀ i j, i < r → j < c → V o i j = A i j

/-- The matrix of ones. -/
abbrev onesF : ℕ → ℕ → K := fun _ _ => 1
/-- The identity matrix. -/
abbrev eyeF : ℕ → ℕ → K := fun i j => if i = j then 1 else 0
/-- The zero matrix. -/
abbrev zeroF : ℕ → ℕ → K := fun _ _ => 0

section

variable {E : MEnv K} {sv : ℕ → K} {V : ℕ → ℕ → ℕ → K}

theorem Holds.means {o r c : ℕ} {A : ℕ → ℕ → K} (h : Holds E V o r c A) :
    Means E sv V (.obj o) r c A :=
  ⟨by rw [MNode.dims, h.rows, h.cols], trivial, h.val⟩

theorem Means.congr {e : MNode K} {r c : ℕ} {A B : ℕ → ℕ → K} (h : Means E sv V e r c A)
    (hAB : ∀ i j, i < r → j < c → A i j = B i j) : Means E sv V e r c B :=
  ⟨h.dims, h.ok, fun i j hi hj => (h.val i j hi hj).trans (hAB i j hi hj)⟩

theorem clone_dims (e : MNode K) (k : ℕ) : (e.clone k).1.dims E = e.dims E := by
  induction e generalizing k with
  | obj o => rfl
  | bin n op a b iha ihb => simp only [MNode.clone, MNode.dims, iha, ihb]
  | un n op a ih => cases op <;> simp only [MNode.clone, MNode.dims, ih]

theorem clone_ok (e : MNode K) (k : ℕ) : DimOk E (e.clone k).1 ↔ DimOk E e := by
  induction e generalizing k with
  | obj o => rfl
  | bin n op a b iha ihb => simp only [MNode.clone, DimOk, iha, ihb, clone_dims]
  | un n op a ih => simp only [MNode.clone, DimOk, ih, clone_dims]

theorem clone_den (e : MNode K) (k : ℕ) : den E sv V (e.clone k).1 = den E sv V e := by
  induction e generalizing k with
  | obj o => rfl
  | bin n op a b iha ihb =>
    funext i j
    cases op <;> simp only [MNode.clone, den, iha, ihb, clone_dims]
  | un n op a ih =>
    funext i j
    cases op <;> simp only [MNode.clone, den, ih, clone_dims]
    rw [clone_dims]

/-- Cloning an expression changes neither its dimensions nor its value. -/
theorem Means.clone {e : MNode K} {r c : ℕ} {A : ℕ → ℕ → K} (h : Means E sv V e r c A) (k : ℕ) :
    Means E sv V (e.clone k).1 r c A :=
  ⟨by rw [clone_dims, h.dims], (clone_ok e k).2 h.ok, by rw [clone_den]; exact h.val⟩

theorem Means.mul {a b : MNode K} {r t c : ℕ} {A C : ℕ → ℕ → K} (ha : Means E sv V a r t A)
    (hb : Means E sv V b t c C) (k : ℕ) :
    Means E sv V (mkBin .mul a b k).1 r c (fun i j => ∑ l ∈ range t, A i l * C l j) := by
  refine Means.clone (e := .bin 0 .mul a b) ⟨?_, And.intro ha.ok (And.intro hb.ok ?_), ?_⟩ k
  · rw [MNode.dims, ha.dims, hb.dims]; rfl
  · rw [ha.dims, hb.dims]; simp [MBin.dimOk, MBin.padOk]
  · intro i j hi hj
    simp only [den]
    rw [ha.dims]
    exact sum_congr rfl fun l hl => by
      rw [ha.val i l hi (mem_range.1 hl), hb.val l j (mem_range.1 hl) hj]

theorem Means.add {a b : MNode K} {r c : ℕ} {A C : ℕ → ℕ → K} (ha : Means E sv V a r c A)
    (hb : Means E sv V b r c C) (k : ℕ) :
    Means E sv V (mkBin .add a b k).1 r c (fun i j => A i j + C i j) := by
  refine Means.clone (e := .bin 0 .add a b) ⟨?_, And.intro ha.ok (And.intro hb.ok ?_), ?_⟩ k
  · rw [MNode.dims, ha.dims, hb.dims]; rfl
  · rw [ha.dims, hb.dims]; simp [MBin.dimOk, MBin.padOk]
  · intro i j hi hj
    simp only [den]
    rw [ha.val i j hi hj, hb.val i j hi hj]

theorem Means.sub {a b : MNode K} {r c : ℕ} {A C : ℕ → ℕ → K} (ha : Means E sv V a r c A)
    (hb : Means E sv V b r c C) (k : ℕ) :
    Means E sv V (mkBin .sub a b k).1 r c (fun i j => A i j - C i j) := by
  refine Means.clone (e := .bin 0 .sub a b) ⟨?_, And.intro ha.ok (And.intro hb.ok ?_), ?_⟩ k
  · rw [MNode.dims, ha.dims, hb.dims]; rfl
  · rw [ha.dims, hb.dims]; simp [MBin.dimOk, MBin.padOk]
  · intro i j hi hj
    simp only [den]
    rw [ha.val i j hi hj, hb.val i j hi hj]

theorem Means.had {a b : MNode K} {r c : ℕ} {A C : ℕ → ℕ → K} (ha : Means E sv V a r c A)
    (hb : Means E sv V b r c C) (k : ℕ) :
    Means E sv V (mkBin .had a b k).1 r c (fun i j => A i j * C i j) := by
  refine Means.clone (e := .bin 0 .had a b) ⟨?_, And.intro ha.ok (And.intro hb.ok ?_), ?_⟩ k
  · rw [MNode.dims, ha.dims, hb.dims]; rfl
  · rw [ha.dims, hb.dims]; simp [MBin.dimOk, MBin.padOk]
  · intro i j hi hj
    simp only [den]
    rw [ha.val i j hi hj, hb.val i j hi hj]

theorem Means.map {a : MNode K} {r c : ℕ} {A : ℕ → ℕ → K} (ha : Means E sv V a r c A)
    (f df : K → K) (k : ℕ) :
    Means E sv V (mkUn (.map f df) a k).1 r c (fun i j => f (A i j)) := by
  refine Means.clone (e := .un 0 (.map f df) a) ⟨?_, And.intro ha.ok rfl, ?_⟩ k
  · rw [MNode.dims, ha.dims]
    all_goals simp
  · intro i j hi hj
    simp only [den]
    rw [ha.val i j hi hj]

theorem Means.smul {a : MNode K} {r c : ℕ} {A : ℕ → ℕ → K} (ha : Means E sv V a r c A)
    (v : K) (k : ℕ) :
    Means E sv V (mkUn (.smul v) a k).1 r c (fun i j => v * A i j) := by
  refine Means.clone (e := .un 0 (.smul v) a) ⟨?_, And.intro ha.ok rfl, ?_⟩ k
  · rw [MNode.dims, ha.dims]
    all_goals simp
  · intro i j hi hj
    simp only [den]
    rw [ha.val i j hi hj]

theorem Means.sadd {a : MNode K} {r c : ℕ} {A : ℕ → ℕ → K} (ha : Means E sv V a r c A)
    (v : K) (k : ℕ) :
    Means E sv V (mkUn (.sadd v) a k).1 r c (fun i j => v + A i j) := by
  refine Means.clone (e := .un 0 (.sadd v) a) ⟨?_, And.intro ha.ok rfl, ?_⟩ k
  · rw [MNode.dims, ha.dims]
    all_goals simp
  · intro i j hi hj
    simp only [den]
    rw [ha.val i j hi hj]

theorem Means.inv {a : MNode K} {n : ℕ} {A : ℕ → ℕ → K} (ha : Means E sv V a n n A) (k : ℕ) :
    Means E sv V (mkUn .inv a k).1 n n (invEl n A) := by
  refine Means.clone (e := .un 0 .inv a) ⟨?_, And.intro ha.ok ?_, ?_⟩ k
  · rw [MNode.dims, ha.dims]
    all_goals simp
  · rw [ha.dims]; simp [MUn.dimOk]
  · intro i j hi hj
    simp only [den]
    rw [ha.dims]
    have : toMatrix n (den E sv V a) = toMatrix n A := by
      ext p q; exact ha.val p q p.2 q.2
    simp only [invEl, this]

/-! ## The functions -/

/-- **C34, C13 (matrix sugar).**  `X / u` divides every element by the number `u`. -/
theorem C34_div_number {x : MNode K} {r c : ℕ} {A : ℕ → ℕ → K} (hx : Means E sv V x r c A)
    (u : K) (k : ℕ) : Means E sv V (divNum x u k).1 r c (fun i j => A i j / u) :=
  ((hx.clone k).smul (1 / u) _).congr fun i j _ _ => by ring

/-- `v - X` and `X - v` for a number `v`. -/
theorem C34_sub_number {x : MNode K} {r c : ℕ} {A : ℕ → ℕ → K} (hx : Means E sv V x r c A)
    (v : K) (k : ℕ) : Means E sv V (numSub v x k).1 r c (fun i j => v - A i j) ∧
      Means E sv V (subNum x v k).1 r c (fun i j => A i j - v) :=
  ⟨(((hx.clone k).smul (-1) _).sadd v _).congr fun i j _ _ => by ring,
   ((hx.clone k).sadd (-1 * v) _).congr fun i j _ _ => by ring⟩

/-- `X % Y` is `X` times the inverse of `Y`. -/
theorem C34_mod {x y : MNode K} {r n : ℕ} {A C : ℕ → ℕ → K} (hx : Means E sv V x r n A)
    (hy : Means E sv V y n n C) (k : ℕ) :
    Means E sv V (divInv x y k).1 r n (fun i j => ∑ t ∈ range n, A i t * invEl n C t j) :=
  (hx.clone _).mul ((hy.clone _).inv _) _

/-- **C34 (`Sigma`).**  `Sigma<ROW>(X)` is the row of column sums, `Sigma<COLUMN>(X)` the column of
row sums, `Sigma(X)` the sum of all elements. -/
theorem C34_sigma {x : MNode K} {r c : ℕ} {A : ℕ → ℕ → K} (hx : Means E sv V x r c A)
    {o1 o2 : ℕ} (h1 : Holds E V o1 1 r onesF) (h2 : Holds E V o2 c 1 onesF) (k : ℕ) :
    Means E sv V (sigma .row x o1 o2 k).1 1 c (fun _ j => ∑ i ∈ range r, A i j) ∧
    Means E sv V (sigma .column x o1 o2 k).1 r 1 (fun i _ => ∑ j ∈ range c, A i j) ∧
    Means E sv V (sigma .all x o1 o2 k).1 1 1 (fun _ _ => ∑ i ∈ range r, ∑ j ∈ range c, A i j) := by
  refine ⟨(h1.means.mul hx k).congr fun i j _ _ => by simp,
    (hx.mul h2.means k).congr fun i j _ _ => by simp,
    ((h1.means.mul hx k).mul h2.means _).congr fun i j _ _ => ?_⟩
  simp only [mul_one, one_mul]
  exact sum_comm

/-- **C34 (`trace`).**  The sum of the diagonal elements. -/
theorem C34_trace {x : MNode K} {n : ℕ} {A : ℕ → ℕ → K} (hx : Means E sv V x n n A)
    {eye o1 o2 : ℕ} (he : Holds E V eye n n eyeF) (h1 : Holds E V o1 1 n onesF)
    (h2 : Holds E V o2 n 1 onesF) (k : ℕ) :
    ∃ e k', mtrace E x eye o1 o2 k = some (e, k') ∧
      Means E sv V e 1 1 (fun _ _ => ∑ i ∈ range n, A i i) := by
  refine ⟨_, _, by rw [mtrace, hx.dims, if_pos rfl], ?_⟩
  refine ((C34_sigma (hx.had he.means k) h1 h2 _).2.2).congr fun _ _ _ _ => ?_
  refine sum_congr rfl fun i hi => ?_
  rw [sum_eq_single i]
  · simp
  · intro j _ hj; simp [Ne.symm hj]
  · intro h; exact absurd hi h

/-- `trace` refuses a matrix that is not square. -/
theorem C34_trace_square {x : MNode K} {eye o1 o2 k : ℕ} (h : (x.dims E).1 ≠ (x.dims E).2) :
    mtrace E x eye o1 o2 k = none := by rw [mtrace, if_neg h]

/-- **C34 (`broadcast`).**  A column repeated `n` times, a row repeated `n` times, a number repeated
`n × n` times; a matrix with several rows and columns is refused. -/
theorem C34_broadcast {x : MNode K} {r c n : ℕ} {A : ℕ → ℕ → K} (hx : Means E sv V x r c A)
    {o1 o2 : ℕ} (h1 : Holds E V o1 n 1 onesF) (h2 : Holds E V o2 1 n onesF) (k : ℕ) :
    (c = 1 → ∃ e k', broadcast E .column x o1 o2 k = some (e, k') ∧
      Means E sv V e r n (fun i _ => A i 0)) ∧
    (r = 1 → ∃ e k', broadcast E .row x o1 o2 k = some (e, k') ∧
      Means E sv V e n c (fun _ j => A 0 j)) ∧
    (r = 1 → c = 1 → ∃ e k', broadcast E .all x o1 o2 k = some (e, k') ∧
      Means E sv V e n n (fun _ _ => A 0 0)) ∧
    (r ≠ 1 → c ≠ 1 → ∀ ax, broadcast E ax x o1 o2 k = none) := by
  refine ⟨fun hc => ?_, fun hr => ?_, fun hr hc => ?_, fun hr hc ax => ?_⟩
  · subst hc
    refine ⟨_, _, by rw [broadcast, hx.dims, if_pos (Or.inl rfl)], ?_⟩
    exact (hx.mul h2.means k).congr fun i j _ _ => by simp
  · subst hr
    refine ⟨_, _, by rw [broadcast, hx.dims, if_pos (Or.inr rfl)], ?_⟩
    exact (h1.means.mul hx k).congr fun i j _ _ => by simp
  · subst hr hc
    refine ⟨_, _, by rw [broadcast, hx.dims, if_pos (Or.inr rfl)], ?_⟩
    exact ((h1.means.mul hx k).mul h2.means _).congr fun i j _ _ => by simp
  · simp [broadcast, hx.dims, hr, hc]

/-- The contents of the constant matrices of `concat`. -/
theorem concat_consts (π : Sched) {m n : ℕ} (hm : 0 < m) (hn : 0 < n) :
    (∃ M : Mat K, concatVA π m n = some M ∧ Rep M (m + n) m eyeF) ∧
    (∃ M : Mat K, concatVB π m n = some M ∧
      Rep M (m + n) n (fun i j => if i = m + j then 1 else 0)) ∧
    (∃ M : Mat K, concatHA π m n = some M ∧ Rep M m (m + n) eyeF) ∧
    (∃ M : Mat K, concatHB π m n = some M ∧
      Rep M n (m + n) (fun i j => if j = m + i then 1 else 0)) := by
  have mk : ∀ {r c s rs re cs ce : ℕ}, 0 < r → 0 < c → 0 < s → re < r → ce < c →
      re + 1 = rs + s → ce + 1 = cs + s → ∃ M : Mat K,
      ((do let a ← Mat.new r c; let e ← Mat.eye π s; a.setBlock π rs re cs ce e : Option (Mat K))
        = some M) ∧ Rep M r c (fun i j => if rs ≤ i ∧ i ≤ re ∧ cs ≤ j ∧ j ≤ ce then
          (if i - rs = j - cs then 1 else 0) else 0) := by
    intro r c s rs re cs ce hr hc hs h1 h2 h3 h4
    obtain ⟨z, hz, rz⟩ := Mat.new_spec (K := K) hr hc
    obtain ⟨e, he, re⟩ := Mat.eye_spec (K := K) π hs
    obtain ⟨M, hM, rM⟩ := Mat.setBlock_spec π rz re h1 h2 h3 h4
    exact ⟨M, by simp only [hz, he, Option.bind_eq_bind, Option.bind_some, hM], rM⟩
  refine ⟨?_, ?_, ?_, ?_⟩
  · obtain ⟨M, hM, rM⟩ := mk (r := m + n) (c := m) (s := m) (rs := 0) (re := m - 1) (cs := 0)
      (ce := m - 1) (by omega) hm hm (by omega) (by omega) (by omega) (by omega)
    refine ⟨M, hM, rM.congr fun i j hi hj => ?_⟩
    by_cases h : i = j
    · subst h
      rw [if_pos (by omega), if_pos rfl]; simp
    · simp only [eyeF, if_neg h]
      split_ifs with h1 h2
      · omega
      · rfl
      · rfl
  · obtain ⟨M, hM, rM⟩ := mk (r := m + n) (c := n) (s := n) (rs := m) (re := m + n - 1) (cs := 0)
      (ce := n - 1) (by omega) hn hn (by omega) (by omega) (by omega) (by omega)
    refine ⟨M, hM, rM.congr fun i j hi hj => ?_⟩
    by_cases h : i = m + j
    · rw [if_pos (by omega), if_pos (by omega), if_pos h]
    · rw [if_neg h]
      split_ifs with h1 h2
      · omega
      · rfl
      · rfl
  · obtain ⟨M, hM, rM⟩ := mk (r := m) (c := m + n) (s := m) (rs := 0) (re := m - 1) (cs := 0)
      (ce := m - 1) (by omega) (by omega) hm (by omega) (by omega) (by omega) (by omega)
    refine ⟨M, hM, rM.congr fun i j hi hj => ?_⟩
    by_cases h : i = j
    · subst h
      rw [if_pos (by omega), if_pos rfl]; simp
    · simp only [eyeF, if_neg h]
      split_ifs with h1 h2
      · omega
      · rfl
      · rfl
  · obtain ⟨M, hM, rM⟩ := mk (r := n) (c := m + n) (s := n) (rs := 0) (re := n - 1) (cs := m)
      (ce := m + n - 1) (by omega) (by omega) hn (by omega) (by omega) (by omega) (by omega)
    refine ⟨M, hM, rM.congr fun i j hi hj => ?_⟩
    by_cases h : j = m + i
    · rw [if_pos (by omega), if_pos (by omega), if_pos h]
    · rw [if_neg h]
      split_ifs with h1 h2
      · omega
      · rfl
      · rfl

/-- **C34 (`concat<VERTICAL>`).**  `X` stacked on `Y`, with the constant matrices the function
builds (any execution order of the loops that fill them). -/
theorem C34_concat_vertical {x y : MNode K} {r s c : ℕ} {A C : ℕ → ℕ → K} (hr : 0 < r) (hs : 0 < s)
    (hx : Means E sv V x r c A) (hy : Means E sv V y s c C) (π : Sched) {oA oB : ℕ}
    (hA : ∀ M, concatVA π r s = some M → Holds E V oA (r + s) r fun i j => (M.get? i j).getD 0)
    (hB : ∀ M, concatVB π r s = some M → Holds E V oB (r + s) s fun i j => (M.get? i j).getD 0)
    (k : ℕ) : ∃ e k', concatV E x y oA oB k = some (e, k') ∧
      Means E sv V e (r + s) c (fun i j => if i < r then A i j else C (i - r) j) := by
  obtain ⟨⟨MA, eA, rA⟩, ⟨MB, eB, rB⟩, -, -⟩ := concat_consts (K := K) π hr hs
  have hA' := (hA MA eA); have hB' := (hB MB eB)
  refine ⟨_, _, by rw [concatV, hx.dims, hy.dims, if_pos rfl], ?_⟩
  refine ((hA'.means.mul hx k).add (hB'.means.mul hy _) _).congr fun i j hi hj => ?_
  have e1 : ∑ l ∈ range r, (MA.get? i l).getD 0 * A l j = if i < r then A i j else 0 := by
    rw [sum_congr rfl (g := fun l => if i = l then A l j else 0)]
    · rw [sum_ite_eq]; simp [mem_range]
    · intro l hl
      rw [rA.elem i l hi (mem_range.1 hl)]
      by_cases h : i = l <;> simp [eyeF, h]
  have e2 : ∑ l ∈ range s, (MB.get? i l).getD 0 * C l j = if i < r then 0 else C (i - r) j := by
    rw [sum_congr rfl (g := fun l => if i = r + l then C l j else 0)]
    · split_ifs with h
      · exact sum_eq_zero fun l _ => if_neg (by omega)
      · rw [sum_eq_single (i - r)]
        · rw [if_pos (by omega)]
        · intro l _ hl; exact if_neg (by omega)
        · intro h'; exact absurd (mem_range.2 (by omega)) h'
    · intro l hl
      rw [rB.elem i l hi (mem_range.1 hl)]
      by_cases h : i = r + l <;> simp [h]
  rw [e1, e2]
  split_ifs <;> simp

/-- **C34 (`concat<HORIZONTAL>`).**  `X` next to `Y`. -/
theorem C34_concat_horizontal {x y : MNode K} {r c d : ℕ} {A C : ℕ → ℕ → K} (hc : 0 < c)
    (hd : 0 < d) (hx : Means E sv V x r c A) (hy : Means E sv V y r d C) (π : Sched) {oA oB : ℕ}
    (hA : ∀ M, concatHA π c d = some M → Holds E V oA c (c + d) fun i j => (M.get? i j).getD 0)
    (hB : ∀ M, concatHB π c d = some M → Holds E V oB d (c + d) fun i j => (M.get? i j).getD 0)
    (k : ℕ) : ∃ e k', concatH E x y oA oB k = some (e, k') ∧
      Means E sv V e r (c + d) (fun i j => if j < c then A i j else C i (j - c)) := by
  obtain ⟨-, -, ⟨MA, eA, rA⟩, ⟨MB, eB, rB⟩⟩ := concat_consts (K := K) π hc hd
  have hA' := (hA MA eA); have hB' := (hB MB eB)
  refine ⟨_, _, by rw [concatH, hx.dims, hy.dims, if_pos rfl], ?_⟩
  refine ((hx.mul hA'.means k).add (hy.mul hB'.means _) _).congr fun i j hi hj => ?_
  have e1 : ∑ l ∈ range c, A i l * (MA.get? l j).getD 0 = if j < c then A i j else 0 := by
    rw [sum_congr rfl (g := fun l => if j = l then A i l else 0)]
    · rw [sum_ite_eq]; simp [mem_range]
    · intro l hl
      rw [rA.elem l j (mem_range.1 hl) hj]
      by_cases h : l = j
      · subst h; simp [eyeF]
      · simp [eyeF, h, Ne.symm h]
  have e2 : ∑ l ∈ range d, C i l * (MB.get? l j).getD 0 = if j < c then 0 else C i (j - c) := by
    rw [sum_congr rfl (g := fun l => if j = c + l then C i l else 0)]
    · split_ifs with h
      · exact sum_eq_zero fun l _ => if_neg (by omega)
      · rw [sum_eq_single (j - c)]
        · rw [if_pos (by omega)]
        · intro l _ hl; exact if_neg (by omega)
        · intro h'; exact absurd (mem_range.2 (by omega)) h'
    · intro l hl
      rw [rB.elem l j (mem_range.1 hl) hj]
      by_cases h : j = c + l <;> simp [h]
  rw [e1, e2]
  split_ifs <;> simp

/-! ### Powers and series -/

/-- Element `(i,j)` of a square matrix (0 outside). -/
def elOf {n : ℕ} (M : Matrix (Fin n) (Fin n) K) (i j : ℕ) : K :=
  if h : i < n ∧ j < n then M ⟨i, h.1⟩ ⟨j, h.2⟩ else 0

theorem elOf_lt {n : ℕ} (M : Matrix (Fin n) (Fin n) K) {i j : ℕ} (hi : i < n) (hj : j < n) :
    elOf M i j = M ⟨i, hi⟩ ⟨j, hj⟩ := dif_pos ⟨hi, hj⟩

theorem toMatrix_lt {n : ℕ} (A : ℕ → ℕ → K) {i j : ℕ} (hi : i < n) (hj : j < n) :
    elOf (toMatrix n A) i j = A i j := elOf_lt _ hi hj

/-- **C34 (`pow<N>`).**  The `N`-th matrix power. -/
theorem C34_pow {x : MNode K} {n : ℕ} {A : ℕ → ℕ → K} (hx : Means E sv V x n n A) {eye : ℕ}
    (he : Holds E V eye n n eyeF) (N k : ℕ) :
    Means E sv V (powM eye x N k).1 n n (elOf (toMatrix n A ^ N)) := by
  induction N generalizing k with
  | zero =>
    refine he.means.congr fun i j hi hj => ?_
    rw [pow_zero, elOf_lt _ hi hj, Matrix.one_apply]
    simp [eyeF]
  | succ N ih =>
    refine (hx.mul (ih k) _).congr fun i j hi hj => ?_
    rw [pow_succ', elOf_lt _ hi hj, Matrix.mul_apply, ← Fin.sum_univ_eq_sum_range
      (fun l => A i l * elOf (toMatrix n A ^ N) l j)]
    exact sum_congr rfl fun l _ => by rw [elOf_lt _ l.2 hj]; rfl

/-- `Factorial` is the factorial up to 20, the largest value that fits 64 bits. -/
theorem factU64_eq {n : ℕ} (hn : n ≤ 20) : factU64 n = n.factorial := by
  have : ∀ n ≤ 20, factU64 n = n.factorial := by decide
  exact this n hn

/-- What `MatrixExp<N>` computes for any `N`. -/
theorem matrixExp_means {x : MNode K} {n : ℕ} {A : ℕ → ℕ → K} (hx : Means E sv V x n n A)
    {eye : ℕ} (he : Holds E V eye n n eyeF) (N k : ℕ) :
    Means E sv V (matrixExp eye x N k).1 n n
      (elOf (∑ m ∈ range (N + 1), ((factU64 m : ℕ) : K)⁻¹ • toMatrix n A ^ m)) := by
  induction N generalizing k with
  | zero =>
    refine he.means.congr fun i j hi hj => ?_
    rw [elOf_lt _ hi hj]
    simp [eyeF, Matrix.one_apply, factU64]
  | succ N ih =>
    refine ((C34_div_number (C34_pow hx he (N + 1) k) _ _).add (ih _) _).congr
      fun i j hi hj => ?_
    rw [elOf_lt _ hi hj, elOf_lt _ hi hj, elOf_lt _ hi hj, sum_range_succ _ (N + 1),
      Matrix.add_apply, Matrix.smul_apply, smul_eq_mul]
    ring

/-- **C34 (`MatrixExp<N>`), `N ≤ 20`.**  The truncated exponential series `∑ₖ Xᵏ / k!`, `k ≤ N`.
Partial: for larger `N` the factorial overflows, see `C34_matrix_exp_counterexample`. -/
theorem C34_matrix_exp_partial {x : MNode K} {n : ℕ} {A : ℕ → ℕ → K} (hx : Means E sv V x n n A)
    {eye : ℕ} (he : Holds E V eye n n eyeF) {N : ℕ} (hN : N ≤ 20) (k : ℕ) :
    Means E sv V (matrixExp eye x N k).1 n n
      (elOf (∑ m ∈ range (N + 1), ((m.factorial : K))⁻¹ • toMatrix n A ^ m)) := by
  refine (matrixExp_means hx he N k).congr fun i j _ _ => ?_
  congr 1
  refine sum_congr rfl fun m hm => ?_
  rw [factU64_eq (by have := mem_range.1 hm; omega)]

/-- **C34 (`MatrixLog<N>`).**  The truncated series `-∑ₖ (I - X)ᵏ / k`, `1 ≤ k ≤ N`. -/
theorem C34_matrix_log {x : MNode K} {n : ℕ} {A : ℕ → ℕ → K} (hx : Means E sv V x n n A)
    {eye z : ℕ} (he : Holds E V eye n n eyeF) (hz : Holds E V z n n zeroF) (N k : ℕ) :
    Means E sv V (matrixLog eye z x N k).1 n n
      (elOf (-∑ m ∈ range N, (((m + 1 : ℕ) : K))⁻¹ • (1 - toMatrix n A) ^ (m + 1))) := by
  induction N generalizing k with
  | zero =>
    refine hz.means.congr fun i j hi hj => ?_
    rw [elOf_lt _ hi hj]
    simp
  | succ N ih =>
    refine (((C34_pow (he.means.sub hx k) he (N + 1) _).smul _ _).add (ih _) _).congr
      fun i j hi hj => ?_
    have e : toMatrix n (fun i j => eyeF i j - A i j) = 1 - toMatrix n A := by
      ext p q
      simp [toMatrix, eyeF, Matrix.one_apply, Fin.ext_iff]
    rw [elOf_lt _ hi hj, elOf_lt _ hi hj, elOf_lt _ hi hj, sum_range_succ _ N, e,
      Matrix.neg_apply, Matrix.neg_apply, Matrix.add_apply, Matrix.smul_apply, smul_eq_mul]
    ring

end

/-! ### Functions with exponential, logarithm and square root (over the reals) -/

section real

variable {E : MEnv ℝ} {sv : ℕ → ℝ} {V : ℕ → ℕ → ℕ → ℝ}

/-- `ExpM`.  UnaryFunctions.hpp:64-68, CommonMatFunctions.hpp:298. -/
noncomputable abbrev expM : MUn ℝ := .map Real.exp Real.exp
/-- `LogM`.  UnaryFunctions.hpp:70-80, CommonMatFunctions.hpp:301. -/
noncomputable abbrev logM : MUn ℝ := .map Real.log fun x => 1 / x
/-- `SqrtM`.  UnaryFunctions.hpp:82-92, CommonMatFunctions.hpp:304. -/
noncomputable abbrev sqrtM : MUn ℝ := .map Real.sqrt fun x => 1 / (2 * Real.sqrt x)

/-- **C34 (`MatrixFrobeniusNorm`).**  The square root of the sum of squares. -/
theorem C34_frobenius {x : MNode ℝ} {r c : ℕ} {A : ℕ → ℕ → ℝ} (hx : Means E sv V x r c A)
    {o1 o2 : ℕ} (h1 : Holds E V o1 1 r onesF) (h2 : Holds E V o2 c 1 onesF) (k : ℕ) :
    Means E sv V (frobenius sqrtM x o1 o2 k).1 1 1
      (fun _ _ => Real.sqrt (∑ i ∈ range r, ∑ j ∈ range c, A i j ^ 2)) :=
  (((C34_sigma (hx.had hx k) h1 h2 _).2.2).map _ _ _).congr fun _ _ _ _ => by
    simp only [pow_two]

/-- **C34 (element-wise `/`), positive elements.**  The quotient of the elements.
Partial: false for other elements, see `C34_division_counterexample`. -/
theorem C34_elementwise_division_partial {x y : MNode ℝ} {r c : ℕ} {A C : ℕ → ℕ → ℝ}
    (hx : Means E sv V x r c A) (hy : Means E sv V y r c C)
    (pA : ∀ i j, i < r → j < c → 0 < A i j) (pC : ∀ i j, i < r → j < c → 0 < C i j) (k : ℕ) :
    ∃ e k', elemDiv E expM logM x y k = some (e, k') ∧
      Means E sv V e r c (fun i j => A i j / C i j) := by
  refine ⟨_, _, by rw [elemDiv, hx.dims, hy.dims, if_pos ⟨rfl, rfl⟩], ?_⟩
  refine (((hx.map _ _ _).sub (hy.map _ _ _) _).map _ _ _).congr fun i j hi hj => ?_
  rw [Real.exp_sub, Real.exp_log (pA i j hi hj), Real.exp_log (pC i j hi hj)]

/-- The value of `SoftMax`. -/
theorem softMax_means {x : MNode ℝ} {r c : ℕ} {A : ℕ → ℕ → ℝ} (hx : Means E sv V x r c A)
    (hr : 0 < r) (hc : 0 < c)
    {o1 o2 r1 r2 : ℕ} (h1 : Holds E V o1 1 r onesF) (h2 : Holds E V o2 c 1 onesF)
    (h3 : Holds E V r1 r 1 onesF) (h4 : Holds E V r2 1 c onesF) (k : ℕ) :
    Means E sv V (softMax expM logM .row x o1 o2 r1 r2 k).1 r c
      (fun i j => Real.exp (A i j) / ∑ p ∈ range r, Real.exp (A p j)) ∧
    Means E sv V (softMax expM logM .column x o1 o2 r1 r2 k).1 r c
      (fun i j => Real.exp (A i j) / ∑ q ∈ range c, Real.exp (A i q)) ∧
    Means E sv V (softMax expM logM .all x o1 o2 r1 r2 k).1 r c
      (fun i j => Real.exp (A i j) / ∑ p ∈ range r, ∑ q ∈ range c, Real.exp (A p q)) := by
  have he := hx.map Real.exp Real.exp k
  refine ⟨?_, ?_, ?_⟩
  · have hs := (C34_sigma he h1 h2 (mkUn expM x k).2).1
    refine (((hx.sub (h3.means.mul (hs.map Real.log (fun x => 1 / x) _) _) _)).map Real.exp Real.exp
      _).congr fun i j _ _ => ?_
    rw [Real.exp_sub]
    simp only [sum_range_one, onesF, one_mul]
    rw [Real.exp_log (sum_pos (fun _ _ => Real.exp_pos _) ⟨0, mem_range.2 hr⟩)]
  · have hs := (C34_sigma he h1 h2 (mkUn expM x k).2).2.1
    refine (((hx.sub ((hs.map Real.log (fun x => 1 / x) _).mul h4.means _) _)).map Real.exp Real.exp
      _).congr fun i j _ _ => ?_
    rw [Real.exp_sub]
    simp only [sum_range_one, onesF, mul_one]
    rw [Real.exp_log (sum_pos (fun _ _ => Real.exp_pos _) ⟨0, mem_range.2 hc⟩)]
  · have hs := (C34_sigma he h1 h2 (mkUn expM x k).2).2.2
    refine (((hx.sub ((h3.means.mul (hs.map Real.log (fun x => 1 / x) _) _).mul h4.means _) _)).map
      Real.exp Real.exp _).congr fun i j _ _ => ?_
    rw [Real.exp_sub]
    simp only [sum_range_one, onesF, mul_one, one_mul]
    rw [Real.exp_log (sum_pos (fun _ _ => sum_pos (fun _ _ => Real.exp_pos _) ⟨0, mem_range.2 hc⟩)
      ⟨0, mem_range.2 hr⟩)]

/-- **C34 (`SoftMax`).**  The elements are positive and sum to one down every column (`ROW`), along
every row (`COLUMN`), over the whole matrix (`ALL`). -/
theorem C34_softmax {x : MNode ℝ} {r c : ℕ} {A : ℕ → ℕ → ℝ} (hx : Means E sv V x r c A)
    (hr : 0 < r) (hc : 0 < c)
    {o1 o2 r1 r2 : ℕ} (h1 : Holds E V o1 1 r onesF) (h2 : Holds E V o2 c 1 onesF)
    (h3 : Holds E V r1 r 1 onesF) (h4 : Holds E V r2 1 c onesF) (k : ℕ) :
    (∃ S, Means E sv V (softMax expM logM .row x o1 o2 r1 r2 k).1 r c S ∧
      (∀ i j, 0 < S i j) ∧ ∀ j, ∑ i ∈ range r, S i j = 1) ∧
    (∃ S, Means E sv V (softMax expM logM .column x o1 o2 r1 r2 k).1 r c S ∧
      (∀ i j, 0 < S i j) ∧ ∀ i, ∑ j ∈ range c, S i j = 1) ∧
    (∃ S, Means E sv V (softMax expM logM .all x o1 o2 r1 r2 k).1 r c S ∧
      (∀ i j, 0 < S i j) ∧ ∑ i ∈ range r, ∑ j ∈ range c, S i j = 1) := by
  obtain ⟨a, b, d⟩ := softMax_means hx hr hc h1 h2 h3 h4 k
  have p1 : ∀ j, 0 < ∑ p ∈ range r, Real.exp (A p j) := fun j =>
    sum_pos (fun _ _ => Real.exp_pos _) ⟨0, mem_range.2 hr⟩
  have p2 : ∀ i, 0 < ∑ q ∈ range c, Real.exp (A i q) := fun j =>
    sum_pos (fun _ _ => Real.exp_pos _) ⟨0, mem_range.2 hc⟩
  have p3 : 0 < ∑ p ∈ range r, ∑ q ∈ range c, Real.exp (A p q) :=
    sum_pos (fun i _ => p2 i) ⟨0, mem_range.2 hr⟩
  refine ⟨⟨_, a, fun i j => div_pos (Real.exp_pos _) (p1 j), fun j => ?_⟩,
    ⟨_, b, fun i j => div_pos (Real.exp_pos _) (p2 i), fun i => ?_⟩,
    ⟨_, d, fun i j => div_pos (Real.exp_pos _) p3, ?_⟩⟩
  · rw [← sum_div, div_self (p1 j).ne']
  · rw [← sum_div, div_self (p2 i).ne']
  · simp only [← sum_div]
    rw [div_self p3.ne']

/-- **Counterexample (element-wise `/`).**  Whatever the logarithm returns, where the true quotient is
not positive the library's answer is not the quotient. -/
theorem C34_division_counterexample {x y : MNode ℝ} {r c : ℕ} {A C : ℕ → ℕ → ℝ}
    (hx : Means E sv V x r c A) (hy : Means E sv V y r c C) (log dlog : ℝ → ℝ) {i j : ℕ} (hi : i < r)
    (hj : j < c) (hq : A i j / C i j ≤ 0) (k : ℕ) :
    ∃ e k', elemDiv E expM (.map log dlog) x y k = some (e, k') ∧ den E sv V e i j ≠ A i j / C i j := by
  refine ⟨_, _, by rw [elemDiv, hx.dims, hy.dims, if_pos ⟨rfl, rfl⟩], ?_⟩
  refine fun h' => ?_
  have h' := ((((hx.map log dlog k).sub (hy.map log dlog _) _).map Real.exp Real.exp _).val i j hi
    hj).symm.trans h'
  have := Real.exp_pos (log (A i j) - log (C i j))
  linarith

/-- The smallest `X`: 1 × 1. -/
theorem Means.one_by_one {x : MNode ℝ} {v : ℝ} (h : Means E sv V x 1 1 fun _ _ => v) :
    den E sv V x 0 0 = v := h.val 0 0 one_pos one_pos

/-- **Counterexample (`MatrixExp<21>`).**  `Factorial(21)` does not fit 64 bits; for the 1 × 1 matrix
`X = 1`, `MatrixExp<21>(X)` is not the truncated exponential series. -/
theorem C34_matrix_exp_counterexample {x : MNode ℝ} (hx : Means E sv V x 1 1 fun _ _ => 1) {eye : ℕ}
    (he : Holds E V eye 1 1 eyeF) (k : ℕ) :
    den E sv V (matrixExp eye x 21 k).1 0 0 ≠ ∑ m ∈ range 22, ((m.factorial : ℝ))⁻¹ := by
  rw [(matrixExp_means hx he 21 k).val 0 0 one_pos one_pos, elOf_lt _ one_pos one_pos,
    Matrix.sum_apply, sum_range_succ, sum_range_succ (fun m => ((m.factorial : ℝ))⁻¹)]
  have e : ∀ m : ℕ, (toMatrix 1 (fun _ _ => (1 : ℝ)) ^ m) = 1 := by
    intro m
    have : toMatrix 1 (fun _ _ => (1 : ℝ)) = 1 := by
      ext a b; fin_cases a; fin_cases b; rfl
    rw [this, one_pow]
  have e2 : ∀ m ∈ range 21, (((factU64 m : ℕ) : ℝ)⁻¹ • toMatrix 1 (fun _ _ => (1 : ℝ)) ^ m)
      ⟨0, one_pos⟩ ⟨0, one_pos⟩ = ((m.factorial : ℝ))⁻¹ := by
    intro m hm
    rw [e, factU64_eq (by have := mem_range.1 hm; omega)]
    simp
  rw [sum_congr rfl e2]
  intro h
  have h2 := add_left_cancel h
  rw [e] at h2
  simp only [Matrix.smul_apply, Matrix.one_apply_eq, smul_eq_mul, mul_one, inv_inj] at h2
  have h3 : factU64 21 = Nat.factorial 21 := by exact_mod_cast h2
  exact absurd h3 (by decide)

end real

/-! ### From `Means` to the library's answer -/

/-- The meaning of a formula is what `TensorR2::Eval` returns for a matrix bound to it, after any
run (conditions as for `C38_eval_current_partial`). -/
theorem C34_eval_partial {E : MEnv K} {rank : ℕ → ℕ} {s : MSt K} {U : ℕ → Prop}
    (h : MHist E rank s U) (c : MCtx K) (hE : c.E = E) {o f : ℕ} (hq : QueryOk c rank False o)
    (hf : rank o < f) (ho : U o ∨ ∀ p, MReach E o p → ¬U p) {n e eye} (hk : E.kind o = .form n e eye)
    {r m : ℕ} {A : ℕ → ℕ → K} (hm : Means E c.sc.val (MVal c rank) e r m A) :
    ∃ s' M, matEval c f (.obj o) s = some (s', M) ∧ M.rows = r ∧ M.cols = m ∧
      ∀ i j, i < r → j < m → M.get? i j = some (A i j) := by
  obtain ⟨s', M, e1, e2, e3, e4, _⟩ := C38_eval_current_partial h c hE hq hf ho
  subst hE
  obtain ⟨_, _, _, _, hr, hc, _⟩ := hq.wf.form o n e eye hk
  rw [hm.dims] at hr hc
  simp only at hr hc
  refine ⟨s', M, e1, by rw [e2, hr], by rw [e3, hc], fun i j hi hj => ?_⟩
  rw [e4 i j (by omega) (by omega), mval_form c hq.wf hq.eyes hk (by omega) (by omega),
    hm.val i j hi hj]

/-- A numeric matrix (or a matrix of variables) holds the values of its elements. -/
theorem holds_leaf (c : MCtx K) {rank : ℕ → ℕ} (hwf : c.E.WF rank) (he : EyesOk c.E c.sc.val) {o : ℕ}
    (ho : ¬c.E.isForm o) {A : ℕ → ℕ → K}
    (hA : ∀ i j, i < c.E.rows o → j < c.E.cols o → c.sc.val (c.E.el o i j) = A i j) :
    Holds c.E (MVal c rank) o (c.E.rows o) (c.E.cols o) A :=
  ⟨rfl, rfl, fun i j hi hj => (mval_leaf c hwf he ho hi hj).trans (hA i j hi hj)⟩

/-! ### A concrete program: `S = Sigma(X)` for a 2 × 2 matrix `X` of variables -/

namespace FunExample

/-- `X` (0), `Ones(1,2)` (1), `Ones(2,1)` (2), `Eye(1)` (3), `S = Sigma(X)` (4), a 1 × 1 number (5). -/
def E : MEnv ℚ where
  kind := fun o => match o with
    | 0 => .var
    | 4 => .form 9 (sigma .all (.obj 0) 1 2 7).1 3
    | _ => .num
  rows := fun o => if o = 0 ∨ o = 2 then 2 else 1
  cols := fun o => if o = 0 ∨ o = 1 then 2 else 1
  el := fun o i j => if o = 0 then i * 2 + j else 4
  vid := id

def rank : ℕ → ℕ | 4 => 1 | _ => 0
def sv : ℕ → ℚ | 0 => 5 | 1 => 6 | 2 => 7 | 3 => 8 | _ => 1

def ctx : MCtx ℚ := ⟨naiveB Sched.seq, Sched.seq, E, ⟨sv, fun _ _ => 0⟩⟩

theorem kinds {o n e eye} (hk : E.kind o = .form n e eye) :
    o = 4 ∧ n = 9 ∧ e = (sigma .all (.obj 0) 1 2 7).1 ∧ eye = 3 := by
  match o with
  | 0 => simp [E] at hk
  | 1 => simp [E] at hk
  | 2 => simp [E] at hk
  | 3 => simp [E] at hk
  | 4 =>
    simp only [E, MKind.form.injEq] at hk
    exact ⟨rfl, hk.1.symm, hk.2.1.symm, hk.2.2.symm⟩
  | (k + 5) => simp [E] at hk

theorem wf : E.WF rank := by
  refine ⟨fun o => ?_, fun o => ?_, ?_⟩
  · simp only [E]; split <;> omega
  · simp only [E]; split <;> omega
  · intro o n e eye hk
    obtain ⟨rfl, rfl, rfl, rfl⟩ := kinds hk
    refine ⟨rfl, rfl, rfl, ?_, rfl, rfl, ?_⟩
    · simp [sigma, mkBin, MNode.clone, DimOk, MNode.dims, MBin.dimOk, MBin.odims, MBin.padOk, E]
    · intro q hq
      simp only [MEnv.item, sigma, mkBin, MNode.clone, MNode.objs, List.mem_append,
        List.mem_singleton] at hq
      rcases hq with ((rfl | rfl) | rfl) | rfl <;> decide

theorem eyes : EyesOk E sv := by
  intro o n e eye hk i j hi hj
  obtain ⟨rfl, rfl, rfl, rfl⟩ := kinds hk
  have hi' : i < 1 := hi
  have hj' : j < 1 := hj
  obtain rfl : i = 0 := by omega
  obtain rfl : j = 0 := by omega
  rfl

theorem queryOk (o : ℕ) : QueryOk ctx rank False o := by
  have hg : Cfg.CPU ⟨.naive, false, .cpu⟩ := rfl
  refine ⟨wf, ?_, eyes, ⟨fun p _ n e eye hk hu => ?_, fun p _ n e eye hk => ?_⟩⟩
  · have := backend_sound0 (K := ℚ) hg Sched.seq
    rw [backend_naive] at this; exact this
  · obtain ⟨rfl, rfl, rfl, rfl⟩ := kinds hk
    simp [sigma, mkBin, MNode.clone, UsesInv] at hu
  · obtain ⟨rfl, rfl, rfl, rfl⟩ := kinds hk
    simp [sigma, mkBin, MNode.clone, Invertible]

/-- The hypotheses of `C34_eval_partial` and `C34_sigma` are met: the library answers 26. -/
example : ∃ s' M, matEval ctx 2 (.obj 4) MSt.fresh = some (s', M) ∧ M.rows = 1 ∧ M.cols = 1 ∧
    M.get? 0 0 = some 26 := by
  have hX := holds_leaf ctx wf eyes (o := 0) (A := MVal ctx rank 0) (by rintro ⟨n, e, eye, h⟩; cases h)
    (fun i j hi hj => (mval_leaf ctx wf eyes (by rintro ⟨n, e, eye, h⟩; cases h) hi hj).symm)
  have h1 := holds_leaf ctx wf eyes (o := 1) (A := onesF) (by rintro ⟨n, e, eye, h⟩; cases h)
    (fun i j hi hj => rfl)
  have h2 := holds_leaf ctx wf eyes (o := 2) (A := onesF) (by rintro ⟨n, e, eye, h⟩; cases h)
    (fun i j hi hj => rfl)
  obtain ⟨s', M, a, b, c, d⟩ := C34_eval_partial MHist.fresh ctx rfl (queryOk 4) (f := 2) (by decide)
    (Or.inr fun _ _ h => h) (o := 4) rfl
    (C34_sigma (sv := ctx.sc.val) hX.means h1 h2 7).2.2
  refine ⟨s', M, a, b, c, ?_⟩
  rw [d 0 0 one_pos one_pos]
  have hr : ctx.E.rows 0 = 2 := rfl
  have hc : ctx.E.cols 0 = 2 := rfl
  rw [hr, hc]
  have hv : ∀ i j, i < 2 → j < 2 → MVal ctx rank 0 i j = sv (i * 2 + j) := fun i j hi hj =>
    mval_leaf ctx wf eyes (o := 0) (by rintro ⟨n, e, eye, h⟩; cases h) hi hj
  simp only [sum_range_succ, sum_range_zero, hv, two_pos, one_lt_two]
  norm_num [sv]

end FunExample

end CoolDiff
