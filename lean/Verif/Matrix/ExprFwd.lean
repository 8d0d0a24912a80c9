import Verif.Matrix.ExprFwdOps

/-!
# Forward differentiation of matrix expressions is correct
-/

set_option linter.unusedSectionVars false

namespace CoolDiff

open Finset

variable {K : Type} [Field K] [DecidableEq K]

/-! ## Derivative buffers of matrices with elements -/

/-- Distinct `Matrix<Variable>` objects with as many elements share no variables, and no variable occurs twice in
one.  (Objects with different numbers of elements may share: a view of some elements, for example.) -/
def VarsOk (E : MEnv K) : Prop :=
  ∀ o p, E.kind o = .var → E.kind p = .var → E.rows o * E.cols o = E.rows p * E.cols p →
    ∀ l k i j, l < E.rows o → k < E.cols o →
    i < E.rows p → j < E.cols p → E.vid (E.el o l k) = E.vid (E.el p i j) → o = p ∧ l = i ∧ k = j

/-- Distinct `Matrix<Variable>` objects share no variables, and no variable occurs twice in one. -/
def VarsApart (E : MEnv K) : Prop :=
  ∀ o p, E.kind o = .var → E.kind p = .var → ∀ l k i j, l < E.rows o → k < E.cols o →
    i < E.rows p → j < E.cols p → E.vid (E.el o l k) = E.vid (E.el p i j) → o = p ∧ l = i ∧ k = j

theorem VarsApart.ok {E : MEnv K} (h : VarsApart E) : VarsOk E := fun o p ho hp _ => h o p ho hp

/-- Derivatives of the elements of a matrix with respect to themselves. -/
def delta (l k i j : ℕ) : K := if l = i ∧ k = j then 1 else 0

/-- The buffer holds only zeros. -/
def ZeroBuf (b : Option (Mat K)) : Prop := ∀ m, b = some m → ∀ v ∈ m.data, v = 0

/-- The derivative buffer of the `Matrix<Variable>` `o`: absent, all zero, the derivative of `o`
with respect to itself, or of another size. -/
def VarBuf (E : MEnv K) (o : ℕ) (b : Option (Mat K)) : Prop :=
  ZeroBuf b ∨ (∃ m, b = some m ∧
    Rep m (E.rows o * E.rows o) (E.cols o * E.cols o) (lay (E.rows o) (E.cols o) delta)) ∨
  ∃ m, b = some m ∧ m.rows * m.cols ≠ (E.rows o * E.rows o) * (E.cols o * E.cols o)

/-- A buffer of another size is replaced by zeros. -/
theorem pool_other {b : Option (Mat K)} {m0 : Mat K} (hm : b = some m0) {r c : ℕ} (hr : 0 < r) (hc : 0 < c)
    (hne : m0.rows * m0.cols ≠ r * c) : ∃ m, Mat.pool b r c = some m ∧ Rep m r c (fun _ _ => 0) := by
  obtain ⟨m, h1, h2⟩ := Mat.new_spec (K := K) hr hc
  refine ⟨m, ?_, h2⟩
  subst hm
  have e2 : r ≠ m0.rows ∨ c ≠ m0.cols := by
    by_contra h
    simp only [ne_eq, not_or, not_not] at h
    exact hne (by rw [h.1, h.2])
  simp only [Mat.pool, if_neg (Ne.symm hne), if_pos e2, h1]

theorem pool_zero {b : Option (Mat K)} (hb : Live b) (hz : ZeroBuf b) {r c : ℕ} (hr : 0 < r)
    (hc : 0 < c) : ∃ m, Mat.pool b r c = some m ∧ Rep m r c (fun _ _ => 0) := by
  obtain ⟨m, h1, h2, h3, h4⟩ := Mat.pool_spec hb hr hc
  refine ⟨m, h1, Rep.of_raw h4 h2 h3 ?_⟩
  intro i j hi hj
  have hz' : ∀ v ∈ m.data, v = 0 := by
    have hnew : Mat.new r c = some m → ∀ v ∈ m.data, v = 0 := by
      intro h v hv
      simp only [Mat.new, if_pos (And.intro hr hc), Option.some.injEq] at h
      subst h; exact List.eq_of_mem_replicate hv
    rcases b with _ | m0
    · exact hnew h1
    · by_cases e1 : r * c = m0.rows * m0.cols
      · simp only [Mat.pool, if_pos e1, Mat.reshape, Option.some.injEq] at h1
        subst h1; exact hz m0 rfl
      · by_cases e2 : r ≠ m0.rows ∨ c ≠ m0.cols
        · simp only [Mat.pool, if_neg e1, if_pos e2] at h1; exact hnew h1
        · simp only [Mat.pool, if_neg e1, if_neg e2, Option.some.injEq] at h1
          subst h1; exact hz m0 rfl
  have hlt : i * c + j < m.data.length := by rw [h4.len, h2, h3]; exact flat_lt hi hj
  rw [List.getElem?_eq_getElem hlt, hz' _ (List.getElem_mem hlt)]

theorem Rep.zeroBuf {m : Mat K} {r c : ℕ} (h : Rep m r c (fun _ _ => 0)) : ZeroBuf (some m) := by
  intro m' hm v hv
  cases hm
  obtain ⟨n, hn, rfl⟩ := List.getElem_of_mem hv
  have hn' : n < r * c := by rw [← h.len]; exact hn
  have := h.raw_flat hn'
  simp only [Mat.raw?] at this
  rw [List.getElem?_eq_getElem hn] at this
  simpa using this

/-- The two nested loops over all elements and all elements of `X` write every position. -/
theorem pairFill {π : Sched} {r c xr xc : ℕ} {res : Mat K} (hwf : res.WF)
    (hr : res.rows = r * xr) (hc : res.cols = c * xc) (hxr : 0 < xr) (hxc : 0 < xc) (g : ℕ → ℕ → ℕ → ℕ → K) :
    ∃ m, forEach (π.run _ (pairs (r * c) (xr * xc)))
      (fun p m =>
        let k := p.1 % c
        let l := (p.1 - k) / c
        let j := p.2 % xc
        let i := (p.2 - j) / xc
        m.put? (l * xr + i) (k * xc + j) (g l k i j)) res = some m ∧
      Rep m (r * xr) (c * xc) (lay xr xc g) := by
  suffices h : ∃ m, forEach (π.run _ (pairs (r * c) (xr * xc)))
      (fun p m =>
        let k := p.1 % c
        let l := (p.1 - k) / c
        let j := p.2 % xc
        let i := (p.2 - j) / xc
        m.put? (l * xr + i) (k * xc + j) (g l k i j)) res = some m ∧
      Rep m res.rows res.cols (lay xr xc g) by rw [hr, hc] at h; exact h
  refine forEach_rep (fun p => p.1 / c * xr + p.2 / xc) (fun p => p.1 % c * xc + p.2 % xc)
    (fun p => g (p.1 / c) (p.1 % c) (p.2 / xc) (p.2 % xc)) _ _ _ res hwf ?_ ?_ ?_ ?_ ?_
  · intro p _ m' _ _
    simp only [row_eq]
  · intro p hp
    rw [π.mem, mem_pairs] at hp
    rw [hr]
    exact flat_lt (div_lt_of_lt_mul' hp.1) (div_lt_of_lt_mul' hp.2)
  · intro p hp
    rw [π.mem, mem_pairs] at hp
    rw [hc]
    exact flat_lt (mod_lt_of_lt_mul hp.1) (mod_lt_of_lt_mul hp.2)
  · intro p hp
    rw [π.mem, mem_pairs] at hp
    rw [lay_at _ (div_lt_of_lt_mul' hp.2) (mod_lt_of_lt_mul hp.2)]
  · intro a b ha hb
    rw [hr] at ha; rw [hc] at hb
    left
    have h1 : a / xr < r := div_lt_of_lt_mul' ha
    have h2 : b / xc < c := div_lt_of_lt_mul' hb
    have h3 : a % xr < xr := Nat.mod_lt _ hxr
    have h4 : b % xc < xc := Nat.mod_lt _ hxc
    refine ⟨(a / xr * c + b / xc, a % xr * xc + b % xc), ?_, ?_, ?_⟩
    · rw [π.mem, mem_pairs]; exact ⟨flat_lt h1 h2, flat_lt h3 h4⟩
    · simp only [flat_div h2, flat_div h4, div_mul_mod]
    · simp only [flat_mod h2, flat_mod h4, div_mul_mod]

/-- Writing only the ones is enough if the rest is already zero (or already right). -/
theorem selfFill {π : Sched} {xr xc : ℕ} {res : Mat K} (hwf : res.WF)
    (hr : res.rows = xr * xr) (hc : res.cols = xc * xc) (hxr : 0 < xr) (hxc : 0 < xc)
    (hres : Rep res (xr * xr) (xc * xc) (fun _ _ => 0) ∨
      Rep res (xr * xr) (xc * xc) (lay xr xc delta)) :
    ∃ m, forEach (π.run _ (List.range (xr * xc)))
      (fun n m =>
        let j := n % xc
        let i := (n - j) / xc
        m.put? (i * xr + i) (j * xc + j) 1) res = some m ∧
      Rep m (xr * xr) (xc * xc) (lay xr xc delta) := by
  suffices h : ∃ m, forEach (π.run _ (List.range (xr * xc)))
      (fun n m =>
        let j := n % xc
        let i := (n - j) / xc
        m.put? (i * xr + i) (j * xc + j) 1) res = some m ∧
      Rep m res.rows res.cols (lay xr xc delta) by rw [hr, hc] at h; exact h
  refine forEach_rep (fun n => n / xc * xr + n / xc) (fun n => n % xc * xc + n % xc)
    (fun _ => 1) _ _ _ res hwf ?_ ?_ ?_ ?_ ?_
  · intro p _ m' _ _
    simp only [row_eq]
  · intro n hn
    rw [π.mem, List.mem_range] at hn
    rw [hr]; exact flat_lt (div_lt_of_lt_mul' hn) (div_lt_of_lt_mul' hn)
  · intro n hn
    rw [π.mem, List.mem_range] at hn
    rw [hc]; exact flat_lt (mod_lt_of_lt_mul hn) (mod_lt_of_lt_mul hn)
  · intro n hn
    rw [π.mem, List.mem_range] at hn
    rw [lay_at _ (div_lt_of_lt_mul' hn) (mod_lt_of_lt_mul hn), delta, if_pos ⟨rfl, rfl⟩]
  · intro a b ha hb
    rw [hr] at ha; rw [hc] at hb
    by_cases h : a / xr = a % xr ∧ b / xc = b % xc
    · left
      have h3 : a % xr < xr := Nat.mod_lt _ hxr
      have h4 : b % xc < xc := Nat.mod_lt _ hxc
      refine ⟨a % xr * xc + b % xc, ?_, ?_, ?_⟩
      · rw [π.mem, List.mem_range]; exact flat_lt h3 h4
      · simp only [flat_div h4]
        conv_lhs => rw [← h.1]
        nth_rewrite 2 [h.1]; exact div_mul_mod _ _
      · simp only [flat_mod h4]
        conv_lhs => rw [← h.2]
        nth_rewrite 2 [h.2]; exact div_mul_mod _ _
    · right
      rcases hres with hz | hz
      · rw [hz.elem a b ha hb, lay, delta, if_neg h]
      · exact hz.elem a b ha hb

/-! ## The invariant -/

section
variable (c : MCtx K) (X : ℕ) (rank : ℕ → ℕ) (V : ℕ → ℕ → ℕ → K) (D : ℕ → ℕ → ℕ → ℕ → ℕ → K)
  (S : Set ℕ)

/-- The stored derivative of matrix `o` is right. -/
def DRep (o : ℕ) (b : Option (Mat K)) : Prop :=
  ∃ m, b = some m ∧ Rep m (c.E.rows o * c.E.rows X) (c.E.cols o * c.E.cols X)
    (lay (c.E.rows X) (c.E.cols X) (D o))

/-- Derivative buffers of all matrices are in order (no formula is needed to say it). -/
structure DBufs (E : MEnv K) (s : MSt K) : Prop where
  live : ∀ o, ¬E.isForm o → Live (s.obj o).dresult
  num : ∀ o, (E.kind o = .num ∨ E.kind o = .par) → ZeroBuf (s.obj o).dresult
  var : ∀ o, E.kind o = .var → VarBuf E o (s.obj o).dresult

/-- State invariant during forward differentiation. -/
structure MFInv (r : ℕ) (s : MSt K) : Prop where
  e : MEInv c rank V S r s
  bufs : DBufs c.E s
  leaf : ∀ o ∈ S, ¬c.E.isForm o → (s.obj o).devald = true → DRep c X D o (s.obj o).dresult
  form : ∀ o ∈ S, rank o < r → c.E.isForm o → (s.obj o).visited = true →
    DRep c X D o (s.obj o).dresult

/-- What forward differentiation leaves alone. -/
structure FFrame (r : ℕ) (s s' : MSt K) : Prop where
  out : ∀ o, ¬(o ∈ S ∧ rank o < r) → s'.obj o = s.obj o
  cache : ∀ o, (s'.obj o).cache = (s.obj o).cache
  mono : ∀ o, (s.obj o).visited = true → (s'.obj o).visited = true

variable {c X rank V D S}

theorem EFrame.toF {r : ℕ} {s s' : MSt K} (h : EFrame rank S r s s') : FFrame rank S r s s' :=
  ⟨h.out, h.cache, h.mono⟩

theorem FFrame.trans {r : ℕ} {s s' s'' : MSt K} (h : FFrame rank S r s s')
    (h' : FFrame rank S r s' s'') : FFrame rank S r s s'' :=
  ⟨fun o ho => (h'.out o ho).trans (h.out o ho), fun o => (h'.cache o).trans (h.cache o),
    fun o ho => h'.mono o (h.mono o ho)⟩

theorem FFrame.setN {r : ℕ} {s s' : MSt K} (h : FFrame rank S r s s') (n : ℕ) (a : Slots K) :
    FFrame rank S r s (s'.setN n a) := ⟨h.out, h.cache, h.mono⟩

theorem MFInv.setN {r : ℕ} {s : MSt K} (h : MFInv c X rank V D S r s) (n : ℕ) {a : Slots K}
    (ha : SlotsOk c.E.P a) : MFInv c X rank V D S r (s.setN n a) :=
  ⟨h.e.setN n ha, ⟨h.bufs.live, h.bufs.num, h.bufs.var⟩, h.leaf, h.form⟩

/-- Evaluation of an expression all of whose matrices were visited keeps the invariant. -/
theorem MFInv.eval {r : ℕ} {s s' : MSt K} (h : MFInv c X rank V D S r s)
    (hs' : MEInv c rank V S r s') (hf : EFrame rank S r s s')
    (hv : ∀ q, (s'.obj q).visited = (s.obj q).visited) : MFInv c X rank V D S r s' := by
  refine ⟨hs', ⟨?_, ?_, ?_⟩, ?_, ?_⟩
  · intro o ho; rw [hf.dres]; exact h.bufs.live o ho
  · intro o ho; rw [hf.dres]; exact h.bufs.num o ho
  · intro o ho; rw [hf.dres]; exact h.bufs.var o ho
  · intro o hS ho; rw [hf.dres, hf.dev]; exact h.leaf o hS ho
  · intro o hS hr ho; rw [hf.dres, hv]; exact h.form o hS hr ho

/-- What `devalF` of a named matrix must achieve. -/
def FSpecO (c : MCtx K) (X : ℕ) (rank : ℕ → ℕ) (V : ℕ → ℕ → ℕ → K)
    (D : ℕ → ℕ → ℕ → ℕ → ℕ → K) (S : Set ℕ) (r : ℕ)
    (fw : ℕ → MSt K → Option (MSt K × Mat K)) : Prop :=
  ∀ o ∈ S, rank o < r → ∀ s, MFInv c X rank V D S r s → ∃ s' m, fw o s = some (s', m) ∧
    MFInv c X rank V D S r s' ∧ FFrame rank S r s s' ∧ (s'.obj o).visited = true ∧
    Rep m (c.E.rows o * c.E.rows X) (c.E.cols o * c.E.cols X)
      (lay (c.E.rows X) (c.E.cols X) (D o))

/-- Derivative of a scalar handle with respect to the elements of `X`. -/
def MCtx.sd (c : MCtx K) (X : ℕ) (s i j : ℕ) : K := c.sc.der s (c.E.vid (c.E.el X i j))

theorem dims_pos {E : MEnv K} {rank : ℕ → ℕ} (hwf : E.WF rank) :
    ∀ e : MNode K, 0 < (e.dims E).1 ∧ 0 < (e.dims E).2
  | .obj o => ⟨hwf.rpos o, hwf.cpos o⟩
  | .bin _ .add a b => ⟨(dims_pos hwf a).1, (dims_pos hwf b).2⟩
  | .bin _ .sub a b => ⟨(dims_pos hwf a).1, (dims_pos hwf b).2⟩
  | .bin _ .mul a b => ⟨(dims_pos hwf a).1, (dims_pos hwf b).2⟩
  | .bin _ .had a b => ⟨(dims_pos hwf a).1, (dims_pos hwf b).2⟩
  | .bin _ (.conv _ _ _ _) _ _ => ⟨Nat.succ_pos _, Nat.succ_pos _⟩
  | .un _ .tr a => ⟨(dims_pos hwf a).2, (dims_pos hwf a).1⟩
  | .un _ .det _ => ⟨one_pos, one_pos⟩
  | .un _ (.sadd _) a => dims_pos hwf a
  | .un _ (.smul _) a => dims_pos hwf a
  | .un _ (.saddE _) a => dims_pos hwf a
  | .un _ (.smulE _) a => dims_pos hwf a
  | .un _ (.map _ _) a => dims_pos hwf a
  | .un _ .inv a => dims_pos hwf a

/-- `devalF` of an expression, given correct `eval` and `devalF` of the named matrices. -/
theorem fwdE_spec (hwf : c.E.WF rank) (hB : c.B.Sound c.E.P) (hK : c.B.KronSound)
    (hP : PadsOk c.E X) {r : ℕ}
    {ev fw : ℕ → MSt K → Option (MSt K × Mat K)}
    (hev : ESpecO c rank V S r ev) (hfw : FSpecO c X rank V D S r fw) (e : MNode K) :
    DimOk c.E e → (UsesInv e → c.B.InvSound) → Invertible True c.E c.sc.val V e →
    (∀ q ∈ e.objs, q ∈ S ∧ rank q < r) →
    ∀ s, MFInv c X rank V D S r s → ∃ s' m, fwdE c X ev fw e s = some (s', m) ∧
      MFInv c X rank V D S r s' ∧ FFrame rank S r s s' ∧ (∀ q ∈ e.objs, (s'.obj q).visited = true) ∧
      Rep m ((e.dims c.E).1 * c.E.rows X) ((e.dims c.E).2 * c.E.cols X)
        (lay (c.E.rows X) (c.E.cols X) (tan c.E c.sc.val (c.sd X) V D e)) := by
  induction e with
  | obj o =>
    intro _ _ _ hobj s hs
    obtain ⟨hS, hr⟩ := hobj o (by simp [MNode.objs])
    obtain ⟨s', m, h1, h2, h3, h4, h6⟩ := hfw o hS hr s hs
    refine ⟨s', m, h1, h2, h3, ?_, h6⟩
    intro q hq
    simp only [MNode.objs, List.mem_singleton] at hq
    subst hq; exact h4
  | bin n op x y ihx ihy =>
    intro hdim hI hinv hobj s hs
    obtain ⟨hdx, hdy, hd, hpad⟩ := hdim
    have hox : ∀ q ∈ x.objs, q ∈ S ∧ rank q < r := fun q hq => hobj q (by simp [MNode.objs, hq])
    have hoy : ∀ q ∈ y.objs, q ∈ S ∧ rank q < r := fun q hq => hobj q (by simp [MNode.objs, hq])
    obtain ⟨s1, dL, e1, i1, f1, v1, r1⟩ := ihx hdx (fun h => hI (Or.inl h)) hinv.1 hox s hs
    obtain ⟨s2, dR, e2, i2, f2, v2, r2⟩ := ihy hdy (fun h => hI (Or.inr h)) hinv.2 hoy s1 i1
    have v2x : ∀ q ∈ x.objs, (s2.obj q).visited = true := fun q hq => f2.mono q (v1 q hq)
    by_cases hop : op.evalsOperands = true
    · obtain ⟨s3, L, e3, i3, f3, v3, w3, r3⟩ := evalE_spec hB hev x hdx
        (fun h => hI (Or.inl h)) hinv.1.weaken hox s2 i2.e
      have I3 := i2.eval i3 f3 (w3 v2x)
      obtain ⟨s4, R, e4, i4, f4, v4, w4, r4⟩ := evalE_spec hB hev y hdy
        (fun h => hI (Or.inr h)) hinv.2.weaken hoy s3 i3
      have I4 := I3.eval i4 f4 (w4 (fun q hq => f3.mono q (v2 q hq)))
      obtain ⟨a, m, e5, l5, r5⟩ := MBin.fwd_spec hB hK op (i4.live n) hd hpad hP (hwf.rpos X)
        (hwf.cpos X)
        (fun _ => r3) (fun _ => r4) r1 r2
      refine ⟨s4.setN n a, m, ?_, I4.setN n l5,
        (((f1.trans f2).trans f3.toF).trans f4.toF).setN n a, ?_, ?_⟩
      · simp [fwdE, hd, hop, e1, e2, e3, e4, e5]
      · intro q hq
        simp only [MNode.objs, List.mem_append] at hq
        rcases hq with hq | hq
        · exact f4.mono q (f3.mono q (v2x q hq))
        · exact f4.mono q (f3.mono q (v2 q hq))
      · rw [tan_bin]; exact r5
    · obtain ⟨a, m, e5, l5, r5⟩ := MBin.fwd_spec hB hK op (L := dL) (R := dR)
        (A := den c.E c.sc.val V x) (C := den c.E c.sc.val V y)
        (i2.e.live n) hd hpad hP (hwf.rpos X) (hwf.cpos X)
        (fun h => absurd h hop) (fun h => absurd h hop) r1 r2
      refine ⟨s2.setN n a, m, ?_, i2.setN n l5, (f1.trans f2).setN n a, ?_, ?_⟩
      · simp [fwdE, hd, hop, e1, e2, e5]
      · intro q hq
        simp only [MNode.objs, List.mem_append] at hq
        rcases hq with hq | hq
        · exact v2x q hq
        · exact v2 q hq
      · rw [tan_bin]; exact r5
  | un n op x ih =>
    intro hdim hI hinv hobj s hs
    obtain ⟨hdx, hd⟩ := hdim
    have hox : ∀ q ∈ x.objs, q ∈ S ∧ rank q < r :=
      fun q hq => hobj q (by simpa [MNode.objs] using hq)
    have hIx : UsesInv x → c.B.InvSound := fun h => hI (by cases op <;> simp [UsesInv, h])
    have hIo : op.isInv → c.B.InvSound :=
      fun h => hI (by cases op <;> simp_all [UsesInv, MUn.isInv])
    have hvx : Invertible True c.E c.sc.val V x := by
      cases op <;> first | exact hinv | exact hinv.1
    have hio : op.isInv → (toMatrix (x.dims c.E).1 (den c.E c.sc.val V x)).det ≠ 0 := by
      cases op <;> intro h <;> first | exact h.elim | exact hinv.2 | exact hinv.2 trivial
    obtain ⟨s1, dR, e1, i1, f1, v1, r1⟩ := ih hdx hIx hvx hox s hs
    obtain ⟨hp1, hp2⟩ := dims_pos hwf x
    by_cases hop : op.evalsOperand = true
    · obtain ⟨s3, R, e3, i3, f3, v3, w3, r3⟩ := evalE_spec hB hev x hdx hIx hvx.weaken hox s1 i1.e
      have I3 := i1.eval i3 f3 (w3 v1)
      obtain ⟨a, m, e5, l5, r5⟩ := MUn.fwd_spec hB hK op hIo (i3.live n) hd (hwf.rpos X)
        (hwf.cpos X) hp1 hp2 (fun _ => r3) r1 hio
      refine ⟨s3.setN n a, m, ?_, I3.setN n l5, (f1.trans f3.toF).setN n a, ?_, ?_⟩
      · simp [fwdE, hd, hop, e1, e3, e5]
      · intro q hq; exact f3.mono q (v1 q (by simpa [MNode.objs] using hq))
      · rw [tan_un, dims_un]; exact r5
    · obtain ⟨a, m, e5, l5, r5⟩ := MUn.fwd_spec hB hK op hIo (R := dR)
        (A := den c.E c.sc.val V x) (i1.e.live n) hd (hwf.rpos X)
        (hwf.cpos X) hp1 hp2 (fun h => absurd h hop) r1 hio
      refine ⟨s1.setN n a, m, ?_, i1.setN n l5, f1.setN n a, ?_, ?_⟩
      · simp [fwdE, hd, hop, e1, e5]
      · intro q hq; exact v1 q (by simpa [MNode.objs] using hq)
      · rw [tan_un, dims_un]; exact r5

/-- The derivative a matrix with elements computes. -/
theorem leafFwd_spec (hwf : c.E.WF rank) (hvars : VarsOk c.E) (hX : c.E.kind X = .var)
    (hD : MSolvesD c.E c.sc.val (c.sd X) V D X S)
    {o r : ℕ} (hS : o ∈ S) (hleaf : ¬c.E.isForm o) {s : MSt K}
    (hs : MFInv c X rank V D S r s) :
    ∃ m, leafFwd c X o (s.obj o) = some m ∧
      Rep m (c.E.rows o * c.E.rows X) (c.E.cols o * c.E.cols X)
        (lay (c.E.rows X) (c.E.cols X) (D o)) ∧
      ((c.E.kind o = .num ∨ c.E.kind o = .par) → ZeroBuf (some m)) ∧
      (c.E.kind o = .var → VarBuf c.E o (some m)) := by
  have hxr := hwf.rpos X
  have hxc := hwf.cpos X
  have hR : 0 < c.E.rows o * c.E.rows X := Nat.mul_pos (hwf.rpos o) hxr
  have hC : 0 < c.E.cols o * c.E.cols X := Nat.mul_pos (hwf.cpos o) hxc
  -- the derivative of matrices without variables of `X`
  have hzero : (∀ l k i j, l < c.E.rows o → k < c.E.cols o → i < c.E.rows X → j < c.E.cols X →
      D o l k i j = 0) → ∀ m : Mat K, Rep m (c.E.rows o * c.E.rows X) (c.E.cols o * c.E.cols X)
        (lay (c.E.rows X) (c.E.cols X) (D o)) → ZeroBuf (some m) := by
    intro h m hm
    refine (hm.congr (B := fun _ _ => 0) ?_).zeroBuf
    intro p q hp hq
    exact h _ _ _ _ (div_lt_of_lt_mul' hp) (div_lt_of_lt_mul' hq) (Nat.mod_lt _ hxr)
      (Nat.mod_lt _ hxc)
  have hvar0 : c.E.kind o = .var → o ≠ X → c.E.rows o * c.E.cols o = c.E.rows X * c.E.cols X →
      ∀ l k i j, l < c.E.rows o → k < c.E.cols o →
      i < c.E.rows X → j < c.E.cols X → D o l k i j = 0 := by
    intro hk hne hsz l k i j hl hk' hi hj
    rw [hD.var o hS hk l k i j hl hk' hi hj, if_neg]
    intro h; exact hne (hvars o X hk hX hsz l k i j hl hk' hi hj h).1
  have hvarX : o = X → ∀ l k i j, l < c.E.rows o → k < c.E.cols o →
      i < c.E.rows X → j < c.E.cols X → D o l k i j = delta l k i j := by
    intro he l k i j hl hk' hi hj
    rw [hD.var o hS (by rw [he]; exact hX) l k i j hl hk' hi hj, delta]
    subst he
    by_cases h : l = i ∧ k = j
    · obtain ⟨rfl, rfl⟩ := h; simp
    · rw [if_neg h, if_neg]
      intro h'; exact h (hvars o o hX hX rfl l k i j hl hk' hi hj h').2
  suffices hmain : ∃ m, leafFwd c X o (s.obj o) = some m ∧
      Rep m (c.E.rows o * c.E.rows X) (c.E.cols o * c.E.cols X)
        (lay (c.E.rows X) (c.E.cols X) (D o)) by
    obtain ⟨m, h1, h2⟩ := hmain
    refine ⟨m, h1, h2, fun hk => hzero (hD.num o hS hk) m h2, fun hk => ?_⟩
    by_cases hoX : o = X
    · right; left
      refine ⟨m, rfl, ?_⟩
      have h3 := h2.congr (B := lay (c.E.rows X) (c.E.cols X) delta) (fun p q hp hq => by
        simp only [lay]
        exact hvarX hoX _ _ _ _ (div_lt_of_lt_mul' hp) (div_lt_of_lt_mul' hq) (Nat.mod_lt _ hxr)
          (Nat.mod_lt _ hxc))
      rw [hoX] at h3 ⊢; exact h3
    · by_cases hsz : c.E.rows o * c.E.cols o = c.E.rows X * c.E.cols X
      · left; exact hzero (hvar0 hk hoX hsz) m h2
      · right; right
        refine ⟨m, rfl, fun h => hsz ?_⟩
        rw [h2.rows, h2.cols] at h
        have h' : (c.E.rows o * c.E.cols o) * (c.E.rows X * c.E.cols X) =
            (c.E.rows o * c.E.cols o) * (c.E.rows o * c.E.cols o) := by
          rw [Nat.mul_mul_mul_comm, h, Nat.mul_mul_mul_comm]
        exact (Nat.eq_of_mul_eq_mul_left (Nat.mul_pos (hwf.rpos o) (hwf.cpos o)) h').symm
  obtain ⟨p, hp, pr, pc, pwf⟩ := Mat.pool_spec (hs.bufs.live o hleaf) hR hC
  by_cases hdv : (s.obj o).devald = true
  · obtain ⟨m, hm1, hm2⟩ := hs.leaf o hS hleaf hdv
    refine ⟨m, ?_, hm2⟩
    rw [leafFwd, hm1, Mat.pool_self hm2.rows hm2.cols, Option.bind_some, if_pos hdv]
  · simp only [leafFwd, hp, Option.bind_some, if_neg hdv, fillDer]
    rcases hk : c.E.kind o with _ | _ | _ | _ | ⟨n, e, eye⟩
    · obtain ⟨m, h1, h2⟩ := pool_zero (hs.bufs.live o hleaf) (hs.bufs.num o (Or.inl hk)) hR hC
      rw [hp] at h1; cases h1
      exact ⟨p, rfl, h2.congr fun a b ha hb => (hD.num o hS (Or.inl hk) _ _ _ _
        (div_lt_of_lt_mul' ha) (div_lt_of_lt_mul' hb) (Nat.mod_lt _ hxr) (Nat.mod_lt _ hxc)).symm⟩
    · obtain ⟨m, h1, h2⟩ := pool_zero (hs.bufs.live o hleaf) (hs.bufs.num o (Or.inr hk)) hR hC
      rw [hp] at h1; cases h1
      exact ⟨p, rfl, h2.congr fun a b ha hb => (hD.num o hS (Or.inr hk) _ _ _ _
        (div_lt_of_lt_mul' ha) (div_lt_of_lt_mul' hb) (Nat.mod_lt _ hxr) (Nat.mod_lt _ hxc)).symm⟩
    · simp only
      by_cases hoX : o = X
      · rw [if_pos hoX]
        have hbuf : Rep p (c.E.rows X * c.E.rows X) (c.E.cols X * c.E.cols X) (fun _ _ => 0) ∨
            Rep p (c.E.rows X * c.E.rows X) (c.E.cols X * c.E.cols X)
              (lay (c.E.rows X) (c.E.cols X) delta) := by
          rcases hs.bufs.var o hk with hz | ⟨m, hm1, hm2⟩ | ⟨m, hm1, hm2⟩
          · left
            obtain ⟨m, h1, h2⟩ := pool_zero (hs.bufs.live o hleaf) hz hR hC
            rw [hp] at h1; cases h1
            rw [hoX] at h2; exact h2
          · right
            rw [hoX] at hm1 hm2 hp
            rw [hm1, Mat.pool_self hm2.rows hm2.cols] at hp
            cases hp; exact hm2
          · left
            rw [hoX] at hm1 hm2 hp hR hC
            obtain ⟨m', h1, h2⟩ := pool_other hm1 hR hC hm2
            rw [hp] at h1; cases h1; exact h2
        obtain ⟨m, h1, h2⟩ := selfFill (π := c.π) pwf (by rw [pr, hoX]) (by rw [pc, hoX]) hxr hxc hbuf
        refine ⟨m, h1, ?_⟩
        have : Rep m (c.E.rows o * c.E.rows X) (c.E.cols o * c.E.cols X)
            (lay (c.E.rows X) (c.E.cols X) delta) := by rw [hoX]; exact h2
        exact this.congr fun a b ha hb => (hvarX hoX _ _ _ _
          (div_lt_of_lt_mul' ha) (div_lt_of_lt_mul' hb) (Nat.mod_lt _ hxr)
          (Nat.mod_lt _ hxc)).symm
      · rw [if_neg hoX]
        obtain ⟨m, h1, h2⟩ := pairFill (π := c.π) pwf pr pc hxr hxc
          (fun l k i j => if c.E.vid (c.E.el o l k) = c.E.vid (c.E.el X i j) then (1 : K) else 0)
        exact ⟨m, h1, h2.congr fun a b ha hb => (hD.var o hS hk _ _ _ _
          (div_lt_of_lt_mul' ha) (div_lt_of_lt_mul' hb) (Nat.mod_lt _ hxr)
          (Nat.mod_lt _ hxc)).symm⟩
    · obtain ⟨m, h1, h2⟩ := pairFill (π := c.π) pwf pr pc hxr hxc
        (fun l k i j => c.sc.der (c.E.el o l k) (c.E.vid (c.E.el X i j)))
      exact ⟨m, h1, h2.congr fun a b ha hb => (hD.exp o hS hk _ _ _ _
          (div_lt_of_lt_mul' ha) (div_lt_of_lt_mul' hb) (Nat.mod_lt _ hxr)
          (Nat.mod_lt _ hxc)).symm⟩
    · exact absurd ⟨n, e, eye, hk⟩ hleaf

/-- The stored product of a formula with the identity has the formula's derivative. -/
theorem tan_item {E : MEnv K} {sv : ℕ → K} {sd : ℕ → ℕ → ℕ → K} {V : ℕ → ℕ → ℕ → K}
    {D : ℕ → ℕ → ℕ → ℕ → ℕ → K} {n : ℕ} {e : MNode K} {eye : ℕ}
    (hr : E.rows eye = (e.dims E).2) (hc : E.cols eye = (e.dims E).2)
    (heye : ∀ i j, i < E.rows eye → j < E.cols eye → V eye i j = if i = j then 1 else 0)
    {l k i j : ℕ} (hk : k < (e.dims E).2)
    (hD : ∀ t, t < (e.dims E).2 → D eye t k i j = 0) :
    tan E sv sd V D (MEnv.item n e eye) l k i j = tan E sv sd V D e l k i j := by
  simp only [MEnv.item, tan]
  rw [Finset.sum_eq_single k]
  · rw [hD k hk]; simp only [den]
    rw [heye k k (by rw [hr]; exact hk) (by rw [hc]; exact hk)]; simp
  · intro t ht htj
    rw [hD t (mem_range.1 ht)]; simp only [den]
    rw [heye t k (by rw [hr]; exact mem_range.1 ht) (by rw [hc]; exact hk), if_neg htj]; simp
  · intro h; exact absurd (mem_range.2 hk) h

/-- `devalF` of a matrix with elements. -/
theorem mfwdO_leaf (hwf : c.E.WF rank) (hvars : VarsOk c.E) (hX : c.E.kind X = .var)
    (hD : MSolvesD c.E c.sc.val (c.sd X) V D X S) {r f o : ℕ}
    (hS : o ∈ S) (hr : rank o < r) (hleaf : ¬c.E.isForm o) {s : MSt K}
    (hs : MFInv c X rank V D S r s) :
    ∃ s' m, mfwdO c X (f + 1) o s = some (s', m) ∧
    MFInv c X rank V D S r s' ∧ FFrame rank S r s s' ∧ (s'.obj o).visited = true ∧
    Rep m (c.E.rows o * c.E.rows X) (c.E.cols o * c.E.cols X)
      (lay (c.E.rows X) (c.E.cols X) (D o)) := by
  have hunf : mfwdO c X (f + 1) o s = (do
      let r ← leafFwd c X o (s.obj o)
      let s := s.setO o { s.obj o with dresult := some r, devald := true, visited := true }
      some (s, r)) := by
    rcases h : c.E.kind o with _ | _ | _ | _ | ⟨n, e, eye⟩
    · simp only [mfwdO, h]
    · simp only [mfwdO, h]
    · simp only [mfwdO, h]
    · simp only [mfwdO, h]
    · exact absurd ⟨n, e, eye, h⟩ hleaf
  obtain ⟨m, h1, h2, h3, h4⟩ := leafFwd_spec hwf hvars hX hD hS hleaf hs
  refine ⟨s.setO o { s.obj o with dresult := some m, devald := true, visited := true }, m,
    by rw [hunf, h1]; rfl, ⟨⟨hs.e.live, ?_, ?_, ?_, ?_⟩, ⟨?_, ?_, ?_⟩, ?_, ?_⟩, ⟨?_, ?_, ?_⟩,
    by simp, h2⟩
  · intro q hq
    by_cases hqo : q = o
    · subst hqo; simp only [setO_same]; exact hs.e.rlive q hq
    · rw [setO_ne _ _ hqo]; exact hs.e.rlive q hq
  · intro q hqS hq
    by_cases hqo : q = o
    · subst hqo; simp only [setO_same]; exact hs.e.leaf q hqS hq
    · rw [setO_ne _ _ hqo]; exact hs.e.leaf q hqS hq
  · intro q hqS hqr hq
    have hqo : q ≠ o := by rintro rfl; exact hleaf hq
    rw [setO_ne _ _ hqo]; exact hs.e.form q hqS hqr hq
  · intro q hqS hqr n e eye hk
    have hqo : q ≠ o := by rintro rfl; exact hleaf ⟨n, e, eye, hk⟩
    rw [setO_ne _ _ hqo]
    intro hv q' hq'
    by_cases h : q' = o
    · subst h; simp
    · rw [setO_ne _ _ h]; exact hs.e.vc q hqS hqr n e eye hk hv q' hq'
  · intro q hq
    by_cases hqo : q = o
    · subst hqo; simp only [setO_same]; exact Live.some h2.wf
    · rw [setO_ne _ _ hqo]; exact hs.bufs.live q hq
  · intro q hq
    by_cases hqo : q = o
    · subst hqo; simp only [setO_same]; exact h3 hq
    · rw [setO_ne _ _ hqo]; exact hs.bufs.num q hq
  · intro q hq
    by_cases hqo : q = o
    · subst hqo; simp only [setO_same]; exact h4 hq
    · rw [setO_ne _ _ hqo]; exact hs.bufs.var q hq
  · intro q hqS hq
    by_cases hqo : q = o
    · subst hqo; simp only [setO_same]; intro _; exact ⟨m, rfl, h2⟩
    · rw [setO_ne _ _ hqo]; exact hs.leaf q hqS hq
  · intro q hqS hqr hq
    have hqo : q ≠ o := by rintro rfl; exact hleaf hq
    rw [setO_ne _ _ hqo]; exact hs.form q hqS hqr hq
  · intro q hq
    have hqo : q ≠ o := by rintro rfl; exact hq ⟨hS, hr⟩
    rw [setO_ne _ _ hqo]
  · intro q; by_cases hqo : q = o
    · subst hqo; simp
    · rw [setO_ne _ _ hqo]
  · intro q; by_cases hqo : q = o
    · subst hqo; simp
    · rw [setO_ne _ _ hqo]; exact id

/-- Changing a formula matrix of rank at least `r` does not concern the invariant at level `r`,
as long as its visited flag does not go down. -/
theorem MFInv.setForm {r o : ℕ} (hform : c.E.isForm o) (hr : r ≤ rank o) {s : MSt K}
    (hs : MFInv c X rank V D S r s) {v : MObj K} (hv : (s.obj o).visited = true → v.visited = true) :
    MFInv c X rank V D S r (s.setO o v) := by
  refine ⟨⟨hs.e.live, ?_, ?_, ?_, ?_⟩, ⟨?_, ?_, ?_⟩, ?_, ?_⟩
  · intro q hq
    rw [setO_ne _ _ (by rintro rfl; exact hq hform)]; exact hs.e.rlive q hq
  · intro q hqS hq
    rw [setO_ne _ _ (by rintro rfl; exact hq hform)]; exact hs.e.leaf q hqS hq
  · intro q hqS hqr hq
    rw [setO_ne _ _ (by rintro rfl; omega)]; exact hs.e.form q hqS hqr hq
  · intro q hqS hqr n e eye hk
    rw [setO_ne _ _ (by rintro rfl; omega)]
    intro hv' q' hq'
    have := hs.e.vc q hqS hqr n e eye hk hv' q' hq'
    by_cases h : q' = o
    · subst h; simpa using hv this
    · rwa [setO_ne _ _ h]
  · intro q hq
    rw [setO_ne _ _ (by rintro rfl; exact hq hform)]; exact hs.bufs.live q hq
  · intro q hq
    rw [setO_ne _ _ (by
      rintro rfl; obtain ⟨n, e, eye, h⟩ := hform; rcases hq with hq | hq <;> rw [hq] at h <;> cases h)]
    exact hs.bufs.num q hq
  · intro q hq
    rw [setO_ne _ _ (by rintro rfl; obtain ⟨n, e, eye, h⟩ := hform; rw [hq] at h; cases h)]
    exact hs.bufs.var q hq
  · intro q hqS hq
    rw [setO_ne _ _ (by rintro rfl; exact hq hform)]; exact hs.leaf q hqS hq
  · intro q hqS hqr hq
    rw [setO_ne _ _ (by rintro rfl; omega)]; exact hs.form q hqS hqr hq

theorem MFInv.lower {r r' : ℕ} (hr : r' ≤ r) {s : MSt K} (h : MFInv c X rank V D S r s) :
    MFInv c X rank V D S r' s :=
  ⟨h.e.lower hr, h.bufs, h.leaf, fun o ho hl => h.form o ho (lt_of_lt_of_le hl hr)⟩

/-- **`devalF` of a named matrix**, by induction on the nesting of formulas. -/
theorem mfwdO_spec (hwf : c.E.WF rank) (hB : c.B.Sound c.E.P) (hK : c.B.KronSound)
    (hP : PadsOk c.E X) (hcl : Closed c.E S)
    (hF : FormsOk c True V S) (hV : MSolves c.E c.sc.val V S) (hvars : VarsOk c.E)
    (hX : c.E.kind X = .var) (hD : MSolvesD c.E c.sc.val (c.sd X) V D X S) :
    ∀ f r, r ≤ f → FSpecO c X rank V D S r (mfwdO c X f) := by
  intro f
  induction f with
  | zero => intro r hrf o _ hr; omega
  | succ f ih =>
    intro r hrf o hS hr s hs
    by_cases hform : c.E.isForm o
    swap
    · exact mfwdO_leaf hwf hvars hX hD hS hr hform hs
    obtain ⟨n, e, eye, hk⟩ := hform
    obtain ⟨hke, hre, hce, _, her, hec, hrk⟩ := hwf.form o n e eye hk
    have heyeS : eye ∈ S := hcl o hS n e eye hk eye (by simp [MEnv.item, MNode.objs])
    by_cases hv : (s.obj o).visited = true
    · obtain ⟨m, hm1, hm2⟩ := hs.form o hS hr ⟨n, e, eye, hk⟩ hv
      refine ⟨s.setO o { s.obj o with devald := true }, m, ?_, ?_, ⟨?_, ?_, ?_⟩,
        by simpa using hv, hm2⟩
      · simp [mfwdO, hk, hv, hm1]
      · have h0 : MFInv c X rank V D S (rank o) (s.setO o { s.obj o with devald := true }) :=
          (hs.lower hr.le).setForm ⟨n, e, eye, hk⟩ le_rfl (fun h => h)
        refine ⟨⟨hs.e.live, h0.e.rlive, h0.e.leaf, ?_, ?_⟩, h0.bufs, h0.leaf, ?_⟩
        · intro q hqS hqr hq
          by_cases hqo : q = o
          · subst hqo; simp only [setO_same]; exact hs.e.form q hqS hqr hq
          · rw [setO_ne _ _ hqo]; exact hs.e.form q hqS hqr hq
        · intro q hqS hqr n' e' eye' hk' hv' q' hq'
          have h1 : (s.obj q).visited = true := by
            by_cases hqo : q = o
            · subst hqo; exact hv
            · rwa [setO_ne _ _ hqo] at hv'
          have h2 := hs.e.vc q hqS hqr n' e' eye' hk' h1 q' hq'
          by_cases hqo : q' = o
          · subst hqo; simpa using h2
          · rwa [setO_ne _ _ hqo]
        · intro q hqS hqr hq
          by_cases hqo : q = o
          · subst hqo; simp only [setO_same]; exact hs.form q hqS hqr hq
          · rw [setO_ne _ _ hqo]; exact hs.form q hqS hqr hq
      · intro q hq
        rw [setO_ne _ _ (by rintro rfl; exact hq ⟨hS, hr⟩)]
      · intro q; by_cases hqo : q = o
        · subst hqo; simp
        · rw [setO_ne _ _ hqo]
      · intro q; by_cases hqo : q = o
        · subst hqo; simp
        · rw [setO_ne _ _ hqo]; exact id
    · let s0 : MSt K := (s.setO o { s.obj o with devald := true }).setO o
        { (s.setO o { s.obj o with devald := true }).obj o with visited := true }
      have hs0 : ∀ q, q ≠ o → s0.obj q = s.obj q := by
        intro q hq; simp only [s0]; rw [setO_ne _ _ hq, setO_ne _ _ hq]
      have hs0o : s0.obj o = { s.obj o with devald := true, visited := true } := by simp [s0]
      have i0 : MFInv c X rank V D S (rank o) s0 :=
        ((hs.lower hr.le).setForm (v := { s.obj o with devald := true }) ⟨n, e, eye, hk⟩ le_rfl
          (fun h => h)).setForm (v := { (s.setO o { s.obj o with devald := true }).obj o with
            visited := true }) ⟨n, e, eye, hk⟩ le_rfl (fun _ => rfl)
      obtain ⟨hid, hiI, hiinv, hidim⟩ := itemOk hwf hF hS hk
      have hobj : ∀ q ∈ (MEnv.item n e eye).objs, q ∈ S ∧ rank q < rank o :=
        fun q hq => ⟨hcl o hS n e eye hk q hq, hrk q hq⟩
      have hevs := mevalO_spec hwf hB hcl hF hV f (rank o) (by omega)
      obtain ⟨s1, d, e1, i1, f1, v1, r1⟩ := fwdE_spec hwf hB hK hP hevs
        (ih (rank o) (by omega)) (MEnv.item n e eye) hid hiI hiinv hobj s0 i0
      have i1' : MFInv c X rank V D S (rank o)
          (s1.setO o { s1.obj o with dresult := some d, devald := true }) :=
        i1.setForm ⟨n, e, eye, hk⟩ le_rfl (fun h => h)
      have hobjne : ∀ q ∈ (MEnv.item n e eye).objs, q ≠ o := by
        intro q hq; rintro rfl; exact absurd (hrk q hq) (lt_irrefl _)
      obtain ⟨s2, m, e2, i2, f2, v2, w2, r2⟩ := evalE_spec hB hevs (MEnv.item n e eye) hid hiI
        hiinv.weaken hobj _ i1'.e
      have i2' := i1'.eval i2 f2 (w2 (fun q hq => by rw [setO_ne _ _ (hobjne q hq)]; exact v1 q hq))
      have h1o : s1.obj o = s0.obj o := f1.out o (fun h => by omega)
      have h2o : s2.obj o = { s1.obj o with dresult := some d, devald := true } := by
        rw [f2.out o (fun h => by omega)]; simp
      have h2q : ∀ q, q ≠ o → ¬rank q < rank o → s2.obj q = s.obj q := by
        intro q hqo hlt
        rw [f2.out q (fun h => hlt h.2), setO_ne _ _ hqo, f1.out q (fun h => hlt h.2), hs0 q hqo]
      obtain ⟨hV1, hV2⟩ := hV.form o hS n e eye hk
      have hrep : Rep m (c.E.rows o) (c.E.cols o) (V o) := by
        rw [hidim] at r2
        refine r2.congr fun i j hi hj => ?_
        rw [den_item hre hce hV2 (by rw [← hec]; exact hj), hV1 i j hi hj]
      have hdrep : Rep d (c.E.rows o * c.E.rows X) (c.E.cols o * c.E.cols X)
          (lay (c.E.rows X) (c.E.cols X) (D o)) := by
        rw [hidim] at r1
        refine r1.congr fun p q hp hq => ?_
        have hl := div_lt_of_lt_mul' hp
        have hk' := div_lt_of_lt_mul' hq
        have hi := Nat.mod_lt p (hwf.rpos X)
        have hj := Nat.mod_lt q (hwf.cpos X)
        simp only [lay]
        rw [tan_item hre hce hV2 (by rw [← hec]; exact hk'), hD.form o hS n e eye hk _ _ _ _ hl hk' hi hj]
        intro t ht
        exact hD.num eye heyeS (Or.inl hke) _ _ _ _ (by rw [hre]; exact ht)
          (by rw [hce, ← hec]; exact hk') hi hj
      have mono2 : ∀ q, (s.obj q).visited = true → (s2.obj q).visited = true := by
        intro q hq
        apply f2.mono
        by_cases hqo : q = o
        · subst hqo; exact absurd hq hv
        · rw [setO_ne _ _ hqo]; apply f1.mono; rwa [hs0 q hqo]
      have i3 : MFInv c X rank V D S (rank o)
          (s2.setO o { s2.obj o with result := some m, evald := true }) :=
        i2'.setForm ⟨n, e, eye, hk⟩ le_rfl (fun h => h)
      refine ⟨s2.setO o { s2.obj o with result := some m, evald := true }, d, ?_,
        ⟨⟨i3.e.live, i3.e.rlive, i3.e.leaf, ?_, ?_⟩, i3.bufs, i3.leaf, ?_⟩, ⟨?_, ?_, ?_⟩, ?_, hdrep⟩
      · have hvf : (s.obj o).visited = false := by simpa using hv
        simp only [mfwdO, hk, setO_same, hvf]
        simp only [s0, setO_same, hvf] at e1
        simp [e1, e2]
      · intro q hqS hqr hq
        by_cases hqo : q = o
        · subst hqo; simp only [setO_same]; intro _; exact ⟨m, rfl, hrep⟩
        · by_cases hlt : rank q < rank o
          · exact i3.e.form q hqS hlt hq
          · rw [setO_ne _ _ hqo, h2q q hqo hlt]; exact hs.e.form q hqS hqr hq
      · intro q hqS hqr n' e' eye' hk' hv' q' hq'
        have key : (s2.obj q').visited = true := by
          by_cases hqo : q = o
          · subst hqo
            rw [hk] at hk'; cases hk'
            exact v2 q' hq'
          · rw [setO_ne _ _ hqo] at hv'
            by_cases hlt : rank q < rank o
            · exact i2.vc q hqS hlt n' e' eye' hk' hv' q' hq'
            · rw [h2q q hqo hlt] at hv'
              exact mono2 q' (hs.e.vc q hqS hqr n' e' eye' hk' hv' q' hq')
        by_cases hqo : q' = o
        · subst hqo; simpa using key
        · rwa [setO_ne _ _ hqo]
      · intro q hqS hqr hq
        by_cases hqo : q = o
        · subst hqo; simp only [setO_same]; intro _; rw [h2o]; exact ⟨d, rfl, hdrep⟩
        · by_cases hlt : rank q < rank o
          · exact i3.form q hqS hlt hq
          · rw [setO_ne _ _ hqo, h2q q hqo hlt]; exact hs.form q hqS hqr hq
      · intro q hq
        have hqo : q ≠ o := by rintro rfl; exact hq ⟨hS, hr⟩
        have hno : ¬(q ∈ S ∧ rank q < rank o) := fun h => hq ⟨h.1, by omega⟩
        rw [setO_ne _ _ hqo, f2.out q hno, setO_ne _ _ hqo, f1.out q hno, hs0 q hqo]
      · intro q; by_cases hqo : q = o
        · subst hqo; simp [h2o, h1o, hs0o]
        · rw [setO_ne _ _ hqo, f2.cache, setO_ne _ _ hqo, f1.cache, hs0 q hqo]
      · intro q hq
        by_cases hqo : q = o
        · subst hqo; exact absurd hq hv
        · rw [setO_ne _ _ hqo]; exact mono2 q hq
      · simp [h2o, h1o, hs0o]

end

end CoolDiff
