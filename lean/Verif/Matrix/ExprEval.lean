import Verif.Matrix.ExprSpec

/-!
# Evaluation of matrix expressions is correct
-/

set_option linter.unusedSectionVars false

namespace CoolDiff

open Finset

variable {K : Type} [Field K] [DecidableEq K]

@[simp] theorem setO_same (s : MSt K) (o : ℕ) (v : MObj K) : (s.setO o v).obj o = v := by
  simp [MSt.setO]
theorem setO_ne (s : MSt K) {o p : ℕ} (v : MObj K) (h : p ≠ o) :
    (s.setO o v).obj p = s.obj p := by simp [MSt.setO, h]
@[simp] theorem setO_slot (s : MSt K) (o : ℕ) (v : MObj K) : (s.setO o v).slot = s.slot := rfl
@[simp] theorem setN_obj (s : MSt K) (n : ℕ) (a : Slots K) : (s.setN n a).obj = s.obj := rfl

theorem setN_live {P : Pads} {s : MSt K} (h : ∀ n, SlotsOk P (s.slot n)) (n : ℕ) {a : Slots K}
    (ha : SlotsOk P a) : ∀ n', SlotsOk P ((s.setN n a).slot n') := by
  intro n'
  refine ⟨?_, ?_, ?_, ?_⟩
  · intro k
    simp only [MSt.setN]
    split
    · exact ha.live k
    · exact (h n').live k
  · simpa [MSt.setN] using ha.naive
  · simpa [MSt.setN] using ha.dl
  · simpa [MSt.setN] using ha.l

/-- What the operator nodes require of the kernels: all of `Sound`; if the expression inverts or
takes determinants, `InvSound`. -/
structure BinvOk (c : MCtx K) (inv : Prop) : Prop where
  sound : c.B.Sound c.E.P
  inv : inv → c.B.InvSound

/-- Elements of a binary node's result. -/
def MBin.val (da db : ℕ × ℕ) (A C : ℕ → ℕ → K) : MBin → ℕ → ℕ → K
  | .add, i, j => A i j + C i j
  | .sub, i, j => A i j - C i j
  | .mul, i, j => ∑ t ∈ range da.2, A i t * C t j
  | .had, i, j => A i j * C i j
  | .conv sx sy px py, i, j => convSpec sx sy px py da.1 da.2 db.1 db.2 A C i j

theorem den_bin (E : MEnv K) (sv : ℕ → K) (V : ℕ → ℕ → ℕ → K) (n : ℕ) (op : MBin)
    (x y : MNode K) : den E sv V (.bin n op x y) =
      op.val (x.dims E) (y.dims E) (den E sv V x) (den E sv V y) := by
  cases op <;> rfl

/-- Operator `eval` on operand results. -/
theorem MBin.eval_spec {c : MCtx K} (hB : c.B.Sound c.E.P) (op : MBin) {L R : Mat K} {a : Slots K}
    (ha : SlotsOk c.E.P a) {da db : ℕ × ℕ} {A C : ℕ → ℕ → K} (hd : op.dimOk da db = true)
    (hp : op.padOk c.E da) (hL : Rep L da.1 da.2 A) (hR : Rep R db.1 db.2 C) :
    ∃ a' m, op.eval c L R a = some (a', m) ∧ SlotsOk c.E.P a' ∧
      Rep m (op.odims da db).1 (op.odims da db).2 (op.val da db A C) := by
  obtain ⟨r, cc⟩ := da; obtain ⟨r', cc'⟩ := db
  cases op with
  | add =>
    simp only [MBin.dimOk, Bool.and_eq_true, beq_iff_eq] at hd
    obtain ⟨rfl, rfl⟩ := hd
    exact kern_spec ha (hB.add (l := .ext L) (r := .ext R) (ha 0) rfl hL rfl hR)
  | sub =>
    simp only [MBin.dimOk, Bool.and_eq_true, beq_iff_eq] at hd
    obtain ⟨rfl, rfl⟩ := hd
    exact kern_spec ha (hB.sub (l := .ext L) (r := .ext R) (ha 0) rfl hL rfl hR)
  | mul =>
    simp only [MBin.dimOk, beq_iff_eq] at hd
    subst hd
    exact kern_spec ha (hB.mul (ha 0) hL hR)
  | had =>
    simp only [MBin.dimOk, Bool.and_eq_true, beq_iff_eq] at hd
    obtain ⟨rfl, rfl⟩ := hd
    exact kern_spec ha (hB.hadamard (l := .ext L) (r := .ext R) (ha 0) rfl hL rfl hR)
  | conv sx sy px py =>
    simp only [MBin.dimOk, Bool.and_eq_true, decide_eq_true_eq] at hd
    exact hB.conv hL hR hd.1.1.1 hd.1.1.2 hd.1.2 hd.2 hp (by decide) ha

/-- Is the operator `inv` or `det`? -/
def MUn.isInv : MUn K → Prop
  | .inv => True
  | .det => True
  | _ => False

/-- The dimensions of a unary node's result. -/
def MUn.odims : MUn K → ℕ × ℕ → ℕ × ℕ
  | .tr, d => (d.2, d.1)
  | .det, _ => (1, 1)
  | _, d => d

theorem dims_un (E : MEnv K) (n : ℕ) (op : MUn K) (x : MNode K) :
    (MNode.un n op x).dims E = op.odims (x.dims E) := by
  cases op <;> rfl

/-- The elements of a unary node's result. -/
noncomputable def MUn.val (sv : ℕ → K) (d : ℕ × ℕ) (A : ℕ → ℕ → K) : MUn K → ℕ → ℕ → K
  | .sadd v, i, j => v + A i j
  | .smul v, i, j => v * A i j
  | .saddE s, i, j => sv s + A i j
  | .smulE s, i, j => sv s * A i j
  | .tr, i, j => A j i
  | .map f _, i, j => f (A i j)
  | .inv, i, j => invEl d.1 A i j
  | .det, _, _ => (toMatrix d.1 A).det

theorem den_un (E : MEnv K) (sv : ℕ → K) (V : ℕ → ℕ → ℕ → K) (n : ℕ) (op : MUn K) (x : MNode K) :
    den E sv V (.un n op x) = op.val sv (x.dims E) (den E sv V x) := by
  cases op <;> rfl

theorem MUn.eval_spec {c : MCtx K} (hB : c.B.Sound c.E.P) (op : MUn K)
    (hI : op.isInv → c.B.InvSound) {R : Mat K} {a : Slots K} (ha : SlotsOk c.E.P a) {d : ℕ × ℕ}
    {A : ℕ → ℕ → K} (hd : op.dimOk d = true) (hR : Rep R d.1 d.2 A)
    (hinv : (match op with | .inv => (toMatrix d.1 A).det ≠ 0 | _ => True)) :
    ∃ a' m, op.eval c R a = some (a', m) ∧ SlotsOk c.E.P a' ∧
      Rep m (op.odims d).1 (op.odims d).2 (op.val c.sc.val d A) := by
  obtain ⟨r, cc⟩ := d
  cases op with
  | sadd v => exact kern_spec ha (hB.scalarAdd v (r := .ext R) (ha 0) rfl hR)
  | smul v => exact kern_spec ha (hB.scalarMul v (r := .ext R) (ha 0) rfl hR)
  | saddE s => exact kern_spec ha (hB.scalarAdd _ (r := .ext R) (ha 0) rfl hR)
  | smulE s => exact kern_spec ha (hB.scalarMul _ (r := .ext R) (ha 0) rfl hR)
  | tr => exact kern_spec ha (hB.transpose (ha 0) hR)
  | map f df => exact kern_spec ha (hB.unary f (r := .ext R) (ha 0) rfl hR)
  | inv =>
    simp only [MUn.dimOk, beq_iff_eq] at hd
    subst hd
    exact kern_spec ha ((hI trivial).inverse (ha 0) hR hinv)
  | det =>
    simp only [MUn.dimOk, beq_iff_eq] at hd
    subst hd
    exact kern_spec ha ((hI trivial).det (ha 0) hR)

/-! ## The invariant of evaluation -/

section
variable (c : MCtx K) (rank : ℕ → ℕ) (V : ℕ → ℕ → ℕ → K) (S : Set ℕ)

/-- State invariant during evaluation: buffers are live; in `S`, evaluated element matrices and
(below rank `r`) visited formula matrices hold their current value, and the matrices mentioned by a
visited formula are visited. -/
structure MEInv (r : ℕ) (s : MSt K) : Prop where
  live : ∀ n, SlotsOk c.E.P (s.slot n)
  rlive : ∀ o, ¬c.E.isForm o → Live (s.obj o).result
  leaf : ∀ o ∈ S, ¬c.E.isForm o → (s.obj o).evald = true →
    ∃ m, (s.obj o).result = some m ∧ Rep m (c.E.rows o) (c.E.cols o) (V o)
  form : ∀ o ∈ S, rank o < r → c.E.isForm o → (s.obj o).visited = true →
    ∃ m, (s.obj o).result = some m ∧ Rep m (c.E.rows o) (c.E.cols o) (V o)
  vc : ∀ o ∈ S, rank o < r → ∀ n e eye, c.E.kind o = .form n e eye → (s.obj o).visited = true →
    ∀ q ∈ (MEnv.item n e eye).objs, (s.obj q).visited = true

/-- What evaluation leaves alone. -/
structure EFrame (r : ℕ) (s s' : MSt K) : Prop where
  out : ∀ o, ¬(o ∈ S ∧ rank o < r) → s'.obj o = s.obj o
  dres : ∀ o, (s'.obj o).dresult = (s.obj o).dresult
  dev : ∀ o, (s'.obj o).devald = (s.obj o).devald
  cache : ∀ o, (s'.obj o).cache = (s.obj o).cache
  mono : ∀ o, (s.obj o).visited = true → (s'.obj o).visited = true

variable {c rank V S}

theorem EFrame.refl (r : ℕ) (s : MSt K) : EFrame rank S r s s :=
  ⟨fun _ _ => rfl, fun _ => rfl, fun _ => rfl, fun _ => rfl, fun _ h => h⟩

theorem EFrame.trans {r : ℕ} {s s' s'' : MSt K} (h : EFrame rank S r s s')
    (h' : EFrame rank S r s' s'') : EFrame rank S r s s'' :=
  ⟨fun o ho => (h'.out o ho).trans (h.out o ho), fun o => (h'.dres o).trans (h.dres o),
    fun o => (h'.dev o).trans (h.dev o), fun o => (h'.cache o).trans (h.cache o),
    fun o ho => h'.mono o (h.mono o ho)⟩

theorem EFrame.setN {r : ℕ} {s s' : MSt K} (h : EFrame rank S r s s') (n : ℕ) (a : Slots K) :
    EFrame rank S r s (s'.setN n a) :=
  ⟨h.out, h.dres, h.dev, h.cache, h.mono⟩

theorem MEInv.setN {r : ℕ} {s : MSt K} (h : MEInv c rank V S r s) (n : ℕ) {a : Slots K}
    (ha : SlotsOk c.E.P a) : MEInv c rank V S r (s.setN n a) :=
  ⟨setN_live h.live n ha, h.rlive, h.leaf, h.form, h.vc⟩

theorem MEInv.lower {r r' : ℕ} (hr : r' ≤ r) {s : MSt K} (h : MEInv c rank V S r s) :
    MEInv c rank V S r' s :=
  ⟨h.live, h.rlive, h.leaf, fun o ho hl => h.form o ho (lt_of_lt_of_le hl hr),
    fun o ho hl => h.vc o ho (lt_of_lt_of_le hl hr)⟩

/-- What `eval` of a named matrix must achieve. -/
def ESpecO (c : MCtx K) (rank : ℕ → ℕ) (V : ℕ → ℕ → ℕ → K) (S : Set ℕ) (r : ℕ)
    (ev : ℕ → MSt K → Option (MSt K × Mat K)) : Prop :=
  ∀ o ∈ S, rank o < r → ∀ s, MEInv c rank V S r s → ∃ s' m, ev o s = some (s', m) ∧
    MEInv c rank V S r s' ∧ EFrame rank S r s s' ∧ (s'.obj o).visited = true ∧
    ((s.obj o).visited = true → ∀ q, (s'.obj q).visited = (s.obj q).visited) ∧
    Rep m (c.E.rows o) (c.E.cols o) (V o)

/-- `eval` of an expression, given correct `eval` of the named matrices. -/
theorem evalE_spec (hB : c.B.Sound c.E.P) {r : ℕ} {ev : ℕ → MSt K → Option (MSt K × Mat K)}
    (hev : ESpecO c rank V S r ev) (e : MNode K) :
    DimOk c.E e → (UsesInv e → c.B.InvSound) → Invertible False c.E c.sc.val V e →
    (∀ q ∈ e.objs, q ∈ S ∧ rank q < r) →
    ∀ s, MEInv c rank V S r s → ∃ s' m, evalE c ev e s = some (s', m) ∧
      MEInv c rank V S r s' ∧ EFrame rank S r s s' ∧ (∀ q ∈ e.objs, (s'.obj q).visited = true) ∧
      ((∀ q ∈ e.objs, (s.obj q).visited = true) →
        ∀ q, (s'.obj q).visited = (s.obj q).visited) ∧
      Rep m (e.dims c.E).1 (e.dims c.E).2 (den c.E c.sc.val V e) := by
  induction e with
  | obj o =>
    intro _ _ _ hobj s hs
    obtain ⟨hS, hr⟩ := hobj o (by simp [MNode.objs])
    obtain ⟨s', m, h1, h2, h3, h4, h5, h6⟩ := hev o hS hr s hs
    refine ⟨s', m, h1, h2, h3, ?_, fun h => h5 (h o (by simp [MNode.objs])), h6⟩
    intro q hq
    simp only [MNode.objs, List.mem_singleton] at hq
    subst hq; exact h4
  | bin n op x y ihx ihy =>
    intro hdim hI hinv hobj s hs
    obtain ⟨hdx, hdy, hd, hpad⟩ := hdim
    obtain ⟨s1, L, e1, i1, f1, v1, w1, r1⟩ := ihx hdx (fun h => hI (Or.inl h)) hinv.1
      (fun q hq => hobj q (by simp [MNode.objs, hq])) s hs
    obtain ⟨s2, R, e2, i2, f2, v2, w2, r2⟩ := ihy hdy (fun h => hI (Or.inr h)) hinv.2
      (fun q hq => hobj q (by simp [MNode.objs, hq])) s1 i1
    obtain ⟨a, m, e3, l3, r3⟩ := MBin.eval_spec hB op (i2.live n) hd hpad r1 r2
    refine ⟨s2.setN n a, m, ?_, i2.setN n l3, (f1.trans f2).setN n a, ?_, ?_, ?_⟩
    · simp [evalE, hd, e1, e2, e3]
    · intro q hq
      simp only [MNode.objs, List.mem_append] at hq
      rcases hq with hq | hq
      · exact f2.mono q (v1 q hq)
      · exact v2 q hq
    · intro h q
      have h1 := w1 (fun q hq => h q (by simp [MNode.objs, hq]))
      have h2 := w2 (fun q hq => by rw [h1]; exact h q (by simp [MNode.objs, hq]))
      exact (h2 q).trans (h1 q)
    · rw [den_bin]; exact r3
  | un n op x ih =>
    intro hdim hI hinv hobj s hs
    obtain ⟨hdx, hd⟩ := hdim
    obtain ⟨s1, R, e1, i1, f1, v1, w1, r1⟩ := ih hdx
      (fun h => hI (by cases op <;> simp [UsesInv, h]))
      (by cases op <;> first | exact hinv | exact hinv.1)
      (fun q hq => hobj q (by simpa [MNode.objs] using hq)) s hs
    obtain ⟨a, m, e3, l3, r3⟩ := MUn.eval_spec hB op
      (fun h => hI (by cases op <;> simp_all [UsesInv, MUn.isInv])) (i1.live n) hd r1
      (by cases op <;> first | trivial | exact hinv.2)
    refine ⟨s1.setN n a, m, ?_, i1.setN n l3, f1.setN n a, ?_, ?_, ?_⟩
    · simp [evalE, hd, e1, e3]
    · intro q hq; exact v1 q (by simpa [MNode.objs] using hq)
    · intro h; exact w1 (fun q hq => h q (by simpa [MNode.objs] using hq))
    · rw [dims_un, den_un]; exact r3

theorem rawFill {g : ℕ → ℕ → K} {r cc : ℕ} {res : Mat K} (hwf : res.WF) (hr : res.rows = r)
    (hc : res.cols = cc) :
    ∃ m, forEach (List.range (r * cc)) (fun n m => m.rawPut? n (g (n / cc) (n % cc))) res = some m ∧
      Rep m r cc g := by
  have hrc : ∀ n ∈ List.range (r * cc), n < r * cc := fun n hn => List.mem_range.1 hn
  suffices h : ∃ m, forEach (List.range (r * cc))
      (fun n m => m.rawPut? n (g (n / cc) (n % cc))) res = some m ∧ Rep m res.rows res.cols g by
    rw [hr, hc] at h; exact h
  refine forEach_rep (fun n => n / cc) (fun n => n % cc)
    (fun n => g (n / cc) (n % cc)) (fun n m => m.rawPut? n (g (n / cc) (n % cc))) g
    (List.range (r * cc)) res hwf ?_ ?_ ?_ (fun _ _ => rfl) ?_
  · intro n hn m' h1 h2
    have hlt := hrc n hn
    simp only [Mat.put?, Mat.rawPut?, h1, hr, h2, hc, div_lt_of_lt_mul' hlt,
      mod_lt_of_lt_mul hlt, true_and, div_mul_mod]
  · intro n hn; rw [hr]; exact div_lt_of_lt_mul' (hrc n hn)
  · intro n hn; rw [hc]; exact mod_lt_of_lt_mul (hrc n hn)
  · intro i j hi hj
    rw [hr] at hi; rw [hc] at hj
    exact Or.inl ⟨i * cc + j, List.mem_range.2 (flat_lt hi hj), flat_div hj, flat_mod hj⟩

theorem not_isForm_of {E : MEnv K} {o : ℕ} {k : MKind K} (h : E.kind o = k)
    (hk : ∀ n e eye, k ≠ .form n e eye) : ¬E.isForm o := by
  rintro ⟨n, e, eye, h'⟩; exact hk n e eye (h.symm.trans h')

/-- `eval` of a matrix with elements. -/
theorem mevalO_leaf (hwf : c.E.WF rank) (hV : MSolves c.E c.sc.val V S) {r f o : ℕ}
    (hS : o ∈ S) (hr : rank o < r) (hleaf : ¬c.E.isForm o) {s : MSt K}
    (hs : MEInv c rank V S r s) :
    ∃ s' m, mevalO c (f + 1) o s = some (s', m) ∧
    MEInv c rank V S r s' ∧ EFrame rank S r s s' ∧ (s'.obj o).visited = true ∧
    ((s.obj o).visited = true → ∀ q, (s'.obj q).visited = (s.obj q).visited) ∧
    Rep m (c.E.rows o) (c.E.cols o) (V o) := by
  have hunf : ∀ s : MSt K, mevalO c (f + 1) o s = (do
      let r ← leafEval c o (s.obj o)
      let s := s.setO o { s.obj o with result := some r, evald := true, visited := true }
      some (s, r)) := by
    intro s
    rcases h : c.E.kind o with _ | _ | _ | _ | ⟨n, e, eye⟩
    · simp only [mevalO, h]
    · simp only [mevalO, h]
    · simp only [mevalO, h]
    · simp only [mevalO, h]
    · exact absurd ⟨n, e, eye, h⟩ hleaf
  obtain ⟨p, hp, pr, pc, pwf⟩ := Mat.pool_spec (hs.rlive o hleaf) (hwf.rpos o) (hwf.cpos o)
  have hval : ∃ m, leafEval c o (s.obj o) = some m ∧
      Rep m (c.E.rows o) (c.E.cols o) (V o) := by
    rw [leafEval, hp, Option.bind_some]
    by_cases hev : (s.obj o).evald = true
    · obtain ⟨m, hm1, hm2⟩ := hs.leaf o hS hleaf hev
      rw [if_pos hev]
      refine ⟨p, rfl, ?_⟩
      rw [hm1, Mat.pool_self hm2.rows hm2.cols] at hp
      cases hp; exact hm2
    · rw [if_neg hev]
      obtain ⟨m, h1, h2⟩ := rawFill (g := fun i j => c.sc.val (c.E.el o i j)) pwf pr pc
      exact ⟨m, h1, h2.congr fun i j hi hj => (hV.leaf o hS hleaf i j hi hj).symm⟩
  obtain ⟨m, hm1, hm2⟩ := hval
  refine ⟨s.setO o { s.obj o with result := some m, evald := true, visited := true }, m,
    by rw [hunf, hm1]; rfl,
    ⟨hs.live, ?_, ?_, ?_, ?_⟩, ⟨?_, ?_, ?_, ?_, ?_⟩, by simp, ?_, hm2⟩
  · intro q hq
    by_cases hqo : q = o
    · subst hqo; simp only [setO_same]; exact Live.some hm2.wf
    · rw [setO_ne _ _ hqo]; exact hs.rlive q hq
  · intro q hqS hq
    by_cases hqo : q = o
    · subst hqo; simp only [setO_same]; intro _; exact ⟨m, rfl, hm2⟩
    · rw [setO_ne _ _ hqo]; exact hs.leaf q hqS hq
  · intro q hqS hqr hq
    have hqo : q ≠ o := by rintro rfl; exact hleaf hq
    rw [setO_ne _ _ hqo]; exact hs.form q hqS hqr hq
  · intro q hqS hqr n e eye hk
    have hqo : q ≠ o := by rintro rfl; exact hleaf ⟨n, e, eye, hk⟩
    rw [setO_ne _ _ hqo]
    intro hv q' hq'
    by_cases h : q' = o
    · subst h; simp
    · rw [setO_ne _ _ h]; exact hs.vc q hqS hqr n e eye hk hv q' hq'
  · intro q hq
    have hqo : q ≠ o := by rintro rfl; exact hq ⟨hS, hr⟩
    rw [setO_ne _ _ hqo]
  · intro q; by_cases hqo : q = o
    · subst hqo; simp
    · rw [setO_ne _ _ hqo]
  · intro q; by_cases hqo : q = o
    · subst hqo; simp
    · rw [setO_ne _ _ hqo]
  · intro q; by_cases hqo : q = o
    · subst hqo; simp
    · rw [setO_ne _ _ hqo]
  · intro q; by_cases hqo : q = o
    · subst hqo; simp
    · rw [setO_ne _ _ hqo]; exact id
  · intro hv q
    by_cases hqo : q = o
    · subst hqo; simp [hv]
    · rw [setO_ne _ _ hqo]

/-- The stored product of a formula with the identity has the formula's value. -/
theorem den_item {E : MEnv K} {sv : ℕ → K} {V : ℕ → ℕ → ℕ → K} {n : ℕ} {e : MNode K} {eye : ℕ}
    (hr : E.rows eye = (e.dims E).2) (hc : E.cols eye = (e.dims E).2)
    (heye : ∀ i j, i < E.rows eye → j < E.cols eye → V eye i j = if i = j then 1 else 0)
    {i j : ℕ} (hj : j < (e.dims E).2) :
    den E sv V (MEnv.item n e eye) i j = den E sv V e i j := by
  simp only [MEnv.item, den]
  rw [Finset.sum_eq_single j]
  · rw [heye j j (by rw [hr]; exact hj) (by rw [hc]; exact hj)]; simp
  · intro t ht htj
    rw [heye t j (by rw [hr]; exact mem_range.1 ht) (by rw [hc]; exact hj), if_neg htj, mul_zero]
  · intro h; exact absurd (mem_range.2 hj) h

/-- Conditions on the formulas in `S`: invertible where inverted, and a backend that can do it. -/
structure FormsOk (c : MCtx K) (detInv : Prop) (V : ℕ → ℕ → ℕ → K) (S : Set ℕ) : Prop where
  inv : ∀ o ∈ S, ∀ n e eye, c.E.kind o = .form n e eye → UsesInv e → c.B.InvSound
  invertible : ∀ o ∈ S, ∀ n e eye, c.E.kind o = .form n e eye →
    Invertible detInv c.E c.sc.val V e

theorem Invertible.weaken {E : MEnv K} {sv : ℕ → K} {V : ℕ → ℕ → ℕ → K} {d : Prop} :
    ∀ {e : MNode K}, Invertible d E sv V e → Invertible False E sv V e
  | .obj _, _ => trivial
  | .bin _ _ _ _, h => ⟨Invertible.weaken h.1, Invertible.weaken h.2⟩
  | .un _ .inv _, h => ⟨Invertible.weaken h.1, h.2⟩
  | .un _ .det _, h => ⟨Invertible.weaken h.1, fun h => h.elim⟩
  | .un _ (.sadd _) a, h => Invertible.weaken (e := a) h
  | .un _ (.smul _) a, h => Invertible.weaken (e := a) h
  | .un _ (.saddE _) a, h => Invertible.weaken (e := a) h
  | .un _ (.smulE _) a, h => Invertible.weaken (e := a) h
  | .un _ .tr a, h => Invertible.weaken (e := a) h
  | .un _ (.map _ _) a, h => Invertible.weaken (e := a) h

theorem itemOk (hwf : c.E.WF rank) {d : Prop} (hF : FormsOk c d V S) {o n e eye}
    (hS : o ∈ S) (hk : c.E.kind o = .form n e eye) :
    DimOk c.E (MEnv.item n e eye) ∧ (UsesInv (MEnv.item n e eye) → c.B.InvSound) ∧
    Invertible d c.E c.sc.val V (MEnv.item n e eye) ∧
    (MEnv.item n e eye).dims c.E = (c.E.rows o, c.E.cols o) := by
  obtain ⟨_, h2, h3, h4, h5, h6, _⟩ := hwf.form o n e eye hk
  refine ⟨⟨h4, trivial, by simp [MBin.dimOk, MNode.dims, h2], trivial⟩, ?_,
    ⟨hF.invertible o hS n e eye hk, trivial⟩, ?_⟩
  · rintro (h | h)
    · exact hF.inv o hS n e eye hk h
    · exact h.elim
  · simp only [MEnv.item, MNode.dims, MBin.odims, h3, h5, h6]

/-- **`eval` of a named matrix**, by induction on the nesting of formulas. -/
theorem mevalO_spec (hwf : c.E.WF rank) (hB : c.B.Sound c.E.P) (hcl : Closed c.E S) {d : Prop}
    (hF : FormsOk c d V S) (hV : MSolves c.E c.sc.val V S) :
    ∀ f r, r ≤ f → ESpecO c rank V S r (mevalO c f) := by
  intro f
  induction f with
  | zero => intro r hrf o _ hr; omega
  | succ f ih =>
    intro r hrf o hS hr s hs
    by_cases hform : c.E.isForm o
    swap
    · exact mevalO_leaf hwf hV hS hr hform hs
    obtain ⟨n, e, eye, hk⟩ := hform
    obtain ⟨_, hre, hce, _, her, hec, hrk⟩ := hwf.form o n e eye hk
    by_cases hv : (s.obj o).visited = true
    · obtain ⟨m, hm1, hm2⟩ := hs.form o hS hr ⟨n, e, eye, hk⟩ hv
      refine ⟨s.setO o { s.obj o with evald := true }, m, ?_, ⟨hs.live, ?_, ?_, ?_, ?_⟩,
        ⟨?_, ?_, ?_, ?_, ?_⟩, by simpa using hv, ?_, hm2⟩
      · simp [mevalO, hk, hv, hm1]
      · intro q hq
        have hqo : q ≠ o := by rintro rfl; exact hq ⟨n, e, eye, hk⟩
        rw [setO_ne _ _ hqo]; exact hs.rlive q hq
      · intro q hqS hq
        have hqo : q ≠ o := by rintro rfl; exact hq ⟨n, e, eye, hk⟩
        rw [setO_ne _ _ hqo]; exact hs.leaf q hqS hq
      · intro q hqS hqr hq
        by_cases hqo : q = o
        · subst hqo; simp only [setO_same]; exact hs.form q hqS hqr hq
        · rw [setO_ne _ _ hqo]; exact hs.form q hqS hqr hq
      · intro q hqS hqr n' e' eye' hk' hv' q' hq'
        have h1 : (s.obj q).visited = true := by
          by_cases hqo : q = o
          · subst hqo; exact hv
          · rwa [setO_ne _ _ hqo] at hv'
        have h2 := hs.vc q hqS hqr n' e' eye' hk' h1 q' hq'
        by_cases hqo : q' = o
        · subst hqo; simpa using h2
        · rwa [setO_ne _ _ hqo]
      · intro q hq
        have hqo : q ≠ o := by rintro rfl; exact hq ⟨hS, hr⟩
        rw [setO_ne _ _ hqo]
      · intro q; by_cases hqo : q = o
        · subst hqo; simp
        · rw [setO_ne _ _ hqo]
      · intro q; by_cases hqo : q = o
        · subst hqo; simp
        · rw [setO_ne _ _ hqo]
      · intro q; by_cases hqo : q = o
        · subst hqo; simp
        · rw [setO_ne _ _ hqo]
      · intro q; by_cases hqo : q = o
        · subst hqo; simp
        · rw [setO_ne _ _ hqo]; exact id
      · intro _ q; by_cases hqo : q = o
        · subst hqo; simp
        · rw [setO_ne _ _ hqo]
    · -- not visited: evaluate the stored product
      let s0 : MSt K := (s.setO o { s.obj o with evald := true }).setO o
        { (s.setO o { s.obj o with evald := true }).obj o with visited := true }
      have hs0 : ∀ q, q ≠ o → s0.obj q = s.obj q := by
        intro q hq; simp only [s0]; rw [setO_ne _ _ hq, setO_ne _ _ hq]
      have hs0o : s0.obj o = { s.obj o with evald := true, visited := true } := by simp [s0]
      have i0 : MEInv c rank V S (rank o) s0 := by
        refine ⟨hs.live, ?_, ?_, ?_, ?_⟩
        · intro q hq
          have hqo : q ≠ o := by rintro rfl; exact hq ⟨n, e, eye, hk⟩
          rw [hs0 q hqo]; exact hs.rlive q hq
        · intro q hqS hq
          have hqo : q ≠ o := by rintro rfl; exact hq ⟨n, e, eye, hk⟩
          rw [hs0 q hqo]; exact hs.leaf q hqS hq
        · intro q hqS hqr
          have hqo : q ≠ o := by rintro rfl; omega
          rw [hs0 q hqo]; exact hs.form q hqS (by omega)
        · intro q hqS hqr n' e' eye' hk' hv' q' hq'
          have hqo : q ≠ o := by rintro rfl; omega
          rw [hs0 q hqo] at hv'
          have h2 := hs.vc q hqS (by omega) n' e' eye' hk' hv' q' hq'
          by_cases hqo' : q' = o
          · subst hqo'; rw [hs0o]
          · rwa [hs0 q' hqo']
      obtain ⟨hid, hiI, hiinv, hidim⟩ := itemOk hwf hF hS hk
      obtain ⟨s1, m, e1, i1, f1, v1, _, r1⟩ := evalE_spec hB
        (ih (rank o) (by omega)) (MEnv.item n e eye) hid hiI hiinv.weaken
        (fun q hq => ⟨hcl o hS n e eye hk q hq, hrk q hq⟩) s0 i0
      have hso : s1.obj o = s0.obj o := f1.out o (fun h => by omega)
      have hrep : Rep m (c.E.rows o) (c.E.cols o) (V o) := by
        rw [hidim] at r1
        refine r1.congr fun i j hi hj => ?_
        obtain ⟨h1, h2⟩ := hV.form o hS n e eye hk
        rw [den_item hre hce h2 (by rw [← hec]; exact hj), h1 i j hi hj]
      refine ⟨s1.setO o { s1.obj o with result := some m, evald := true }, m, ?_,
        ⟨i1.live, ?_, ?_, ?_, ?_⟩, ⟨?_, ?_, ?_, ?_, ?_⟩, ?_, fun h => absurd h hv, hrep⟩
      · have hvf : (s.obj o).visited = false := by simpa using hv
        simp only [mevalO, hk, setO_same, hvf]
        simp only [s0, setO_same, hvf] at e1
        simp [e1]
      · intro q hq
        have hqo : q ≠ o := by rintro rfl; exact hq ⟨n, e, eye, hk⟩
        rw [setO_ne _ _ hqo]; exact i1.rlive q hq
      · intro q hqS hq
        have hqo : q ≠ o := by rintro rfl; exact hq ⟨n, e, eye, hk⟩
        rw [setO_ne _ _ hqo]; exact i1.leaf q hqS hq
      · intro q hqS hqr hq
        by_cases hqo : q = o
        · subst hqo; simp only [setO_same]; intro _; exact ⟨m, rfl, hrep⟩
        · rw [setO_ne _ _ hqo]
          by_cases hlt : rank q < rank o
          · exact i1.form q hqS hlt hq
          · rw [f1.out q (fun h => hlt h.2), hs0 q hqo]; exact hs.form q hqS hqr hq
      · intro q hqS hqr n' e' eye' hk' hv' q' hq'
        have key : (s1.obj q').visited = true := by
          by_cases hqo : q = o
          · subst hqo
            rw [hk] at hk'; cases hk'
            exact v1 q' hq'
          · rw [setO_ne _ _ hqo] at hv'
            by_cases hlt : rank q < rank o
            · exact i1.vc q hqS hlt n' e' eye' hk' hv' q' hq'
            · rw [f1.out q (fun h => hlt h.2), hs0 q hqo] at hv'
              have h2 := hs.vc q hqS hqr n' e' eye' hk' hv' q' hq'
              apply f1.mono
              by_cases hqo' : q' = o
              · subst hqo'; rw [hs0o]
              · rwa [hs0 q' hqo']
        by_cases hqo : q' = o
        · subst hqo; simpa using key
        · rwa [setO_ne _ _ hqo]
      · intro q hq
        have hqo : q ≠ o := by rintro rfl; exact hq ⟨hS, hr⟩
        rw [setO_ne _ _ hqo, f1.out q (fun h => hq ⟨h.1, by omega⟩), hs0 q hqo]
      · intro q; by_cases hqo : q = o
        · subst hqo; simp [hso, hs0o]
        · rw [setO_ne _ _ hqo, f1.dres, hs0 q hqo]
      · intro q; by_cases hqo : q = o
        · subst hqo; simp [hso, hs0o]
        · rw [setO_ne _ _ hqo, f1.dev, hs0 q hqo]
      · intro q; by_cases hqo : q = o
        · subst hqo; simp [hso, hs0o]
        · rw [setO_ne _ _ hqo, f1.cache, hs0 q hqo]
      · intro q hq; by_cases hqo : q = o
        · subst hqo; simp [hso, hs0o]
        · rw [setO_ne _ _ hqo]; apply f1.mono; rwa [hs0 q hqo]
      · simp [hso, hs0o]

end

end CoolDiff
