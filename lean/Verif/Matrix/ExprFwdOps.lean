import Verif.Matrix.ExprEval

/-!
# Forward rules of the matrix operators

The derivative of an `r × c` matrix with respect to an `xr × xc` matrix is stored as an
`(r·xr) × (c·xc)` matrix whose block `(l,k)` holds the partial derivatives of element `(l,k)`.
-/

set_option linter.unusedSectionVars false

namespace CoolDiff

open Finset

variable {K : Type} [Field K] [DecidableEq K]

/-- Partial derivatives of a binary node. -/
def MBin.tan (da db : ℕ × ℕ) (A C : ℕ → ℕ → K) (TA TC : ℕ → ℕ → ℕ → ℕ → K) : MBin → ℕ → ℕ → ℕ → ℕ → K
  | .add, l, k, i, j => TA l k i j + TC l k i j
  | .sub, l, k, i, j => TA l k i j - TC l k i j
  | .mul, l, k, i, j => ∑ t ∈ range da.2, (A l t * TC t k i j + TA l t i j * C t k)
  | .had, l, k, i, j => A l k * TC l k i j + TA l k i j * C l k
  | .conv sx sy px py, l, k, i, j =>
      convTan sx sy px py da.1 da.2 db.1 db.2 A C TA TC l k i j

theorem tan_bin (E : MEnv K) (sv : ℕ → K) (sd : ℕ → ℕ → ℕ → K) (V : ℕ → ℕ → ℕ → K)
    (D : ℕ → ℕ → ℕ → ℕ → ℕ → K) (n : ℕ) (op : MBin) (x y : MNode K) :
    tan E sv sd V D (.bin n op x y) = op.tan (x.dims E) (y.dims E) (den E sv V x) (den E sv V y)
      (tan E sv sd V D x) (tan E sv sd V D y) := by
  cases op <;> rfl

/-- The padding request of a derivative with respect to an `xr × xc` matrix. -/
def PadReq.scale (q : PadReq) (xr xc : ℕ) : PadReq := ⟨q.r * xr, q.c * xc, q.px * xr, q.py * xc⟩

/-- Forward derivatives of convolutions with respect to `X` make only padding requests of the
program, and these do not disturb each other (nor do those of the convolutions). -/
structure PadsOk (E : MEnv K) (X : ℕ) : Prop where
  q : Compat E.pads
  d : Compat E.dpads
  mem : ∀ q ∈ E.pads, q.scale (E.rows X) (E.cols X) ∈ E.dpads

theorem PadsOk.of_empty {E : MEnv K} {X : ℕ} (h : E.pads = ∅) (h' : E.dpads = ∅) : PadsOk E X :=
  ⟨by rw [h]; exact fun _ h => h.elim, by rw [h']; exact fun _ h => h.elim,
    by rw [h]; exact fun _ h => h.elim⟩

theorem MBin.fwd_spec {c : MCtx K} (hB : c.B.Sound c.E.P) (hK : c.B.KronSound) (op : MBin)
    {L R dL dR : Mat K} {a : Slots K} (ha : SlotsOk c.E.P a) {da db : ℕ × ℕ} {A C : ℕ → ℕ → K}
    {TA TC : ℕ → ℕ → ℕ → ℕ → K} (hd : op.dimOk da db = true) (hpad : op.padOk c.E da) {X : ℕ}
    (hP : PadsOk c.E X) (hxr : 0 < c.E.rows X) (hxc : 0 < c.E.cols X)
    (hL : op.evalsOperands = true → Rep L da.1 da.2 A)
    (hR : op.evalsOperands = true → Rep R db.1 db.2 C)
    (hdL : Rep dL (da.1 * (c.E.rows X)) (da.2 * (c.E.cols X)) (lay (c.E.rows X) (c.E.cols X) TA))
    (hdR : Rep dR (db.1 * (c.E.rows X)) (db.2 * (c.E.cols X)) (lay (c.E.rows X) (c.E.cols X) TC)) :
    ∃ a' m, op.fwd c (c.E.rows X) (c.E.cols X) L R dL dR a = some (a', m) ∧ SlotsOk c.E.P a' ∧
      Rep m ((op.odims da db).1 * c.E.rows X) ((op.odims da db).2 * c.E.cols X) (lay (c.E.rows X) (c.E.cols X) (op.tan da db A C TA TC)) := by
  obtain ⟨r, cc⟩ := da; obtain ⟨r', cc'⟩ := db
  cases op with
  | add =>
    simp only [MBin.dimOk, Bool.and_eq_true, beq_iff_eq] at hd
    obtain ⟨rfl, rfl⟩ := hd
    exact kern_spec ha (hB.add (l := .ext dL) (r := .ext dR) (ha 1) rfl hdL rfl hdR)
  | sub =>
    simp only [MBin.dimOk, Bool.and_eq_true, beq_iff_eq] at hd
    obtain ⟨rfl, rfl⟩ := hd
    exact kern_spec ha (hB.sub (l := .ext dL) (r := .ext dR) (ha 1) rfl hdL rfl hdR)
  | mul =>
    simp only [MBin.dimOk, beq_iff_eq] at hd
    subst hd
    replace hL := hL rfl; replace hR := hR rfl
    obtain ⟨Ir, eIr, rIr⟩ := Mat.eye_spec (K := K) c.π hxr
    obtain ⟨Ic, eIc, rIc⟩ := Mat.eye_spec (K := K) c.π hxc
    obtain ⟨a1, m4, e4, l4, r4⟩ := kern_spec (k := 4) ha (hK (ha 4) hL rIr)
    obtain ⟨a2, m5, e5, l5, r5⟩ := kern_spec (k := 5) l4 (hK (l4 5) hR rIc)
    obtain ⟨a3, m2, e2, l2, r2⟩ := kern_spec (k := 2) l5 (hB.mul (l5 2) r4 hdR)
    obtain ⟨a4, m3, e3, l3, r3⟩ := kern_spec (k := 3) l2 (hB.mul (l2 3) hdL r5)
    obtain ⟨a5, m1, e1, l1, r1⟩ := kern_spec (k := 1) l3
      (hB.add (l := .ext m2) (r := .ext m3) (l3 1) rfl r2 rfl r3)
    refine ⟨a5, m1, ?_, l1, r1.congr ?_⟩
    · simp only [MBin.fwd, eIr, eIc, e4, e5, e2, e3, e1, Option.bind_eq_bind, Option.bind_some]
    · intro p q _ _
      rw [kron_eye_left A TC hxr, kron_eye_right C TA hxc]
      simp only [lay, MBin.tan, Finset.sum_add_distrib]
  | had =>
    simp only [MBin.dimOk, Bool.and_eq_true, beq_iff_eq] at hd
    obtain ⟨rfl, rfl⟩ := hd
    replace hL := hL rfl; replace hR := hR rfl
    obtain ⟨O, eO, rO⟩ := Mat.ones_spec (K := K) hxr hxc
    obtain ⟨a1, m4, e4, l4, r4⟩ := kern_spec (k := 4) ha (hK (ha 4) hL rO)
    obtain ⟨a2, m5, e5, l5, r5⟩ := kern_spec (k := 5) l4 (hK (l4 5) hR rO)
    obtain ⟨a3, m2, e2, l2, r2⟩ := kern_spec (k := 2) l5
      (hB.hadamard (l := .ext m4) (r := .ext dR) (l5 2) rfl r4 rfl hdR)
    obtain ⟨a4, m3, e3, l3, r3⟩ := kern_spec (k := 3) l2
      (hB.hadamard (l := .ext dL) (r := .ext m5) (l2 3) rfl hdL rfl r5)
    obtain ⟨a5, m1, e1, l1, r1⟩ := kern_spec (k := 1) l3
      (hB.add (l := .ext m2) (r := .ext m3) (l3 1) rfl r2 rfl r3)
    refine ⟨a5, m1, ?_, l1, r1.congr ?_⟩
    · simp only [MBin.fwd, eO, e4, e5, e2, e3, e1, Option.bind_eq_bind, Option.bind_some]
    · intro p q _ _
      simp only [lay, MBin.tan, mul_one]
  | conv sx sy px py =>
    simp only [MBin.dimOk, Bool.and_eq_true, decide_eq_true_eq] at hd
    exact hB.dervConv hP.q hP.d (hL rfl) (hR rfl) hxr hxc hdL hdR hd.1.1.1 hd.1.1.2 hd.1.2 hd.2 hpad
      (hP.mem _ hpad) (by decide) ha

/-- Partial derivatives of a unary node. -/
noncomputable def MUn.tan (sv : ℕ → K) (sd : ℕ → ℕ → ℕ → K) (d : ℕ × ℕ) (A : ℕ → ℕ → K)
    (T : ℕ → ℕ → ℕ → ℕ → K) : MUn K → ℕ → ℕ → ℕ → ℕ → K
  | .sadd _, l, k, i, j => T l k i j
  | .smul v, l, k, i, j => v * T l k i j
  | .saddE s, l, k, i, j => sd s i j + T l k i j
  | .smulE s, l, k, i, j => sv s * T l k i j + sd s i j * A l k
  | .tr, l, k, i, j => T k l i j
  | .map _ df, l, k, i, j => df (A l k) * T l k i j
  | .inv, l, k, i, j => -∑ p ∈ range d.1, ∑ q ∈ range d.1, invEl d.1 A l p * T p q i j * invEl d.1 A q k
  | .det, _, _, i, j => ∑ p ∈ range d.1, ∑ q ∈ range d.1, (toMatrix d.1 A).det * invEl d.1 A q p * T p q i j

theorem tan_un (E : MEnv K) (sv : ℕ → K) (sd : ℕ → ℕ → ℕ → K) (V : ℕ → ℕ → ℕ → K)
    (D : ℕ → ℕ → ℕ → ℕ → ℕ → K) (n : ℕ) (op : MUn K) (x : MNode K) :
    tan E sv sd V D (.un n op x) = op.tan sv sd (x.dims E) (den E sv V x) (tan E sv sd V D x) := by
  cases op <;> rfl

theorem scalDer_spec {c : MCtx K} {X s : ℕ} (hxr : 0 < c.E.rows X) (hxc : 0 < c.E.cols X)
    {b : Option (Mat K)} (hb : Live b) :
    ∃ m, scalDer c X s b = some m ∧ Rep m (c.E.rows X) (c.E.cols X)
      (fun i j => c.sc.der s (c.E.vid (c.E.el X i j))) := by
  have h : ∃ res : Mat K, derBuf (c.E.rows X) (c.E.cols X) b = some res ∧
      res.rows = c.E.rows X ∧ res.cols = c.E.cols X ∧ res.WF := by
    obtain ⟨z, hz, rz⟩ := Mat.new_spec (K := K) hxr hxc
    rcases b with _ | m
    · exact ⟨z, hz, rz.rows, rz.cols, rz.wf⟩
    · by_cases h : c.E.rows X ≠ m.rows ∨ c.E.cols X ≠ m.cols
      · simp only [derBuf, if_pos h]; exact ⟨z, hz, rz.rows, rz.cols, rz.wf⟩
      · simp only [derBuf, if_neg h]
        push Not at h
        exact ⟨m, rfl, h.1.symm, h.2.symm, hb m rfl⟩
  obtain ⟨res, h1, h2, h3, h4⟩ := h
  obtain ⟨m, h5, h6⟩ := rawFill (g := fun i j => c.sc.der s (c.E.vid (c.E.el X i j))) h4 h2 h3
  exact ⟨m, by simp only [scalDer, h1, Option.bind_some]; exact h5, h6⟩

theorem MUn.fwd_spec {c : MCtx K} (hB : c.B.Sound c.E.P) (hK : c.B.KronSound) (op : MUn K)
    (hI : op.isInv → c.B.InvSound) {R dR : Mat K} {a : Slots K} (ha : SlotsOk c.E.P a) {d : ℕ × ℕ}
    {A : ℕ → ℕ → K} {T : ℕ → ℕ → ℕ → ℕ → K} (hd : op.dimOk d = true) {X : ℕ}
    (hxr : 0 < c.E.rows X) (hxc : 0 < c.E.cols X) (hd1 : 0 < d.1) (hd2 : 0 < d.2)
    (hR : op.evalsOperand = true → Rep R d.1 d.2 A)
    (hdR : Rep dR (d.1 * c.E.rows X) (d.2 * c.E.cols X) (lay (c.E.rows X) (c.E.cols X) T))
    (hinv : op.isInv → (toMatrix d.1 A).det ≠ 0) :
    ∃ a' m, op.fwd c X d.1 d.2 R dR a = some (a', m) ∧ SlotsOk c.E.P a' ∧
      Rep m ((op.odims d).1 * c.E.rows X) ((op.odims d).2 * c.E.cols X)
        (lay (c.E.rows X) (c.E.cols X)
          (op.tan c.sc.val (fun s i j => c.sc.der s (c.E.vid (c.E.el X i j))) d A T)) := by
  obtain ⟨r, cc⟩ := d
  have hlr : ∀ p, p % c.E.rows X < c.E.rows X := fun p => Nat.mod_lt _ hxr
  have hlc : ∀ p, p % c.E.cols X < c.E.cols X := fun p => Nat.mod_lt _ hxc
  obtain ⟨Ir, eIr, rIr⟩ := Mat.eye_spec (K := K) c.π hxr
  obtain ⟨Ic, eIc, rIc⟩ := Mat.eye_spec (K := K) c.π hxc
  obtain ⟨Ox, eOx, rOx⟩ := Mat.ones_spec (K := K) hxr hxc
  obtain ⟨Of, eOf, rOf⟩ := Mat.ones_spec (K := K) hd1 hd2
  cases op with
  | sadd v =>
    exact ⟨_, dR, rfl, ha.update (by decide) hdR.wf, hdR⟩
  | smul v => exact kern_spec ha (hB.scalarMul v (r := .ext dR) (ha 1) rfl hdR)
  | saddE s =>
    obtain ⟨a1, m2, e2, l2, r2⟩ := kern_spec (k := 2) ha (scalDer_spec (s := s) hxr hxc (ha 2))
    obtain ⟨a2, m3, e3, l3, r3⟩ := kern_spec (k := 3) l2 (hK (l2 3) rOf r2)
    obtain ⟨a3, m1, e1, l1, r1⟩ := kern_spec (k := 1) l3
      (hB.add (l := .ext m3) (r := .ext dR) (l3 1) rfl r3 rfl hdR)
    refine ⟨a3, m1, ?_, l1, r1.congr ?_⟩
    · simp only [MUn.fwd, eOf, e2, e3, e1, Option.bind_eq_bind, Option.bind_some]
    · intro p q _ _
      simp only [lay, MUn.tan, one_mul]
  | smulE s =>
    replace hR := hR rfl
    obtain ⟨a1, m2, e2, l2, r2⟩ := kern_spec (k := 2) ha (scalDer_spec (s := s) hxr hxc (ha 2))
    obtain ⟨a2, m5, e5, l5, r5⟩ := kern_spec (k := 5) l2 (hK (l2 5) rOf r2)
    obtain ⟨a3, m6, e6, l6, r6⟩ := kern_spec (k := 6) l5 (hK (l5 6) hR rOx)
    obtain ⟨a4, m4, e4, l4, r4⟩ := kern_spec (k := 4) l6
      (hB.scalarMul (c.sc.val s) (r := .ext dR) (l6 4) rfl hdR)
    obtain ⟨a5, m3, e3, l3, r3⟩ := kern_spec (k := 3) l4
      (hB.hadamard (l := .ext m5) (r := .ext m6) (l4 3) rfl r5 rfl r6)
    obtain ⟨a6, m1, e1, l1, r1⟩ := kern_spec (k := 1) l3
      (hB.add (l := .ext m4) (r := .ext m3) (l3 1) rfl r4 rfl r3)
    refine ⟨a6, m1, ?_, l1, r1.congr ?_⟩
    · simp only [MUn.fwd, eOf, eOx, e2, e5, e6, e4, e3, e1, Option.bind_eq_bind, Option.bind_some]
    · intro p q _ _
      simp only [lay, MUn.tan, one_mul, mul_one]
  | tr =>
    obtain ⟨a1, m1, e1, l1, r1⟩ := kern_spec (k := 1) ha
      (hB.dervTranspose (ha 1) hd1 hd2 hxr hxc hdR)
    refine ⟨a1, m1, e1, l1, r1.congr ?_⟩
    intro p q _ _
    simp only [lay, MUn.tan, flat_div (hlr p), flat_mod (hlr p), flat_div (hlc q), flat_mod (hlc q)]
  | map f df =>
    replace hR := hR rfl
    obtain ⟨a1, m1, e1, l1, r1⟩ := kern_spec (k := 1) ha (hB.unary df (r := .ext R) (ha 1) rfl hR)
    obtain ⟨a2, m2, e2, l2, r2⟩ := kern_spec (k := 2) l1 (hK (l1 2) r1 rOx)
    obtain ⟨a3, m3, e3, l3, r3⟩ := kern_spec (k := 3) l2
      (hB.hadamard (l := .ext m2) (r := .ext dR) (l2 3) rfl r2 rfl hdR)
    refine ⟨a3, m3, ?_, l3, r3.congr ?_⟩
    · simp only [MUn.fwd, e1, eOx, e2, e3, Option.bind_eq_bind, Option.bind_some]
    · intro p q _ _
      simp only [lay, MUn.tan, mul_one]
  | inv =>
    replace hR := hR rfl
    simp only [MUn.dimOk, beq_iff_eq] at hd
    subst hd
    have hIS := hI trivial
    have hdet := hinv trivial
    obtain ⟨a1, m1, e1, l1, r1⟩ := kern_spec (k := 1) ha (hIS.inverse (ha 1) hR hdet)
    change Rep m1 r r (invEl r A) at r1
    obtain ⟨a2, m2, e2, l2, r2⟩ := kern_spec (k := 2) l1 (hK (l1 2) r1 rIr)
    obtain ⟨a3, m3, e3, l3, r3⟩ := kern_spec (k := 3) l2 (hK (l2 3) r1 rIc)
    obtain ⟨a4, m4, e4, l4, r4⟩ := kern_spec (k := 4) l3 (hB.mul (l3 4) r2 hdR)
    have r4' := r4.congr (B := lay (c.E.rows X) (c.E.cols X)
      (fun l k i j => ∑ t ∈ range r, invEl r A l t * T t k i j))
      (fun p q _ _ => kron_eye_left (invEl r A) T hxr)
    obtain ⟨a5, m5, e5, l5, r5⟩ := kern_spec (k := 5) l4 (hB.mul (l4 5) r4' r3)
    obtain ⟨a6, m6, e6, l6, r6⟩ := kern_spec (k := 6) l5
      (hB.scalarMul (-1) (r := .ext m5) (l5 6) rfl r5)
    refine ⟨a6, m6, ?_, l6, r6.congr ?_⟩
    · simp only [MUn.fwd, e1, eIr, eIc, e2, e3, e4, e5, e6, Option.bind_eq_bind, Option.bind_some]
    · intro p q _ _
      rw [kron_eye_right (invEl r A) _ hxc]
      simp only [lay, MUn.tan, neg_mul, one_mul]
      rw [Finset.sum_comm]
      congr 1
      refine Finset.sum_congr rfl fun t _ => ?_
      rw [Finset.sum_mul]
  | det =>
    replace hR := hR rfl
    simp only [MUn.dimOk, beq_iff_eq] at hd
    subst hd
    have hIS := hI trivial
    have hdet := hinv trivial
    obtain ⟨Or, eOr, rOr⟩ := Mat.ones_spec (K := K) one_pos hd1
    obtain ⟨Oc, eOc, rOc⟩ := Mat.ones_spec (K := K) hd1 one_pos
    obtain ⟨a1, m1, e1, l1, r1⟩ := kern_spec (k := 1) ha (hIS.inverse (ha 1) hR hdet)
    change Rep m1 r r (invEl r A) at r1
    obtain ⟨a2, m2, e2, l2, r2⟩ := kern_spec (k := 2) l1 (hB.transpose (l1 2) r1)
    obtain ⟨a3, m9, e9, l9, r9⟩ := kern_spec (k := 9) l2 (hIS.det (l2 9) hR)
    have ed := r9.elem 0 0 one_pos one_pos
    obtain ⟨a4, m10, e10, l10, r10⟩ := kern_spec (k := 10) l9
      (hB.scalarMul ((toMatrix r A).det) (r := .ext m2) (l9 10) rfl r2)
    obtain ⟨a5, m3, e3, l3, r3⟩ := kern_spec (k := 3) l10 (hK (l10 3) r10 rOx)
    obtain ⟨a6, m4, e4, l4, r4⟩ := kern_spec (k := 4) l3
      (hB.hadamard (l := .ext m3) (r := .ext dR) (l3 4) rfl r3 rfl hdR)
    obtain ⟨a7, m5, e5, l5, r5⟩ := kern_spec (k := 5) l4 (hK (l4 5) rOr rIr)
    obtain ⟨a8, m6, e6, l6, r6⟩ := kern_spec (k := 6) l5 (hK (l5 6) rOc rIc)
    have r4' := r4.congr (B := lay (c.E.rows X) (c.E.cols X)
      (fun l k i j => (toMatrix r A).det * invEl r A k l * T l k i j))
      (fun p q _ _ => by simp only [lay, mul_one])
    obtain ⟨a9, m7, e7, l7, r7⟩ := kern_spec (k := 7) l6 (hB.mul (l6 7) r5 r4')
    have r7' := r7.congr (B := lay (c.E.rows X) (c.E.cols X)
      (fun l k i j => ∑ t ∈ range r, 1 * ((toMatrix r A).det * invEl r A k t * T t k i j)))
      (fun p q _ _ => kron_eye_left (fun _ _ => 1) _ hxr)
    obtain ⟨a10, m8, e8, l8, r8⟩ := kern_spec (k := 8) l7 (hB.mul (l7 8) r7' r6)
    refine ⟨a10, m8, ?_, l8, r8.congr ?_⟩
    · simp only [MUn.fwd, e1, e2, e9, ed, e10, eOx, e3, e4, eOr, eIr, e5, eOc, eIc, e6, e7, e8,
        Option.bind_eq_bind, Option.bind_some]
    · intro p q _ _
      rw [kron_eye_right (fun _ _ => 1) _ hxc]
      simp only [lay, MUn.tan, mul_one, one_mul]
      rw [Finset.sum_comm]

end CoolDiff
