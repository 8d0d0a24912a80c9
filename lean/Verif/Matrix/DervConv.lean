import Verif.Matrix.ConvSlots

/-!
# The derivative of a convolution

`MatDervConvNaiveHandler` is the only handler of this operation, in every configuration; the
operations it uses inside are dispatched.
-/

set_option linter.unusedSectionVars false

namespace CoolDiff
open Finset

variable {K : Type} [Field K] [DecidableEq K]

/-- The dispatched operations `MatrixKron`, `MatrixHadamard`, `MatrixAdd`, `MatrixMul` used inside
MatDervConvNaiveHandler.hpp:102-119. -/
structure DOps (K : Type) where
  kron : Mat K → Mat K → Option (Mat K) → Option (Mat K)
  hadamard : Src K → Src K → Option (Mat K) → Option (Mat K)
  add : Src K → Src K → Option (Mat K) → Option (Mat K)
  mul : Mat K → Mat K → Option (Mat K) → Option (Mat K)

/-- One iteration `(i,j) = p` of the loop.  MatDervConvNaiveHandler.hpp:84-125. -/
def Naive.dervConvStep (D : DOps K) (π : Sched) (xr xc sx sy : ℕ) (padded dpadded rhs drhs : Mat K)
    (ox o1 o2 e1 e2 : Mat K) (p : ℕ × ℕ) (a : Slots K) (m : Mat K) : Option (Slots K × Mat K) := do
  let i := p.1
  let j := p.2
  let (a, a2) ← kern 42 (padded.getBlock π (i * sx) (i * sx + rhs.rows - 1) (j * sy)
    (j * sy + rhs.cols - 1)) (clearSlots 42 52 a)
  let (a, a3) ← kern 43 (dpadded.getBlock π (i * sx * xr) (i * sx * xr + xr * rhs.rows - 1)
    (j * sy * xc) (j * sy * xc + xc * rhs.cols - 1)) a
  let (a, a4) ← kern 44 (D.kron a2 ox) a
  let (a, a5) ← kern 45 (D.kron rhs ox) a
  let (a, a6) ← kern 46 (D.hadamard (.ext a4) (.ext drhs)) a
  let (a, a7) ← kern 47 (D.hadamard (.ext a3) (.ext a5)) a
  let (a, a8) ← kern 48 (D.add (.ext a6) (.ext a7)) a
  let (a, a9) ← kern 49 (D.kron o1 e1) a
  let (a, a10) ← kern 50 (D.kron o2 e2) a
  let (a, a11) ← kern 51 (D.mul a9 a8) a
  let (a, a12) ← kern 52 (D.mul a11 a10) a
  let m ← m.setBlock π (i * xr) ((i + 1) * xr - 1) (j * xc) ((j + 1) * xc - 1) a12
  some (a, m)

/-- MatDervConvNaiveHandler.hpp:47-127, result in buffer `k`.  `mp_arr[0..12]` are the buffers 40-52;
the two pad buffers (40, 41) are kept across calls and not cleared, the others are cleared in every
iteration (lines 88-90).  The registry's `Ones` and `Eye` are their values on a miss. -/
def Naive.dervConv (D : DOps K) (π : Sched) (xr xc sx sy px py : ℕ) (lhs dlhs rhs drhs : Mat K)
    (k : ℕ) (a : Slots K) : Option (Slots K × Mat K) :=
  if 0 < sx ∧ 0 < sy then do
    let rows := convDim lhs.rows px rhs.rows sx
    let cols := convDim lhs.cols py rhs.cols sy
    if 0 < rows ∨ 0 < cols then do
      let (a, dpadded) ← kern 40 (dlhs.pad π (px * xr) (py * xc)) a
      let (a, padded) ← kern 41 (lhs.pad π px py) a
      let res ← Mat.pool (a k) (rows * xr) (cols * xc)
      let ox ← Mat.ones xr xc
      let o1 ← Mat.ones 1 rhs.rows
      let o2 ← Mat.ones rhs.cols 1
      let e1 ← Mat.eye π xr
      let e2 ← Mat.eye π xc
      let (a, m) ← loopS (pairs rows cols)
        (dervConvStep D π xr xc sx sy padded dpadded rhs drhs ox o1 o2 e1 e2) a res
      some (Function.update a k (some m), m)
    else none
  else none

/-- What the dispatched operations have to compute.  The Kronecker product is only used on a buffer
that has just been cleared. -/
structure DOps.Sound (D : DOps K) : Prop where
  kron : ∀ {b : Option (Mat K)} {L R : Mat K} {lr lc rr rc A C}, Live b → Rep L lr lc A →
    Rep R rr rc C → ∃ M, D.kron L R (b.map Mat.resetZero) = some M ∧
      Rep M (lr * rr) (lc * rc) fun i j => A (i / rr) (j / rc) * C (i % rr) (j % rc)
  hadamard : ∀ {b : Option (Mat K)} {L R : Mat K} {m n A C}, Live b → Rep L m n A → Rep R m n C →
    ∃ M, D.hadamard (.ext L) (.ext R) b = some M ∧ Rep M m n fun i j => A i j * C i j
  add : ∀ {b : Option (Mat K)} {L R : Mat K} {m n A C}, Live b → Rep L m n A → Rep R m n C →
    ∃ M, D.add (.ext L) (.ext R) b = some M ∧ Rep M m n fun i j => A i j + C i j
  mul : ∀ {b : Option (Mat K)} {L R : Mat K} {m k n A C}, Live b → Rep L m k A → Rep R k n C →
    ∃ M, D.mul L R b = some M ∧ Rep M m n fun i j => ∑ t ∈ Finset.range k, A i t * C t j

/-- The derivative of element `(l,k)` of `conv(A, C)` with respect to element `(i,j)` of `X`, given the
derivatives `TA`, `TC` of the operands: the product rule under the sum. -/
def convTan (sx sy px py r c kr kc : ℕ) (A C : ℕ → ℕ → K) (TA TC : ℕ → ℕ → ℕ → ℕ → K)
    (l k i j : ℕ) : K :=
  ∑ u ∈ range kr, ∑ v ∈ range kc,
    (padded px py r c A (l * sx + u) (k * sy + v) * TC u v i j +
      padded px py r c (fun l k => TA l k i j) (l * sx + u) (k * sy + v) * C u v)

/-- A kernel call whose buffer has just been cleared, with the buffers below it already used. -/
theorem kern_update_ne {k k' : ℕ} {f : Option (Mat K) → Option (Mat K)} {a a' : Slots K} {m : Mat K}
    (h : kern k f a = some (a', m)) (hne : k' ≠ k) : a' k' = a k' := by
  simp only [kern, Option.map_eq_some_iff] at h
  obtain ⟨x, _, hx⟩ := h
  rw [Prod.mk.injEq] at hx
  rw [← hx.1, Function.update_of_ne hne]

set_option maxHeartbeats 1600000 in
set_option linter.unusedSimpArgs false in
theorem Naive.dervConv_spec {D : DOps K} (hD : D.Sound) {P : Pads} (hQ : Compat P.L)
    (hQD : Compat P.D) (π : Sched) {L DL R DR : Mat K} {r c kr kc xr xc A C TA TC}
    (hL : Rep L r c A) (hR : Rep R kr kc C) (hxr : 0 < xr) (hxc : 0 < xc)
    (hDL : Rep DL (r * xr) (c * xc) (lay xr xc TA)) (hDR : Rep DR (kr * xr) (kc * xc) (lay xr xc TC))
    {sx sy px py : ℕ} (hsx : 0 < sx) (hsy : 0 < sy)
    (hkr : kr ≤ r + 2 * px) (hkc : kc ≤ c + 2 * py) (hq : (⟨r, c, px, py⟩ : PadReq) ∈ P.L)
    (hqD : (⟨r * xr, c * xc, px * xr, py * xc⟩ : PadReq) ∈ P.D)
    {k : ℕ} (hk : NoPad k) {a : Slots K} (ha : SlotsOk P a) :
    ∃ a' m, Naive.dervConv D π xr xc sx sy px py L DL R DR k a = some (a', m) ∧ SlotsOk P a' ∧
      Rep m (convDim r px kr sx * xr) (convDim c py kc sy * xc)
        (lay xr xc (convTan sx sy px py r c kr kc A C TA TC)) := by
  have hr := hL.rpos; have hc := hL.cpos; have hkr0 := hR.rpos; have hkc0 := hR.cpos
  obtain ⟨a0, DPM, e0, s0, hDP⟩ := ha.pad40 hQD π hqD hDL
  obtain ⟨a1, PM, e1, s1, hP2⟩ := s0.pad41 hQ π hq hL
  simp only at e0 hDP e1 hP2
  have d1 : 0 < convDim r px kr sx := Nat.succ_pos _
  have d2 : 0 < convDim c py kc sy := Nat.succ_pos _
  obtain ⟨res, hres, rr, rc, rwf⟩ := Mat.pool_spec (s1.live k) (Nat.mul_pos d1 hxr)
    (Nat.mul_pos d2 hxc)
  obtain ⟨ox, hox, hoxr⟩ := Mat.ones_spec (K := K) hxr hxc
  obtain ⟨o1, ho1, ho1r⟩ := Mat.ones_spec (K := K) one_pos hkr0
  obtain ⟨o2, ho2, ho2r⟩ := Mat.ones_spec (K := K) hkc0 one_pos
  obtain ⟨i1, hi1, hi1r⟩ := Mat.eye_spec (K := K) π hxr
  obtain ⟨i2, hi2, hi2r⟩ := Mat.eye_spec (K := K) π hxc
  have hres0 : Rep res (convDim r px kr sx * xr) (convDim c py kc sy * xc)
      (blockState xr xc (lay xr xc (convTan sx sy px py r c kr kc A C TA TC)) res.val []) := by
    have := rwf.rep
    rw [rr, rc] at this
    exact this.congr fun p q _ _ => by simp [blockState]
  obtain ⟨a2, m, e2, s2, r2⟩ := loopS_inv
    (body := Naive.dervConvStep D π xr xc sx sy PM DPM R DR ox o1 o2 i1 i2)
    (fun done a m => SlotsOk P a ∧ Rep m (convDim r px kr sx * xr) (convDim c py kc sy * xc)
      (blockState xr xc (lay xr xc (convTan sx sy px py r c kr kc A C TA TC)) res.val done))
    (pairs (convDim r px kr sx) (convDim c py kc sy)) [] a1 res ⟨s1, hres0⟩
    (by
      intro p hp done b m ⟨sb, hm⟩
      rw [mem_pairs] at hp
      have g1 := convDim_bound hkr hsx hp.1
      have g2 := convDim_bound hkc hsy hp.2
      have sc : SlotsOk P (clearSlots 42 52 b) := sb.clear (by decide)
      have hblk := Mat.getBlock_spec π hP2 (rs := p.1 * sx) (re := p.1 * sx + kr - 1)
        (cs := p.2 * sy) (ce := p.2 * sy + kc - 1) (by omega) (by omega) (by omega) (by omega)
        (sc.live 42)
      rw [show p.1 * sx + kr - 1 - p.1 * sx + 1 = kr by omega,
        show p.2 * sy + kc - 1 - p.2 * sy + 1 = kc by omega] at hblk
      obtain ⟨b2, x2, f2, t2, h2⟩ := kern_spec (k := 42) sc hblk
      have k1 : 0 < xr * kr := Nat.mul_pos hxr hkr0
      have k2 : 0 < xc * kc := Nat.mul_pos hxc hkc0
      have gd1 : p.1 * sx * xr + xr * kr ≤ r * xr + 2 * (px * xr) := by
        have := Nat.mul_le_mul_right xr g1
        nlinarith
      have gd2 : p.2 * sy * xc + xc * kc ≤ c * xc + 2 * (py * xc) := by
        have := Nat.mul_le_mul_right xc g2
        nlinarith
      have hdblk := Mat.getBlock_spec π hDP (rs := p.1 * sx * xr)
        (re := p.1 * sx * xr + xr * kr - 1) (cs := p.2 * sy * xc)
        (ce := p.2 * sy * xc + xc * kc - 1) (by omega) (by omega) (by omega) (by omega)
        (t2.live 43)
      rw [show p.1 * sx * xr + xr * kr - 1 - p.1 * sx * xr + 1 = kr * xr by
          rw [Nat.mul_comm kr]; omega,
        show p.2 * sy * xc + xc * kc - 1 - p.2 * sy * xc + 1 = kc * xc by
          rw [Nat.mul_comm kc]; omega] at hdblk
      obtain ⟨b3, x3, f3, t3, h3⟩ := kern_spec (k := 43) t2 hdblk
      have z : ∀ k, 42 ≤ k → k ≤ 52 → clearSlots 42 52 b k = (b k).map Mat.resetZero :=
        fun k h h' => clearSlots_in b ⟨h, h'⟩
      have kr44 := hD.kron (sb.live 44) h2 hoxr
      rw [← z 44 (by decide) (by decide), ← kern_update_ne f2 (by decide),
        ← kern_update_ne f3 (by decide)] at kr44
      obtain ⟨b4, x4, f4, t4, h4⟩ := kern_spec (k := 44) t3 kr44
      have kr45 := hD.kron (sb.live 45) hR hoxr
      rw [← z 45 (by decide) (by decide), ← kern_update_ne f2 (by decide),
        ← kern_update_ne f3 (by decide), ← kern_update_ne f4 (by decide)] at kr45
      obtain ⟨b5, x5, f5, t5, h5⟩ := kern_spec (k := 45) t4 kr45
      obtain ⟨b6, x6, f6, t6, h6⟩ := kern_spec (k := 46) t5 (hD.hadamard (t5.live 46) h4 hDR)
      obtain ⟨b7, x7, f7, t7, h7⟩ := kern_spec (k := 47) t6 (hD.hadamard (t6.live 47) h3 h5)
      obtain ⟨b8, x8, f8, t8, h8⟩ := kern_spec (k := 48) t7 (hD.add (t7.live 48) h6 h7)
      have kr49 := hD.kron (sb.live 49) ho1r hi1r
      rw [← z 49 (by decide) (by decide), ← kern_update_ne f2 (by decide),
        ← kern_update_ne f3 (by decide), ← kern_update_ne f4 (by decide),
        ← kern_update_ne f5 (by decide), ← kern_update_ne f6 (by decide),
        ← kern_update_ne f7 (by decide), ← kern_update_ne f8 (by decide)] at kr49
      obtain ⟨b9, x9, f9, t9, h9⟩ := kern_spec (k := 49) t8 kr49
      have kr50 := hD.kron (sb.live 50) ho2r hi2r
      rw [← z 50 (by decide) (by decide), ← kern_update_ne f2 (by decide),
        ← kern_update_ne f3 (by decide), ← kern_update_ne f4 (by decide),
        ← kern_update_ne f5 (by decide), ← kern_update_ne f6 (by decide),
        ← kern_update_ne f7 (by decide), ← kern_update_ne f8 (by decide),
        ← kern_update_ne f9 (by decide)] at kr50
      obtain ⟨b10, x10, f10, t10, h10⟩ := kern_spec (k := 50) t9 kr50
      have h8' : Rep x8 (kr * xr) (kc * xc) (lay xr xc (fun u v x y =>
          padded px py r c A (p.1 * sx + u) (p.2 * sy + v) * TC u v x y +
            padded px py r c (fun l k => TA l k x y) (p.1 * sx + u) (p.2 * sy + v) * C u v)) := by
        refine h8.congr fun u v _ _ => ?_
        rw [padded_lay hxr hxc]
        simp only [lay, mul_one]
        have q1 : (p.1 * sx * xr + u) / xr = p.1 * sx + u / xr := by
          rw [Nat.add_comm, Nat.add_mul_div_right _ _ hxr, Nat.add_comm]
        have q2 : (p.2 * sy * xc + v) / xc = p.2 * sy + v / xc := by
          rw [Nat.add_comm, Nat.add_mul_div_right _ _ hxc, Nat.add_comm]
        have q3 : (p.1 * sx * xr + u) % xr = u % xr := by
          rw [Nat.add_comm, Nat.add_mul_mod_self_right]
        have q4 : (p.2 * sy * xc + v) % xc = v % xc := by
          rw [Nat.add_comm, Nat.add_mul_mod_self_right]
        rw [q1, q2, q3, q4]
      obtain ⟨b11, x11, f11, t11, h11⟩ := kern_spec (k := 51) t10 (hD.mul (t10.live 51) h9 h8')
      have h11' := h11.congr fun u v _ _ => kron_eye_left (fun _ _ => (1 : K)) _ hxr
      obtain ⟨b12, x12, f12, t12, h12⟩ := kern_spec (k := 52) t11 (hD.mul (t11.live 52) h11' h10)
      have h12' := h12.congr fun u v _ _ => kron_eye_right (fun _ _ => (1 : K)) _ hxc
      rw [Nat.one_mul, Nat.one_mul] at h12'
      obtain ⟨m', g, hm'⟩ := setBlock_state π hm h12' hp.1 hp.2 (fun x y hx hy => by
        rw [lay_at _ hx hy]
        simp only [lay, Nat.div_eq_of_lt hx, Nat.div_eq_of_lt hy, Nat.mod_eq_of_lt hx,
          Nat.mod_eq_of_lt hy, one_mul, mul_one, convTan]
        rw [Finset.sum_comm])
      refine ⟨b12, m', ?_, t12, hm'⟩
      simp only [Naive.dervConvStep, hR.rows, hR.cols, f2, f3, f4, f5, f6, f7, f8, f9, f10, f11, f12, g, Option.bind_eq_bind,
        Option.bind_some])
  have hfin : Rep m (convDim r px kr sx * xr) (convDim c py kc sy * xc)
      (lay xr xc (convTan sx sy px py r c kr kc A C TA TC)) :=
    r2.congr fun p q hp hq => blockState_all hp hq
  refine ⟨Function.update a2 k (some m), m, ?_, s2.update hk hfin.wf, hfin⟩
  rw [Naive.dervConv, if_pos ⟨hsx, hsy⟩]
  simp only [hL.rows, hL.cols, hR.rows, hR.cols, if_pos (Or.inl d1 : 0 < convDim r px kr sx ∨ _),
    e0, e1, Option.bind_eq_bind, Option.bind_some, hres, hox, ho1, ho2, hi1, hi2, e2]

end CoolDiff
