import Verif.Matrix.BlockProofs

/-!
# Work buffers kept across calls, padding requests and convolution

The convolution handlers keep a padded copy of their left operand in a buffer that is never cleared
(except in the Eigen handler).  `SlotsOk` is the invariant under which the border of that copy is
zero: every request of the program finds, if a buffer with the right number of elements is kept, a
buffer with a zero border.  It is kept by every sequence of requests in which two requests with the
same number of padded elements are equal (`Compat`).
-/

set_option linter.unusedSectionVars false

namespace CoolDiff
open Finset

variable {K : Type} [Field K] [DecidableEq K]

/-- A request to pad an `r × c` matrix by `px` rows above and below and `py` columns left and
right. -/
structure PadReq where
  r : ℕ
  c : ℕ
  px : ℕ
  py : ℕ
deriving DecidableEq

/-- Number of elements of the padded matrix. -/
def PadReq.size (q : PadReq) : ℕ := (q.r + 2 * q.px) * (q.c + 2 * q.py)

/-- Is there any padding? -/
def PadReq.proper (q : PadReq) : Prop := 0 < q.px ∨ 0 < q.py

/-- Element `(i,j)` of the padded matrix comes from the operand. -/
def PadReq.inside (q : PadReq) (i j : ℕ) : Prop :=
  q.px ≤ i ∧ i < q.px + q.r ∧ q.py ≤ j ∧ j < q.py + q.c

instance (q : PadReq) (i j : ℕ) : Decidable (q.inside i j) := by
  unfold PadReq.inside; infer_instance

/-- Requests that never disturb each other: two requests with the same number of padded elements,
one of which really pads, are the same. -/
def Compat (Q : Set PadReq) : Prop :=
  ∀ q ∈ Q, ∀ q' ∈ Q, q.proper → q.size = q'.size → q = q'

/-- The buffer `b`, requested for `q`, has a zero border. -/
def PadReq.Clean (q : PadReq) (b : Option (Mat K)) : Prop :=
  0 < q.r → 0 < q.c → ∃ pb O, Mat.pool b (q.r + 2 * q.px) (q.c + 2 * q.py) = some pb ∧
    Rep pb (q.r + 2 * q.px) (q.c + 2 * q.py) O ∧
    ∀ i j, i < q.r + 2 * q.px → j < q.c + 2 * q.py → ¬q.inside i j → O i j = 0

/-- The padding requests of a program: those of the naive convolution handler (`Q`), and those of the
derivative handler for derivatives of left operands (`D`) and for left operands (`L`). -/
structure Pads where
  Q : Set PadReq
  D : Set PadReq
  L : Set PadReq

/-- All work buffers are properly allocated, and, if the requests of the program do not disturb each
other, the kept pad buffers are clean for them. -/
structure SlotsOk (P : Pads) (a : Slots K) : Prop where
  live : ∀ k, Live (a k)
  naive : Compat P.Q → ∀ q ∈ P.Q, q.Clean (a 30)
  dl : Compat P.D → ∀ q ∈ P.D, q.Clean (a 40)
  l : Compat P.L → ∀ q ∈ P.L, q.Clean (a 41)

instance {P : Pads} {a : Slots K} : CoeFun (SlotsOk P a) (fun _ => ∀ k, Live (a k)) :=
  ⟨SlotsOk.live⟩

theorem Mat.pool_other {b : Mat K} {r c : ℕ} (h : r * c ≠ b.rows * b.cols) :
    Mat.pool (some b) r c = Mat.new r c := by
  have h' : r ≠ b.rows ∨ c ≠ b.cols := by
    by_contra hcon; push Not at hcon; exact h (by rw [hcon.1, hcon.2])
  simp only [Mat.pool, if_neg h, if_pos h']

/-- Without any buffer every request is clean. -/
theorem PadReq.clean_none (q : PadReq) : q.Clean (none : Option (Mat K)) := by
  intro hr hc
  obtain ⟨z, hz, rz⟩ := Mat.pool_none (K := K) (r := q.r + 2 * q.px) (c := q.c + 2 * q.py)
    (by omega) (by omega)
  exact ⟨z, _, hz, rz, fun _ _ _ _ _ => rfl⟩

/-- A request that does not pad is clean for every buffer. -/
theorem PadReq.clean_of_not_proper {q : PadReq} (hq : ¬q.proper) {b : Option (Mat K)} (hb : Live b) :
    q.Clean b := by
  intro hr hc
  obtain ⟨pb, hp, hrr, hrc, hwf⟩ := Mat.pool_spec hb (r := q.r + 2 * q.px) (c := q.c + 2 * q.py)
    (by omega) (by omega)
  have hO : Rep pb (q.r + 2 * q.px) (q.c + 2 * q.py) pb.val := by
    have := hwf.rep; rwa [hrr, hrc] at this
  refine ⟨pb, pb.val, hp, hO, ?_⟩
  intro i j hi hj hn
  simp only [PadReq.proper, not_or, Nat.not_lt, Nat.le_zero] at hq
  exact absurd ⟨by omega, by omega, by omega, by omega⟩ hn

/-- A request of another number of elements is clean. -/
theorem PadReq.clean_of_size {q : PadReq} {b : Mat K} (h : q.size ≠ b.rows * b.cols) :
    q.Clean (some b) := by
  intro hr hc
  obtain ⟨z, hz, rz⟩ := Mat.new_spec (K := K) (r := q.r + 2 * q.px) (c := q.c + 2 * q.py)
    (by omega) (by omega)
  exact ⟨z, _, by rw [Mat.pool_other h]; exact hz, rz, fun _ _ _ _ _ => rfl⟩

/-- A request to the program's own empty set of buffers. -/
theorem SlotsOk.fresh (P : Pads) : SlotsOk P (fun _ => none : Slots K) :=
  ⟨fun _ => Live.none, fun _ q _ => q.clean_none, fun _ q _ => q.clean_none,
    fun _ q _ => q.clean_none⟩

/-- **Padding into a kept buffer**: the result has a zero border and the buffer stays clean for all
requests. -/
theorem Mat.pad_clean (π : Sched) {Q : Set PadReq} (hQ : Compat Q) {b : Option (Mat K)}
    (hb : ∀ q ∈ Q, q.Clean b) {q : PadReq} (hq : q ∈ Q) {M : Mat K} {A : ℕ → ℕ → K}
    (hM : Rep M q.r q.c A) :
    ∃ m, M.pad π q.px q.py b = some m ∧
      Rep m (q.r + 2 * q.px) (q.c + 2 * q.py) (padded q.px q.py q.r q.c A) ∧
      ∀ q' ∈ Q, q'.Clean (some m) := by
  obtain ⟨pb, O, h1, h2, h3⟩ := hb q hq hM.rpos hM.cpos
  obtain ⟨m, hm, hr⟩ := Mat.pad_spec π hM q.px q.py h1 h2
  have hr' : Rep m (q.r + 2 * q.px) (q.c + 2 * q.py) (padded q.px q.py q.r q.c A) := by
    refine hr.congr fun i j hi hj => ?_
    rw [padded]
    split
    · rfl
    · rename_i hn; exact h3 i j hi hj hn
  refine ⟨m, hm, hr', ?_⟩
  intro q' hq'
  by_cases hp : q'.proper
  · by_cases hs : q'.size = q.size
    · obtain rfl := hQ q' hq' q hq hp hs
      intro _ _
      refine ⟨m, _, Mat.pool_self hr'.rows hr'.cols, hr', ?_⟩
      intro i j _ _ hn
      rw [padded]; exact if_neg hn
    · exact PadReq.clean_of_size (by rw [hr'.rows, hr'.cols]; exact hs)
  · exact PadReq.clean_of_not_proper hp (Live.some hr'.wf)

/-- The padded matrix depends only on the elements of the matrix. -/
theorem padded_congr {px py r c : ℕ} {A B : ℕ → ℕ → K} (h : ∀ i j, i < r → j < c → A i j = B i j)
    (p q : ℕ) : padded px py r c A p q = padded px py r c B p q := by
  simp only [padded]
  split
  · rename_i hin; exact h _ _ (by omega) (by omega)
  · rfl

/-! ## Kernel calls on work buffers -/

/-- Buffer numbers that are not pad buffers. -/
def NoPad (k : ℕ) : Prop := k ≠ 30 ∧ k ≠ 40 ∧ k ≠ 41

instance (k : ℕ) : Decidable (NoPad k) := by unfold NoPad; infer_instance

theorem SlotsOk.update {P : Pads} {a : Slots K} (ha : SlotsOk P a) {k : ℕ} (hk : NoPad k) {m : Mat K}
    (hm : m.WF) : SlotsOk P (Function.update a k (some m)) := by
  refine ⟨?_, ?_, ?_, ?_⟩
  · intro k'
    by_cases h : k' = k
    · subst h; rw [Function.update_self]; exact Live.some hm
    · rw [Function.update_of_ne h]; exact ha.live k'
  · rw [Function.update_of_ne (Ne.symm hk.1)]; exact ha.naive
  · rw [Function.update_of_ne (Ne.symm hk.2.1)]; exact ha.dl
  · rw [Function.update_of_ne (Ne.symm hk.2.2)]; exact ha.l

theorem kern_spec {P : Pads} {k : ℕ} {f : Option (Mat K) → Option (Mat K)} {a : Slots K}
    (ha : SlotsOk P a) {r c A} (h : ∃ m, f (a k) = some m ∧ Rep m r c A)
    (hk : NoPad k := by decide) :
    ∃ a' m, kern k f a = some (a', m) ∧ SlotsOk P a' ∧ Rep m r c A := by
  obtain ⟨m, h1, h2⟩ := h
  exact ⟨Function.update a k (some m), m, by simp [kern, h1], ha.update hk h2.wf, h2⟩

theorem clearSlots_in {lo hi k : ℕ} (a : Slots K) (h : lo ≤ k ∧ k ≤ hi) :
    clearSlots lo hi a k = (a k).map Mat.resetZero := if_pos h

theorem clearSlots_out {lo hi k : ℕ} (a : Slots K) (h : ¬(lo ≤ k ∧ k ≤ hi)) :
    clearSlots lo hi a k = a k := if_neg h

theorem SlotsOk.clear {P : Pads} {a : Slots K} (ha : SlotsOk P a) {lo hi : ℕ}
    (h : ∀ k ∈ [30, 40, 41], ¬(lo ≤ k ∧ k ≤ hi)) : SlotsOk P (clearSlots lo hi a) := by
  refine ⟨?_, ?_, ?_, ?_⟩
  · intro k
    by_cases hk : lo ≤ k ∧ k ≤ hi
    · rw [clearSlots_in a hk]; exact (ha.live k).resetZero
    · rw [clearSlots_out a hk]; exact ha.live k
  · rw [clearSlots_out a (h 30 (by simp))]; exact ha.naive
  · rw [clearSlots_out a (h 40 (by simp))]; exact ha.dl
  · rw [clearSlots_out a (h 41 (by simp))]; exact ha.l

/-- What a loop over work buffers and a result matrix establishes, given an invariant that records
the iterations done. -/
theorem loopS_inv {ι : Type} {body : ι → Slots K → Mat K → Option (Slots K × Mat K)}
    (I : List ι → Slots K → Mat K → Prop) : ∀ (idx done : List ι) (a : Slots K) (m : Mat K),
    I done a m → (∀ n ∈ idx, ∀ done a m, I done a m → ∃ a' m', body n a m = some (a', m') ∧
      I (n :: done) a' m') →
    ∃ a' m', loopS idx body a m = some (a', m') ∧ I (idx.reverse ++ done) a' m' := by
  intro idx
  induction idx with
  | nil => intro done a m h _; exact ⟨a, m, rfl, h⟩
  | cons n l ih =>
    intro done a m h hb
    obtain ⟨a1, m1, e1, h1⟩ := hb n (by simp) done a m h
    obtain ⟨a2, m2, e2, h2⟩ := ih (n :: done) a1 m1 h1
      (fun n' hn' => hb n' (List.mem_cons_of_mem _ hn'))
    refine ⟨a2, m2, ?_, ?_⟩
    · rw [loopS, List.foldlM_cons, e1]; exact e2
    · simpa using h2

/-! ## The convolution handlers -/

theorem Eig.conv_spec {P : Pads} (π : Sched) {L R : Mat K} {r c kr kc A B} (hL : Rep L r c A)
    (hR : Rep R kr kc B) {sx sy px py : ℕ} (hsx : 0 < sx) (hsy : 0 < sy)
    (hkr : kr ≤ r + 2 * px) (hkc : kc ≤ c + 2 * py) {k : ℕ} (hk : NoPad k) {a : Slots K}
    (ha : SlotsOk P a) :
    ∃ a' m, Eig.conv π sx sy px py L R k a = some (a', m) ∧ SlotsOk P a' ∧
      Rep m (convDim r px kr sx) (convDim c py kc sy) (convSpec sx sy px py r c kr kc A B) := by
  have hr := hL.rpos; have hc := hL.cpos
  have hcl : SlotsOk P (clearSlots 20 20 a) := ha.clear (by decide)
  have hpad : ∃ m, L.pad π px py (clearSlots 20 20 a 20) = some m ∧
      Rep m (r + 2 * px) (c + 2 * py) (padded px py r c A) := by
    rw [clearSlots_in a (by decide)]
    obtain ⟨pb, hpb1, hpb2⟩ := Mat.pool_resetZero (ha.live 20) (r := r + 2 * px) (c := c + 2 * py)
      (by omega) (by omega)
    exact Mat.pad_spec π hL px py hpb1 hpb2
  obtain ⟨a1, PM, e1, s1, hP2⟩ := kern_spec (k := 20) hcl hpad
  have d1 : 0 < convDim r px kr sx := Nat.succ_pos _
  have d2 : 0 < convDim c py kc sy := Nat.succ_pos _
  obtain ⟨res, hres, rr, rc, rwf⟩ := Mat.pool_spec (s1.live k) d1 d2
  have hm := eigenAssign_spec (A := convSpec sx sy px py r c kr kc A B)
    (fun i j _ => Eig.convCoeff PM R (i * sx) (j * sy)) res rwf rr rc
    (fun i j hi hj _ _ => by
      rw [Eig.convCoeff_spec hP2 hR (convDim_bound hkr hsx hi) (convDim_bound hkc hsy hj)]; rfl)
  obtain ⟨a2, m, e2, s2, r2⟩ := kern_spec (k := k) s1
    (f := fun b => (Mat.pool b (convDim r px kr sx) (convDim c py kc sy)).bind
        (eigenAssign (convDim r px kr sx) (convDim c py kc sy)
          (fun i j _ => Eig.convCoeff PM R (i * sx) (j * sy))))
    (by simp only [hres, Option.bind_some]; exact hm) hk
  refine ⟨a2, m, ?_, s2, r2⟩
  rw [Eig.conv, if_pos ⟨hsx, hsy⟩]
  simp only [hL.rows, hL.cols, hR.rows, hR.cols, if_pos (Or.inl d1 : 0 < convDim r px kr sx ∨ _),
    e1, hP2.rows, hP2.cols, Option.bind_eq_bind, Option.bind_some]
  exact e2

/-- One kept buffer changed by padding. -/
theorem SlotsOk.pad30 {P : Pads} (hQ : Compat P.Q) (π : Sched) {a : Slots K} (ha : SlotsOk P a)
    {q : PadReq} (hq : q ∈ P.Q) {M : Mat K} {A : ℕ → ℕ → K} (hM : Rep M q.r q.c A) :
    ∃ a' m, kern 30 (M.pad π q.px q.py) a = some (a', m) ∧ SlotsOk P a' ∧
      Rep m (q.r + 2 * q.px) (q.c + 2 * q.py) (padded q.px q.py q.r q.c A) := by
  obtain ⟨m, h1, h2, h3⟩ := Mat.pad_clean π hQ (ha.naive hQ) hq hM
  refine ⟨Function.update a 30 (some m), m, by simp [kern, h1], ⟨?_, ?_, ?_, ?_⟩, h2⟩
  · intro k
    by_cases h : k = 30
    · subst h; rw [Function.update_self]; exact Live.some h2.wf
    · rw [Function.update_of_ne h]; exact ha.live k
  · rw [Function.update_self]; exact fun _ => h3
  · rw [Function.update_of_ne (by decide)]; exact ha.dl
  · rw [Function.update_of_ne (by decide)]; exact ha.l

theorem SlotsOk.pad41 {P : Pads} (hQ : Compat P.L) (π : Sched) {a : Slots K} (ha : SlotsOk P a)
    {q : PadReq} (hq : q ∈ P.L) {M : Mat K} {A : ℕ → ℕ → K} (hM : Rep M q.r q.c A) :
    ∃ a' m, kern 41 (M.pad π q.px q.py) a = some (a', m) ∧ SlotsOk P a' ∧
      Rep m (q.r + 2 * q.px) (q.c + 2 * q.py) (padded q.px q.py q.r q.c A) := by
  obtain ⟨m, h1, h2, h3⟩ := Mat.pad_clean π hQ (ha.l hQ) hq hM
  refine ⟨Function.update a 41 (some m), m, by simp [kern, h1], ⟨?_, ?_, ?_, ?_⟩, h2⟩
  · intro k
    by_cases h : k = 41
    · subst h; rw [Function.update_self]; exact Live.some h2.wf
    · rw [Function.update_of_ne h]; exact ha.live k
  · rw [Function.update_of_ne (by decide)]; exact ha.naive
  · rw [Function.update_of_ne (by decide)]; exact ha.dl
  · rw [Function.update_self]; exact fun _ => h3

theorem SlotsOk.pad40 {P : Pads} (hQ : Compat P.D) (π : Sched) {a : Slots K} (ha : SlotsOk P a)
    {q : PadReq} (hq : q ∈ P.D) {M : Mat K} {A : ℕ → ℕ → K} (hM : Rep M q.r q.c A) :
    ∃ a' m, kern 40 (M.pad π q.px q.py) a = some (a', m) ∧ SlotsOk P a' ∧
      Rep m (q.r + 2 * q.px) (q.c + 2 * q.py) (padded q.px q.py q.r q.c A) := by
  obtain ⟨m, h1, h2, h3⟩ := Mat.pad_clean π hQ (ha.dl hQ) hq hM
  refine ⟨Function.update a 40 (some m), m, by simp [kern, h1], ⟨?_, ?_, ?_, ?_⟩, h2⟩
  · intro k
    by_cases h : k = 40
    · subst h; rw [Function.update_self]; exact Live.some h2.wf
    · rw [Function.update_of_ne h]; exact ha.live k
  · rw [Function.update_of_ne (by decide)]; exact ha.naive
  · rw [Function.update_self]; exact fun _ => h3
  · rw [Function.update_of_ne (by decide)]; exact ha.l

/-- The result matrix of a block loop: the blocks done hold the target, the others the old
contents. -/
def blockState (br bc : ℕ) (T O : ℕ → ℕ → K) (done : List (ℕ × ℕ)) (p q : ℕ) : K :=
  if (p / br, q / bc) ∈ done then T p q else O p q

/-- Writing block `(i,j)`. -/
theorem setBlock_state (π : Sched) {m B : Mat K} {rows cols br bc : ℕ} {T O C : ℕ → ℕ → K}
    {done : List (ℕ × ℕ)} (hm : Rep m (rows * br) (cols * bc) (blockState br bc T O done))
    (hB : Rep B br bc C) {i j : ℕ} (hi : i < rows) (hj : j < cols)
    (hC : ∀ x y, x < br → y < bc → C x y = T (i * br + x) (j * bc + y)) :
    ∃ m', m.setBlock π (i * br) ((i + 1) * br - 1) (j * bc) ((j + 1) * bc - 1) B = some m' ∧
      Rep m' (rows * br) (cols * bc) (blockState br bc T O ((i, j) :: done)) := by
  have hbr := hB.rpos; have hbc := hB.cpos
  have e1 : (i + 1) * br = i * br + br := by ring
  have e2 : (j + 1) * bc = j * bc + bc := by ring
  have l1 : (i + 1) * br ≤ rows * br := Nat.mul_le_mul_right _ hi
  have l2 : (j + 1) * bc ≤ cols * bc := Nat.mul_le_mul_right _ hj
  obtain ⟨m', h1, h2⟩ := Mat.setBlock_spec π hm hB (rs := i * br) (re := (i + 1) * br - 1)
    (cs := j * bc) (ce := (j + 1) * bc - 1) (by omega) (by omega) (by omega) (by omega)
  refine ⟨m', h1, h2.congr fun p q _ _ => ?_⟩
  by_cases hin : i * br ≤ p ∧ p ≤ (i + 1) * br - 1 ∧ j * bc ≤ q ∧ q ≤ (j + 1) * bc - 1
  · rw [if_pos hin, hC _ _ (by omega) (by omega)]
    have ep : i * br + (p - i * br) = p := by omega
    have eq : j * bc + (q - j * bc) = q := by omega
    have dp : p / br = i := by rw [← ep]; exact flat_div (by omega)
    have dq : q / bc = j := by rw [← eq]; exact flat_div (by omega)
    rw [ep, eq, blockState, dp, dq, if_pos (by simp)]
  · rw [if_neg hin]
    have hne : (p / br, q / bc) ≠ (i, j) := by
      intro he
      rw [Prod.mk.injEq] at he
      apply hin
      have hp := Nat.div_add_mod p br
      have hq := Nat.div_add_mod q bc
      have mp := Nat.mod_lt p hbr
      have mq := Nat.mod_lt q hbc
      rw [he.1, Nat.mul_comm] at hp
      rw [he.2, Nat.mul_comm] at hq
      omega
    simp only [blockState, List.mem_cons, hne, false_or]

/-- All blocks are done at the end. -/
theorem blockState_all {br bc rows cols : ℕ} {T O : ℕ → ℕ → K} {p q : ℕ} (hp : p < rows * br)
    (hq : q < cols * bc) : blockState br bc T O ((pairs rows cols).reverse ++ []) p q = T p q := by
  rw [blockState, if_pos]
  simp only [List.append_nil, List.mem_reverse, mem_pairs]
  exact ⟨div_lt_of_lt_mul' hp, div_lt_of_lt_mul' hq⟩

/-- **The naive convolution**: correct for every request of the program, and the kept buffers stay
usable for all of them. -/
theorem Naive.conv_spec {P : Pads} (hQ : Compat P.Q) (π : Sched) {L R : Mat K} {r c kr kc A B}
    (hL : Rep L r c A) (hR : Rep R kr kc B) {sx sy px py : ℕ} (hsx : 0 < sx) (hsy : 0 < sy)
    (hkr : kr ≤ r + 2 * px) (hkc : kc ≤ c + 2 * py) (hq : (⟨r, c, px, py⟩ : PadReq) ∈ P.Q)
    {k : ℕ} (hk : NoPad k) {a : Slots K} (ha : SlotsOk P a) :
    ∃ a' m, Naive.conv π sx sy px py L R k a = some (a', m) ∧ SlotsOk P a' ∧
      Rep m (convDim r px kr sx) (convDim c py kc sy) (convSpec sx sy px py r c kr kc A B) := by
  have hr := hL.rpos; have hc := hL.cpos; have hkr0 := hR.rpos; have hkc0 := hR.cpos
  obtain ⟨a1, PM, e1, s1, hP2⟩ := ha.pad30 hQ π hq hL
  simp only at e1 hP2
  have d1 : 0 < convDim r px kr sx := Nat.succ_pos _
  have d2 : 0 < convDim c py kc sy := Nat.succ_pos _
  obtain ⟨res, hres, rr, rc, rwf⟩ := Mat.pool_spec (s1.live k) d1 d2
  obtain ⟨o1, ho1, ho1r⟩ := Mat.ones_spec (K := K) one_pos hkr0
  obtain ⟨o2, ho2, ho2r⟩ := Mat.ones_spec (K := K) hkc0 one_pos
  have hres0 : Rep res (convDim r px kr sx * 1) (convDim c py kc sy * 1)
      (blockState 1 1 (convSpec sx sy px py r c kr kc A B) res.val []) := by
    rw [Nat.mul_one, Nat.mul_one]
    have := rwf.rep
    rw [rr, rc] at this
    exact this.congr fun p q _ _ => by simp [blockState]
  obtain ⟨a2, m, e2, s2, r2⟩ := loopS_inv (body := fun p a m => do
        let i := p.1
        let j := p.2
        let (a, a1) ← kern 31 (PM.getBlock π (i * sx) (i * sx + kr - 1) (j * sy)
          (j * sy + kc - 1)) (clearSlots 31 34 a)
        let (a, a2) ← kern 32 (Naive.hadamard π (.ext a1) (.ext R)) a
        let (a, a3) ← kern 33 (Naive.mul π o1 a2) a
        let (a, a4) ← kern 34 (Naive.mul π a3 o2) a
        let m ← m.setBlock π i i j j a4
        some (a, m))
    (fun done a m => SlotsOk P a ∧ Rep m (convDim r px kr sx * 1) (convDim c py kc sy * 1)
      (blockState 1 1 (convSpec sx sy px py r c kr kc A B) res.val done))
    (pairs (convDim r px kr sx) (convDim c py kc sy)) [] a1 res ⟨s1, hres0⟩
    (by
      intro p hp done b m ⟨sb, hm⟩
      rw [mem_pairs] at hp
      have g1 := convDim_bound hkr hsx hp.1
      have g2 := convDim_bound hkc hsy hp.2
      have sc : SlotsOk P (clearSlots 31 34 b) := sb.clear (by decide)
      have hblk := Mat.getBlock_spec π hP2 (rs := p.1 * sx) (re := p.1 * sx + kr - 1)
        (cs := p.2 * sy) (ce := p.2 * sy + kc - 1) (by omega) (by omega) (by omega) (by omega)
        (sc.live 31)
      rw [show p.1 * sx + kr - 1 - p.1 * sx + 1 = kr by omega,
        show p.2 * sy + kc - 1 - p.2 * sy + 1 = kc by omega] at hblk
      obtain ⟨b1, x1, f1, t1, ha1r⟩ := kern_spec (k := 31) sc hblk
      obtain ⟨b2, x2, f2, t2, ha2r⟩ := kern_spec (k := 32) t1
        (elementwise2_spec (fun a b : K => a * b) π (lhs := .ext x1)
          (rhs := .ext R) (t1.live 32) rfl ha1r rfl hR)
      obtain ⟨b3, x3, f3, t3, ha3r⟩ := kern_spec (k := 33) t2
        (Naive.mul_spec π (t2.live 33) ho1r ha2r)
      obtain ⟨b4, x4, f4, t4, ha4r⟩ := kern_spec (k := 34) t3
        (Naive.mul_spec π (t3.live 34) ha3r ho2r)
      obtain ⟨m', g, hm'⟩ := setBlock_state π hm ha4r hp.1 hp.2 (fun x y hx hy => by
        obtain rfl : x = 0 := by omega
        obtain rfl : y = 0 := by omega
        simp only [convSpec, one_mul, mul_one, Nat.mul_one, Nat.add_zero]
        rw [Finset.sum_comm])
      simp only [Nat.mul_one, Nat.add_sub_cancel] at g
      refine ⟨b4, m', ?_, t4, hm'⟩
      change kern 32 (Naive.hadamard π (.ext x1) (.ext R)) b1 = _ at f2
      simp only [f1, f2, f3, f4, g, Option.bind_eq_bind, Option.bind_some])
  have hfin : Rep m (convDim r px kr sx) (convDim c py kc sy)
      (convSpec sx sy px py r c kr kc A B) := by
    have := r2.congr fun p q hp hq => blockState_all hp hq
    rwa [Nat.mul_one, Nat.mul_one] at this
  refine ⟨Function.update a2 k (some m), m, ?_, s2.update hk hfin.wf, hfin⟩
  rw [Naive.conv, if_pos ⟨hsx, hsy⟩]
  simp only [Option.bind_eq_bind] at e2
  simp only [hL.rows, hL.cols, hR.rows, hR.cols, if_pos (Or.inl d1 : 0 < convDim r px kr sx ∨ _),
    e1, Option.bind_eq_bind, Option.bind_some, hres, ho1, ho2, e2]

/-! ## The layout of derivatives -/

/-- Block layout of derivatives: position `(p,q)` holds the derivative of element
`(p / xr, q / xc)` with respect to `X(p % xr, q % xc)`. -/
def lay (xr xc : ℕ) (T : ℕ → ℕ → ℕ → ℕ → K) (p q : ℕ) : K := T (p / xr) (q / xc) (p % xr) (q % xc)

theorem lay_at {xr xc : ℕ} (T : ℕ → ℕ → ℕ → ℕ → K) {l k i j : ℕ} (hi : i < xr) (hj : j < xc) :
    lay xr xc T (l * xr + i) (k * xc + j) = T l k i j := by
  simp only [lay, flat_div hi, flat_div hj, flat_mod hi, flat_mod hj]

theorem sum_divmod (n m : ℕ) (f : ℕ → ℕ → K) :
    ∑ t ∈ range (n * m), f (t / m) (t % m) = ∑ u ∈ range n, ∑ v ∈ range m, f u v := by
  induction n with
  | zero => simp
  | succ n ih =>
    rw [Nat.succ_mul, Finset.sum_range_add, ih, Finset.sum_range_succ]
    congr 1
    refine Finset.sum_congr rfl fun v hv => ?_
    rw [flat_div (mem_range.1 hv), flat_mod (mem_range.1 hv)]

theorem sum_ite_left (n a : ℕ) (f : ℕ → K) :
    ∑ v ∈ range n, (if a = v then (1 : K) else 0) * f v = if a < n then f a else 0 := by
  by_cases h : a < n
  · rw [if_pos h, Finset.sum_eq_single a]
    · simp
    · intro b _ hb; rw [if_neg (Ne.symm hb), zero_mul]
    · intro h'; exact absurd (mem_range.2 h) h'
  · rw [if_neg h]
    refine Finset.sum_eq_zero fun v hv => ?_
    rw [if_neg, zero_mul]; rintro rfl; exact h (mem_range.1 hv)

/-- `(A ⊗ I_xr) · T` -/
theorem kron_eye_left {n xr xc : ℕ} (A : ℕ → ℕ → K) (T : ℕ → ℕ → ℕ → ℕ → K) {p q : ℕ}
    (hxr : 0 < xr) :
    ∑ t ∈ range (n * xr), (A (p / xr) (t / xr) * if p % xr = t % xr then 1 else 0) *
        lay xr xc T t q =
      lay xr xc (fun l k i j => ∑ t ∈ range n, A l t * T t k i j) p q := by
  have := sum_divmod n xr (fun u v => (A (p / xr) u * if p % xr = v then 1 else 0) *
    T u (q / xc) v (q % xc))
  simp only [lay]
  rw [this]
  refine Finset.sum_congr rfl fun u _ => ?_
  have h := sum_ite_left xr (p % xr) (fun v => A (p / xr) u * T u (q / xc) v (q % xc))
  rw [if_pos (Nat.mod_lt _ hxr)] at h
  rw [← h]
  refine Finset.sum_congr rfl fun v _ => ?_
  ring

/-- `T · (C ⊗ I_xc)` -/
theorem kron_eye_right {n xr xc : ℕ} (C : ℕ → ℕ → K) (T : ℕ → ℕ → ℕ → ℕ → K) {p q : ℕ}
    (hxc : 0 < xc) :
    ∑ t ∈ range (n * xc), lay xr xc T p t *
        (C (t / xc) (q / xc) * if t % xc = q % xc then 1 else 0) =
      lay xr xc (fun l k i j => ∑ t ∈ range n, T l t i j * C t k) p q := by
  have := sum_divmod n xc (fun u v => T (p / xr) u (p % xr) v *
    (C u (q / xc) * if v = q % xc then 1 else 0))
  simp only [lay]
  rw [this]
  refine Finset.sum_congr rfl fun u _ => ?_
  have h := sum_ite_left xc (q % xc) (fun v => T (p / xr) u (p % xr) v * C u (q / xc))
  rw [if_pos (Nat.mod_lt _ hxc)] at h
  rw [← h]
  refine Finset.sum_congr rfl fun v _ => ?_
  by_cases hv : v = q % xc
  · rw [if_pos hv, if_pos hv.symm]; ring
  · rw [if_neg hv, if_neg (Ne.symm hv)]; ring

/-- Padding a derivative by whole blocks pads the differentiated matrix. -/
theorem padded_lay {xr xc px py r c : ℕ} (hxr : 0 < xr) (hxc : 0 < xc) (T : ℕ → ℕ → ℕ → ℕ → K)
    (p q : ℕ) :
    padded (px * xr) (py * xc) (r * xr) (c * xc) (lay xr xc T) p q =
      lay xr xc (fun l k i j => padded px py r c (fun l k => T l k i j) l k) p q := by
  simp only [padded, lay]
  have h1 : px * xr ≤ p ↔ px ≤ p / xr := (Nat.le_div_iff_mul_le hxr).symm
  have h2 : py * xc ≤ q ↔ py ≤ q / xc := (Nat.le_div_iff_mul_le hxc).symm
  have h3 : p < px * xr + r * xr ↔ p / xr < px + r := by
    rw [← Nat.add_mul]; exact (Nat.div_lt_iff_lt_mul hxr).symm
  have h4 : q < py * xc + c * xc ↔ q / xc < py + c := by
    rw [← Nat.add_mul]; exact (Nat.div_lt_iff_lt_mul hxc).symm
  simp only [h1, h2, h3, h4]
  by_cases h : px ≤ p / xr ∧ p / xr < px + r ∧ py ≤ q / xc ∧ q / xc < py + c
  · rw [if_pos h, if_pos h]
    have aux : ∀ {p x n : ℕ}, 0 < x → n * x ≤ p → (p - n * x) / x = p / x - n ∧
        (p - n * x) % x = p % x := by
      intro p x n hx hp
      obtain ⟨d, rfl⟩ := Nat.exists_eq_add_of_le hp
      rw [Nat.add_sub_cancel_left, Nat.add_comm, Nat.add_mul_div_right _ _ hx,
        Nat.add_mul_mod_self_right]
      exact ⟨(Nat.add_sub_cancel _ _).symm, rfl⟩
    obtain ⟨e1, e3⟩ := aux hxr (h1.2 h.1)
    obtain ⟨e2, e4⟩ := aux hxc (h2.2 h.2.2.1)
    rw [e1, e2, e3, e4]
  · rw [if_neg h, if_neg h]

end CoolDiff
