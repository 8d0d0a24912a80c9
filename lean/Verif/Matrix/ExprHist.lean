import Verif.Matrix.ExprReset

/-!
# Matrix queries after any history of matrix queries
-/

set_option linter.unusedSectionVars false

namespace CoolDiff

variable {K : Type} [Field K] [DecidableEq K]

/-- What is stored for the matrices that `o` uses and that count as evaluated is their value `V`. -/
structure Current (E : MEnv K) (V : ℕ → ℕ → ℕ → K) (o : ℕ) (s : MSt K) : Prop where
  leaf : ∀ p, MReach E o p → ¬E.isForm p → (s.obj p).evald = true →
    ∃ m, (s.obj p).result = some m ∧ Rep m (E.rows p) (E.cols p) (V p)
  form : ∀ p, MReach E o p → E.isForm p → (s.obj p).visited = true →
    ∃ m, (s.obj p).result = some m ∧ Rep m (E.rows p) (E.cols p) (V p)

/-- Same for the stored derivatives with respect to `X`. -/
structure CurrentD (c : MCtx K) (X : ℕ) (D : ℕ → ℕ → ℕ → ℕ → ℕ → K) (o : ℕ) (s : MSt K) : Prop where
  leaf : ∀ p, MReach c.E o p → ¬c.E.isForm p → (s.obj p).devald = true →
    DRep c X D p (s.obj p).dresult
  form : ∀ p, MReach c.E o p → c.E.isForm p → (s.obj p).visited = true →
    DRep c X D p (s.obj p).dresult

variable {c : MCtx K} {rank : ℕ → ℕ} {V : ℕ → ℕ → ℕ → K}

/-- Reset prepares evaluation: either everything is cleared or what is stored is current. -/
theorem Rest.prepare (hwf : c.E.WF rank) {s : MSt K} (hs : Rest c.E s) {f o : ℕ} (hf : rank o < f)
    (hcur : (s.obj o).visited = true ∨ Current c.E V o s) :
    ∃ s0, mresetO c.E f o s = some s0 ∧ MEInv c rank V (MReach c.E o) (rank o + 1) s0 ∧
      DBufs c.E s0 ∧ (∀ p, ¬MReach c.E o p → s0.obj p = s.obj p) ∧
      (∀ X D, (s.obj o).visited = true ∨ CurrentD c X D o s →
        (∀ p, MReach c.E o p → ¬c.E.isForm p → (s0.obj p).devald = true →
          DRep c X D p (s0.obj p).dresult) ∧
        (∀ p, MReach c.E o p → c.E.isForm p → (s0.obj p).visited = true →
          DRep c X D p (s0.obj p).dresult)) := by
  obtain ⟨s0, e0, h1, h2, h3, h4, h5, h6⟩ := hs.reset hwf hf
  have hb : DBufs c.E s0 := by
    refine ⟨?_, ?_, ?_⟩
    · intro p hp; rw [h3]; exact hs.bufs.live p hp
    · intro p hp; rw [h3]; exact hs.bufs.num p hp
    · intro p hp; rw [h3]; exact hs.bufs.var p hp
  refine ⟨s0, e0, ?_, hb, h4, ?_⟩
  · refine ⟨by rw [h1]; exact hs.live, ?_, ?_, ?_, ?_⟩
    · intro p hp; rw [h2]; exact hs.rlive p hp
    · intro p hp hl hev
      by_cases hv : (s.obj o).visited = true
      · rw [((h5 hv p hp).2 hl).1] at hev; cases hev
      · have hvf : (s.obj o).visited = false := by simpa using hv
        rw [(h6 hvf p).2.1] at hev
        rw [h2]; exact (hcur.resolve_left hv).leaf p hp hl hev
    · intro p hp _ hl hev
      by_cases hv : (s.obj o).visited = true
      · rw [(h5 hv p hp).1] at hev; cases hev
      · have hvf : (s.obj o).visited = false := by simpa using hv
        rw [(h6 hvf p).1] at hev
        rw [h2]; exact (hcur.resolve_left hv).form p hp hl hev
    · intro p hp _ n e eye hk hev q hq
      by_cases hv : (s.obj o).visited = true
      · rw [(h5 hv p hp).1] at hev; cases hev
      · have hvf : (s.obj o).visited = false := by simpa using hv
        rw [(h6 hvf p).1] at hev
        rw [(h6 hvf q).1]; exact hs.vc p n e eye hk hev q hq
  · intro X D hD
    constructor
    · intro p hp hl hev
      by_cases hv : (s.obj o).visited = true
      · rw [((h5 hv p hp).2 hl).2] at hev; cases hev
      · have hvf : (s.obj o).visited = false := by simpa using hv
        rw [(h6 hvf p).2.2] at hev
        rw [h3]; exact (hD.resolve_left hv).leaf p hp hl hev
    · intro p hp hl hev
      by_cases hv : (s.obj o).visited = true
      · rw [(h5 hv p hp).1] at hev; cases hev
      · have hvf : (s.obj o).visited = false := by simpa using hv
        rw [(h6 hvf p).1] at hev
        rw [h3]; exact (hD.resolve_left hv).form p hp hl hev

/-- After a query everything reachable is visited. -/
theorem MEInv.allVisited (hwf : c.E.WF rank) {o : ℕ} {s : MSt K}
    (h : MEInv c rank V (MReach c.E o) (rank o + 1) s) (ho : (s.obj o).visited = true) :
    ∀ p, MReach c.E o p → (s.obj p).visited = true := by
  intro p hp
  induction hp with
  | refl => exact ho
  | step hp hk hq ih => exact h.vc _ hp (Nat.lt_succ_of_le (hp.rank hwf)) _ _ _ hk ih _ hq

/-- A query leaves the state in order. -/
theorem Rest.after (hwf : c.E.WF rank) {s s0 s1 : MSt K} (hs : Rest c.E s) {o : ℕ}
    (h0 : ∀ p, ¬MReach c.E o p → s0.obj p = s.obj p)
    (i1 : MEInv c rank V (MReach c.E o) (rank o + 1) s1) (hb : DBufs c.E s1)
    (h1 : ∀ p, ¬(MReach c.E o p ∧ rank p < rank o + 1) → s1.obj p = s0.obj p)
    (hv : (s1.obj o).visited = true) : Rest c.E s1 := by
  have hall := i1.allVisited hwf hv
  have hout : ∀ p, ¬MReach c.E o p → s1.obj p = s.obj p := fun p hp => by
    rw [h1 p (fun h => hp h.1), h0 p hp]
  refine ⟨i1.live, i1.rlive, hb, ?_, ?_⟩
  · intro p hl hp
    by_cases hr : MReach c.E o p
    · exact hall p hr
    · rw [hout p hr] at hp ⊢; exact hs.fl p hl hp
  · intro p n e eye hk hp q hq
    by_cases hrq : MReach c.E o q
    · exact hall q hrq
    · have hr : ¬MReach c.E o p := fun h => hrq (h.step hk hq)
      rw [hout p hr] at hp
      rw [hout q hrq]; exact hs.vc p n e eye hk hp q hq

/-- **`TensorR2::Eval` on a named matrix.** -/
theorem matEval_spec (hwf : c.E.WF rank) (hB : c.B.Sound c.E.P) {d : Prop} {o f : ℕ}
    (hF : FormsOk c d V (MReach c.E o)) (hV : MSolves c.E c.sc.val V (MReach c.E o))
    {s : MSt K} (hs : Rest c.E s) (hf : rank o < f)
    (hcur : (s.obj o).visited = true ∨ Current c.E V o s) :
    ∃ s' m, matEval c f (.obj o) s = some (s', m) ∧
      Rep m (c.E.rows o) (c.E.cols o) (V o) ∧ Rest c.E s' ∧ (s'.obj o).visited = true ∧
      Current c.E V o s' ∧ (∀ p, ¬MReach c.E o p → s'.obj p = s.obj p) := by
  obtain ⟨s0, e0, i0, b0, h0, _⟩ := hs.prepare (V := V) hwf hf hcur
  obtain ⟨s1, m, e1, i1, f1, v1, _, r1⟩ := mevalO_spec hwf hB (MReach.closed c.E o) hF hV f
    (rank o + 1) hf o MReach.refl (by omega) s0 i0
  have hb : DBufs c.E s1 := by
    refine ⟨?_, ?_, ?_⟩
    · intro p hp; rw [f1.dres]; exact b0.live p hp
    · intro p hp; rw [f1.dres]; exact b0.num p hp
    · intro p hp; rw [f1.dres]; exact b0.var p hp
  refine ⟨s1, m, ?_, r1, hs.after hwf h0 i1 hb f1.out v1, v1, ⟨i1.leaf, ?_⟩, ?_⟩
  · simp [matEval, mresetE, evalE, e0, e1]
  · intro p hp; exact i1.form p hp (Nat.lt_succ_of_le (hp.rank hwf))
  · intro p hp; rw [f1.out p (fun h => hp h.1), h0 p hp]

/-- **`TensorR2::DevalF` on a named matrix.** -/
theorem matDevalF_spec (hwf : c.E.WF rank) (hB : c.B.Sound c.E.P) (hK : c.B.KronSound) {o f X : ℕ}
    (hP : PadsOk c.E X)
    (hF : FormsOk c True V (MReach c.E o)) (hV : MSolves c.E c.sc.val V (MReach c.E o))
    (hvars : VarsOk c.E) (hX : c.E.kind X = .var) {D : ℕ → ℕ → ℕ → ℕ → ℕ → K}
    (hD : MSolvesD c.E c.sc.val (c.sd X) V D X (MReach c.E o))
    {s : MSt K} (hs : Rest c.E s) (hf : rank o < f)
    (hcur : (s.obj o).visited = true ∨ (Current c.E V o s ∧ CurrentD c X D o s)) :
    ∃ s' m, matDevalF c f X (.obj o) s = some (s', m) ∧
      Rep m (c.E.rows o * c.E.rows X) (c.E.cols o * c.E.cols X)
        (lay (c.E.rows X) (c.E.cols X) (D o)) ∧ Rest c.E s' ∧ (s'.obj o).visited = true ∧
      Current c.E V o s' ∧ CurrentD c X D o s' ∧ (∀ p, ¬MReach c.E o p → s'.obj p = s.obj p) := by
  obtain ⟨s0, e0, i0, b0, h0, d0⟩ := hs.prepare (V := V) hwf hf (hcur.imp id And.left)
  obtain ⟨d1, d2⟩ := d0 X D (hcur.imp id And.right)
  obtain ⟨s1, m, e1, i1, f1, v1, r1⟩ := mfwdO_spec hwf hB hK hP (MReach.closed c.E o) hF hV hvars hX hD f
    (rank o + 1) hf o MReach.refl (by omega) s0 ⟨i0, b0, d1, fun p hp _ => d2 p hp⟩
  refine ⟨s1, m, ?_, r1, hs.after hwf h0 i1.e i1.bufs f1.out v1, v1, ⟨i1.e.leaf, ?_⟩,
    ⟨i1.leaf, ?_⟩, ?_⟩
  · simp [matDevalF, mresetE, fwdE, e0, e1]
  · intro p hp; exact i1.e.form p hp (Nat.lt_succ_of_le (hp.rank hwf))
  · intro p hp; exact i1.form p hp (Nat.lt_succ_of_le (hp.rank hwf))
  · intro p hp; rw [f1.out p (fun h => hp h.1), h0 p hp]

/-! ## Values and derivatives exist -/

section exist
variable (E : MEnv K) (sv : ℕ → K)

theorem invEl_congr {n : ℕ} {A B : ℕ → ℕ → K} (h : ∀ i j, i < n → j < n → A i j = B i j) :
    invEl n A = invEl n B ∧ toMatrix n A = toMatrix n B := by
  have : toMatrix n A = toMatrix n B := by
    ext i j; exact h i j i.2 j.2
  refine ⟨?_, this⟩
  funext i j; simp [invEl, this]

theorem den_congr {V W : ℕ → ℕ → ℕ → K} : ∀ e : MNode K, DimOk E e →
    (∀ q ∈ e.objs, ∀ i j, i < E.rows q → j < E.cols q → V q i j = W q i j) →
    ∀ i j, i < (e.dims E).1 → j < (e.dims E).2 → den E sv V e i j = den E sv W e i j
  | .obj o, _, h, i, j, hi, hj => h o (by simp [MNode.objs]) i j hi hj
  | .bin _ op a b, hd, h, i, j, hi, hj => by
    obtain ⟨hda, hdb, hd⟩ := hd
    have iha := den_congr a hda (fun q hq => h q (by simp [MNode.objs, hq]))
    have ihb := den_congr b hdb (fun q hq => h q (by simp [MNode.objs, hq]))
    simp only [MNode.dims] at hi hj
    cases op <;> simp only [MBin.odims] at hi hj <;>
      simp only [MBin.dimOk, Bool.and_eq_true, beq_iff_eq] at hd <;> simp only [den]
    · rw [iha i j hi (by omega), ihb i j (by omega) hj]
    · rw [iha i j hi (by omega), ihb i j (by omega) hj]
    · refine Finset.sum_congr rfl fun t ht => ?_
      have ht := Finset.mem_range.1 ht
      rw [iha i t hi ht, ihb t j (by omega) hj]
    · rw [iha i j hi (by omega), ihb i j (by omega) hj]
    · simp only [convSpec]
      refine Finset.sum_congr rfl fun u hu => Finset.sum_congr rfl fun v hv => ?_
      rw [padded_congr iha, ihb u v (Finset.mem_range.1 hu) (Finset.mem_range.1 hv)]
  | .un _ op a, hd, h, i, j, hi, hj => by
    obtain ⟨hda, hd⟩ := hd
    have iha := den_congr a hda (fun q hq => h q (by simpa [MNode.objs] using hq))
    cases op with
    | inv =>
      simp only [MUn.dimOk, beq_iff_eq] at hd
      simp only [den]
      rw [(invEl_congr fun i j hi hj => iha i j hi (by omega)).1]
    | det =>
      simp only [MUn.dimOk, beq_iff_eq] at hd
      simp only [den]
      rw [(invEl_congr fun i j hi hj => iha i j hi (by omega)).2]
    | tr => simp only [MNode.dims] at hi hj; simp only [den]; rw [iha j i hj hi]
    | _ => simp only [MNode.dims] at hi hj; simp only [den]; rw [iha i j hi hj]

/-- Values by unfolding formulas. -/
noncomputable def valO : ℕ → ℕ → ℕ → ℕ → K
  | 0, _, _, _ => 0
  | f + 1, o, i, j =>
    match E.kind o with
    | .form _ e _ => den E sv (valO f) e i j
    | _ => sv (E.el o i j)

theorem valO_stable {rank : ℕ → ℕ} (hwf : E.WF rank) : ∀ f g o, rank o < f → rank o < g →
    ∀ i j, i < E.rows o → j < E.cols o → valO E sv f o i j = valO E sv g o i j := by
  intro f
  induction f with
  | zero => intro g o h; omega
  | succ f ih =>
    intro g o hf hg i j hi hj
    obtain ⟨g, rfl⟩ : ∃ g', g = g' + 1 := ⟨g - 1, by omega⟩
    rcases hk : E.kind o with _ | _ | _ | _ | ⟨n, e, eye⟩ <;> simp only [valO, hk]
    obtain ⟨_, h2, h3, h4, h5, h6, h7⟩ := hwf.form o n e eye hk
    refine den_congr E sv e h4 (fun q hq i j hi hj => ?_) i j (by omega) (by omega)
    have := h7 q (by simp [MEnv.item, MNode.objs, hq])
    exact ih g q (by omega) (by omega) i j hi hj

/-- The value of every matrix. -/
noncomputable def valOf (rank : ℕ → ℕ) (o i j : ℕ) : K := valO E sv (rank o + 1) o i j

/-- The registered identity matrices hold the identity. -/
def EyesOk (E : MEnv K) (sv : ℕ → K) : Prop :=
  ∀ o n e eye, E.kind o = .form n e eye → ∀ i j, i < E.rows eye → j < E.cols eye →
    sv (E.el eye i j) = if i = j then 1 else 0

theorem valOf_solves {rank : ℕ → ℕ} (hwf : E.WF rank) (he : EyesOk E sv) (S : Set ℕ) :
    MSolves E sv (valOf E sv rank) S := by
  refine ⟨?_, ?_⟩
  · intro o _ hl i j _ _
    rcases hk : E.kind o with _ | _ | _ | _ | ⟨n, e, eye⟩ <;> simp only [valOf, valO, hk]
    exact absurd ⟨n, e, eye, hk⟩ hl
  · intro o _ n e eye hk
    obtain ⟨h1, h2, h3, h4, h5, h6, h7⟩ := hwf.form o n e eye hk
    constructor
    · intro i j hi hj
      simp only [valOf, valO, hk]
      refine den_congr E sv e h4 (fun q hq i j hi hj => ?_) i j (by omega) (by omega)
      have := h7 q (by simp [MEnv.item, MNode.objs, hq])
      exact valO_stable E sv hwf _ _ q (by omega) (by omega) i j hi hj
    · intro i j hi hj
      simp only [valOf, valO, h1]
      exact he o n e eye hk i j hi hj

/-- Two solutions agree on every matrix of a closed set. -/
theorem MSolves.unique {rank : ℕ → ℕ} (hwf : E.WF rank) {S : Set ℕ} (hcl : Closed E S)
    {V W : ℕ → ℕ → ℕ → K} (hV : MSolves E sv V S) (hW : MSolves E sv W S) :
    ∀ r o, o ∈ S → rank o < r → ∀ i j, i < E.rows o → j < E.cols o → V o i j = W o i j := by
  intro r
  induction r with
  | zero => intro o _ h; omega
  | succ r ih =>
    intro o hS hr i j hi hj
    by_cases hl : E.isForm o
    · obtain ⟨n, e, eye, hk⟩ := hl
      obtain ⟨h1, h2, h3, h4, h5, h6, h7⟩ := hwf.form o n e eye hk
      rw [(hV.form o hS n e eye hk).1 i j hi hj, (hW.form o hS n e eye hk).1 i j hi hj]
      refine den_congr E sv e h4 (fun q hq i j hi hj => ?_) i j (by omega) (by omega)
      have hm : q ∈ (MEnv.item n e eye).objs := by simp [MEnv.item, MNode.objs, hq]
      have := h7 q hm
      exact ih q (hcl o hS n e eye hk q hm) (by omega) i j hi hj
    · rw [hV.leaf o hS hl i j hi hj, hW.leaf o hS hl i j hi hj]

variable (sd : ℕ → ℕ → ℕ → K) (V : ℕ → ℕ → ℕ → K)

theorem tan_congr {D F : ℕ → ℕ → ℕ → ℕ → ℕ → K} {i j : ℕ} : ∀ e : MNode K, DimOk E e →
    (∀ q ∈ e.objs, ∀ l k, l < E.rows q → k < E.cols q → D q l k i j = F q l k i j) →
    ∀ l k, l < (e.dims E).1 → k < (e.dims E).2 →
      tan E sv sd V D e l k i j = tan E sv sd V F e l k i j
  | .obj o, _, h, l, k, hl, hk => h o (by simp [MNode.objs]) l k hl hk
  | .bin _ op a b, hd, h, l, k, hl, hk => by
    obtain ⟨hda, hdb, hd⟩ := hd
    have iha := tan_congr a hda (fun q hq => h q (by simp [MNode.objs, hq]))
    have ihb := tan_congr b hdb (fun q hq => h q (by simp [MNode.objs, hq]))
    simp only [MNode.dims] at hl hk
    cases op <;> simp only [MBin.odims] at hl hk <;>
      simp only [MBin.dimOk, Bool.and_eq_true, beq_iff_eq] at hd <;> simp only [tan]
    · rw [iha l k hl (by omega), ihb l k (by omega) hk]
    · rw [iha l k hl (by omega), ihb l k (by omega) hk]
    · refine Finset.sum_congr rfl fun t ht => ?_
      have ht := Finset.mem_range.1 ht
      rw [iha l t hl ht, ihb t k (by omega) hk]
    · rw [iha l k hl (by omega), ihb l k (by omega) hk]
    · simp only [convTan]
      refine Finset.sum_congr rfl fun u hu => Finset.sum_congr rfl fun v hv => ?_
      rw [padded_congr (A := fun l k => tan E sv sd V D a l k i j) iha,
        ihb u v (Finset.mem_range.1 hu) (Finset.mem_range.1 hv)]
  | .un _ op a, hd, h, l, k, hl, hk => by
    obtain ⟨hda, hd⟩ := hd
    have iha := tan_congr a hda (fun q hq => h q (by simpa [MNode.objs] using hq))
    cases op with
    | inv =>
      simp only [MUn.dimOk, beq_iff_eq] at hd
      simp only [tan]
      congr 1
      refine Finset.sum_congr rfl fun p hp => Finset.sum_congr rfl fun q hq => ?_
      rw [iha p q (Finset.mem_range.1 hp) (by have := Finset.mem_range.1 hq; omega)]
    | det =>
      simp only [MUn.dimOk, beq_iff_eq] at hd
      simp only [tan]
      refine Finset.sum_congr rfl fun p hp => Finset.sum_congr rfl fun q hq => ?_
      rw [iha p q (Finset.mem_range.1 hp) (by have := Finset.mem_range.1 hq; omega)]
    | tr => simp only [MNode.dims] at hl hk; simp only [tan]; rw [iha k l hk hl]
    | _ => simp only [MNode.dims] at hl hk; simp only [tan]; rw [iha l k hl hk]

variable (X : ℕ)

/-- Derivatives by unfolding formulas. -/
noncomputable def derO : ℕ → ℕ → ℕ → ℕ → ℕ → ℕ → K
  | 0, _, _, _, _, _ => 0
  | f + 1, o, l, k, i, j =>
    match E.kind o with
    | .form _ e _ => tan E sv sd V (derO f) e l k i j
    | .exp => sd (E.el o l k) i j
    | .var => if E.vid (E.el o l k) = E.vid (E.el X i j) then 1 else 0
    | _ => 0

theorem derO_stable {rank : ℕ → ℕ} (hwf : E.WF rank) (i j : ℕ) : ∀ f g o, rank o < f → rank o < g →
    ∀ l k, l < E.rows o → k < E.cols o →
      derO E sv sd V X f o l k i j = derO E sv sd V X g o l k i j := by
  intro f
  induction f with
  | zero => intro g o h; omega
  | succ f ih =>
    intro g o hf hg l k hl hk
    obtain ⟨g, rfl⟩ : ∃ g', g = g' + 1 := ⟨g - 1, by omega⟩
    rcases hko : E.kind o with _ | _ | _ | _ | ⟨n, e, eye⟩ <;> simp only [derO, hko]
    obtain ⟨_, h2, h3, h4, h5, h6, h7⟩ := hwf.form o n e eye hko
    refine tan_congr E sv sd V e h4 (fun q hq l k hl hk => ?_) l k (by omega) (by omega)
    have := h7 q (by simp [MEnv.item, MNode.objs, hq])
    exact ih g q (by omega) (by omega) l k hl hk

/-- The derivatives of every matrix with respect to the elements of `X`. -/
noncomputable def derOf (rank : ℕ → ℕ) (o l k i j : ℕ) : K :=
  derO E sv sd V X (rank o + 1) o l k i j

theorem derOf_solves {rank : ℕ → ℕ} (hwf : E.WF rank) (S : Set ℕ) :
    MSolvesD E sv sd V (derOf E sv sd V X rank) X S := by
  refine ⟨?_, ?_, ?_, ?_⟩
  · rintro o _ (hk | hk) l k i j _ _ _ _ <;> simp only [derOf, derO, hk]
  · intro o _ hk l k i j _ _ _ _; simp only [derOf, derO, hk]
  · intro o _ hk l k i j _ _ _ _; simp only [derOf, derO, hk]
  · intro o _ n e eye hk l k i j hl hk' _ _
    obtain ⟨h1, h2, h3, h4, h5, h6, h7⟩ := hwf.form o n e eye hk
    simp only [derOf, derO, hk]
    refine tan_congr E sv sd V e h4 (fun q hq l k hl hk => ?_) l k (by omega) (by omega)
    have := h7 q (by simp [MEnv.item, MNode.objs, hq])
    exact derO_stable E sv sd V X hwf i j _ _ q (by omega) (by omega) l k hl hk

end exist

end CoolDiff
