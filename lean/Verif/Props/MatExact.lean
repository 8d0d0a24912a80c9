import Verif.Matrix.Runs
import Verif.Props.MatrixExpr

/-!
# C38: what `Eval` and `DevalF` of matrices answer, after every history of such queries
-/

set_option linter.unusedSectionVars false

namespace CoolDiff

open MNode

variable {K : Type} [Field K] [DecidableEq K]

/-! ## Auxiliary facts -/

section aux
variable {E : MEnv K} {sv : ℕ → K} {sd : ℕ → ℕ → ℕ → K}

theorem tan_congr_both {V W : ℕ → ℕ → ℕ → K} {D F : ℕ → ℕ → ℕ → ℕ → ℕ → K} {i j : ℕ} (e : MNode K) (hd : DimOk E e)
    (hV : ∀ q ∈ e.objs, ∀ l k, l < E.rows q → k < E.cols q → V q l k = W q l k)
    (hD : ∀ q ∈ e.objs, ∀ l k, l < E.rows q → k < E.cols q → D q l k i j = F q l k i j) {l k : ℕ}
    (hl : l < (e.dims E).1) (hk : k < (e.dims E).2) :
    tan E sv sd V D e l k i j = tan E sv sd W F e l k i j := by
  rw [tan_congr E sv sd V e hd hD l k hl hk]
  clear hD
  induction e generalizing l k with
  | obj o => rfl
  | bin n op a b iha ihb =>
    obtain ⟨hda, hdb, hd, _⟩ := hd
    have iha := @iha hda (fun q hq => hV q (by simp [MNode.objs, hq]))
    have ihb := @ihb hdb (fun q hq => hV q (by simp [MNode.objs, hq]))
    have da := den_congr E sv a hda (fun q hq => hV q (by simp [MNode.objs, hq]))
    have db := den_congr E sv b hdb (fun q hq => hV q (by simp [MNode.objs, hq]))
    simp only [MNode.dims] at hl hk
    cases op <;> simp only [MBin.odims] at hl hk <;>
      simp only [MBin.dimOk, Bool.and_eq_true, beq_iff_eq] at hd <;> simp only [tan]
    · rw [iha hl (by omega), ihb (by omega) hk]
    · rw [iha hl (by omega), ihb (by omega) hk]
    · refine Finset.sum_congr rfl fun t ht => ?_
      have ht := Finset.mem_range.1 ht
      rw [iha hl ht, ihb (by omega) hk, da l t hl ht, db t k (by omega) hk]
    · rw [iha hl (by omega), ihb (by omega) hk, da l k hl (by omega), db l k (by omega) hk]
    · simp only [convTan]
      refine Finset.sum_congr rfl fun u hu => Finset.sum_congr rfl fun v hv => ?_
      rw [padded_congr da,
        padded_congr (A := fun l k => tan E sv sd V F a l k i j) (B := fun l k => tan E sv sd W F a l k i j)
          (fun _ _ h1 h2 => iha h1 h2),
        ihb (Finset.mem_range.1 hu) (Finset.mem_range.1 hv),
        db u v (Finset.mem_range.1 hu) (Finset.mem_range.1 hv)]
  | un n op a ih =>
    obtain ⟨hda, hd⟩ := hd
    have iha := @ih hda (fun q hq => hV q (by simpa [MNode.objs] using hq))
    have da := den_congr E sv a hda (fun q hq => hV q (by simpa [MNode.objs] using hq))
    cases op with
    | inv =>
      simp only [MUn.dimOk, beq_iff_eq] at hd
      simp only [tan]
      congr 1
      refine Finset.sum_congr rfl fun p hp => Finset.sum_congr rfl fun q hq => ?_
      rw [iha (Finset.mem_range.1 hp) (by have := Finset.mem_range.1 hq; omega),
        (invEl_congr fun i j hi hj => da i j hi (by omega)).1]
    | det =>
      simp only [MUn.dimOk, beq_iff_eq] at hd
      simp only [tan]
      refine Finset.sum_congr rfl fun p hp => Finset.sum_congr rfl fun q hq => ?_
      rw [iha (Finset.mem_range.1 hp) (by have := Finset.mem_range.1 hq; omega),
        (invEl_congr fun i j hi hj => da i j hi (by omega)).1, (invEl_congr fun i j hi hj => da i j hi (by omega)).2]
    | tr => simp only [MNode.dims] at hl hk; simp only [tan]; rw [iha hk hl]
    | smulE s => simp only [MNode.dims] at hl hk; simp only [tan]; rw [iha hl hk, da l k hl hk]
    | map f df => simp only [MNode.dims] at hl hk; simp only [tan]; rw [iha hl hk, da l k hl hk]
    | _ => simp only [MNode.dims] at hl hk; simp only [tan]; rw [iha hl hk]

theorem Invertible.congr {V W : ℕ → ℕ → ℕ → K} {d : Prop} : ∀ {e : MNode K}, DimOk E e →
    (∀ q ∈ e.objs, ∀ l k, l < E.rows q → k < E.cols q → V q l k = W q l k) →
    Invertible d E sv V e → Invertible d E sv W e
  | .obj _, _, _, _ => trivial
  | .bin _ _ a b, hd, hV, h =>
    ⟨Invertible.congr hd.1 (fun q hq => hV q (by simp [MNode.objs, hq])) h.1,
      Invertible.congr hd.2.1 (fun q hq => hV q (by simp [MNode.objs, hq])) h.2⟩
  | .un _ op a, hd, hV, h => by
    obtain ⟨hda, hd⟩ := hd
    have hVa : ∀ q ∈ a.objs, ∀ l k, l < E.rows q → k < E.cols q → V q l k = W q l k :=
      fun q hq => hV q (by simpa [MNode.objs] using hq)
    have ih : Invertible d E sv V a → Invertible d E sv W a := fun h => Invertible.congr hda hVa h
    have da := den_congr E sv a hda hVa
    cases op with
    | inv =>
      simp only [MUn.dimOk, beq_iff_eq] at hd
      refine ⟨ih h.1, ?_⟩
      rw [← (invEl_congr fun i j hi hj => da i j hi (by omega)).2]; exact h.2
    | det =>
      simp only [MUn.dimOk, beq_iff_eq] at hd
      refine ⟨ih h.1, ?_⟩
      rw [← (invEl_congr fun i j hi hj => da i j hi (by omega)).2]; exact h.2
    | _ => exact ih h

variable {rank : ℕ → ℕ} {N M : Memo K} {e : MNode K}

/-- Values are right where the stored ones that are found are. -/
theorem seen_eq (hwf : E.WF rank) (hform : ∀ p, E.isForm p → N.val p = none → ¬N.used p)
    (hW : ∀ p w, N.Met E e p → N.val p = some w → ∀ k l, k < E.rows p → l < E.cols p → w k l = valOf E sv rank p k l) :
    ∀ p, N.Met E e p → ∀ i j, i < E.rows p → j < E.cols p → seen E sv rank N p i j = valOf E sv rank p i j := by
  have key : ∀ f q, rank q < f → N.Met E e q → ∀ i j, i < E.rows q → j < E.cols q →
      seenO E sv N f q i j = valO E sv f q i j := by
    intro f
    induction f with
    | zero => intro q h; omega
    | succ f ih =>
      intro q hq hr i j hi hj
      rcases hv : N.val q with _ | w
      · rcases hk : E.kind q with _ | _ | _ | _ | ⟨n, e', eye⟩ <;> simp only [seenO, valO, hk, hv]
        obtain ⟨_, h2, h3, h4, h5, h6, h7⟩ := hwf.form q n e' eye hk
        refine den_congr E sv e' h4 (fun q' hq' i j hi hj => ?_) i j (by omega) (by omega)
        have hm : q' ∈ (MEnv.item n e' eye).objs := by simp [MEnv.item, MNode.objs, hq']
        exact ih q' (by have := h7 q' hm; omega) (hr.step (hform q ⟨n, e', eye, hk⟩ hv) hk hm) i j hi hj
      · simp only [seenO, hv]
        rw [hW q w hr hv i j hi hj]
        exact valO_stable E sv hwf _ _ q (by omega) hq i j hi hj
  exact fun p hp i j hi hj => key _ p (by omega) hp i j hi hj

/-- Derivatives are right where the stored ones that are found are. -/
theorem dseen_eq (hwf : E.WF rank) {V W : ℕ → ℕ → ℕ → K} {X : ℕ}
    (hform : ∀ p, N.Met E e p → E.isForm p → N.derAt E p = none → ¬N.used p)
    (hV : ∀ p, N.Met E e p → ∀ k l, k < E.rows p → l < E.cols p → V p k l = W p k l)
    (hD : ∀ p d, N.Met E e p → N.derAt E p = some d → ∀ l k i j, l < E.rows p → k < E.cols p →
      i < E.rows X → j < E.cols X → d.el l k i j = derOf E sv sd W X rank p l k i j) :
    ∀ p, N.Met E e p → ∀ l k i j, l < E.rows p → k < E.cols p → i < E.rows X → j < E.cols X →
      dseen E sv sd V X rank N p l k i j = derOf E sv sd W X rank p l k i j := by
  intro p hp l k i j hl hk hi hj
  have key : ∀ f q, rank q < f → N.Met E e q → ∀ l k, l < E.rows q → k < E.cols q →
      dseenO E sv sd V X N f q l k i j = derO E sv sd W X f q l k i j := by
    intro f
    induction f with
    | zero => intro q h; omega
    | succ f ih =>
      intro q hq hr l k hl hk
      rcases hv : N.derAt E q with _ | d
      · rcases hko : E.kind q with _ | _ | _ | _ | ⟨n, e', eye⟩ <;> simp only [dseenO, derO, hko, hv]
        obtain ⟨_, h2, h3, h4, h5, h6, h7⟩ := hwf.form q n e' eye hko
        have hmet : ∀ q' ∈ e'.objs, N.Met E e q' ∧ rank q' < f := fun q' hq' => by
          have hm : q' ∈ (MEnv.item n e' eye).objs := by simp [MEnv.item, MNode.objs, hq']
          exact ⟨hr.step (hform q hr ⟨n, e', eye, hko⟩ hv) hko hm, by have := h7 q' hm; omega⟩
        exact tan_congr_both e' h4 (fun q' hq' => hV q' (hmet q' hq').1)
          (fun q' hq' => ih q' (hmet q' hq').2 (hmet q' hq').1) (by omega) (by omega)
      · simp only [dseenO, hv]
        rw [hD q d hr hv l k i j hl hk hi hj]
        exact derO_stable E sv sd W X hwf i j _ _ q (by omega) hq l k hl hk
  exact key _ p (by omega) hp l k hl hk

/-- If all matrices that `e` mentions directly were used, nothing stored is found. -/
theorem Memo.clear_none (hu : ∀ o ∈ e.objs, M.used o) {p : ℕ} (hp : (M.clear E e).Met E e p) :
    (M.clear E e).val p = none ∧ (M.clear E e).derAt E p = none ∧ ¬(M.clear E e).used p := by
  have hC : M.Cleared E e p := by
    obtain ⟨o, ho, hr⟩ := hp.reach
    exact ⟨o, ho, hu o ho, hr⟩
  have hn : ¬(M.clear E e).used p := fun h => h.2 hC
  refine ⟨if_pos hC, ?_, hn⟩
  by_cases hl : E.isForm p
  · exact if_pos ⟨hl, hn⟩
  · rw [Memo.derAt_leaf hl]; exact if_pos ⟨hC, hl⟩

theorem Memo.clear_val {p : ℕ} {w : ℕ → ℕ → K} :
    (M.clear E e).val p = some w ↔ ¬M.Cleared E e p ∧ M.val p = some w := by
  by_cases h : M.Cleared E e p <;> simp [Memo.clear, h]

theorem MemoInv.clear_form {s : MSt K} (h : MemoInv E s M) {p : ℕ} (hl : E.isForm p)
    (hv : (M.clear E e).val p = none) : ¬(M.clear E e).used p := by
  rintro ⟨h1, h2⟩
  obtain ⟨w, hw⟩ := (h.st.fv p hl).1 h1
  rw [Memo.clear_val.2 ⟨h2, hw⟩] at hv; cases hv

/-- What a query needs, at the current values. -/
theorem MemoOk.of_used {c : MCtx K} {rank : ℕ → ℕ} {d : Prop} {s : MSt K} {M : Memo K} {e : MNode K}
    (h : MemoInv c.E s M) (hq : QueryOkE c rank d e) (hu : ∀ o ∈ e.objs, M.used o) :
    MemoOk c rank d (M.clear c.E e) e := by
  have hval : ∀ p, (M.clear c.E e).Met c.E e p → ∀ i j, i < c.E.rows p → j < c.E.cols p →
      MVal c rank p i j = seen c.E c.sc.val rank (M.clear c.E e) p i j := fun p hp i j hi hj =>
    (seen_eq hq.wf (fun p hl hv => h.clear_form hl hv)
      (fun p w hp hw => by rw [(Memo.clear_none hu hp).1] at hw; cases hw) p hp i j hi hj).symm
  refine ⟨hq.sound, hq.eyes, hq.dims, hq.inv, hq.invertible.congr hq.dims fun q hq' => hval q (.root hq'), ?_⟩
  intro p n e' eye hp hn hk
  refine ⟨hq.forms.inv p hp.reach n e' eye hk, (hq.forms.invertible p hp.reach n e' eye hk).congr
    (hq.wf.form p n e' eye hk).2.2.2.1 fun q hq' => hval q (.step hp hn hk ?_)⟩
  simp [MEnv.item, MNode.objs, hq']

end aux

/-! ## Theorems -/

section
variable {E : MEnv K} {rank : ℕ → ℕ} {s : MSt K} {M : Memo K}

/-- **C38, exactly.**  After every sequence of `Eval` and `DevalF` queries on expressions and named matrices, in any
order and with any changes of the scalars in between, `Eval(e)` succeeds; the matrices below `e` have the values
`seen`: those stored by earlier queries where such are found, computed from the current scalars where not. -/
theorem C38_exact_eval (hwf : E.WF rank) (h : MRun E rank s M) (c : MCtx K) (hE : c.E = E) {e : MNode K} {f : ℕ}
    (hc : MemoOk c rank False (M.clear E e) e) (hf : ∀ q ∈ e.objs, rank q < f) :
    ∃ s' m, matEval c f e s = some (s', m) ∧ m.rows = (e.dims E).1 ∧ m.cols = (e.dims E).2 ∧
      (∀ i j, i < (e.dims E).1 → j < (e.dims E).2 →
        m.get? i j = some (den E c.sc.val (seen E c.sc.val rank (M.clear E e)) e i j)) ∧
      MRun E rank s' (M.afterEval c rank e) := by
  subst hE
  obtain ⟨s', m, e1, r, _⟩ := (h.inv hwf).eval hwf hc hf
  exact ⟨s', m, e1, r.rows, r.cols, r.elem, h.eval c e f rfl hc hf e1⟩

/-- **C38, exactly, for derivatives.**  Element `(l,k)` with respect to element `(i,j)` of `X`. -/
theorem C38_exact_devalF (hwf : E.WF rank) (h : MRun E rank s M) (c : MCtx K) (hE : c.E = E) {e : MNode K} {f X : ℕ}
    (hc : MemoOkD c rank X (M.clear E e) e) (hf : ∀ q ∈ e.objs, rank q < f) :
    ∃ s' m, matDevalF c f X e s = some (s', m) ∧ m.rows = (e.dims E).1 * E.rows X ∧
      m.cols = (e.dims E).2 * E.cols X ∧
      (∀ l k i j, l < (e.dims E).1 → k < (e.dims E).2 → i < E.rows X → j < E.cols X →
        m.get? (l * E.rows X + i) (k * E.cols X + j) = some (tan E c.sc.val (c.sd X)
          (seen E c.sc.val rank (M.clear E e))
          (dseen E c.sc.val (c.sd X) (seen E c.sc.val rank (M.clear E e)) X rank (M.clear E e)) e l k i j)) ∧
      MRun E rank s' (M.afterDevalF c rank X e) := by
  subst hE
  obtain ⟨s', m, e1, r, _⟩ := (h.inv hwf).devalF hwf hc hf
  refine ⟨s', m, e1, r.rows, r.cols, fun l k i j hl hk hi hj => ?_, h.devalF c X e f rfl hc hf e1⟩
  rw [r.elem _ _ (flat_lt hl hi) (flat_lt hk hj), lay_at _ hi hj]

/-- **C38.**  If the matrices that `e` mentions directly were all used before, `Eval(e)` is computed from the current
scalars, however stale anything else is. -/
theorem C38_used_right (hwf : E.WF rank) (h : MRun E rank s M) (c : MCtx K) (hE : c.E = E) {e : MNode K} {f : ℕ}
    (hc : QueryOkE c rank False e) (hf : ∀ q ∈ e.objs, rank q < f) (hu : ∀ o ∈ e.objs, M.used o) :
    ∃ s' m, matEval c f e s = some (s', m) ∧ m.rows = (e.dims E).1 ∧ m.cols = (e.dims E).2 ∧
      ∀ i j, i < (e.dims E).1 → j < (e.dims E).2 → m.get? i j = some (den E c.sc.val (MVal c rank) e i j) := by
  subst hE
  obtain ⟨s', m, e1, r1, r2, r3, _⟩ := C38_exact_eval hwf h c rfl (MemoOk.of_used (h.inv hwf) hc hu) hf
  refine ⟨s', m, e1, r1, r2, fun i j hi hj => ?_⟩
  rw [r3 i j hi hj]
  congr 1
  refine den_congr _ _ e hc.dims (fun q hq i j hi hj => ?_) i j hi hj
  exact seen_eq hwf (fun p hl hv => (h.inv hwf).clear_form hl hv)
    (fun p w hp hw => by rw [(Memo.clear_none hu hp).1] at hw; cases hw) q (.root hq) i j hi hj

/-- **C38.**  The same for `DevalF(e, X)`. -/
theorem C38_used_right_devalF (hwf : E.WF rank) (h : MRun E rank s M) (c : MCtx K) (hE : c.E = E) {e : MNode K}
    {f X : ℕ} (hc : QueryOkE c rank True e) (hK : c.B.KronSound) (hP : PadsOk E X) (hvars : VarsOk E)
    (hX : E.kind X = .var) (hf : ∀ q ∈ e.objs, rank q < f) (hu : ∀ o ∈ e.objs, M.used o) :
    ∃ s' m, matDevalF c f X e s = some (s', m) ∧ m.rows = (e.dims E).1 * E.rows X ∧
      m.cols = (e.dims E).2 * E.cols X ∧
      ∀ l k i j, l < (e.dims E).1 → k < (e.dims E).2 → i < E.rows X → j < E.cols X →
        m.get? (l * E.rows X + i) (k * E.cols X + j) =
          some (tan E c.sc.val (c.sd X) (MVal c rank) (MDer c X rank) e l k i j) := by
  subst hE
  have hok : MemoOkD c rank X (M.clear c.E e) e := by
    refine ⟨MemoOk.of_used (h.inv hwf) hc hu, hK, hP, hvars, hX, ?_, ?_⟩
    · intro p hp _ hn; exact absurd hn (Memo.clear_none hu hp).2.2
    · intro p d hp hd; rw [(Memo.clear_none hu hp).2.1] at hd; cases hd
  obtain ⟨s', m, e1, r1, r2, r3, _⟩ := C38_exact_devalF hwf h c rfl hok hf
  have hV := seen_eq (e := e) (sv := c.sc.val) hwf (fun p hl hv => (h.inv hwf).clear_form hl hv)
    (fun p w hp hw => by rw [(Memo.clear_none hu hp).1] at hw; cases hw)
  have hD := dseen_eq (e := e) (sv := c.sc.val) (sd := c.sd X) (X := X) hwf
    (fun p hp _ _ => (Memo.clear_none hu hp).2.2) hV
    (fun p d hp hd => by rw [(Memo.clear_none hu hp).2.1] at hd; cases hd)
  refine ⟨s', m, e1, r1, r2, fun l k i j hl hk hi hj => ?_⟩
  rw [r3 l k i j hl hk hi hj]
  congr 1
  exact tan_congr_both e hc.dims (fun q hq => hV q (.root hq))
    (fun q hq l k hl hk => hD q (.root hq) l k i j hl hk hi hj) hl hk

/-- **C38.**  A wrong value always comes from a stale one: if an element of the answer of `Eval(e)` is not the
current value, then some matrix below `e`, not below a used matrix that `e` mentions directly, has a stored value that
is not its current one. -/
theorem C38_wrong_only_from_stale (hwf : E.WF rank) (h : MRun E rank s M) (c : MCtx K) (hE : c.E = E) {e : MNode K}
    {f : ℕ} (hc : MemoOk c rank False (M.clear E e) e) (hf : ∀ q ∈ e.objs, rank q < f) {s' : MSt K} {m : Mat K}
    (he : matEval c f e s = some (s', m)) {i j : ℕ} (hi : i < (e.dims E).1) (hj : j < (e.dims E).2)
    (hw : m.get? i j ≠ some (den E c.sc.val (MVal c rank) e i j)) :
    ∃ p w, EReach E e p ∧ ¬M.Cleared E e p ∧ M.val p = some w ∧
      ∃ k l, k < E.rows p ∧ l < E.cols p ∧ w k l ≠ MVal c rank p k l := by
  obtain ⟨s1, m1, e1, _, _, r3, _⟩ := C38_exact_eval hwf h c hE hc hf
  rw [he] at e1; cases e1
  subst hE
  by_contra hcon
  apply hw
  rw [r3 i j hi hj]
  congr 1
  refine den_congr _ _ e hc.dims (fun q hq i j hi hj => ?_) i j hi hj
  refine seen_eq hwf (fun p hl hv => (h.inv hwf).clear_form hl hv) (fun p w hp hw k l hk hl => ?_) q (.root hq)
    i j hi hj
  obtain ⟨h1, h2⟩ := Memo.clear_val.1 hw
  by_contra hne
  exact hcon ⟨p, w, hp.reach, h1, h2, k, l, hk, hl, hne⟩

/-- **C38.**  The same for `DevalF(e, X)`: a wrong derivative comes from a stale value or a stored derivative that is
not the current derivative with respect to `X`. -/
theorem C38_wrong_only_from_stale_devalF (hwf : E.WF rank) (h : MRun E rank s M) (c : MCtx K) (hE : c.E = E)
    {e : MNode K} {f X : ℕ} (hc : MemoOkD c rank X (M.clear E e) e) (hf : ∀ q ∈ e.objs, rank q < f) {s' : MSt K}
    {m : Mat K} (he : matDevalF c f X e s = some (s', m)) {l k i j : ℕ} (hl : l < (e.dims E).1) (hk : k < (e.dims E).2)
    (hi : i < E.rows X) (hj : j < E.cols X)
    (hw : m.get? (l * E.rows X + i) (k * E.cols X + j) ≠
      some (tan E c.sc.val (c.sd X) (MVal c rank) (MDer c X rank) e l k i j)) :
    (∃ p w, EReach E e p ∧ ¬M.Cleared E e p ∧ M.val p = some w ∧
      ∃ k l, k < E.rows p ∧ l < E.cols p ∧ w k l ≠ MVal c rank p k l) ∨
    ∃ p d, EReach E e p ∧ ¬M.Cleared E e p ∧ M.der p = some d ∧
      ∃ l k i j, l < E.rows p ∧ k < E.cols p ∧ i < E.rows X ∧ j < E.cols X ∧
        d.el l k i j ≠ MDer c X rank p l k i j := by
  obtain ⟨s1, m1, e1, _, _, r3, _⟩ := C38_exact_devalF hwf h c hE hc hf
  rw [he] at e1; cases e1
  subst hE
  by_contra hcon
  rw [not_or] at hcon
  have hV : ∀ p, (M.clear c.E e).Met c.E e p → ∀ k l, k < c.E.rows p → l < c.E.cols p →
      seen c.E c.sc.val rank (M.clear c.E e) p k l = MVal c rank p k l := by
    refine seen_eq hwf (fun p hl hv => (h.inv hwf).clear_form hl hv) (fun p w hp hw k l hk hl => ?_)
    obtain ⟨h1, h2⟩ := Memo.clear_val.1 hw
    by_contra hne
    exact hcon.1 ⟨p, w, hp.reach, h1, h2, k, l, hk, hl, hne⟩
  have hD := dseen_eq (e := e) (sv := c.sc.val) (sd := c.sd X) (X := X) (N := M.clear c.E e) hwf
    (fun p hp hl hn hu => by
      obtain ⟨d, hd⟩ := hc.stored p hp hl hu
      rw [Memo.derAt, if_neg fun hh => hh.2 hu, hd] at hn; cases hn) hV
    (fun p d hp hd l k i j hl hk hi hj => by
      by_contra hne
      refine hcon.2 ⟨p, d, hp.reach, ?_, ?_, l, k, i, j, hl, hk, hi, hj, hne⟩
      · intro hC
        by_cases hf : c.E.isForm p
        · rw [Memo.derAt, if_pos ⟨hf, fun hu => hu.2 hC⟩] at hd; cases hd
        · rw [Memo.derAt_leaf hf, show (M.clear c.E e).der p = none from if_pos ⟨hC, hf⟩] at hd; cases hd
      · simp only [Memo.derAt] at hd
        split at hd
        · cases hd
        · simp only [Memo.clear] at hd
          split at hd
          · cases hd
          · exact hd)
  apply hw
  rw [r3 l k i j hl hk hi hj]
  congr 1
  exact tan_congr_both e hc.ok.dims (fun q hq => hV q (.root hq))
    (fun q hq l k hl hk => hD q (.root hq) l k i j hl hk hi hj) hl hk

/-- **C38.**  `Eval(e)` is right as soon as the stored values of the matrices below `e` are their current ones: the
condition of `C38_eval_current_partial` is not needed. -/
theorem C38_fine_eval (hwf : E.WF rank) (h : MRun E rank s M) (c : MCtx K) (hE : c.E = E) {e : MNode K} {f : ℕ}
    (hc : MemoOk c rank False (M.clear E e) e) (hf : ∀ q ∈ e.objs, rank q < f)
    (hW : ∀ p w, EReach E e p → M.val p = some w → ∀ k l, k < E.rows p → l < E.cols p → w k l = MVal c rank p k l) :
    ∃ s' m, matEval c f e s = some (s', m) ∧ m.rows = (e.dims E).1 ∧ m.cols = (e.dims E).2 ∧
      ∀ i j, i < (e.dims E).1 → j < (e.dims E).2 → m.get? i j = some (den E c.sc.val (MVal c rank) e i j) := by
  obtain ⟨s', m, e1, r1, r2, _⟩ := C38_exact_eval hwf h c hE hc hf
  refine ⟨s', m, e1, r1, r2, fun i j hi hj => ?_⟩
  by_contra hne
  obtain ⟨p, w, h1, _, h3, k, l, hk, hl, h4⟩ := C38_wrong_only_from_stale hwf h c hE hc hf e1 hi hj hne
  exact h4 (hW p w h1 h3 k l hk hl)

/-- **C38.**  The same for `DevalF(e, X)`. -/
theorem C38_fine_devalF (hwf : E.WF rank) (h : MRun E rank s M) (c : MCtx K) (hE : c.E = E) {e : MNode K} {f X : ℕ}
    (hc : MemoOkD c rank X (M.clear E e) e) (hf : ∀ q ∈ e.objs, rank q < f)
    (hW : ∀ p w, EReach E e p → M.val p = some w → ∀ k l, k < E.rows p → l < E.cols p → w k l = MVal c rank p k l)
    (hD : ∀ p d, EReach E e p → M.der p = some d → ∀ l k i j, l < E.rows p → k < E.cols p → i < E.rows X →
      j < E.cols X → d.el l k i j = MDer c X rank p l k i j) :
    ∃ s' m, matDevalF c f X e s = some (s', m) ∧ m.rows = (e.dims E).1 * E.rows X ∧
      m.cols = (e.dims E).2 * E.cols X ∧
      ∀ l k i j, l < (e.dims E).1 → k < (e.dims E).2 → i < E.rows X → j < E.cols X →
        m.get? (l * E.rows X + i) (k * E.cols X + j) =
          some (tan E c.sc.val (c.sd X) (MVal c rank) (MDer c X rank) e l k i j) := by
  obtain ⟨s', m, e1, r1, r2, _⟩ := C38_exact_devalF hwf h c hE hc hf
  refine ⟨s', m, e1, r1, r2, fun l k i j hl hk hi hj => ?_⟩
  by_contra hne
  rcases C38_wrong_only_from_stale_devalF hwf h c hE hc hf e1 hl hk hi hj hne with
    ⟨p, w, h1, _, h3, k, l, hk, hl, h4⟩ | ⟨p, d, h1, _, h3, l, k, i, j, hl, hk, hi, hj, h4⟩
  · exact h4 (hW p w h1 h3 k l hk hl)
  · exact h4 (hD p d h1 h3 l k i j hl hk hi hj)

end

/-! ## Examples -/

namespace StaleEx

/-- Nesting depth in `staleE`. -/
def rank : ℕ → ℕ | 2 => 1 | 3 => 1 | 4 => 2 | _ => 0

theorem kinds {o n e eye} (h : staleE.kind o = .form n e eye) :
    eye = 1 ∧ ((o = 2 ∧ n = 20 ∧ e = .bin 21 .add (.obj 0) (.obj 0)) ∨
      (o = 3 ∧ n = 30 ∧ e = .bin 31 .add (.obj 0) (.obj 0)) ∨
      (o = 4 ∧ n = 40 ∧ e = .bin 41 .add (.obj 2) (.obj 0))) := by
  match o with
  | 0 => simp [staleE] at h
  | 1 => simp [staleE] at h
  | 2 => simp [staleE] at h; simp [← h.2.1, ← h.1, ← h.2.2]
  | 3 => simp [staleE] at h; simp [← h.2.1, ← h.1, ← h.2.2]
  | 4 => simp [staleE] at h; simp [← h.2.1, ← h.1, ← h.2.2]
  | 5 => simp [staleE] at h
  | k + 6 => simp [staleE] at h

theorem wf : staleE.WF rank := by
  refine ⟨fun _ => one_pos, fun _ => one_pos, ?_⟩
  intro o n e eye hk
  obtain ⟨rfl, ⟨rfl, rfl, rfl⟩ | ⟨rfl, rfl, rfl⟩ | ⟨rfl, rfl, rfl⟩⟩ := kinds hk <;>
  · refine ⟨rfl, rfl, rfl, ?_, rfl, rfl, ?_⟩
    · simp [DimOk, MNode.dims, MBin.dimOk, MBin.padOk, staleE]
    · intro q hq
      simp only [MEnv.item, MNode.objs, List.mem_append, List.mem_singleton] at hq
      rcases hq with (rfl | rfl) | rfl <;> decide

/-- `staleC` with other kernels. -/
def withB (B : Backend ℚ) (x : ℚ) : MCtx ℚ := { staleC x with B := B }

theorem sound : (naiveB (K := ℚ) Sched.seq).Sound staleE.P :=
  backend_sound (K := ℚ) (g := ⟨.naive, false, .cpu⟩) rfl Sched.seq (P := staleE.P) (Or.inr fun q hq => hq.elim)

/-- The kernels of an Eigen build. -/
noncomputable def eig : Backend ℚ := backend ⟨.eigen, false, .cpu⟩ Sched.seq

theorem soundE : eig.Sound staleE.P :=
  backend_sound (K := ℚ) (g := ⟨.eigen, false, .cpu⟩) rfl Sched.seq (P := staleE.P) (Or.inr fun q hq => hq.elim)

theorem kronE : eig.KronSound := backend_kronSound (g := ⟨.eigen, false, .cpu⟩) rfl rfl Sched.seq

theorem eyes (x : ℚ) : EyesOk staleE (staleC x).sc.val := by
  intro p n e eye hk i j hi hj
  obtain ⟨rfl, _⟩ := kinds hk
  have hi : i < 1 := hi
  have hj : j < 1 := hj
  obtain rfl : i = 0 := by omega
  obtain rfl : j = 0 := by omega
  rfl

theorem can {B : Backend ℚ} (hB : B.Sound staleE.P) (x : ℚ) (d : Prop) (N : Memo ℚ) (o : ℕ) :
    MemoOk (withB B x) rank d N (.obj o) := by
  refine ⟨hB, eyes x, trivial, fun h => h.elim, trivial, ?_⟩
  intro p n e eye _ _ hk
  obtain ⟨_, ⟨_, _, rfl⟩ | ⟨_, _, rfl⟩ | ⟨_, _, rfl⟩⟩ := kinds hk <;>
    exact ⟨fun hu => absurd hu (by simp [UsesInv]), trivial, trivial⟩

theorem query {B : Backend ℚ} (hB : B.Sound staleE.P) (x : ℚ) (d : Prop) (o : ℕ) :
    QueryOkE (withB B x) rank d (.obj o) := by
  refine ⟨wf, hB, eyes x, ⟨?_, ?_⟩, trivial, fun h => h.elim, trivial⟩
  · intro p _ n e eye hk hu
    obtain ⟨_, ⟨_, _, rfl⟩ | ⟨_, _, rfl⟩ | ⟨_, _, rfl⟩⟩ := kinds hk <;>
      exact absurd hu (by simp [UsesInv])
  · intro p _ n e eye hk
    obtain ⟨_, ⟨_, _, rfl⟩ | ⟨_, _, rfl⟩ | ⟨_, _, rfl⟩⟩ := kinds hk <;> exact ⟨trivial, trivial⟩

theorem vars : VarsOk staleE := by
  intro o p ho hp _ l k i j hl hk hi hj h
  have ho' : o = 0 ∨ o = 5 := by
    match o with
    | 0 => simp
    | 5 => simp
    | 1 => simp [staleE] at ho
    | 2 => simp [staleE] at ho
    | 3 => simp [staleE] at ho
    | 4 => simp [staleE] at ho
    | k + 6 => simp [staleE] at ho
  have hp' : p = 0 ∨ p = 5 := by
    match p with
    | 0 => simp
    | 5 => simp
    | 1 => simp [staleE] at hp
    | 2 => simp [staleE] at hp
    | 3 => simp [staleE] at hp
    | 4 => simp [staleE] at hp
    | k + 6 => simp [staleE] at hp
  have hl : l < 1 := hl
  have hk : k < 1 := hk
  have hi : i < 1 := hi
  have hj : j < 1 := hj
  refine ⟨?_, by omega, by omega⟩
  rcases ho' with rfl | rfl <;> rcases hp' with rfl | rfl <;> first | rfl | (simp [staleE] at h)

/-- What `G` mentions. -/
theorem reach3 {p : ℕ} (h : MReach staleE 3 p) : p = 3 ∨ p = 0 ∨ p = 1 := by
  induction h with
  | refl => simp
  | step _ hk hq ih =>
    obtain ⟨rfl, ⟨rfl, rfl, rfl⟩ | ⟨rfl, rfl, rfl⟩ | ⟨rfl, rfl, rfl⟩⟩ := kinds hk <;>
      simp [MEnv.item, MNode.objs] at hq ih <;> omega

theorem reach2 {p : ℕ} (h : MReach staleE 2 p) : p = 2 ∨ p = 0 ∨ p = 1 := by
  induction h with
  | refl => simp
  | step _ hk hq ih =>
    obtain ⟨rfl, ⟨rfl, rfl, rfl⟩ | ⟨rfl, rfl, rfl⟩ | ⟨rfl, rfl, rfl⟩⟩ := kinds hk <;>
      simp [MEnv.item, MNode.objs] at hq ih <;> omega

theorem empty_used (e : MNode ℚ) (p : ℕ) : ¬((Memo.empty : Memo ℚ).clear staleE e).used p := fun h => h.1

theorem rankOk {o : ℕ} (h : o < 5) : ∀ q ∈ (MNode.obj (K := ℚ) o).objs, rank q < 4 := by
  intro q hq
  simp only [MNode.objs, List.mem_singleton] at hq
  subst hq
  match q, h with
  | 0, _ => decide
  | 1, _ => decide
  | 2, _ => decide
  | 3, _ => decide
  | 4, _ => decide

/-- The hypotheses are met: `Eval(F)` with `X = 3`, then `X = 5` and `Eval(G)`, where `F = G = X + X`.  The
answer is 6 (the value of `X` is that of the first query), and the next `Eval(G)` is 10. -/
example : ∃ s1 m1 s2 m2 s3 m3,
    matEval (staleC 3) 4 (.obj 2) MSt.fresh = some (s1, m1) ∧
    matEval (staleC 5) 4 (.obj 3) s1 = some (s2, m2) ∧
    matEval (staleC 5) 4 (.obj 3) s2 = some (s3, m3) ∧
    m2.get? 0 0 = some 6 ∧ m3.get? 0 0 = some 10 := by
  obtain ⟨s1, m1, e1, _, _, r1, h1⟩ := C38_exact_eval wf MRun.fresh (staleC 3) rfl (e := .obj 2) (f := 4)
    (can sound 3 _ _ 2) (rankOk (by decide))
  obtain ⟨s2, m2, e2, _, _, r2, h2⟩ := C38_exact_eval wf h1 (staleC 5) rfl (e := .obj 3) (f := 4)
    (can sound 5 _ _ 3) (rankOk (by decide))
  obtain ⟨s3, m3, e3, _, _, r3⟩ := C38_used_right wf h2 (staleC 5) rfl (e := .obj 3) (f := 4)
    (query sound 5 _ 3) (rankOk (by decide)) (by
      intro o ho
      simp only [MNode.objs, List.mem_singleton] at ho
      subst ho
      exact Or.inr (.root (by simp [MNode.objs])))
  refine ⟨s1, m1, s2, m2, s3, m3, e1, e2, e3, ?_, ?_⟩
  · -- the record after the first query: only `F`, `X` and the identity
    have hm2 : ∀ N : Memo ℚ, ¬N.used 2 → N.Met staleE (.obj 2) 0 := fun N hn =>
      .step (.root (by simp [MNode.objs])) hn (n := 20) (e' := .bin 21 .add (.obj 0) (.obj 0)) (eye := 1) rfl
        (by simp [MEnv.item, MNode.objs])
    set M1 := (Memo.empty : Memo ℚ).afterEval (staleC 3) rank (.obj 2) with hM1
    have hX : M1.val 0 = some (seen staleE (staleC 3).sc.val rank ((Memo.empty : Memo ℚ).clear staleE (.obj 2)) 0) :=
      if_pos (hm2 _ (empty_used _ _))
    have hnot : ¬M1.used 3 := by
      rintro (h | h)
      · exact empty_used _ _ h
      · obtain ⟨o, ho, hr⟩ := h.reach
        simp only [MNode.objs, List.mem_singleton] at ho
        subst ho
        rcases reach2 hr with h | h | h <;> omega
    have hC : ∀ p, ¬M1.Cleared staleE (.obj 3) p := by
      rintro p ⟨o, ho, hu, _⟩
      simp only [MNode.objs, List.mem_singleton] at ho
      subst ho; exact hnot hu
    have hG : (M1.clear staleE (.obj 3)).val 3 = none := by
      refine (if_neg (hC 3)).trans ?_
      refine (if_neg fun h => ?_).trans (if_neg fun h => ?_)
      · exact hnot (Or.inr h)
      · obtain ⟨o, ho, hu, _⟩ := h
        exact hu
    have hX' : (M1.clear staleE (.obj 3)).val 0 =
        some (seen staleE (staleC 3).sc.val rank ((Memo.empty : Memo ℚ).clear staleE (.obj 2)) 0) :=
      (if_neg (hC 0)).trans hX
    rw [r2 0 0 one_pos one_pos]
    show some (seen _ _ _ _ _ _ _) = _
    rw [seen_form wf hG (n := 30) (e' := .bin 31 .add (.obj 0) (.obj 0)) (eye := 1) rfl one_pos one_pos]
    simp only [den]
    rw [seen_some hX', seen_leaf (by
      refine (if_neg ?_)
      rintro ⟨o, ho, hu, _⟩; exact hu) (by rintro ⟨n, e, eye, h⟩; simp [staleE] at h)]
    norm_num [staleC, staleE]
  · rw [r3 0 0 one_pos one_pos]
    norm_num [MVal, valOf, valO, staleE, den, rank, staleC]

theorem canD (x : ℚ) (X : ℕ) (hX : X = 0 ∨ X = 5) (N : Memo ℚ) (o : ℕ)
    (hs : ∀ p, N.Met staleE (.obj o) p → staleE.isForm p → N.used p → ∃ d, N.der p = some d)
    (hd : ∀ p d, N.Met staleE (.obj o) p → N.derAt staleE p = some d → d.rows = 1 ∧ d.cols = 1) :
    MemoOkD (withB eig x) rank X N (.obj o) := by
  refine ⟨can soundE x _ N o, kronE, PadsOk.of_empty rfl rfl, vars, ?_, hs, hd⟩
  rcases hX with rfl | rfl <;> rfl

/-- The hypotheses are met: `DevalF(F, X)`, then `DevalF(G, W)` twice, where `F = G = X + X` and `W` is another
`Matrix<Variable>`.  The first answer of `DevalF(G, W)` is 2 (the stored derivative of `X` is that with respect to
`X`), the second 0. -/
example : ∃ s1 m1 s2 m2 s3 m3,
    matDevalF (withB eig 3) 4 0 (.obj 2) MSt.fresh = some (s1, m1) ∧
    matDevalF (withB eig 3) 4 5 (.obj 3) s1 = some (s2, m2) ∧
    matDevalF (withB eig 3) 4 5 (.obj 3) s2 = some (s3, m3) ∧
    m2.get? 0 0 = some 2 ∧ m3.get? 0 0 = some 0 := by
  have hd0 : ∀ p d, ((Memo.empty : Memo ℚ).clear staleE (.obj 2)).der p = some d → False := by
    intro p d h
    have e : ((Memo.empty : Memo ℚ).clear staleE (.obj 2)).der p = none := by
      by_cases hh : (Memo.empty : Memo ℚ).Cleared staleE (.obj 2) p ∧ ¬staleE.isForm p
      · exact if_pos hh
      · exact if_neg hh
    rw [e] at h; cases h
  obtain ⟨s1, m1, e1, _, _, r1, h1⟩ := C38_exact_devalF wf MRun.fresh (withB eig 3) rfl (e := .obj 2) (f := 4) (X := 0)
    (canD 3 0 (Or.inl rfl) _ 2 (fun p _ _ hu => absurd hu (empty_used _ _)) (fun p d _ h => by
      simp only [Memo.derAt] at h
      split at h
      · cases h
      · exact (hd0 p d h).elim)) (rankOk (by decide))
  set M1 := (Memo.empty : Memo ℚ).afterDevalF (withB eig 3) rank 0 (.obj 2) with hM1
  have hnot : ¬M1.used 3 := by
    rintro (h | h)
    · exact empty_used _ _ h
    · obtain ⟨o, ho, hr⟩ := h.reach
      simp only [MNode.objs, List.mem_singleton] at ho
      subst ho
      rcases reach2 hr with h | h | h <;> omega
  have hC : ∀ p, ¬M1.Cleared staleE (.obj 3) p := by
    rintro p ⟨o, ho, hu, _⟩
    simp only [MNode.objs, List.mem_singleton] at ho
    subst ho; exact hnot hu
  have hder : ∀ p, (M1.clear staleE (.obj 3)).der p = M1.der p := fun p => if_neg fun h => hC p h.1
  have hnl : ∀ p, p = 0 ∨ p = 1 → ¬staleE.isForm p := by
    rintro p (rfl | rfl) ⟨n, e, eye, h⟩ <;> simp [staleE] at h
  have hnone3 : (M1.clear staleE (.obj 3)).derAt staleE 3 = none :=
    if_pos ⟨⟨30, _, 1, rfl⟩, fun h => hnot h.1⟩
  have hmet : ∀ p, (M1.clear staleE (.obj 3)).Met staleE (.obj 3) p → p = 3 ∨ p = 0 ∨ p = 1 := by
    intro p hp
    obtain ⟨o, ho, hr⟩ := hp.reach
    simp only [MNode.objs, List.mem_singleton] at ho
    subst ho
    exact reach3 hr
  have hdim : ∀ p d, M1.der p = some d → d.rows = 1 ∧ d.cols = 1 := by
    intro p d h
    simp only [hM1, Memo.afterDevalF] at h
    split at h
    · cases h; exact ⟨rfl, rfl⟩
    · exact (hd0 p d h).elim
  obtain ⟨s2, m2, e2, _, _, r2, h2⟩ := C38_exact_devalF wf h1 (withB eig 3) rfl (e := .obj 3) (f := 4) (X := 5)
    (canD 3 5 (Or.inr rfl) _ 3 (fun p hp hl hu => by
      rcases hmet p hp with rfl | hp
      · exact absurd hu.1 hnot
      · exact absurd hl (hnl p hp))
    (fun p d hp h => by
      simp only [Memo.derAt] at h
      split at h
      · cases h
      · exact hdim p d (by rw [← hder]; exact h))) (rankOk (by decide))
  obtain ⟨s3, m3, e3, _, _, r3⟩ := C38_used_right_devalF wf h2 (withB eig 3) rfl (e := .obj 3) (f := 4) (X := 5)
    (query soundE 3 _ 3) kronE (PadsOk.of_empty rfl rfl) vars rfl (rankOk (by decide)) (by
      intro o ho
      simp only [MNode.objs, List.mem_singleton] at ho
      subst ho
      exact Or.inr (.root (by simp [MNode.objs])))
  refine ⟨s1, m1, s2, m2, s3, m3, e1, e2, e3, ?_, ?_⟩
  · have hm2 : ∀ N : Memo ℚ, ¬N.used 2 → N.Met staleE (.obj 2) 0 := fun N hn =>
      .step (.root (by simp [MNode.objs])) hn (n := 20) (e' := .bin 21 .add (.obj 0) (.obj 0)) (eye := 1) rfl
        (by simp [MEnv.item, MNode.objs])
    have hX : (M1.clear staleE (.obj 3)).derAt staleE 0 = some ⟨1, 1, dseen staleE (withB eig 3).sc.val ((withB eig 3).sd 0)
        (seen staleE (withB eig 3).sc.val rank ((Memo.empty : Memo ℚ).clear staleE (.obj 2))) 0 rank
        ((Memo.empty : Memo ℚ).clear staleE (.obj 2)) 0⟩ := by
      rw [Memo.derAt_leaf (hnl 0 (Or.inl rfl)), hder]
      exact if_pos (hm2 _ (empty_used _ _))
    have hX0 : ((Memo.empty : Memo ℚ).clear staleE (.obj 2)).derAt staleE 0 = none := by
      rw [Memo.derAt_leaf (hnl 0 (Or.inl rfl))]
      rcases h : ((Memo.empty : Memo ℚ).clear staleE (.obj 2)).der 0 with _ | d
      · rfl
      · exact (hd0 0 d h).elim
    have := r2 0 0 0 0 one_pos one_pos one_pos one_pos
    simp only [zero_mul, zero_add] at this
    rw [this]
    show some (dseen _ _ _ _ _ _ _ _ _ _ _ _) = _
    rw [dseen_form wf hnone3 (n := 30) (e' := .bin 31 .add (.obj 0) (.obj 0)) (eye := 1) rfl one_pos one_pos]
    simp only [tan]
    rw [dseen_some hX]
    simp only [dseen, dseenO, hX0]
    norm_num [staleE]
  · have := r3 0 0 0 0 one_pos one_pos one_pos one_pos
    simp only [zero_mul, zero_add] at this
    rw [this]
    norm_num [tan, MDer, derOf, derO, staleE, rank, staleC, withB]

end StaleEx

end CoolDiff
