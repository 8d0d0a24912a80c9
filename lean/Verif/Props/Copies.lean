import Verif.Props.Views
import Verif.Props.MatReverse

/-!
# C37: copies of `Matrix<Expression>`

`Matrix<Expression> B = A` and `B = A` copy nothing of `A`'s formula or elements: `B` gets one entry in
`m_gh_vec`, a pointer to `A` (MatrixConstructors.ipp:139-142).  Every query on `B` is forwarded to `A`.
The model of a copy is the state of the program together with the copy's own object `v`.
-/

set_option linter.unusedSectionVars false

namespace CoolDiff

open MNode

variable {K : Type} [Field K] [DecidableEq K]

/-! ## The functions of a copy -/

/-- `Matrix<Expression>::reset()` of a copy `v` of `o`.  MatrixVirtuals.ipp:132-155 with
`m_gh_vec = {&o}`. -/
def copyReset (E : MEnv K) (f o : ℕ) (s : MSt K) (v : MObj K) : Option (MSt K × MObj K) :=
  if v.visited then
    (mresetO E f o s).map fun s =>
      (s, { v with visited := false, evald := false, devald := false, cache := [] })
  else some (s, { v with visited := false, cache := [] })

/-- `Matrix<Expression>::resetImpl()` of a copy.  MatrixUtils.ipp:192-215.  (`f + 1`: the original is one
level below the copy, its parts get the bound that `mresetImpl` gives them.) -/
def copyResetImpl (E : MEnv K) (f o : ℕ) (s : MSt K) (v : MObj K) : Option (MSt K × MObj K) :=
  (mresetO E (f + 1) o s).map fun s =>
    (s, { v with visited := false, evald := false, devald := false, cache := [] })

/-- `Matrix<Expression>::eval()` of a copy: no elements (`getMatrixPtr()` is null), so no pool request
and `setEval` does nothing.  MatrixVirtuals.ipp:27-61. -/
def copyEval (c : MCtx K) (f o : ℕ) (s : MSt K) (v : MObj K) :
    Option ((MSt K × MObj K) × Mat K) :=
  let v := { v with evald := true }
  if v.visited then v.result.map fun m => ((s, v), m)
  else (mevalO c f o s).map fun p =>
    ((p.1, { v with visited := true, result := some p.2, evald := true }), p.2)

/-- `Matrix<Expression>::devalF(X)` of a copy.  MatrixVirtuals.ipp:64-100. -/
def copyFwd (c : MCtx K) (X f o : ℕ) (s : MSt K) (v : MObj K) :
    Option ((MSt K × MObj K) × Mat K) :=
  let v := { v with devald := true }
  if v.visited then v.dresult.map fun m => ((s, v), m)
  else do
    let (s, d) ← mfwdO c X f o s
    let (s, m) ← mevalO c f o s
    some ((s, { v with visited := true, dresult := some d, devald := true, result := some m,
                       evald := true }), d)

/-- `Matrix<Expression>::traverse()` of a copy.  MatrixVirtuals.ipp:103-123. -/
def copyTrav (c : MCtx K) (f o : ℕ) (s : MSt K) (v : MObj K) : Option (MSt K × MObj K) :=
  if v.visited then some (s, v)
  else do
    let s ← mtravO c f o s
    let (s, m) ← mevalO c f o s
    some (s, { v with visited := true, result := some m, evald := true, cache := (s.obj o).cache })

/-- The object made by `Matrix<Expression> B = A`: flags and cache copied, no result, not visited.
MatrixConstructors.ipp:122-144, Matrix.hpp:124. -/
def copyNew (s : MSt K) (o : ℕ) : MObj K := copyObj (s.obj o)

/-- The object after `B = A` for an existing `B` with state `v`: copy and swap.  `swap` exchanges all
members except `m_visited`.  MatrixConstructors.ipp:27-39, 146-153. -/
def copyAssign (s : MSt K) (o : ℕ) (v : MObj K) : MObj K :=
  { copyNew s o with visited := v.visited }

/-- `TensorR2::Eval(B)`.  CommonMatFunctions.hpp:45-58. -/
def copyQEval (c : MCtx K) (f o : ℕ) (s : MSt K) (v : MObj K) : Option ((MSt K × MObj K) × Mat K) :=
  (copyReset c.E f o s v).bind fun p => copyEval c f o p.1 p.2

/-- `TensorR2::DevalF(B, X)`.  CommonMatFunctions.hpp:61-74. -/
def copyQDevalF (c : MCtx K) (f X o : ℕ) (s : MSt K) (v : MObj K) :
    Option ((MSt K × MObj K) × Mat K) :=
  (copyReset c.E f o s v).bind fun p => copyFwd c X f o p.1 p.2

/-- `TensorR2::PreComp(B)`.  CommonMatFunctions.hpp:77-91. -/
def copyPreComp (c : MCtx K) (f o : ℕ) (s : MSt K) (v : MObj K) : Option (MSt K × MObj K) :=
  (copyResetImpl c.E f o s v).bind fun p => copyTrav c f o p.1 p.2

/-- `TensorR2::DevalR(B, X)`.  CommonMatFunctions.hpp:97-116; the dimensions of a copy are those of the
original. -/
def copyDevalR (E : MEnv K) (o X : ℕ) (v : MObj K) : Option (Mat K) :=
  match v.cache.find (.obj X) with
  | some m => some m
  | none => Mat.zeros (E.rows o) (E.cols o)

/-! ## Used copies answer like the original -/

/-- **C37 (used copy, values).**  A copy that has been queried before — or that was made by assigning
to a matrix that had been queried before — answers `Eval` exactly as the original would, and has the
same effect on the program. -/
theorem C37_copy_expression_eval (c : MCtx K) (f o : ℕ) (s : MSt K) {v : MObj K}
    (hv : v.visited = true) :
    (copyQEval c f o s v).map (fun p => (p.1.1, p.2)) = matEval c f (.obj o) s := by
  simp only [copyQEval, copyReset, hv, if_true, matEval, mresetE, evalE, Option.bind_eq_bind]
  cases h : mresetO c.E f o s with
  | none => rfl
  | some s1 =>
    simp only [Option.map_some, Option.bind_some, copyEval, Bool.false_eq_true, if_false,
      Option.map_map]
    cases mevalO c f o s1 <;> rfl

/-- After any query that succeeds, the copy counts as queried: the previous theorem applies to all
further queries. -/
theorem C37_copy_visited (c : MCtx K) (f o : ℕ) (s : MSt K) (v : MObj K) {s' : MSt K} {v' : MObj K}
    {m : Mat K} (h : copyQEval c f o s v = some ((s', v'), m)) :
    v'.visited = true ∧ v'.result = some m := by
  have key : ∀ (t : MSt K) (w : MObj K), w.visited = false →
      copyEval c f o t w = some ((s', v'), m) → v'.visited = true ∧ v'.result = some m := by
    intro t w hw hc
    simp only [copyEval, hw, Bool.false_eq_true, if_false, Option.map_eq_some_iff] at hc
    obtain ⟨p, _, hp⟩ := hc
    have h1 := congrArg (fun q => q.1.2) hp
    have h2 := congrArg (fun q => q.2) hp
    simp only at h1 h2
    rw [← h1, h2]
    exact ⟨rfl, rfl⟩
  simp only [copyQEval, copyReset] at h
  split at h
  · cases h1 : mresetO c.E f o s with
    | none => rw [h1] at h; simp at h
    | some s1 =>
      rw [h1, Option.map_some, Option.bind_some] at h
      exact key _ _ rfl h
  · rw [Option.bind_some] at h
    exact key _ _ rfl h

/-- Objects of an expression below `o` are reset without looking at `o`. -/
theorem mresetO_setO {E : MEnv K} {rank : ℕ → ℕ} (hwf : E.WF rank) (o : ℕ) (w : MObj K) :
    ∀ f q, rank q < rank o → ∀ s : MSt K,
      mresetO E f q (s.setO o w) = (mresetO E f q s).map (fun t => t.setO o w) := by
  have comm : ∀ (s : MSt K) (q : ℕ) (u : MObj K), q ≠ o →
      (s.setO o w).setO q u = (s.setO q u).setO o w := by
    intro s q u hq
    simp only [MSt.setO, MSt.mk.injEq, and_true]
    exact Function.update_comm hq.symm _ _ _
  intro f
  induction f with
  | zero => intro q _ s; rfl
  | succ f ih =>
    intro q hq s
    have hqo : q ≠ o := by rintro rfl; omega
    have he : ∀ e : MNode K, (∀ p ∈ e.objs, rank p < rank o) → ∀ t : MSt K,
        mresetE (mresetO E f) e (t.setO o w) = (mresetE (mresetO E f) e t).map (fun t => t.setO o w) := by
      intro e
      induction e with
      | obj p => intro h t; exact ih p (h p (by simp [MNode.objs])) t
      | bin n op x y ihx ihy =>
        intro h t
        have hx := ihx (fun p hp => h p (by simp [MNode.objs, hp])) t
        simp only [mresetE, Option.bind_eq_bind, hx]
        cases mresetE (mresetO E f) x t with
        | none => rfl
        | some t1 => exact ihy (fun p hp => h p (by simp [MNode.objs, hp])) t1
      | un n op x ihx => intro h t; exact ihx (fun p hp => h p (by simpa [MNode.objs] using hp)) t
    have hi : ∀ t : MSt K, mresetItem E (mresetO E f) q (t.setO o w) =
        (mresetItem E (mresetO E f) q t).map (fun t => t.setO o w) := by
      intro t
      rcases h : E.kind q with _ | _ | _ | _ | ⟨n, e, eye⟩
      · simp only [mresetItem, h, Option.map_some]
      · simp only [mresetItem, h, Option.map_some]
      · simp only [mresetItem, h, Option.map_some]
      · simp only [mresetItem, h, Option.map_some]
      · simp only [mresetItem, h]
        refine he _ (fun p hp => ?_) t
        obtain ⟨_, _, _, _, _, _, hrk⟩ := hwf.form q n e eye h
        exact (hrk p hp).trans hq
    simp only [mresetO, setO_ne _ _ hqo]
    split
    · rw [comm _ _ _ hqo, hi]
      cases mresetItem E (mresetO E f) q
        (s.setO q { s.obj q with visited := false, evald := false, devald := false }) with
      | none => rfl
      | some t =>
        simp only [Option.map_some, Option.bind_some, setO_ne _ _ hqo]
        rw [comm _ _ _ hqo]
    · simp only [Option.map_some, Option.bind_some, setO_ne _ _ hqo]
      rw [comm _ _ _ hqo]

theorem mresetE_setO {E : MEnv K} {rank : ℕ → ℕ} (hwf : E.WF rank) (o : ℕ) (w : MObj K) (f : ℕ) :
    ∀ e : MNode K, (∀ p ∈ e.objs, rank p < rank o) → ∀ t : MSt K,
      mresetE (mresetO E f) e (t.setO o w) = (mresetE (mresetO E f) e t).map (fun t => t.setO o w) := by
  intro e
  induction e with
  | obj p => intro h t; exact mresetO_setO hwf o w f p (h p (by simp [MNode.objs])) t
  | bin n op x y ihx ihy =>
    intro h t
    have hx := ihx (fun p hp => h p (by simp [MNode.objs, hp])) t
    simp only [mresetE, Option.bind_eq_bind, hx]
    cases mresetE (mresetO E f) x t with
    | none => rfl
    | some t1 => exact ihy (fun p hp => h p (by simp [MNode.objs, hp])) t1
  | un n op x ihx => intro h t; exact ihx (fun p hp => h p (by simpa [MNode.objs] using hp)) t

/-- For a visited formula the two resets agree. -/
theorem mresetImpl_eq {E : MEnv K} {rank : ℕ → ℕ} (hwf : E.WF rank) {o : ℕ} (ho : E.isForm o) (f : ℕ)
    {s : MSt K} (hv : (s.obj o).visited = true) : mresetImpl E f o s = mresetO E (f + 1) o s := by
  obtain ⟨n, e, eye, hk⟩ := ho
  obtain ⟨_, _, _, _, _, _, hrk⟩ := hwf.form o n e eye hk
  have h1 := fun (w : MObj K) => mresetE_setO hwf o w f (MEnv.item n e eye) hrk s
  simp only [mresetImpl, mresetO, hv, if_true, mresetItem, hk, h1]
  have hs : s.setO o (s.obj o) = s := by simp [MSt.setO]
  cases mresetE (mresetO E f) (MEnv.item n e eye) s with
  | none => rfl
  | some t =>
    simp only [Option.map_some, Option.bind_some, setO_same]
    simp [MSt.setO, Function.update_idem]

/-! ## Values and derivatives of copies -/

/-- **C37 (values of copies).**  In the state reached by any run of queries, `Eval` of a copy of a
`Matrix<Expression>` `o` returns the values of `o` at the current scalar values, if
* the copy has been queried before (or was assigned to a matrix that had been) and the original
  satisfies the condition of C38, or
* what is stored for the original is current — in particular if nothing of it was ever evaluated
  (`C37_copy_new`), or if nothing changed since the last query (`C37_copy_unchanged`). -/
theorem C37_copy_eval_partial {E : MEnv K} {rank : ℕ → ℕ} {s : MSt K} {U : ℕ → Prop}
    (h : MHist E rank s U) (c : MCtx K) (hE : c.E = E) {o f : ℕ} (hq : QueryOk c rank False o)
    (hf : rank o < f) {v : MObj K}
    (ho : (v.visited = true ∧ U o) ∨ Current E (MVal c rank) o s) :
    ∃ s' v' m, copyQEval c f o s v = some ((s', v'), m) ∧ m.rows = E.rows o ∧ m.cols = E.cols o ∧
      (∀ i j, i < E.rows o → j < E.cols o → m.get? i j = some (MVal c rank o i j)) ∧
      v'.visited = true := by
  subst hE
  obtain ⟨hs, hU⟩ := h.rest
  by_cases hv : v.visited = true
  · obtain ⟨s1, m1, e1, rep, _⟩ := matEval_spec hq.wf hq.sound hq.forms
      (valOf_solves c.E c.sc.val hq.wf hq.eyes _) hs hf (ho.imp (fun hh => (hU o).2 hh.2) id)
    have := C37_copy_expression_eval c f o s hv
    rw [e1] at this
    obtain ⟨⟨⟨s', v'⟩, m⟩, h1, h2⟩ := Option.map_eq_some_iff.1 this
    obtain ⟨rfl, rfl⟩ : s' = s1 ∧ m = m1 := ⟨congrArg Prod.fst h2, congrArg Prod.snd h2⟩
    exact ⟨s', v', m, h1, rep.rows, rep.cols, rep.elem, (C37_copy_visited c f o s v h1).1⟩
  · have hcur := ho.resolve_left (fun hh => hv hh.1)
    have i0 : MEInv c rank (MVal c rank) (MReach c.E o) (rank o + 1) s :=
      ⟨hs.live, hs.rlive, hcur.leaf, fun p hp _ => hcur.form p hp, fun p _ _ => hs.vc p⟩
    obtain ⟨s1, m, e1, _, _, _, _, rep⟩ := mevalO_spec hq.wf hq.sound (MReach.closed c.E o) hq.forms
      (valOf_solves c.E c.sc.val hq.wf hq.eyes _) f (rank o + 1) hf o MReach.refl (by omega) s i0
    have hvf : v.visited = false := by simpa using hv
    refine ⟨s1, { v with visited := true, result := some m, evald := true, cache := [] }, m, ?_,
      rep.rows, rep.cols, rep.elem, rfl⟩
    simp only [copyQEval, copyReset, hvf, Bool.false_eq_true, if_false, Option.bind_some, copyEval, e1,
      Option.map_some]

/-- Condition of `C37_copy_eval_partial`: nothing of the original was used. -/
theorem C37_copy_new {E : MEnv K} {rank : ℕ → ℕ} {s : MSt K} {U : ℕ → Prop}
    (h : MHist E rank s U) (c : MCtx K) (hE : c.E = E) {o : ℕ} (hn : ∀ p, MReach E o p → ¬U p) :
    Current E (MVal c rank) o s :=
  (h.unused hn c hE o _ (fun _ _ _ _ _ => 0)).1

/-- Condition of `C37_copy_eval_partial`: the original was just evaluated. -/
theorem C37_copy_unchanged {E : MEnv K} {rank : ℕ → ℕ} {s s' : MSt K} {U : ℕ → Prop} {m : Mat K}
    (h : MHist E rank s U) (c : MCtx K) (hE : c.E = E) {o f : ℕ} (hq : QueryOk c rank False o)
    (hf : rank o < f) (ho : U o ∨ ∀ p, MReach E o p → ¬U p)
    (he : matEval c f (.obj o) s = some (s', m)) : Current E (MVal c rank) o s' := by
  have hr : U o ∨ Current E (MVal c rank) o s := ho.imp id fun hn => C37_copy_new h c hE hn
  subst hE
  obtain ⟨hs, hU⟩ := h.rest
  obtain ⟨s1, m1, e1, _, _, _, h1, _⟩ := matEval_spec hq.wf hq.sound hq.forms
    (valOf_solves c.E c.sc.val hq.wf hq.eyes _) hs hf (hr.imp (hU o).2 id)
  rw [he] at e1; cases e1
  exact h1

/-- **C37 (forward derivatives of copies).**  The same for `DevalF`. -/
theorem C37_copy_devalF_partial {E : MEnv K} {rank : ℕ → ℕ} {s : MSt K} {U : ℕ → Prop}
    (h : MHist E rank s U) (c : MCtx K) (hE : c.E = E) {o X f : ℕ} (hq : QueryOk c rank True o)
    (hK : c.B.KronSound) (hP : PadsOk E X) (hvars : VarsOk E) (hX : E.kind X = .var)
    (hf : rank o < f) {v : MObj K}
    (ho : (v.visited = true ∧ U o) ∨
      (Current E (MVal c rank) o s ∧ CurrentD c X (MDer c X rank) o s)) :
    ∃ s' v' m, copyQDevalF c f X o s v = some ((s', v'), m) ∧
      m.rows = E.rows o * E.rows X ∧ m.cols = E.cols o * E.cols X ∧
      (∀ l k i j, l < E.rows o → k < E.cols o → i < E.rows X → j < E.cols X →
        m.get? (l * E.rows X + i) (k * E.cols X + j) = some (MDer c X rank o l k i j)) ∧
      v'.visited = true := by
  subst hE
  obtain ⟨hs, hU⟩ := h.rest
  have hwf := hq.wf
  have hV := valOf_solves c.E c.sc.val hq.wf hq.eyes (MReach c.E o)
  have hD := derOf_solves c.E c.sc.val (c.sd X) (MVal c rank) X hq.wf (MReach c.E o)
  -- the state after the reset
  obtain ⟨s0, w, e0, hw, fi⟩ : ∃ s0 w, copyReset c.E f o s v = some (s0, w) ∧ w.visited = false ∧
      MFInv c X rank (MVal c rank) (MDer c X rank) (MReach c.E o) (rank o + 1) s0 := by
    by_cases hv : v.visited = true
    · have hr : (s.obj o).visited = true ∨
          (Current c.E (MVal c rank) o s ∧ CurrentD c X (MDer c X rank) o s) :=
        ho.imp (fun hh => (hU o).2 hh.2) id
      obtain ⟨s0, e0, i0, b0, _, d0⟩ := hs.prepare (V := MVal c rank) hwf hf (hr.imp id And.left)
      obtain ⟨d1, d2⟩ := d0 X (MDer c X rank) (hr.imp id And.right)
      exact ⟨s0, { v with visited := false, evald := false, devald := false, cache := [] },
        by simp only [copyReset, hv, if_true, e0, Option.map_some], rfl,
        ⟨i0, b0, d1, fun p hp _ => d2 p hp⟩⟩
    · obtain ⟨hc, hcd⟩ := ho.resolve_left (fun hh => hv hh.1)
      have hvf : v.visited = false := by simpa using hv
      exact ⟨s, { v with visited := false, cache := [] },
        by simp only [copyReset, hvf, Bool.false_eq_true, if_false], rfl,
        ⟨⟨hs.live, hs.rlive, hc.leaf, fun p hp _ => hc.form p hp, fun p _ _ => hs.vc p⟩, hs.bufs,
          hcd.leaf, fun p hp _ => hcd.form p hp⟩⟩
  obtain ⟨s1, d, e1, i1, f1, v1, r1⟩ := mfwdO_spec hwf hq.sound hK hP (MReach.closed c.E o) hq.forms hV
    hvars hX hD f (rank o + 1) hf o MReach.refl (by omega) s0 fi
  obtain ⟨s2, m, e2, _⟩ := mevalO_spec hwf hq.sound (MReach.closed c.E o) hq.forms hV f
    (rank o + 1) hf o MReach.refl (by omega) s1 i1.e
  refine ⟨s2, { w with visited := true, dresult := some d, devald := true, result := some m,
                       evald := true }, d, ?_, r1.rows, r1.cols, fun l k i j hl hk hi hj => ?_, rfl⟩
  · simp only [copyQDevalF, e0, Option.bind_some, copyFwd, hw, Bool.false_eq_true, if_false, e1, e2,
      Option.bind_eq_bind]
  · rw [r1.elem _ _ (flat_lt hl hi) (flat_lt hk hj), lay_at _ hi hj]; rfl

/-- **C37 (reverse derivatives of copies).**  `PreComp(B); DevalR(B, X)` for a copy `B` of a formula that
was queried before returns the partial derivatives at the current values. -/
theorem C37_copy_devalR_partial {E : MEnv K} {rank : ℕ → ℕ} {s : MSt K} {U : ℕ → Prop}
    (h : MHist E rank s U) (c : MCtx K) (hE : c.E = E) {o X f : ℕ} (hq : RevQueryOk c rank o X)
    (hf : rank o < f) (ho : U o) (hm : MReach E o X) (v : MObj K) :
    ∃ s' v' m, copyPreComp c f o s v = some (s', v') ∧ copyDevalR E o X v' = some m ∧
      m.rows = E.rows X ∧ m.cols = E.cols X ∧
      ∀ i j, i < E.rows X → j < E.cols X → m.get? i j = some (MDer c X rank o 0 0 i j) := by
  subst hE
  obtain ⟨hs, hU, hC⟩ := h.all
  have hov := (hU o).2 ho
  have hg : NoGaps c.E (fun p => (s.obj p).visited = true) o :=
    fun p n e eye q hp _ _ _ _ => hs.reach hp hov
  obtain ⟨s1, own, nd, e1, c1, r1, _, v1, _⟩ := matPreComp_spec hq hf hs hC hg
  have hroot := hq.root
  obtain ⟨n, e, eye, hk⟩ := hroot
  -- the two parts of `PreComp` of the original
  have e1' := e1
  simp only [matPreComp, precompReset, hk, Option.bind_eq_bind] at e1'
  rw [mresetImpl_eq hq.query.wf hq.root f hov] at e1'
  obtain ⟨s0, e0, et⟩ := Option.bind_eq_some_iff.1 e1'
  obtain ⟨f, rfl⟩ : ∃ g, f = g + 1 := ⟨f - 1, by omega⟩
  have h0v : (s0.obj o).visited = false := by
    simp only [mresetO] at e0
    obtain ⟨t, _, ht⟩ := Option.bind_eq_some_iff.1 e0
    rw [← Option.some.inj ht]; simp
  obtain ⟨m, hm1⟩ : ∃ m, (s1.obj o).result = some m := by
    simp only [mtravO, h0v, Bool.false_eq_true, if_false, hk, Option.bind_eq_bind] at et
    obtain ⟨⟨κ, t⟩, _, et⟩ := Option.bind_eq_some_iff.1 et
    obtain ⟨⟨t', m⟩, _, et⟩ := Option.bind_eq_some_iff.1 et
    refine ⟨m, ?_⟩
    rw [← Option.some.inj et]; simp
  have e2 : mevalO c (f + 1) o s1 = some (s1.setO o { s1.obj o with evald := true }, m) := by
    simp only [mevalO, hk, setO_same, v1 o MReach.refl, if_true, hm1, Option.map_some]
  obtain ⟨d, hfd⟩ := c1.hasX.2 ((strictReach_iff hq.isVar hq.root).2 hm)
  obtain ⟨w1, w2, w3⟩ := c1.wf.ok _ _ hfd
  refine ⟨s1.setO o { s1.obj o with evald := true },
    { v with visited := true, result := some m, evald := true, devald := false,
             cache := (s1.obj o).cache }, d, ?_, ?_, w2, w3, fun i j hi hj => ?_⟩
  · simp only [copyPreComp, copyResetImpl, e0, Option.map_some, Option.bind_some, copyTrav,
      Bool.false_eq_true, if_false, et, e2, Option.bind_eq_bind, setO_same]
  · simp only [copyDevalR, hfd]
  · have := (w1.rep).elem i j (by rw [w2]; exact hi) (by rw [w3]; exact hj)
    rw [this, ← c1.entX i j hi hj]
    simp [MCache.ent, hfd]

/-! ## Fresh copies of evaluated formulas are stale -/

/-- **C37 fails for a new copy of an evaluated formula.**  The first `Eval` of a copy of a formula
matrix that was evaluated before returns the matrix stored in the original, whatever the values are
now. -/
theorem C37_copy_stale (c : MCtx K) {f o : ℕ} (ho : c.E.isForm o) {s : MSt K} {m : Mat K}
    (hv : (s.obj o).visited = true) (hm : (s.obj o).result = some m) :
    (copyQEval c (f + 1) o s (copyNew s o)).map (fun p => p.2) = some m := by
  obtain ⟨n, e, eye, hk⟩ := ho
  simp only [copyQEval, copyReset, copyNew, copyObj, Bool.false_eq_true, if_false, Option.bind_some,
    copyEval, mevalO, hk, setO_same, hv, if_true, hm, Option.map_some]

/-- `F = X + X` (object 2 of `staleE`): `Eval(F)` with `X = 3`, then `X = 5`, then `B = F` and `Eval(B)`
returns `6`, not `10`.  A second `Eval(B)` returns `10`.  If `B` is an old matrix that had been
evaluated before the assignment `B = F`, the first `Eval(B)` already returns `10`. -/
theorem C37_copy_stale_counterexample :
    (do let (s, _) ← matEval (staleC 3) 4 (.obj 2) MSt.fresh
        let ((s, v), m) ← copyQEval (staleC 5) 4 2 s (copyNew s 2)
        let (_, m') ← copyQEval (staleC 5) 4 2 s v
        some (m.data, m'.data)) = some ([6], [10]) ∧
    (do let (s, _) ← matEval (staleC 3) 4 (.obj 2) MSt.fresh
        let (_, m) ← copyQEval (staleC 5) 4 2 s (copyAssign s 2 { visited := true })
        some m.data) = some [10] := by decide +kernel

/-- **C37 fails for a derivative of a new copy after `Eval`**: the stored derivative of the original is
null. -/
theorem C37_copy_devalF_after_eval_counterexample :
    (do let (s, _) ← matEval (staleC 3) 4 (.obj 2) MSt.fresh
        copyQDevalF (staleC 3) 4 0 2 s (copyNew s 2)).isNone ∧
    (do let (s, _) ← matEval (staleC 3) 4 (.obj 2) MSt.fresh
        let ((s, v), _) ← copyQEval (staleC 3) 4 2 s (copyNew s 2)
        let (_, m) ← copyQDevalF (staleC 3) 4 0 2 s v
        some m.data) = some [2] := by decide +kernel

/-- The hypotheses are met: `Eval(G)` (object 3 of the example program), then `B = G`, then `Eval(B)`,
`Eval(G)` and `DevalF(B, X)`. -/
example : ∃ s1 m1 s2 v2 m2 s3 m3 s4 v4 m4,
    matEval ⟨backend ⟨.eigen, false, .cpu⟩ Sched.seq, Sched.seq, MExample.E ℝ,
      ⟨MExample.sv 1, MExample.der⟩⟩ 3 (.obj 3) MSt.fresh = some (s1, m1) ∧
    copyQEval ⟨backend ⟨.eigen, false, .cpu⟩ Sched.seq, Sched.seq, MExample.E ℝ,
      ⟨MExample.sv 1, MExample.der⟩⟩ 3 3 s1 (copyNew s1 3) = some ((s2, v2), m2) ∧
    (∀ i j, i < 2 → j < 2 → m2.get? i j = m1.get? i j) ∧
    matEval ⟨backend ⟨.eigen, false, .cpu⟩ Sched.seq, Sched.seq, MExample.E ℝ,
      ⟨MExample.sv 1, MExample.der⟩⟩ 3 (.obj 3) s1 = some (s3, m3) ∧
    copyQDevalF ⟨backend ⟨.eigen, false, .cpu⟩ Sched.seq, Sched.seq, MExample.E ℝ,
      ⟨MExample.sv 1, MExample.der⟩⟩ 3 0 3 s3 v2 = some ((s4, v4), m4) ∧ m4.rows = 4 := by
  have hq := MExample.queryOk 3
  have hq' : QueryOk ⟨backend ⟨.eigen, false, .cpu⟩ Sched.seq, Sched.seq, MExample.E ℝ,
      ⟨MExample.sv 1, MExample.der⟩⟩ MExample.rank False 3 := ⟨hq.wf, hq.sound, hq.eyes, hq.forms.inv,
        fun p hp n e eye hk => (hq.forms.invertible p hp n e eye hk).weaken⟩
  obtain ⟨s1, m1, e1, _, _, r1, h1⟩ := C38_eval_current_partial
    (MHist.fresh (E := MExample.E ℝ) (rank := MExample.rank)) _ rfl hq' (f := 3) (by decide)
    (Or.inr fun _ _ h => h)
  have hcur := C37_copy_unchanged (MHist.fresh (E := MExample.E ℝ) (rank := MExample.rank)) _ rfl hq'
    (f := 3) (by decide) (Or.inr fun _ _ h => h) e1
  obtain ⟨s2, v2, m2, e2, _, _, r2, hv⟩ := C37_copy_eval_partial h1 _ rfl hq' (f := 3) (by decide)
    (v := copyNew s1 3) (Or.inr hcur)
  obtain ⟨s3, m3, e3, _, _, _, h3⟩ := C38_eval_current_partial h1 _ rfl hq' (f := 3) (by decide)
    (Or.inl (Or.inr .refl))
  obtain ⟨s4, v4, m4, e4, r4, _⟩ := C37_copy_devalF_partial h3 _ rfl hq
    (backend_kronSound (g := ⟨.eigen, false, .cpu⟩) rfl rfl _) (PadsOk.of_empty rfl rfl)
    MExample.varsOk.ok rfl (X := 0) (f := 3) (by decide) (v := v2) (Or.inl ⟨hv, Or.inl (Or.inr .refl)⟩)
  exact ⟨s1, m1, s2, v2, m2, s3, m3, s4, v4, m4, e1, e2,
    fun i j hi hj => by rw [r2 i j hi hj, r1 i j hi hj], e3, e4, r4⟩

/-- The hypotheses of `C37_copy_devalR_partial` are met: `PreComp(Y)`, then `B = Y`, then `PreComp(B)` and
`DevalR(B, X)`. -/
example : ∃ s1 s2 v2 m, matPreComp RExample.ctx 3 3 MSt.fresh = some s1 ∧
    copyPreComp RExample.ctx 3 3 s1 (copyNew s1 3) = some (s2, v2) ∧
    copyDevalR RExample.E 3 0 v2 = some m ∧ m.rows = 2 := by
  have hq := RExample.revQueryOk (X := 0) rfl
  have hf : RExample.rank 3 < 3 := by decide
  have hg : NoGaps RExample.E (fun _ => False) 3 := fun _ _ _ _ _ _ _ _ _ h => h.elim
  obtain ⟨s1, _, e1, _⟩ := C30_reverse_value_partial (MHist.fresh (E := RExample.E)
    (rank := RExample.rank)) RExample.ctx rfl hq hf hg RExample.reaches
  have h1 := MHist.precomp RExample.ctx 3 0 3 (MHist.fresh (E := RExample.E) (rank := RExample.rank))
    rfl hq hf hg e1
  obtain ⟨s2, v2, m, e2, e3, r, _⟩ := C37_copy_devalR_partial h1 RExample.ctx rfl hq hf
    (Or.inr .refl) RExample.reaches (copyNew s1 3)
  exact ⟨s1, s2, v2, m, e1, e2, e3, r⟩

end CoolDiff
