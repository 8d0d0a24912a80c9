import Verif.Props.MatExact
import Verif.Props.MatReverse

/-!
# C30, C38: `PreComp` after histories whose stored values may be stale
-/

set_option linter.unusedSectionVars false

namespace CoolDiff

variable {K : Type} [Field K] [DecidableEq K]

section
variable {E : MEnv K} {rank : ℕ → ℕ} {s : MSt K} {M : Memo K}

/-- **C38, exactly, for `PreComp`.**  After every sequence of `Eval` and `DevalF` queries, with no condition on what
was used before, and of earlier `PreComp` calls: `PreComp(Y)` succeeds, and what is stored afterwards are the current
values of `Y` and of everything below it, no derivative of a matrix with elements below `Y`, and otherwise what was
stored before.  (`Y` is a 1×1 formula; nothing unused below `Y` mentions something used.) -/
theorem C38_exact_preComp (hwf : E.WF rank) (h : MRun E rank s M) (c : MCtx K) (hE : c.E = E) {o X f : ℕ}
    (hq : RevQueryOk c rank o X) (hf : rank o < f) (hg : NoGaps E M.used o) :
    ∃ s', matPreComp c f o s = some s' ∧ MRun E rank s' (M.afterPre c rank o) := by
  subst hE
  obtain ⟨s', e1, _⟩ := (h.inv hwf).precomp (h.cache hwf) hq hf hg
  exact ⟨s', e1, h.precomp c o X f rfl hq hf hg e1⟩

/-- **C30 after any history.**  If `Y` was used before, then whatever the earlier queries were, and however stale what
they left is, `PreComp(Y); DevalR(Y, X)` gives the current derivative of `Y`, and so does `DevalF(Y, X)`. -/
theorem C30_any_history (hwf : E.WF rank) (h : MRun E rank s M) (c : MCtx K) (hE : c.E = E) (hK : c.B.KronSound)
    {o X f : ℕ} (hP : PadsOk E X) (hq : RevQueryOk c rank o X) (hf : rank o < f) (ho : M.used o)
    (hm : MReach E o X) :
    ∃ s' m s'' m', matPreComp c f o s = some s' ∧ matDevalR E o X s' = some m ∧
      matDevalF c f X (.obj o) s = some (s'', m') ∧ m.rows = E.rows X ∧ m.cols = E.cols X ∧
      m'.rows = E.rows X ∧ m'.cols = E.cols X ∧
      ∀ i j, i < E.rows X → j < E.cols X → m.get? i j = some (MDer c X rank o 0 0 i j) ∧
        m'.get? i j = some (MDer c X rank o 0 0 i j) := by
  have hg : NoGaps E M.used o := fun p n e eye q hp _ hk hq' hu => by
    have hr := (h.inv hwf).rest
    exact ((h.inv hwf).st.vis p).1 (hr.reach hp (((h.inv hwf).st.vis o).2 ho))
  obtain ⟨s', m, e1, e2, r1, r2, r3⟩ := C30_reverse_value_partial (.any hwf h) c hE hq hf hg hm
  obtain ⟨t', m1, s'', m', d1, d2, d3, q1, q2, q3⟩ :=
    C30_reverse_eq_forward_partial (.any hwf h) c hE hK hP hq hf (Or.inl ho) hm
  rw [e1] at d1; cases d1
  rw [e2] at d2; cases d2
  refine ⟨s', m, s'', m', e1, e2, d3, r1, r2, by rw [← q1, r1], by rw [← q2, r2], fun i j hi hj => ⟨r3 i j hi hj, ?_⟩⟩
  rw [← q3 i j (by rw [r1]; exact hi) (by rw [r2]; exact hj), r3 i j hi hj]

/-- **C38 after `PreComp`.**  An `Eval` of `Y` after `PreComp(Y)`, with any change of the scalars in between, gives
the current value, whatever the history before. -/
theorem C38_eval_after_preComp (hwf : E.WF rank) (h : MRun E rank s M) (c c' : MCtx K) (hE : c.E = E) (hE' : c'.E = E)
    {o X f : ℕ} (hq : RevQueryOk c rank o X) (hq' : QueryOk c' rank False o) (hf : rank o < f)
    (hg : NoGaps E M.used o) :
    ∃ s1 s2 m, matPreComp c f o s = some s1 ∧ matEval c' f (.obj o) s1 = some (s2, m) ∧
      m.rows = E.rows o ∧ m.cols = E.cols o ∧
      ∀ i j, i < E.rows o → j < E.cols o → m.get? i j = some (MVal c' rank o i j) := by
  obtain ⟨s1, e1, h1⟩ := C38_exact_preComp hwf h c hE hq hf hg
  obtain ⟨s2, m, e2, r1, r2, r3, _⟩ := C38_eval_current_partial (.any hwf h1) c' hE' hq' hf
    (Or.inl (Or.inr (hE ▸ MReach.refl)))
  exact ⟨s1, s2, m, e1, e2, r1, r2, r3⟩

end

/-! ## Example -/

namespace StaleEx

theorem revOk (x : ℚ) {o X : ℕ} (ho : o = 2 ∨ o = 3) (hX : X = 0 ∨ X = 5) : RevQueryOk (withB eig x) rank o X := by
  have hr : ∀ q, MReach staleE o q → q = o ∨ q = 0 ∨ q = 1 := by
    intro q hq
    rcases ho with rfl | rfl
    · exact reach2 hq
    · exact reach3 hq
  have hform : staleE.isForm o := by rcases ho with rfl | rfl <;> exact ⟨_, _, _, rfl⟩
  have key : ∀ q n e eye, MReach staleE o q → staleE.kind q = .form n e eye →
      q = o ∧ e = .bin (n + 1) .add (.obj 0) (.obj 0) ∧ eye = 1 := by
    intro q n e eye hq hk
    obtain ⟨h0, ⟨rfl, rfl, rfl⟩ | ⟨rfl, rfl, rfl⟩ | ⟨rfl, rfl, rfl⟩⟩ := kinds hk <;>
      rcases hr _ hq with h | h | h <;> first | omega | exact ⟨h, rfl, h0⟩
  refine ⟨⟨wf, soundE, eyes x, ⟨?_, ?_⟩⟩, hform, fun _ _ _ => ⟨rfl, rfl⟩, ?_, ?_, ⟨?_, ?_⟩, ?_, ?_, ?_⟩
  · intro p hp n e eye hk hu
    obtain ⟨_, rfl, _⟩ := key p n e eye hp hk
    exact absurd hu (by simp [UsesInv])
  · intro p hp n e eye hk
    obtain ⟨_, rfl, _⟩ := key p n e eye hp hk
    exact ⟨trivial, trivial⟩
  · intro o p ho hp l k i j hl hk hi hj h
    exact vars o p ho hp rfl l k i j hl hk hi hj h
  · rcases hX with rfl | rfl <;> rfl
  · intro q hq n e eye hk
    obtain ⟨_, rfl, rfl⟩ := key q n e eye hq hk
    simp [MEnv.item, MNode.nums]
  · intro q hq p hp n e eye n' e' eye' hk hk' _ _ _
    rw [(key q n e eye hq hk).1, (key p n' e' eye' hp hk').1]
  · intro q hq hk
    rcases hr q hq with rfl | rfl | rfl
    · rcases ho with rfl | rfl <;> cases hk
    · cases hk
    · cases hk
  · intro q n e eye hq hk
    obtain ⟨_, rfl, _⟩ := key q n e eye hq hk
    exact ⟨trivial, trivial⟩
  · intro q n e eye hq hk
    obtain ⟨_, rfl, _⟩ := key q n e eye hq hk
    exact ⟨trivial, trivial, trivial⟩

/-- The hypotheses are met after the history that answers wrong (`Eval(F)` with `X = 3`, then `Eval(G)` with
`X = 5`): `PreComp(G); DevalR(G, X)` and `DevalF(G, X)` both give 2. -/
example : ∃ s1 m1 s2 m2 s3 m3 s4 m4,
    matEval (withB eig 3) 4 (.obj 2) MSt.fresh = some (s1, m1) ∧
    matEval (withB eig 5) 4 (.obj 3) s1 = some (s2, m2) ∧
    matPreComp (withB eig 5) 4 3 s2 = some s3 ∧ matDevalR staleE 3 0 s3 = some m3 ∧
    matDevalF (withB eig 5) 4 0 (.obj 3) s2 = some (s4, m4) ∧
    m3.get? 0 0 = some 2 ∧ m4.get? 0 0 = some 2 := by
  obtain ⟨s1, m1, e1, _, _, _, h1⟩ := C38_exact_eval wf MRun.fresh (withB eig 3) rfl (e := .obj 2) (f := 4)
    (can soundE 3 _ _ 2) (rankOk (by decide))
  obtain ⟨s2, m2, e2, _, _, _, h2⟩ := C38_exact_eval wf h1 (withB eig 5) rfl (e := .obj 3) (f := 4)
    (can soundE 5 _ _ 3) (rankOk (by decide))
  obtain ⟨s3, m3, s4, m4, e3, e4, e5, _, _, _, _, r⟩ := C30_any_history wf h2 (withB eig 5) rfl kronE
    (PadsOk.of_empty rfl rfl) (revOk 5 (o := 3) (X := 0) (Or.inr rfl) (Or.inl rfl)) (f := 4) (by decide)
    (Or.inr (.root (by simp [MNode.objs]))) (MReach.refl.step (n := 30) rfl (by simp [MEnv.item, MNode.objs]))
  refine ⟨s1, m1, s2, m2, s3, m3, s4, m4, e1, e2, e3, e4, e5, ?_⟩
  have hd : MDer (withB eig 5) 0 rank 3 0 0 0 0 = 2 := by
    norm_num [MDer, derOf, derO, tan, staleE, rank, withB, staleC]
  rw [(r 0 0 one_pos one_pos).1, (r 0 0 one_pos one_pos).2, hd]
  exact ⟨rfl, rfl⟩

end StaleEx

end CoolDiff
