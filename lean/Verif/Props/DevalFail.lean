import Verif.Matrix.DevalFail
import Verif.Props.AnyHist

/-!
# C38: when `DevalF` answers and when it stops
-/

set_option linter.unusedSectionVars false

namespace CoolDiff

variable {K : Type} [Field K] [DecidableEq K]

section
variable {E : MEnv K} {rank : ℕ → ℕ} {s : MSt K} {M : Memo K}

/-- **C38, when a derivative query stops.**  After every sequence of `Eval`, `DevalF` and `PreComp` queries,
`DevalF(e, X)` answers exactly if every named formula that it comes across and that counts as used has a stored
derivative; otherwise it dereferences a null pointer.  (The other conditions are those of an expression that can be
differentiated at all, and that stored derivatives found have the dimensions of `X`.) -/
theorem C38_devalF_answers_iff (hwf : E.WF rank) (h : MRun E rank s M) (c : MCtx K) (hE : c.E = E) {e : MNode K}
    {f X : ℕ} (hok : MemoOk c rank True (M.clear E e) e) (hK : c.B.KronSound) (hP : PadsOk E X) (hv : VarsOk E)
    (hX : E.kind X = .var) (hf : ∀ q ∈ e.objs, rank q < f)
    (hsize : ∀ p d, (M.clear E e).Met E e p → (M.clear E e).derAt E p = some d → d.rows = E.rows X ∧ d.cols = E.cols X) :
    (∃ r, matDevalF c f X e s = some r) ↔
      ∀ p, (M.clear E e).Met E e p → E.isForm p → (M.clear E e).used p → ∃ d, M.der p = some d := by
  subst hE
  constructor
  · rintro ⟨r, hr⟩
    exact h.devalF_stored hwf rfl hf hr
  · intro hs
    obtain ⟨s', m, e1, _⟩ := (h.inv hwf).devalF hwf ⟨hok, hK, hP, hv, hX,
      fun p hp hpf hu => by rw [Memo.clear_der_form hpf]; exact hs p hp hpf hu, hsize⟩ hf
    exact ⟨_, e1⟩

/-- **C38, when a derivative query stops, without conditions on the kernels.**  If a named formula that the query comes
across counts as used and no earlier `DevalF` stored its derivative, then `DevalF(e, X)` stops, for every `X`, every
handler and every value of the scalars. -/
theorem C38_devalF_stops (hwf : E.WF rank) (h : MRun E rank s M) (c : MCtx K) (hE : c.E = E) {e : MNode K} {f X : ℕ}
    (hf : ∀ q ∈ e.objs, rank q < f) {p : ℕ} (hp : (M.clear E e).Met E e p) (hpf : E.isForm p)
    (hu : (M.clear E e).used p) (hd : M.der p = none) : matDevalF c f X e s = none := by
  rcases hr : matDevalF c f X e s with _ | r
  · rfl
  · obtain ⟨d, h1⟩ := h.devalF_stored hwf hE hf hr p hp hpf hu
    rw [hd] at h1; cases h1

/-- **C38, new formulas over evaluated ones.**  If no `DevalF` query came before, a new formula `Y` that mentions a used
formula directly cannot be differentiated: `DevalF(Y, X)` stops. -/
theorem C38_devalF_new_formula_stops (hwf : E.WF rank) (h : MRun E rank s M) (c : MCtx K) (hE : c.E = E)
    {Y p n eye f X : ℕ} {e : MNode K} (hk : E.kind Y = .form n e eye) (hY : ¬M.used Y) (hp : p ∈ e.objs)
    (hpf : E.isForm p) (hu : M.used p) (hd : M.der p = none) (hf : rank Y < f) :
    matDevalF c f X (.obj Y) s = none := by
  have hC : ∀ q, ¬M.Cleared E (.obj Y) q := by
    rintro q ⟨o, ho, hu', _⟩
    simp only [MNode.objs, List.mem_singleton] at ho
    subst ho; exact hY hu'
  refine C38_devalF_stops hwf h c hE (fun q hq => ?_) (p := p) ?_ hpf ⟨hu, hC p⟩ hd
  · simp only [MNode.objs, List.mem_singleton] at hq
    subst hq; exact hf
  · exact .step (.root (by simp [MNode.objs])) (fun h => hY h.1) hk (by simp [MEnv.item, MNode.objs, hp])

end

/-! ## Example -/

namespace StaleEx

/-- The hypotheses are met: `Eval(F)`, then `DevalF(Y, X)` with the new formula `Y = F + X` stops, for every `x`. -/
example (x : ℚ) : ∃ s1 m1, matEval (withB eig 3) 4 (.obj 2) MSt.fresh = some (s1, m1) ∧
    matDevalF (withB eig x) 4 0 (.obj 4) s1 = none := by
  obtain ⟨s1, m1, e1, _, _, _, h1⟩ := C38_exact_eval wf MRun.fresh (withB eig 3) rfl (e := .obj 2) (f := 4)
    (can soundE 3 _ _ 2) (rankOk (by decide))
  refine ⟨s1, m1, e1, C38_devalF_new_formula_stops wf h1 (withB eig x) rfl (Y := 4) (p := 2) (n := 40) (eye := 1)
    (e := .bin 41 .add (.obj 2) (.obj 0)) rfl ?_ (by simp [MNode.objs]) ⟨20, _, 1, rfl⟩ (Or.inr (.root (by simp [MNode.objs])))
    ?_ (by decide)⟩
  · rintro (h | h)
    · exact empty_used _ _ h
    · obtain ⟨o, ho, hr⟩ := h.reach
      simp only [MNode.objs, List.mem_singleton] at ho
      subst ho
      rcases reach2 hr with h | h | h <;> omega
  · exact Memo.clear_der_form (M := Memo.empty) ⟨20, _, 1, rfl⟩

/-- The iff is met on its right side too: on new objects `DevalF(Y, X)` answers. -/
example (x : ℚ) : ∃ r, matDevalF (withB eig x) 4 0 (.obj 4) MSt.fresh = some r := by
  refine (C38_devalF_answers_iff wf MRun.fresh (withB eig x) rfl (can soundE x _ _ 4) kronE (PadsOk.of_empty rfl rfl)
    vars rfl (rankOk (by decide)) ?_).2 (fun p _ _ hu => absurd hu (empty_used _ _))
  intro p d _ h
  have e : ((Memo.empty : Memo ℚ).clear staleE (.obj 4)).derAt staleE p = none := by
    simp only [Memo.derAt]
    split
    · rfl
    · by_cases hh : (Memo.empty : Memo ℚ).Cleared staleE (.obj 4) p ∧ ¬staleE.isForm p
      · exact if_pos hh
      · exact if_neg hh
  rw [e] at h; cases h

end StaleEx

end CoolDiff
