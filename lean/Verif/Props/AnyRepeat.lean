import Verif.Props.AnyHist
import Verif.Props.MatRepeat

/-!
# C30, C38, C45: any history, with the objects that the code reuses
-/

set_option linter.unusedSectionVars false

namespace CoolDiff

variable {K : Type} [Field K] [DecidableEq K]

section
variable {E : MEnv K} {rank : ℕ → ℕ} {p : PSt K} {M : Memo K}

/-- A run with pointers is a run with matrices. -/
theorem PRun.val_run (hwf : E.WF rank) (hu : UniqueNodes E Set.univ) (h : PRun E rank p M) : MRun E rank p.val M := by
  obtain ⟨own, nd, kk, ck, hst, hn⟩ := Static.exists hwf hu
  exact (h.all hwf hst hn).1

/-- **C38, exactly, with pointers.**  What `Eval(e)` returns after any sequence of `Eval`, `DevalF` and (`Warm`)
`PreComp` queries, whatever they left in the objects: every matrix that `e` meets is read as the exact record says. -/
theorem C38_exact_eval_pointers (hwf : E.WF rank) (hu : UniqueNodes E Set.univ) (h : PRun E rank p M) (c : MCtx K)
    (hE : c.E = E) {e : MNode K} {f : ℕ} (hc : MemoOk c rank False (M.clear E e) e) (hf : ∀ q ∈ e.objs, rank q < f) :
    ∃ p' m, pEvalE c f e p = some (p', m) ∧ m.rows = (e.dims E).1 ∧ m.cols = (e.dims E).2 ∧
      (∀ i j, i < (e.dims E).1 → j < (e.dims E).2 →
        m.get? i j = some (den E c.sc.val (seen E c.sc.val rank (M.clear E e)) e i j)) ∧
      PRun E rank p' (M.afterEval c rank e) := by
  subst hE
  obtain ⟨own, nd, kk, ck, hst, hn⟩ := Static.exists hwf hu
  obtain ⟨i1, i2⟩ := h.all hwf hst hn
  obtain ⟨s', m, e1, r1, r2, r3, _⟩ := C38_exact_eval hwf i1 c rfl hc hf
  obtain ⟨p', a1, _, _⟩ := i2.evalE e1
  exact ⟨p', m, a1, r1, r2, r3, h.eval c e f rfl hc hf a1⟩

/-- **C38, exactly, for derivatives, with pointers.** -/
theorem C38_exact_devalF_pointers (hwf : E.WF rank) (hu : UniqueNodes E Set.univ) (h : PRun E rank p M) (c : MCtx K)
    (hE : c.E = E) {e : MNode K} {f X : ℕ} (hc : MemoOkD c rank X (M.clear E e) e) (hf : ∀ q ∈ e.objs, rank q < f) :
    ∃ p' m, pDevalFE c f X e p = some (p', m) ∧ m.rows = (e.dims E).1 * E.rows X ∧
      m.cols = (e.dims E).2 * E.cols X ∧
      (∀ l k i j, l < (e.dims E).1 → k < (e.dims E).2 → i < E.rows X → j < E.cols X →
        m.get? (l * E.rows X + i) (k * E.cols X + j) = some (tan E c.sc.val (c.sd X)
          (seen E c.sc.val rank (M.clear E e))
          (dseen E c.sc.val (c.sd X) (seen E c.sc.val rank (M.clear E e)) X rank (M.clear E e)) e l k i j)) ∧
      PRun E rank p' (M.afterDevalF c rank X e) := by
  subst hE
  obtain ⟨own, nd, kk, ck, hst, hn⟩ := Static.exists hwf hu
  obtain ⟨i1, i2⟩ := h.all hwf hst hn
  obtain ⟨s', m, e1, r1, r2, r3, _⟩ := C38_exact_devalF hwf i1 c rfl hc hf
  obtain ⟨p', a1, _, _⟩ := i2.devalFE e1
  exact ⟨p', m, a1, r1, r2, r3, h.devalF c X e f rfl hc hf a1⟩

/-- **C38, exactly, for `PreComp`, with pointers.** -/
theorem C38_exact_preComp_pointers (hwf : E.WF rank) (hu : UniqueNodes E Set.univ) (h : PRun E rank p M) (c : MCtx K)
    (hE : c.E = E) {o X f : ℕ} (hq : RevQueryOk c rank o X) (hf : rank o < f) (hg : NoGaps E M.used o)
    (hw : Warm E M.used o) :
    ∃ p', pPreComp c f o p = some p' ∧ PRun E rank p' (M.afterPre c rank o) := by
  obtain ⟨_, p', a1, _⟩ := pPreComp_eq (.any hwf h) hu c hE hq hf hg
  exact ⟨p', a1, h.precomp c o X f hE hq hf hg hw a1⟩

/-- **C30 after any history, with pointers.**  If `Y` was used before, then whatever the earlier queries were, and
however stale what they left is, `PreComp(Y); DevalR(Y, X)` gives the current derivative of `Y`, in the objects that
earlier `PreComp` calls left behind. -/
theorem C30_any_history_pointers (hwf : E.WF rank) (hu : UniqueNodes E Set.univ) (h : PRun E rank p M) (c : MCtx K)
    (hE : c.E = E) {o X f : ℕ} (hq : RevQueryOk c rank o X) (hf : rank o < f) (ho : M.used o) (hm : MReach E o X) :
    ∃ p' m, pPreComp c f o p = some p' ∧ pDevalR E o X p' = some m ∧ m.rows = E.rows X ∧ m.cols = E.cols X ∧
      (∀ i j, i < E.rows X → j < E.cols X → m.get? i j = some (MDer c X rank o 0 0 i j)) ∧
      PRun E rank p' (M.afterPre c rank o) := by
  have hr := h.val_run hwf hu
  have hall : ∀ q, MReach E o q → M.used q := fun q hq' =>
    ((hr.inv hwf).st.vis q).1 ((hr.inv hwf).rest.reach hq' (((hr.inv hwf).st.vis o).2 ho))
  have hg : NoGaps E M.used o := fun q n e eye q' h1 _ _ _ _ => hall q h1
  obtain ⟨p', m, a1, a2, r1, r2, r3⟩ := C30_repeated_value_partial (.any hwf h) hu c hE hq hf hg hm
  exact ⟨p', m, a1, a2, r1, r2, r3, h.precomp c o X f hE hq hf hg (fun q h1 _ _ => hall q h1) a1⟩

/-- **C45 after any history.**  If `Y` was used before, the derivatives that `PreComp(Y)` stores stay through all
further queries on matrices that do not use `Y`. -/
theorem C45_any_history (hwf : E.WF rank) (hu : UniqueNodes E Set.univ) (h : PRun E rank p M) {Y : ℕ}
    (c : MCtx K) {X f : ℕ} (hE : c.E = E) (hq : RevQueryOk c rank Y X) (hf : rank Y < f) (hY : M.used Y)
    {p1 p2 : PSt K} {U2 : ℕ → Prop} (hp : pPreComp c f Y p = some p1)
    (hm : PMore E rank Y p1 (fun q => M.used q ∨ MReach E Y q) p2 U2) (X' : ℕ) :
    pDevalR E Y X' p2 = pDevalR E Y X' p1 := by
  have hr := h.val_run hwf hu
  have hall : ∀ q, MReach E Y q → M.used q := fun q hq' =>
    ((hr.inv hwf).st.vis q).1 ((hr.inv hwf).rest.reach hq' (((hr.inv hwf).st.vis Y).2 hY))
  exact C45_stored_gradient_kept_partial hwf hu (.any hwf h) c hE hq hf (fun q n e eye q' h1 _ _ _ _ => hall q h1)
    (fun q h1 _ _ => hall q h1) hp hm X'

end

/-! ## Example -/

namespace StaleEx

theorem unique : UniqueNodes staleE Set.univ := by
  refine ⟨?_, ?_⟩
  · intro q _ n e eye hk
    obtain ⟨_, ⟨rfl, rfl, rfl⟩ | ⟨rfl, rfl, rfl⟩ | ⟨rfl, rfl, rfl⟩⟩ := kinds hk <;> simp [MEnv.item, MNode.nums]
  · intro q _ p _ n e eye n' e' eye' hk hk' m hm hm'
    obtain ⟨_, ⟨rfl, rfl, rfl⟩ | ⟨rfl, rfl, rfl⟩ | ⟨rfl, rfl, rfl⟩⟩ := kinds hk <;>
      obtain ⟨_, ⟨rfl, rfl, rfl⟩ | ⟨rfl, rfl, rfl⟩ | ⟨rfl, rfl, rfl⟩⟩ := kinds hk' <;>
      simp [MEnv.item, MNode.nums] at hm hm' ⊢ <;> omega

/-- The hypotheses are met after the history that answers wrong (`Eval(F)` with `X = 3`, then `Eval(G)` with `X = 5`),
with pointers: `PreComp(G); DevalR(G, X)` gives 2. -/
example : ∃ p1 m1 p2 m2 p3 m3,
    pEvalE (withB eig 3) 4 (.obj 2) PSt.fresh = some (p1, m1) ∧
    pEvalE (withB eig 5) 4 (.obj 3) p1 = some (p2, m2) ∧
    pPreComp (withB eig 5) 4 3 p2 = some p3 ∧ pDevalR staleE 3 0 p3 = some m3 ∧ m3.get? 0 0 = some 2 := by
  obtain ⟨p1, m1, e1, _, _, _, h1⟩ := C38_exact_eval_pointers wf unique PRun.fresh (withB eig 3) rfl (e := .obj 2)
    (f := 4) (can soundE 3 _ _ 2) (rankOk (by decide))
  obtain ⟨p2, m2, e2, _, _, _, h2⟩ := C38_exact_eval_pointers wf unique h1 (withB eig 5) rfl (e := .obj 3) (f := 4)
    (can soundE 5 _ _ 3) (rankOk (by decide))
  obtain ⟨p3, m3, e3, e4, _, _, r, _⟩ := C30_any_history_pointers wf unique h2 (withB eig 5) rfl
    (revOk 5 (o := 3) (X := 0) (Or.inr rfl) (Or.inl rfl)) (f := 4) (by decide)
    (Or.inr (.root (by simp [MNode.objs]))) (MReach.refl.step (n := 30) rfl (by simp [MEnv.item, MNode.objs]))
  refine ⟨p1, m1, p2, m2, p3, m3, e1, e2, e3, e4, ?_⟩
  have hd : MDer (withB eig 5) 0 rank 3 0 0 0 0 = 2 := by
    norm_num [MDer, derOf, derO, tan, staleE, rank, withB, staleC]
  rw [r 0 0 one_pos one_pos, hd]

end StaleEx

end CoolDiff
