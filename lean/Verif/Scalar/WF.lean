import Verif.Scalar.Build
import Verif.Scalar.Query

/-!
# The constructors and assignments keep the heap well-formed
-/

set_option linter.unusedSectionVars false

namespace CoolDiff

variable {K : Type} [Field K] [DecidableEq K]

/-- `y = e;` with the right-hand side written by the user: build the right-hand side, then
`Expression::operator=` (Expression.hpp:58-68). -/
def define (y : ℕ) (e : Exp K) (σ : St K) : St K :=
  let r := e.build σ.defs.next
  assignExp y r.1 { σ with defs := { σ.defs with next := r.2 } }

theorem St.init_wf : (St.init : St K).WF := by
  constructor
  · constructor <;> simp [St.init, Defs.Closed]
  · intro q _ _; exact ⟨rfl, rfl, rfl⟩

/-- Adding one object. -/
theorem Defs.WF.add {D : Defs K} (h : D.WF) {k n' : ℕ} {is : List (Node K)} {v : K}
    (hk : D.next ≤ k) (hn : k < n') (hs : 1 ≤ D.size ∨ is = [])
    (his : is = [] ∨ is = [.leaf 0]) :
    ({ D with size := D.size + 1, next := n', nidx := Function.update D.nidx D.size k,
              base := Function.update D.base D.size v,
              items := Function.update D.items D.size is } : Defs K).WF := by
  have hids : ∀ i ∈ is, i.opIds = [] ∧ i.pars = [] ∧ ∀ p ∈ i.leaves, p < D.size := by
    intro i hi
    rcases his with rfl | rfl
    · simp at hi
    · simp only [List.mem_singleton] at hi
      subst hi
      rcases hs with hs | hs
      · simp [Node.opIds, Node.pars, Node.leaves]; omega
      · simp at hs
  have hit : ∀ o, o < D.size + 1 → o ≠ D.size → o < D.size := by intro o _ _; omega
  constructor
  · intro o ho i hi p hp
    simp only [Function.update_apply] at hi ⊢
    show p < D.size + 1
    by_cases e : o = D.size
    · simp only [e, if_true] at hi
      have := (hids i hi).2.2 p hp; omega
    · simp only [e, if_false] at hi
      have := h.closed o (hit o ho e) i hi p hp; omega
  · intro o ho i hi p hp
    simp only [Function.update_apply] at hi
    by_cases e : o = D.size
    · simp only [e, if_true] at hi
      rw [(hids i hi).2.1] at hp; simp at hp
    · simp only [e, if_false] at hi
      exact h.parsOK o (hit o ho e) i hi p hp
  · intro o ho
    simp only [Function.update_apply]
    split
    · exact hn
    · next e => have := h.nidx_lt o (hit o ho e); omega
  · intro p hp; have := h.pnidx_lt p hp; simp only; omega
  · intro o ho i hi n hnn
    simp only [Function.update_apply] at hi
    by_cases e : o = D.size
    · simp only [e, if_true] at hi
      rw [(hids i hi).1] at hnn; simp at hnn
    · simp only [e, if_false] at hi
      have := h.op_lt o (hit o ho e) i hi n hnn; simp only; omega
  · intro o ho q hq he
    simp only [Function.update_apply] at he
    by_cases e : o = D.size <;> by_cases e' : q = D.size
    · omega
    · simp only [e, if_true, e', if_false] at he
      have := h.nidx_lt q (hit q hq e'); omega
    · simp only [e, if_false, e', if_true] at he
      have := h.nidx_lt o (hit o ho e); omega
    · simp only [e, e', if_false] at he
      exact h.inj o (hit o ho e) q (hit q hq e') he
  · intro q hq i hi
    simp only [Function.update_apply] at hi
    by_cases e : q = D.size
    · simp only [e, if_true] at hi
      rw [(hids i hi).1]; simp
    · simp only [e, if_false] at hi
      exact h.nodup q (hit q hq e) i hi
  · intro q hq
    simp only [Function.update_apply]
    split
    · rcases his with rfl | rfl <;> simp
    · next e => exact h.sep q (hit q hq e)
  · intro p hp q hq hpq i hi j hj n hn1
    simp only [Function.update_apply] at hi hj
    by_cases e : p = D.size
    · simp only [e, if_true] at hi
      rw [(hids i hi).1] at hn1; simp at hn1
    · simp only [e, if_false] at hi
      by_cases e' : q = D.size
      · simp only [e', if_true] at hj
        rw [(hids j hj).1]; simp
      · simp only [e', if_false] at hj
        exact h.sep' p (hit p hp e) q (hit q hq e') hpq i hi j hj n hn1
  · intro p hp q hq i hi
    simp only [Function.update_apply] at hi ⊢
    by_cases e' : q = D.size
    · simp only [e', if_true] at hi
      rw [(hids i hi).1]; simp
    · simp only [e', if_false] at hi
      by_cases e : p = D.size
      · simp only [e, if_true]
        intro hk'
        have := h.op_lt q (hit q hq e') i hi _ hk'; omega
      · simp only [e, if_false]
        exact h.leaf p (hit p hp e) q (hit q hq e') i hi
  · intro p hp q hq i hi
    simp only [Function.update_apply] at hi
    by_cases e' : q = D.size
    · simp only [e', if_true] at hi
      rw [(hids i hi).1]; simp
    · simp only [e', if_false] at hi
      exact h.par p hp q (hit q hq e') i hi
  · intro p hp q hq
    simp only [Function.update_apply]
    split
    · have := h.pnidx_lt p hp; omega
    · next e => exact h.parleaf p hp q (hit q hq e)

/-- Changing the equation list of one object. -/
theorem Defs.WF.setItems {D : Defs K} (h : D.WF) {n' y : ℕ} {is : List (Node K)} {b : ℕ → K}
    (hn : D.next ≤ n')
    (hy : y < D.size) (hc : ∀ i ∈ is, ∀ p ∈ i.leaves, p < D.size)
    (hp : ∀ i ∈ is, ∀ p ∈ i.pars, p < D.psize)
    (hnd : ∀ i ∈ is, i.opIds.Nodup)
    (hsep : is.Pairwise fun i j => ∀ n ∈ i.opIds, n ∉ j.opIds)
    (hids : ∀ i ∈ is, i ∈ D.items y ∨ ∀ n ∈ i.opIds, D.next ≤ n ∧ n < n') :
    ({ D with next := n', base := b, items := Function.update D.items y is } : Defs K).WF := by
  constructor
  · intro o ho i hi p hp'
    simp only [Function.update_apply] at hi
    show p < D.size
    split at hi
    · exact hc i hi p hp'
    · exact h.closed o ho i hi p hp'
  · intro o ho i hi p hp'
    simp only [Function.update_apply] at hi
    split at hi
    · exact hp i hi p hp'
    · exact h.parsOK o ho i hi p hp'
  · intro o ho; have := h.nidx_lt o ho; simp only; omega
  · intro p hp'; have := h.pnidx_lt p hp'; simp only; omega
  · intro o ho i hi n hnn
    simp only [Function.update_apply] at hi
    show n < n'
    split at hi
    · rcases hids i hi with hi' | hi'
      · have := h.op_lt y hy i hi' n hnn; omega
      · exact (hi' n hnn).2
    · have := h.op_lt o ho i hi n hnn; omega
  · exact h.inj
  · intro q hq i hi
    simp only [Function.update_apply] at hi
    split at hi
    · exact hnd i hi
    · exact h.nodup q hq i hi
  · intro q hq
    simp only [Function.update_apply]
    split
    · exact hsep
    · exact h.sep q hq
  · intro p hp q hq hpq i hi j hj n hn1 hn2
    have hp : p < D.size := hp
    have hq : q < D.size := hq
    simp only [Function.update_apply] at hi hj
    by_cases e : p = y
    · subst e
      rw [if_pos rfl] at hi
      rw [if_neg (Ne.symm hpq)] at hj
      rcases hids i hi with hi' | hi'
      · exact h.sep' p hp q hq hpq i hi' j hj n hn1 hn2
      · have := hi' n hn1; have := h.op_lt q hq j hj n hn2; omega
    · rw [if_neg e] at hi
      split at hj
      · next e' =>
        subst e'
        rcases hids j hj with hj' | hj'
        · exact h.sep' p hp q hq hpq i hi j hj' n hn1 hn2
        · have := hj' n hn2; have := h.op_lt p hp i hi n hn1; omega
      · exact h.sep' p hp q hq hpq i hi j hj n hn1 hn2
  · intro p hp q hq i hi hm
    have hp : p < D.size := hp
    simp only [Function.update_apply] at hi
    split at hi
    · rcases hids i hi with hi' | hi'
      · exact h.leaf p hp y hy i hi' hm
      · have := hi' _ hm; have := h.nidx_lt p hp; simp only at *; omega
    · exact h.leaf p hp q hq i hi hm
  · intro p hp q hq i hi hm
    have hp : p < D.psize := hp
    simp only [Function.update_apply] at hi
    split at hi
    · rcases hids i hi with hi' | hi'
      · exact h.par p hp y hy i hi' hm
      · have := hi' _ hm; have := h.pnidx_lt p hp; simp only at *; omega
    · exact h.par p hp q hq i hi hm
  · exact h.parleaf

theorem newVar_wf {σ : St K} (h : σ.WF) (v : K) : (newVar v σ).2.WF := by
  constructor
  · exact h.defs.add (le_refl _) (Nat.lt_succ_self _) (Or.inr rfl) (Or.inl rfl)
  · intro q hq he
    simp only [newVar, Function.update_apply] at he ⊢
    by_cases e : q = σ.defs.size
    · simp [e]
    · simp only [e, if_false] at he ⊢
      exact h.plain q (by simp [newVar] at hq; omega) he

theorem newExpr_wf {σ : St K} (h : σ.WF) (h0 : 1 ≤ σ.defs.size) : (newExpr σ).2.WF := by
  constructor
  · exact h.defs.add (by omega) (Nat.lt_succ_self _) (Or.inl h0) (Or.inr rfl)
  · intro q hq he
    simp only [newExpr, Function.update_apply] at he ⊢
    by_cases e : q = σ.defs.size
    · simp [e] at he
    · simp only [e, if_false] at he ⊢
      exact h.plain q (by simp [newExpr] at hq; omega) he

theorem newPar_wf {σ : St K} (h : σ.WF) (v : K) : (newPar v σ).2.WF := by
  constructor
  · have hd := h.defs
    constructor
    · exact hd.closed
    · intro o ho i hi p hp
      have := hd.parsOK o ho i hi p hp
      simp only [newPar]; omega
    · intro o ho; have := hd.nidx_lt o ho; simp only [newPar]; omega
    · intro p hp
      simp only [newPar, Function.update_apply] at hp ⊢
      split
      · omega
      · have := hd.pnidx_lt p (by omega); omega
    · intro o ho i hi n hn
      have := hd.op_lt o ho i hi n hn; simp only [newPar]; omega
    · exact hd.inj
    · exact hd.nodup
    · exact hd.sep
    · exact hd.sep'
    · exact hd.leaf
    · intro p hp q hq i hi hm
      simp only [newPar, Function.update_apply] at hp hm
      split at hm
      · have := hd.op_lt q hq i hi _ hm; omega
      · exact hd.par p (by omega) q hq i hi hm
    · intro p hp q hq
      simp only [newPar, Function.update_apply] at hp ⊢
      split
      · have := hd.nidx_lt q hq; omega
      · exact hd.parleaf p (by omega) q hq
  · exact h.plain

theorem assignNum_wf {σ : St K} (h : σ.WF) {x : ℕ} (hx : x < σ.defs.size) (v : K) :
    (assignNum x v σ).WF := by
  constructor
  · exact h.defs.setItems (le_refl _) hx (by simp) (by simp) (by simp) (by simp) (by simp)
  · intro q hq he
    simp only [assignNum, Function.update_apply] at he ⊢
    by_cases e : q = x
    · simp [e]
    · simp only [e, if_false] at he ⊢
      exact h.plain q hq he

theorem assignPar_wf {σ : St K} (h : σ.WF) (p : ℕ) (v : K) : (assignPar p v σ).WF :=
  ⟨⟨h.defs.closed, h.defs.parsOK, h.defs.nidx_lt, h.defs.pnidx_lt, h.defs.op_lt, h.defs.inj,
    h.defs.nodup, h.defs.sep, h.defs.sep', h.defs.leaf, h.defs.par, h.defs.parleaf⟩, h.plain⟩

/-- Advancing the counter. -/
theorem Defs.WF.bump {D : Defs K} (h : D.WF) {n : ℕ} (hn : D.next ≤ n) :
    ({ D with next := n } : Defs K).WF := by
  constructor
  · exact h.closed
  · exact h.parsOK
  · intro o ho; exact (h.nidx_lt o ho).trans_le hn
  · intro p hp; exact (h.pnidx_lt p hp).trans_le hn
  · intro o ho i hi k hk; exact (h.op_lt o ho i hi k hk).trans_le hn
  · exact h.inj
  · exact h.nodup
  · exact h.sep
  · exact h.sep'
  · exact h.leaf
  · exact h.par
  · exact h.parleaf

theorem assignExp_wf {σ : St K} (h : σ.WF) {y : ℕ} (hy : y < σ.defs.size) {e : Node K}
    (hl : ∀ p ∈ e.leaves, p < σ.defs.size) (hp : ∀ p ∈ e.pars, p < σ.defs.psize) :
    (assignExp y e σ).WF := by
  obtain ⟨c1, c2, c3⟩ := cloneN_ids e σ.defs.next
  set old := if findMe y e then σ.defs.items y else [] with hold
  set new : Node K := .op1 (cloneN e σ.defs.next).2 (.mulC 1) (cloneN e σ.defs.next).1 with hnew
  have hids : ∀ n ∈ new.opIds, σ.defs.next ≤ n ∧ n < (cloneN e σ.defs.next).2 + 1 := by
    intro n hn
    simp only [hnew, Node.opIds, List.mem_cons] at hn
    rcases hn with rfl | hn
    · omega
    · have := c2 n hn; omega
  have hmem : ∀ i ∈ old, i ∈ σ.defs.items y := by
    intro i hi
    simp only [hold] at hi
    split at hi
    · exact hi
    · simp at hi
  have hsub : old.Pairwise fun i j => ∀ n ∈ i.opIds, n ∉ j.opIds := by
    simp only [hold]; split
    · exact h.defs.sep y hy
    · simp
  constructor
  · have key : (assignExp y e σ).defs = { σ.defs with
        next := (cloneN e σ.defs.next).2 + 1, base := σ.defs.base,
        items := Function.update σ.defs.items y (old ++ [new]) } := rfl
    rw [key]
    refine h.defs.setItems (by omega) hy ?_ ?_ ?_ ?_ ?_
    · intro i hi p hp'
      rcases List.mem_append.1 hi with hi | hi
      · exact h.defs.closed y hy i (hmem i hi) p hp'
      · simp only [List.mem_singleton] at hi
        subst hi
        rw [hnew, Node.leaves, cloneN_leaves] at hp'
        exact hl p hp'
    · intro i hi p hp'
      rcases List.mem_append.1 hi with hi | hi
      · exact h.defs.parsOK y hy i (hmem i hi) p hp'
      · simp only [List.mem_singleton] at hi
        subst hi
        rw [hnew, Node.pars, cloneN_pars] at hp'
        exact hp p hp'
    · intro i hi
      rcases List.mem_append.1 hi with hi | hi
      · exact h.defs.nodup y hy i (hmem i hi)
      · simp only [List.mem_singleton] at hi
        subst hi
        simp only [hnew, Node.opIds, List.nodup_cons]
        exact ⟨fun hh => by have := c2 _ hh; omega, c3⟩
    · rw [List.pairwise_append]
      refine ⟨hsub, by simp, ?_⟩
      intro i hi j hj n hn hn'
      simp only [List.mem_singleton] at hj
      subst hj
      have := hids n hn'
      have := h.defs.op_lt y hy i (hmem i hi) n hn
      omega
    · intro i hi
      rcases List.mem_append.1 hi with hi | hi
      · exact Or.inl (hmem i hi)
      · simp only [List.mem_singleton] at hi
        subst hi
        exact Or.inr hids
  · intro q hq he
    have he' : Function.update σ.defs.items y (old ++ [new]) q = [] := he
    rw [Function.update_apply] at he'
    split at he'
    · simp at he'
    · exact h.plain q hq he'

theorem define_wf {σ : St K} (h : σ.WF) {y : ℕ} (hy : y < σ.defs.size) {e : Exp K}
    (hl : ∀ p ∈ e.leaves, p < σ.defs.size) (hp : ∀ p ∈ e.pars, p < σ.defs.psize) :
    (define y e σ).WF := by
  refine assignExp_wf (σ := { σ with defs := { σ.defs with next := (e.build σ.defs.next).2 } })
    ⟨h.defs.bump (e.build_ok _).le, h.plain⟩ hy ?_ ?_
  · rw [e.build_leaves]; exact hl
  · rw [e.build_pars]; exact hp

theorem assignRef_wf {σ : St K} (h : σ.WF) {y z : ℕ} (hy : y < σ.defs.size)
    (hz : z < σ.defs.size) : (assignRef y z σ).WF := by
  set old := if z == y then σ.defs.items y else [] with hold
  have hmem : ∀ i ∈ old, i ∈ σ.defs.items y := by
    intro i hi
    simp only [hold] at hi
    split at hi
    · exact hi
    · simp at hi
  have hsub : old.Pairwise fun i j => ∀ n ∈ i.opIds, n ∉ j.opIds := by
    simp only [hold]; split
    · exact h.defs.sep y hy
    · simp
  constructor
  · have key : (assignRef y z σ).defs = { σ.defs with
        next := σ.defs.next, base := σ.defs.base,
        items := Function.update σ.defs.items y (old ++ [.leaf z]) } := rfl
    rw [key]
    refine h.defs.setItems (by omega) hy ?_ ?_ ?_ ?_ ?_
    · intro i hi p hp'
      rcases List.mem_append.1 hi with hi | hi
      · exact h.defs.closed y hy i (hmem i hi) p hp'
      · simp only [List.mem_singleton] at hi
        subst hi
        simp only [Node.leaves, List.mem_singleton] at hp'
        omega
    · intro i hi p hp'
      rcases List.mem_append.1 hi with hi | hi
      · exact h.defs.parsOK y hy i (hmem i hi) p hp'
      · simp only [List.mem_singleton] at hi
        subst hi
        simp [Node.pars] at hp'
    · intro i hi
      rcases List.mem_append.1 hi with hi | hi
      · exact h.defs.nodup y hy i (hmem i hi)
      · simp only [List.mem_singleton] at hi
        subst hi
        simp [Node.opIds]
    · rw [List.pairwise_append]
      refine ⟨hsub, by simp, ?_⟩
      intro i hi j hj n hn
      simp only [List.mem_singleton] at hj
      subst hj
      simp [Node.opIds]
    · intro i hi
      rcases List.mem_append.1 hi with hi | hi
      · exact Or.inl (hmem i hi)
      · simp only [List.mem_singleton] at hi
        subst hi
        exact Or.inr (by simp [Node.opIds])
  · intro q hq he
    have he' : Function.update σ.defs.items y (old ++ [.leaf z]) q = [] := he
    rw [Function.update_apply] at he'
    split at he'
    · simp at he'
    · exact h.plain q hq he'

end CoolDiff
