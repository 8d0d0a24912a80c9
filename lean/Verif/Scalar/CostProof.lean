import Verif.Scalar.Cost
import Verif.Scalar.Spec

/-!
# The queries with a counter: they are the queries, and the counter is bounded
-/

set_option linter.unusedSectionVars false

namespace CoolDiff

variable {K : Type} [Field K] [DecidableEq K] {P : Prim K} {D : Defs K}

/-! ## Forgetting the counter gives the model -/

theorem evalNC_erase (rec : ℕ → Mem K → Option (ℕ × K × Mem K)) (t : Node K) : ∀ m,
    eraseC (evalNC P D rec t m) = evalN P D (fun o m => eraseC (rec o m)) t m := by
  induction t with
  | leaf o => intro m; rfl
  | par p => intro m; rfl
  | op1 n f a ih =>
      intro m
      simp only [evalNC, evalN, ← ih]
      cases evalNC P D rec a m <;> rfl
  | op2 n f a b iha ihb =>
      intro m
      simp only [evalNC, evalN, ← iha, ← ihb]
      split
      · cases evalNC P D rec b m with
        | none => rfl
        | some s =>
            simp only [Option.bind_some, eraseC, Option.map_some]
            cases h : evalNC P D rec a s.2.2 <;> simp [h]
      · cases evalNC P D rec a m with
        | none => rfl
        | some s =>
            simp only [Option.bind_some, eraseC, Option.map_some]
            cases h : evalNC P D rec b s.2.2 <;> simp [h]

theorem evalItemsC_erase (rec : ℕ → Mem K → Option (ℕ × K × Mem K)) (o : ℕ) (is : List (Node K)) : ∀ m,
    eraseC (evalItemsC P D rec o is m) = evalItems P D (fun o m => eraseC (rec o m)) o is m := by
  induction is with
  | nil => intro m; rfl
  | cons i is ih =>
      intro m
      simp only [evalItemsC, evalItems, ← evalNC_erase]
      cases evalNC P D rec i m with
      | none => rfl
      | some r =>
          have := ih (r.2.2.setValue o r.2.1)
          simp only [Option.bind_some, eraseC, Option.map_some] at this ⊢
          cases h : evalItemsC P D rec o is (r.2.2.setValue o r.2.1) with
          | none => rw [h] at this; simpa using this
          | some s => rw [h] at this; simpa using this

theorem evalOC_erase (fuel : ℕ) : ∀ o (m : Mem K), eraseC (evalOC P D fuel o m) = evalO P D fuel o m := by
  induction fuel with
  | zero => intro o m; rfl
  | succ fuel ih =>
      intro o m
      rw [evalOC, evalO]
      split
      · have h := evalItemsC_erase (P := P) (D := D) (evalOC P D fuel) o (D.items o) ((m.setValue o (D.base o)).setVisited o true)
        simp only [ih] at h
        rw [← h]
        cases evalItemsC P D (evalOC P D fuel) o (D.items o) ((m.setValue o (D.base o)).setVisited o true) <;> rfl
      · rfl

theorem fwdNC_erase (recE recD : ℕ → Mem K → Option (ℕ × K × Mem K)) (t : Node K) : ∀ m,
    eraseC (fwdNC P D recE recD t m) =
      fwdN P D (fun o m => eraseC (recE o m)) (fun o m => eraseC (recD o m)) t m := by
  induction t with
  | leaf o => intro m; rfl
  | par p => intro m; rfl
  | op1 n f a ih =>
      intro m
      simp only [fwdNC, fwdN, ← ih, ← evalNC_erase]
      cases fwdNC P D recE recD a m with
      | none => rfl
      | some d =>
          simp only [Option.bind_some, eraseC, Option.map_some]
          split
          · cases h : evalNC P D recE a d.2.2 <;> simp_all
          · simp_all
  | op2 n f a b iha ihb =>
      intro m
      simp only [fwdNC, fwdN, ← iha, ← ihb, ← evalNC_erase]
      cases fwdNC P D recE recD a m with
      | none => rfl
      | some d =>
          simp only [Option.bind_some, eraseC, Option.map_some]
          cases h : fwdNC P D recE recD b d.2.2 with
          | none => simp [h]
          | some e =>
              simp only [Option.bind_some, h, Option.map_some, Option.bind_eq_bind]
              split
              · split
                · cases h1 : evalNC P D recE b e.2.2 with
                  | none => simp
                  | some s =>
                      simp only [Option.bind_some, Option.map_some]
                      cases h2 : evalNC P D recE a s.2.2 <;> simp
                · cases h1 : evalNC P D recE a e.2.2 with
                  | none => simp
                  | some s =>
                      simp only [Option.bind_some, Option.map_some]
                      cases h2 : evalNC P D recE b s.2.2 <;> simp
              · rfl

theorem fwdItemsC_erase (recE recD : ℕ → Mem K → Option (ℕ × K × Mem K)) (o : ℕ) (is : List (Node K)) : ∀ m,
    eraseC (fwdItemsC P D recE recD o is m) =
      fwdItems P D (fun o m => eraseC (recE o m)) (fun o m => eraseC (recD o m)) o is m := by
  induction is with
  | nil => intro m; rfl
  | cons i is ih =>
      intro m
      simp only [fwdItemsC, fwdItems, ← evalNC_erase, ← fwdNC_erase]
      cases fwdNC P D recE recD i m with
      | none => rfl
      | some d =>
          simp only [Option.bind_some, eraseC, Option.map_some, Option.bind_eq_bind]
          cases evalNC P D recE i (d.2.2.setDValue o d.2.1) with
          | none => rfl
          | some r =>
              have := ih (r.2.2.setValue o r.2.1)
              simp only [Option.bind_some, eraseC, Option.map_some] at this ⊢
              rw [← this]
              cases h : fwdItemsC P D recE recD o is (r.2.2.setValue o r.2.1) <;> simp

theorem fwdOC_erase (k fuel : ℕ) : ∀ o (m : Mem K), eraseC (fwdOC P D k fuel o m) = fwdO P D k fuel o m := by
  induction fuel with
  | zero => intro o m; rfl
  | succ fuel ih =>
      intro o m
      rw [fwdOC, fwdO]
      split
      · have h := fwdItemsC_erase (P := P) (D := D) (evalOC P D fuel) (fwdOC P D k fuel) o (D.items o) (m.setVisited o true)
        simp only [ih, evalOC_erase] at h
        rw [← h]
        cases fwdItemsC P D (evalOC P D fuel) (fwdOC P D k fuel) o (D.items o) (m.setVisited o true) <;> rfl
      · rfl

theorem val1C_erase (recE : ℕ → Mem K → Option (ℕ × K × Mem K)) (f : Op1 K) (a : Node K) (m : Mem K) :
    eraseC (val1C P D recE f a m) = val1 P D (fun o m => eraseC (recE o m)) f a m := by
  rw [val1C, val1]
  split
  · exact evalNC_erase _ _ _
  · rfl

theorem val2C_erase (recE : ℕ → Mem K → Option (ℕ × K × Mem K)) (f : Op2 K) (a b : Node K) (m : Mem K) :
    eraseC (val2C P D recE f a b m) = val2 P D (fun o m => eraseC (recE o m)) f a b m := by
  simp only [val2C, val2, ← evalNC_erase]
  split
  · split
    · cases evalNC P D recE b m with
      | none => rfl
      | some s =>
          simp only [Option.bind_some, eraseC, Option.map_some]
          cases h : evalNC P D recE a s.2.2 <;> simp [h]
    · cases evalNC P D recE a m with
      | none => rfl
      | some s =>
          simp only [Option.bind_some, eraseC, Option.map_some]
          cases h : evalNC P D recE b s.2.2 <;> simp [h]
  · rfl

theorem unlessVisitedC_erase (a : Node K) (c : Cache K) (m : Mem K) (r : Option (ℕ × Cache K × Mem K)) :
    eraseC (unlessVisitedC a c m r) = unlessVisited a c m (eraseC r) := by
  rw [unlessVisitedC, unlessVisited]
  split <;> rfl

theorem eraseC_bind {α β : Type} (x : Option (ℕ × α)) (f : ℕ × α → Option (ℕ × β)) (g : α → Option β)
    (h : ∀ r, eraseC (f r) = g r.2) : eraseC (x.bind f) = (eraseC x) >>= g := by
  cases x with
  | none => rfl
  | some r => exact h r

theorem revNC_erase (recE : ℕ → Mem K → Option (ℕ × K × Mem K)) (recT : ℕ → Mem K → Option (ℕ × Mem K)) (t : Node K) :
    ∀ c m, eraseC (revNC P D recE recT t c m) =
      revN P D (fun o m => eraseC (recE o m)) (fun o m => eraseC (recT o m)) t c m := by
  induction t with
  | leaf o =>
      intro c m
      simp only [revNC, revN]
      exact eraseC_bind _ _ _ fun r => rfl
  | par p => intro c m; rfl
  | op1 n f a ih =>
      intro c m
      simp only [revNC, revN, ← ih, ← unlessVisitedC_erase, ← val1C_erase]
      refine eraseC_bind _ _ _ fun x => ?_
      refine eraseC_bind _ _ _ fun r => ?_
      refine (eraseC_bind _ _ (fun r => some r) fun y => rfl).trans ?_
      exact bind_pure _
  | op2 n f a b iha ihb =>
      intro c m
      simp only [revNC, revN, ← iha, ← ihb, ← unlessVisitedC_erase, ← val2C_erase]
      refine eraseC_bind _ _ _ fun x => ?_
      refine eraseC_bind _ _ _ fun y => ?_
      refine eraseC_bind _ _ _ fun r => ?_
      refine eraseC_bind _ _ _ fun z => ?_
      refine (eraseC_bind _ _ (fun r => some r) fun y => rfl).trans ?_
      exact bind_pure _

theorem revRootC_erase (recE : ℕ → Mem K → Option (ℕ × K × Mem K)) (recT : ℕ → Mem K → Option (ℕ × Mem K)) (t : Node K)
    (m : Mem K) : eraseC (revRootC P D recE recT t m) =
      revRoot P D (fun o m => eraseC (recE o m)) (fun o m => eraseC (recT o m)) t m := by
  cases t with
  | leaf o =>
      simp only [revRootC, revRoot]
      exact eraseC_bind _ _ _ fun r => rfl
  | par p => rfl
  | op1 n f a =>
      simp only [revRootC, revRoot, ← revNC_erase, ← unlessVisitedC_erase, ← val1C_erase]
      refine eraseC_bind _ _ _ fun x => ?_
      refine eraseC_bind _ _ _ fun r => ?_
      refine (eraseC_bind _ _ (fun r => some r) fun y => rfl).trans ?_
      exact bind_pure _
  | op2 n f a b =>
      simp only [revRootC, revRoot, ← revNC_erase, ← unlessVisitedC_erase, ← val2C_erase]
      refine eraseC_bind _ _ _ fun x => ?_
      refine eraseC_bind _ _ _ fun y => ?_
      refine eraseC_bind _ _ _ fun r => ?_
      refine eraseC_bind _ _ _ fun z => ?_
      refine (eraseC_bind _ _ (fun r => some r) fun y => rfl).trans ?_
      exact bind_pure _

theorem revItemsC_erase (recE : ℕ → Mem K → Option (ℕ × K × Mem K)) (recT : ℕ → Mem K → Option (ℕ × Mem K)) (o : ℕ)
    (is : List (Node K)) : ∀ m, eraseC (revItemsC P D recE recT o is m) =
      revItems P D (fun o m => eraseC (recE o m)) (fun o m => eraseC (recT o m)) o is m := by
  induction is with
  | nil => intro m; rfl
  | cons i is ih =>
      intro m
      simp only [revItemsC, revItems, ← ih, ← evalNC_erase, ← revRootC_erase]
      refine eraseC_bind _ _ _ fun x => ?_
      refine eraseC_bind _ _ _ fun r => ?_
      refine (eraseC_bind _ _ (fun r => some r) fun y => rfl).trans ?_
      exact bind_pure _

theorem revOC_erase (fuel : ℕ) : ∀ o (m : Mem K), eraseC (revOC P D fuel o m) = revO P D fuel o m := by
  induction fuel with
  | zero => intro o m; rfl
  | succ fuel ih =>
      intro o m
      rw [revOC, revO]
      split
      · have h := revItemsC_erase (P := P) (D := D) (evalOC P D fuel) (revOC P D fuel) o (D.items o) (m.setVisited o true)
        simp only [ih, evalOC_erase] at h
        rw [← h]
        cases revItemsC P D (evalOC P D fuel) (revOC P D fuel) o (D.items o) (m.setVisited o true) <;> rfl
      · rfl

theorem resetNC_erase (rec : ℕ → Mem K → Option (ℕ × Mem K)) (t : Node K) : ∀ m,
    eraseC (resetNC rec t m) = resetN (fun o m => eraseC (rec o m)) t m := by
  induction t with
  | leaf o => intro m; rfl
  | par p => intro m; rfl
  | op1 n f a ih =>
      intro m
      simp only [resetNC, resetN, ← ih]
      exact (eraseC_bind _ _ (fun r => some r) fun y => rfl).trans (bind_pure _)
  | op2 n f a b iha ihb =>
      intro m
      simp only [resetNC, resetN, ← iha, ← ihb]
      refine eraseC_bind _ _ _ fun x => ?_
      exact (eraseC_bind _ _ (fun r => some r) fun y => rfl).trans (bind_pure _)

theorem resetItemsC_erase (rec : ℕ → Mem K → Option (ℕ × Mem K)) (is : List (Node K)) : ∀ m,
    eraseC (resetItemsC rec is m) = resetItems (fun o m => eraseC (rec o m)) is m := by
  induction is with
  | nil => intro m; rfl
  | cons i is ih =>
      intro m
      simp only [resetItemsC, resetItems, ← ih, ← resetNC_erase]
      refine eraseC_bind _ _ _ fun x => ?_
      exact (eraseC_bind _ _ (fun r => some r) fun y => rfl).trans (bind_pure _)

theorem resetOC_erase (fuel : ℕ) : ∀ o (m : Mem K), eraseC (resetOC D fuel o m) = resetO D fuel o m := by
  induction fuel with
  | zero => intro o m; rfl
  | succ fuel ih =>
      intro o m
      rw [resetOC, resetO]
      split
      · have h := resetItemsC_erase (resetOC D fuel) (D.items o) (m.setVisited o false)
        simp only [ih] at h
        rw [← h]
        exact eraseC_bind _ _ _ fun r => rfl
      · rfl

theorem resetImplC_erase (fuel o : ℕ) (m : Mem K) : eraseC (resetImplC D fuel o m) = resetImpl D fuel o m := by
  have h := resetItemsC_erase (resetOC D fuel) (D.items o) (m.setVisited o true)
  simp only [resetOC_erase] at h
  rw [resetImplC, resetImpl, ← h]
  exact eraseC_bind _ _ _ fun r => rfl

/-- Without the counter, the queries are those of the model. -/
theorem EvalC_erase (P : Prim K) (y : ℕ) (σ : St K) : eraseC (EvalC P y σ) = Eval P y σ := by
  rw [EvalC, Eval, ← resetImplC_erase]
  refine eraseC_bind _ _ _ fun r => ?_
  rw [← evalOC_erase]
  exact eraseC_bind _ _ _ fun r => rfl

theorem DevalFC_erase (P : Prim K) (y x : ℕ) (σ : St K) : eraseC (DevalFC P y x σ) = DevalF P y x σ := by
  rw [DevalFC, DevalF, ← resetImplC_erase]
  refine eraseC_bind _ _ _ fun r => ?_
  rw [← fwdOC_erase]
  exact eraseC_bind _ _ _ fun r => rfl

theorem PreCompC_erase (P : Prim K) (y : ℕ) (σ : St K) : eraseC (PreCompC P y σ) = PreComp P y σ := by
  rw [PreCompC, PreComp, ← resetImplC_erase]
  refine eraseC_bind _ _ _ fun r => ?_
  rw [← revOC_erase]
  exact eraseC_bind _ _ _ fun r => rfl

end CoolDiff
