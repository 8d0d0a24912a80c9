import Verif.Scalar.Threads
import Verif.Scalar.FwdProof
import Mathlib.Order.GameAdd

/-!
# Threads (proofs)

A task run alone is the sequential model; runs of pools end; tasks that share only Variables do not disturb
each other.
-/

set_option linter.unusedSectionVars false
set_option linter.unusedSimpArgs false

namespace CoolDiff

open Prog

namespace Prog

variable {K : Type} {α β γ : Type}

@[simp] theorem pure_eq (a : α) : (pure a : Prog K α) = ret a := rfl
@[simp] theorem bind_eq (p : Prog K α) (f : α → Prog K β) : p >>= f = p.bind f := rfl

theorem run_bind [Zero K] (p : Prog K α) (f : α → Prog K β) (m : Mem K) :
    (p.bind f).run m = (p.run m).bind fun r => (f r.1).run r.2 := by
  induction p generalizing m with
  | ret a => rfl
  | fail => rfl
  | getVisited o k ih => simp only [bind, run]; exact ih _ _
  | setVisited o b k ih => simp only [bind, run]; exact ih _
  | getValue o k ih => simp only [bind, run]; exact ih _ _
  | setValue o b k ih => simp only [bind, run]; exact ih _
  | getDValue o k ih => simp only [bind, run]; exact ih _ _
  | setDValue o b k ih => simp only [bind, run]; exact ih _
  | clearCache o k ih => simp only [bind, run]; exact ih _

theorem bind_ret (p : Prog K α) : (p.bind fun a => ret a) = p := by
  induction p with
  | ret a => rfl
  | fail => rfl
  | getVisited o k ih => simp only [bind, ih]
  | setVisited o b k ih => simp only [bind, ih]
  | getValue o k ih => simp only [bind, ih]
  | setValue o b k ih => simp only [bind, ih]
  | getDValue o k ih => simp only [bind, ih]
  | setDValue o b k ih => simp only [bind, ih]
  | clearCache o k ih => simp only [bind, ih]

end Prog

section
variable {K : Type} [Field K] [DecidableEq K] (P : Prim K) (D : Defs K)

/-! ## A task run alone -/

theorem evalNT_run {rec : ℕ → Prog K K} {rec' : ℕ → Mem K → Option (K × Mem K)}
    (h : ∀ o m, (rec o).run m = rec' o m) (t : Node K) :
    ∀ m, (evalNT P D rec t).run m = evalN P D rec' t m := by
  induction t with
  | leaf o => exact h o
  | par p => intro m; rfl
  | op1 n f a ih =>
      intro m
      simp only [evalNT, evalN, bind_eq, pure_eq, run_bind, ih, run]
      rfl
  | op2 n f a b iha ihb =>
      intro m
      simp only [evalNT, evalN]
      split <;> simp only [bind_eq, pure_eq, run_bind, iha, ihb, run] <;> rfl

theorem evalItemsT_run {rec : ℕ → Prog K K} {rec' : ℕ → Mem K → Option (K × Mem K)}
    (h : ∀ o m, (rec o).run m = rec' o m) (o : ℕ) (is : List (Node K)) :
    ∀ m, (evalItemsT P D rec o is).run m = (evalItems P D rec' o is m).map fun m => ((), m) := by
  induction is with
  | nil => intro m; rfl
  | cons i is ih =>
      intro m
      simp only [evalItemsT, evalItems, bind_eq, run_bind, evalNT_run P D h, wrValue, run, Option.bind_some, ih,
        Option.bind_eq_bind, Option.map_bind]
      rfl

theorem evalOT_run (fuel : ℕ) : ∀ o m, (evalOT P D fuel o).run m = evalO P D fuel o m := by
  induction fuel with
  | zero => intro o m; rfl
  | succ f ih =>
      intro o m
      simp only [evalOT, evalO, bind_eq, run_bind, rdVisited, run, Option.bind_some]
      cases m.visited o
      · simp only [if_true, bind_eq, run_bind, wrValue, wrVisited, rdValue, run, Option.bind_some,
          evalItemsT_run P D ih, Option.bind_map]
        rfl
      · simp [rdValue, run]

theorem fwdNT_run {recE recD : ℕ → Prog K K} {recE' recD' : ℕ → Mem K → Option (K × Mem K)}
    (hE : ∀ o m, (recE o).run m = recE' o m) (hD : ∀ o m, (recD o).run m = recD' o m) (t : Node K) :
    ∀ m, (fwdNT P D recE recD t).run m = fwdN P D recE' recD' t m := by
  induction t with
  | leaf o => exact hD o
  | par p => intro m; rfl
  | op1 n f a ih =>
      intro m
      simp only [fwdNT, fwdN, bind_eq, run_bind, ih]
      split <;> simp only [bind_eq, pure_eq, run_bind, evalNT_run P D hE, run] <;> rfl
  | op2 n f a b iha ihb =>
      intro m
      simp only [fwdNT, fwdN, bind_eq, run_bind, iha, ihb]
      split
      · split <;> simp only [bind_eq, pure_eq, run_bind, evalNT_run P D hE, run] <;> rfl
      · simp only [pure_eq, run]; rfl

theorem fwdItemsT_run {recE recD : ℕ → Prog K K} {recE' recD' : ℕ → Mem K → Option (K × Mem K)}
    (hE : ∀ o m, (recE o).run m = recE' o m) (hD : ∀ o m, (recD o).run m = recD' o m) (o : ℕ)
    (is : List (Node K)) :
    ∀ m, (fwdItemsT P D recE recD o is).run m = (fwdItems P D recE' recD' o is m).map fun m => ((), m) := by
  induction is with
  | nil => intro m; rfl
  | cons i is ih =>
      intro m
      simp only [fwdItemsT, fwdItems, bind_eq, run_bind, evalNT_run P D hE, fwdNT_run P D hE hD, wrValue, wrDValue,
        run, Option.bind_some, ih, Option.bind_eq_bind, Option.map_bind]
      cases fwdN P D recE' recD' i m with
      | none => rfl
      | some r =>
        simp only [Option.bind_some, Function.comp, Option.map_bind]

theorem fwdEndT_run (k o : ℕ) (m : Mem K) :
    (fwdEndT D k o).run m = some (if D.nidx o = k then 1 else m.dvalue o, m) := by
  unfold fwdEndT
  split <;> simp [rdDValue, run]

theorem fwdOT_run (k fuel : ℕ) : ∀ o m, (fwdOT P D k fuel o).run m = fwdO P D k fuel o m := by
  induction fuel with
  | zero => intro o m; rfl
  | succ f ih =>
      intro o m
      simp only [fwdOT, fwdO, bind_eq, run_bind, rdVisited, run, Option.bind_some]
      cases m.visited o
      · simp only [if_true, bind_eq, run_bind, wrVisited, run, Option.bind_some,
          fwdItemsT_run P D (evalOT_run P D f) ih, Option.bind_map, fwdEndT_run]
        rfl
      · simp [fwdEndT_run]

theorem resetNT_run {rec : ℕ → Prog K Unit} {rec' : ℕ → Mem K → Option (Mem K)}
    (h : ∀ o m, (rec o).run m = (rec' o m).map fun m => ((), m)) (t : Node K) :
    ∀ m, (resetNT rec t).run m = (resetN rec' t m).map fun m => ((), m) := by
  induction t with
  | leaf o => exact h o
  | par p => intro m; rfl
  | op1 n f a ih => exact ih
  | op2 n f a b iha ihb =>
      intro m
      simp only [resetNT, resetN, bind_eq, run_bind, iha, ihb, Option.bind_map, Option.bind_eq_bind, Option.map_bind]
      rfl

theorem resetItemsT_run {rec : ℕ → Prog K Unit} {rec' : ℕ → Mem K → Option (Mem K)}
    (h : ∀ o m, (rec o).run m = (rec' o m).map fun m => ((), m)) (is : List (Node K)) :
    ∀ m, (resetItemsT rec is).run m = (resetItems rec' is m).map fun m => ((), m) := by
  induction is with
  | nil => intro m; rfl
  | cons i is ih =>
      intro m
      simp only [resetItemsT, resetItems, bind_eq, run_bind, resetNT_run h, ih, Option.bind_map, Option.bind_eq_bind,
        Option.map_bind]
      rfl

theorem clearObjT_run (o : ℕ) (m : Mem K) : (clearObjT D o).run m = some ((), m.clearObj D o) := rfl

theorem resetOT_run (fuel : ℕ) :
    ∀ o m, (resetOT D fuel o).run m = (resetO D fuel o m).map fun m => ((), m) := by
  induction fuel with
  | zero => intro o m; rfl
  | succ f ih =>
      intro o m
      simp only [resetOT, resetO, bind_eq, run_bind, rdVisited, run, Option.bind_some]
      cases m.visited o
      · simp [clearObjT_run]
      · simp only [if_true, bind_eq, run_bind, wrVisited, run, Option.bind_some, resetItemsT_run ih,
          Option.bind_map, clearObjT_run, Option.bind_eq_bind, Option.map_bind]
        rfl

theorem resetImplT_run (fuel o : ℕ) (m : Mem K) :
    (resetImplT D fuel o).run m = (resetImpl D fuel o m).map fun m => ((), m) := by
  simp only [resetImplT, resetImpl, bind_eq, run_bind, wrVisited, run, Option.bind_some,
    resetItemsT_run (resetOT_run D fuel), Option.bind_map, Option.bind_eq_bind, Option.map_bind]
  rfl

/-- A task run alone is `DevalF` of the sequential model. -/
theorem devalFT_run (y x : ℕ) (m : Mem K) :
    (devalFT P D y x).run m = (DevalF P y x ⟨D, m⟩).map fun r => (r.1, r.2.mem) := by
  simp only [devalFT, DevalF, bind_eq, run_bind, resetImplT_run, fwdOT_run, Option.bind_map, Option.bind_eq_bind,
    Option.map_bind]
  cases resetImpl D D.fuel y m with
  | none => rfl
  | some m1 =>
    simp only [Option.bind_some, Function.comp]
    cases fwdO P D (D.nidx x) D.fuel y m1 <;> rfl

/-! ## Runs of a pool -/

theorem Pool.Steps.trans {α : Type} {a b c : Pool K α} (h : Pool.Steps a b) (h' : Pool.Steps b c) : Pool.Steps a c := by
  induction h with
  | refl => exact h'
  | step s _ ih => exact .step s (ih h')

/-- Running the first part of task `i` without the others. -/
theorem Pool.steps_run {α β : Type} (p : Prog K α) (f : α → Prog K β) :
    ∀ {m m' : Mem K} {a : α} {ts : List (Prog K β)} {i : ℕ}, p.run m = some (a, m') → ts[i]? = some (p.bind f) →
      Pool.Steps ⟨ts, m⟩ ⟨ts.set i (f a), m'⟩ := by
  have one : ∀ {m m' : Mem K} {ts : List (Prog K β)} {i : ℕ} {q q' : Prog K β} {c : Pool K β},
      ts[i]? = some q → q.step m = some (q', m') → ((ts.set i q')[i]? = some q' → Pool.Steps ⟨ts.set i q', m'⟩ c) →
      Pool.Steps ⟨ts, m⟩ c := by
    intro m m' ts i q q' c h1 h2 h3
    obtain ⟨hi, he⟩ := List.getElem?_eq_some_iff.1 h1
    refine .step (.task i hi (p := q') (m' := m') (by rw [he]; exact h2)) (h3 ?_)
    rw [List.getElem?_set_self hi]
  induction p with
  | ret a =>
      intro m m' b ts i h1 h2
      simp only [run, Option.some.injEq, Prod.mk.injEq] at h1
      obtain ⟨rfl, rfl⟩ := h1
      obtain ⟨hi, he⟩ := List.getElem?_eq_some_iff.1 h2
      have : ts.set i (f a) = ts := by
        rw [show f a = ts[i] from he.symm]; exact List.set_getElem_self hi
      rw [this]; exact .refl _
  | fail => intro m m' a ts i h1; simp [run] at h1
  | getVisited o k ih =>
      intro m m' a ts i h1 h2
      refine one h2 (by simp only [Prog.bind, step]; rfl) fun h => ?_
      simpa using ih _ h1 h
  | setVisited o b k ih =>
      intro m m' a ts i h1 h2
      refine one h2 (by simp only [Prog.bind, step]; rfl) fun h => ?_
      simpa using ih h1 h
  | getValue o k ih =>
      intro m m' a ts i h1 h2
      refine one h2 (by simp only [Prog.bind, step]; rfl) fun h => ?_
      simpa using ih _ h1 h
  | setValue o b k ih =>
      intro m m' a ts i h1 h2
      refine one h2 (by simp only [Prog.bind, step]; rfl) fun h => ?_
      simpa using ih h1 h
  | getDValue o k ih =>
      intro m m' a ts i h1 h2
      refine one h2 (by simp only [Prog.bind, step]; rfl) fun h => ?_
      simpa using ih _ h1 h
  | setDValue o b k ih =>
      intro m m' a ts i h1 h2
      refine one h2 (by simp only [Prog.bind, step]; rfl) fun h => ?_
      simpa using ih h1 h
  | clearCache o k ih =>
      intro m m' a ts i h1 h2
      refine one h2 (by simp only [Prog.bind, step]; rfl) fun h => ?_
      simpa using ih h1 h

/-! ### Every run ends -/

/-- `q` is what may follow the next access of `p`. -/
def Prog.Next {α : Type} (q p : Prog K α) : Prop := ∃ m m', p.step m = some (q, m')

theorem Prog.next_acc {α : Type} (p : Prog K α) : Acc Prog.Next p := by
  induction p with
  | ret a => exact ⟨_, fun q ⟨m, m', h⟩ => by simp [step] at h⟩
  | fail => exact ⟨_, fun q ⟨m, m', h⟩ => by simp [step] at h⟩
  | getVisited o k ih =>
      refine ⟨_, fun q ⟨m, m', h⟩ => ?_⟩
      simp only [step, Option.some.injEq, Prod.mk.injEq] at h
      rw [← h.1]; exact ih _
  | setVisited o b k ih =>
      refine ⟨_, fun q ⟨m, m', h⟩ => ?_⟩
      simp only [step, Option.some.injEq, Prod.mk.injEq] at h
      rw [← h.1]; exact ih
  | getValue o k ih =>
      refine ⟨_, fun q ⟨m, m', h⟩ => ?_⟩
      simp only [step, Option.some.injEq, Prod.mk.injEq] at h
      rw [← h.1]; exact ih _
  | setValue o b k ih =>
      refine ⟨_, fun q ⟨m, m', h⟩ => ?_⟩
      simp only [step, Option.some.injEq, Prod.mk.injEq] at h
      rw [← h.1]; exact ih
  | getDValue o k ih =>
      refine ⟨_, fun q ⟨m, m', h⟩ => ?_⟩
      simp only [step, Option.some.injEq, Prod.mk.injEq] at h
      rw [← h.1]; exact ih _
  | setDValue o b k ih =>
      refine ⟨_, fun q ⟨m, m', h⟩ => ?_⟩
      simp only [step, Option.some.injEq, Prod.mk.injEq] at h
      rw [← h.1]; exact ih
  | clearCache o k ih =>
      refine ⟨_, fun q ⟨m, m', h⟩ => ?_⟩
      simp only [step, Option.some.injEq, Prod.mk.injEq] at h
      rw [← h.1]; exact ih

/-- One task of the list moves on. -/
def ListNext {α : Type} (us ts : List (Prog K α)) : Prop :=
  ∃ (i : ℕ) (hi : i < ts.length) (p : Prog K α), Prog.Next p ts[i] ∧ us = ts.set i p

theorem listNext_acc {α : Type} (ts : List (Prog K α)) : Acc ListNext ts := by
  induction ts with
  | nil => exact ⟨_, fun us ⟨i, hi, _⟩ => by simp at hi⟩
  | cons t ts ih =>
      have key : ∀ x : Prog K α × List (Prog K α), Acc (Prod.GameAdd Prog.Next ListNext) x →
          Acc ListNext (x.1 :: x.2) := by
        intro x hx
        induction hx with
        | intro x _ ih =>
          refine ⟨_, ?_⟩
          rintro us ⟨i, hi, p, hp, rfl⟩
          cases i with
          | zero => exact ih (p, x.2) (Prod.GameAdd.fst hp)
          | succ i =>
              exact ih (x.1, x.2.set i p) (Prod.GameAdd.snd ⟨i, by simpa using hi, p, hp, rfl⟩)
      exact key (t, ts) (Acc.prod_gameAdd (Prog.next_acc t) ih)

/-- Every run of every pool ends: there is no infinite sequence of steps. -/
theorem Pool.acc {α : Type} (c : Pool K α) : Acc (fun b a : Pool K α => Pool.Step a b) c := by
  have key : ∀ ts : List (Prog K α), Acc ListNext ts → ∀ m, Acc (fun b a : Pool K α => Pool.Step a b) ⟨ts, m⟩ := by
    intro ts h
    induction h with
    | intro ts _ ih =>
      intro m
      refine ⟨_, fun b hb => ?_⟩
      cases hb with
      | task i hi h => exact ih _ ⟨i, hi, _, ⟨m, _, h⟩, rfl⟩ _
  exact key c.tasks (listNext_acc _) c.mem

/-! ## Tasks that share Variables only -/

/-- What a task owns: the fields of its copy. -/
structure Priv (K : Type) where
  vis : Bool
  val : K
  dval : K

/-- The fields of object `c`. -/
def Mem.priv (m : Mem K) (c : ℕ) : Priv K := ⟨m.visited c, m.value c, m.dvalue c⟩

/-- `o` is a Variable. -/
def Plain (o : ℕ) : Prop := o < D.size ∧ D.items o = []

/-- The task whose copy is `c` and holds `s` accesses only its copy and Variables, leaves the numbers of the
Variables alone, does not stop, and ends with `Q`, whatever flags it finds at the Variables. -/
def Prog.Ok {α : Type} (c : ℕ) (Q : α → Priv K → Prop) : Prog K α → Priv K → Prop
  | ret a, s => Q a s
  | fail, _ => False
  | getVisited o k, s => (o = c ∧ (k s.vis).Ok c Q s) ∨ (Plain D o ∧ ∀ b, (k b).Ok c Q s)
  | setVisited o b k, s => (o = c ∧ k.Ok c Q { s with vis := b }) ∨ (Plain D o ∧ k.Ok c Q s)
  | getValue o k, s => (o = c ∧ (k s.val).Ok c Q s) ∨ (Plain D o ∧ (k (D.base o)).Ok c Q s)
  | setValue o v k, s => (o = c ∧ k.Ok c Q { s with val := v }) ∨ (Plain D o ∧ v = D.base o ∧ k.Ok c Q s)
  | getDValue o k, s => (o = c ∧ (k s.dval).Ok c Q s) ∨ (Plain D o ∧ (k 0).Ok c Q s)
  | setDValue o v k, s => (o = c ∧ k.Ok c Q { s with dval := v }) ∨ (Plain D o ∧ v = 0 ∧ k.Ok c Q s)
  | clearCache o k, s => (o = c ∨ Plain D o) ∧ k.Ok c Q s

theorem Prog.Ok.bind {α β : Type} {c : ℕ} {Q : β → Priv K → Prop} {f : α → Prog K β} {p : Prog K α} {s : Priv K}
    (h : p.Ok D c (fun a s => (f a).Ok D c Q s) s) : (p.bind f).Ok D c Q s := by
  induction p generalizing s with
  | ret a => exact h
  | fail => exact h
  | getVisited o k ih => exact h.imp (fun h => ⟨h.1, ih _ h.2⟩) fun h => ⟨h.1, fun b => ih _ (h.2 b)⟩
  | setVisited o b k ih => exact h.imp (fun h => ⟨h.1, ih h.2⟩) fun h => ⟨h.1, ih h.2⟩
  | getValue o k ih => exact h.imp (fun h => ⟨h.1, ih _ h.2⟩) fun h => ⟨h.1, ih _ h.2⟩
  | setValue o b k ih => exact h.imp (fun h => ⟨h.1, ih h.2⟩) fun h => ⟨h.1, h.2.1, ih h.2.2⟩
  | getDValue o k ih => exact h.imp (fun h => ⟨h.1, ih _ h.2⟩) fun h => ⟨h.1, ih _ h.2⟩
  | setDValue o b k ih => exact h.imp (fun h => ⟨h.1, ih h.2⟩) fun h => ⟨h.1, h.2.1, ih h.2.2⟩
  | clearCache o k ih => exact ⟨h.1, ih h.2⟩

theorem Prog.Ok.mono {α : Type} {c : ℕ} {Q Q' : α → Priv K → Prop} {p : Prog K α} {s : Priv K}
    (h : p.Ok D c Q s) (hQ : ∀ a s, Q a s → Q' a s) : p.Ok D c Q' s := by
  induction p generalizing s with
  | ret a => exact hQ _ _ h
  | fail => exact h
  | getVisited o k ih => exact h.imp (fun h => ⟨h.1, ih _ h.2⟩) fun h => ⟨h.1, fun b => ih _ (h.2 b)⟩
  | setVisited o b k ih => exact h.imp (fun h => ⟨h.1, ih h.2⟩) fun h => ⟨h.1, ih h.2⟩
  | getValue o k ih => exact h.imp (fun h => ⟨h.1, ih _ h.2⟩) fun h => ⟨h.1, ih _ h.2⟩
  | setValue o b k ih => exact h.imp (fun h => ⟨h.1, ih h.2⟩) fun h => ⟨h.1, h.2.1, ih h.2.2⟩
  | getDValue o k ih => exact h.imp (fun h => ⟨h.1, ih _ h.2⟩) fun h => ⟨h.1, ih _ h.2⟩
  | setDValue o b k ih => exact h.imp (fun h => ⟨h.1, ih h.2⟩) fun h => ⟨h.1, h.2.1, ih h.2.2⟩
  | clearCache o k ih => exact ⟨h.1, ih h.2⟩

/-- Sequencing with a known end. -/
theorem Prog.Ok.seq {α β : Type} {c : ℕ} {Q : α → Priv K → Prop} {R : β → Priv K → Prop} {f : α → Prog K β}
    {p : Prog K α} {s : Priv K} (h : p.Ok D c Q s) (hf : ∀ a s, Q a s → (f a).Ok D c R s) :
    (p.bind f).Ok D c R s := (h.mono D hf).bind D

/-- The Variables hold their numbers. -/
def PlainMem (m : Mem K) : Prop := ∀ q, Plain D q → m.value q = D.base q ∧ m.dvalue q = 0

variable {D}

/-- A step of one task keeps it in order, the Variables too, and does not touch what other tasks own. -/
theorem Prog.Ok.step {α : Type} {c : ℕ} (hc : D.items c ≠ []) {Q : α → Priv K → Prop} {p q : Prog K α} {m m' : Mem K}
    (h : p.Ok D c Q (m.priv c)) (hm : PlainMem D m) (hs : p.step m = some (q, m')) :
    q.Ok D c Q (m'.priv c) ∧ PlainMem D m' ∧ ∀ c', D.items c' ≠ [] → c' ≠ c → m'.priv c' = m.priv c' := by
  have hne : ∀ q, Plain D q → q ≠ c := by rintro q h' rfl; exact hc h'.2
  have hne' : ∀ {c' o : ℕ}, D.items c' ≠ [] → Plain D o → c' ≠ o := by rintro c' o h1 h2 rfl; exact h1 h2.2
  cases p with
  | ret a => simp [Prog.step] at hs
  | fail => simp [Prog.step] at hs
  | getVisited o k =>
      simp only [Prog.step, Option.some.injEq, Prod.mk.injEq] at hs
      obtain ⟨rfl, rfl⟩ := hs
      refine ⟨?_, hm, fun _ _ _ => rfl⟩
      rcases h with ⟨rfl, h⟩ | ⟨h1, h2⟩
      · exact h
      · exact h2 _
  | getValue o k =>
      simp only [Prog.step, Option.some.injEq, Prod.mk.injEq] at hs
      obtain ⟨rfl, rfl⟩ := hs
      refine ⟨?_, hm, fun _ _ _ => rfl⟩
      rcases h with ⟨rfl, h⟩ | ⟨h1, h2⟩
      · exact h
      · rw [(hm o h1).1]; exact h2
  | getDValue o k =>
      simp only [Prog.step, Option.some.injEq, Prod.mk.injEq] at hs
      obtain ⟨rfl, rfl⟩ := hs
      refine ⟨?_, hm, fun _ _ _ => rfl⟩
      rcases h with ⟨rfl, h⟩ | ⟨h1, h2⟩
      · exact h
      · rw [(hm o h1).2]; exact h2
  | setVisited o b k =>
      simp only [Prog.step, Option.some.injEq, Prod.mk.injEq] at hs
      obtain ⟨rfl, rfl⟩ := hs
      rcases h with ⟨rfl, h⟩ | ⟨h1, h2⟩
      · refine ⟨by simpa [Mem.priv, Mem.setVisited] using h, hm, fun c' _ h' => ?_⟩
        simp [Mem.priv, Mem.setVisited, h']
      · refine ⟨by simpa [Mem.priv, Mem.setVisited, (hne o h1).symm] using h2, hm, fun c' h' _ => ?_⟩
        simp [Mem.priv, Mem.setVisited, hne' h' h1]
  | setValue o b k =>
      simp only [Prog.step, Option.some.injEq, Prod.mk.injEq] at hs
      obtain ⟨rfl, rfl⟩ := hs
      rcases h with ⟨rfl, h⟩ | ⟨h1, rfl, h2⟩
      · refine ⟨by simpa [Mem.priv, Mem.setValue] using h, fun q hq => ?_, fun c' _ h' => ?_⟩
        · simpa [Mem.setValue, hne q hq] using hm q hq
        · simp [Mem.priv, Mem.setValue, h']
      · refine ⟨by simpa [Mem.priv, Mem.setValue, (hne o h1).symm] using h2, fun q hq => ?_, fun c' h' _ => ?_⟩
        · by_cases hqo : q = o
          · subst hqo; simpa [Mem.setValue] using (hm q hq).2
          · simpa [Mem.setValue, hqo] using hm q hq
        · simp [Mem.priv, Mem.setValue, hne' h' h1]
  | setDValue o b k =>
      simp only [Prog.step, Option.some.injEq, Prod.mk.injEq] at hs
      obtain ⟨rfl, rfl⟩ := hs
      rcases h with ⟨rfl, h⟩ | ⟨h1, rfl, h2⟩
      · refine ⟨by simpa [Mem.priv, Mem.setDValue] using h, fun q hq => ?_, fun c' _ h' => ?_⟩
        · simpa [Mem.setDValue, hne q hq] using hm q hq
        · simp [Mem.priv, Mem.setDValue, h']
      · refine ⟨by simpa [Mem.priv, Mem.setDValue, (hne o h1).symm] using h2, fun q hq => ?_, fun c' h' _ => ?_⟩
        · by_cases hqo : q = o
          · subst hqo; simpa [Mem.setDValue] using (hm q hq).1
          · simpa [Mem.setDValue, hqo] using hm q hq
        · simp [Mem.priv, Mem.setDValue, hne' h' h1]
  | clearCache o k =>
      simp only [Prog.step, Option.some.injEq, Prod.mk.injEq] at hs
      obtain ⟨rfl, rfl⟩ := hs
      exact ⟨h.2, hm, fun _ _ _ => rfl⟩

/-- All tasks of the pool are in order; task `i` owns the object `cs[i]`. -/
structure PoolOk {α : Type} (D : Defs K) (cs : List ℕ) (Q : ℕ → α → Prop) (c : Pool K α) : Prop where
  len : c.tasks.length = cs.length
  mem : PlainMem D c.mem
  ok : ∀ (i : ℕ) (p : Prog K α) (o : ℕ), c.tasks[i]? = some p → cs[i]? = some o →
    p.Ok D o (fun a _ => Q i a) (c.mem.priv o)

theorem PoolOk.step {α : Type} {cs : List ℕ} (hn : cs.Nodup) (hi : ∀ c ∈ cs, D.items c ≠ []) {Q : ℕ → α → Prop}
    {a b : Pool K α} (h : PoolOk D cs Q a) (hs : Pool.Step a b) : PoolOk D cs Q b := by
  cases hs with
  | @task ts m m' i hl q hq =>
    have hl' : i < cs.length := by rw [← h.len]; exact hl
    obtain ⟨g1, g2, g3⟩ := Prog.Ok.step (hi _ (List.getElem_mem hl'))
      (h.ok i _ _ (List.getElem?_eq_getElem hl) (List.getElem?_eq_getElem hl')) h.mem hq
    refine ⟨by simpa using h.len, g2, fun j p o hj ho => ?_⟩
    by_cases hji : j = i
    · subst hji
      rw [List.getElem?_eq_getElem hl', Option.some.injEq] at ho
      have : p = q := by
        have := hj
        rw [List.getElem?_set_self hl, Option.some.injEq] at this
        exact this.symm
      subst ho this
      exact g1
    · have hj' : ts[j]? = some p := by
        have := hj
        rwa [List.getElem?_set_ne (Ne.symm hji)] at this
      have hne : o ≠ cs[i] := by
        intro he
        obtain ⟨hjl, rfl⟩ := List.getElem?_eq_some_iff.1 ho
        exact hji ((List.Nodup.getElem_inj_iff hn).1 he)
      have := h.ok j p o hj' ho
      show Prog.Ok D o _ p (m'.priv o)
      rw [g3 o (hi o (List.mem_of_getElem? ho)) hne]
      exact this

theorem PoolOk.steps {α : Type} {cs : List ℕ} (hn : cs.Nodup) (hi : ∀ c ∈ cs, D.items c ≠ []) {Q : ℕ → α → Prop}
    {a b : Pool K α} (h : PoolOk D cs Q a) (hs : Pool.Steps a b) : PoolOk D cs Q b := by
  induction hs with
  | refl => exact h
  | step s _ ih => exact ih (h.step hn hi s)

/-- A pool in order that cannot go on has finished, with the right results. -/
theorem PoolOk.done {α : Type} {cs : List ℕ} {Q : ℕ → α → Prop} {a : Pool K α} (h : PoolOk D cs Q a)
    (hs : ∀ b, ¬ Pool.Step a b) : ∃ rs, a.Done rs ∧ ∀ i r, rs[i]? = some r → Q i r := by
  obtain ⟨ts, m⟩ := a
  have key : ∀ i (hi : i < ts.length), ∃ r, ts[i] = ret r ∧ Q i r := by
    intro i hi
    have hi' : i < cs.length := by rw [← h.len]; exact hi
    have ho := h.ok i _ _ (List.getElem?_eq_getElem hi) (List.getElem?_eq_getElem hi')
    have hst : ts[i].step m = none := by
      cases he : ts[i].step m with
      | none => rfl
      | some r => exact absurd (Pool.Step.task i hi (p := r.1) (m' := r.2) he) (hs _)
    cases hp : ts[i] with
    | ret r => exact ⟨r, rfl, by simp only [hp] at ho; exact ho⟩
    | fail => simp only [hp] at ho; exact ho.elim
    | getVisited o k => rw [hp] at hst; simp [Prog.step] at hst
    | setVisited o b k => rw [hp] at hst; simp [Prog.step] at hst
    | getValue o k => rw [hp] at hst; simp [Prog.step] at hst
    | setValue o b k => rw [hp] at hst; simp [Prog.step] at hst
    | getDValue o k => rw [hp] at hst; simp [Prog.step] at hst
    | setDValue o b k => rw [hp] at hst; simp [Prog.step] at hst
    | clearCache o k => rw [hp] at hst; simp [Prog.step] at hst
  choose r hr hQ using key
  refine ⟨List.ofFn fun i : Fin ts.length => r i i.2, ?_, fun i x hx => ?_⟩
  · refine List.ext_getElem (by simp) fun i h1 h2 => ?_
    simp [hr i h1]
  · obtain ⟨hl, rfl⟩ := List.getElem?_eq_some_iff.1 hx
    simp only [List.length_ofFn] at hl
    simpa using hQ i hl

/-! ### The code of `DevalF` on a formula over Variables -/

variable {P}

theorem evalOT_plain {c o : ℕ} (ho : Plain D o) {f : ℕ} (hf : 0 < f) (s : Priv K) :
    (evalOT P D f o).Ok D c (fun v s' => v = D.base o ∧ s' = s) s := by
  obtain ⟨f, rfl⟩ : ∃ g, f = g + 1 := ⟨f - 1, by omega⟩
  simp only [evalOT, bind_eq, rdVisited, Prog.bind]
  refine Or.inr ⟨ho, fun b => ?_⟩
  cases b
  · simp only [if_true, ho.2, evalItemsT, wrValue, wrVisited, rdValue, bind_eq, pure_eq, Prog.bind]
    exact Or.inr ⟨ho, rfl, Or.inr ⟨ho, Or.inr ⟨ho, rfl, rfl⟩⟩⟩
  · simp only [Bool.true_eq_false, if_false, rdValue]
    exact Or.inr ⟨ho, rfl, rfl⟩

theorem evalNT_plain {c : ℕ} {f : ℕ} (hf : 0 < f) (t : Node K) :
    (∀ p ∈ t.leaves, Plain D p) → ∀ s, (evalNT P D (evalOT P D f) t).Ok D c
      (fun v s' => v = t.val P D.par D.base ∧ s' = s) s := by
  induction t with
  | leaf o => intro h s; exact evalOT_plain (h o (by simp [Node.leaves])) hf s
  | par p => intro h s; exact ⟨rfl, rfl⟩
  | op1 n g a ih =>
      intro h s
      refine (ih (fun p hp => h p (by simpa [Node.leaves] using hp)) s).seq D ?_
      rintro v s' ⟨rfl, rfl⟩
      exact ⟨Op1.val_eq_sem .., rfl⟩
  | op2 n g a b iha ihb =>
      intro h s
      have ha := iha (fun p hp => h p (by simp [Node.leaves, hp]))
      have hb := ihb (fun p hp => h p (by simp [Node.leaves, hp]))
      simp only [evalNT]
      split
      · refine (hb s).seq D ?_
        rintro v s' ⟨rfl, rfl⟩
        refine (ha s').seq D ?_
        rintro u s'' ⟨rfl, rfl⟩
        exact ⟨Op2.val_eq_sem .., rfl⟩
      · refine (ha s).seq D ?_
        rintro v s' ⟨rfl, rfl⟩
        refine (hb s').seq D ?_
        rintro u s'' ⟨rfl, rfl⟩
        exact ⟨Op2.val_eq_sem .., rfl⟩

theorem fwdEndT_plain {c o k : ℕ} (ho : Plain D o) (s : Priv K) :
    (fwdEndT D k o).Ok D c (fun v s' => v = (if D.nidx o = k then 1 else 0) ∧ s' = s) s := by
  unfold fwdEndT
  split
  · exact ⟨rfl, rfl⟩
  · exact Or.inr ⟨ho, rfl, rfl⟩

theorem fwdOT_plain {c o k : ℕ} (ho : Plain D o) {f : ℕ} (hf : 0 < f) (s : Priv K) :
    (fwdOT P D k f o).Ok D c (fun v s' => v = (if D.nidx o = k then 1 else 0) ∧ s' = s) s := by
  obtain ⟨f, rfl⟩ : ∃ g, f = g + 1 := ⟨f - 1, by omega⟩
  simp only [fwdOT, bind_eq, rdVisited, Prog.bind]
  refine Or.inr ⟨ho, fun b => ?_⟩
  cases b
  · simp only [if_true, ho.2, fwdItemsT, wrVisited, bind_eq, pure_eq, Prog.bind]
    exact Or.inr ⟨ho, fwdEndT_plain ho s⟩
  · simp only [Bool.true_eq_false, if_false]
    exact fwdEndT_plain ho s

theorem fwdNT_plain {c k : ℕ} {f : ℕ} (hf : 0 < f) (t : Node K) :
    (∀ p ∈ t.leaves, Plain D p) → ∀ s, (fwdNT P D (evalOT P D f) (fwdOT P D k f) t).Ok D c
      (fun v s' => v = t.der P D.par D.base (fun q => if D.nidx q = k then 1 else 0) ∧ s' = s) s := by
  induction t with
  | leaf o => intro h s; exact fwdOT_plain (h o (by simp [Node.leaves])) hf s
  | par p => intro h s; exact ⟨rfl, rfl⟩
  | op1 n g a ih =>
      intro h s
      have ha : ∀ p ∈ a.leaves, Plain D p := fun p hp => h p (by simpa [Node.leaves] using hp)
      refine (ih ha s).seq D ?_
      rintro v s' ⟨rfl, rfl⟩
      cases hu : g.usesVal
      · simp only [Bool.false_eq_true, if_false]
        exact ⟨Op1.fwd_unused P g hu .., rfl⟩
      · simp only [if_true]
        refine (evalNT_plain hf a ha s').seq D ?_
        rintro v s'' ⟨rfl, rfl⟩
        exact ⟨Op1.fwd_eq .., rfl⟩
  | op2 n g a b iha ihb =>
      intro h s
      have ha : ∀ p ∈ a.leaves, Plain D p := fun p hp => h p (by simp [Node.leaves, hp])
      have hb : ∀ p ∈ b.leaves, Plain D p := fun p hp => h p (by simp [Node.leaves, hp])
      refine (iha ha s).seq D ?_
      rintro du s' ⟨rfl, rfl⟩
      refine (ihb hb s').seq D ?_
      rintro dv s'' ⟨rfl, rfl⟩
      cases hu : g.usesVal
      · simp only [Bool.false_eq_true, if_false]
        exact ⟨Op2.fwd_unused P g hu .., rfl⟩
      · simp only [if_true]
        split
        · refine (evalNT_plain hf b hb s'').seq D ?_
          rintro v s1 ⟨rfl, rfl⟩
          refine (evalNT_plain hf a ha s1).seq D ?_
          rintro u s2 ⟨rfl, rfl⟩
          exact ⟨Op2.fwd_eq .., rfl⟩
        · refine (evalNT_plain hf a ha s'').seq D ?_
          rintro v s1 ⟨rfl, rfl⟩
          refine (evalNT_plain hf b hb s1).seq D ?_
          rintro u s2 ⟨rfl, rfl⟩
          exact ⟨Op2.fwd_eq .., rfl⟩

theorem clearObjT_plain {c o : ℕ} (ho : Plain D o) (s : Priv K) :
    (clearObjT D o).Ok D c (fun _ s' => s' = s) s :=
  Or.inr ⟨ho, Or.inr ⟨ho, rfl, Or.inr ⟨ho, rfl, Or.inr ho, rfl⟩⟩⟩

theorem resetOT_plain {c o : ℕ} (ho : Plain D o) {f : ℕ} (hf : 0 < f) (s : Priv K) :
    (resetOT D f o).Ok D c (fun _ s' => s' = s) s := by
  obtain ⟨f, rfl⟩ : ∃ g, f = g + 1 := ⟨f - 1, by omega⟩
  simp only [resetOT, bind_eq, rdVisited, Prog.bind]
  refine Or.inr ⟨ho, fun b => ?_⟩
  cases b
  · simp only [Bool.false_eq_true, if_false]; exact clearObjT_plain ho s
  · simp only [if_true, ho.2, resetItemsT, wrVisited, bind_eq, pure_eq, Prog.bind]
    exact Or.inr ⟨ho, clearObjT_plain ho s⟩

theorem resetNT_plain {c : ℕ} {f : ℕ} (hf : 0 < f) (t : Node K) :
    (∀ p ∈ t.leaves, Plain D p) → ∀ s, (resetNT (resetOT D f) t).Ok D c (fun _ s' => s' = s) s := by
  induction t with
  | leaf o => intro h s; exact resetOT_plain (h o (by simp [Node.leaves])) hf s
  | par p => intro h s; exact rfl
  | op1 n g a ih => intro h s; exact ih (fun p hp => h p (by simpa [Node.leaves] using hp)) s
  | op2 n g a b iha ihb =>
      intro h s
      refine (iha (fun p hp => h p (by simp [Node.leaves, hp])) s).seq D ?_
      rintro - s' rfl
      exact ihb (fun p hp => h p (by simp [Node.leaves, hp])) s'

/-- The whole task, for a copy `c` defined by one formula over Variables. -/
theorem devalFT_plain {c x : ℕ} {t : Node K} (hi : D.items c = [t]) (ht : ∀ p ∈ t.leaves, Plain D p)
    (hx : D.nidx c ≠ D.nidx x) (s : Priv K) :
    (devalFT P D c x).Ok D c
      (fun v _ => v = t.der P D.par D.base fun q => if D.nidx q = D.nidx x then 1 else 0) s := by
  have hfuel : 0 < D.fuel := by unfold Defs.fuel; omega
  have hfuel' : 0 < D.size + 1 := by omega
  unfold devalFT
  refine Prog.Ok.seq D (Q := fun _ s => s.vis = false) ?_ fun _ s1 h1 => ?_
  · simp only [resetImplT, bind_eq, wrVisited, Prog.bind, hi, resetItemsT, pure_eq]
    refine Or.inl ⟨rfl, ?_⟩
    refine Prog.Ok.seq D (Q := fun _ _ => True) ?_ fun _ s2 _ => Or.inl ⟨rfl, rfl⟩
    exact (resetNT_plain hfuel t ht _).seq D fun _ _ _ => trivial
  · show (fwdOT P D (D.nidx x) (D.size + 1 + 1) c).Ok D c _ s1
    simp only [fwdOT, bind_eq, rdVisited, Prog.bind]
    refine Or.inl ⟨rfl, ?_⟩
    simp only [h1, if_true, hi, fwdItemsT, wrVisited, bind_eq, pure_eq, Prog.bind]
    refine Or.inl ⟨rfl, ?_⟩
    refine Prog.Ok.seq D (Q := fun _ s => s.dval = t.der P D.par D.base fun q => if D.nidx q = D.nidx x then 1 else 0)
      ?_ fun _ s2 h2 => ?_
    · refine (fwdNT_plain hfuel' t ht _).seq D ?_
      rintro d s2 ⟨rfl, rfl⟩
      simp only [wrDValue, wrValue, Prog.bind]
      refine Or.inl ⟨rfl, ?_⟩
      refine (evalNT_plain hfuel' t ht _).seq D ?_
      rintro v s3 ⟨rfl, rfl⟩
      exact Or.inl ⟨rfl, rfl⟩
    · simp only [fwdEndT, hx, if_false, rdDValue]
      exact Or.inl ⟨rfl, h2⟩

end

end CoolDiff
