import Verif.Scalar.Gradients

/-!
# Threads (model): the parallel loop of `DevalF(exp, X)`

With `ENABLE_STL_PARALLEL_EXECUTION` (CMakeLists.txt:93, 410-412) `EXECUTION_PAR` is
`std::execution::par` (CommonHeader.hpp:50-57) and the `std::transform` of
CommonMatFunctions.hpp:137-138 and 154-156 runs one task `DevalF(exp_coll[i], X[i])` per element, on
objects that the tasks share.

A task is the code of `DevalFExp` (src/Scalar/CommonFunctions.cpp:40-45) as a sequence of single reads and
writes of the fields that queries change (`m_visited`, `m_value`, `m_dvalue`, `m_cache`).  A run of the pool
picks, at each step, any unfinished task and does its next read or write: sequentially consistent memory.
(The C++ standard gives no meaning to the races; this is the most favourable one.)  Forward mode never reads
`m_cache`, so only its clearing is modelled.
-/

set_option linter.unusedSectionVars false

namespace CoolDiff

/-- The rest of a task: finished with a result, stopped, or the next access to shared memory and what
follows. -/
inductive Prog (K α : Type) : Type
  | ret (a : α)
  | fail
  | getVisited (o : ℕ) (k : Bool → Prog K α)
  | setVisited (o : ℕ) (b : Bool) (k : Prog K α)
  | getValue (o : ℕ) (k : K → Prog K α)
  | setValue (o : ℕ) (v : K) (k : Prog K α)
  | getDValue (o : ℕ) (k : K → Prog K α)
  | setDValue (o : ℕ) (v : K) (k : Prog K α)
  | clearCache (o : ℕ) (k : Prog K α)

namespace Prog

variable {K : Type} {α β : Type}

/-- Sequencing. -/
def bind : Prog K α → (α → Prog K β) → Prog K β
  | ret a, f => f a
  | fail, _ => fail
  | getVisited o k, f => getVisited o fun b => (k b).bind f
  | setVisited o b k, f => setVisited o b (k.bind f)
  | getValue o k, f => getValue o fun v => (k v).bind f
  | setValue o v k, f => setValue o v (k.bind f)
  | getDValue o k, f => getDValue o fun v => (k v).bind f
  | setDValue o v k, f => setDValue o v (k.bind f)
  | clearCache o k, f => clearCache o (k.bind f)

instance : Monad (Prog K) where
  pure := ret
  bind := bind

/-- One step of a task: the next access, done on the memory. -/
def step [Zero K] : Prog K α → Mem K → Option (Prog K α × Mem K)
  | ret _, _ => none
  | fail, _ => none
  | getVisited o k, m => some (k (m.visited o), m)
  | setVisited o b k, m => some (k, m.setVisited o b)
  | getValue o k, m => some (k (m.value o), m)
  | setValue o v k, m => some (k, m.setValue o v)
  | getDValue o k, m => some (k (m.dvalue o), m)
  | setDValue o v k, m => some (k, m.setDValue o v)
  | clearCache o k, m => some (k, m.setCache o fun _ => 0)

/-- Running a task alone. -/
def run [Zero K] : Prog K α → Mem K → Option (α × Mem K)
  | ret a, m => some (a, m)
  | fail, _ => none
  | getVisited o k, m => (k (m.visited o)).run m
  | setVisited o b k, m => k.run (m.setVisited o b)
  | getValue o k, m => (k (m.value o)).run m
  | setValue o v k, m => k.run (m.setValue o v)
  | getDValue o k, m => (k (m.dvalue o)).run m
  | setDValue o v k, m => k.run (m.setDValue o v)
  | clearCache o k, m => k.run (m.setCache o fun _ => 0)

/-- reading `m_visited` -/
def rdVisited (o : ℕ) : Prog K Bool := getVisited o ret
/-- writing `m_visited` -/
def wrVisited (o : ℕ) (b : Bool) : Prog K Unit := setVisited o b (ret ())
/-- `Variable::getValue` (Variable.cpp:106-108) -/
def rdValue (o : ℕ) : Prog K K := getValue o ret
/-- `Variable::setValue` (Variable.cpp:102-104) -/
def wrValue (o : ℕ) (v : K) : Prog K Unit := setValue o v (ret ())
/-- `Variable::getdValue` (Variable.cpp:114-116) -/
def rdDValue (o : ℕ) : Prog K K := getDValue o ret
/-- `Variable::setdValue` (Variable.cpp:110-112) -/
def wrDValue (o : ℕ) (v : K) : Prog K Unit := setDValue o v (ret ())
/-- `m_cache.clear()` (Variable.cpp:269-272) -/
def wrCache (o : ℕ) : Prog K Unit := clearCache o (ret ())

end Prog

open Prog

section
variable {K : Type} [Field K] [DecidableEq K] (P : Prim K) (D : Defs K)

/-- `eval()` of a tree (operator bodies cited at `Op1.val`, `Op2.val`, `Op2.rightFirst`). -/
def evalNT (rec : ℕ → Prog K K) : Node K → Prog K K
  | .leaf o => rec o
  | .par p => pure (D.par p)
  | .op1 _ f a => do
      let u ← evalNT rec a
      pure (f.val P u)
  | .op2 _ f a b =>
      if f.rightFirst then do
        let v ← evalNT rec b
        let u ← evalNT rec a
        pure (f.val P u v)
      else do
        let u ← evalNT rec a
        let v ← evalNT rec b
        pure (f.val P u v)

/-- The loop of `Variable::eval` (Variable.cpp:138-143). -/
def evalItemsT (rec : ℕ → Prog K K) (o : ℕ) : List (Node K) → Prog K Unit
  | [] => pure ()
  | i :: is => do
      let v ← evalNT P D rec i
      wrValue o v
      evalItemsT rec o is

/-- `Variable::eval()` (Variable.cpp:130-151). -/
def evalOT : ℕ → ℕ → Prog K K
  | 0, _ => fail
  | fuel + 1, o => do
      let b ← rdVisited o
      if b = false then do
        wrValue o (D.base o)
        wrVisited o true
        evalItemsT P D (evalOT fuel) o (D.items o)
        rdValue o
      else rdValue o

/-- `devalF(var)` of a tree (operator bodies cited at `Op1.fwd`, `Op2.fwd`). -/
def fwdNT (recE recD : ℕ → Prog K K) : Node K → Prog K K
  | .leaf o => recD o
  | .par _ => pure 0
  | .op1 _ f a => do
      let du ← fwdNT recE recD a
      if f.usesVal then do
        let u ← evalNT P D recE a
        pure (f.fwd P u du)
      else pure (f.fwd P 0 du)
  | .op2 _ f a b => do
      let du ← fwdNT recE recD a
      let dv ← fwdNT recE recD b
      if f.usesVal then
        if f.rightFirstD then do
          let v ← evalNT P D recE b
          let u ← evalNT P D recE a
          pure (f.fwd P u v du dv)
        else do
          let u ← evalNT P D recE a
          let v ← evalNT P D recE b
          pure (f.fwd P u v du dv)
      else pure (f.fwd P 0 0 du dv)

/-- The loop of `Variable::devalF` (Variable.cpp:160-166). -/
def fwdItemsT (recE recD : ℕ → Prog K K) (o : ℕ) : List (Node K) → Prog K Unit
  | [] => pure ()
  | i :: is => do
      let d ← fwdNT P D recE recD i
      wrDValue o d
      let v ← evalNT P D recE i
      wrValue o v
      fwdItemsT recE recD o is

/-- The end of `Variable::devalF` (Variable.cpp:170-175). -/
def fwdEndT (k o : ℕ) : Prog K K := if D.nidx o = k then pure 1 else rdDValue o

/-- `Variable::devalF(var)` (Variable.cpp:154-176). -/
def fwdOT (k : ℕ) : ℕ → ℕ → Prog K K
  | 0, _ => fail
  | fuel + 1, o => do
      let b ← rdVisited o
      if b = false then do
        wrVisited o true
        fwdItemsT P D (evalOT P D fuel) (fwdOT k fuel) o (D.items o)
        fwdEndT D k o
      else fwdEndT D k o

/-- `reset()` of a tree (IVariable.hpp:60-97). -/
def resetNT (rec : ℕ → Prog K Unit) : Node K → Prog K Unit
  | .leaf o => rec o
  | .par _ => pure ()
  | .op1 _ _ a => resetNT rec a
  | .op2 _ _ a b => do
      resetNT rec a
      resetNT rec b

/-- The loops of `reset`/`resetImpl` (Variable.cpp:121-125, 255-260). -/
def resetItemsT (rec : ℕ → Prog K Unit) : List (Node K) → Prog K Unit
  | [] => pure ()
  | i :: is => do
      resetNT rec i
      resetItemsT rec is

/-- The tail of `Variable::reset` (Variable.cpp:263-275). -/
def clearObjT (o : ℕ) : Prog K Unit := do
  wrVisited o false
  wrValue o (D.base o)
  wrDValue o 0
  wrCache o

/-- `Variable::reset()` (Variable.cpp:251-276). -/
def resetOT : ℕ → ℕ → Prog K Unit
  | 0, _ => fail
  | fuel + 1, o => do
      let b ← rdVisited o
      if b = true then do
        wrVisited o false
        resetItemsT (resetOT fuel) (D.items o)
        clearObjT D o
      else clearObjT D o

/-- `Variable::resetImpl()` (Variable.cpp:118-127). -/
def resetImplT (fuel o : ℕ) : Prog K Unit := do
  wrVisited o true
  resetItemsT (resetOT D fuel) (D.items o)
  wrVisited o false

/-- The task `DevalF(y, x)` (CommonFunctions.cpp:40-45). -/
def devalFT (y x : ℕ) : Prog K K := do
  resetImplT D D.fuel y
  fwdOT P D (D.nidx x) D.fuel y

/-! ## The pool -/

/-- A pool of tasks and the shared memory. -/
structure Pool (K α : Type) where
  tasks : List (Prog K α)
  mem : Mem K

/-- One step of the pool: some task does its next access. -/
inductive Pool.Step {α : Type} : Pool K α → Pool K α → Prop
  | task {ts : List (Prog K α)} {m m' : Mem K} (i : ℕ) (hi : i < ts.length) {p : Prog K α} :
      ts[i].step m = some (p, m') → Pool.Step ⟨ts, m⟩ ⟨ts.set i p, m'⟩

/-- The runs of the pool: any number of steps, in any order of the tasks. -/
inductive Pool.Steps {α : Type} : Pool K α → Pool K α → Prop
  | refl (c : Pool K α) : Pool.Steps c c
  | step {c c' c'' : Pool K α} : Pool.Step c c' → Pool.Steps c' c'' → Pool.Steps c c''

/-- All tasks have finished, with these results. -/
def Pool.Done {α : Type} (c : Pool K α) (rs : List α) : Prop := c.tasks = rs.map ret

/-- The tasks of `std::transform(EXECUTION_PAR exp_coll.begin(), exp_coll.end(), X, result, DevalF)`
(CommonMatFunctions.hpp:137-138, 154-156): task `i` differentiates the copy `cs[i]` with respect to
`xs[i]`. -/
def gradTasks (cs xs : List ℕ) : List (Prog K K) := (cs.zip xs).map fun p => devalFT P D p.1 p.2

/-- `Vector<Expression> exp_coll(n)` (CommonMatFunctions.hpp:132, 150): `n` default-constructed Expressions. -/
def newCopies : ℕ → St K → List ℕ × St K
  | 0, σ => ([], σ)
  | n + 1, σ => ((newExpr σ).1 :: (newCopies n (newExpr σ).2).1, (newCopies n (newExpr σ).2).2)

/-- `std::fill(exp_coll.begin(), exp_coll.end(), exp)` (CommonMatFunctions.hpp:134, 151): every copy is assigned
`exp`.  (Each assignment changes its own copy only; the order does not matter.) -/
def fillCopies (assign : ℕ → St K → St K) : List ℕ → St K → St K
  | [], σ => σ
  | c :: cs, σ => fillCopies assign cs (assign c σ)

/-- The heap when the parallel `std::transform` starts. -/
def gradHeap (assign : ℕ → St K → St K) (xs : List ℕ) (σ : St K) : St K :=
  fillCopies assign (newCopies xs.length σ).1 (newCopies xs.length σ).2

/-- The pool of `DevalF(exp, X)` in a parallel build (CommonMatFunctions.hpp:130-139 when `assign` is the
assignment of the Expression `exp`, and lines 148-157 when `exp` is an expression template). -/
def gradPool (assign : ℕ → St K → St K) (xs : List ℕ) (σ : St K) : Pool K K :=
  ⟨gradTasks P (gradHeap assign xs σ).defs (newCopies xs.length σ).1 xs, (gradHeap assign xs σ).mem⟩

end

end CoolDiff
