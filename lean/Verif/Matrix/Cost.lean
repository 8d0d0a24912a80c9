import Verif.Matrix.Rev
import Verif.Scalar.CostProof

/-!
# The matrix queries with a counter (executable model)

The functions of `Verif/Matrix/Expr.lean` and `Verif/Matrix/Rev.lean` once more, with a number in the result: how many
times `eval()`, `devalF()`, `traverse()` or `reset()` was called on a named matrix or on an operator node.  `eraseC`
forgets the number, and what remains is the model (`MatEvalC_erase`, `MatDevalFC_erase`, `MatPreCompC_erase`).
Not counted: the work of the kernels, of the loops over the entries of a cache, and of the scalar queries on the elements.
-/

set_option linter.unusedSectionVars false

namespace CoolDiff

variable {K : Type} [Field K] [DecidableEq K]

/-- `evalE` with a counter (the bodies cited there). -/
def evalEC (c : MCtx K) (ev : ℕ → MSt K → Option (ℕ × MSt K × Mat K)) :
    MNode K → MSt K → Option (ℕ × MSt K × Mat K)
  | .obj o, s => ev o s
  | .bin n op x y, s =>
    if op.dimOk (x.dims c.E) (y.dims c.E) then
      (evalEC c ev x s).bind fun l => (evalEC c ev y l.2.1).bind fun r =>
      (op.eval c l.2.2 r.2.2 (r.2.1.slot n)).bind fun a => some (l.1 + r.1 + 1, r.2.1.setN n a.1, a.2)
    else none
  | .un n op x, s =>
    if op.dimOk (x.dims c.E) then
      (evalEC c ev x s).bind fun r =>
      (op.eval c r.2.2 (r.2.1.slot n)).bind fun a => some (r.1 + 1, r.2.1.setN n a.1, a.2)
    else none

/-- `Matrix<T>::eval()` with a counter (MatrixVirtuals.ipp:27-61). -/
def mevalOC (c : MCtx K) : ℕ → ℕ → MSt K → Option (ℕ × MSt K × Mat K)
  | 0, _, _ => none
  | f + 1, o, s =>
    match c.E.kind o with
    | .form n e eye =>
      let s := s.setO o { s.obj o with evald := true }
      if (s.obj o).visited then (s.obj o).result.map fun m => (1, s, m)
      else
        (evalEC c (mevalOC c f) (MEnv.item n e eye) (s.setO o { s.obj o with visited := true })).bind fun r =>
          some (r.1 + 1, r.2.1.setO o { r.2.1.obj o with result := some r.2.2, evald := true }, r.2.2)
    | _ =>
      (leafEval c o (s.obj o)).bind fun r =>
        some (1, s.setO o { s.obj o with result := some r, evald := true, visited := true }, r)

/-- `fwdE` with a counter (the bodies cited there). -/
def fwdEC (c : MCtx K) (X : ℕ) (ev fw : ℕ → MSt K → Option (ℕ × MSt K × Mat K)) :
    MNode K → MSt K → Option (ℕ × MSt K × Mat K)
  | .obj o, s => fw o s
  | .bin n op x y, s =>
    if op.dimOk (x.dims c.E) (y.dims c.E) then
      (fwdEC c X ev fw x s).bind fun dl => (fwdEC c X ev fw y dl.2.1).bind fun dr =>
      if op.evalsOperands then
        (evalEC c ev x dr.2.1).bind fun l => (evalEC c ev y l.2.1).bind fun r =>
        (op.fwd c (c.E.rows X) (c.E.cols X) l.2.2 r.2.2 dl.2.2 dr.2.2 (r.2.1.slot n)).bind fun a =>
          some (dl.1 + dr.1 + (l.1 + r.1) + 1, r.2.1.setN n a.1, a.2)
      else
        (op.fwd c (c.E.rows X) (c.E.cols X) dl.2.2 dr.2.2 dl.2.2 dr.2.2 (dr.2.1.slot n)).bind fun a =>
          some (dl.1 + dr.1 + 1, dr.2.1.setN n a.1, a.2)
    else none
  | .un n op x, s =>
    if op.dimOk (x.dims c.E) then
      (fwdEC c X ev fw x s).bind fun d =>
      if op.evalsOperand then
        (evalEC c ev x d.2.1).bind fun r =>
        (op.fwd c X (x.dims c.E).1 (x.dims c.E).2 r.2.2 d.2.2 (r.2.1.slot n)).bind fun a =>
          some (d.1 + r.1 + 1, r.2.1.setN n a.1, a.2)
      else
        (op.fwd c X (x.dims c.E).1 (x.dims c.E).2 d.2.2 d.2.2 (d.2.1.slot n)).bind fun a =>
          some (d.1 + 1, d.2.1.setN n a.1, a.2)
    else none

/-- `Matrix<T>::devalF(X)` with a counter (MatrixVirtuals.ipp:64-100). -/
def mfwdOC (c : MCtx K) (X : ℕ) : ℕ → ℕ → MSt K → Option (ℕ × MSt K × Mat K)
  | 0, _, _ => none
  | f + 1, o, s =>
    match c.E.kind o with
    | .form n e eye =>
      let s := s.setO o { s.obj o with devald := true }
      if (s.obj o).visited then (s.obj o).dresult.map fun m => (1, s, m)
      else
        (fwdEC c X (mevalOC c f) (mfwdOC c X f) (MEnv.item n e eye)
          (s.setO o { s.obj o with visited := true })).bind fun d =>
        (evalEC c (mevalOC c f) (MEnv.item n e eye)
          (d.2.1.setO o { d.2.1.obj o with dresult := some d.2.2, devald := true })).bind fun r =>
        some (d.1 + r.1 + 1, r.2.1.setO o { r.2.1.obj o with result := some r.2.2, evald := true }, d.2.2)
    | _ =>
      (leafFwd c X o (s.obj o)).bind fun r =>
        some (1, s.setO o { s.obj o with dresult := some r, devald := true, visited := true }, r)

/-- `reset()` of an expression with a counter (IMatrix.hpp:70-82). -/
def mresetEC (rs : ℕ → MSt K → Option (ℕ × MSt K)) : MNode K → MSt K → Option (ℕ × MSt K)
  | .obj o, s => rs o s
  | .bin _ _ x y, s => (mresetEC rs x s).bind fun a => (mresetEC rs y a.2).bind fun b => some (a.1 + b.1 + 1, b.2)
  | .un _ _ x, s => (mresetEC rs x s).bind fun a => some (a.1 + 1, a.2)

/-- `mresetItem` with a counter. -/
def mresetItemC (E : MEnv K) (rs : ℕ → MSt K → Option (ℕ × MSt K)) (o : ℕ) (s : MSt K) : Option (ℕ × MSt K) :=
  match E.kind o with
  | .form n e eye => mresetEC rs (MEnv.item n e eye) s
  | _ => some (0, s)

/-- `Matrix<T>::reset()` with a counter (MatrixVirtuals.ipp:132-155). -/
def mresetOC (E : MEnv K) : ℕ → ℕ → MSt K → Option (ℕ × MSt K)
  | 0, _, _ => none
  | f + 1, o, s =>
    (if (s.obj o).visited then mresetItemC E (mresetOC E f) o
        (s.setO o { s.obj o with visited := false, evald := false, devald := false })
      else some (0, s)).bind fun r =>
    some (r.1 + 1, r.2.setO o { r.2.obj o with visited := false, cache := [] })

/-- `Matrix<T>::resetImpl()` with a counter (MatrixUtils.ipp:192-215). -/
def mresetImplC (E : MEnv K) (f o : ℕ) (s : MSt K) : Option (ℕ × MSt K) :=
  (mresetItemC E (mresetOC E f) o
    (s.setO o { s.obj o with visited := true, evald := false, devald := false, cache := [] })).bind fun r =>
  some (r.1 + 1, r.2.setO o { r.2.obj o with visited := false })

/-- `revVals2` with a counter. -/
def revVals2C (c : MCtx K) (ev : ℕ → MSt K → Option (ℕ × MSt K × Mat K)) (op : MBin) (x y : MNode K)
    (C : Mat K) (s : MSt K) : Option (ℕ × MSt K × Mat K × Mat K) :=
  if op.evalsOperands then
    (evalEC c ev x s).bind fun l => (evalEC c ev y l.2.1).bind fun r => some (l.1 + r.1, r.2.1, l.2.2, r.2.2)
  else some (0, s, C, C)

/-- `revVals1` with a counter. -/
def revVals1C (c : MCtx K) (ev : ℕ → MSt K → Option (ℕ × MSt K × Mat K)) (op : MUn K) (x : MNode K)
    (C : Mat K) (s : MSt K) : Option (ℕ × MSt K × Mat K) :=
  if op.revEvals then evalEC c ev x s else some (0, s, C)

/-- `unlessSeen` with a counter: no call is made if the flag is set. -/
def unlessSeenC (a : MNode K) (κ : MCache K) (s : MSt K) (r : Option (ℕ × MCache K × MSt K)) :
    Option (ℕ × MCache K × MSt K) :=
  if visitedOf s a then some (0, κ, s) else r

/-- `traverse(cache)` with a counter (`travE`; e.g. GenericMatProduct.hpp:243-331). -/
def travEC (c : MCtx K) (ev : ℕ → MSt K → Option (ℕ × MSt K × Mat K))
    (tr : ℕ → MSt K → Option (ℕ × MSt K)) : MNode K → MCache K → MSt K → Option (ℕ × MCache K × MSt K)
  | .obj o, κ, s => (tr o s).bind fun r => some (r.1, κ, r.2)
  | .bin n op x y, κ, s =>
    (match κ.find (.node n) with
      | none => some (0, κ, s)
      | some C =>
        (unlessSeenC x κ s (travEC c ev tr x κ s)).bind fun p =>
        (unlessSeenC y p.2.1 p.2.2 (travEC c ev tr y p.2.1 p.2.2)).bind fun q =>
        (revVals2C c ev op x y C q.2.2).bind fun v =>
        (op.rev c v.2.2.1 v.2.2.2 C (v.2.1.slot n)).bind fun a =>
        (push2 c x y a.2.1 a.2.2 q.2.1 (v.2.1.setN n a.1)).bind fun κ =>
        some (p.1 + q.1 + v.1, κ, v.2.1.setN n a.1)).bind fun p =>
    (unlessSeenC x p.2.1 p.2.2 (travEC c ev tr x p.2.1 p.2.2)).bind fun q =>
    (unlessSeenC y q.2.1 q.2.2 (travEC c ev tr y q.2.1 q.2.2)).bind fun r =>
    some (p.1 + q.1 + r.1 + 1, r.2)
  | .un n op x, κ, s =>
    (match κ.find (.node n) with
      | none => some (0, κ, s)
      | some C =>
        (unlessSeenC x κ s (travEC c ev tr x κ s)).bind fun p =>
        (revVals1C c ev op x C p.2.2).bind fun v =>
        (op.rev c v.2.2 C (v.2.1.slot n)).bind fun a =>
        (push1 c x a.2 p.2.1 (v.2.1.setN n a.1)).bind fun κ =>
        some (p.1 + v.1, κ, v.2.1.setN n a.1)).bind fun p =>
    (unlessSeenC x p.2.1 p.2.2 (travEC c ev tr x p.2.1 p.2.2)).bind fun q =>
    some (p.1 + q.1 + 1, q.2)

/-- `traverse()` of the product node of a formula with a counter (GenericMatProduct.hpp:164-242, 323-331). -/
def travRootC (c : MCtx K) (ev : ℕ → MSt K → Option (ℕ × MSt K × Mat K))
    (tr : ℕ → MSt K → Option (ℕ × MSt K)) (n : ℕ) (x y : MNode K) (s : MSt K) :
    Option (ℕ × MCache K × MSt K) :=
  (unlessSeenC x [] s (travEC c ev tr x [] s)).bind fun p =>
  (unlessSeenC y p.2.1 p.2.2 (travEC c ev tr y p.2.1 p.2.2)).bind fun q =>
  (evalEC c ev x q.2.2).bind fun l =>
  (evalEC c ev y l.2.1).bind fun r =>
  (kern 7 (c.B.transpose l.2.2) (r.2.1.slot n)).bind fun a7 =>
  (kern 6 (c.B.transpose r.2.2) a7.1).bind fun a6 =>
  (push2 c x y a6.2 a7.2 q.2.1 (r.2.1.setN n a6.1)).bind fun κ =>
  (unlessSeenC x κ (r.2.1.setN n a6.1) (travEC c ev tr x κ (r.2.1.setN n a6.1))).bind fun t =>
  (unlessSeenC y t.2.1 t.2.2 (travEC c ev tr y t.2.1 t.2.2)).bind fun u =>
  some (p.1 + q.1 + (l.1 + r.1) + t.1 + u.1 + 1, u.2)

/-- `Matrix<T>::traverse` with a counter (MatrixVirtuals.ipp:104-124). -/
def mtravOC (c : MCtx K) : ℕ → ℕ → MSt K → Option (ℕ × MSt K)
  | 0, _, _ => none
  | f + 1, o, s =>
    if (s.obj o).visited then some (1, s)
    else
      match c.E.kind o with
      | .form n e eye =>
        (travRootC c (mevalOC c f) (mtravOC c f) n e (.obj eye) (s.setO o { s.obj o with visited := true })).bind fun t =>
        (evalEC c (mevalOC c f) (MEnv.item n e eye) t.2.2).bind fun r =>
        some (t.1 + r.1 + 1, r.2.1.setO o { r.2.1.obj o with result := some r.2.2, evald := true, cache := t.2.1 })
      | _ => some (1, s.setO o { s.obj o with visited := true })

/-- The reset before `PreComp` with a counter (CommonMatFunctions.hpp:79-90). -/
def precompResetC (E : MEnv K) (f o : ℕ) (s : MSt K) : Option (ℕ × MSt K) :=
  match E.kind o with
  | .form _ _ _ => mresetImplC E f o s
  | .exp => mresetImplC E f o s
  | _ => mresetOC E f o s

/-- `TensorR2::Eval(e)` with a counter (CommonMatFunctions.hpp:45-58). -/
def matEvalC (c : MCtx K) (f : ℕ) (e : MNode K) (s : MSt K) : Option (ℕ × MSt K × Mat K) :=
  (mresetEC (mresetOC c.E f) e s).bind fun r => (evalEC c (mevalOC c f) e r.2).bind fun v => some (r.1 + v.1, v.2)

/-- `TensorR2::DevalF(e, X)` with a counter (CommonMatFunctions.hpp:61-74). -/
def matDevalFC (c : MCtx K) (f X : ℕ) (e : MNode K) (s : MSt K) : Option (ℕ × MSt K × Mat K) :=
  (mresetEC (mresetOC c.E f) e s).bind fun r =>
  (fwdEC c X (mevalOC c f) (mfwdOC c X f) e r.2).bind fun v => some (r.1 + v.1, v.2)

/-- `TensorR2::PreComp(Mexp)` with a counter (CommonMatFunctions.hpp:77-91). -/
def matPreCompC (c : MCtx K) (f o : ℕ) (s : MSt K) : Option (ℕ × MSt K) :=
  (precompResetC c.E f o s).bind fun r => (mtravOC c f o r.2).bind fun t => some (r.1 + t.1, t.2)

/-! ## Forgetting the counter gives the model -/

theorem evalEC_erase (c : MCtx K) (ev : ℕ → MSt K → Option (ℕ × MSt K × Mat K)) (e : MNode K) : ∀ s,
    eraseC (evalEC c ev e s) = evalE c (fun o s => eraseC (ev o s)) e s := by
  induction e with
  | obj o => intro s; rfl
  | bin n op x y ihx ihy =>
      intro s
      simp only [evalEC, evalE, ← ihx, ← ihy]
      split
      · refine eraseC_bind _ _ _ fun l => ?_
        refine eraseC_bind _ _ _ fun r => ?_
        cases op.eval c l.2.2 r.2.2 (r.2.1.slot n) <;> rfl
      · rfl
  | un n op x ihx =>
      intro s
      simp only [evalEC, evalE, ← ihx]
      split
      · refine eraseC_bind _ _ _ fun r => ?_
        cases op.eval c r.2.2 (r.2.1.slot n) <;> rfl
      · rfl

theorem mevalOC_erase (c : MCtx K) (f : ℕ) : ∀ o s, eraseC (mevalOC c f o s) = mevalO c f o s := by
  induction f with
  | zero => intro o s; rfl
  | succ f ih =>
      intro o s
      have h := fun e s => evalEC_erase c (mevalOC c f) e s
      simp only [ih] at h
      cases hk : c.E.kind o with
      | form n e eye =>
          simp only [mevalOC, mevalO, hk]
          split
          · simp only [eraseC, Option.map_map]; rfl
          · rw [← h]
            exact eraseC_bind _ _ _ fun r => rfl
      | _ =>
          simp only [mevalOC, mevalO, hk]
          cases leafEval c o (s.obj o) <;> rfl

theorem fwdEC_erase (c : MCtx K) (X : ℕ) (ev fw : ℕ → MSt K → Option (ℕ × MSt K × Mat K)) (e : MNode K) : ∀ s,
    eraseC (fwdEC c X ev fw e s) = fwdE c X (fun o s => eraseC (ev o s)) (fun o s => eraseC (fw o s)) e s := by
  induction e with
  | obj o => intro s; rfl
  | bin n op x y ihx ihy =>
      intro s
      simp only [fwdEC, fwdE, ← ihx, ← ihy, ← evalEC_erase]
      split
      · refine eraseC_bind _ _ _ fun dl => ?_
        refine eraseC_bind _ _ _ fun dr => ?_
        split
        · refine eraseC_bind _ _ _ fun l => ?_
          refine eraseC_bind _ _ _ fun r => ?_
          cases op.fwd c (c.E.rows X) (c.E.cols X) l.2.2 r.2.2 dl.2.2 dr.2.2 (r.2.1.slot n) <;> rfl
        · cases op.fwd c (c.E.rows X) (c.E.cols X) dl.2.2 dr.2.2 dl.2.2 dr.2.2 (dr.2.1.slot n) <;> rfl
      · rfl
  | un n op x ihx =>
      intro s
      simp only [fwdEC, fwdE, ← ihx, ← evalEC_erase]
      split
      · refine eraseC_bind _ _ _ fun d => ?_
        split
        · refine eraseC_bind _ _ _ fun r => ?_
          cases op.fwd c X (x.dims c.E).1 (x.dims c.E).2 r.2.2 d.2.2 (r.2.1.slot n) <;> rfl
        · cases op.fwd c X (x.dims c.E).1 (x.dims c.E).2 d.2.2 d.2.2 (d.2.1.slot n) <;> rfl
      · rfl

theorem mfwdOC_erase (c : MCtx K) (X f : ℕ) : ∀ o s, eraseC (mfwdOC c X f o s) = mfwdO c X f o s := by
  induction f with
  | zero => intro o s; rfl
  | succ f ih =>
      intro o s
      have h := fun e s => evalEC_erase c (mevalOC c f) e s
      have h' := fun e s => fwdEC_erase c X (mevalOC c f) (mfwdOC c X f) e s
      simp only [ih, mevalOC_erase] at h h'
      cases hk : c.E.kind o with
      | form n e eye =>
          simp only [mfwdOC, mfwdO, hk]
          split
          · simp only [eraseC, Option.map_map]; rfl
          · rw [← h']
            refine eraseC_bind _ _ _ fun d => ?_
            simp only [← h]
            exact eraseC_bind _ _ _ fun r => rfl
      | _ =>
          simp only [mfwdOC, mfwdO, hk]
          cases leafFwd c X o (s.obj o) <;> rfl

theorem mresetEC_erase (rs : ℕ → MSt K → Option (ℕ × MSt K)) (e : MNode K) : ∀ s,
    eraseC (mresetEC rs e s) = mresetE (fun o s => eraseC (rs o s)) e s := by
  induction e with
  | obj o => intro s; rfl
  | bin n op x y ihx ihy =>
      intro s
      simp only [mresetEC, mresetE, ← ihx, ← ihy]
      refine eraseC_bind _ _ _ fun a => ?_
      exact (eraseC_bind _ _ (fun r => some r) fun b => rfl).trans (bind_pure _)
  | un n op x ihx =>
      intro s
      simp only [mresetEC, mresetE, ← ihx]
      exact (eraseC_bind _ _ (fun r => some r) fun b => rfl).trans (bind_pure _)

theorem mresetItemC_erase (E : MEnv K) (rs : ℕ → MSt K → Option (ℕ × MSt K)) (o : ℕ) (s : MSt K) :
    eraseC (mresetItemC E rs o s) = mresetItem E (fun o s => eraseC (rs o s)) o s := by
  rw [mresetItemC, mresetItem]
  cases E.kind o with
  | form n e eye => exact mresetEC_erase _ _ _
  | _ => rfl

theorem mresetOC_erase (E : MEnv K) (f : ℕ) : ∀ o s, eraseC (mresetOC E f o s) = mresetO E f o s := by
  induction f with
  | zero => intro o s; rfl
  | succ f ih =>
      intro o s
      have h := fun o s => mresetItemC_erase E (mresetOC E f) o s
      simp only [ih] at h
      rw [mresetOC, mresetO, ← h]
      split
      · exact eraseC_bind _ _ _ fun r => rfl
      · rfl

theorem mresetImplC_erase (E : MEnv K) (f o : ℕ) (s : MSt K) : eraseC (mresetImplC E f o s) = mresetImpl E f o s := by
  have h := fun o s => mresetItemC_erase E (mresetOC E f) o s
  simp only [mresetOC_erase] at h
  rw [mresetImplC, mresetImpl]
  simp only
  rw [← h]
  exact eraseC_bind _ _ _ fun r => rfl

theorem revVals2C_erase (c : MCtx K) (ev : ℕ → MSt K → Option (ℕ × MSt K × Mat K)) (op : MBin) (x y : MNode K)
    (C : Mat K) (s : MSt K) :
    eraseC (revVals2C c ev op x y C s) = revVals2 c (fun o s => eraseC (ev o s)) op x y C s := by
  simp only [revVals2C, revVals2, ← evalEC_erase]
  split
  · refine eraseC_bind _ _ _ fun l => ?_
    exact eraseC_bind _ _ _ fun r => rfl
  · rfl

theorem revVals1C_erase (c : MCtx K) (ev : ℕ → MSt K → Option (ℕ × MSt K × Mat K)) (op : MUn K) (x : MNode K)
    (C : Mat K) (s : MSt K) :
    eraseC (revVals1C c ev op x C s) = revVals1 c (fun o s => eraseC (ev o s)) op x C s := by
  simp only [revVals1C, revVals1, ← evalEC_erase]
  split <;> rfl

theorem unlessSeenC_erase (a : MNode K) (κ : MCache K) (s : MSt K) (r : Option (ℕ × MCache K × MSt K)) :
    eraseC (unlessSeenC a κ s r) = unlessSeen a κ s (eraseC r) := by
  rw [unlessSeenC, unlessSeen]
  split <;> rfl

theorem eraseC_some_bind {α β : Type} (x : Option α) (f : α → Option (ℕ × β)) (g : α → Option β)
    (h : ∀ r, eraseC (f r) = g r) : eraseC (x.bind f) = x >>= g := by
  cases x with
  | none => rfl
  | some r => exact h r

theorem travEC_erase (c : MCtx K) (ev : ℕ → MSt K → Option (ℕ × MSt K × Mat K))
    (tr : ℕ → MSt K → Option (ℕ × MSt K)) (e : MNode K) : ∀ κ s,
    eraseC (travEC c ev tr e κ s) = travE c (fun o s => eraseC (ev o s)) (fun o s => eraseC (tr o s)) e κ s := by
  induction e with
  | obj o =>
      intro κ s
      simp only [travEC, travE]
      cases tr o s <;> rfl
  | bin n op x y ihx ihy =>
      intro κ s
      simp only [travEC, travE, ← ihx, ← ihy, ← unlessSeenC_erase, ← revVals2C_erase]
      cases κ.find (.node n) with
      | none =>
          simp only [Option.bind_some]
          refine eraseC_bind _ _ _ fun q => ?_
          exact (eraseC_bind _ _ (fun r => some r) fun b => rfl).trans (bind_pure _)
      | some C =>
          simp only
          refine (eraseC_bind _ _ _ fun p => ?_).trans (congrArg (· >>= _) ?_)
          · refine eraseC_bind _ _ _ fun q => ?_
            exact (eraseC_bind _ _ (fun r => some r) fun b => rfl).trans (bind_pure _)
          · refine eraseC_bind _ _ _ fun p => ?_
            refine eraseC_bind _ _ _ fun q => ?_
            refine eraseC_bind _ _ _ fun v => ?_
            refine eraseC_some_bind _ _ _ fun a => ?_
            exact eraseC_some_bind _ _ _ fun κ => rfl
  | un n op x ihx =>
      intro κ s
      simp only [travEC, travE, ← ihx, ← unlessSeenC_erase, ← revVals1C_erase]
      cases κ.find (.node n) with
      | none =>
          simp only [Option.bind_some]
          exact (eraseC_bind _ _ (fun r => some r) fun b => rfl).trans (bind_pure _)
      | some C =>
          simp only
          refine (eraseC_bind _ _ _ fun p => ?_).trans (congrArg (· >>= _) ?_)
          · exact (eraseC_bind _ _ (fun r => some r) fun b => rfl).trans (bind_pure _)
          · refine eraseC_bind _ _ _ fun p => ?_
            refine eraseC_bind _ _ _ fun v => ?_
            refine eraseC_some_bind _ _ _ fun a => ?_
            exact eraseC_some_bind _ _ _ fun κ => rfl

theorem travRootC_erase (c : MCtx K) (ev : ℕ → MSt K → Option (ℕ × MSt K × Mat K))
    (tr : ℕ → MSt K → Option (ℕ × MSt K)) (n : ℕ) (x y : MNode K) (s : MSt K) :
    eraseC (travRootC c ev tr n x y s) =
      travRoot c (fun o s => eraseC (ev o s)) (fun o s => eraseC (tr o s)) n x y s := by
  simp only [travRootC, travRoot, ← travEC_erase, ← unlessSeenC_erase, ← evalEC_erase]
  refine eraseC_bind _ _ _ fun p => ?_
  refine eraseC_bind _ _ _ fun q => ?_
  refine eraseC_bind _ _ _ fun l => ?_
  refine eraseC_bind _ _ _ fun r => ?_
  refine eraseC_some_bind _ _ _ fun a7 => ?_
  refine eraseC_some_bind _ _ _ fun a6 => ?_
  refine eraseC_some_bind _ _ _ fun κ => ?_
  refine eraseC_bind _ _ _ fun t => ?_
  exact (eraseC_bind _ _ (fun r => some r) fun b => rfl).trans (bind_pure _)

theorem mtravOC_erase (c : MCtx K) (f : ℕ) : ∀ o s, eraseC (mtravOC c f o s) = mtravO c f o s := by
  induction f with
  | zero => intro o s; rfl
  | succ f ih =>
      intro o s
      have h := fun e s => evalEC_erase c (mevalOC c f) e s
      have h' := fun n x y s => travRootC_erase c (mevalOC c f) (mtravOC c f) n x y s
      simp only [ih, mevalOC_erase] at h h'
      rw [mtravOC, mtravO]
      split
      · rfl
      · cases hk : c.E.kind o with
        | form n e eye =>
            simp only
            rw [← h']
            refine eraseC_bind _ _ _ fun t => ?_
            simp only [← h]
            exact eraseC_bind _ _ _ fun r => rfl
        | _ => rfl

/-- Without the counter, the queries are those of the model. -/
theorem MatEvalC_erase (c : MCtx K) (f : ℕ) (e : MNode K) (s : MSt K) : eraseC (matEvalC c f e s) = matEval c f e s := by
  have h1 := mresetEC_erase (mresetOC c.E f) e s
  have h2 := fun s => evalEC_erase c (mevalOC c f) e s
  simp only [mresetOC_erase, mevalOC_erase] at h1 h2
  rw [matEvalC, matEval, ← h1]
  refine eraseC_bind _ _ _ fun r => ?_
  rw [← h2]
  exact (eraseC_bind _ _ (fun r => some r) fun b => rfl).trans (bind_pure _)

theorem MatDevalFC_erase (c : MCtx K) (f X : ℕ) (e : MNode K) (s : MSt K) :
    eraseC (matDevalFC c f X e s) = matDevalF c f X e s := by
  have h1 := mresetEC_erase (mresetOC c.E f) e s
  have h2 := fun s => fwdEC_erase c X (mevalOC c f) (mfwdOC c X f) e s
  simp only [mresetOC_erase, mevalOC_erase, mfwdOC_erase] at h1 h2
  rw [matDevalFC, matDevalF, ← h1]
  refine eraseC_bind _ _ _ fun r => ?_
  rw [← h2]
  exact (eraseC_bind _ _ (fun r => some r) fun b => rfl).trans (bind_pure _)

theorem MatPreCompC_erase (c : MCtx K) (f o : ℕ) (s : MSt K) : eraseC (matPreCompC c f o s) = matPreComp c f o s := by
  have h1 : eraseC (precompResetC c.E f o s) = precompReset c.E f o s := by
    rw [precompResetC, precompReset]
    cases c.E.kind o
    · exact mresetOC_erase _ _ _ _
    · exact mresetOC_erase _ _ _ _
    · exact mresetOC_erase _ _ _ _
    · exact mresetImplC_erase _ _ _ _
    · exact mresetImplC_erase _ _ _ _
  rw [matPreCompC, matPreComp, ← h1]
  refine eraseC_bind _ _ _ fun r => ?_
  rw [← mtravOC_erase]
  exact (eraseC_bind _ _ (fun r => some r) fun b => rfl).trans (bind_pure _)

end CoolDiff
