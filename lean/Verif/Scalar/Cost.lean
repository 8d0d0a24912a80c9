import Verif.Scalar.Model
import Mathlib.Order.Lattice

/-!
# The queries with a counter (executable model)

The functions of `Verif/Scalar/Model.lean` once more, with a number in the result: how many times `eval()`, `devalF()`,
`traverse()` or `reset()` was called on an object, a Parameter or an operator node.  `eraseC` forgets the number;
`Verif/Scalar/CostProof.lean` proves that what remains is the model, so the number counts the calls of the same run.
Not counted: the loops over the entries of a cache, the work of allocation and of the unordered maps.
-/

namespace CoolDiff

variable {K : Type} [Field K] [DecidableEq K]

/-- Forget the counter. -/
def eraseC {α : Type} (r : Option (ℕ × α)) : Option α := r.map Prod.snd

/-- `evalN` with a counter (the bodies cited there). -/
def evalNC (P : Prim K) (D : Defs K) (rec : ℕ → Mem K → Option (ℕ × K × Mem K)) :
    Node K → Mem K → Option (ℕ × K × Mem K)
  | .leaf o, m => rec o m
  | .par p, m => some (1, D.par p, m)
  | .op1 _ f a, m => (evalNC P D rec a m).bind fun r => some (r.1 + 1, f.val P r.2.1, r.2.2)
  | .op2 _ f a b, m =>
      if f.rightFirst then
        (evalNC P D rec b m).bind fun s => (evalNC P D rec a s.2.2).bind fun r =>
          some (s.1 + r.1 + 1, f.val P r.2.1 s.2.1, r.2.2)
      else
        (evalNC P D rec a m).bind fun r => (evalNC P D rec b r.2.2).bind fun s =>
          some (r.1 + s.1 + 1, f.val P r.2.1 s.2.1, s.2.2)

/-- `evalItems` with a counter (Variable.cpp:138-143). -/
def evalItemsC (P : Prim K) (D : Defs K) (rec : ℕ → Mem K → Option (ℕ × K × Mem K)) (o : ℕ) :
    List (Node K) → Mem K → Option (ℕ × Mem K)
  | [], m => some (0, m)
  | i :: is, m => (evalNC P D rec i m).bind fun r =>
      (evalItemsC P D rec o is (r.2.2.setValue o r.2.1)).bind fun s => some (r.1 + s.1, s.2)

/-- `Variable::eval()` with a counter (Variable.cpp:130-151). -/
def evalOC (P : Prim K) (D : Defs K) : ℕ → ℕ → Mem K → Option (ℕ × K × Mem K)
  | 0, _, _ => none
  | fuel + 1, o, m =>
      if m.visited o = false then
        (evalItemsC P D (evalOC P D fuel) o (D.items o) ((m.setValue o (D.base o)).setVisited o true)).bind fun r =>
          some (r.1 + 1, r.2.value o, r.2)
      else some (1, m.value o, m)

/-- `fwdN` with a counter (the bodies cited there). -/
def fwdNC (P : Prim K) (D : Defs K) (recE recD : ℕ → Mem K → Option (ℕ × K × Mem K)) :
    Node K → Mem K → Option (ℕ × K × Mem K)
  | .leaf o, m => recD o m
  | .par _, m => some (1, 0, m)
  | .op1 _ f a, m => (fwdNC P D recE recD a m).bind fun d =>
      if f.usesVal then
        (evalNC P D recE a d.2.2).bind fun r => some (d.1 + r.1 + 1, f.fwd P r.2.1 d.2.1, r.2.2)
      else some (d.1 + 1, f.fwd P 0 d.2.1, d.2.2)
  | .op2 _ f a b, m =>
      (fwdNC P D recE recD a m).bind fun d =>
      (fwdNC P D recE recD b d.2.2).bind fun e =>
      if f.usesVal then
        if f.rightFirstD then
          (evalNC P D recE b e.2.2).bind fun s => (evalNC P D recE a s.2.2).bind fun r =>
            some (d.1 + e.1 + (s.1 + r.1) + 1, f.fwd P r.2.1 s.2.1 d.2.1 e.2.1, r.2.2)
        else
          (evalNC P D recE a e.2.2).bind fun r => (evalNC P D recE b r.2.2).bind fun s =>
            some (d.1 + e.1 + (r.1 + s.1) + 1, f.fwd P r.2.1 s.2.1 d.2.1 e.2.1, s.2.2)
      else some (d.1 + e.1 + 1, f.fwd P 0 0 d.2.1 e.2.1, e.2.2)

/-- `fwdItems` with a counter (Variable.cpp:160-166). -/
def fwdItemsC (P : Prim K) (D : Defs K) (recE recD : ℕ → Mem K → Option (ℕ × K × Mem K)) (o : ℕ) :
    List (Node K) → Mem K → Option (ℕ × Mem K)
  | [], m => some (0, m)
  | i :: is, m => (fwdNC P D recE recD i m).bind fun d =>
      (evalNC P D recE i (d.2.2.setDValue o d.2.1)).bind fun r =>
      (fwdItemsC P D recE recD o is (r.2.2.setValue o r.2.1)).bind fun s => some (d.1 + r.1 + s.1, s.2)

/-- `Variable::devalF(var)` with a counter (Variable.cpp:154-176). -/
def fwdOC (P : Prim K) (D : Defs K) (k : ℕ) : ℕ → ℕ → Mem K → Option (ℕ × K × Mem K)
  | 0, _, _ => none
  | fuel + 1, o, m =>
      if m.visited o = false then
        (fwdItemsC P D (evalOC P D fuel) (fwdOC P D k fuel) o (D.items o) (m.setVisited o true)).bind fun r =>
          some (r.1 + 1, if D.nidx o = k then 1 else r.2.dvalue o, r.2)
      else some (1, if D.nidx o = k then 1 else m.dvalue o, m)

/-- `val1` with a counter. -/
def val1C (P : Prim K) (D : Defs K) (recE : ℕ → Mem K → Option (ℕ × K × Mem K)) (f : Op1 K) (a : Node K) (m : Mem K) :
    Option (ℕ × K × Mem K) :=
  if f.usesVal then evalNC P D recE a m else some (0, 0, m)

/-- `val2` with a counter. -/
def val2C (P : Prim K) (D : Defs K) (recE : ℕ → Mem K → Option (ℕ × K × Mem K)) (f : Op2 K) (a b : Node K) (m : Mem K) :
    Option (ℕ × K × K × Mem K) :=
  if f.usesVal then
    if f.rightFirstD then
      (evalNC P D recE b m).bind fun s => (evalNC P D recE a s.2.2).bind fun r => some (s.1 + r.1, r.2.1, s.2.1, r.2.2)
    else
      (evalNC P D recE a m).bind fun r => (evalNC P D recE b r.2.2).bind fun s => some (r.1 + s.1, r.2.1, s.2.1, s.2.2)
  else some (0, 0, 0, m)

/-- `unlessVisited` with a counter: no call is made if the flag is set. -/
def unlessVisitedC (a : Node K) (c : Cache K) (m : Mem K) (r : Option (ℕ × Cache K × Mem K)) :
    Option (ℕ × Cache K × Mem K) :=
  if nodeVisited m a then some (0, c, m) else r

/-- `traverse(cache)` with a counter (`revN`; e.g. GenericProduct.hpp:140-183): both operands are traversed before
and once more after the derivative is entered. -/
def revNC (P : Prim K) (D : Defs K) (recE : ℕ → Mem K → Option (ℕ × K × Mem K))
    (recT : ℕ → Mem K → Option (ℕ × Mem K)) : Node K → Cache K → Mem K → Option (ℕ × Cache K × Mem K)
  | .leaf o, c, m => (recT o m).bind fun r => some (r.1, c, r.2)
  | .par _, c, m => some (1, c, m)
  | .op1 n f a, c₀, m =>
      (unlessVisitedC a c₀ m (revNC P D recE recT a c₀ m)).bind fun x =>
      (val1C P D recE f a x.2.2).bind fun r =>
      let s := f.rev P r.2.1 (c₀ n)
      let c := (x.2.1.addAt (nodeIdx D a) s).mergeIf true s (nodeCache r.2.2 a) s
      (unlessVisitedC a c r.2.2 (revNC P D recE recT a c r.2.2)).bind fun y => some (x.1 + r.1 + y.1 + 1, y.2)
  | .op2 n f a b, c₀, m =>
      (unlessVisitedC a c₀ m (revNC P D recE recT a c₀ m)).bind fun x =>
      (unlessVisitedC b x.2.1 x.2.2 (revNC P D recE recT b x.2.1 x.2.2)).bind fun y =>
      (val2C P D recE f a b y.2.2).bind fun r =>
      let sl := f.revL P r.2.1 r.2.2.1 (c₀ n)
      let sr := f.revR P r.2.1 r.2.2.1 (c₀ n)
      let c := (y.2.1.addAt (nodeIdx D a) sl).addAt (nodeIdx D b) sr
      let c := c.mergeIf true (if f.guardByAdj then c₀ n else sl) (nodeCache r.2.2.2 a) sl
      let c := c.mergeIf true (if f.guardByAdj then c₀ n else sr) (nodeCache r.2.2.2 b) sr
      (unlessVisitedC a c r.2.2.2 (revNC P D recE recT a c r.2.2.2)).bind fun z =>
      (unlessVisitedC b z.2.1 z.2.2 (revNC P D recE recT b z.2.1 z.2.2)).bind fun w =>
        some (x.1 + y.1 + r.1 + z.1 + w.1 + 1, w.2)

/-- `traverse(nullptr)` with a counter (`revRoot`; e.g. GenericProduct.hpp:95-139). -/
def revRootC (P : Prim K) (D : Defs K) (recE : ℕ → Mem K → Option (ℕ × K × Mem K))
    (recT : ℕ → Mem K → Option (ℕ × Mem K)) : Node K → Mem K → Option (ℕ × Cache K × Mem K)
  | .leaf o, m => (recT o m).bind fun r => some (r.1, r.2.cache o, r.2)
  | .par _, m => some (1, fun _ => 0, m)
  | .op1 _ f a, m =>
      (unlessVisitedC a (fun _ => 0) m (revNC P D recE recT a (fun _ => 0) m)).bind fun x =>
      (val1C P D recE f a x.2.2).bind fun r =>
      let s := f.revRoot P r.2.1
      let c := (x.2.1.addAt (nodeIdx D a) s).mergeIf f.guardRoot s (nodeCache r.2.2 a) s
      (unlessVisitedC a c r.2.2 (revNC P D recE recT a c r.2.2)).bind fun y => some (x.1 + r.1 + y.1 + 1, y.2)
  | .op2 _ f a b, m =>
      (unlessVisitedC a (fun _ => 0) m (revNC P D recE recT a (fun _ => 0) m)).bind fun x =>
      (unlessVisitedC b x.2.1 x.2.2 (revNC P D recE recT b x.2.1 x.2.2)).bind fun y =>
      (val2C P D recE f a b y.2.2).bind fun r =>
      let sl := f.revRootL P r.2.1 r.2.2.1
      let sr := f.revRootR P r.2.1 r.2.2.1
      let c := (y.2.1.addAt (nodeIdx D a) sl).addAt (nodeIdx D b) sr
      let c := c.mergeIf f.guardRoot sl (nodeCache r.2.2.2 a) sl
      let c := c.mergeIf f.guardRoot sr (nodeCache r.2.2.2 b) sr
      (unlessVisitedC a c r.2.2.2 (revNC P D recE recT a c r.2.2.2)).bind fun z =>
      (unlessVisitedC b z.2.1 z.2.2 (revNC P D recE recT b z.2.1 z.2.2)).bind fun w =>
        some (x.1 + y.1 + r.1 + z.1 + w.1 + 1, w.2)

/-- `revItems` with a counter (Variable.cpp:231-241). -/
def revItemsC (P : Prim K) (D : Defs K) (recE : ℕ → Mem K → Option (ℕ × K × Mem K))
    (recT : ℕ → Mem K → Option (ℕ × Mem K)) (o : ℕ) : List (Node K) → Mem K → Option (ℕ × Mem K)
  | [], m => some (0, m)
  | i :: is, m => (revRootC P D recE recT i m).bind fun x =>
      (evalNC P D recE i x.2.2).bind fun r =>
      (revItemsC P D recE recT o is ((r.2.2.setValue o r.2.1).setCache o x.2.1)).bind fun s =>
        some (x.1 + r.1 + s.1, s.2)

/-- `Variable::traverse` with a counter (Variable.cpp:227-243). -/
def revOC (P : Prim K) (D : Defs K) : ℕ → ℕ → Mem K → Option (ℕ × Mem K)
  | 0, _, _ => none
  | fuel + 1, o, m =>
      if m.visited o = false then
        (revItemsC P D (evalOC P D fuel) (revOC P D fuel) o (D.items o) (m.setVisited o true)).bind fun r =>
          some (r.1 + 1, r.2)
      else some (1, m)

/-- `reset()` of a tree with a counter (IVariable.hpp:60-97). -/
def resetNC (rec : ℕ → Mem K → Option (ℕ × Mem K)) : Node K → Mem K → Option (ℕ × Mem K)
  | .leaf o, m => rec o m
  | .par _, m => some (1, m)
  | .op1 _ _ a, m => (resetNC rec a m).bind fun r => some (r.1 + 1, r.2)
  | .op2 _ _ a b, m => (resetNC rec a m).bind fun r => (resetNC rec b r.2).bind fun s => some (r.1 + s.1 + 1, s.2)

/-- `resetItems` with a counter (Variable.cpp:121-125, 255-260). -/
def resetItemsC (rec : ℕ → Mem K → Option (ℕ × Mem K)) : List (Node K) → Mem K → Option (ℕ × Mem K)
  | [], m => some (0, m)
  | i :: is, m => (resetNC rec i m).bind fun r => (resetItemsC rec is r.2).bind fun s => some (r.1 + s.1, s.2)

/-- `Variable::reset()` with a counter (Variable.cpp:251-276). -/
def resetOC (D : Defs K) : ℕ → ℕ → Mem K → Option (ℕ × Mem K)
  | 0, _, _ => none
  | fuel + 1, o, m =>
      if m.visited o = true then
        (resetItemsC (resetOC D fuel) (D.items o) (m.setVisited o false)).bind fun r => some (r.1 + 1, r.2.clearObj D o)
      else some (1, m.clearObj D o)

/-- `Variable::resetImpl()` with a counter (Variable.cpp:118-127). -/
def resetImplC (D : Defs K) (fuel : ℕ) (o : ℕ) (m : Mem K) : Option (ℕ × Mem K) :=
  (resetItemsC (resetOC D fuel) (D.items o) (m.setVisited o true)).bind fun r => some (r.1, r.2.setVisited o false)

/-- `Eval` with a counter (src/Scalar/CommonFunctions.cpp:32-37). -/
def EvalC (P : Prim K) (y : ℕ) (σ : St K) : Option (ℕ × K × St K) :=
  (resetImplC σ.defs σ.defs.fuel y σ.mem).bind fun r =>
  (evalOC P σ.defs σ.defs.fuel y r.2).bind fun s => some (r.1 + s.1, s.2.1, ⟨σ.defs, s.2.2⟩)

/-- `DevalF` with a counter (src/Scalar/CommonFunctions.cpp:40-45). -/
def DevalFC (P : Prim K) (y x : ℕ) (σ : St K) : Option (ℕ × K × St K) :=
  (resetImplC σ.defs σ.defs.fuel y σ.mem).bind fun r =>
  (fwdOC P σ.defs (σ.defs.nidx x) σ.defs.fuel y r.2).bind fun s => some (r.1 + s.1, s.2.1, ⟨σ.defs, s.2.2⟩)

/-- `PreComp` with a counter (src/Scalar/CommonFunctions.cpp:54-59). -/
def PreCompC (P : Prim K) (y : ℕ) (σ : St K) : Option (ℕ × St K) :=
  (resetImplC σ.defs σ.defs.fuel y σ.mem).bind fun r =>
  (revOC P σ.defs σ.defs.fuel y r.2).bind fun s => some (r.1 + s.1, ⟨σ.defs, s.2⟩)

/-! ## Sizes of formulas -/

/-- Number of nodes of a formula. -/
def Node.size : Node K → ℕ
  | .leaf _ => 1
  | .par _ => 1
  | .op1 _ _ a => a.size + 1
  | .op2 _ _ a b => a.size + b.size + 1

/-- How deep the operators of a formula are nested. -/
def Node.depth : Node K → ℕ
  | .leaf _ => 0
  | .par _ => 0
  | .op1 _ _ a => a.depth + 1
  | .op2 _ _ a b => max a.depth b.depth + 1

end CoolDiff
