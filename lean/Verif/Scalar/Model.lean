import Verif.Scalar.Syntax
import Mathlib.Logic.Function.Basic

/-!
# Executable model of the scalar part of CoolDiff

Numbers are elements of an arbitrary field `K` with decidable equality and an interpretation
`P : Prim K` of the `<cmath>` functions.  Rounding, overflow, NaN and infinities are not modelled.
-/

namespace CoolDiff

variable {K : Type} [Field K] [DecidableEq K]

/-! ## Local formulas of the operator nodes -/

/-- Value of the elementary functions.  `Generic<Fn>.hpp` : `eval()` (lines 75-77). -/
def Fn.val (P : Prim K) : Fn → K → K
  | .sin, u => P.sin u
  | .cos, u => P.cos u
  | .tan, u => P.tan u
  | .sinh, u => P.sinh u
  | .cosh, u => P.cosh u
  | .tanh, u => P.tanh u
  | .asin, u => P.asin u
  | .acos, u => P.acos u
  | .atan, u => P.atan u
  | .asinh, u => P.asinh u
  | .acosh, u => P.acosh u
  | .atanh, u => P.atanh u
  | .sqrt, u => P.sqrt u
  | .exp, u => P.exp u
  | .log, u => P.log u

/-- Forward mode, `devalF(var)` of `Generic<Fn>.hpp` (lines 80-87): the returned number, from the
operand value `u` and operand derivative `du`. -/
def Fn.fwd (P : Prim K) : Fn → K → K → K
  | .sin, u, du => P.cos u * du
  | .cos, u, du => (-1) * P.sin u * du
  | .tan, u, du => (1 + P.tan u * P.tan u) * du
  | .sinh, u, du => P.cosh u * du
  | .cosh, u, du => P.sinh u * du
  | .tanh, u, du => (1 - P.tanh u * P.tanh u) * du
  | .asin, u, du => (1 / P.sqrt (1 - u * u)) * du
  | .acos, u, du => ((-1) / P.sqrt (1 - u * u)) * du
  | .atan, u, du => (1 / (1 + u * u)) * du
  | .asinh, u, du => (1 / P.sqrt (1 + u * u)) * du
  | .acosh, u, du => (1 / P.sqrt (u * u - 1)) * du
  | .atanh, u, du => ((-1) / (u * u - 1)) * du
  | .sqrt, u, du => ((1 / 2) / P.sqrt u) * du
  | .exp, u, du => P.exp u * du
  | .log, u, du => (1 / u) * du

/-- Reverse mode at the root, `traverse(nullptr)` of `Generic<Fn>.hpp` (lines 104-109): the amount
added to the operand's cache entry. -/
def Fn.revRoot (P : Prim K) : Fn → K → K
  | .sin, u => P.cos u
  | .cos, u => (-1) * P.sin u
  | .tan, u => 1 + P.tan u * P.tan u
  | .sinh, u => P.cosh u
  | .cosh, u => P.sinh u
  | .tanh, u => 1 - P.tanh u * P.tanh u
  | .asin, u => 1 / P.sqrt (1 - u * u)
  | .acos, u => (-1) / P.sqrt (1 - u * u)
  | .atan, u => 1 / (1 + u * u)
  | .asinh, u => 1 / P.sqrt (1 + u * u)
  | .acosh, u => 1 / P.sqrt (u * u - 1)
  | .atanh, u => (-1) / (u * u - 1)
  | .sqrt, u => (1 / 2) / P.sqrt u
  | .exp, u => P.exp u
  | .log, u => 1 / u

/-- Reverse mode below the root, `traverse(cache)` of `Generic<Fn>.hpp` (lines 119-133): the amount
added to the operand's cache entry, `cC` being this node's cache entry. -/
def Fn.rev (P : Prim K) : Fn → K → K → K
  | .sin, u, cC => P.cos u * cC
  | .cos, u, cC => (-1) * P.sin u * cC
  | .tan, u, cC => (1 + P.tan u * P.tan u) * cC
  | .sinh, u, cC => P.cosh u * cC
  | .cosh, u, cC => P.sinh u * cC
  | .tanh, u, cC => (1 - P.tanh u * P.tanh u) * cC
  | .asin, u, cC => (1 / P.sqrt (1 - u * u)) * cC
  | .acos, u, cC => ((-1) / P.sqrt (1 - u * u)) * cC
  | .atan, u, cC => (1 / (1 + u * u)) * cC
  | .asinh, u, cC => (1 / P.sqrt (1 + u * u)) * cC
  | .acosh, u, cC => (1 / P.sqrt (u * u - 1)) * cC
  | .atanh, u, cC => ((-1) / (u * u - 1)) * cC
  | .sqrt, u, cC => ((1 / 2) / P.sqrt u) * cC
  | .exp, u, cC => P.exp u * cC
  | .log, u, cC => (1 / u) * cC

/-- `eval()` of the one-operand nodes: GenericSum.hpp:260-264, GenericProduct.hpp:237-240,
GenericDiv.hpp:277-281, GenericPow.hpp:274-277 and 429-432, GenericScalarUnary.hpp:50-53. -/
def Op1.val (P : Prim K) : Op1 K → K → K
  | .fn f, u => f.val P u
  | .addC c, u => c + u
  | .mulC c, u => c * u
  | .divC c, u => c * (1 / u)
  | .cPow c, u => P.pow c u
  | .powC c, u => P.pow u c
  | .custom f _, u => f u

/-- Does `devalF`/`traverse` of this node evaluate its operand?  `GenericSum<Type,T>` and
`GenericProduct<Type,T>` do not (GenericSum.hpp:267-271, GenericProduct.hpp:243-247). -/
def Op1.usesVal : Op1 K → Bool
  | .addC _ => false
  | .mulC _ => false
  | _ => true

/-- `devalF(var)` of the one-operand nodes: GenericSum.hpp:267-271, GenericProduct.hpp:243-247,
GenericDiv.hpp:284-290, GenericPow.hpp:280-285 and 435-440, GenericScalarUnary.hpp:54-58. -/
def Op1.fwd (P : Prim K) : Op1 K → K → K → K
  | .fn f, u, du => f.fwd P u du
  | .addC _, _, du => du
  | .mulC c, _, du => c * du
  | .divC c, u, du => ((-1) * (c * du)) * ((1 / u) * (1 / u))
  | .cPow c, u, du => P.pow c u * du * P.log c
  | .powC c, u, du => c * (P.pow u (c - 1) * du)
  | .custom _ df, u, du => df u * du

/-- Root branch of `traverse` of the one-operand nodes (amount added to the operand's entry):
GenericSum.hpp:290-292, GenericProduct.hpp:269-270, GenericDiv.hpp:309-313, GenericPow.hpp:304-307
and 459-462, GenericScalarUnary.hpp:69-70. -/
def Op1.revRoot (P : Prim K) : Op1 K → K → K
  | .fn f, u => f.revRoot P u
  | .addC _, _ => 1
  | .mulC c, _ => c
  | .divC c, u => ((-1) * c) * ((1 / u) * (1 / u))
  | .cPow c, u => P.pow c u * P.log c
  | .powC c, u => c * P.pow u (c - 1)
  | .custom _ df, u => df u

/-- Non-root branch of `traverse` of the one-operand nodes: GenericSum.hpp:303-311,
GenericProduct.hpp:283-296, GenericDiv.hpp:327-338, GenericPow.hpp:320-330 and 475-486,
GenericScalarUnary.hpp:82-87. -/
def Op1.rev (P : Prim K) : Op1 K → K → K → K
  | .fn f, u, cC => f.rev P u cC
  | .addC _, _, cC => cC
  | .mulC c, _, cC => cC * c
  | .divC c, u, cC => cC * (((-1) * c) * ((1 / u) * (1 / u)))
  | .cPow c, u, cC => cC * (P.pow c u * P.log c)
  | .powC c, u, cC => (c * P.pow u (c - 1)) * cC
  | .custom _ df, u, cC => df u * cC

/-- `eval()` of the two-operand nodes: GenericSum.hpp:77-82, GenericSub.hpp:77-82,
GenericProduct.hpp:75-80, GenericDiv.hpp:77-83, GenericPow.hpp:77-82,
GenericScalarBinary.hpp:50-54. -/
def Op2.val (P : Prim K) : Op2 K → K → K → K
  | .add, u, v => u + v
  | .sub, u, v => u - v
  | .mul, u, v => u * v
  | .div, u, v => u * (1 / v)
  | .pow, u, v => P.pow u v
  | .custom f _ _, u, v => f u v

/-- Order in which `eval()` evaluates its operands: `GenericProduct` evaluates the right one first
(GenericProduct.hpp:77-78), all others the left one first. -/
def Op2.rightFirst : Op2 K → Bool
  | .mul => true
  | _ => false

/-- Order in which `devalF`/`traverse` evaluate the operand values: right first
(GenericProduct.hpp:88-89, GenericDiv.hpp:90-91, GenericPow.hpp:89-90) except for the
user-defined operators (GenericScalarBinary.hpp:58-59). -/
def Op2.rightFirstD : Op2 K → Bool
  | .custom _ _ _ => false
  | _ => true

/-- Do `devalF`/`traverse` evaluate the operands?  Sum and difference do not. -/
def Op2.usesVal : Op2 K → Bool
  | .add => false
  | .sub => false
  | _ => true

/-- `devalF(var)`: GenericSum.hpp:85-90, GenericSub.hpp:85-90, GenericProduct.hpp:83-91,
GenericDiv.hpp:86-94, GenericPow.hpp:85-92, GenericScalarBinary.hpp:55-61. -/
def Op2.fwd (P : Prim K) : Op2 K → K → K → K → K → K
  | .add, _, _, du, dv => du + dv
  | .sub, _, _, du, dv => du - dv
  | .mul, u, v, du, dv => (du * v) + (dv * u)
  | .div, u, v, du, dv => ((du * v) - (dv * u)) * ((1 / v) * (1 / v))
  | .pow, u, v, du, dv => P.pow u v * (((v / u) * du) + (dv * P.log u))
  | .custom _ fu fv, u, v, du, dv => fu u v * du + fv u v * dv

/-- Root branch of `traverse`, amount added to the left operand's entry: GenericSum.hpp:114,
GenericSub.hpp:114, GenericProduct.hpp:117, GenericDiv.hpp:122, GenericPow.hpp:119-121,
GenericScalarBinary.hpp:76. -/
def Op2.revRootL (P : Prim K) : Op2 K → K → K → K
  | .add, _, _ => 1
  | .sub, _, _ => 1
  | .mul, _, v => v
  | .div, _, v => 1 / v
  | .pow, u, v => (v / u) * P.pow u v
  | .custom _ fu _, u, v => fu u v

/-- Root branch of `traverse`, amount added to the right operand's entry: GenericSum.hpp:115,
GenericSub.hpp:115, GenericProduct.hpp:118, GenericDiv.hpp:121-123, GenericPow.hpp:120-122,
GenericScalarBinary.hpp:77. -/
def Op2.revRootR (P : Prim K) : Op2 K → K → K → K
  | .add, _, _ => 1
  | .sub, _, _ => -1
  | .mul, u, _ => u
  | .div, u, v => ((-1) * u) * (1 / v) * (1 / v)
  | .pow, u, v => P.log u * P.pow u v
  | .custom _ _ fv, u, v => fv u v

/-- Non-root branch of `traverse`, left operand: GenericSum.hpp:147, GenericSub.hpp:146,
GenericProduct.hpp:153-155, GenericDiv.hpp:162-164, GenericPow.hpp:159-161,
GenericScalarBinary.hpp:103. -/
def Op2.revL (P : Prim K) : Op2 K → K → K → K → K
  | .add, _, _, cC => cC
  | .sub, _, _, cC => cC
  | .mul, _, v, cC => v * cC
  | .div, _, v, cC => (1 / v) * cC
  | .pow, u, v, cC => ((v / u) * P.pow u v) * cC
  | .custom _ fu _, u, v, cC => fu u v * cC

/-- Non-root branch of `traverse`, right operand: GenericSum.hpp:148, GenericSub.hpp:147,
GenericProduct.hpp:154-156, GenericDiv.hpp:163-165, GenericPow.hpp:160-162,
GenericScalarBinary.hpp:104. -/
def Op2.revR (P : Prim K) : Op2 K → K → K → K → K
  | .add, _, _, cC => cC
  | .sub, _, _, cC => (-1) * cC
  | .mul, u, _, cC => u * cC
  | .div, u, v, cC => (((-1) * u) * (1 / v) * (1 / v)) * cC
  | .pow, u, v, cC => (P.log u * P.pow u v) * cC
  | .custom _ _ fv, u, v, cC => fv u v * cC

/-- Is the merge of a child's own cache in the root branch skipped when the scale is zero?
Sum, difference and user-defined binary operators merge unconditionally (GenericSum.hpp:117-131,
GenericSub.hpp:117-131, GenericScalarBinary.hpp:78-91); `GenericSum<Type,T>` too
(GenericSum.hpp:294-299). -/
def Op2.guardRoot : Op2 K → Bool
  | .add => false
  | .sub => false
  | .custom _ _ _ => false
  | _ => true

@[inherit_doc Op2.guardRoot]
def Op1.guardRoot : Op1 K → Bool
  | .addC _ => false
  | _ => true

/-- In the non-root branch the merge is skipped when the *node's* cache entry is zero for sum,
difference and user-defined binary operators (GenericSum.hpp:150, GenericSub.hpp:150,
GenericScalarBinary.hpp:105), and when the scaled partial is zero for all other operators. -/
def Op2.guardByAdj : Op2 K → Bool
  | .add => true
  | .sub => true
  | .custom _ _ _ => true
  | _ => false

/-! ## The heap -/

/-- A reverse-mode cache (`OMPair`, an unordered map from `m_nidx` to numbers).  `operator[]`
creates missing entries with value 0, so only the numbers are modelled, not the presence. -/
abbrev Cache (K : Type) := ℕ → K

/-- What the user has defined: the part of the `Variable`/`Expression` objects (numbered below
`size`) and `Parameter` objects that no query changes.  Variable.hpp:36-60, Parameter.hpp:30-45,
`next` is the global counter `m_idx_count` (CommonHeader.hpp:368-372). -/
structure Defs (K : Type) where
  /-- number of Variable/Expression objects allocated so far -/
  size : ℕ
  /-- number of Parameter objects allocated so far -/
  psize : ℕ
  /-- `m_idx_count` -/
  next : ℕ
  /-- `m_nidx` of the objects -/
  nidx : ℕ → ℕ
  /-- `*m_value_var`: the number last assigned -/
  base : ℕ → K
  /-- `m_gh_vec`: the assigned expressions in order -/
  items : ℕ → List (Node K)
  /-- values of the Parameter objects (`mp_tmp->getValue()`, Parameter.cpp:74-76) -/
  par : ℕ → K
  /-- `m_nidx` of the Parameter objects -/
  pnidx : ℕ → ℕ

/-- The evaluation memory inside the objects: what queries read and write. -/
@[ext] structure Mem (K : Type) where
  /-- `m_visited` -/
  visited : ℕ → Bool
  /-- `m_var->m_value` -/
  value : ℕ → K
  /-- `m_var->m_dvalue` -/
  dvalue : ℕ → K
  /-- `m_cache` -/
  cache : ℕ → Cache K

/-- The whole heap. -/
structure St (K : Type) where
  defs : Defs K
  mem : Mem K

namespace Mem

/-- writing `m_visited` -/
def setVisited (m : Mem K) (o : ℕ) (b : Bool) : Mem K :=
  { m with visited := Function.update m.visited o b }
/-- `Variable::setValue` (Variable.cpp:102-104). -/
def setValue (m : Mem K) (o : ℕ) (v : K) : Mem K :=
  { m with value := Function.update m.value o v }
/-- `Variable::setdValue` (Variable.cpp:110-112). -/
def setDValue (m : Mem K) (o : ℕ) (v : K) : Mem K :=
  { m with dvalue := Function.update m.dvalue o v }
/-- assignment to `m_cache` (Variable.cpp:239) -/
def setCache (m : Mem K) (o : ℕ) (c : Cache K) : Mem K :=
  { m with cache := Function.update m.cache o c }

end Mem

/-! ## Eval -/

/-- `eval()` of a tree, given how objects are evaluated (the virtual call on a leaf).  The operator
bodies are those cited at `Op1.val`, `Op2.val`, `Op2.rightFirst`; `Parameter::eval` is
Parameter.cpp:74-76. -/
def evalN (P : Prim K) (D : Defs K) (rec : ℕ → Mem K → Option (K × Mem K)) :
    Node K → Mem K → Option (K × Mem K)
  | .leaf o, m => rec o m
  | .par p, m => some (D.par p, m)
  | .op1 _ f a, m => do
      let (u, m) ← evalN P D rec a m
      some (f.val P u, m)
  | .op2 _ f a b, m =>
      if f.rightFirst then do
        let (v, m) ← evalN P D rec b m
        let (u, m) ← evalN P D rec a m
        some (f.val P u v, m)
      else do
        let (u, m) ← evalN P D rec a m
        let (v, m) ← evalN P D rec b m
        some (f.val P u v, m)

/-- The loop of `Variable::eval` over `m_gh_vec`: `setValue(i->eval())` (Variable.cpp:138-143). -/
def evalItems (P : Prim K) (D : Defs K) (rec : ℕ → Mem K → Option (K × Mem K)) (o : ℕ) :
    List (Node K) → Mem K → Option (Mem K)
  | [], m => some m
  | i :: is, m => do
      let (v, m) ← evalN P D rec i m
      evalItems P D rec o is (m.setValue o v)

/-- `Variable::eval()` (Variable.cpp:130-151).  The first number bounds the depth of nested
object evaluations; `none` means the bound was hit (shown impossible for a bound above the heap
size in `Verif.Scalar.Termination`). -/
def evalO (P : Prim K) (D : Defs K) : ℕ → ℕ → Mem K → Option (K × Mem K)
  | 0, _, _ => none
  | fuel + 1, o, m =>
      if m.visited o = false then do
        let m ← evalItems P D (evalO P D fuel) o (D.items o)
          ((m.setValue o (D.base o)).setVisited o true)
        some (m.value o, m)
      else
        some (m.value o, m)

/-! ## Forward mode -/

/-- `devalF(var)` of a tree.  Operand derivatives first, then operand values (bodies cited at
`Op1.fwd`, `Op2.fwd`; `Parameter::devalF` is Parameter.cpp:96-98). -/
def fwdN (P : Prim K) (D : Defs K) (recE : ℕ → Mem K → Option (K × Mem K))
    (recD : ℕ → Mem K → Option (K × Mem K)) : Node K → Mem K → Option (K × Mem K)
  | .leaf o, m => recD o m
  | .par _, m => some (0, m)
  | .op1 _ f a, m => do
      let (du, m) ← fwdN P D recE recD a m
      if f.usesVal then do
        let (u, m) ← evalN P D recE a m
        some (f.fwd P u du, m)
      else
        some (f.fwd P 0 du, m)
  | .op2 _ f a b, m => do
      let (du, m) ← fwdN P D recE recD a m
      let (dv, m) ← fwdN P D recE recD b m
      if f.usesVal then
        if f.rightFirstD then do
          let (v, m) ← evalN P D recE b m
          let (u, m) ← evalN P D recE a m
          some (f.fwd P u v du dv, m)
        else do
          let (u, m) ← evalN P D recE a m
          let (v, m) ← evalN P D recE b m
          some (f.fwd P u v du dv, m)
      else
        some (f.fwd P 0 0 du dv, m)

/-- The loop of `Variable::devalF`: `setdValue(i->devalF(var)); setValue(i->eval());`
(Variable.cpp:160-166). -/
def fwdItems (P : Prim K) (D : Defs K) (recE : ℕ → Mem K → Option (K × Mem K))
    (recD : ℕ → Mem K → Option (K × Mem K)) (o : ℕ) : List (Node K) → Mem K → Option (Mem K)
  | [], m => some m
  | i :: is, m => do
      let (d, m) ← fwdN P D recE recD i m
      let (v, m) ← evalN P D recE i (m.setDValue o d)
      fwdItems P D recE recD o is (m.setValue o v)

/-- `Variable::devalF(var)` (Variable.cpp:154-176); `k` is `var.m_nidx`. -/
def fwdO (P : Prim K) (D : Defs K) (k : ℕ) : ℕ → ℕ → Mem K → Option (K × Mem K)
  | 0, _, _ => none
  | fuel + 1, o, m =>
      if m.visited o = false then do
        let m ← fwdItems P D (evalO P D fuel) (fwdO P D k fuel) o (D.items o) (m.setVisited o true)
        some (if D.nidx o = k then 1 else m.dvalue o, m)
      else
        some (if D.nidx o = k then 1 else m.dvalue o, m)

/-! ## Reverse mode -/

/-- `m_nidx` of a node. -/
def nodeIdx (D : Defs K) : Node K → ℕ
  | .leaf o => D.nidx o
  | .par p => D.pnidx p
  | .op1 n _ _ => n
  | .op2 n _ _ _ => n

/-- `m_visited` of a node: operator nodes and Parameters never set it. -/
def nodeVisited (m : Mem K) : Node K → Bool
  | .leaf o => m.visited o
  | _ => false

/-- `m_cache` of an operand.  Operator nodes below another operator are fresh clones on which
`traverse(nullptr)` was never called, so their own `m_cache` is empty; `Parameter::m_cache` is
never written. -/
def nodeCache (m : Mem K) : Node K → Cache K
  | .leaf o => m.cache o
  | _ => fun _ => 0

/-- `(*cache)[idx] += s`. -/
def Cache.addAt (c : Cache K) (i : ℕ) (s : K) : Cache K := Function.update c i (c i + s)

/-- `for (idx,val) in child: (*cache)[idx] += val * s` (e.g. GenericProduct.hpp:122-127). -/
def Cache.merge (c child : Cache K) (s : K) : Cache K := fun i => c i + child i * s

/-- the guarded merge loops of `traverse`: skip when the merge is guarded and the guard is zero. -/
def Cache.mergeIf (guarded : Bool) (g : K) (c child : Cache K) (s : K) : Cache K :=
  if guarded ∧ g = 0 then c else c.merge child s

/-- Evaluate the operand inside `traverse` when the operator needs its value. -/
def val1 (P : Prim K) (D : Defs K) (recE : ℕ → Mem K → Option (K × Mem K)) (f : Op1 K) (a : Node K)
    (m : Mem K) : Option (K × Mem K) :=
  if f.usesVal then evalN P D recE a m else some (0, m)

/-- Evaluate both operands inside `traverse` when the operator needs their values. -/
def val2 (P : Prim K) (D : Defs K) (recE : ℕ → Mem K → Option (K × Mem K)) (f : Op2 K)
    (a b : Node K) (m : Mem K) : Option (K × K × Mem K) :=
  if f.usesVal then
    if f.rightFirstD then do
      let (v, m) ← evalN P D recE b m
      let (u, m) ← evalN P D recE a m
      some (u, v, m)
    else do
      let (u, m) ← evalN P D recE a m
      let (v, m) ← evalN P D recE b m
      some (u, v, m)
  else some (0, 0, m)

/-- `if (false == mp_left->m_visited) mp_left->traverse(cache);` -/
def unlessVisited (a : Node K) (c : Cache K) (m : Mem K) (r : Option (Cache K × Mem K)) :
    Option (Cache K × Mem K) :=
  if nodeVisited m a then some (c, m) else r

/-- `traverse(cache)` with a non-null cache (the `else` branches of `traverse` in every operator,
e.g. GenericProduct.hpp:140-183).  `Variable::traverse` ignores the cache passed to it. -/
def revN (P : Prim K) (D : Defs K) (recE : ℕ → Mem K → Option (K × Mem K))
    (recT : ℕ → Mem K → Option (Mem K)) :
    Node K → Cache K → Mem K → Option (Cache K × Mem K)
  | .leaf o, c, m => do
      let m ← recT o m
      some (c, m)
  | .par _, c, m => some (c, m)
  | .op1 n f a, c₀, m => do
      let (c, m) ← unlessVisited a c₀ m (revN P D recE recT a c₀ m)
      let (u, m) ← val1 P D recE f a m
      let s := f.rev P u (c₀ n)
      let c := c.addAt (nodeIdx D a) s
      let c := c.mergeIf true s (nodeCache m a) s
      unlessVisited a c m (revN P D recE recT a c m)
  | .op2 n f a b, c₀, m => do
      let (c, m) ← unlessVisited a c₀ m (revN P D recE recT a c₀ m)
      let (c, m) ← unlessVisited b c m (revN P D recE recT b c m)
      let (u, v, m) ← val2 P D recE f a b m
      let sl := f.revL P u v (c₀ n)
      let sr := f.revR P u v (c₀ n)
      let c := c.addAt (nodeIdx D a) sl
      let c := c.addAt (nodeIdx D b) sr
      let c := c.mergeIf true (if f.guardByAdj then c₀ n else sl) (nodeCache m a) sl
      let c := c.mergeIf true (if f.guardByAdj then c₀ n else sr) (nodeCache m b) sr
      let (c, m) ← unlessVisited a c m (revN P D recE recT a c m)
      unlessVisited b c m (revN P D recE recT b c m)

/-- `item->traverse()` with a null cache followed by `item->getCache()`
(Variable.cpp:233-239; root branches of `traverse`, e.g. GenericProduct.hpp:95-139). -/
def revRoot (P : Prim K) (D : Defs K) (recE : ℕ → Mem K → Option (K × Mem K))
    (recT : ℕ → Mem K → Option (Mem K)) :
    Node K → Mem K → Option (Cache K × Mem K)
  | .leaf o, m => do
      let m ← recT o m
      some (m.cache o, m)
  | .par _, m => some (fun _ => 0, m)
  | .op1 _ f a, m => do
      let c : Cache K := fun _ => 0
      let (c, m) ← unlessVisited a c m (revN P D recE recT a c m)
      let (u, m) ← val1 P D recE f a m
      let s := f.revRoot P u
      let c := c.addAt (nodeIdx D a) s
      let c := c.mergeIf f.guardRoot s (nodeCache m a) s
      unlessVisited a c m (revN P D recE recT a c m)
  | .op2 _ f a b, m => do
      let c : Cache K := fun _ => 0
      let (c, m) ← unlessVisited a c m (revN P D recE recT a c m)
      let (c, m) ← unlessVisited b c m (revN P D recE recT b c m)
      let (u, v, m) ← val2 P D recE f a b m
      let sl := f.revRootL P u v
      let sr := f.revRootR P u v
      let c := c.addAt (nodeIdx D a) sl
      let c := c.addAt (nodeIdx D b) sr
      let c := c.mergeIf f.guardRoot sl (nodeCache m a) sl
      let c := c.mergeIf f.guardRoot sr (nodeCache m b) sr
      let (c, m) ← unlessVisited a c m (revN P D recE recT a c m)
      unlessVisited b c m (revN P D recE recT b c m)

/-- The loop of `Variable::traverse` (Variable.cpp:231-241). -/
def revItems (P : Prim K) (D : Defs K) (recE : ℕ → Mem K → Option (K × Mem K))
    (recT : ℕ → Mem K → Option (Mem K)) (o : ℕ) : List (Node K) → Mem K → Option (Mem K)
  | [], m => some m
  | i :: is, m => do
      let (c, m) ← revRoot P D recE recT i m
      let (v, m) ← evalN P D recE i m
      revItems P D recE recT o is ((m.setValue o v).setCache o c)

/-- `Variable::traverse` (Variable.cpp:227-243). -/
def revO (P : Prim K) (D : Defs K) : ℕ → ℕ → Mem K → Option (Mem K)
  | 0, _, _ => none
  | fuel + 1, o, m =>
      if m.visited o = false then
        revItems P D (evalO P D fuel) (revO P D fuel) o (D.items o) (m.setVisited o true)
      else some m

/-! ## Reset -/

/-- `reset()` of a tree: BINARY_RESET etc. (IVariable.hpp:60-97).  The operator nodes' own flags
and caches carry no information in this model (see `nodeVisited`, `nodeCache`); the symbolic
temporaries reset by `resetTemp` are not part of this heap. -/
def resetN (rec : ℕ → Mem K → Option (Mem K)) : Node K → Mem K → Option (Mem K)
  | .leaf o, m => rec o m
  | .par _, m => some m
  | .op1 _ _ a, m => resetN rec a m
  | .op2 _ _ a b, m => do
      let m ← resetN rec a m
      resetN rec b m

/-- the `for_each` loops of `reset`/`resetImpl` (Variable.cpp:121-125, 255-260) -/
def resetItems (rec : ℕ → Mem K → Option (Mem K)) : List (Node K) → Mem K → Option (Mem K)
  | [], m => some m
  | i :: is, m => do
      let m ← resetN rec i m
      resetItems rec is m

/-- the tail of `Variable::reset` (Variable.cpp:263-275) -/
def Mem.clearObj (D : Defs K) (m : Mem K) (o : ℕ) : Mem K :=
  (((m.setVisited o false).setValue o (D.base o)).setDValue o 0).setCache o (fun _ => 0)

/-- `Variable::reset()` (Variable.cpp:251-276). -/
def resetO (D : Defs K) : ℕ → ℕ → Mem K → Option (Mem K)
  | 0, _, _ => none
  | fuel + 1, o, m =>
      if m.visited o = true then do
        let m ← resetItems (resetO D fuel) (D.items o) (m.setVisited o false)
        some (m.clearObj D o)
      else some (m.clearObj D o)

/-- `Variable::resetImpl()` (Variable.cpp:118-127). -/
def resetImpl (D : Defs K) (fuel : ℕ) (o : ℕ) (m : Mem K) : Option (Mem K) := do
  let m ← resetItems (resetO D fuel) (D.items o) (m.setVisited o true)
  some (m.setVisited o false)

/-! ## User-visible operations -/

/-- Depth bound used by the user-visible operations: never reached (`Verif.Scalar.Termination`). -/
def Defs.fuel (D : Defs K) : ℕ := D.size + 2

/-- `CoolDiff::TensorR1::Eval(Expression&)` (src/Scalar/CommonFunctions.cpp:32-37). -/
def Eval (P : Prim K) (y : ℕ) (σ : St K) : Option (K × St K) := do
  let m ← resetImpl σ.defs σ.defs.fuel y σ.mem
  let (v, m) ← evalO P σ.defs σ.defs.fuel y m
  some (v, ⟨σ.defs, m⟩)

/-- `CoolDiff::TensorR1::DevalF(Expression&, x)` (CommonFunctions.cpp:40-45); `x` is the object of
the variable. -/
def DevalF (P : Prim K) (y x : ℕ) (σ : St K) : Option (K × St K) := do
  let m ← resetImpl σ.defs σ.defs.fuel y σ.mem
  let (v, m) ← fwdO P σ.defs (σ.defs.nidx x) σ.defs.fuel y m
  some (v, ⟨σ.defs, m⟩)

/-- `CoolDiff::TensorR1::PreComp(Expression&)` (CommonFunctions.cpp:54-59). -/
def PreComp (P : Prim K) (y : ℕ) (σ : St K) : Option (St K) := do
  let m ← resetImpl σ.defs σ.defs.fuel y σ.mem
  let m ← revO P σ.defs σ.defs.fuel y m
  some ⟨σ.defs, m⟩

/-- `CoolDiff::TensorR1::DevalR(Expression&, x)` = `m_cache[x.m_nidx]`
(CommonFunctions.cpp:48-51, Variable.cpp:179-181). -/
def DevalR (y x : ℕ) (σ : St K) : K := σ.mem.cache y (σ.defs.nidx x)

/-- The heap before any user object exists.  Object 0 is the static `Variable::t0`, whose value
is 0 (Variable.cpp:25); other statics (`Variable::t1`, `Expression::t0/t1`) are not reachable from
user expressions except through symbolic differentiation and are omitted here. -/
def St.init : St K where
  defs := { size := 1, psize := 0, next := 1, nidx := fun o => o, base := fun _ => 0,
            items := fun _ => [], par := fun _ => 0, pnidx := fun p => p }
  mem := { visited := fun _ => false, value := fun _ => 0, dvalue := fun _ => 0,
           cache := fun _ _ => 0 }

/-- `Variable x(v)` (Variable.cpp:44-53): returns the object number. -/
def newVar (v : K) (σ : St K) : ℕ × St K :=
  let o := σ.defs.size
  (o, { defs := { σ.defs with
          size := o + 1
          next := σ.defs.next + 1
          nidx := Function.update σ.defs.nidx o σ.defs.next
          base := Function.update σ.defs.base o v
          items := Function.update σ.defs.items o [] }
        mem := { visited := Function.update σ.mem.visited o false
                 value := Function.update σ.mem.value o v
                 dvalue := Function.update σ.mem.dvalue o 0
                 cache := Function.update σ.mem.cache o (fun _ => 0) } })

/-- `Parameter p(v)` (Parameter.cpp:38-41).  The constructor also allocates the Variable holding
the value (`mp_tmp`), which takes one more number from the counter. -/
def newPar (v : K) (σ : St K) : ℕ × St K :=
  let p := σ.defs.psize
  (p, { defs := { σ.defs with
          psize := p + 1
          next := σ.defs.next + 2
          pnidx := Function.update σ.defs.pnidx p σ.defs.next
          par := Function.update σ.defs.par p v }
        mem := σ.mem })

/-- `Expression y;` (Expression.cpp:27-33): the equation list starts with a reference to
`Variable::t0`.  The base-class constructor `Variable()` has already taken one number. -/
def newExpr (σ : St K) : ℕ × St K :=
  let o := σ.defs.size
  (o, { defs := { σ.defs with
          size := o + 1
          next := σ.defs.next + 2
          nidx := Function.update σ.defs.nidx o (σ.defs.next + 1)
          base := Function.update σ.defs.base o 0
          items := Function.update σ.defs.items o [.leaf 0] }
        mem := { visited := Function.update σ.mem.visited o false
                 value := Function.update σ.mem.value o 0
                 dvalue := Function.update σ.mem.dvalue o 0
                 cache := Function.update σ.mem.cache o (fun _ => 0) } })

/-- `Variable::operator=(const Type&)` (Variable.cpp:56-67): the visited flag is left alone. -/
def assignNum (x : ℕ) (v : K) (σ : St K) : St K where
  defs := { σ.defs with
    base := Function.update σ.defs.base x v
    items := Function.update σ.defs.items x [] }
  mem := { σ.mem with
    value := Function.update σ.mem.value x v
    dvalue := Function.update σ.mem.dvalue x 0
    cache := Function.update σ.mem.cache x (fun _ => 0) }

/-- `Parameter::operator=(const Type&)` (Parameter.cpp:68-71). -/
def assignPar (p : ℕ) (v : K) (σ : St K) : St K :=
  { σ with defs := { σ.defs with par := Function.update σ.defs.par p v } }

/-- `cloneExp()`: the node's operator function is applied again to the stored operands (e.g.
GenericSum.hpp:201-203 `return ((*mp_left) + (*mp_right));`), which clones the operands, left one
first, and then allocates the node with the next number of `m_idx_count` (GenericSum.hpp:372-379);
Variables, Expressions and Parameters return themselves (Expression.hpp:80-82, Variable.hpp:120-122,
Parameter.hpp:88-90). -/
def cloneN : Node K → ℕ → Node K × ℕ
  | .leaf o, n => (.leaf o, n)
  | .par p, n => (.par p, n)
  | .op1 _ f a, n =>
      let r := cloneN a n
      (.op1 r.2 f r.1, r.2 + 1)
  | .op2 _ f a b, n =>
      let r := cloneN a n
      let s := cloneN b r.2
      (.op2 s.2 f r.1 s.1, s.2 + 1)

/-- `findMe(this)` on the right-hand side (CommonHeader.hpp:104-147, Variable.cpp:284-290):
pointer search through operator nodes, never into other Expressions. -/
def findMe (o : ℕ) : Node K → Bool
  | .leaf q => q == o
  | .par _ => false
  | .op1 _ _ a => findMe o a
  | .op2 _ _ a b => findMe o a || findMe o b

/-- `Expression::operator=(const IVariable<T>&)` (Expression.hpp:58-68): store `expr*(Type)1`,
after clearing the previous equations unless the right-hand side mentions the target.
(`operator*(expr, 1)` clones `expr`; GenericProduct.hpp:397-401.) -/
def assignExp (y : ℕ) (e : Node K) (σ : St K) : St K :=
  let old := if findMe y e then σ.defs.items y else []
  let r := cloneN e σ.defs.next
  { σ with defs := { σ.defs with
    next := r.2 + 1
    items := Function.update σ.defs.items y (old ++ [.op1 r.2 (.mulC 1) r.1]) } }

/-- `Expression::operator=(const Expression&)` (Expression.cpp:43-52): stores a reference. -/
def assignRef (y z : ℕ) (σ : St K) : St K :=
  let old := if z == y then σ.defs.items y else []
  { σ with defs := { σ.defs with
    items := Function.update σ.defs.items y (old ++ [.leaf z]) } }

end CoolDiff
