import Verif.Scalar.History

/-!
# Executable model of symbolic differentiation

`SymDiff(y, x)` builds new `Expression` objects on the heap.  Every object and every operator node
carries a value temporary (`mp_tmp`) and derivative temporaries (`mp_dtmp`, one per number), which
are filled by `symEval`/`symDeval`, reused by later calls, and reset by every later `reset`.
-/

namespace CoolDiff

variable {K : Type} [Field K] [DecidableEq K]

/-- What `symEval` returns: a `Variable*`.  It is an object of the heap or the Variable that holds
the value of a Parameter (Parameter.cpp:84-86, `return this->mp_tmp`); the latter is used as a
reference to the Parameter (same value, derivative zero). -/
inductive Ref
  | obj (o : ℕ)
  | par (p : ℕ)
  deriving DecidableEq

/-- Use of a `Variable*` as an operand. -/
def Ref.toExp : Ref → Exp K
  | .obj o => .var o
  | .par p => .par p

/-- The symbolic temporaries of MetaVariable.hpp:29-31. -/
structure Tmps where
  /-- `mp_tmp` of the objects -/
  tmp : ℕ → Option Ref
  /-- `mp_dtmp` of the objects: a `Variable` only uses the entry with its own number
  (Variable.cpp:186-189, 198, 215) -/
  dtmp : ℕ → Option ℕ
  /-- `mp_tmp` of the operator nodes, by `m_nidx` -/
  otmp : ℕ → Option ℕ
  /-- `mp_dtmp` of the operator nodes, by `m_nidx`: the entries (number of the variable, result).
  The iteration order of the `unordered_map` is not modelled: it only matters for the order of
  resets -/
  odtmp : ℕ → List (ℕ × ℕ)

/-- Heap with symbolic temporaries. -/
structure SSt (K : Type) where
  st : St K
  tm : Tmps
  /-- the object `Variable::t1` (Variable.cpp:24) -/
  one : ℕ

/-! ## The formulas built by the operator nodes -/

/-- The calls `EVAL_L()`, `EVAL_R()`, `DEVAL_L(var)`, `DEVAL_R(var)` (CommonHeader.hpp:95-101).  In
nodes with one operand the operand is called left here. -/
inductive Hole
  | evL | evR | deL | deR
  deriving DecidableEq

/-- One-operand forms used in the formulas. -/
inductive UForm (K : Type)
  | fn (f : Fn) | mulC (c : K) | cMul (c : K) | cAdd (c : K) | cSub (c : K) | subC (c : K)
  | cDiv (c : K) | powC (c : K) | cPow (c : K)

/-- Two-operand forms used in the formulas. -/
inductive BForm
  | add | sub | mul | div | pow

/-- The C++ expression a form stands for. -/
def UForm.app : UForm K → Exp K → Exp K
  | .fn f, a => .fn f a
  | .mulC c, a => .mulC a c
  | .cMul c, a => .cMul c a
  | .cAdd c, a => .cAdd c a
  | .cSub c, a => .cSub c a
  | .subC c, a => .subC a c
  | .cDiv c, a => .cDiv c a
  | .powC c, a => .powC a c
  | .cPow c, a => .cPow c a

@[inherit_doc UForm.app]
def BForm.app : BForm → Exp K → Exp K → Exp K
  | .add, a, b => .add a b
  | .sub, a, b => .sub a b
  | .mul, a, b => .mul a b
  | .div, a, b => .div a b
  | .pow, a, b => .pow a b

/-- The argument of `Allocate<Expression>(...)` in `symEval`/`symDeval`. -/
inductive Tm (K : Type)
  | hole (h : Hole)
  | un (g : UForm K) (a : Tm K)
  | bin (g : BForm) (a b : Tm K)

open Tm in
/-- Derivative formulas of the elementary functions: line 67 of `UnaryOps/Generic<Fn>.hpp`
(line 66 of GenericASinh.hpp). -/
def Fn.symDer : Fn → Tm K
  | .sin => bin .mul (un (.fn .cos) (hole .evL)) (hole .deL)
  | .cos => bin .mul (un (.cMul (-1)) (un (.fn .sin) (hole .evL))) (hole .deL)
  | .tan => bin .mul (un (.cAdd 1) (bin .mul (un (.fn .tan) (hole .evL)) (un (.fn .tan) (hole .evL))))
      (hole .deL)
  | .sinh => bin .mul (un (.fn .cosh) (hole .evL)) (hole .deL)
  | .cosh => bin .mul (un (.fn .sinh) (hole .evL)) (hole .deL)
  | .tanh => bin .mul (un (.cSub 1) (bin .mul (un (.fn .tanh) (hole .evL)) (un (.fn .tanh) (hole .evL))))
      (hole .deL)
  | .asin => bin .mul (un (.cDiv 1) (un (.fn .sqrt) (un (.cSub 1) (bin .mul (hole .evL) (hole .evL)))))
      (hole .deL)
  | .acos => bin .mul (un (.cDiv (-1)) (un (.fn .sqrt) (un (.cSub 1) (bin .mul (hole .evL) (hole .evL)))))
      (hole .deL)
  | .atan => bin .mul (un (.cDiv 1) (un (.cAdd 1) (bin .mul (hole .evL) (hole .evL)))) (hole .deL)
  | .asinh => bin .mul (un (.cDiv 1) (un (.fn .sqrt) (un (.cAdd 1) (bin .mul (hole .evL) (hole .evL)))))
      (hole .deL)
  | .acosh => bin .mul (un (.cDiv 1) (un (.fn .sqrt) (un (.subC 1) (bin .mul (hole .evL) (hole .evL)))))
      (hole .deL)
  | .atanh => bin .mul (un (.cDiv (-1)) (un (.subC 1) (bin .mul (hole .evL) (hole .evL)))) (hole .deL)
  | .sqrt => bin .mul (un (.cDiv (1 / 2)) (un (.fn .sqrt) (hole .evL))) (hole .deL)
  | .exp => bin .mul (un (.fn .exp) (hole .evL)) (hole .deL)
  | .log => bin .mul (un (.cDiv 1) (hole .evL)) (hole .deL)

open Tm in
/-- `symEval` of the one-operand nodes: line 57 of `UnaryOps/Generic<Fn>.hpp`, GenericSum.hpp:243,
GenericProduct.hpp:250, GenericDiv.hpp:260 (`(Type)(1) / (EVAL_R())`: the numerator of the node is
not used), GenericPow.hpp:257 and 411.  User operators abort (GenericScalarUnary.hpp:40-43). -/
def Op1.symVal : Op1 K → Option (Tm K)
  | .fn f => some (un (.fn f) (hole .evL))
  | .addC c => some (un (.cAdd c) (hole .evL))
  | .mulC c => some (un (.cMul c) (hole .evL))
  | .divC _ => some (un (.cDiv 1) (hole .evL))
  | .cPow c => some (un (.cPow c) (hole .evL))
  | .powC c => some (un (.powC c) (hole .evL))
  | .custom _ _ => none

open Tm in
/-- `symDeval` of the one-operand nodes: GenericSum.hpp:253, GenericProduct.hpp:260,
GenericDiv.hpp:270, GenericPow.hpp:267 (`log(mp_left)` is a number) and 421,
GenericScalarUnary.hpp:44-47. -/
def Op1.symDer (P : Prim K) : Op1 K → Option (Tm K)
  | .fn f => some f.symDer
  | .addC _ => some (hole .deL)
  | .mulC c => some (un (.cMul c) (hole .deL))
  | .divC c => some (bin .div (un (.cMul (-1)) (un (.mulC c) (hole .deL)))
      (bin .mul (hole .evL) (hole .evL)))
  | .cPow c => some (un (.mulC (P.log c)) (bin .mul (un (.cPow c) (hole .evL)) (hole .deL)))
  | .powC c => some (bin .mul (un (.cMul c) (un (.powC (c - 1)) (hole .evL))) (hole .deL))
  | .custom _ _ => none

open Tm in
/-- `symEval` of the two-operand nodes: GenericSum.hpp:60, GenericSub.hpp:60, GenericProduct.hpp:59,
GenericDiv.hpp:60, GenericPow.hpp:60, GenericScalarBinary.hpp:42-45. -/
def Op2.symVal : Op2 K → Option (Tm K)
  | .add => some (bin .add (hole .evL) (hole .evR))
  | .sub => some (bin .sub (hole .evL) (hole .evR))
  | .mul => some (bin .mul (hole .evR) (hole .evL))
  | .div => some (bin .div (hole .evL) (hole .evR))
  | .pow => some (bin .pow (hole .evL) (hole .evR))
  | .custom _ _ _ => none

open Tm in
/-- `symDeval` of the two-operand nodes: GenericSum.hpp:70, GenericSub.hpp:70, GenericProduct.hpp:69,
GenericDiv.hpp:70, GenericPow.hpp:70, GenericScalarBinary.hpp:46-49. -/
def Op2.symDer : Op2 K → Option (Tm K)
  | .add => some (bin .add (hole .deL) (hole .deR))
  | .sub => some (bin .sub (hole .deL) (hole .deR))
  | .mul => some (bin .add (bin .mul (hole .deL) (hole .evR)) (bin .mul (hole .deR) (hole .evL)))
  | .div => some (bin .div (bin .sub (bin .mul (hole .evR) (hole .deL)) (bin .mul (hole .evL) (hole .deR)))
      (bin .mul (hole .evR) (hole .evR)))
  | .pow => some (bin .mul (bin .pow (hole .evL) (hole .evR))
      (bin .add (bin .mul (bin .div (hole .evR) (hole .evL)) (hole .deL))
        (bin .mul (hole .deR) (un (.fn .log) (hole .evL)))))
  | .custom _ _ _ => none

/-! ## Building -/

/-- `Allocate<Expression>(e)`: constructor `Expression(const IVariable<T>&)` (Expression.hpp:49-55),
which stores `e*(Type)1`.  The order in which the new object and its operator nodes take their
numbers differs from the code (only that the numbers are fresh is used). -/
def mkExpr (e : Exp K) (s : SSt K) : ℕ × SSt K :=
  ((newExpr s.st).1, { s with st := define (newExpr s.st).1 e (newExpr s.st).2 })

/-- Run the calls of a formula and build it.  C++ leaves the order of evaluation of the two operands
of an overloaded operator open: `rf path` says whether the right operand is evaluated first. -/
def inst (rf : List Bool → Bool) (call : Hole → SSt K → Option (Ref × SSt K)) :
    List Bool → Tm K → SSt K → Option (Exp K × SSt K)
  | _, .hole h, s => (call h s).map fun r => (r.1.toExp, r.2)
  | path, .un g a, s => (inst rf call path a s).map fun r => (g.app r.1, r.2)
  | path, .bin g a b, s =>
      if rf path then
        (inst rf call (true :: path) b s).bind fun r =>
          (inst rf call (false :: path) a r.2).map fun q => (g.app q.1 r.1, q.2)
      else
        (inst rf call (false :: path) a s).bind fun r =>
          (inst rf call (true :: path) b r.2).map fun q => (g.app r.1 q.1, q.2)

namespace SSt

/-- `this->mp_tmp = ...` in an operator node. -/
def setOTmp (s : SSt K) (n e : ℕ) : SSt K :=
  { s with tm := { s.tm with otmp := Function.update s.tm.otmp n (some e) } }
/-- `this->mp_dtmp[var.m_nidx] = ...` in an operator node. -/
def setODTmp (s : SSt K) (n k e : ℕ) : SSt K :=
  { s with tm := { s.tm with odtmp := Function.update s.tm.odtmp n ((k, e) :: s.tm.odtmp n) } }
/-- `mp_tmp = ...` in an object. -/
def setTmp (s : SSt K) (o : ℕ) (r : Ref) : SSt K :=
  { s with tm := { s.tm with tmp := Function.update s.tm.tmp o (some r) } }
/-- `mp_dtmp[m_nidx] = ...` in an object. -/
def setDTmp (s : SSt K) (o e : ℕ) : SSt K :=
  { s with tm := { s.tm with dtmp := Function.update s.tm.dtmp o (some e) } }
/-- `this->m_visited = b` in an object. -/
def setVis (s : SSt K) (o : ℕ) (b : Bool) : SSt K :=
  { s with st := { s.st with mem := s.st.mem.setVisited o b } }

end SSt

/-- The look-up of `symDeval`: is there an entry for the variable numbered `k`? -/
def findDer (l : List (ℕ × ℕ)) (k : ℕ) : Option ℕ := (l.find? fun p => p.1 == k).map Prod.snd

variable (P : Prim K) (rf : ℕ → Bool → List Bool → Bool)

/-- `symEval()`: Variable.cpp:179-181, Parameter.cpp:84-86, `Generic<Op>.hpp` (e.g.
GenericSin.hpp:55-61, GenericSum.hpp:57-64).  `rf n false` orders the operand calls of node `n`. -/
def symEvalN : Node K → SSt K → Option (Ref × SSt K)
  | .leaf o, s => some ((s.tm.tmp o).getD (.obj o), s)
  | .par p, s => some (.par p, s)
  | .op1 n f a, s =>
      match s.tm.otmp n with
      | some e => some (.obj e, s)
      | none => f.symVal.bind fun t =>
          (inst (rf n false) (fun h s => match h with
            | .evL => symEvalN a s
            | _ => none) [] t s).map fun r =>
          (.obj (mkExpr r.1 r.2).1, (mkExpr r.1 r.2).2.setOTmp n (mkExpr r.1 r.2).1)
  | .op2 n f a b, s =>
      match s.tm.otmp n with
      | some e => some (.obj e, s)
      | none => f.symVal.bind fun t =>
          (inst (rf n false) (fun h s => match h with
            | .evL => symEvalN a s
            | .evR => symEvalN b s
            | _ => none) [] t s).map fun r =>
          (.obj (mkExpr r.1 r.2).1, (mkExpr r.1 r.2).2.setOTmp n (mkExpr r.1 r.2).1)

/-- `symDeval(var)` of a tree, `k = var.m_nidx`: Parameter.cpp:89-93, `Generic<Op>.hpp` (e.g.
GenericSin.hpp:64-71, GenericSum.hpp:67-74).  `recD` is `symDeval` of the objects. -/
def symDevalN (k : ℕ) (recD : ℕ → SSt K → Option (ℕ × SSt K)) :
    Node K → SSt K → Option (ℕ × SSt K)
  | .leaf o, s => recD o s
  | .par _, s => some (0, s)
  | .op1 n f a, s =>
      match findDer (s.tm.odtmp n) k with
      | some e => some (e, s)
      | none => (f.symDer P).bind fun t =>
          (inst (rf n true) (fun h s => match h with
            | .evL => symEvalN rf a s
            | .deL => (symDevalN k recD a s).map fun r => (.obj r.1, r.2)
            | _ => none) [] t s).map fun r =>
          ((mkExpr r.1 r.2).1, (mkExpr r.1 r.2).2.setODTmp n k (mkExpr r.1 r.2).1)
  | .op2 n f a b, s =>
      match findDer (s.tm.odtmp n) k with
      | some e => some (e, s)
      | none => f.symDer.bind fun t =>
          (inst (rf n true) (fun h s => match h with
            | .evL => symEvalN rf a s
            | .evR => symEvalN rf b s
            | .deL => (symDevalN k recD a s).map fun r => (.obj r.1, r.2)
            | .deR => (symDevalN k recD b s).map fun r => (.obj r.1, r.2)) [] t s).map fun r =>
          ((mkExpr r.1 r.2).1, (mkExpr r.1 r.2).2.setODTmp n k (mkExpr r.1 r.2).1)

/-- The loop of `Variable::symDeval`: `mp_dtmp[m_nidx] = item->symDeval(var);
mp_tmp = item->symEval();` (Variable.cpp:195-202). -/
def symItems (k : ℕ) (recD : ℕ → SSt K → Option (ℕ × SSt K)) (o : ℕ) :
    List (Node K) → SSt K → Option (SSt K)
  | [], s => some s
  | i :: is, s =>
      (symDevalN P rf k recD i s).bind fun d =>
        (symEvalN rf i (d.2.setDTmp o d.1)).bind fun v =>
          symItems k recD o is (v.2.setTmp o v.1)

/-- `Variable::symDeval`, first part: make sure there is a derivative temporary
(Variable.cpp:185-189). -/
def ensureD (o : ℕ) (s : SSt K) : SSt K :=
  match s.tm.dtmp o with
  | some _ => s
  | none => { s with st := (newVar 0 s.st).2 }.setDTmp o (newVar 0 s.st).1

/-- `Variable::symDeval(var)` (Variable.cpp:184-213), `k = var.m_nidx`. -/
def symDevalO (k : ℕ) : ℕ → ℕ → SSt K → Option (ℕ × SSt K)
  | 0, _, _ => none
  | fuel + 1, o, s =>
      (if (ensureD o s).st.mem.visited o = false then
        (symItems P rf k (symDevalO k fuel) o ((ensureD o s).st.defs.items o)
          ((ensureD o s).setVis o true)).map fun s => s.setVis o false
       else some (ensureD o s)).bind fun s =>
        if s.st.defs.nidx o = k then some (s.one, s)
        else (s.tm.dtmp o).map fun e => (e, s)

/-! ## Reset with temporaries -/

/-- Reset of a list of objects. -/
def resetList (rec : ℕ → Mem K → Option (Mem K)) : List ℕ → Mem K → Option (Mem K)
  | [], m => some m
  | o :: os, m => (rec o m).bind fun m => resetList rec os m

/-- Targets of the temporaries of an operator node. -/
def Tmps.opTargets (T : Tmps) (n : ℕ) : List ℕ := (T.otmp n).toList ++ (T.odtmp n).map Prod.snd

/-- Targets of the temporaries of an object. -/
def Tmps.objTargets (T : Tmps) (o : ℕ) : List ℕ :=
  (match T.tmp o with
   | some (.obj e) => [e]
   | _ => []) ++ (T.dtmp o).toList

/-- `reset()` of a tree with temporaries: `resetTemp()` and then the operands (IVariable.hpp:60-97,
MetaVariable.cpp:26-41).  Resetting a Parameter resets the Variable that holds its value, which
changes nothing. -/
def resetNS (T : Tmps) (rec : ℕ → Mem K → Option (Mem K)) : Node K → Mem K → Option (Mem K)
  | .leaf o, m => rec o m
  | .par _, m => some m
  | .op1 n _ a, m => (resetList rec (T.opTargets n) m).bind fun m => resetNS T rec a m
  | .op2 n _ a b, m => (resetList rec (T.opTargets n) m).bind fun m =>
      (resetNS T rec a m).bind fun m => resetNS T rec b m

/-- the `for_each` loops of `reset`/`resetImpl` -/
def resetItemsS (T : Tmps) (rec : ℕ → Mem K → Option (Mem K)) : List (Node K) → Mem K → Option (Mem K)
  | [], m => some m
  | i :: is, m => (resetNS T rec i m).bind fun m => resetItemsS T rec is m

/-- `Variable::reset()` (Variable.cpp:251-276) with the temporaries. -/
def resetOS (D : Defs K) (T : Tmps) : ℕ → ℕ → Mem K → Option (Mem K)
  | 0, _, _ => none
  | fuel + 1, o, m =>
      (if m.visited o = true then resetItemsS T (resetOS D T fuel) (D.items o) (m.setVisited o false)
       else some m).bind fun m =>
        (resetList (resetOS D T fuel) (T.objTargets o) (m.clearObj D o)).map fun m =>
          m.setVisited o false

/-- `Variable::resetImpl()` (Variable.cpp:118-127) with the temporaries of everything but the
object itself. -/
def resetImplS (D : Defs K) (T : Tmps) (fuel : ℕ) (o : ℕ) (m : Mem K) : Option (Mem K) :=
  (resetItemsS T (resetOS D T fuel) (D.items o) (m.setVisited o true)).map fun m =>
    m.setVisited o false

/-! ## User-visible operations -/

/-- Depth bound of `reset`: never reached for non-circular definitions (`resetImplS_total`). -/
def Defs.fuelS (D : Defs K) : ℕ := 2 * D.size + 2

/-- `Eval(y)` (src/Scalar/CommonFunctions.cpp:32-37) on the heap with temporaries. -/
def EvalS (y : ℕ) (s : SSt K) : Option (K × SSt K) :=
  (resetImplS s.st.defs s.tm s.st.defs.fuelS y s.st.mem).bind fun m =>
    (evalO P s.st.defs s.st.defs.fuel y m).map fun r => (r.1, { s with st := ⟨s.st.defs, r.2⟩ })

/-- `DevalF(y, x)` (CommonFunctions.cpp:40-45) on the heap with temporaries. -/
def DevalFS (y x : ℕ) (s : SSt K) : Option (K × SSt K) :=
  (resetImplS s.st.defs s.tm s.st.defs.fuelS y s.st.mem).bind fun m =>
    (fwdO P s.st.defs (s.st.defs.nidx x) s.st.defs.fuel y m).map fun r =>
      (r.1, { s with st := ⟨s.st.defs, r.2⟩ })

/-- `PreComp(y)` (CommonFunctions.cpp:54-59) on the heap with temporaries. -/
def PreCompS (y : ℕ) (s : SSt K) : Option (SSt K) :=
  (resetImplS s.st.defs s.tm s.st.defs.fuelS y s.st.mem).bind fun m =>
    (revO P s.st.defs s.st.defs.fuel y m).map fun m => { s with st := ⟨s.st.defs, m⟩ }

/-- `CoolDiff::TensorR1::SymDiff(Expression&, x)`: `Variable::SymDiff` (reset, then `symDeval`,
Variable.cpp:216-219) and `Expression::SymDiff` (a new Expression assigned the result,
Expression.cpp:59-63).  Returns the new Expression. -/
def symDiff (y x : ℕ) (s : SSt K) : Option (ℕ × SSt K) :=
  (resetImplS s.st.defs s.tm s.st.defs.fuelS y s.st.mem).bind fun m =>
    (symDevalO P rf (s.st.defs.nidx x) s.st.defs.fuel y { s with st := ⟨s.st.defs, m⟩ }).map fun r =>
      mkExpr (.var r.1) r.2

/-- No temporaries. -/
def Tmps.empty : Tmps := ⟨fun _ => none, fun _ => none, fun _ => none, fun _ => []⟩

/-- The heap at program start, with the statics `Variable::t0` (object 0) and `Variable::t1`
(object 1) (Variable.cpp:24-25). -/
def SSt.init : SSt K := ⟨(newVar 1 St.init).2, Tmps.empty, 1⟩

end CoolDiff
