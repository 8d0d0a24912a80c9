import Verif.Matrix.Expr

/-!
# Matrix expressions: reverse differentiation (model)

Model of `traverse` of the operator nodes, of `Matrix<T>::traverse`, of `TensorR2::PreComp` and of
`TensorR2::DevalR(Mexp, X)` for a matrix `X`.

Simplifications (in addition to those of `Expr.lean`).

* The cache entries for scalar variables (`m_cache_v` of `s + X`, `s * X`) are not modelled: their
  keys are numbers of scalar variables, which no query with respect to a matrix reads.
* Cache entries are matrices, not pointers to matrix objects that share buffers.  `RevPtr.lean` models
  the pointers, and `RevSim.lean` shows when both models agree.
* The merge loops visit the entries in an arbitrary order, one after the other (`EXECUTION_PAR` in the
  code; under a parallel policy the insertions into the unordered map are a data race).
-/

set_option linter.unusedSectionVars false

namespace CoolDiff

variable {K : Type} [Field K] [DecidableEq K]

namespace MCache

/-- `cache->find(k)`. -/
def find : MCache K → MKey → Option (Mat K)
  | [], _ => none
  | (k', m) :: l, k => if k' = k then some m else find l k

/-- `(*cache)[k] = m`. -/
def put : MCache K → MKey → Mat K → MCache K
  | [], k, m => [(k, m)]
  | (k', m') :: l, k, m => if k' = k then (k, m) :: l else (k', m') :: put l k m

end MCache

/-- `m_nidx` of an operand. -/
def MNode.key : MNode K → MKey
  | .obj o => .obj o
  | .bin n _ _ _ => .node n
  | .un n _ _ => .node n

/-- `if (cache has k) MATRIX_ADD((*cache)[k], m, (*cache)[k]) else (*cache)[k] = m`
(e.g. GenericMatProduct.hpp:194-204). -/
def kadd (c : MCtx K) (κ : MCache K) (k : MKey) (m : Mat K) : Option (MCache K) :=
  match κ.find k with
  | some cur => (c.B.add .self (.ext m) (some cur)).map (κ.put k)
  | none => some (κ.put k m)

/-- One step of the merge loops: assert that the adjoint `adj` is 1 × 1, scale the child's entry by
it, add (e.g. GenericMatProduct.hpp:211-226). -/
def mergeStep (c : MCtx K) (adj : Mat K) (κ : MCache K) (p : MKey × Mat K) : Option (MCache K) :=
  if adj.rows = 1 ∧ adj.cols = 1 then
    (adj.raw? 0).bind fun v => (c.B.scalarMul v (.ext p.2) none).bind fun m => kadd c κ p.1 m
  else none

/-- The merge of a child's cache, scaled by the (1 × 1) adjoint of the child.  The entries of the
unordered map are visited in an arbitrary order of their keys. -/
def mergeC (c : MCtx K) (κ : MCache K) (adj : Mat K) (child : MCache K) : Option (MCache K) :=
  (c.π.run _ (child.map Prod.fst)).foldlM
    (fun κ k => (child.find k).bind fun m => mergeStep c adj κ (k, m)) κ

/-- `m_cache` of an operand: operator nodes below another operator never fill their own. -/
def childCache (s : MSt K) : MNode K → MCache K
  | .obj o => (s.obj o).cache
  | _ => []

/-- `m_visited` of an operand: operator nodes never set theirs. -/
def visitedOf (s : MSt K) : MNode K → Bool
  | .obj o => (s.obj o).visited
  | _ => false

/-- The adjoints of both operands, from the adjoint `C` of the node.  GenericMatSum.hpp:234-235,
GenericMatSub.hpp:232-233, GenericMatProduct.hpp:262-267, GenericMatHadamard.hpp:264-269,
GenericMatConv.hpp:252-278.  For `conv` the pads `(s * (rrows - 1) + crows - lrows) / 2` are numbers of
type `size_t`; a difference below zero wraps around to a number that is negative as an `int`, which
the handlers reject (MatConvEigenHandler.hpp:66, MatConvNaiveHandler.hpp:46), here a failure. -/
def MBin.rev (c : MCtx K) (op : MBin) (L R C : Mat K) (a : Slots K) :
    Option (Slots K × Mat K × Mat K) :=
  match op with
  | .add => do
    let (a, m4) ← kern 4 (c.B.scalarMul 1 (.ext C)) a
    let (a, m5) ← kern 5 (c.B.scalarMul 1 (.ext C)) a
    some (a, m4, m5)
  | .sub => do
    let (a, m4) ← kern 4 (c.B.scalarMul 1 (.ext C)) a
    let (a, m5) ← kern 5 (c.B.scalarMul (-1) (.ext C)) a
    some (a, m4, m5)
  | .mul => do
    let (a, m9) ← kern 9 (c.B.transpose L) a
    let (a, m8) ← kern 8 (c.B.transpose R) a
    let (a, m10) ← kern 10 (c.B.mul C m8) a
    let (a, m11) ← kern 11 (c.B.mul m9 C) a
    some (a, m10, m11)
  | .had => do
    let (a, m9) ← kern 9 (c.B.scalarMul 1 (.ext L)) a
    let (a, m8) ← kern 8 (c.B.scalarMul 1 (.ext R)) a
    let (a, m10) ← kern 10 (c.B.hadamard (.ext C) (.ext m8)) a
    let (a, m11) ← kern 11 (c.B.hadamard (.ext m9) (.ext C)) a
    some (a, m10, m11)
  | .conv sx sy px py => do
    let (a, m2) ← c.B.conv sx sy px py C R 2 a
    if L.rows ≤ sx * (R.rows - 1) + C.rows ∧ L.cols ≤ sy * (R.cols - 1) + C.cols then
      let (a, m3) ← c.B.conv sx sy ((sx * (R.rows - 1) + C.rows - L.rows) / 2)
        ((sy * (R.cols - 1) + C.cols - L.cols) / 2) L C 3 a
      some (a, m2, m3)
    else none

/-- The adjoint of the operand, from the adjoint `C` of the node.  GenericMatSum.hpp:459, 695;
GenericMatProduct.hpp:500, 759; GenericMatTranspose.hpp:188; GenericMatUnary.hpp:110-111;
GenericMatInv.hpp:219-223; GenericMatDet.hpp:220, 230-240. -/
def MUn.rev (c : MCtx K) (op : MUn K) (R C : Mat K) (a : Slots K) : Option (Slots K × Mat K) :=
  match op with
  | .sadd _ => kern 3 (c.B.scalarMul 1 (.ext C)) a
  | .smul v => kern 3 (c.B.scalarMul v (.ext C)) a
  | .saddE _ => kern 8 (c.B.scalarMul 1 (.ext C)) a
  | .smulE s => kern 12 (c.B.scalarMul (c.sc.val s) (.ext C)) a
  | .tr => kern 4 (c.B.transpose C) a
  | .map _ df => do
    let (a, m5) ← kern 5 (c.B.unary df (.ext R)) a
    kern 6 (c.B.hadamard (.ext m5) (.ext C)) a
  | .inv => do
    let (a, m11) ← kern 11 (c.B.transpose R) a
    let (a, m12) ← kern 12 (c.B.inverse m11) a
    let (a, m13) ← kern 13 (c.B.mul m12 C) a
    let (a, m14) ← kern 14 (c.B.mul m13 m12) a
    kern 15 (c.B.scalarMul (-1) (.ext m14)) a
  | .det => do
    let cv ← C.raw? 0
    let (a, m15) ← kern 15 (c.B.inverse R) a
    let (a, m16) ← kern 16 (c.B.transpose m15) a
    let (a, m17) ← kern 17 (c.B.det R) a
    let d ← m17.raw? 0
    let (a, m18) ← kern 18 (c.B.scalarMul d (.ext m16)) a
    kern 19 (c.B.scalarMul cv (.ext m18)) a

/-- Does the reverse rule evaluate the operand?  (Lines as for `MUn.rev`.) -/
def MUn.revEvals : MUn K → Bool
  | .sadd _ | .smul _ | .saddE _ | .tr => false
  | _ => true

/-- Evaluate both operands if the reverse rule needs their values (sums and differences do not). -/
def revVals2 (c : MCtx K) (ev : ℕ → MSt K → Option (MSt K × Mat K)) (op : MBin) (x y : MNode K)
    (C : Mat K) (s : MSt K) : Option (MSt K × Mat K × Mat K) :=
  if op.evalsOperands then do
    let (s, L) ← evalE c ev x s
    let (s, R) ← evalE c ev y s
    some (s, L, R)
  else some (s, C, C)

/-- Evaluate the operand if the reverse rule needs its value. -/
def revVals1 (c : MCtx K) (ev : ℕ → MSt K → Option (MSt K × Mat K)) (op : MUn K) (x : MNode K)
    (C : Mat K) (s : MSt K) : Option (MSt K × Mat K) :=
  if op.revEvals then evalE c ev x s else some (s, C)

/-- `if (false == mp_left->m_visited) mp_left->traverse(cache)`. -/
def unlessSeen (a : MNode K) (κ : MCache K) (s : MSt K) (r : Option (MCache K × MSt K)) :
    Option (MCache K × MSt K) :=
  if visitedOf s a then some (κ, s) else r

/-- Add the operands' adjoints to the cache and merge the operands' own caches, scaled. -/
def push2 (c : MCtx K) (x y : MNode K) (mL mR : Mat K) (κ : MCache K) (s : MSt K) :
    Option (MCache K) := do
  let κ ← kadd c κ x.key mL
  let κ ← kadd c κ y.key mR
  let κ ← mergeC c κ mL (childCache s x)
  mergeC c κ mR (childCache s y)

/-- The same for one operand. -/
def push1 (c : MCtx K) (x : MNode K) (m : Mat K) (κ : MCache K) (s : MSt K) :
    Option (MCache K) := do
  let κ ← kadd c κ x.key m
  mergeC c κ m (childCache s x)

/-- `traverse(cache)` of an expression with a non-null cache.  `Matrix<T>::traverse` ignores the
cache it is given.  An operator node without entry in the cache only traverses its operands.
GenericMatProduct.hpp:243-331, GenericMatSum.hpp:219-300, 454-497, 697-777, GenericMatSub.hpp:218-299,
GenericMatHadamard.hpp:244-333, GenericMatProduct.hpp:487-538, 746-827,
GenericMatTranspose.hpp:175-222, GenericMatUnary.hpp:101-136, GenericMatInv.hpp:203-259,
GenericMatDet.hpp:214-286. -/
def travE (c : MCtx K) (ev : ℕ → MSt K → Option (MSt K × Mat K))
    (tr : ℕ → MSt K → Option (MSt K)) : MNode K → MCache K → MSt K → Option (MCache K × MSt K)
  | .obj o, κ, s => (tr o s).map fun s => (κ, s)
  | .bin n op x y, κ, s => do
    let (κ, s) ← (match κ.find (.node n) with
      | none => some (κ, s)
      | some C => do
        let (κ, s) ← unlessSeen x κ s (travE c ev tr x κ s)
        let (κ, s) ← unlessSeen y κ s (travE c ev tr y κ s)
        let (s, L, R) ← revVals2 c ev op x y C s
        let (a, mL, mR) ← op.rev c L R C (s.slot n)
        let κ ← push2 c x y mL mR κ (s.setN n a)
        some (κ, s.setN n a))
    let (κ, s) ← unlessSeen x κ s (travE c ev tr x κ s)
    unlessSeen y κ s (travE c ev tr y κ s)
  | .un n op x, κ, s => do
    let (κ, s) ← (match κ.find (.node n) with
      | none => some (κ, s)
      | some C => do
        let (κ, s) ← unlessSeen x κ s (travE c ev tr x κ s)
        let (s, R) ← revVals1 c ev op x C s
        let (a, m) ← op.rev c R C (s.slot n)
        let κ ← push1 c x m κ (s.setN n a)
        some (κ, s.setN n a))
    unlessSeen x κ s (travE c ev tr x κ s)

/-- `traverse()` (null cache) of the product node `n` stored for a formula.
GenericMatProduct.hpp:164-242 and 323-331; the entries are transposes of the operand values. -/
def travRoot (c : MCtx K) (ev : ℕ → MSt K → Option (MSt K × Mat K))
    (tr : ℕ → MSt K → Option (MSt K)) (n : ℕ) (x y : MNode K) (s : MSt K) :
    Option (MCache K × MSt K) := do
  let (κ, s) ← unlessSeen x [] s (travE c ev tr x [] s)
  let (κ, s) ← unlessSeen y κ s (travE c ev tr y κ s)
  let (s, L) ← evalE c ev x s
  let (s, R) ← evalE c ev y s
  let (a, m7) ← kern 7 (c.B.transpose L) (s.slot n)
  let (a, m6) ← kern 6 (c.B.transpose R) a
  let s := s.setN n a
  let κ ← push2 c x y m6 m7 κ s
  let (κ, s) ← unlessSeen x κ s (travE c ev tr x κ s)
  unlessSeen y κ s (travE c ev tr y κ s)

/-- `Matrix<T>::traverse`.  MatrixVirtuals.ipp:104-124. -/
def mtravO (c : MCtx K) : ℕ → ℕ → MSt K → Option (MSt K)
  | 0, _, _ => none
  | f + 1, o, s =>
    if (s.obj o).visited then some s
    else
      match c.E.kind o with
      | .form n e eye => do
        let s := s.setO o { s.obj o with visited := true }
        let (κ, s) ← travRoot c (mevalO c f) (mtravO c f) n e (.obj eye) s
        let (s, m) ← evalE c (mevalO c f) (MEnv.item n e eye) s
        some (s.setO o { s.obj o with result := some m, evald := true, cache := κ })
      | _ => some (s.setO o { s.obj o with visited := true })

/-- Reset before `PreComp`: `resetImpl` for `Matrix<Expression>`, `reset` for the others.
CommonMatFunctions.hpp:79-90. -/
def precompReset (E : MEnv K) (f o : ℕ) (s : MSt K) : Option (MSt K) :=
  match E.kind o with
  | .form _ _ _ => mresetImpl E f o s
  | .exp => mresetImpl E f o s
  | _ => mresetO E f o s

/-- `TensorR2::PreComp(Mexp)`.  CommonMatFunctions.hpp:77-91. -/
def matPreComp (c : MCtx K) (f o : ℕ) (s : MSt K) : Option (MSt K) := do
  let s ← precompReset c.E f o s
  mtravO c f o s

/-- `TensorR2::DevalR(Mexp, X)`.  CommonMatFunctions.hpp:97-116: `is_base_of_v<U, MetaMatrix>` has
its arguments swapped and is false for every matrix class `U`, so a missing entry yields zeros of
the dimensions of `Mexp`. -/
def matDevalR (E : MEnv K) (o X : ℕ) (s : MSt K) : Option (Mat K) :=
  match (s.obj o).cache.find (.obj X) with
  | some m => some m
  | none => Mat.zeros (E.rows o) (E.cols o)

end CoolDiff
