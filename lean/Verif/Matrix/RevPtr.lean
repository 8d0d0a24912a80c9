import Verif.Matrix.Rev

/-!
# Matrix expressions: reverse differentiation with pointers (model)

`Rev.lean` treats the entries of the reverse-mode caches as matrices.  In the code they are pointers
to `Matrix<Type>` objects whose data buffers are shared: `clone` copies the dimensions and the pointer
to the buffer (`assignClone`), sums are added in place, and the clones and the scaled entries of nested
formulas are kept in the vector `m_cloned` of every operator node, which a later `PreComp` reuses.
This file models objects, buffers, `m_cloned` and its counter.  `RevSim.lean` shows under which
conditions it computes the same as `Rev.lean`.

Simplifications (in addition to those of `Rev.lean`, except the one about pointers).

* A cache entry holds a copy of the header (dimensions, buffer) of the object it points to.  After the
  traversal of a node all entries point to objects in `m_cloned` of that node, and their headers
  change only when the node is traversed again.
* Only the result objects of the reverse rules have buffers in the heap; the other work matrices of
  the nodes are `base.slot` as before (no kernel reads the previous contents of its result, C31).
  Slot `arr 0` is the object for the adjoint of the left (or only) operand, `arr 1` that of the right
  one: `mp_arr[6]`, `mp_arr[7]` of the product stored for a formula (GenericMatProduct.hpp:186-187),
  the results of `MBin.rev` and `MUn.rev` for the other nodes.
* A new object gets a new buffer, numbered by the node that requests it.
-/

set_option linter.unusedSectionVars false

namespace CoolDiff

variable {K : Type} [Field K] [DecidableEq K]

/-- A data buffer (`mp_allocator`): the node that requested it and a number. -/
abbrev BufRef := ℕ × ℕ

/-- A `Matrix<Type>` object: `m_rows`, `m_cols` and the (shared) data buffer `mp_allocator`.
Matrix.hpp:104-122. -/
structure PHdr where
  rows : ℕ
  cols : ℕ
  buf : BufRef
deriving DecidableEq

/-- Where a node keeps objects: `mp_arr` or `m_cloned` (MetaMatrix.hpp:36). -/
inductive PSlot | arr (i : ℕ) | cln (j : ℕ)
deriving DecidableEq

/-- `OMMatPair` as a list of entries. -/
abbrev PCache := List (MKey × PHdr)

namespace PCache

/-- `cache->find(k)`. -/
def find : PCache → MKey → Option PHdr
  | [], _ => none
  | (k', m) :: l, k => if k' = k then some m else find l k

/-- `(*cache)[k] = m`. -/
def put : PCache → MKey → PHdr → PCache
  | [], k, m => [(k, m)]
  | (k', m') :: l, k, m => if k' = k then (k, m) :: l else (k', m') :: put l k m

end PCache

/-- Program state with pointers.  `base`: everything but the caches (the `cache` fields of `base` are
not used); `dat`: contents of the buffers; `next`: number of the next buffer of a node; `slots`:
objects kept by the nodes; `cnt`: the number that the next call of `incFunc` of a node returns;
`cache`: the caches (`m_cache`) of the named matrices. -/
structure PSt (K : Type) where
  base : MSt K
  dat : BufRef → List K
  next : ℕ → ℕ
  slots : ℕ → PSlot → Option PHdr
  cnt : ℕ → ℕ
  cache : ℕ → PCache

namespace PSt

/-- A program before any query.  `m_clone_counter{}` is 0 (MetaMatrix.hpp:38), and `incFunc`
increments before it returns (MetaMatrix.cpp:51-57). -/
def fresh : PSt K := ⟨MSt.fresh, fun _ => [], fun _ => 0, fun _ _ => none, fun _ => 1, fun _ => []⟩

/-- The matrix held by an object. -/
def read (p : PSt K) (h : PHdr) : Mat K := ⟨h.rows, h.cols, p.dat h.buf⟩

/-- A cache, read through the pointers. -/
def rd (p : PSt K) (κ : PCache) : MCache K := κ.map fun e => (e.1, p.read e.2)

/-- The state with the caches read through the pointers: a state of `Rev.lean`. -/
def val (p : PSt K) : MSt K :=
  ⟨fun o => { p.base.obj o with cache := p.rd (p.cache o) }, p.base.slot⟩

/-- Write a buffer. -/
def write (p : PSt K) (r : BufRef) (d : List K) : PSt K := { p with dat := Function.update p.dat r d }

/-- Put an object into a slot of node `n`. -/
def setS (p : PSt K) (n : ℕ) (σ : PSlot) (h : PHdr) : PSt K :=
  { p with slots := Function.update p.slots n (Function.update (p.slots n) σ (some h)) }

/-- `incFunc` (the vector grows with null pointers).  MetaMatrix.cpp:51-57. -/
def inc (p : PSt K) (n : ℕ) : PSt K := { p with cnt := Function.update p.cnt n (p.cnt n + 1) }

/-- `clearClone`: the counter becomes -1.  MetaMatrix.cpp:60-62. -/
def clear (p : PSt K) (n : ℕ) : PSt K := { p with cnt := Function.update p.cnt n 0 }

/-- A new object for node `n`. -/
def alloc (p : PSt K) (n : ℕ) (σ : PSlot) (m : Mat K) : PSt K × PHdr :=
  let h : PHdr := ⟨m.rows, m.cols, (n, p.next n)⟩
  (({ p with next := Function.update p.next n (p.next n + 1) } : PSt K).write h.buf m.data |>.setS n σ h,
    h)

/-- Store the result `m` of a kernel in slot `σ` of node `n`: the object in the slot is reused, with its
buffer, if it has the same number of elements; else the slot gets a new object.
`MatrixPool`, MemoryManager.hpp:52-71. -/
def store (p : PSt K) (n : ℕ) (σ : PSlot) (m : Mat K) : PSt K × PHdr :=
  match p.slots n σ with
  | some h =>
    if m.rows * m.cols = h.rows * h.cols then
      ((p.write h.buf m.data).setS n σ ⟨m.rows, m.cols, h.buf⟩, ⟨m.rows, m.cols, h.buf⟩)
    else p.alloc n σ m
  | none => p.alloc n σ m

/-- Replace everything but the caches. -/
def setBase (p : PSt K) (s : MSt K) : PSt K := { p with base := s }

/-- Run an evaluation, which does not touch the caches. -/
def run {α : Type} (p : PSt K) (g : MSt K → Option (MSt K × α)) : Option (PSt K × α) :=
  (g p.val).map fun r => (p.setBase r.1, r.2)

end PSt

/-- `if (cache has k) MATRIX_ADD((*cache)[k], h, (*cache)[k]) else (*cache)[k] = h`; the sum is
written into the buffer of the entry.  Lines as for `kadd`. -/
def kaddP (c : MCtx K) (κ : PCache) (k : MKey) (h : PHdr) (p : PSt K) : Option (PCache × PSt K) :=
  match κ.find k with
  | some cur => (c.B.add .self (.ext (p.read h)) (some (p.read cur))).map fun M =>
      (κ.put k ⟨M.rows, M.cols, cur.buf⟩, p.write cur.buf M.data)
  | none => some (κ.put k h, p)

/-- `Clone the cache`: every entry is replaced by an object of `m_cloned` with the same dimensions and
the same buffer, in the order of an unordered map.  GenericMatProduct.hpp:206-209,
MatrixConstructors.ipp:42-57, 104-114. -/
def cloneP (c : MCtx K) (n : ℕ) (κ : PCache) (p : PSt K) : PSt K :=
  (c.π.run _ (κ.map Prod.fst)).foldl (fun p k => match κ.find k with
    | some h => (p.setS n (.cln (p.cnt n)) h).inc n
    | none => p) p

/-- One step of the merge loops: the scaled entry of the child is stored in the next object of
`m_cloned`.  GenericMatProduct.hpp:211-226. -/
def mergeStepP (c : MCtx K) (n : ℕ) (adj : Mat K) (κ : PCache) (k : MKey) (h : PHdr) (p : PSt K) :
    Option (PCache × PSt K) :=
  if adj.rows = 1 ∧ adj.cols = 1 then
    (adj.raw? 0).bind fun v =>
      (c.B.scalarMul v (.ext (p.read h)) ((p.slots n (.cln (p.cnt n))).map p.read)).bind fun m =>
        kaddP c κ k (p.store n (.cln (p.cnt n)) m).2 ((p.store n (.cln (p.cnt n)) m).1.inc n)
  else none

/-- The merge of a child's cache into that of node `n`. -/
def mergeCP (c : MCtx K) (n : ℕ) (adj : Mat K) (child : PCache) (κ : PCache) (p : PSt K) :
    Option (PCache × PSt K) :=
  (c.π.run _ (child.map Prod.fst)).foldlM
    (fun r k => (child.find k).bind fun h => mergeStepP c n adj r.1 k h r.2) (κ, p)

/-- `m_cache` of an operand. -/
def childP (p : PSt K) : MNode K → PCache
  | .obj o => p.cache o
  | _ => []

/-- `push2` with pointers: `mL`, `mR` are the adjoints computed by the kernels, stored in the result
objects of node `n`; their values for the merge loops are read before the cache changes (`ScalarSpl`).
GenericMatProduct.hpp:190-242 and 269-320, and the other binary operators (lines as for `travE`). -/
def push2P (c : MCtx K) (n : ℕ) (x y : MNode K) (mL mR : Mat K) (κ : PCache) (p : PSt K) :
    Option (PCache × PSt K) := do
  let (p, hL) := p.store n (.arr 0) mL
  let (p, hR) := p.store n (.arr 1) mR
  let (κ, p) ← kaddP c κ x.key hL p
  let (κ, p) ← kaddP c κ y.key hR p
  let p := cloneP c n κ p
  let (κ, p) ← mergeCP c n mL (childP p x) κ p
  mergeCP c n mR (childP p y) κ p

/-- The same for one operand. -/
def push1P (c : MCtx K) (n : ℕ) (x : MNode K) (m : Mat K) (κ : PCache) (p : PSt K) :
    Option (PCache × PSt K) := do
  let (p, h) := p.store n (.arr 0) m
  let (κ, p) ← kaddP c κ x.key h p
  let p := cloneP c n κ p
  mergeCP c n m (childP p x) κ p

/-- `if (false == mp_left->m_visited) mp_left->traverse(cache)`. -/
def unlessSeenP (a : MNode K) (κ : PCache) (p : PSt K) (r : Option (PCache × PSt K)) :
    Option (PCache × PSt K) :=
  if visitedOf p.base a then some (κ, p) else r

/-- `travE` with pointers.  Lines as for `travE`. -/
def travEP (c : MCtx K) (ev : ℕ → MSt K → Option (MSt K × Mat K))
    (tr : ℕ → PSt K → Option (PSt K)) : MNode K → PCache → PSt K → Option (PCache × PSt K)
  | .obj o, κ, p => (tr o p).map fun p => (κ, p)
  | .bin n op x y, κ, p => do
    let (κ, p) ← (match κ.find (.node n) with
      | none => some (κ, p)
      | some C => do
        let (κ, p) ← unlessSeenP x κ p (travEP c ev tr x κ p)
        let (κ, p) ← unlessSeenP y κ p (travEP c ev tr y κ p)
        let C := p.read C
        let (p, L, R) ← p.run (revVals2 c ev op x y C)
        let (a, mL, mR) ← op.rev c L R C (p.base.slot n)
        push2P c n x y mL mR κ (p.setBase (p.base.setN n a)))
    let (κ, p) ← unlessSeenP x κ p (travEP c ev tr x κ p)
    unlessSeenP y κ p (travEP c ev tr y κ p)
  | .un n op x, κ, p => do
    let (κ, p) ← (match κ.find (.node n) with
      | none => some (κ, p)
      | some C => do
        let (κ, p) ← unlessSeenP x κ p (travEP c ev tr x κ p)
        let C := p.read C
        let (p, R) ← p.run (revVals1 c ev op x C)
        let (a, m) ← op.rev c R C (p.base.slot n)
        push1P c n x m κ (p.setBase (p.base.setN n a)))
    unlessSeenP x κ p (travEP c ev tr x κ p)

/-- `travRoot` with pointers.  GenericMatProduct.hpp:164-242, 323-331. -/
def travRootP (c : MCtx K) (ev : ℕ → MSt K → Option (MSt K × Mat K))
    (tr : ℕ → PSt K → Option (PSt K)) (n : ℕ) (x y : MNode K) (p : PSt K) :
    Option (PCache × PSt K) := do
  let (κ, p) ← unlessSeenP x [] p (travEP c ev tr x [] p)
  let (κ, p) ← unlessSeenP y κ p (travEP c ev tr y κ p)
  let (p, L) ← p.run (evalE c ev x)
  let (p, R) ← p.run (evalE c ev y)
  let (a, m7) ← kern 7 (c.B.transpose L) (p.base.slot n)
  let (a, m6) ← kern 6 (c.B.transpose R) a
  let (κ, p) ← push2P c n x y m6 m7 κ (p.setBase (p.base.setN n a))
  let (κ, p) ← unlessSeenP x κ p (travEP c ev tr x κ p)
  unlessSeenP y κ p (travEP c ev tr y κ p)

/-- `Matrix<T>::traverse`; `m_cache = i->getCache()` copies the pointers.
MatrixVirtuals.ipp:104-124. -/
def mtravP (c : MCtx K) : ℕ → ℕ → PSt K → Option (PSt K)
  | 0, _, _ => none
  | f + 1, o, p =>
    if (p.base.obj o).visited then some p
    else
      match c.E.kind o with
      | .form n e eye => do
        let p := p.setBase (p.base.setO o { p.base.obj o with visited := true })
        let (κ, p) ← travRootP c (mevalO c f) (mtravP c f) n e (.obj eye) p
        let (p, m) ← p.run (evalE c (mevalO c f) (MEnv.item n e eye))
        some { (p.setBase (p.base.setO o { p.base.obj o with result := some m, evald := true })) with
          cache := Function.update p.cache o κ }
      | _ => some (p.setBase (p.base.setO o { p.base.obj o with visited := true }))

/-- `reset()` of an expression: every operator node clears its counter.  IMatrix.hpp:76-87. -/
def presetE (rs : ℕ → PSt K → Option (PSt K)) : MNode K → PSt K → Option (PSt K)
  | .obj o, p => rs o p
  | .bin n _ x y, p => do let p ← presetE rs x (p.clear n); presetE rs y p
  | .un n _ x, p => presetE rs x (p.clear n)

/-- Lines as for `mresetItem`. -/
def presetItem (E : MEnv K) (rs : ℕ → PSt K → Option (PSt K)) (o : ℕ) (p : PSt K) :
    Option (PSt K) :=
  match E.kind o with
  | .form n e eye => presetE rs (MEnv.item n e eye) p
  | _ => some p

/-- `Matrix<T>::reset()`.  MatrixVirtuals.ipp:132-155. -/
def presetO (E : MEnv K) : ℕ → ℕ → PSt K → Option (PSt K)
  | 0, _, _ => none
  | f + 1, o, p =>
    (if (p.base.obj o).visited then presetItem E (presetO E f) o
        (p.setBase (p.base.setO o { p.base.obj o with visited := false, evald := false,
                                                      devald := false }))
      else some p).bind fun p =>
    some { (p.setBase (p.base.setO o { p.base.obj o with visited := false })) with
      cache := Function.update p.cache o [] }

/-- `Matrix<T>::resetImpl()`.  MatrixUtils.ipp:192-215. -/
def presetImpl (E : MEnv K) (f o : ℕ) (p : PSt K) : Option (PSt K) :=
  (presetItem E (presetO E f) o
    { (p.setBase (p.base.setO o { p.base.obj o with visited := true, evald := false,
                                                    devald := false })) with
      cache := Function.update p.cache o [] }).bind fun p =>
  some (p.setBase (p.base.setO o { p.base.obj o with visited := false }))

/-- Lines as for `precompReset`. -/
def precompResetP (E : MEnv K) (f o : ℕ) (p : PSt K) : Option (PSt K) :=
  match E.kind o with
  | .form _ _ _ => presetImpl E f o p
  | .exp => presetImpl E f o p
  | _ => presetO E f o p

/-- `TensorR2::Eval(M)` for a named matrix.  CommonMatFunctions.hpp:45-58. -/
def pEval (c : MCtx K) (f o : ℕ) (p : PSt K) : Option (PSt K × Mat K) :=
  (presetO c.E f o p).bind fun p => p.run (mevalO c f o)

/-- `TensorR2::DevalF(M, X)` for a named matrix.  CommonMatFunctions.hpp:61-74. -/
def pDevalF (c : MCtx K) (f X o : ℕ) (p : PSt K) : Option (PSt K × Mat K) :=
  (presetO c.E f o p).bind fun p => p.run (mfwdO c X f o)

/-- `TensorR2::Eval(e)` for an expression.  CommonMatFunctions.hpp:45-58. -/
def pEvalE (c : MCtx K) (f : ℕ) (e : MNode K) (p : PSt K) : Option (PSt K × Mat K) :=
  (presetE (presetO c.E f) e p).bind fun p => p.run (evalE c (mevalO c f) e)

/-- `TensorR2::DevalF(e, X)` for an expression.  CommonMatFunctions.hpp:61-74. -/
def pDevalFE (c : MCtx K) (f X : ℕ) (e : MNode K) (p : PSt K) : Option (PSt K × Mat K) :=
  (presetE (presetO c.E f) e p).bind fun p => p.run (fwdE c X (mevalO c f) (mfwdO c X f) e)

/-- `TensorR2::PreComp(Mexp)`.  CommonMatFunctions.hpp:77-91. -/
def pPreComp (c : MCtx K) (f o : ℕ) (p : PSt K) : Option (PSt K) :=
  (precompResetP c.E f o p).bind fun p => mtravP c f o p

/-- `TensorR2::DevalR(Mexp, X)`.  CommonMatFunctions.hpp:97-116. -/
def pDevalR (E : MEnv K) (o X : ℕ) (p : PSt K) : Option (Mat K) :=
  match (p.cache o).find (.obj X) with
  | some h => some (p.read h)
  | none => Mat.zeros (E.rows o) (E.cols o)

end CoolDiff
