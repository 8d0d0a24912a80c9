import Verif.Scalar.Define
import Verif.Scalar.Termination
import Verif.Scalar.Solution

/-!
# `Eval` in machine arithmetic

The same code as in `Scalar/Model.lean` (`eval`, `reset`, `Eval`), over any type of numbers with any operations: no law of
arithmetic is assumed, so rounding, infinities and NaN are covered.
-/

set_option linter.unusedSectionVars false

namespace CoolDiff.Mach

/-- The operations of the machine on the type `Type` of the library: any functions.  `one`, `negOne`, `half` are
`(Type)(1)`, `(Type)(-1)`, `(Type)(0.5)`; `neg` is the unary minus of the machine (the library does not use it). -/
structure Arith (K : Type) where
  add : K → K → K
  sub : K → K → K
  mul : K → K → K
  div : K → K → K
  neg : K → K
  one : K
  negOne : K
  half : K
  prim : Prim K

variable {K : Type}

/-- `eval()` of the elementary functions, as `Fn.val`.  `Generic<Fn>.hpp` : `eval()` (lines 75-77). -/
def Arith.fn (P : Arith K) : Fn → K → K
  | .sin => P.prim.sin
  | .cos => P.prim.cos
  | .tan => P.prim.tan
  | .sinh => P.prim.sinh
  | .cosh => P.prim.cosh
  | .tanh => P.prim.tanh
  | .asin => P.prim.asin
  | .acos => P.prim.acos
  | .atan => P.prim.atan
  | .asinh => P.prim.asinh
  | .acosh => P.prim.acosh
  | .atanh => P.prim.atanh
  | .sqrt => P.prim.sqrt
  | .exp => P.prim.exp
  | .log => P.prim.log

/-- `eval()` of the one-operand nodes, as `Op1.val`: GenericSum.hpp:260-264, GenericProduct.hpp:237-240,
GenericDiv.hpp:277-281, GenericPow.hpp:274-277 and 429-432, GenericScalarUnary.hpp:50-53. -/
def Arith.op1 (P : Arith K) : Op1 K → K → K
  | .fn f, u => P.fn f u
  | .addC c, u => P.add c u
  | .mulC c, u => P.mul c u
  | .divC c, u => P.mul c (P.div P.one u)
  | .cPow c, u => P.prim.pow c u
  | .powC c, u => P.prim.pow u c
  | .custom f _, u => f u

/-- `eval()` of the two-operand nodes, as `Op2.val`: GenericSum.hpp:77-82, GenericSub.hpp:77-82, GenericProduct.hpp:75-80,
GenericDiv.hpp:77-83, GenericPow.hpp:77-82, GenericScalarBinary.hpp:50-54. -/
def Arith.op2 (P : Arith K) : Op2 K → K → K → K
  | .add, u, v => P.add u v
  | .sub, u, v => P.sub u v
  | .mul, u, v => P.mul u v
  | .div, u, v => P.mul u (P.div P.one v)
  | .pow, u, v => P.prim.pow u v
  | .custom f _ _, u, v => f u v

/-- `eval()` of a tree, given how objects are evaluated (the virtual call on a leaf).  The operator
bodies are those cited at `Arith.op1`, `Arith.op2`, `Op2.rightFirst`; `Parameter::eval` is
Parameter.cpp:74-76. -/
def evalN (P : Arith K) (D : Defs K) (rec : ℕ → Mem K → Option (K × Mem K)) :
    Node K → Mem K → Option (K × Mem K)
  | .leaf o, m => rec o m
  | .par p, m => some (D.par p, m)
  | .op1 _ f a, m => do
      let (u, m) ← evalN P D rec a m
      some (P.op1 f u, m)
  | .op2 _ f a b, m =>
      if f.rightFirst then do
        let (v, m) ← evalN P D rec b m
        let (u, m) ← evalN P D rec a m
        some (P.op2 f u v, m)
      else do
        let (u, m) ← evalN P D rec a m
        let (v, m) ← evalN P D rec b m
        some (P.op2 f u v, m)

/-- The loop of `Variable::eval` over `m_gh_vec`: `setValue(i->eval())` (Variable.cpp:138-143). -/
def evalItems (P : Arith K) (D : Defs K) (rec : ℕ → Mem K → Option (K × Mem K)) (o : ℕ) :
    List (Node K) → Mem K → Option (Mem K)
  | [], m => some m
  | i :: is, m => do
      let (v, m) ← evalN P D rec i m
      evalItems P D rec o is (m.setValue o v)

/-- `Variable::eval()` (Variable.cpp:130-151).  The first number bounds the depth of nested
object evaluations; `none` means the bound was hit (shown impossible for a bound above the heap
size in `Verif.Scalar.Termination`). -/
def evalO (P : Arith K) (D : Defs K) : ℕ → ℕ → Mem K → Option (K × Mem K)
  | 0, _, _ => none
  | fuel + 1, o, m =>
      if m.visited o = false then do
        let m ← evalItems P D (evalO P D fuel) o (D.items o)
          ((m.setValue o (D.base o)).setVisited o true)
        some (m.value o, m)
      else
        some (m.value o, m)

section
variable [Zero K]

/-- the tail of `Variable::reset` (Variable.cpp:263-275) -/
def clearObj (D : Defs K) (m : Mem K) (o : ℕ) : Mem K :=
  (((m.setVisited o false).setValue o (D.base o)).setDValue o 0).setCache o (fun _ => 0)

/-- `Variable::reset()` (Variable.cpp:251-276). -/
def resetO (D : Defs K) : ℕ → ℕ → Mem K → Option (Mem K)
  | 0, _, _ => none
  | fuel + 1, o, m =>
      if m.visited o = true then do
        let m ← resetItems (resetO D fuel) (D.items o) (m.setVisited o false)
        some (clearObj D m o)
      else some (clearObj D m o)

/-- `Variable::resetImpl()` (Variable.cpp:118-127). -/
def resetImpl (D : Defs K) (fuel : ℕ) (o : ℕ) (m : Mem K) : Option (Mem K) := do
  let m ← resetItems (resetO D fuel) (D.items o) (m.setVisited o true)
  some (m.setVisited o false)

/-- `CoolDiff::TensorR1::Eval(Expression&)` (src/Scalar/CommonFunctions.cpp:32-37). -/
def Eval (P : Arith K) (y : ℕ) (σ : St K) : Option (K × St K) := do
  let m ← resetImpl σ.defs σ.defs.fuel y σ.mem
  let (v, m) ← evalO P σ.defs σ.defs.fuel y m
  some (v, ⟨σ.defs, m⟩)

end

/-- Value of a tree: the operations of its nodes applied to the values of their operands.  Specification. -/
def nval (P : Arith K) (π ρ : ℕ → K) : Node K → K
  | .leaf o => ρ o
  | .par p => π p
  | .op1 _ f a => P.op1 f (nval P π ρ a)
  | .op2 _ f a b => P.op2 f (nval P π ρ a) (nval P π ρ b)

/-- Run the assignments of object `o` in order, starting from value `v`. -/
def seqVal (P : Arith K) (π ρ : ℕ → K) (o : ℕ) : List (Node K) → K → K
  | [], v => v
  | i :: is, v => seqVal P π ρ o is (nval P π (Function.update ρ o v) i)

/-- `ρ` gives every object `y` depends on the value its definition asks for. -/
def Solves (P : Arith K) (D : Defs K) (y : ℕ) (ρ : ℕ → K) : Prop :=
  ∀ q, Reach D y q → ρ q = seqVal P D.par ρ q (D.items q) (D.base q)

/-- `v` is the value of `y` under the current definitions. -/
def ValueOf (P : Arith K) (D : Defs K) (y : ℕ) (v : K) : Prop :=
  ∃ ρ, Solves P D y ρ ∧ ρ y = v

theorem nval_congr (P : Arith K) (π : ℕ → K) {ρ ρ' : ℕ → K} (t : Node K)
    (h : ∀ p ∈ t.leaves, ρ p = ρ' p) : nval P π ρ t = nval P π ρ' t := by
  induction t with
  | leaf o => exact h o (by simp [Node.leaves])
  | par p => rfl
  | op1 n f a ih => simp only [nval]; rw [ih h]
  | op2 n f a b iha ihb =>
      simp only [nval]
      rw [iha fun p hp => h p (by simp [Node.leaves, hp]),
        ihb fun p hp => h p (by simp [Node.leaves, hp])]

/-- Every leaf of `t` is below `o`, or is `o` itself. -/
def Below (S : Set ℕ) (rank : ℕ → ℕ) (o : ℕ) (t : Node K) : Prop :=
  ∀ p ∈ t.leaves, p ∈ S ∧ (p = o ∨ rank p < rank o)

/-- What happens to the memory while something at rank `≤ r` is processed: flags only go up, objects
of rank `≥ r` and outside `S` are not touched. -/
structure Frame (S : Set ℕ) (rank : ℕ → ℕ) (r : ℕ) (m m' : Mem K) : Prop where
  mono : ∀ q, m.visited q = true → m'.visited q = true
  vis : ∀ q, (q ∉ S ∨ r ≤ rank q) → m'.visited q = m.visited q
  val : ∀ q, (q ∉ S ∨ r ≤ rank q) → m'.value q = m.value q
  dval : ∀ q, (q ∉ S ∨ r ≤ rank q) → m'.dvalue q = m.dvalue q
  cache : ∀ q, (q ∉ S ∨ r ≤ rank q) → m'.cache q = m.cache q

theorem Frame.refl (S : Set ℕ) (rank : ℕ → ℕ) (r : ℕ) (m : Mem K) : Frame S rank r m m :=
  ⟨fun _ h => h, fun _ _ => rfl, fun _ _ => rfl, fun _ _ => rfl, fun _ _ => rfl⟩

theorem Frame.trans {S : Set ℕ} {rank : ℕ → ℕ} {r : ℕ} {m m' m'' : Mem K}
    (h : Frame S rank r m m') (h' : Frame S rank r m' m'') : Frame S rank r m m'' :=
  ⟨fun q hq => h'.mono q (h.mono q hq), fun q hq => (h'.vis q hq).trans (h.vis q hq),
    fun q hq => (h'.val q hq).trans (h.val q hq), fun q hq => (h'.dval q hq).trans (h.dval q hq),
    fun q hq => (h'.cache q hq).trans (h.cache q hq)⟩

theorem Frame.weaken {S : Set ℕ} {rank : ℕ → ℕ} {r r' : ℕ} {m m' : Mem K}
    (h : Frame S rank r m m') (hr : r ≤ r') : Frame S rank r' m m' :=
  ⟨h.mono, fun q hq => h.vis q (hq.imp_right hr.trans), fun q hq => h.val q (hq.imp_right hr.trans),
    fun q hq => h.dval q (hq.imp_right hr.trans), fun q hq => h.cache q (hq.imp_right hr.trans)⟩

/-- Newly visited objects have all their operands visited. -/
def NewClosed (D : Defs K) (m m' : Mem K) : Prop :=
  ∀ q, m.visited q = false → m'.visited q = true →
    ∀ i ∈ D.items q, ∀ p ∈ i.leaves, m'.visited p = true

theorem NewClosed.refl (D : Defs K) (m : Mem K) : NewClosed D m m := by
  intro q h h'; simp [h] at h'

theorem NewClosed.trans {D : Defs K} {m m' m'' : Mem K} (h : NewClosed D m m')
    (h' : NewClosed D m' m'') (hm : ∀ q, m'.visited q = true → m''.visited q = true) :
    NewClosed D m m'' := by
  intro q hq hq' i hi p hp
  cases hv : m'.visited q with
  | false => exact h' q hv hq' i hi p hp
  | true => exact hm p (h q hq hv i hi p hp)

section
variable (P : Arith K) (D : Defs K) (S : Set ℕ) (rank : ℕ → ℕ) (ρ : ℕ → K)

theorem not_visited_of_mono {m m' : Mem K} (h : ∀ q, m.visited q = true → m'.visited q = true) {q : ℕ}
    (hq : m'.visited q = false) : m.visited q = false := by
  cases hv : m.visited q with
  | false => rfl
  | true => rw [h q hv] at hq; simp at hq

/-- Visited objects of rank below `r` hold the value `ρ` gives them; the others depend on objects of `S` of
smaller rank and `ρ` solves their definition. -/
structure EInv (r : ℕ) (m : Mem K) : Prop where
  vis : ∀ q ∈ S, rank q < r → m.visited q = true → m.value q = ρ q
  eqn : ∀ q ∈ S, rank q < r → m.visited q = false → RankedAt D S rank q ∧
    ρ q = seqVal P D.par ρ q (D.items q) (D.base q)

/-- Specification of a recursive call on an object below rank `r`. -/
def ESpec (r : ℕ) (rec : ℕ → Mem K → Option (K × Mem K)) : Prop :=
  ∀ q ∈ S, rank q < r → ∀ m v m', EInv P D S rank ρ r m → rec q m = some (v, m') →
    v = ρ q ∧ EInv P D S rank ρ r m' ∧ Frame S rank r m m' ∧ m'.visited q = true ∧ NewClosed D m m'

/-- Specification of a recursive call on a visited object. -/
def VisSpec (rec : ℕ → Mem K → Option (K × Mem K)) : Prop :=
  ∀ q m v m', m.visited q = true → rec q m = some (v, m') → v = m.value q ∧ m' = m

theorem evalO_vis (fuel : ℕ) : VisSpec (evalO P D fuel) := by
  intro q m v m' hv h
  cases fuel with
  | zero => simp [evalO] at h
  | succ f =>
      simp [evalO, hv] at h
      exact ⟨h.1.symm, h.2.symm⟩

/-- `eval` of a tree all of whose leaves are visited. -/
theorem evalN_vis {rec : ℕ → Mem K → Option (K × Mem K)} (hrec : VisSpec rec) (t : Node K) :
    ∀ m v m', (∀ p ∈ t.leaves, m.visited p = true) → evalN P D rec t m = some (v, m') →
      v = nval P D.par m.value t ∧ m' = m := by
  induction t with
  | leaf o =>
      intro m v m' hl h
      exact hrec o m v m' (hl o (by simp [Node.leaves])) h
  | par p =>
      intro m v m' hl h
      simp [evalN] at h
      exact ⟨h.1.symm, h.2.symm⟩
  | op1 n f a ih =>
      intro m v m' hl h
      simp only [evalN, Option.bind_eq_bind, Option.bind_eq_some_iff, Prod.exists,
        Option.some.injEq, Prod.mk.injEq] at h
      obtain ⟨u, m1, h1, rfl, rfl⟩ := h
      obtain ⟨rfl, rfl⟩ := ih m u m1 hl h1
      exact ⟨by rfl, rfl⟩
  | op2 n f a b iha ihb =>
      intro m v m' hl h
      have hla : ∀ p ∈ a.leaves, m.visited p = true := fun p hp => hl p (by simp [Node.leaves, hp])
      have hlb : ∀ p ∈ b.leaves, m.visited p = true := fun p hp => hl p (by simp [Node.leaves, hp])
      simp only [evalN] at h
      split at h
      · simp only [Option.bind_eq_bind, Option.bind_eq_some_iff, Prod.exists,
          Option.some.injEq, Prod.mk.injEq] at h
        obtain ⟨w, m1, h1, u, m2, h2, rfl, rfl⟩ := h
        obtain ⟨rfl, rfl⟩ := ihb m w m1 hlb h1
        obtain ⟨rfl, rfl⟩ := iha _ u m2 hla h2
        exact ⟨by rfl, rfl⟩
      · simp only [Option.bind_eq_bind, Option.bind_eq_some_iff, Prod.exists,
          Option.some.injEq, Prod.mk.injEq] at h
        obtain ⟨w, m1, h1, u, m2, h2, rfl, rfl⟩ := h
        obtain ⟨rfl, rfl⟩ := iha m w m1 hla h1
        obtain ⟨rfl, rfl⟩ := ihb _ u m2 hlb h2
        exact ⟨by rfl, rfl⟩

theorem evalN_spec {o : ℕ} {rec : ℕ → Mem K → Option (K × Mem K)}
    (hrec : ESpec P D S rank ρ (rank o) rec) (hvis : VisSpec rec) (t : Node K) :
    ∀ m v m', Below S rank o t → m.visited o = true → EInv P D S rank ρ (rank o) m →
      evalN P D rec t m = some (v, m') →
      v = nval P D.par (Function.update ρ o (m.value o)) t ∧ EInv P D S rank ρ (rank o) m' ∧
        Frame S rank (rank o) m m' ∧ (∀ p ∈ t.leaves, m'.visited p = true) ∧ NewClosed D m m' := by
  induction t with
  | leaf q =>
      intro m v m' hb ho hi h
      obtain ⟨hqS, hq⟩ := hb q (by simp [Node.leaves])
      by_cases hqo : q = o
      · subst hqo
        obtain ⟨rfl, rfl⟩ := hvis q m v m' ho h
        exact ⟨by simp [nval], hi, Frame.refl .., by simpa [Node.leaves] using ho, NewClosed.refl _ _⟩
      · have hlt := hq.resolve_left hqo
        obtain ⟨rfl, h2, h3, h4, h5⟩ := hrec q hqS hlt m v m' hi h
        exact ⟨by simp [nval, hqo], h2, h3, by simpa [Node.leaves] using h4, h5⟩
  | par p =>
      intro m v m' hb ho hi h
      simp [evalN] at h
      obtain ⟨rfl, rfl⟩ := h
      exact ⟨rfl, hi, Frame.refl .., by simp [Node.leaves], NewClosed.refl _ _⟩
  | op1 n f a ih =>
      intro m v m' hb ho hi h
      simp only [evalN, Option.bind_eq_bind, Option.bind_eq_some_iff, Prod.exists,
        Option.some.injEq, Prod.mk.injEq] at h
      obtain ⟨u, m1, h1, rfl, rfl⟩ := h
      obtain ⟨rfl, h2, h3, h4, h5⟩ := ih m u m1 hb ho hi h1
      exact ⟨by rfl, h2, h3, h4, h5⟩
  | op2 n f a b iha ihb =>
      intro m v m' hb ho hi h
      have hba : Below S rank o a := fun p hp => hb p (by simp [Node.leaves, hp])
      have hbb : Below S rank o b := fun p hp => hb p (by simp [Node.leaves, hp])
      simp only [evalN] at h
      split at h
      · simp only [Option.bind_eq_bind, Option.bind_eq_some_iff, Prod.exists,
          Option.some.injEq, Prod.mk.injEq] at h
        obtain ⟨w, m1, h1, u, m2, h2, rfl, rfl⟩ := h
        obtain ⟨rfl, i1, f1, l1, c1⟩ := ihb m w m1 hbb ho hi h1
        obtain ⟨rfl, i2, f2, l2, c2⟩ := iha m1 u m2 hba (f1.mono o ho) i1 h2
        refine ⟨?_, i2, f1.trans f2, ?_, c1.trans c2 f2.mono⟩
        · rw [f1.val o (Or.inr le_rfl)]; rfl
        · intro p hp
          simp only [Node.leaves, List.mem_append] at hp
          exact hp.elim (l2 p) fun hp => f2.mono p (l1 p hp)
      · simp only [Option.bind_eq_bind, Option.bind_eq_some_iff, Prod.exists,
          Option.some.injEq, Prod.mk.injEq] at h
        obtain ⟨w, m1, h1, u, m2, h2, rfl, rfl⟩ := h
        obtain ⟨rfl, i1, f1, l1, c1⟩ := iha m w m1 hba ho hi h1
        obtain ⟨rfl, i2, f2, l2, c2⟩ := ihb m1 u m2 hbb (f1.mono o ho) i1 h2
        refine ⟨?_, i2, f1.trans f2, ?_, c1.trans c2 f2.mono⟩
        · rw [f1.val o (Or.inr le_rfl)]; rfl
        · intro p hp
          simp only [Node.leaves, List.mem_append] at hp
          exact hp.elim (fun hp => f2.mono p (l1 p hp)) (l2 p)

theorem evalItems_spec {o : ℕ} (_hoS : o ∈ S) {rec : ℕ → Mem K → Option (K × Mem K)}
    (hrec : ESpec P D S rank ρ (rank o) rec) (hvis : VisSpec rec) (is : List (Node K)) :
    ∀ m m', (∀ i ∈ is, Below S rank o i) → m.visited o = true → EInv P D S rank ρ (rank o) m →
      evalItems P D rec o is m = some m' →
      m'.value o = seqVal P D.par ρ o is (m.value o) ∧ EInv P D S rank ρ (rank o) m' ∧
        (∃ m₁, Frame S rank (rank o) m m₁ ∧ m' = m₁.setValue o (m'.value o)) ∧
        (∀ i ∈ is, ∀ p ∈ i.leaves, m'.visited p = true) ∧ NewClosed D m m' := by
  induction is with
  | nil =>
      intro m m' hb ho hi h
      simp [evalItems] at h
      subst h
      exact ⟨rfl, hi, ⟨m, Frame.refl .., by simp [Mem.setValue]⟩, by simp, NewClosed.refl _ _⟩
  | cons i is ih =>
      intro m m' hb ho hi h
      simp only [evalItems, Option.bind_eq_bind, Option.bind_eq_some_iff, Prod.exists] at h
      obtain ⟨v, m1, h1, h2⟩ := h
      obtain ⟨hv, i1, f1, l1, c1⟩ :=
        evalN_spec P D S rank ρ hrec hvis i m v m1 (hb i (by simp)) ho hi h1
      have i1' : EInv P D S rank ρ (rank o) (m1.setValue o v) := by
        refine ⟨fun q hq hlt hvq => ?_, i1.eqn⟩
        have hne : q ≠ o := by rintro rfl; exact absurd hlt (lt_irrefl _)
        simpa [Mem.setValue, hne] using i1.vis q hq hlt (by simpa [Mem.setValue] using hvq)
      obtain ⟨e2, i2, ⟨m₂, f2, hm₂⟩, l2, c2⟩ := ih (m1.setValue o v) m'
        (fun j hj => hb j (by simp [hj])) (by simpa [Mem.setValue] using f1.mono o ho) i1' h2
      refine ⟨?_, i2, ⟨m₂.setValue o (m1.value o), ?_, ?_⟩, ?_, ?_⟩
      · rw [e2, seqVal, ← hv]; simp [Mem.setValue]
      · refine f1.trans ⟨fun q hq => f2.mono q hq, fun q hq => f2.vis q hq, fun q hq => ?_,
          fun q hq => f2.dval q hq, fun q hq => f2.cache q hq⟩
        by_cases hqo : q = o
        · subst hqo; simp [Mem.setValue]
        · simpa [Mem.setValue, hqo] using f2.val q hq
      · rw [hm₂]; simp [Mem.setValue]
      · intro j hj p hp
        rcases List.mem_cons.1 hj with rfl | hj
        · rw [hm₂]; exact f2.mono p (l1 p hp)
        · exact l2 j hj p hp
      · refine NewClosed.trans (m' := m1.setValue o v) c1 c2 ?_
        intro q hq; rw [hm₂]; exact f2.mono q hq

theorem evalO_spec (fuel : ℕ) :
    ∀ r, ESpec P D S rank ρ r (evalO P D fuel) := by
  induction fuel with
  | zero => intro r q _ _ m v m' _ h; simp [evalO] at h
  | succ f ih =>
      intro r o hoS hor m v m' hi h
      cases hvo : m.visited o with
      | true =>
          obtain ⟨rfl, rfl⟩ := evalO_vis P D (f + 1) o m v m' hvo h
          exact ⟨hi.vis o hoS hor hvo, hi, Frame.refl .., hvo, NewClosed.refl _ _⟩
      | false =>
          simp only [evalO, hvo, if_true, Option.bind_eq_bind, Option.bind_eq_some_iff,
            Option.some.injEq, Prod.mk.injEq] at h
          obtain ⟨m1, h1, rfl, rfl⟩ := h
          set m0 := (m.setValue o (D.base o)).setVisited o true with hm0
          have hne : ∀ q, rank q < rank o → q ≠ o := by rintro q hq rfl; exact lt_irrefl _ hq
          have i0 : EInv P D S rank ρ (rank o) m0 := by
            constructor <;> intro q hq hlt hvq <;> have := hne q hlt <;>
              simp [hm0, Mem.setValue, Mem.setVisited, this] at hvq ⊢
            · exact hi.vis q hq (hlt.trans hor) hvq
            · exact hi.eqn q hq (hlt.trans hor) hvq
          obtain ⟨e, i1, ⟨m₁, fr, hm1⟩, l1, c1⟩ := evalItems_spec P D S rank ρ hoS (ih (rank o))
            (evalO_vis P D f) (D.items o) m0 m1 (hi.eqn o hoS hor hvo).1.closed
            (by simp [hm0, Mem.setVisited]) i0 h1
          have e' : m1.value o = ρ o := by
            rw [e, (hi.eqn o hoS hor hvo).2]; simp [hm0, Mem.setValue, Mem.setVisited]
          have hvo1 : m1.visited o = true := by
            rw [hm1]; exact fr.mono o (by simp [hm0, Mem.setVisited])
          have hmono : ∀ q, m.visited q = true → m1.visited q = true := by
            intro q hq
            rw [hm1]
            refine fr.mono q ?_
            by_cases h : q = o
            · subst h; simp [hm0, Mem.setVisited]
            · simpa [hm0, Mem.setVisited, Mem.setValue, h] using hq
          have hfr : Frame S rank r m m1 := by
            have key : ∀ q, (q ∉ S ∨ r ≤ rank q) → q ≠ o ∧ (q ∉ S ∨ rank o ≤ rank q) := by
              intro q hq
              refine ⟨?_, hq.imp_right fun h => hor.le.trans h⟩
              rintro rfl
              exact hq.elim (fun h => h hoS) fun h => absurd hor (not_lt.2 h)
            refine ⟨hmono, ?_, ?_, ?_, ?_⟩ <;> intro q hq <;> obtain ⟨hqo, hq'⟩ := key q hq <;>
              rw [hm1]
            · simpa [hm0, Mem.setVisited, Mem.setValue, hqo] using fr.vis q hq'
            · simpa [hm0, Mem.setVisited, Mem.setValue, hqo] using fr.val q hq'
            · simpa [hm0, Mem.setVisited, Mem.setValue, hqo] using fr.dval q hq'
            · simpa [hm0, Mem.setVisited, Mem.setValue, hqo] using fr.cache q hq'
          refine ⟨e', ⟨?_, fun q hq hlt hvq => hi.eqn q hq hlt
            (not_visited_of_mono hmono hvq)⟩, hfr, hvo1, ?_⟩
          · intro q hq hlt hvq
            by_cases hqo : q = o
            · subst hqo; exact e'
            · by_cases hlt' : rank q < rank o
              · exact i1.vis q hq hlt' hvq
              · have hq' : q ∉ S ∨ rank o ≤ rank q := Or.inr (not_lt.1 hlt')
                have hv := fr.val q hq'
                have hvv := fr.vis q hq'
                rw [hm1] at hvq ⊢
                simp [hm0, Mem.setVisited, Mem.setValue, hqo] at hv hvv hvq ⊢
                rw [hv]
                exact hi.vis q hq hlt (by rw [← hvv]; exact hvq)
          · intro q hq hq' i hii p hp
            by_cases hqo : q = o
            · subst hqo; exact l1 i hii p hp
            · exact c1 q (by simpa [hm0, Mem.setVisited, Mem.setValue, hqo] using hq) hq' i hii p hp

end


section
variable [Zero K] (D : Defs K)

/-- Effect of (part of) a reset: flags only go down, a freshly unvisited object has all its operands
unvisited, objects without equations keep or regain their number, other objects are untouched. -/
structure RFrame (S : Set ℕ) (m m' : Mem K) : Prop where
  anti : ∀ q, m'.visited q = true → m.visited q = true
  closed : ∀ q, m.visited q = true → m'.visited q = false → ∀ i ∈ D.items q, ∀ p ∈ i.leaves,
    m'.visited p = false
  vis : ∀ q, q ∉ S → m'.visited q = m.visited q
  plain : ∀ q, (m'.value q = m.value q ∧ m'.dvalue q = m.dvalue q ∧ m'.cache q = m.cache q) ∨
    (m'.value q = D.base q ∧ m'.dvalue q = 0 ∧ m'.cache q = fun _ => 0)
  out : ∀ q, q ∉ S → m'.value q = m.value q ∧ m'.dvalue q = m.dvalue q ∧ m'.cache q = m.cache q

theorem RFrame.refl (S : Set ℕ) (m : Mem K) : RFrame D S m m :=
  ⟨fun _ h => h, fun q h h' => by simp [h] at h', fun _ _ => rfl, fun _ => Or.inl ⟨rfl, rfl, rfl⟩,
    fun _ _ => ⟨rfl, rfl, rfl⟩⟩

theorem RFrame.trans {D : Defs K} {S : Set ℕ} {m m' m'' : Mem K} (h : RFrame D S m m')
    (h' : RFrame D S m' m'') : RFrame D S m m'' := by
  refine ⟨fun q hq => h.anti q (h'.anti q hq), fun q hq hq' i hi p hp => ?_,
    fun q hq => (h'.vis q hq).trans (h.vis q hq), fun q => ?_, fun q hq => ?_⟩
  · cases hv : m'.visited q with
    | true => exact h'.closed q hv hq' i hi p hp
    | false =>
        have := h.closed q hq hv i hi p hp
        cases hp' : m''.visited p with
        | false => rfl
        | true => rw [h'.anti p hp'] at this; simp at this
  · rcases h'.plain q with h2 | h2
    · rcases h.plain q with h1 | h1
      · exact Or.inl ⟨h2.1.trans h1.1, h2.2.1.trans h1.2.1, h2.2.2.trans h1.2.2⟩
      · exact Or.inr ⟨h2.1.trans h1.1, h2.2.1.trans h1.2.1, h2.2.2.trans h1.2.2⟩
    · exact Or.inr h2
  · have h1 := h.out q hq
    have h2 := h'.out q hq
    exact ⟨h2.1.trans h1.1, h2.2.1.trans h1.2.1, h2.2.2.trans h1.2.2⟩

/-- Specification of a recursive reset. -/
def RSpec (S : Set ℕ) (rec : ℕ → Mem K → Option (Mem K)) : Prop :=
  ∀ q ∈ S, ∀ m m', rec q m = some m' → m'.visited q = false ∧ RFrame D S m m'

theorem resetN_spec {S : Set ℕ} {rec : ℕ → Mem K → Option (Mem K)} (hrec : RSpec D S rec)
    (t : Node K) : ∀ m m', (∀ p ∈ t.leaves, p ∈ S) → resetN rec t m = some m' →
      (∀ p ∈ t.leaves, m'.visited p = false) ∧ RFrame D S m m' := by
  induction t with
  | leaf o =>
      intro m m' hl h
      have := hrec o (hl o (by simp [Node.leaves])) m m' h
      exact ⟨by simpa [Node.leaves] using this.1, this.2⟩
  | par p =>
      intro m m' hl h
      simp [resetN] at h
      subst h
      exact ⟨by simp [Node.leaves], RFrame.refl D S m⟩
  | op1 n f a ih => intro m m' hl h; exact ih m m' hl h
  | op2 n f a b iha ihb =>
      intro m m' hl h
      simp only [resetN, Option.bind_eq_bind, Option.bind_eq_some_iff] at h
      obtain ⟨m1, h1, h2⟩ := h
      obtain ⟨l1, f1⟩ := iha m m1 (fun p hp => hl p (by simp [Node.leaves, hp])) h1
      obtain ⟨l2, f2⟩ := ihb m1 m' (fun p hp => hl p (by simp [Node.leaves, hp])) h2
      refine ⟨fun p hp => ?_, f1.trans f2⟩
      simp only [Node.leaves, List.mem_append] at hp
      rcases hp with hp | hp
      · cases hv : m'.visited p with
        | false => rfl
        | true => have := f2.anti p hv; rw [l1 p hp] at this; simp at this
      · exact l2 p hp

theorem resetItems_spec {S : Set ℕ} {rec : ℕ → Mem K → Option (Mem K)} (hrec : RSpec D S rec)
    (is : List (Node K)) : ∀ m m', (∀ i ∈ is, ∀ p ∈ i.leaves, p ∈ S) →
      resetItems rec is m = some m' →
      (∀ i ∈ is, ∀ p ∈ i.leaves, m'.visited p = false) ∧ RFrame D S m m' := by
  induction is with
  | nil => intro m m' _ h; simp [resetItems] at h; subst h; exact ⟨by simp, RFrame.refl D S m⟩
  | cons i is ih =>
      intro m m' hl h
      simp only [resetItems, Option.bind_eq_bind, Option.bind_eq_some_iff] at h
      obtain ⟨m1, h1, h2⟩ := h
      obtain ⟨l1, f1⟩ := resetN_spec D hrec i m m1 (hl i (by simp)) h1
      obtain ⟨l2, f2⟩ := ih m1 m' (fun j hj => hl j (by simp [hj])) h2
      refine ⟨fun j hj p hp => ?_, f1.trans f2⟩
      rcases List.mem_cons.1 hj with rfl | hj
      · cases hv : m'.visited p with
        | false => rfl
        | true => have := f2.anti p hv; rw [l1 p hp] at this; simp at this
      · exact l2 j hj p hp

theorem clearObj_frame {S : Set ℕ} {m : Mem K} {o : ℕ} (ho : o ∈ S) (hv : m.visited o = false) :
    (clearObj D m o).visited o = false ∧ RFrame D S m (clearObj D m o) := by
  have hvis : (clearObj D m o).visited = m.visited := by
    funext q
    by_cases h : q = o
    · subst h; simp [clearObj, Mem.setVisited, Mem.setValue, Mem.setDValue, Mem.setCache, hv]
    · simp [clearObj, Mem.setVisited, Mem.setValue, Mem.setDValue, Mem.setCache, h]
  refine ⟨by rw [hvis, hv], ⟨fun q hq => by rwa [hvis] at hq, fun q h1 h2 => ?_, fun q _ => by
    rw [hvis], fun q => ?_, fun q hq => ?_⟩⟩
  · rw [hvis, h1] at h2; simp at h2
  · by_cases h : q = o
    · subst h
      right; simp [clearObj, Mem.setVisited, Mem.setValue, Mem.setDValue, Mem.setCache]
    · left; simp [clearObj, Mem.setVisited, Mem.setValue, Mem.setDValue, Mem.setCache, h]
  · have h : q ≠ o := by rintro rfl; exact hq ho
    simp [clearObj, Mem.setVisited, Mem.setValue, Mem.setDValue, Mem.setCache, h]

theorem resetO_spec {S : Set ℕ} (hS : ∀ q ∈ S, ∀ i ∈ D.items q, ∀ p ∈ i.leaves, p ∈ S)
    (fuel : ℕ) : RSpec D S (resetO D fuel) := by
  induction fuel with
  | zero => intro q _ m m' h; simp [resetO] at h
  | succ f ih =>
      intro o ho m m' h
      cases hv : m.visited o with
      | false =>
          simp [resetO, hv] at h
          subst h
          exact clearObj_frame D ho hv
      | true =>
          simp only [resetO, hv, if_true, Option.bind_eq_bind, Option.bind_eq_some_iff,
            Option.some.injEq] at h
          obtain ⟨m1, h1, rfl⟩ := h
          obtain ⟨l1, f1⟩ := resetItems_spec D ih (D.items o) _ m1 (hS o ho) h1
          have hv1 : m1.visited o = false := by
            cases hv1 : m1.visited o with
            | false => rfl
            | true => have := f1.anti o hv1; simp [Mem.setVisited] at this
          obtain ⟨h2, f2⟩ := clearObj_frame D ho hv1
          refine ⟨h2, RFrame.trans ⟨fun q hq => ?_, fun q hq hq' i hi p hp => ?_, fun q hq => ?_,
            f1.plain, f1.out⟩ f2⟩
          · have := f1.anti q hq
            by_cases h : q = o
            · subst h; exact hv
            · simpa [Mem.setVisited, h] using this
          · by_cases h : q = o
            · subst h; exact l1 i hi p hp
            · exact f1.closed q (by simpa [Mem.setVisited, h] using hq) hq' i hi p hp
          · have h : q ≠ o := by rintro rfl; exact hq ho
            have := f1.vis q hq
            simpa [Mem.setVisited, h] using this

/-- `resetImpl` on the root `y`: all operands of `y` are unvisited afterwards. -/
theorem resetImpl_spec {S : Set ℕ} (hS : ∀ q ∈ S, ∀ i ∈ D.items q, ∀ p ∈ i.leaves, p ∈ S)
    (fuel y : ℕ) (hy : y ∈ S) (m m' : Mem K) (h : resetImpl D fuel y m = some m') :
    m'.visited y = false ∧ (∀ i ∈ D.items y, ∀ p ∈ i.leaves, m'.visited p = false) ∧
      (∀ q, m'.visited q = true → m.visited q = true) ∧
      (∀ q, q ≠ y → m.visited q = true → m'.visited q = false → ∀ i ∈ D.items q, ∀ p ∈ i.leaves,
        m'.visited p = false) ∧
      (∀ q, q ∉ S → m'.visited q = m.visited q) ∧
      (∀ q, (m'.value q = m.value q ∧ m'.dvalue q = m.dvalue q ∧ m'.cache q = m.cache q) ∨
        (m'.value q = D.base q ∧ m'.dvalue q = 0 ∧ m'.cache q = fun _ => 0)) ∧
      (∀ q, q ∉ S →
        m'.value q = m.value q ∧ m'.dvalue q = m.dvalue q ∧ m'.cache q = m.cache q) := by
  simp only [resetImpl, Option.bind_eq_bind, Option.bind_eq_some_iff, Option.some.injEq] at h
  obtain ⟨m1, h1, rfl⟩ := h
  obtain ⟨l1, f1⟩ := resetItems_spec D (resetO_spec D hS fuel) (D.items y) _ m1 (hS y hy) h1
  have hdown : ∀ q, m1.visited q = false → (m1.setVisited y false).visited q = false := by
    intro q hq
    by_cases h : q = y
    · subst h; simp [Mem.setVisited]
    · simpa [Mem.setVisited, h] using hq
  refine ⟨by simp [Mem.setVisited], fun i hi p hp => hdown p (l1 i hi p hp), fun q hq => ?_,
    fun q hqy hq hq' i hi p hp => hdown p ?_, fun q hq => ?_, f1.plain, f1.out⟩
  · by_cases h : q = y
    · subst h; simp [Mem.setVisited] at hq
    · have := f1.anti q (by simpa [Mem.setVisited, h] using hq)
      simpa [Mem.setVisited, h] using this
  · exact f1.closed q (by simpa [Mem.setVisited, hqy] using hq)
      (by simpa [Mem.setVisited, hqy] using hq') i hi p hp
  · have h : q ≠ y := by rintro rfl; exact hq hy
    have := f1.vis q hq
    simpa [Mem.setVisited, h] using this

end


section
variable (N : ℕ)

/-- number of unvisited objects -/
def unv (m : Mem K) : ℕ := ((Finset.range N).filter fun q => m.visited q = false).card
/-- number of visited objects -/
def vis (m : Mem K) : ℕ := ((Finset.range N).filter fun q => m.visited q = true).card

/-- flags only go up -/
def Mono (m m' : Mem K) : Prop := ∀ q, m.visited q = true → m'.visited q = true
/-- flags only go down -/
def Anti (m m' : Mem K) : Prop := ∀ q, m'.visited q = true → m.visited q = true

theorem Mono.unv_le {N : ℕ} {m m' : Mem K} (h : Mono m m') : unv N m' ≤ unv N m := by
  refine Finset.card_le_card fun q hq => ?_
  simp only [Finset.mem_filter] at hq ⊢
  refine ⟨hq.1, ?_⟩
  cases hv : m.visited q with
  | false => rfl
  | true => exact absurd (h q hv) (by simp [hq.2])

theorem Anti.vis_le {N : ℕ} {m m' : Mem K} (h : Anti m m') : vis N m' ≤ vis N m := by
  refine Finset.card_le_card fun q hq => ?_
  simp only [Finset.mem_filter] at hq ⊢
  exact ⟨hq.1, h q hq.2⟩

theorem unv_le (m : Mem K) : unv N m ≤ N := by
  simpa [unv] using
    Finset.card_le_card (Finset.filter_subset (fun q => m.visited q = false) (Finset.range N))

theorem vis_le (m : Mem K) : vis N m ≤ N := by
  simpa [vis] using
    Finset.card_le_card (Finset.filter_subset (fun q => m.visited q = true) (Finset.range N))

theorem unv_lt {N : ℕ} {m m' : Mem K} {o : ℕ} (ho : o < N) (hv : m.visited o = false)
    (hv' : m'.visited o = true) (h : Mono m m') : unv N m' < unv N m := by
  refine Finset.card_lt_card ⟨fun q hq => ?_, fun hs => ?_⟩
  · simp only [Finset.mem_filter] at hq ⊢
    refine ⟨hq.1, ?_⟩
    cases hv : m.visited q with
    | false => rfl
    | true => exact absurd (h q hv) (by simp [hq.2])
  · have := hs (show o ∈ (Finset.range N).filter fun q => m.visited q = false by simp [ho, hv])
    simp [hv'] at this

theorem vis_lt {N : ℕ} {m m' : Mem K} {o : ℕ} (ho : o < N) (hv : m.visited o = true)
    (hv' : m'.visited o = false) (h : Anti m m') : vis N m' < vis N m := by
  refine Finset.card_lt_card ⟨fun q hq => ?_, fun hs => ?_⟩
  · simp only [Finset.mem_filter] at hq ⊢
    exact ⟨hq.1, h q hq.2⟩
  · have := hs (show o ∈ (Finset.range N).filter fun q => m.visited q = true by simp [ho, hv])
    simp [hv'] at this

theorem Mono.refl (m : Mem K) : Mono m m := fun _ h => h
theorem Mono.trans {m m' m'' : Mem K} (h : Mono m m') (h' : Mono m' m'') : Mono m m'' :=
  fun q hq => h' q (h q hq)
theorem Anti.refl (m : Mem K) : Anti m m := fun _ h => h
theorem Anti.trans {m m' m'' : Mem K} (h : Anti m m') (h' : Anti m' m'') : Anti m m'' :=
  fun q hq => h q (h' q hq)

end

section
variable [Zero K] (P : Arith K) (D : Defs K)

/-- A recursive call on an object succeeds when few enough objects are unvisited. -/
def TotE (n : ℕ) (rec : ℕ → Mem K → Option (K × Mem K)) : Prop :=
  ∀ o m, o < D.size → unv D.size m < n → ∃ v m', rec o m = some (v, m') ∧ Mono m m'

def TotT (n : ℕ) (rec : ℕ → Mem K → Option (Mem K)) : Prop :=
  ∀ o m, o < D.size → unv D.size m < n → ∃ m', rec o m = some m' ∧ Mono m m'

def TotR (n : ℕ) (rec : ℕ → Mem K → Option (Mem K)) : Prop :=
  ∀ o m, o < D.size → vis D.size m < n → ∃ m', rec o m = some m' ∧ Anti m m'

variable {n : ℕ} {recE recD : ℕ → Mem K → Option (K × Mem K)} {recT : ℕ → Mem K → Option (Mem K)}

theorem evalN_total (hE : TotE D n recE) (t : Node K) : ∀ m, (∀ p ∈ t.leaves, p < D.size) →
    unv D.size m < n → ∃ v m', evalN P D recE t m = some (v, m') ∧ Mono m m' := by
  induction t with
  | leaf o => intro m hl hm; exact hE o m (hl o (by simp [Node.leaves])) hm
  | par p => intro m hl hm; exact ⟨_, m, rfl, Mono.refl m⟩
  | op1 n f a ih =>
      intro m hl hm
      obtain ⟨u, m1, h1, mo⟩ := ih m hl hm
      exact ⟨_, m1, by simp only [evalN, h1]; rfl, mo⟩
  | op2 n f a b iha ihb =>
      intro m hl hm
      have hla : ∀ p ∈ a.leaves, p < D.size := fun p hp => hl p (by simp [Node.leaves, hp])
      have hlb : ∀ p ∈ b.leaves, p < D.size := fun p hp => hl p (by simp [Node.leaves, hp])
      simp only [evalN]
      split
      · obtain ⟨v, m1, h1, mo1⟩ := ihb m hlb hm
        obtain ⟨u, m2, h2, mo2⟩ := iha m1 hla (mo1.unv_le.trans_lt hm)
        exact ⟨_, m2, by rw [h1]; simp only [Option.bind_eq_bind, Option.bind_some]; rw [h2]; rfl,
          mo1.trans mo2⟩
      · obtain ⟨v, m1, h1, mo1⟩ := iha m hla hm
        obtain ⟨u, m2, h2, mo2⟩ := ihb m1 hlb (mo1.unv_le.trans_lt hm)
        exact ⟨_, m2, by rw [h1]; simp only [Option.bind_eq_bind, Option.bind_some]; rw [h2]; rfl,
          mo1.trans mo2⟩

theorem evalItems_total (hE : TotE D n recE) (o : ℕ) (is : List (Node K)) :
    ∀ m, (∀ i ∈ is, ∀ p ∈ i.leaves, p < D.size) → unv D.size m < n →
      ∃ m', evalItems P D recE o is m = some m' ∧ Mono m m' := by
  induction is with
  | nil => intro m _ _; exact ⟨m, rfl, Mono.refl m⟩
  | cons i is ih =>
      intro m hl hm
      obtain ⟨v, m1, h1, mo1⟩ := evalN_total P D hE i m (hl i (by simp)) hm
      obtain ⟨m2, h2, mo2⟩ := ih (m1.setValue o v) (fun j hj => hl j (by simp [hj]))
        (mo1.unv_le.trans_lt hm)
      refine ⟨m2, ?_, Mono.trans (m' := m1.setValue o v) mo1 mo2⟩
      simp only [evalItems, h1, Option.bind_eq_bind, Option.bind_some]
      exact h2

theorem mono_setVisited (m : Mem K) (o : ℕ) : Mono m (m.setVisited o true) := by
  intro q hq
  by_cases h : q = o
  · subst h; simp [Mem.setVisited]
  · simpa [Mem.setVisited, h] using hq

theorem anti_setVisited (m : Mem K) (o : ℕ) : Anti m (m.setVisited o false) := by
  intro q hq
  by_cases h : q = o
  · subst h; simp [Mem.setVisited] at hq
  · simpa [Mem.setVisited, h] using hq

theorem evalO_total (hD : D.Closed) (fuel : ℕ) : TotE D fuel (evalO P D fuel) := by
  induction fuel with
  | zero => intro o m _ h; exact absurd h (by omega)
  | succ f ih =>
      intro o m ho hm
      cases hv : m.visited o with
      | true => exact ⟨_, m, by simp only [evalO, hv]; rfl, Mono.refl m⟩
      | false =>
          have hmo : Mono m ((m.setValue o (D.base o)).setVisited o true) :=
            mono_setVisited (m.setValue o (D.base o)) o
          have hlt := unv_lt ho hv (by simp [Mem.setVisited]) hmo
          obtain ⟨m1, h1, mo1⟩ := evalItems_total P D ih o (D.items o)
            ((m.setValue o (D.base o)).setVisited o true) (hD o ho)
            (show _ < f by omega)
          exact ⟨_, m1, by simp only [evalO, hv, if_true, h1]; rfl, hmo.trans mo1⟩

theorem resetN_total (hR : TotR D n recT) (t : Node K) : ∀ m, (∀ p ∈ t.leaves, p < D.size) →
    vis D.size m < n → ∃ m', resetN recT t m = some m' ∧ Anti m m' := by
  induction t with
  | leaf o => intro m hl hm; exact hR o m (hl o (by simp [Node.leaves])) hm
  | par p => intro m hl hm; exact ⟨m, rfl, Anti.refl m⟩
  | op1 n f a ih => intro m hl hm; exact ih m hl hm
  | op2 n f a b iha ihb =>
      intro m hl hm
      obtain ⟨m1, h1, mo1⟩ := iha m (fun p hp => hl p (by simp [Node.leaves, hp])) hm
      obtain ⟨m2, h2, mo2⟩ := ihb m1 (fun p hp => hl p (by simp [Node.leaves, hp]))
        (mo1.vis_le.trans_lt hm)
      exact ⟨m2, by simp only [resetN, h1, Option.bind_eq_bind, Option.bind_some, h2],
        mo1.trans mo2⟩

theorem resetItems_total (hR : TotR D n recT) (is : List (Node K)) : ∀ m,
    (∀ i ∈ is, ∀ p ∈ i.leaves, p < D.size) → vis D.size m < n →
    ∃ m', resetItems recT is m = some m' ∧ Anti m m' := by
  induction is with
  | nil => intro m _ _; exact ⟨m, rfl, Anti.refl m⟩
  | cons i is ih =>
      intro m hl hm
      obtain ⟨m1, h1, mo1⟩ := resetN_total D hR i m (hl i (by simp)) hm
      obtain ⟨m2, h2, mo2⟩ := ih m1 (fun j hj => hl j (by simp [hj])) (mo1.vis_le.trans_lt hm)
      exact ⟨m2, by simp only [resetItems, h1, Option.bind_eq_bind, Option.bind_some, h2],
        mo1.trans mo2⟩

theorem resetO_total (hD : D.Closed) (fuel : ℕ) : TotR D fuel (resetO D fuel) := by
  induction fuel with
  | zero => intro o m _ h; exact absurd h (by omega)
  | succ f ih =>
      intro o m ho hm
      cases hv : m.visited o with
      | false =>
          exact ⟨clearObj D m o, by simp only [resetO, hv]; rfl, anti_setVisited m o⟩
      | true =>
          have hmo := anti_setVisited m o
          have hlt := vis_lt ho hv (by simp [Mem.setVisited]) hmo
          obtain ⟨m1, h1, mo1⟩ := resetItems_total D ih (D.items o) (m.setVisited o false) (hD o ho)
            (show _ < f by omega)
          refine ⟨clearObj D m1 o, by simp only [resetO, hv, if_true, h1]; rfl, ?_⟩
          exact (hmo.trans mo1).trans (anti_setVisited m1 o)

theorem resetImpl_total (hD : D.Closed) (y : ℕ) (hy : y < D.size) (m : Mem K) :
    ∃ m', resetImpl D D.fuel y m = some m' := by
  obtain ⟨m1, h1, -⟩ := resetItems_total D (resetO_total D hD D.fuel) (D.items y)
    (m.setVisited y true) (hD y hy) ((vis_le _ _).trans_lt (by simp [Defs.fuel]))
  exact ⟨m1.setVisited y false, by simp only [resetImpl, h1]; rfl⟩

end


section
variable [Zero K] {P : Arith K}

theorem seqVal_congr (π : ℕ → K) {ρ ρ' : ℕ → K} (o : ℕ) (is : List (Node K)) :
    ∀ v, (∀ i ∈ is, ∀ p ∈ i.leaves, p ≠ o → ρ p = ρ' p) →
      seqVal P π ρ o is v = seqVal P π ρ' o is v := by
  induction is with
  | nil => intro v _; rfl
  | cons i is ih =>
      intro v h
      have e : nval P π (Function.update ρ o v) i = nval P π (Function.update ρ' o v) i := by
        apply nval_congr
        intro p hp
        by_cases hpo : p = o
        · subst hpo; simp
        · simp [hpo, h i (by simp) p hp hpo]
      simp only [seqVal, e]
      exact ih _ fun j hj => h j (List.mem_cons_of_mem _ hj)

theorem local_val {D : Defs K} {y : ℕ} {rank : ℕ → ℕ}
    (hr : ∀ q, Reach D y q → ∀ i ∈ D.items q, ∀ p ∈ i.leaves, p = q ∨ rank p < rank q) :
    ∀ q ∈ {q | Reach D y q}, ∀ f g : ℕ → K,
      (∀ p ∈ {q | Reach D y q}, rank p < rank q → f p = g p) →
      seqVal P D.par f q (D.items q) (D.base q) = seqVal P D.par g q (D.items q) (D.base q) := by
  intro q hq f g hfg
  apply seqVal_congr
  intro i hi p hp hpq
  rcases hr q hq i hi p hp with h | h
  · exact absurd h hpq
  · exact hfg p (Reach.step hq hi hp) h

/-- Every well-defined object has a value. -/
theorem exists_solves {D : Defs K} {y : ℕ} (h : WellDefined D y) :
    ∃ ρ, Solves P D y ρ := by
  obtain ⟨⟨rank, hr⟩, -⟩ := h
  exact exists_fixpoint (fun ρ q => seqVal P D.par ρ q (D.items q) (D.base q))
    {q | Reach D y q} rank (fun _ => 0) (local_val hr)

/-- The value is unique. -/
theorem solves_unique {D : Defs K} {y : ℕ} (h : WellDefined D y) {ρ ρ' : ℕ → K}
    (h1 : Solves P D y ρ) (h2 : Solves P D y ρ') : ∀ q, Reach D y q → ρ q = ρ' q := by
  obtain ⟨⟨rank, hr⟩, -⟩ := h
  exact fixpoint_unique (fun ρ q => seqVal P D.par ρ q (D.items q) (D.base q))
    {q | Reach D y q} rank (local_val hr) h1 h2



end

end CoolDiff.Mach
