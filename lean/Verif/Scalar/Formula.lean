import Verif.Props.Meaning

/-!
# Queries on formulas, Variables, Parameters and numbers

`CoolDiff::TensorR1::Eval`, `DevalF` and `DevalR` accept more than Expressions
(include/Scalar/CommonFunctions.hpp:96-196).  A formula object (`auto& f = x * y;`) is wrapped in a temporary
`Expression exp{v}` for the time of the call.
-/

set_option linter.unusedSectionVars false

namespace CoolDiff

variable {K : Type} [Field K] [DecidableEq K] {P : Prim K}

/-- `Expression y{f}` and `Expression y = f` (Expression.hpp:43-50): the base-class constructor takes a number, the
constructor takes the number of the Expression, then `f*(Type)(1)` is stored (it clones `f`;
GenericProduct.hpp:397-401). -/
def newExprOf (t : Node K) (σ : St K) : ℕ × St K :=
  let o := σ.defs.size
  let r := cloneN t (σ.defs.next + 2)
  (o, { defs := { σ.defs with
          size := o + 1
          next := r.2 + 1
          nidx := Function.update σ.defs.nidx o (σ.defs.next + 1)
          base := Function.update σ.defs.base o 0
          items := Function.update σ.defs.items o [.op1 r.2 (.mulC 1) r.1] }
        mem := { visited := Function.update σ.mem.visited o false
                 value := Function.update σ.mem.value o 0
                 dvalue := Function.update σ.mem.dvalue o 0
                 cache := Function.update σ.mem.cache o (fun _ => 0) } })

/-- `Expression y(z)`, the copy constructor (Expression.cpp:35-41): a reference to `z`. -/
def newExprRef (z : ℕ) (σ : St K) : ℕ × St K :=
  let o := σ.defs.size
  (o, { defs := { σ.defs with
          size := o + 1
          next := σ.defs.next + 2
          nidx := Function.update σ.defs.nidx o (σ.defs.next + 1)
          base := Function.update σ.defs.base o 0
          items := Function.update σ.defs.items o [.leaf z] }
        mem := { visited := Function.update σ.mem.visited o false
                 value := Function.update σ.mem.value o 0
                 dvalue := Function.update σ.mem.dvalue o 0
                 cache := Function.update σ.mem.cache o (fun _ => 0) } })

/-- `ExpressionFactory::CreateExpression(c)` for a number (Expression.hpp:84-92): an Expression made of a new
Parameter. -/
def createExpr (c : K) (σ : St K) : ℕ × St K :=
  let r := newPar c σ
  newExprOf (.par r.1) r.2

/-- What `Eval`, `DevalF` and `DevalR` can be called with (`IsValidScalarType`, CommonHeader.hpp). -/
inductive Arg (K : Type)
  | num (c : K)
  | par (p : ℕ)
  | var (x : ℕ)
  | expr (y : ℕ)
  /-- a formula object, built at any earlier time -/
  | formula (t : Node K)

/-- `CoolDiff::TensorR1::Eval(T&)` (CommonFunctions.hpp:96-124; Parameter.cpp:74-76, Variable.cpp:106-108). -/
def EvalA (P : Prim K) (σ : St K) : Arg K → Option (K × St K)
  | .num c => some (c, σ)
  | .par p => some (σ.defs.par p, σ)
  | .var x => some (σ.mem.value x, σ)
  | .expr y => Eval P y σ
  | .formula t => let r := newExprOf t σ; Eval P r.1 r.2

/-- `CoolDiff::TensorR1::DevalF(T&, x)` (CommonFunctions.hpp:126-149). -/
def DevalFA (P : Prim K) (x : ℕ) (σ : St K) : Arg K → Option (K × St K)
  | .num _ => some (0, σ)
  | .par _ => some (0, σ)
  | .var v => some (if σ.defs.nidx v = σ.defs.nidx x then 1 else 0, σ)
  | .expr y => DevalF P y x σ
  | .formula t => let r := newExprOf t σ; DevalF P r.1 x r.2

/-- `CoolDiff::TensorR1::DevalR(T&, x)` (CommonFunctions.hpp:156-175): formula objects are refused. -/
def DevalRA (x : ℕ) (σ : St K) : Arg K → Option K
  | .num _ => some 0
  | .par _ => some 0
  | .var v => some (if σ.defs.nidx v = σ.defs.nidx x then 1 else 0)
  | .expr y => some (DevalR y x σ)
  | .formula _ => none

/-! ## The constructors are declarations followed by assignments -/

theorem findMe_false {o : ℕ} {t : Node K} (h : o ∉ t.leaves) : findMe o t = false := by
  cases hf : findMe o t with
  | false => rfl
  | true => exact absurd ((findMe_iff o t).1 hf) h

theorem newExprOf_eq {t : Node K} {σ : St K} (hl : ∀ p ∈ t.leaves, p < σ.defs.size) :
    newExprOf t σ = (σ.defs.size, assignExp σ.defs.size t (newExpr σ).2) := by
  have hf : findMe σ.defs.size t = false := findMe_false fun h => lt_irrefl _ (hl _ h)
  simp [newExprOf, assignExp, newExpr, hf]

theorem newExprRef_eq {z : ℕ} {σ : St K} (hz : z < σ.defs.size) :
    newExprRef z σ = (σ.defs.size, assignRef σ.defs.size z (newExpr σ).2) := by
  simp [newExprRef, assignRef, newExpr, hz.ne]

theorem Run.newExprOf {σ : St K} (h : Run P σ) {t : Node K} (hl : ∀ p ∈ t.leaves, p < σ.defs.size)
    (hp : ∀ p ∈ t.pars, p < σ.defs.psize) : Run P (newExprOf t σ).2 := by
  rw [newExprOf_eq hl]
  refine .assign σ.defs.size t (.newExpr h) ?_ ?_ ?_ ?_
  · show σ.defs.size < σ.defs.size + 1; omega
  · simp [CoolDiff.newExpr]
  · intro p hp'; have := hl p hp'; show p < σ.defs.size + 1; omega
  · exact hp

theorem Run.newExprRef {σ : St K} (h : Run P σ) {z : ℕ} (hz : z < σ.defs.size) (hze : σ.defs.items z ≠ []) :
    Run P (newExprRef z σ).2 := by
  rw [newExprRef_eq hz]
  refine .defineRef σ.defs.size z (.newExpr h) ?_ ?_ ?_ ?_
  · show σ.defs.size < σ.defs.size + 1; omega
  · simp [CoolDiff.newExpr]
  · show z < σ.defs.size + 1; omega
  · simp [CoolDiff.newExpr, hz.ne, hze]

theorem Run.createExpr {σ : St K} (h : Run P σ) (c : K) : Run P (createExpr c σ).2 := by
  refine (h.newPar c).newExprOf (t := .par (CoolDiff.newPar c σ).1) (by simp [Node.leaves]) ?_
  intro p hp
  simp only [Node.pars, List.mem_singleton] at hp
  subst hp
  show σ.defs.psize < σ.defs.psize + 1; omega

/-! ## A rank that does not depend on the root -/

open Classical in
/-- The number of objects `q` depends on. -/
noncomputable def reachCount (D : Defs K) (q : ℕ) : ℕ := ((Finset.range D.size).filter (Reach D q)).card

theorem reachCount_lt {D : Defs K} (hc : D.Closed) {y : ℕ} (hy : y < D.size) (hwd : WellDefined D y)
    {q : ℕ} (hq : Reach D y q) {i : Node K} (hi : i ∈ D.items q) {p : ℕ} (hp : p ∈ i.leaves) (hpq : p ≠ q) :
    reachCount D p < reachCount D q := by
  classical
  obtain ⟨⟨rank, hr⟩, -⟩ := hwd
  have hle : ∀ {a b}, Reach D y a → Reach D a b → rank b ≤ rank a := by
    intro a b ha hb
    induction hb with
    | refl => exact le_rfl
    | step h1 h2 h3 ih => rcases hr _ (ha.trans h1) _ h2 _ h3 with h | h
                          · rw [h]; exact ih
                          · omega
  unfold reachCount
  apply Finset.card_lt_card
  rw [Finset.ssubset_iff_of_subset]
  · refine ⟨q, ?_, ?_⟩
    · simp [Reach.lt hc hy hq, Reach.refl]
    · intro h
      have h2 := hle (hq.step hi hp) (Finset.mem_filter.1 h).2
      have := (hr q hq i hi p hp).resolve_left hpq
      omega
  · intro r h
    obtain ⟨h1, h2⟩ := Finset.mem_filter.1 h
    exact Finset.mem_filter.2 ⟨h1, (Reach.of_leaf hi hp).trans h2⟩

/-! ## The temporary Expression -/

section
variable {t : Node K} {σ : St K}

theorem newExprOf_items : (newExprOf t σ).2.defs.items σ.defs.size =
    [.op1 (cloneN t (σ.defs.next + 2)).2 (.mulC 1) (cloneN t (σ.defs.next + 2)).1] := by
  simp [newExprOf]

theorem newExprOf_items_ne {q : ℕ} (h : q ≠ σ.defs.size) : (newExprOf t σ).2.defs.items q = σ.defs.items q := by
  simp [newExprOf, h]

theorem newExprOf_sameBelow (hw : σ.WF) {p : ℕ} (hp : p < σ.defs.size) :
    SameBelow σ.defs (newExprOf t σ).2.defs p := by
  have hlt : ∀ q, Reach σ.defs p q → q ≠ σ.defs.size := fun q hq => (Reach.lt hw.defs.closed hp hq).ne
  refine ⟨fun q hq => newExprOf_items_ne (hlt q hq), fun q hq => ?_, fun q hq i hi r hr => rfl, fun q hq => ?_,
    fun q hq i hi r hr => rfl⟩
  · simp [newExprOf, hlt q hq]
  · simp [newExprOf, hlt q hq]

theorem newExprOf_reach (hw : σ.WF) (hl : ∀ p ∈ t.leaves, p < σ.defs.size) {q : ℕ}
    (hq : Reach (newExprOf t σ).2.defs σ.defs.size q) :
    q = σ.defs.size ∨ ∃ p ∈ t.leaves, Reach σ.defs p q := by
  induction hq with
  | refl => exact Or.inl rfl
  | @step q r i hq hi hr ih =>
      right
      rcases ih with rfl | ⟨p, hp, hpq⟩
      · rw [newExprOf_items] at hi
        simp only [List.mem_singleton] at hi
        subst hi
        simp only [Node.leaves, cloneN_leaves] at hr
        exact ⟨r, hr, .refl⟩
      · have hlt := Reach.lt hw.defs.closed (hl p hp) hpq
        rw [newExprOf_items_ne hlt.ne] at hi
        exact ⟨p, hp, hpq.step hi hr⟩

theorem newExprOf_leaf {p : ℕ} (hp : p ∈ t.leaves) : Reach (newExprOf t σ).2.defs σ.defs.size p :=
  .of_leaf (i := .op1 (cloneN t (σ.defs.next + 2)).2 (.mulC 1) (cloneN t (σ.defs.next + 2)).1)
    (by rw [newExprOf_items]; simp) (by simpa [Node.leaves, cloneN_leaves] using hp)

theorem newExprOf_wd (hw : σ.WF) (hl : ∀ p ∈ t.leaves, p < σ.defs.size)
    (hwd : ∀ p ∈ t.leaves, WellDefined σ.defs p) : WellDefined (newExprOf t σ).2.defs σ.defs.size := by
  have hlt : ∀ p ∈ t.leaves, ∀ q, Reach σ.defs p q → q < σ.defs.size := fun p hp q hq =>
    Reach.lt hw.defs.closed (hl p hp) hq
  classical
  have hcard : ∀ q, reachCount σ.defs q ≤ σ.defs.size := fun q =>
    (Finset.card_filter_le _ _).trans (by simp)
  refine ⟨⟨fun q => if q = σ.defs.size then σ.defs.size + 1 else reachCount σ.defs q, ?_⟩, ?_⟩
  · intro q hq i hi p hp
    rcases newExprOf_reach hw hl hq with rfl | ⟨r, hr, hrq⟩
    · right
      rw [newExprOf_items] at hi
      simp only [List.mem_singleton] at hi
      subst hi
      simp only [Node.leaves, cloneN_leaves] at hp
      have := hl p hp
      simp only [if_true, this.ne, if_false]
      have := hcard p
      omega
    · have hq' := hlt r hr q hrq
      rw [newExprOf_items_ne hq'.ne] at hi
      have hp' := hlt r hr p (hrq.step hi hp)
      by_cases hpq : p = q
      · exact Or.inl hpq
      · right
        simp only [hq'.ne, hp'.ne, if_false]
        exact reachCount_lt hw.defs.closed (hl r hr) (hwd r hr) hrq hi hp hpq
  · intro q hq i is he
    rcases newExprOf_reach hw hl hq with rfl | ⟨r, hr, hrq⟩
    · rw [newExprOf_items] at he
      simp only [List.cons.injEq] at he
      rw [← he.1]
      simp only [Node.leaves, cloneN_leaves]
      exact fun h => lt_irrefl _ (hl _ h)
    · have hq' := hlt r hr q hrq
      rw [newExprOf_items_ne hq'.ne] at he
      exact (hwd r hr).2 q hrq i is he

theorem newExprOf_val {ρ : ℕ → K} (hl : ∀ p ∈ t.leaves, p < σ.defs.size)
    (hρ : Solves P (newExprOf t σ).2.defs σ.defs.size ρ) : ρ σ.defs.size = t.val P σ.defs.par ρ := by
  rw [hρ _ .refl, newExprOf_items]
  simp only [seqVal, Node.val, Op1.sem, one_mul, cloneN_val]
  show t.val P σ.defs.par _ = _
  apply Node.val_congr
  intro p hp
  rw [Function.update_of_ne (hl p hp).ne]

theorem newExprOf_der {x : ℕ} {ρ δ : ℕ → K} (hl : ∀ p ∈ t.leaves, p < σ.defs.size) (hx : x < σ.defs.size)
    (hδ : Tangent P (newExprOf t σ).2.defs σ.defs.size x ρ δ) : δ σ.defs.size = t.der P σ.defs.par ρ δ := by
  rw [hδ _ .refl, newExprOf_items, if_neg hx.ne']
  simp only [seqDer, Node.der, Op1.der, one_mul, cloneN_der]
  show t.der P σ.defs.par _ _ = _
  apply Node.der_congr
  · intro p hp
    rw [Function.update_of_ne (hl p hp).ne]
  · intro p hp
    rw [Function.update_of_ne (hl p hp).ne]

end

end CoolDiff
