import Verif.Scalar.MachineFwd

/-!
# C63: `Eval` and `DevalF` in machine arithmetic

Programs over any type of numbers with any operations.  What `Eval` returns is what the definitions give when they are
computed with the operations of the machine, whatever was evaluated before; no rounding depends on the history.
-/

set_option linter.unusedSectionVars false

namespace CoolDiff.Mach

variable {K : Type}

/-! ## Written formulas -/

/-- The written arithmetic, computed with the operations of the machine in the order of writing; `dv` is the division. -/
def wval (R : Arith K) (dv : K → K → K) (π ρ : ℕ → K) : Exp K → K
  | .var o => ρ o
  | .par p => π p
  | .fn f a => R.fn f (wval R dv π ρ a)
  | .add a b => R.add (wval R dv π ρ a) (wval R dv π ρ b)
  | .sub a b => R.sub (wval R dv π ρ a) (wval R dv π ρ b)
  | .mul a b => R.mul (wval R dv π ρ a) (wval R dv π ρ b)
  | .div a b => dv (wval R dv π ρ a) (wval R dv π ρ b)
  | .pow a b => R.prim.pow (wval R dv π ρ a) (wval R dv π ρ b)
  | .addC a c => R.add (wval R dv π ρ a) c
  | .cAdd c a => R.add c (wval R dv π ρ a)
  | .subC a c => R.sub (wval R dv π ρ a) c
  | .cSub c a => R.sub c (wval R dv π ρ a)
  | .neg a => R.neg (wval R dv π ρ a)
  | .mulC a c => R.mul (wval R dv π ρ a) c
  | .cMul c a => R.mul c (wval R dv π ρ a)
  | .divC a c => dv (wval R dv π ρ a) c
  | .cDiv c a => dv c (wval R dv π ρ a)
  | .powC a c => R.prim.pow (wval R dv π ρ a) c
  | .cPow c a => R.prim.pow c (wval R dv π ρ a)
  | .un f _ a => f (wval R dv π ρ a)
  | .bin f _ _ a b => f (wval R dv π ρ a) (wval R dv π ρ b)
  | .cBin f _ _ c a => f c (wval R dv π ρ a)
  | .binC f _ _ a c => f (wval R dv π ρ a) c

/-- No division is written. -/
def NoDiv : Exp K → Prop
  | .var _ | .par _ => True
  | .div _ _ | .divC _ _ | .cDiv _ _ => False
  | .fn _ a | .addC a _ | .cAdd _ a | .subC a _ | .cSub _ a | .neg a | .mulC a _ | .cMul _ a
  | .powC a _ | .cPow _ a | .un _ _ a | .cBin _ _ _ _ a | .binC _ _ _ a _ => NoDiv a
  | .add a b | .sub a b | .mul a b | .pow a b | .bin _ _ _ a b => NoDiv a ∧ NoDiv b

theorem wval_noDiv (R : Arith K) (dv dv' : K → K → K) (π ρ : ℕ → K) (e : Exp K) (h : NoDiv e) :
    wval R dv π ρ e = wval R dv' π ρ e := by
  induction e with
  | var | par => rfl
  | div | divC | cDiv => exact absurd h (by simp [NoDiv])
  | add a b iha ihb | sub a b iha ihb | mul a b iha ihb | pow a b iha ihb | bin f fu fv a b iha ihb =>
      simp only [wval, iha h.1, ihb h.2]
  | fn f a ih | addC a c ih | cAdd c a ih | mulC a c ih | cMul c a ih | powC a c ih | cPow c a ih
  | un f df a ih | cBin f fu fv c a ih | binC f fu fv a c ih | subC a c ih | neg a ih | cSub c a ih =>
      simp only [NoDiv] at h
      simp only [wval, ih h]

/-- The laws of machine arithmetic that the operator functions use; they hold of IEEE arithmetic (up to the sign and payload of
a NaN), no associativity, no distributivity. -/
structure Laws (R : Arith K) : Prop where
  add_comm : ∀ u v, R.add u v = R.add v u
  mul_comm : ∀ u v, R.mul u v = R.mul v u
  one_mul : ∀ u, R.mul R.one u = u
  sub_num : ∀ u c, R.add (R.mul R.negOne c) u = R.sub u c
  num_sub : ∀ c u, R.add c (R.mul R.negOne u) = R.sub c u
  neg_eq : ∀ u, R.mul R.negOne u = R.neg u

/-- The operator-function calls a written formula stands for, as `Exp.build`: `x + c`, `c + x` GenericSum.hpp:383-395;
`x - c` GenericSub.hpp:231-234; `c - x` GenericSub.hpp:224-227; `-x` GenericNeg.hpp:29-32; `x * c`, `c * x`
GenericProduct.hpp:389-401; `x / c` GenericProduct.hpp:405-409; `c / x` GenericDiv.hpp:407-411; `pow`
GenericPow.hpp:558-570; user operators GenericScalarUnary.hpp:100-107, GenericScalarBinary.hpp:228-232 and 316-320. -/
def build (R : Arith K) : Exp K → ℕ → Node K × ℕ
  | .var o, n => (.leaf o, n)
  | .par p, n => (.par p, n)
  | .fn f a, n => let r := build R a n; mk1 (.fn f) r.1 r.2
  | .add a b, n => let r := build R a n; let s := build R b r.2; mk2 .add r.1 s.1 s.2
  | .sub a b, n => let r := build R a n; let s := build R b r.2; mk2 .sub r.1 s.1 s.2
  | .mul a b, n => let r := build R a n; let s := build R b r.2; mk2 .mul r.1 s.1 s.2
  | .div a b, n => let r := build R a n; let s := build R b r.2; mk2 .div r.1 s.1 s.2
  | .pow a b, n => let r := build R a n; let s := build R b r.2; mk2 .pow r.1 s.1 s.2
  | .addC a c, n => let r := build R a n; mk1 (.addC c) r.1 r.2
  | .cAdd c a, n => let r := build R a n; mk1 (.addC c) r.1 r.2
  | .subC a c, n =>
      let r := build R a n
      let s := cloneN r.1 r.2
      mk1 (.addC (R.mul R.negOne c)) s.1 s.2
  | .cSub c a, n =>
      let r := build R a n
      let s := cloneN r.1 r.2
      let t := mk1 (.mulC R.negOne) s.1 s.2
      mk1 (.addC c) t.1 t.2
  | .neg a, n => let r := build R a n; let s := cloneN r.1 r.2; mk1 (.mulC R.negOne) s.1 s.2
  | .mulC a c, n => let r := build R a n; mk1 (.mulC c) r.1 r.2
  | .cMul c a, n => let r := build R a n; mk1 (.mulC c) r.1 r.2
  | .divC a c, n => let r := build R a n; mk1 (.mulC (R.div R.one c)) r.1 r.2
  | .cDiv c a, n => let r := build R a n; mk1 (.divC c) r.1 r.2
  | .powC a c, n => let r := build R a n; mk1 (.powC c) r.1 r.2
  | .cPow c a, n => let r := build R a n; mk1 (.cPow c) r.1 r.2
  | .un f df a, n => let r := build R a n; mk1 (.custom f df) r.1 r.2
  | .bin f fu fv a b, n =>
      let r := build R a n
      let s := build R b r.2
      mk2 (.custom f fu fv) r.1 s.1 s.2
  | .cBin f _ fv c a, n => let r := build R a n; mk1 (.custom (f c) (fv c)) r.1 r.2
  | .binC f fu _ a c, n =>
      let r := build R a n
      mk1 (.custom (fun u => f u c) (fun u => fu u c)) r.1 r.2

/-- The tree stored by `y = e` (Expression.hpp:58-68): `e * (Type)1`. -/
def stored (R : Arith K) (e : Exp K) (n : ℕ) : Node K :=
  let r := build R e n
  let c := cloneN r.1 r.2
  .op1 c.2 (.mulC R.one) c.1

theorem clone_leaves (t : Node K) : ∀ n, (cloneN t n).1.leaves = t.leaves := by
  induction t with
  | leaf | par => intro n; rfl
  | op1 m f a ih => intro n; simp [cloneN, Node.leaves, ih]
  | op2 m f a b iha ihb => intro n; simp [cloneN, Node.leaves, iha, ihb]

theorem clone_nval (R : Arith K) (π ρ : ℕ → K) (t : Node K) :
    ∀ n, nval R π ρ (cloneN t n).1 = nval R π ρ t := by
  induction t with
  | leaf | par => intro n; rfl
  | op1 m f a ih => intro n; simp [cloneN, nval, ih]
  | op2 m f a b iha ihb => intro n; simp [cloneN, nval, iha, ihb]

theorem clone_le (t : Node K) : ∀ n, n ≤ (cloneN t n).2 := by
  induction t with
  | leaf | par => intro n; exact le_refl _
  | op1 m f a ih => intro n; exact (ih n).trans (Nat.le_succ _)
  | op2 m f a b iha ihb => intro n; exact ((iha n).trans (ihb _)).trans (Nat.le_succ _)

theorem mk1_le (f : Op1 K) (a : Node K) (n : ℕ) : n ≤ (mk1 f a n).2 :=
  (clone_le a n).trans (Nat.le_succ _)

theorem mk2_le (f : Op2 K) (a b : Node K) (n : ℕ) : n ≤ (mk2 f a b n).2 :=
  ((clone_le a n).trans (clone_le b _)).trans (Nat.le_succ _)

theorem build_le (R : Arith K) (e : Exp K) : ∀ n, n ≤ (build R e n).2 := by
  induction e with
  | var | par => intro n; exact le_refl _
  | add a b iha ihb | sub a b iha ihb | mul a b iha ihb | div a b iha ihb | pow a b iha ihb
  | bin f fu fv a b iha ihb => intro n; exact ((iha n).trans (ihb _)).trans (mk2_le _ _ _ _)
  | fn f a ih | addC a c ih | cAdd c a ih | mulC a c ih | cMul c a ih | divC a c ih | cDiv c a ih
  | powC a c ih | cPow c a ih | un f df a ih | cBin f fu fv c a ih | binC f fu fv a c ih =>
      intro n; exact (ih n).trans (mk1_le _ _ _)
  | subC a c ih | neg a ih => intro n; exact ((ih n).trans (clone_le _ _)).trans (mk1_le _ _ _)
  | cSub c a ih =>
      intro n
      exact (((ih n).trans (clone_le _ _)).trans (mk1_le _ _ _)).trans (mk1_le _ _ _)

theorem build_leaves (R : Arith K) (e : Exp K) : ∀ n, (build R e n).1.leaves = e.leaves := by
  induction e <;> intro n <;>
    simp [build, mk1, mk2, Node.leaves, Exp.leaves, clone_leaves, *]

theorem stored_leaves (R : Arith K) (e : Exp K) (n : ℕ) : (stored R e n).leaves = e.leaves := by
  simp [stored, Node.leaves, clone_leaves, build_leaves]

theorem build_nval {R : Arith K} (L : Laws R) (π ρ : ℕ → K) (e : Exp K) :
    ∀ n, nval R π ρ (build R e n).1 = wval R (fun u v => R.mul u (R.div R.one v)) π ρ e := by
  induction e <;> intro n <;>
    simp only [build, mk1, mk2, nval, wval, clone_nval, Arith.op1, Arith.op2, *]
  case addC => rw [L.add_comm]
  case subC => rw [L.sub_num]
  case cSub => rw [L.num_sub]
  case neg => rw [L.neg_eq]
  case mulC => rw [L.mul_comm]
  case divC => rw [L.mul_comm]

theorem stored_nval {R : Arith K} (L : Laws R) (π ρ : ℕ → K) (e : Exp K) (n : ℕ) :
    nval R π ρ (stored R e n) = wval R (fun u v => R.mul u (R.div R.one v)) π ρ e := by
  simp [stored, nval, clone_nval, build_nval L, Arith.op1, L.one_mul]

/-! ## Programs -/

section
variable [Zero K] (R : Arith K)

/-- The heap before any user object exists, as `St.init` (Variable.cpp:25). -/
def init : St K where
  defs := { size := 1, psize := 0, next := 1, nidx := fun o => o, base := fun _ => 0,
            items := fun _ => [], par := fun _ => 0, pnidx := fun p => p }
  mem := { visited := fun _ => false, value := fun _ => 0, dvalue := fun _ => 0,
           cache := fun _ _ => 0 }

/-- `Variable x(v)` (Variable.cpp:44-53), as `CoolDiff.newVar`. -/
def newVar (v : K) (σ : St K) : ℕ × St K :=
  let o := σ.defs.size
  (o, { defs := { σ.defs with
          size := o + 1
          next := σ.defs.next + 1
          nidx := Function.update σ.defs.nidx o σ.defs.next
          base := Function.update σ.defs.base o v
          items := Function.update σ.defs.items o [] }
        mem := { visited := Function.update σ.mem.visited o false
                 value := Function.update σ.mem.value o v
                 dvalue := Function.update σ.mem.dvalue o 0
                 cache := Function.update σ.mem.cache o (fun _ => 0) } })

/-- `Parameter p(v)` (Parameter.cpp:38-41), as `CoolDiff.newPar`. -/
def newPar (v : K) (σ : St K) : ℕ × St K :=
  let p := σ.defs.psize
  (p, { defs := { σ.defs with
          psize := p + 1
          next := σ.defs.next + 2
          pnidx := Function.update σ.defs.pnidx p σ.defs.next
          par := Function.update σ.defs.par p v }
        mem := σ.mem })

/-- `Expression y;` (Expression.cpp:27-33), as `CoolDiff.newExpr`. -/
def newExpr (σ : St K) : ℕ × St K :=
  let o := σ.defs.size
  (o, { defs := { σ.defs with
          size := o + 1
          next := σ.defs.next + 2
          nidx := Function.update σ.defs.nidx o (σ.defs.next + 1)
          base := Function.update σ.defs.base o 0
          items := Function.update σ.defs.items o [.leaf 0] }
        mem := { visited := Function.update σ.mem.visited o false
                 value := Function.update σ.mem.value o 0
                 dvalue := Function.update σ.mem.dvalue o 0
                 cache := Function.update σ.mem.cache o (fun _ => 0) } })

/-- `Variable::operator=(const Type&)` (Variable.cpp:56-67), as `CoolDiff.assignNum`. -/
def assignNum (x : ℕ) (v : K) (σ : St K) : St K where
  defs := { σ.defs with
    base := Function.update σ.defs.base x v
    items := Function.update σ.defs.items x [] }
  mem := { σ.mem with
    value := Function.update σ.mem.value x v
    dvalue := Function.update σ.mem.dvalue x 0
    cache := Function.update σ.mem.cache x (fun _ => 0) }

/-- `Parameter::operator=(const Type&)` (Parameter.cpp:68-71), as `CoolDiff.assignPar`. -/
def assignPar (p : ℕ) (v : K) (σ : St K) : St K :=
  { σ with defs := { σ.defs with par := Function.update σ.defs.par p v } }

/-- `y = e;`, as `CoolDiff.define`: build the right-hand side, then `Expression::operator=(const IVariable<T>&)`
(Expression.hpp:58-68). -/
def define (y : ℕ) (e : Exp K) (σ : St K) : St K :=
  let r := build R e σ.defs.next
  let old := if findMe y r.1 then σ.defs.items y else []
  { σ with defs := { σ.defs with
    next := (cloneN r.1 r.2).2 + 1
    items := Function.update σ.defs.items y (old ++ [stored R e σ.defs.next]) } }

/-- `Expression::operator=(const Expression&)` (Expression.cpp:43-52), as `CoolDiff.assignRef`. -/
def assignRef (y z : ℕ) (σ : St K) : St K :=
  let old := if z == y then σ.defs.items y else []
  { σ with defs := { σ.defs with
    items := Function.update σ.defs.items y (old ++ [.leaf z]) } }

/-- Programs: every state a program can reach, with the objects evaluated so far.  Before evaluating an object the user sees to
it that it is safe (as in `Hist`). -/
inductive MHist : St K → (ℕ → Prop) → Prop
  | init : MHist init (fun _ => False)
  | newVar {σ U} (v : K) : MHist σ U → MHist (newVar v σ).2 U
  | newPar {σ U} (v : K) : MHist σ U → MHist (newPar v σ).2 U
  | newExpr {σ U} : MHist σ U → MHist (newExpr σ).2 U
  | setVar {σ U} (x : ℕ) (v : K) : MHist σ U → x < σ.defs.size → σ.defs.items x = [] →
      MHist (assignNum x v σ) U
  | setPar {σ U} (p : ℕ) (v : K) : MHist σ U → p < σ.defs.psize → MHist (assignPar p v σ) U
  | define {σ U} (y : ℕ) (e : Exp K) : MHist σ U → y < σ.defs.size → σ.defs.items y ≠ [] →
      (∀ p ∈ e.leaves, p < σ.defs.size) → (∀ p ∈ e.pars, p < σ.defs.psize) →
      MHist (define R y e σ) U
  | defineRef {σ U} (y z : ℕ) : MHist σ U → y < σ.defs.size → σ.defs.items y ≠ [] →
      z < σ.defs.size → σ.defs.items z ≠ [] → MHist (assignRef y z σ) U
  | eval {σ σ' U} (y : ℕ) (v : K) : MHist σ U → y < σ.defs.size → WellDefined σ.defs y →
      Safe σ.defs U y → Eval R y σ = some (v, σ') → MHist σ' (fun q => U q ∨ Reach σ.defs y q)
  | devalF {σ σ' U} (y x : ℕ) (v : K) : MHist σ U → y < σ.defs.size → x < σ.defs.size →
      WellDefined σ.defs y → Safe σ.defs U y → DevalF R y x σ = some (v, σ') →
      MHist σ' (fun q => U q ∨ Reach σ.defs y q)

/-- What every program guarantees. -/
structure MInv (σ : St K) (U : ℕ → Prop) : Prop where
  closed : σ.defs.Closed
  plain : ∀ q < σ.defs.size, σ.defs.items q = [] →
    σ.mem.value q = σ.defs.base q ∧ σ.mem.dvalue q = 0
  nidx_lt : ∀ o < σ.defs.size, σ.defs.nidx o < σ.defs.next
  inj : ∀ o < σ.defs.size, ∀ q < σ.defs.size, σ.defs.nidx o = σ.defs.nidx q → o = q
  pos : 1 ≤ σ.defs.size
  vis : ∀ q, σ.mem.visited q = true ↔ U q
  lt : ∀ q, U q → q < σ.defs.size

theorem reach_lt {D : Defs K} (hD : D.Closed) {y : ℕ} (hy : y < D.size) {q : ℕ}
    (h : Reach D y q) : q < D.size := by
  induction h with
  | refl => exact hy
  | step h hi hp ih => exact hD _ ih _ hi _ hp

theorem reset_clean {σ : St K} {U : ℕ → Prop} (hw : MInv σ U) {y : ℕ} (hs : Safe σ.defs U y)
    {m : Mem K} (h : resetImpl σ.defs σ.defs.fuel y σ.mem = some m) :
    (∀ q, Reach σ.defs y q → σ.defs.items q ≠ [] → m.visited q = false) ∧
    (∀ q < σ.defs.size, σ.defs.items q = [] → m.value q = σ.defs.base q ∧ m.dvalue q = 0) ∧
    (∀ q, ¬ Reach σ.defs y q → m.visited q = σ.mem.visited q) := by
  obtain ⟨h1, h2, h3, h4, h5, h6, h7⟩ := resetImpl_spec σ.defs (S := {q | Reach σ.defs y q})
    (fun q hq i hi p hp => Reach.step hq hi hp) _ y Reach.refl _ m h
  refine ⟨?_, ?_, fun q hq => h5 q hq⟩
  · intro q hq
    induction hq with
    | refl => intro _; exact h1
    | @step q p i hq hi hp ih =>
        intro hpe
        by_cases hqy : q = y
        · subst hqy; exact h2 i hi p hp
        · have hqe : σ.defs.items q ≠ [] := by
            intro he; rw [he] at hi; simp at hi
          cases hv : σ.mem.visited q with
          | true => exact h4 q hqy hv (ih hqe) i hi p hp
          | false =>
              have := hs q hq hqy (by rw [← hw.vis]; simp [hv]) i hi p hp hpe
              cases hv' : m.visited p with
              | false => rfl
              | true => exact absurd ((hw.vis p).1 (h3 p hv')) this
  · intro q hq he
    rcases h6 q with h | h
    · have := hw.plain q hq he
      exact ⟨h.1.trans this.1, h.2.1.trans this.2⟩
    · exact ⟨h.1, h.2.1⟩

theorem visited_all {D : Defs K} {y : ℕ} {m m' : Mem K} (hy : m'.visited y = true)
    (hc : ∀ q, Reach D y q → D.items q ≠ [] → m.visited q = false) (hn : NewClosed D m m') :
    ∀ q, Reach D y q → m'.visited q = true := by
  intro q hq
  induction hq with
  | refl => exact hy
  | @step q p i hq hi hp ih =>
      have hqe : D.items q ≠ [] := by
        intro he; rw [he] at hi; simp at hi
      exact hn q (hc q hq hqe) ih i hi p hp

theorem Eval_spec {σ : St K} {U : ℕ → Prop} (hw : MInv σ U) {y : ℕ} (hy : y < σ.defs.size)
    (hwd : WellDefined σ.defs y) (hs : Safe σ.defs U y)
    {ρ : ℕ → K} (hρ : Solves R σ.defs y ρ) :
    ∃ σ', Eval R y σ = some (ρ y, σ') ∧ MInv σ' (fun q => U q ∨ Reach σ.defs y q) := by
  obtain ⟨⟨rank, hr⟩, hf⟩ := hwd
  obtain ⟨m, hm⟩ := resetImpl_total σ.defs hw.closed y hy σ.mem
  obtain ⟨hclean, hpl, hout⟩ := reset_clean hw hs hm
  obtain ⟨v, m', hev, -⟩ := evalO_total R σ.defs hw.closed σ.defs.fuel y m hy
    ((unv_le _ _).trans_lt (by simp [Defs.fuel]))
  have inv : EInv R σ.defs {q | Reach σ.defs y q} rank ρ (rank y + 1) m := by
    refine ⟨fun q hq _ hv => ?_, fun q hq _ _ =>
      ⟨⟨fun i hi p hp => ⟨Reach.step hq hi hp, hr q hq i hi p hp⟩, hf q hq⟩, hρ q hq⟩⟩
    by_cases he : σ.defs.items q = []
    · rw [(hpl q (reach_lt hw.closed hy hq) he).1, hρ q hq, he]; rfl
    · rw [hclean q hq he] at hv; simp at hv
  obtain ⟨rfl, inv', fr, hv', hn⟩ := evalO_spec R σ.defs {q | Reach σ.defs y q} rank ρ
    σ.defs.fuel (rank y + 1) y Reach.refl (by omega) m v m' inv hev
  have hall := visited_all hv' hclean hn
  have hd : m'.dvalue = m.dvalue := evalO_keep R σ.defs (fun m => m.dvalue) (fun _ _ _ => rfl)
    (fun _ _ _ => rfl) _ _ _ _ _ hev
  refine ⟨⟨σ.defs, m'⟩, by simp [Eval, hm, hev], hw.closed, fun q hq he => ⟨?_, ?_⟩, hw.nidx_lt,
    hw.inj, hw.pos, fun q => ?_, fun q hq => ?_⟩
  · change m'.value q = σ.defs.base q
    by_cases hrq : Reach σ.defs y q
    · by_cases hlt : rank q < rank y + 1
      · rw [inv'.vis q hrq hlt (hall q hrq), hρ q hrq, he]; rfl
      · rw [fr.val q (Or.inr (not_lt.1 hlt))]; exact (hpl q hq he).1
    · rw [fr.val q (Or.inl hrq)]; exact (hpl q hq he).1
  · exact (congrFun hd q).trans (hpl q hq he).2
  · change m'.visited q = true ↔ _
    by_cases hrq : Reach σ.defs y q
    · simp [hall q hrq, hrq]
    · rw [fr.vis q (Or.inl hrq), hout q hrq, hw.vis q]; simp [hrq]
  · rcases hq with hq | hq
    · exact hw.lt q hq
    · exact reach_lt hw.closed hy hq

theorem DevalF_spec {σ : St K} {U : ℕ → Prop} (hw : MInv σ U) {y x : ℕ} (hy : y < σ.defs.size)
    (hx : x < σ.defs.size) (hwd : WellDefined σ.defs y) (hs : Safe σ.defs U y)
    {ρ δ : ℕ → K} (hρ : Solves R σ.defs y ρ) (hδ : Tangent R σ.defs y x ρ δ) :
    ∃ σ', DevalF R y x σ = some (δ y, σ') ∧ MInv σ' (fun q => U q ∨ Reach σ.defs y q) := by
  obtain ⟨⟨rank, hr⟩, hf⟩ := hwd
  obtain ⟨m, hm⟩ := resetImpl_total σ.defs hw.closed y hy σ.mem
  obtain ⟨hclean, hpl, hout⟩ := reset_clean hw hs hm
  obtain ⟨v, m', hev, -⟩ := fwdO_total R σ.defs hw.closed (σ.defs.nidx x) σ.defs.fuel y m hy
    ((unv_le _ _).trans_lt (by simp [Defs.fuel]))
  have hk : ∀ q, Reach σ.defs y q → (σ.defs.nidx q = σ.defs.nidx x ↔ q = x) := fun q hq =>
    ⟨fun h => hw.inj q (reach_lt hw.closed hy hq) x hx h, fun h => by rw [h]⟩
  obtain ⟨rfl, inv', fr, hv', hn⟩ := fwdO_spec R σ.defs {q | Reach σ.defs y q} rank ρ δ x hk
    (fun h => by rw [hδ x h, if_pos rfl]) σ.defs.fuel (rank y + 1) y Reach.refl (by omega) m v m' (by
      refine ⟨fun q hq _ hv => ?_, fun q hq _ he => ?_, fun q hq _ _ =>
        ⟨⟨fun i hi p hp => ⟨Reach.step hq hi hp, hr q hq i hi p hp⟩, hf q hq⟩, hρ q hq, fun hqx => by
        rw [hδ q hq, if_neg hqx]⟩⟩
      · by_cases he : σ.defs.items q = []
        · have := hpl q (reach_lt hw.closed hy hq) he
          refine ⟨by rw [this.1, hρ q hq, he]; rfl, fun hqx => ?_⟩
          rw [this.2, hδ q hq, if_neg hqx, he]; rfl
        · rw [hclean q hq he] at hv; simp at hv
      · exact hpl q (reach_lt hw.closed hy hq) he) hev
  have hall := visited_all hv' hclean hn
  refine ⟨⟨σ.defs, m'⟩, by simp [DevalF, hm, hev], hw.closed, fun q hq he => ?_, hw.nidx_lt,
    hw.inj, hw.pos, fun q => ?_, fun q hq => ?_⟩
  · change m'.value q = σ.defs.base q ∧ m'.dvalue q = 0
    by_cases hrq : Reach σ.defs y q
    · by_cases hlt : rank q < rank y + 1
      · exact inv'.plain q hrq hlt he
      · rw [fr.val q (Or.inr (not_lt.1 hlt)), fr.dval q (Or.inr (not_lt.1 hlt))]
        exact hpl q hq he
    · rw [fr.val q (Or.inl hrq), fr.dval q (Or.inl hrq)]; exact hpl q hq he
  · change m'.visited q = true ↔ _
    by_cases hrq : Reach σ.defs y q
    · simp [hall q hrq, hrq]
    · rw [fr.vis q (Or.inl hrq), hout q hrq, hw.vis q]; simp [hrq]
  · rcases hq with hq | hq
    · exact hw.lt q hq
    · exact reach_lt hw.closed hy hq

theorem closed_set {D D' : Defs K} (h : D.Closed) {y : ℕ} {l : List (Node K)}
    (hs : D'.size = D.size) (hi : D'.items = Function.update D.items y l)
    (hl : y < D.size → ∀ i ∈ l, ∀ p ∈ i.leaves, p < D.size) : D'.Closed := by
  intro o ho i hio p hp
  rw [hs] at ho ⊢
  rw [hi, Function.update_apply] at hio
  by_cases e : o = y
  · subst e
    rw [if_pos rfl] at hio
    exact hl ho i hio p hp
  · rw [if_neg e] at hio
    exact h o ho i hio p hp

theorem closed_add {D D' : Defs K} (h : D.Closed) {l : List (Node K)}
    (hs : D'.size = D.size + 1) (hi : D'.items = Function.update D.items D.size l)
    (hl : ∀ i ∈ l, ∀ p ∈ i.leaves, p < D.size + 1) : D'.Closed := by
  intro o ho i hio p hp
  rw [hs] at ho ⊢
  rw [hi, Function.update_apply] at hio
  by_cases e : o = D.size
  · subst e
    rw [if_pos rfl] at hio
    exact hl i hio p hp
  · rw [if_neg e] at hio
    exact (h o (by omega) i hio p hp).trans (Nat.lt_succ_self _)

variable {R}

theorem nidx_inj {s n k : ℕ} {f : ℕ → ℕ} (hlt : ∀ o < s, f o < n)
    (hinj : ∀ o < s, ∀ q < s, f o = f q → o = q) (hk : n ≤ k) {o q : ℕ} (ho : o < s + 1) (hq : q < s + 1)
    (h : (if o = s then k else f o) = if q = s then k else f q) : o = q := by
  by_cases h1 : o = s <;> by_cases h2 : q = s
  · omega
  · rw [if_pos h1, if_neg h2] at h
    have := hlt q (by omega); omega
  · rw [if_neg h1, if_pos h2] at h
    have := hlt o (by omega); omega
  · rw [if_neg h1, if_neg h2] at h
    exact hinj o (by omega) q (by omega) h

theorem MHist.inv {σ : St K} {U : ℕ → Prop} (h : MHist R σ U) : MInv σ U := by
  induction h with
  | init =>
      exact ⟨fun o _ i hi => by simp [Mach.init] at hi, fun _ _ _ => ⟨rfl, rfl⟩,
        fun o ho => ho, fun _ _ _ _ h => h, le_refl _, by simp [Mach.init], by simp⟩
  | @newVar σ U v _ ih =>
      refine ⟨closed_add (l := []) ih.closed rfl rfl (by simp), fun q hq he => ?_,
        fun q hq => ?_, fun q hq p hp h => ?_, by simp [Mach.newVar], fun q => ?_, fun q hq => ?_⟩
      · simp only [Mach.newVar, Function.update_apply] at he hq ⊢
        by_cases e : q = σ.defs.size
        · simp [e]
        · simp only [e, if_false] at he ⊢
          exact ih.plain q (by omega) he
      · simp only [Mach.newVar, Function.update_apply] at hq ⊢
        split
        · omega
        · have := ih.nidx_lt q (by omega); omega
      · simp only [Mach.newVar, Function.update_apply] at hq hp h
        exact nidx_inj ih.nidx_lt ih.inj (le_refl _) hq hp h
      · simp only [Mach.newVar, Function.update_apply]
        split
        · next e => subst e; simpa using fun h => lt_irrefl _ (ih.lt _ h)
        · exact ih.vis q
      · have := ih.lt q hq; simp only [Mach.newVar]; omega
  | @newPar σ U v _ ih =>
      exact ⟨ih.closed, ih.plain, fun o ho => (ih.nidx_lt o ho).trans_le (Nat.le_add_right _ 2), ih.inj,
        ih.pos, ih.vis, ih.lt⟩
  | @newExpr σ U _ ih =>
      refine ⟨closed_add (l := [.leaf 0]) ih.closed rfl rfl (by simp [Node.leaves]),
        fun q hq he => ?_,
        fun q hq => ?_, fun q hq p hp h => ?_, by simp [Mach.newExpr], fun q => ?_, fun q hq => ?_⟩
      · simp only [Mach.newExpr, Function.update_apply] at he hq ⊢
        by_cases e : q = σ.defs.size
        · simp [e] at he
        · simp only [e, if_false] at he ⊢
          exact ih.plain q (by omega) he
      · simp only [Mach.newExpr, Function.update_apply] at hq ⊢
        split
        · omega
        · have := ih.nidx_lt q (by omega); omega
      · simp only [Mach.newExpr, Function.update_apply] at hq hp h
        exact nidx_inj ih.nidx_lt ih.inj (Nat.le_succ _) hq hp h
      · simp only [Mach.newExpr, Function.update_apply]
        split
        · next e => subst e; simpa using fun h => lt_irrefl _ (ih.lt _ h)
        · exact ih.vis q
      · have := ih.lt q hq; simp only [Mach.newExpr]; omega
  | @setVar σ U x v _ hx _ ih =>
      refine ⟨closed_set (y := x) (l := []) ih.closed rfl rfl (by simp), fun q hq he => ?_,
        ih.nidx_lt, ih.inj, ih.pos, ih.vis, ih.lt⟩
      simp only [Mach.assignNum, Function.update_apply] at he ⊢
      by_cases e : q = x
      · simp [e]
      · simp only [e, if_false] at he ⊢
        exact ih.plain q hq he
  | @setPar σ U p v _ _ ih => exact ⟨ih.closed, ih.plain, ih.nidx_lt, ih.inj, ih.pos, ih.vis, ih.lt⟩
  | @define σ U y e _ hy _ hl _ ih =>
      refine ⟨closed_set (y := y) ih.closed rfl rfl ?_, fun q hq he => ?_,
        fun o ho => (ih.nidx_lt o ho).trans_le (((build_le R e _).trans (clone_le _ _)).trans (Nat.le_succ _)),
        ih.inj, ih.pos, ih.vis, ih.lt⟩
      · intro hy' i hi p hp
        rcases List.mem_append.1 hi with hi | hi
        · split at hi
          · exact ih.closed y hy i hi p hp
          · simp at hi
        · rw [List.mem_singleton] at hi
          subst hi
          rw [Mach.stored_leaves] at hp
          exact hl p hp
      · simp only [Mach.define, Function.update_apply] at he ⊢
        by_cases e : q = y
        · simp [e] at he
        · simp only [e, if_false] at he
          exact ih.plain q hq he
  | @defineRef σ U y z _ hy _ hz _ ih =>
      refine ⟨closed_set (y := y) ih.closed rfl rfl ?_, fun q hq he => ?_, ih.nidx_lt, ih.inj,
        ih.pos, ih.vis, ih.lt⟩
      · intro hy' i hi p hp
        rcases List.mem_append.1 hi with hi | hi
        · split at hi
          · exact ih.closed y hy i hi p hp
          · simp at hi
        · rw [List.mem_singleton] at hi
          subst hi
          simp only [Node.leaves, List.mem_singleton] at hp
          subst hp; exact hz
      · simp only [Mach.assignRef, Function.update_apply] at he ⊢
        by_cases e : q = y
        · simp [e] at he
        · simp only [e, if_false] at he
          exact ih.plain q hq he
  | @eval σ σ' U y v _ hy hwd hs hev ih =>
      obtain ⟨ρ, hρ⟩ := exists_solves (P := R) hwd
      obtain ⟨σ'', h1, h2⟩ := Eval_spec R ih hy hwd hs hρ
      rw [hev] at h1
      obtain ⟨-, rfl⟩ := Prod.mk.injEq .. ▸ Option.some.inj h1
      exact h2
  | @devalF σ σ' U y x v _ hy hx hwd hs hev ih =>
      obtain ⟨ρ, hρ⟩ := exists_solves (P := R) hwd
      obtain ⟨δ, hδ⟩ := exists_tangent (P := R) hwd x ρ
      obtain ⟨σ'', h1, h2⟩ := DevalF_spec R ih hy hx hwd hs hρ hδ
      rw [hev] at h1
      obtain ⟨-, rfl⟩ := Prod.mk.injEq .. ▸ Option.some.inj h1
      exact h2

/-- C63, any machine arithmetic (no law assumed: rounding, overflow, NaN): after any program, `Eval(y)` of a well-defined
expression that is safe to evaluate terminates and returns the value its definitions have when computed with the operations of
the machine; the definitions have exactly one such value, so it depends neither on what was evaluated or assigned before nor on
evaluating again. -/
theorem C63_eval {σ : St K} {U : ℕ → Prop} (h : MHist R σ U) {y : ℕ} (hy : y < σ.defs.size)
    (hwd : WellDefined σ.defs y) (hs : Safe σ.defs U y) :
    ∃ v σ', Eval R y σ = some (v, σ') ∧ ∀ v', ValueOf R σ.defs y v' ↔ v' = v := by
  obtain ⟨ρ, hρ⟩ := exists_solves (P := R) hwd
  obtain ⟨σ', h1, -⟩ := Eval_spec R h.inv hy hwd hs hρ
  refine ⟨ρ y, σ', h1, fun v' => ⟨?_, ?_⟩⟩
  · rintro ⟨ρ', hρ', rfl⟩
    exact solves_unique hwd hρ' hρ y Reach.refl
  · rintro rfl
    exact ⟨ρ, hρ, rfl⟩

/-- C63, forward mode on any machine arithmetic: after any program, `DevalF(y, x)` terminates and returns the derivative that the
differentiation rules of the operators give when they are computed with the operations of the machine; there is exactly one. -/
theorem C63_devalF {σ : St K} {U : ℕ → Prop} (h : MHist R σ U) {y x : ℕ} (hy : y < σ.defs.size)
    (hx : x < σ.defs.size) (hwd : WellDefined σ.defs y) (hs : Safe σ.defs U y) :
    ∃ d σ', DevalF R y x σ = some (d, σ') ∧ ∀ d', DerivOf R σ.defs y x d' ↔ d' = d := by
  obtain ⟨ρ, hρ⟩ := exists_solves (P := R) hwd
  obtain ⟨δ, hδ⟩ := exists_tangent (P := R) hwd x ρ
  obtain ⟨σ', h1, -⟩ := DevalF_spec R h.inv hy hx hwd hs hρ hδ
  refine ⟨δ y, σ', h1, fun d' => ⟨?_, ?_⟩⟩
  · rintro ⟨ρ', δ', hρ', hδ', rfl⟩
    exact tangent_unique hwd (hδ'.congr_left (solves_unique hwd hρ' hρ)) hδ y Reach.refl
  · rintro rfl
    exact ⟨ρ, δ, hρ, hδ, rfl⟩

theorem findMe_iff' (y : ℕ) (t : Node K) : findMe y t = true ↔ y ∈ t.leaves := by
  induction t with
  | leaf o =>
      simp only [findMe, Node.leaves, List.mem_singleton, beq_iff_eq]
      exact eq_comm
  | par => simp [findMe, Node.leaves]
  | op1 m f a ih => simp [findMe, Node.leaves, ih]
  | op2 m f a b iha ihb => simp [findMe, Node.leaves, iha, ihb]

theorem wval_congr (dv : K → K → K) (π : ℕ → K) {ρ ρ' : ℕ → K} (e : Exp K)
    (h : ∀ p ∈ e.leaves, ρ p = ρ' p) : wval R dv π ρ e = wval R dv π ρ' e := by
  induction e with
  | var o => exact h o (by simp [Exp.leaves])
  | par => rfl
  | add a b iha ihb | sub a b iha ihb | mul a b iha ihb | div a b iha ihb | pow a b iha ihb
  | bin f fu fv a b iha ihb =>
      simp only [Exp.leaves, List.mem_append] at h
      simp only [wval, iha fun p hp => h p (Or.inl hp), ihb fun p hp => h p (Or.inr hp)]
  | fn f a ih | addC a c ih | cAdd c a ih | mulC a c ih | cMul c a ih | powC a c ih | cPow c a ih
  | un f df a ih | cBin f fu fv c a ih | binC f fu fv a c ih | subC a c ih | neg a ih | cSub c a ih
  | divC a c ih | cDiv c a ih =>
      simp only [Exp.leaves] at h
      simp only [wval, ih h]

/-- C63, what the operations are: with the laws of IEEE arithmetic, `y = e; Eval(y)` returns the written formula computed with
the operations of the machine in the order of writing, division by `v` being multiplication by the rounded `1/v`; `ρ` are the
values of the objects that `e` mentions. -/
theorem C63_formula (L : Laws R) {σ : St K} {U : ℕ → Prop} (h : MHist R σ U) {y : ℕ}
    (hy : y < σ.defs.size) (hye : σ.defs.items y ≠ []) {e : Exp K}
    (hl : ∀ p ∈ e.leaves, p < σ.defs.size) (hp : ∀ p ∈ e.pars, p < σ.defs.psize)
    (hny : y ∉ e.leaves) (hwd : WellDefined (define R y e σ).defs y)
    (hs : Safe (define R y e σ).defs U y) :
    ∃ v σ' ρ, Eval R y (define R y e σ) = some (v, σ') ∧
      (∀ p ∈ e.leaves, ∀ w, ValueOf R (define R y e σ).defs p w ↔ w = ρ p) ∧
      v = wval R (fun u v => R.mul u (R.div R.one v)) σ.defs.par ρ e := by
  obtain ⟨ρ, hρ⟩ := exists_solves (P := R) hwd
  have hd : MHist R (define R y e σ) U := .define y e h hy hye hl hp
  obtain ⟨σ', h1, -⟩ := Eval_spec R hd.inv hy hwd hs hρ
  have hf : findMe y (build R e σ.defs.next).1 = false := by
    cases hf : findMe y (build R e σ.defs.next).1 with
    | false => rfl
    | true => rw [findMe_iff', build_leaves] at hf; exact absurd hf hny
  have hi : (define R y e σ).defs.items y = [stored R e σ.defs.next] := by
    simp [define, hf]
  refine ⟨ρ y, σ', ρ, h1, fun p hp w => ?_, ?_⟩
  · have hrp : Reach (define R y e σ).defs y p :=
      Reach.step Reach.refl (i := stored R e σ.defs.next) (by rw [hi]; simp)
        (by rw [stored_leaves]; exact hp)
    have hsub : ∀ q, Reach (define R y e σ).defs p q → Reach (define R y e σ).defs y q := by
      intro q hq
      induction hq with
      | refl => exact hrp
      | step _ h1 h2 ih => exact ih.step h1 h2
    have hρp : Solves R (define R y e σ).defs p ρ := fun q hq => hρ q (hsub q hq)
    have hwp : WellDefined (define R y e σ).defs p := by
      obtain ⟨⟨rank, hr⟩, hf⟩ := hwd
      exact ⟨⟨rank, fun q hq => hr q (hsub q hq)⟩, fun q hq => hf q (hsub q hq)⟩
    constructor
    · rintro ⟨ρ', hρ', rfl⟩
      exact solves_unique hwp hρ' hρp p Reach.refl
    · rintro rfl
      exact ⟨ρ, hρp, rfl⟩
  · rw [hρ y Reach.refl, hi]
    simp only [seqVal]
    rw [stored_nval L]
    apply wval_congr
    intro p hp
    rw [Function.update_of_ne]
    rintro rfl
    exact hny hp

/-- C63, formulas without division: `y = e; Eval(y)` returns bit for bit what the written arithmetic gives on the machine. -/
theorem C63_written_partial (L : Laws R) {σ : St K} {U : ℕ → Prop} (h : MHist R σ U) {y : ℕ}
    (hy : y < σ.defs.size) (hye : σ.defs.items y ≠ []) {e : Exp K}
    (hl : ∀ p ∈ e.leaves, p < σ.defs.size) (hp : ∀ p ∈ e.pars, p < σ.defs.psize)
    (hny : y ∉ e.leaves) (hwd : WellDefined (define R y e σ).defs y)
    (hs : Safe (define R y e σ).defs U y) (hnd : NoDiv e) :
    ∃ v σ' ρ, Eval R y (define R y e σ) = some (v, σ') ∧
      (∀ p ∈ e.leaves, ∀ w, ValueOf R (define R y e σ).defs p w ↔ w = ρ p) ∧
      v = wval R R.div σ.defs.par ρ e := by
  obtain ⟨v, σ', ρ, h1, h2, h3⟩ := C63_formula L h hy hye hl hp hny hwd hs
  exact ⟨v, σ', ρ, h1, h2, h3.trans (wval_noDiv _ _ _ _ _ _ hnd)⟩

end

/-! ## The same code -/

section
variable [Field K] [DecidableEq K]

/-- The operations of a field. -/
def ofField (P : Prim K) : Arith K := ⟨(· + ·), (· - ·), (· * ·), (· / ·), (- ·), 1, -1, 1 / 2, P⟩

theorem evalN_ofField (P : Prim K) (D : Defs K) (rec : ℕ → Mem K → Option (K × Mem K)) (t : Node K) :
    ∀ m, evalN (ofField P) D rec t m = CoolDiff.evalN P D rec t m := by
  induction t with
  | leaf | par => intro m; rfl
  | op1 n f a ih =>
      intro m
      simp only [evalN, CoolDiff.evalN, ih]
      cases f with
      | fn f => cases f <;> rfl
      | _ => rfl
  | op2 n f a b iha ihb =>
      intro m
      have h : (ofField P).op2 f = f.val P := by funext u v; cases f <;> rfl
      simp only [evalN, CoolDiff.evalN, iha, ihb, h]

theorem evalItems_ofField (P : Prim K) (D : Defs K) (rec : ℕ → Mem K → Option (K × Mem K)) (o : ℕ)
    (is : List (Node K)) :
    ∀ m, evalItems (ofField P) D rec o is m = CoolDiff.evalItems P D rec o is m := by
  induction is with
  | nil => intro m; rfl
  | cons i is ih => intro m; simp only [evalItems, CoolDiff.evalItems, evalN_ofField, ih]

theorem evalO_ofField (P : Prim K) (D : Defs K) (fuel : ℕ) :
    evalO (ofField P) D fuel = CoolDiff.evalO P D fuel := by
  induction fuel with
  | zero => rfl
  | succ n ih =>
      funext o m
      simp only [evalO, CoolDiff.evalO, ih, evalItems_ofField]

theorem resetO_same (D : Defs K) (fuel : ℕ) : resetO D fuel = CoolDiff.resetO D fuel := by
  induction fuel with
  | zero => rfl
  | succ n ih =>
      funext o m
      simp only [resetO, CoolDiff.resetO, ih]
      rfl

/-- C63, the same program: with the operations of a field, this `Eval` is the `Eval` of all the other properties. -/
theorem C63_same_code (P : Prim K) (y : ℕ) (σ : St K) :
    Eval (ofField P) y σ = CoolDiff.Eval P y σ := by
  simp only [Eval, CoolDiff.Eval, resetImpl, CoolDiff.resetImpl, resetO_same, evalO_ofField]

theorem fwdN_ofField (P : Prim K) (D : Defs K) (recE recD : ℕ → Mem K → Option (K × Mem K)) (t : Node K) :
    ∀ m, fwdN (ofField P) D recE recD t m = CoolDiff.fwdN P D recE recD t m := by
  induction t with
  | leaf | par => intro m; rfl
  | op1 n f a ih =>
      intro m
      have h : (ofField P).fwd1 f = f.fwd P := by
        funext u du
        cases f with
        | fn f => cases f <;> rfl
        | _ => rfl
      simp only [fwdN, CoolDiff.fwdN, ih, evalN_ofField, h]
  | op2 n f a b iha ihb =>
      intro m
      have h : (ofField P).fwd2 f = f.fwd P := by funext u v du dv; cases f <;> rfl
      simp only [fwdN, CoolDiff.fwdN, iha, ihb, evalN_ofField, h]

theorem fwdItems_ofField (P : Prim K) (D : Defs K) (recE recD : ℕ → Mem K → Option (K × Mem K)) (o : ℕ)
    (is : List (Node K)) :
    ∀ m, fwdItems (ofField P) D recE recD o is m = CoolDiff.fwdItems P D recE recD o is m := by
  induction is with
  | nil => intro m; rfl
  | cons i is ih =>
      intro m; simp only [fwdItems, CoolDiff.fwdItems, fwdN_ofField, evalN_ofField, ih]

theorem fwdO_ofField (P : Prim K) (D : Defs K) (k fuel : ℕ) :
    fwdO (ofField P) D k fuel = CoolDiff.fwdO P D k fuel := by
  induction fuel with
  | zero => rfl
  | succ n ih =>
      funext o m
      simp only [fwdO, CoolDiff.fwdO, ih, evalO_ofField, fwdItems_ofField]
      rfl

/-- C63, the same program: with the operations of a field, this `DevalF` is the `DevalF` of all the other properties. -/
theorem C63_same_code_devalF (P : Prim K) (y x : ℕ) (σ : St K) :
    DevalF (ofField P) y x σ = CoolDiff.DevalF P y x σ := by
  simp only [DevalF, CoolDiff.DevalF, resetImpl, CoolDiff.resetImpl, resetO_same, fwdO_ofField]

end

/-! ## Arithmetic with rounding -/

namespace MachEx

/-- Fixed-point arithmetic with two decimals (the number `n` stands for `n/100`), products and quotients truncated: not a
field. -/
def FX : Arith ℤ where
  add := (· + ·)
  sub := (· - ·)
  mul u v := (u * v).tdiv 100
  div u v := (u * 100).tdiv v
  neg u := - u
  one := 100
  negOne := -100
  half := 50
  prim := ⟨id, id, id, id, id, id, id, id, id, id, id, id, id, id, id, fun u _ => u⟩

theorem FX_laws : Laws FX := by
  constructor
  · exact fun u v => Int.add_comm u v
  · intro u v; simp only [FX, mul_comm]
  · intro u; simp [FX]
  · intro u c
    have h : (-100 * c).tdiv 100 = -c := by
      rw [show -100 * c = 100 * (-c) by ring]; exact Int.mul_tdiv_cancel_left _ (by norm_num)
    simp only [FX, h]; ring
  · intro c u
    have h : (-100 * u).tdiv 100 = -u := by
      rw [show -100 * u = 100 * (-u) by ring]; exact Int.mul_tdiv_cancel_left _ (by norm_num)
    simp only [FX, h]; ring
  · intro u
    simp only [FX]
    rw [show -100 * u = 100 * (-u) by ring]; exact Int.mul_tdiv_cancel_left _ (by norm_num)

/-- `Variable x(3.33), z(0.10); Expression y; y = x*z + (x - 1.50);` -/
def e1 : Exp ℤ := .add (.mul (.var 1) (.var 2)) (.subC (.var 1) 150)

def s0 : St ℤ := (newExpr (newVar 10 (newVar 333 init).2).2).2

theorem s0_hist : MHist FX s0 (fun _ => False) := .newExpr (.newVar 10 (.newVar 333 .init))

/-- The definition of `y` is well-defined. -/
theorem s1_wd : WellDefined (define FX 3 e1 s0).defs 3 := by
  have hr : ∀ q, Reach (define FX 3 e1 s0).defs 3 q → q = 3 ∨ q = 1 ∨ q = 2 := by
    intro q hq
    induction hq with
    | refl => exact Or.inl rfl
    | @step q p i _ hi hp ih =>
        rcases ih with rfl | rfl | rfl
        · have : i = stored FX e1 s0.defs.next := by simpa [define, findMe, build, e1, mk1, mk2, cloneN] using hi
          subst this
          rw [stored_leaves] at hp
          simp [e1, Exp.leaves] at hp
          omega
        · simp [define, s0, newExpr, newVar, init, Function.update] at hi
        · simp [define, s0, newExpr, newVar, init, Function.update] at hi
  have hi3 : (define FX 3 e1 s0).defs.items 3 = [stored FX e1 s0.defs.next] := by
    simp [define, findMe, build, e1, mk1, mk2, cloneN]
  have hi1 : (define FX 3 e1 s0).defs.items 1 = [] := by
    simp [define, s0, newExpr, newVar, init, Function.update]
  have hi2 : (define FX 3 e1 s0).defs.items 2 = [] := by
    simp [define, s0, newExpr, newVar, init, Function.update]
  refine ⟨⟨id, fun q hq i hi p hp => ?_⟩, fun q hq i is h hqi => ?_⟩
  · rcases hr q hq with rfl | rfl | rfl
    · rw [hi3, List.mem_singleton] at hi
      subst hi
      rw [stored_leaves] at hp
      simp [e1, Exp.leaves] at hp
      right
      simp only [id]
      omega
    · rw [hi1] at hi; simp at hi
    · rw [hi2] at hi; simp at hi
  · rcases hr q hq with rfl | rfl | rfl
    · rw [hi3] at h
      simp only [List.cons.injEq] at h
      rw [← h.1, stored_leaves] at hqi
      simp [e1, Exp.leaves] at hqi
    · rw [hi1] at h; simp at h
    · rw [hi2] at h; simp at h

/-- The theorem applies to this program: `3.33*0.10` is truncated to 0.33, `y` is 2.16. -/
example : ∃ v σ' ρ, Eval FX 3 (define FX 3 e1 s0) = some (v, σ') ∧
    (∀ p ∈ e1.leaves, ∀ w, ValueOf FX (define FX 3 e1 s0).defs p w ↔ w = ρ p) ∧
    v = wval FX FX.div s0.defs.par ρ e1 :=
  C63_written_partial FX_laws s0_hist (y := 3) (e := e1) (by decide) (by decide) (by decide)
    (by simp [e1, Exp.pars]) (by decide) s1_wd (fun _ _ _ _ _ _ _ _ _ h => h) (by simp [e1, NoDiv])

example : (Eval FX 3 (define FX 3 e1 s0)).map Prod.fst = some 216 := by decide +kernel

/-- Forward mode on the same program: `z + 1 = 1.10`. -/
example : ∃ d σ', DevalF FX 3 1 (define FX 3 e1 s0) = some (d, σ') ∧
    ∀ d', DerivOf FX (define FX 3 e1 s0).defs 3 1 d' ↔ d' = d :=
  C63_devalF (.define 3 e1 s0_hist (by decide) (by decide) (by decide) (by simp [e1, Exp.pars])) (by decide)
    (by decide) s1_wd (fun _ _ _ _ _ _ _ _ _ h => h)

example : (DevalF FX 3 1 (define FX 3 e1 s0)).map Prod.fst = some 110 := by decide +kernel

/-- C63, false with a division (GenericDiv.hpp:77-83): on arithmetic that satisfies all the laws, `x/z` is not the machine's
quotient of `x` and `z`: with
`x = 49.00` the quotient `x/x` is 1.00, `Eval` returns 0.98. -/
theorem C63_division_counterexample :
    ∃ (σ : St ℤ) (e : Exp ℤ), Laws FX ∧ MHist FX σ (fun _ => False) ∧
      σ.defs.base 1 = 4900 ∧ e = .div (.var 1) (.var 1) ∧
      FX.div 4900 4900 = 100 ∧ (Eval FX 2 (define FX 2 e σ)).map Prod.fst = some 98 :=
  ⟨(newExpr (newVar 4900 init).2).2, _, FX_laws, .newExpr (.newVar 4900 .init), by decide, rfl, by decide,
    by decide +kernel⟩

/-- `2^k`. -/
def pow2 : ℤ → ℚ
  | .ofNat n => ((2 ^ n : ℕ) : ℚ)
  | .negSucc n => 1 / ((2 ^ (n + 1) : ℕ) : ℚ)

/-- Rounding to 53 significant bits, nearest, ties to even (IEEE binary64 without exponent limits). -/
def rnd (q : ℚ) : ℚ :=
  if q = 0 then 0 else
  let e : ℤ := (Nat.log2 q.num.natAbs : ℤ) - (Nat.log2 q.den : ℤ)
  let a : ℚ := |q|
  let k : ℤ := if a < pow2 e then e - 53 else e - 52
  let s : ℚ := q * pow2 (-k)
  let f : ℤ := s.floor
  let r : ℚ := s - f
  let m : ℤ := if r < 1 / 2 then f else if 1 / 2 < r then f + 1 else if f % 2 = 0 then f else f + 1
  (m : ℚ) * pow2 k

/-- Arithmetic of `double`: the exact result, rounded. -/
def B64 : Arith ℚ where
  add u v := rnd (u + v)
  sub u v := rnd (u - v)
  mul u v := rnd (u * v)
  div u v := rnd (u / v)
  neg u := -u
  one := 1
  negOne := -1
  half := 1 / 2
  prim := ⟨id, id, id, id, id, id, id, id, id, id, id, id, id, id, id, fun u _ => u⟩

/-- C63, the same on `double`: `Variable x(3), z(10); Expression y; y = x/z; Eval(y)` returns 0.30000000000000004, which is not
the machine's `3.0/10.0`; nor is `y = x/10`. -/
theorem C63_double_counterexample :
    (Eval B64 3 (define B64 3 (.div (.var 1) (.var 2))
      (newExpr (newVar 10 (newVar 3 init).2).2).2)).map Prod.fst ≠ some (B64.div 3 10) ∧
    (Eval B64 3 (define B64 3 (.divC (.var 1) 10)
      (newExpr (newVar 10 (newVar 3 init).2).2).2)).map Prod.fst ≠ some (B64.div 3 10) ∧
    (Eval B64 3 (define B64 3 (.div (.var 1) (.var 2))
      (newExpr (newVar 10 (newVar 3 init).2).2).2)).map Prod.fst =
        some (5404319552844596 / 2 ^ 54) ∧ B64.div 3 10 = 5404319552844595 / 2 ^ 54 := by
  decide +kernel

end MachEx

end CoolDiff.Mach
