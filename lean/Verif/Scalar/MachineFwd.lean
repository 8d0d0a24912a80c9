import Verif.Scalar.Machine

/-!
# `DevalF` in machine arithmetic

The same code as in `Scalar/Model.lean` (`devalF`), over any type of numbers with any operations.
-/

set_option linter.unusedSectionVars false

namespace CoolDiff.Mach

variable {K : Type}

/-- `devalF(var)` of `Generic<Fn>.hpp` (lines 80-87), as `Fn.fwd`. -/
def Arith.fwdFn (P : Arith K) : Fn → K → K → K
  | .sin, u, du => P.mul (P.prim.cos u) du
  | .cos, u, du => P.mul (P.mul P.negOne (P.prim.sin u)) du
  | .tan, u, du => P.mul (P.add P.one (P.mul (P.prim.tan u) (P.prim.tan u))) du
  | .sinh, u, du => P.mul (P.prim.cosh u) du
  | .cosh, u, du => P.mul (P.prim.sinh u) du
  | .tanh, u, du => P.mul (P.sub P.one (P.mul (P.prim.tanh u) (P.prim.tanh u))) du
  | .asin, u, du => P.mul (P.div P.one (P.prim.sqrt (P.sub P.one (P.mul u u)))) du
  | .acos, u, du => P.mul (P.div P.negOne (P.prim.sqrt (P.sub P.one (P.mul u u)))) du
  | .atan, u, du => P.mul (P.div P.one (P.add P.one (P.mul u u))) du
  | .asinh, u, du => P.mul (P.div P.one (P.prim.sqrt (P.add P.one (P.mul u u)))) du
  | .acosh, u, du => P.mul (P.div P.one (P.prim.sqrt (P.sub (P.mul u u) P.one))) du
  | .atanh, u, du => P.mul (P.div P.negOne (P.sub (P.mul u u) P.one)) du
  | .sqrt, u, du => P.mul (P.div P.half (P.prim.sqrt u)) du
  | .exp, u, du => P.mul (P.prim.exp u) du
  | .log, u, du => P.mul (P.div P.one u) du

/-- `devalF(var)` of the one-operand nodes, as `Op1.fwd`: GenericSum.hpp:267-271, GenericProduct.hpp:243-247,
GenericDiv.hpp:284-290, GenericPow.hpp:280-285 and 435-440, GenericScalarUnary.hpp:54-58. -/
def Arith.fwd1 (P : Arith K) : Op1 K → K → K → K
  | .fn f, u, du => P.fwdFn f u du
  | .addC _, _, du => du
  | .mulC c, _, du => P.mul c du
  | .divC c, u, du => P.mul (P.mul P.negOne (P.mul c du)) (P.mul (P.div P.one u) (P.div P.one u))
  | .cPow c, u, du => P.mul (P.mul (P.prim.pow c u) du) (P.prim.log c)
  | .powC c, u, du => P.mul c (P.mul (P.prim.pow u (P.sub c P.one)) du)
  | .custom _ df, u, du => P.mul (df u) du

/-- `devalF(var)` of the two-operand nodes, as `Op2.fwd`: GenericSum.hpp:85-90, GenericSub.hpp:85-90, GenericProduct.hpp:83-91,
GenericDiv.hpp:86-94, GenericPow.hpp:85-92, GenericScalarBinary.hpp:55-61. -/
def Arith.fwd2 (P : Arith K) : Op2 K → K → K → K → K → K
  | .add, _, _, du, dv => P.add du dv
  | .sub, _, _, du, dv => P.sub du dv
  | .mul, u, v, du, dv => P.add (P.mul du v) (P.mul dv u)
  | .div, u, v, du, dv =>
      P.mul (P.sub (P.mul du v) (P.mul dv u)) (P.mul (P.div P.one v) (P.div P.one v))
  | .pow, u, v, du, dv =>
      P.mul (P.prim.pow u v) (P.add (P.mul (P.div v u) du) (P.mul dv (P.prim.log u)))
  | .custom _ fu fv, u, v, du, dv => P.add (P.mul (fu u v) du) (P.mul (fv u v) dv)

variable [Zero K]

/-- `devalF(var)` of a tree.  Operand derivatives first, then operand values (bodies cited at
`Op1.fwd`, `Op2.fwd`; `Parameter::devalF` is Parameter.cpp:96-98). -/
def fwdN (P : Arith K) (D : Defs K) (recE : ℕ → Mem K → Option (K × Mem K))
    (recD : ℕ → Mem K → Option (K × Mem K)) : Node K → Mem K → Option (K × Mem K)
  | .leaf o, m => recD o m
  | .par _, m => some (0, m)
  | .op1 _ f a, m => do
      let (du, m) ← fwdN P D recE recD a m
      if f.usesVal then do
        let (u, m) ← evalN P D recE a m
        some (P.fwd1 f u du, m)
      else
        some (P.fwd1 f 0 du, m)
  | .op2 _ f a b, m => do
      let (du, m) ← fwdN P D recE recD a m
      let (dv, m) ← fwdN P D recE recD b m
      if f.usesVal then
        if f.rightFirstD then do
          let (v, m) ← evalN P D recE b m
          let (u, m) ← evalN P D recE a m
          some (P.fwd2 f u v du dv, m)
        else do
          let (u, m) ← evalN P D recE a m
          let (v, m) ← evalN P D recE b m
          some (P.fwd2 f u v du dv, m)
      else
        some (P.fwd2 f 0 0 du dv, m)

/-- The loop of `Variable::devalF`: `setdValue(i->devalF(var)); setValue(i->eval());`
(Variable.cpp:160-166). -/
def fwdItems (P : Arith K) (D : Defs K) (recE : ℕ → Mem K → Option (K × Mem K))
    (recD : ℕ → Mem K → Option (K × Mem K)) (o : ℕ) : List (Node K) → Mem K → Option (Mem K)
  | [], m => some m
  | i :: is, m => do
      let (d, m) ← fwdN P D recE recD i m
      let (v, m) ← evalN P D recE i (m.setDValue o d)
      fwdItems P D recE recD o is (m.setValue o v)

/-- `Variable::devalF(var)` (Variable.cpp:154-176); `k` is `var.m_nidx`. -/
def fwdO (P : Arith K) (D : Defs K) (k : ℕ) : ℕ → ℕ → Mem K → Option (K × Mem K)
  | 0, _, _ => none
  | fuel + 1, o, m =>
      if m.visited o = false then do
        let m ← fwdItems P D (evalO P D fuel) (fwdO P D k fuel) o (D.items o) (m.setVisited o true)
        some (if D.nidx o = k then P.one else m.dvalue o, m)
      else
        some (if D.nidx o = k then P.one else m.dvalue o, m)


/-- `CoolDiff::TensorR1::DevalF(Expression&, x)` (CommonFunctions.cpp:40-45). -/
def DevalF (P : Arith K) (y x : ℕ) (σ : St K) : Option (K × St K) := do
  let m ← resetImpl σ.defs σ.defs.fuel y σ.mem
  let (v, m) ← fwdO P σ.defs (σ.defs.nidx x) σ.defs.fuel y m
  some (v, ⟨σ.defs, m⟩)

/-- The derivative of a formula by the differentiation rules of its operators (`Arith.fwd1`, `Arith.fwd2`), computed with the
operations of the machine. -/
def nder (P : Arith K) (π ρ δ : ℕ → K) : Node K → K
  | .leaf o => δ o
  | .par _ => 0
  | .op1 _ f a => P.fwd1 f (nval P π ρ a) (nder P π ρ δ a)
  | .op2 _ f a b => P.fwd2 f (nval P π ρ a) (nval P π ρ b) (nder P π ρ δ a) (nder P π ρ δ b)

/-- Run the assignments of object `o` in order together with their derivatives. -/
def seqDer (P : Arith K) (π ρ δ : ℕ → K) (o : ℕ) : List (Node K) → K → K → K
  | [], _, d => d
  | i :: is, v, d =>
      seqDer P π ρ δ o is (nval P π (Function.update ρ o v) i)
        (nder P π (Function.update ρ o v) (Function.update δ o d) i)

/-- `δ` gives every object `y` depends on its derivative with respect to object `x`. -/
def Tangent (P : Arith K) (D : Defs K) (y x : ℕ) (ρ δ : ℕ → K) : Prop :=
  ∀ q, Reach D y q → δ q =
    if q = x then P.one else seqDer P D.par ρ δ q (D.items q) (D.base q) 0

/-- `d` is the derivative of `y` with respect to `x`, computed on the machine. -/
def DerivOf (P : Arith K) (D : Defs K) (y x : ℕ) (d : K) : Prop :=
  ∃ ρ δ, Solves P D y ρ ∧ Tangent P D y x ρ δ ∧ d = δ y

theorem fwd1_unused (P : Arith K) (f : Op1 K) (h : f.usesVal = false) (u u' du : K) :
    P.fwd1 f u du = P.fwd1 f u' du := by
  cases f <;> first | rfl | simp [Op1.usesVal] at h

theorem fwd2_unused (P : Arith K) (f : Op2 K) (h : f.usesVal = false) (u v u' v' du dv : K) :
    P.fwd2 f u v du dv = P.fwd2 f u' v' du dv := by
  cases f <;> first | rfl | simp [Op2.usesVal] at h

theorem nder_congr (P : Arith K) (π : ℕ → K) {ρ ρ' δ δ' : ℕ → K} (t : Node K)
    (h : ∀ p ∈ t.leaves, ρ p = ρ' p) (hd : ∀ p ∈ t.leaves, δ p = δ' p) :
    nder P π ρ δ t = nder P π ρ' δ' t := by
  induction t with
  | leaf o => exact hd o (by simp [Node.leaves])
  | par p => rfl
  | op1 n f a ih =>
      simp only [nder]; rw [ih h hd, nval_congr P π a h]
  | op2 n f a b iha ihb =>
      have ha : ∀ p ∈ a.leaves, ρ p = ρ' p := fun p hp => h p (by simp [Node.leaves, hp])
      have hb : ∀ p ∈ b.leaves, ρ p = ρ' p := fun p hp => h p (by simp [Node.leaves, hp])
      simp only [nder]
      rw [iha ha fun p hp => hd p (by simp [Node.leaves, hp]),
        ihb hb fun p hp => hd p (by simp [Node.leaves, hp]), nval_congr P π a ha,
        nval_congr P π b hb]

/-- When the first right-hand side does not mention `o`, the starting value is irrelevant. -/
theorem seqVal_start (P : Arith K) (π ρ : ℕ → K) (o : ℕ) (i : Node K) (is : List (Node K))
    (h : o ∉ i.leaves) (v v' : K) :
    seqVal P π ρ o (i :: is) v = seqVal P π ρ o (i :: is) v' := by
  simp only [seqVal]
  rw [nval_congr P π (ρ' := Function.update ρ o v') i]
  intro p hp
  have : p ≠ o := by rintro rfl; exact h hp
  simp [this]

theorem seqDer_start (P : Arith K) (π ρ δ : ℕ → K) (o : ℕ) (i : Node K) (is : List (Node K))
    (h : o ∉ i.leaves) (v v' d d' : K) :
    seqDer P π ρ δ o (i :: is) v d = seqDer P π ρ δ o (i :: is) v' d' := by
  have hρ : ∀ p ∈ i.leaves, Function.update ρ o v p = Function.update ρ o v' p := by
    intro p hp
    have : p ≠ o := by rintro rfl; exact h hp
    simp [this]
  have hδ : ∀ p ∈ i.leaves, Function.update δ o d p = Function.update δ o d' p := by
    intro p hp
    have : p ≠ o := by rintro rfl; exact h hp
    simp [this]
  simp only [seqDer]
  rw [nval_congr P π i hρ, nder_congr P π i hρ hδ]

section
variable (P : Arith K) (D : Defs K) (S : Set ℕ) (rank : ℕ → ℕ) (ρ δ : ℕ → K) (x : ℕ)

/-- Forward-mode invariant below rank `r`: visited objects hold value and derivative; objects
without equations always hold their number and derivative 0; for objects that are not visited `ρ` and
`δ` solve the definition. -/
structure FInv (r : ℕ) (m : Mem K) : Prop where
  vis : ∀ q ∈ S, rank q < r → m.visited q = true → m.value q = ρ q ∧ (q ≠ x → m.dvalue q = δ q)
  plain : ∀ q ∈ S, rank q < r → D.items q = [] → m.value q = D.base q ∧ m.dvalue q = 0
  eqn : ∀ q ∈ S, rank q < r → m.visited q = false → RankedAt D S rank q ∧
    ρ q = seqVal P D.par ρ q (D.items q) (D.base q) ∧
      (q ≠ x → δ q = seqDer P D.par ρ δ q (D.items q) (D.base q) 0)

/-- Specification of `devalF` on an object below rank `r`. -/
def FSpec (r : ℕ) (rec : ℕ → Mem K → Option (K × Mem K)) : Prop :=
  ∀ q ∈ S, rank q < r → ∀ m v m', FInv P D S rank ρ δ x r m → rec q m = some (v, m') →
    v = δ q ∧ FInv P D S rank ρ δ x r m' ∧ Frame S rank r m m' ∧ m'.visited q = true ∧
      NewClosed D m m'

/-- Specification of `devalF` on a visited object. -/
def FVisSpec (o : ℕ) (rec : ℕ → Mem K → Option (K × Mem K)) : Prop :=
  ∀ m v m', m.visited o = true → rec o m = some (v, m') →
    v = (if o = x then P.one else m.dvalue o) ∧ m' = m

theorem fwdO_vis (o : ℕ) (hk : D.nidx o = D.nidx x ↔ o = x) (fuel : ℕ) :
    FVisSpec P x o (fwdO P D (D.nidx x) fuel) := by
  intro m v m' hv h
  cases fuel with
  | zero => simp [fwdO] at h
  | succ f =>
      simp only [fwdO, hv, Bool.true_eq_false, if_false, Option.some.injEq, Prod.mk.injEq, hk] at h
      exact ⟨h.1.symm, h.2.symm⟩

theorem fwdN_spec {o : ℕ} {recE recD : ℕ → Mem K → Option (K × Mem K)}
    (hE : VisSpec recE) (hD : FSpec P D S rank ρ δ x (rank o) recD) (hV : FVisSpec P x o recD)
    (t : Node K) :
    ∀ m v m', Below S rank o t → m.visited o = true → FInv P D S rank ρ δ x (rank o) m →
      fwdN P D recE recD t m = some (v, m') →
      v = nder P D.par (Function.update ρ o (m.value o))
          (Function.update δ o (if o = x then P.one else m.dvalue o)) t ∧
        FInv P D S rank ρ δ x (rank o) m' ∧ Frame S rank (rank o) m m' ∧
        (∀ p ∈ t.leaves, m'.visited p = true) ∧ NewClosed D m m' := by
  -- value of a subtree all of whose leaves are visited and below `o`
  have hval : ∀ (a : Node K) (m m₁ m₂ : Mem K) (u : K), Below S rank o a →
      Frame S rank (rank o) m m₁ → FInv P D S rank ρ δ x (rank o) m₁ →
      (∀ p ∈ a.leaves, m₁.visited p = true) → evalN P D recE a m₁ = some (u, m₂) →
      u = nval P D.par (Function.update ρ o (m.value o)) a ∧ m₂ = m₁ := by
    intro a m m₁ m₂ u hb fr inv hl h
    obtain ⟨rfl, rfl⟩ := evalN_vis P D hE a m₁ u m₂ hl h
    refine ⟨nval_congr P D.par a fun p hp => ?_, rfl⟩
    obtain ⟨hpS, hpo⟩ := hb p hp
    by_cases h : p = o
    · subst h; simp [fr.val p (Or.inr le_rfl)]
    · simp [h, (inv.vis p hpS (hpo.resolve_left h) (hl p hp)).1]
  induction t with
  | leaf q =>
      intro m v m' hb ho hi h
      obtain ⟨hqS, hq⟩ := hb q (by simp [Node.leaves])
      by_cases hqo : q = o
      · subst hqo
        obtain ⟨rfl, rfl⟩ := hV m v m' ho h
        exact ⟨by simp [nder], hi, Frame.refl .., by simpa [Node.leaves] using ho,
          NewClosed.refl _ _⟩
      · have hlt := hq.resolve_left hqo
        obtain ⟨rfl, h2, h3, h4, h5⟩ := hD q hqS hlt m v m' hi h
        exact ⟨by simp [nder, hqo], h2, h3, by simpa [Node.leaves] using h4, h5⟩
  | par p =>
      intro m v m' hb ho hi h
      simp [fwdN] at h
      obtain ⟨rfl, rfl⟩ := h
      exact ⟨rfl, hi, Frame.refl .., by simp [Node.leaves], NewClosed.refl _ _⟩
  | op1 n f a ih =>
      intro m v m' hb ho hi h
      simp only [fwdN, Option.bind_eq_bind, Option.bind_eq_some_iff, Prod.exists] at h
      obtain ⟨du, m1, h1, h⟩ := h
      obtain ⟨rfl, i1, f1, l1, c1⟩ := ih m du m1 hb ho hi h1
      cases hu : f.usesVal with
      | false =>
          simp [hu] at h
          obtain ⟨rfl, rfl⟩ := h
          exact ⟨fwd1_unused P f hu _ _ _, i1, f1, l1, c1⟩
      | true =>
          simp only [hu, if_true, Option.bind_eq_some_iff, Prod.exists, Option.some.injEq,
            Prod.mk.injEq] at h
          obtain ⟨u, m2, h2, rfl, rfl⟩ := h
          obtain ⟨rfl, rfl⟩ := hval a m m1 m2 u hb f1 i1 l1 h2
          exact ⟨rfl, i1, f1, l1, c1⟩
  | op2 n f a b iha ihb =>
      intro m v m' hb ho hi h
      have hba : Below S rank o a := fun p hp => hb p (by simp [Node.leaves, hp])
      have hbb : Below S rank o b := fun p hp => hb p (by simp [Node.leaves, hp])
      simp only [fwdN, Option.bind_eq_bind, Option.bind_eq_some_iff, Prod.exists] at h
      obtain ⟨du, m1, h1, dv, m2, h2, h⟩ := h
      obtain ⟨rfl, i1, f1, l1, c1⟩ := iha m du m1 hba ho hi h1
      obtain ⟨rfl, i2, f2, l2, c2⟩ := ihb m1 dv m2 hbb (f1.mono o ho) i1 h2
      have f12 := f1.trans f2
      have c12 := c1.trans c2 f2.mono
      have l1' : ∀ p ∈ a.leaves, m2.visited p = true := fun p hp => f2.mono p (l1 p hp)
      have l12 : ∀ p ∈ (Node.op2 n f a b).leaves, m2.visited p = true := by
        intro p hp
        simp only [Node.leaves, List.mem_append] at hp
        exact hp.elim (l1' p) (l2 p)
      rw [f1.val o (Or.inr le_rfl), f1.dval o (Or.inr le_rfl)] at h
      cases hu : f.usesVal with
      | false =>
          simp [hu] at h
          obtain ⟨rfl, rfl⟩ := h
          exact ⟨fwd2_unused P f hu _ _ _ _ _ _, i2, f12, l12, c12⟩
      | true =>
          simp only [hu, if_true] at h
          split at h
          · simp only [Option.bind_eq_some_iff, Prod.exists, Option.some.injEq,
              Prod.mk.injEq] at h
            obtain ⟨w, m3, h3, u, m4, h4, rfl, rfl⟩ := h
            obtain ⟨rfl, rfl⟩ := hval b m m2 m3 w hbb f12 i2 l2 h3
            obtain ⟨rfl, rfl⟩ := hval a m _ m4 u hba f12 i2 l1' h4
            exact ⟨rfl, i2, f12, l12, c12⟩
          · simp only [Option.bind_eq_some_iff, Prod.exists, Option.some.injEq,
              Prod.mk.injEq] at h
            obtain ⟨u, m3, h3, w, m4, h4, rfl, rfl⟩ := h
            obtain ⟨rfl, rfl⟩ := hval a m m2 m3 u hba f12 i2 l1' h3
            obtain ⟨rfl, rfl⟩ := hval b m _ m4 w hbb f12 i2 l2 h4
            exact ⟨rfl, i2, f12, l12, c12⟩

theorem fwdItems_spec {o : ℕ} {recE recD : ℕ → Mem K → Option (K × Mem K)}
    (hE : VisSpec recE) (hD : FSpec P D S rank ρ δ x (rank o) recD) (hV : FVisSpec P x o recD)
    (is : List (Node K)) :
    ∀ m m', (∀ i ∈ is, Below S rank o i) → m.visited o = true → FInv P D S rank ρ δ x (rank o) m →
      fwdItems P D recE recD o is m = some m' →
      m'.value o = seqVal P D.par ρ o is (m.value o) ∧
        (o ≠ x → m'.dvalue o = seqDer P D.par ρ δ o is (m.value o) (m.dvalue o)) ∧
        FInv P D S rank ρ δ x (rank o) m' ∧
        (∃ m₁, Frame S rank (rank o) m m₁ ∧
          m' = (m₁.setDValue o (m'.dvalue o)).setValue o (m'.value o)) ∧
        (∀ i ∈ is, ∀ p ∈ i.leaves, m'.visited p = true) ∧ NewClosed D m m' := by
  induction is with
  | nil =>
      intro m m' hb ho hi h
      simp [fwdItems] at h
      subst h
      exact ⟨rfl, fun _ => rfl, hi,
        ⟨m, Frame.refl .., by simp [Mem.setValue, Mem.setDValue]⟩, by simp, NewClosed.refl _ _⟩
  | cons i is ih =>
      intro m m' hb ho hi h
      simp only [fwdItems, Option.bind_eq_bind, Option.bind_eq_some_iff, Prod.exists] at h
      obtain ⟨d, m1, h1, v, m2, h2, h3⟩ := h
      obtain ⟨hd, i1, f1, l1, c1⟩ :=
        fwdN_spec P D S rank ρ δ x hE hD hV i m d m1 (hb i (by simp)) ho hi h1
      obtain ⟨hv, rfl⟩ := evalN_vis P D hE i (m1.setDValue o d) v m2
        (by simpa [Mem.setDValue] using l1) h2
      have hv' : v = nval P D.par (Function.update ρ o (m.value o)) i := by
        rw [hv]
        refine nval_congr P D.par i fun p hp => ?_
        obtain ⟨hpS, hpo⟩ := hb i (by simp) p hp
        by_cases h : p = o
        · subst h; simp [Mem.setDValue, f1.val p (Or.inr le_rfl)]
        · simp [Mem.setDValue, h, (i1.vis p hpS (hpo.resolve_left h) (l1 p hp)).1]
      set m2 := (m1.setDValue o d).setValue o v with hm2
      have hne : ∀ q, rank q < rank o → q ≠ o := by rintro q hq rfl; exact lt_irrefl _ hq
      have i2 : FInv P D S rank ρ δ x (rank o) m2 := by
        constructor
        · intro q hq hlt hvq
          simpa [hm2, Mem.setValue, Mem.setDValue, hne q hlt] using
            i1.vis q hq hlt (by simpa [hm2, Mem.setValue, Mem.setDValue] using hvq)
        · intro q hq hlt hp
          simpa [hm2, Mem.setValue, Mem.setDValue, hne q hlt] using i1.plain q hq hlt hp
        · exact i1.eqn
      obtain ⟨e1, e2, i3, ⟨m₂, f2, hm₂⟩, l2, c2⟩ := ih m2 m'
        (fun j hj => hb j (by simp [hj])) (f1.mono o ho) i2 h3
      have hmono : ∀ q, m2.visited q = true → m'.visited q = true := by
        intro q hq; rw [hm₂]; exact f2.mono q hq
      refine ⟨?_, ?_, i3, ⟨(m₂.setDValue o (m1.dvalue o)).setValue o (m1.value o), ?_, ?_⟩, ?_, ?_⟩
      · rw [e1, seqVal, ← hv']; simp [hm2, Mem.setValue]
      · intro hox
        rw [e2 hox, seqDer, ← hv']
        simp only [hox, if_false] at hd
        rw [← hd]; simp [hm2, Mem.setValue, Mem.setDValue]
      · refine f1.trans ⟨fun q hq => f2.mono q (by simpa [hm2, Mem.setValue, Mem.setDValue] using hq),
          fun q hq => f2.vis q hq, fun q hq => ?_, fun q hq => ?_, fun q hq => f2.cache q hq⟩
        · by_cases hqo : q = o
          · subst hqo; simp [Mem.setValue]
          · simpa [hm2, Mem.setValue, Mem.setDValue, hqo] using f2.val q hq
        · by_cases hqo : q = o
          · subst hqo; simp [Mem.setValue, Mem.setDValue]
          · simpa [hm2, Mem.setValue, Mem.setDValue, hqo] using f2.dval q hq
      · rw [hm₂]; simp [Mem.setValue, Mem.setDValue]
      · intro j hj p hp
        rcases List.mem_cons.1 hj with rfl | hj
        · exact hmono p (by simpa [hm2, Mem.setValue, Mem.setDValue] using l1 p hp)
        · exact l2 j hj p hp
      · exact NewClosed.trans (m' := m2) c1 c2 hmono

theorem fwdO_spec (hk : ∀ q ∈ S, D.nidx q = D.nidx x ↔ q = x)
    (hδx : x ∈ S → δ x = P.one) (fuel : ℕ) :
    ∀ r, FSpec P D S rank ρ δ x r (fwdO P D (D.nidx x) fuel) := by
  induction fuel with
  | zero => intro r q _ _ m v m' _ h; simp [fwdO] at h
  | succ f ih =>
      intro r o hoS hor m v m' hi h
      have hfin : ∀ m₁ : Mem K, m₁.visited o = true → (o ≠ x → m₁.dvalue o = δ o) →
          (if D.nidx o = D.nidx x then P.one else m₁.dvalue o) = δ o := by
        intro m₁ _ hd
        by_cases hox : o = x
        · rw [hox, hδx (hox ▸ hoS)]; simp
        · simp [hk o hoS, hox, hd hox]
      cases hvo : m.visited o with
      | true =>
          simp only [fwdO, hvo, Bool.true_eq_false, if_false, Option.some.injEq,
            Prod.mk.injEq] at h
          obtain ⟨rfl, rfl⟩ := h
          exact ⟨hfin m hvo (hi.vis o hoS hor hvo).2, hi, Frame.refl .., hvo, NewClosed.refl _ _⟩
      | false =>
          simp only [fwdO, hvo, if_true, Option.bind_eq_bind, Option.bind_eq_some_iff,
            Option.some.injEq, Prod.mk.injEq] at h
          obtain ⟨m1, h1, rfl, rfl⟩ := h
          set m0 := m.setVisited o true with hm0
          have hne : ∀ q, rank q < rank o → q ≠ o := by rintro q hq rfl; exact lt_irrefl _ hq
          have i0 : FInv P D S rank ρ δ x (rank o) m0 := by
            constructor
            · intro q hq hlt hvq
              have := hne q hlt
              simp [hm0, Mem.setVisited, this] at hvq ⊢
              exact hi.vis q hq (hlt.trans hor) hvq
            · intro q hq hlt hp
              exact hi.plain q hq (hlt.trans hor) hp
            · intro q hq hlt hvq
              simp [hm0, Mem.setVisited, hne q hlt] at hvq
              exact hi.eqn q hq (hlt.trans hor) hvq
          obtain ⟨e1, e2, i1, ⟨m₁, fr, hm1⟩, l1, c1⟩ := fwdItems_spec P D S rank ρ δ x
            (evalO_vis P D f) (ih (rank o)) (fwdO_vis P D x o (hk o hoS) f) (D.items o) m0 m1
            (hi.eqn o hoS hor hvo).1.closed (by simp [hm0, Mem.setVisited]) i0 h1
          have hplain := hi.plain o hoS hor
          have e1' : m1.value o = ρ o := by
            rw [e1, (hi.eqn o hoS hor hvo).2.1]
            cases hit : D.items o with
            | nil => simp [seqVal, hm0, Mem.setVisited, (hplain hit).1]
            | cons i is => exact seqVal_start P _ _ _ _ _ ((hi.eqn o hoS hor hvo).1.first i is hit) _ _
          have e2' : o ≠ x → m1.dvalue o = δ o := by
            intro hox
            rw [e2 hox, (hi.eqn o hoS hor hvo).2.2 hox]
            cases hit : D.items o with
            | nil => simp [seqDer, hm0, Mem.setVisited, (hplain hit).2]
            | cons i is => exact seqDer_start P _ _ _ _ _ _ ((hi.eqn o hoS hor hvo).1.first i is hit) _ _ _ _
          have hvo1 : m1.visited o = true := by
            rw [hm1]; exact fr.mono o (by simp [hm0, Mem.setVisited])
          have hmono : ∀ q, m.visited q = true → m1.visited q = true := by
            intro q hq
            rw [hm1]
            refine fr.mono q ?_
            by_cases h : q = o
            · subst h; simp [hm0, Mem.setVisited]
            · simpa [hm0, Mem.setVisited, h] using hq
          have hfr : Frame S rank r m m1 := by
            have key : ∀ q, (q ∉ S ∨ r ≤ rank q) → q ≠ o ∧ (q ∉ S ∨ rank o ≤ rank q) := by
              intro q hq
              refine ⟨?_, hq.imp_right fun h => hor.le.trans h⟩
              rintro rfl
              exact hq.elim (fun h => h hoS) fun h => absurd hor (not_lt.2 h)
            refine ⟨hmono, ?_, ?_, ?_, ?_⟩ <;> intro q hq <;> obtain ⟨hqo, hq'⟩ := key q hq <;>
              rw [hm1]
            · simpa [hm0, Mem.setVisited, Mem.setValue, Mem.setDValue, hqo] using fr.vis q hq'
            · simpa [hm0, Mem.setVisited, Mem.setValue, Mem.setDValue, hqo] using fr.val q hq'
            · simpa [hm0, Mem.setVisited, Mem.setValue, Mem.setDValue, hqo] using fr.dval q hq'
            · simpa [hm0, Mem.setVisited, Mem.setValue, Mem.setDValue, hqo] using fr.cache q hq'
          refine ⟨hfin m1 hvo1 e2', ⟨?_, ?_, fun q hq hlt hvq => hi.eqn q hq hlt
            (not_visited_of_mono hmono hvq)⟩, hfr, hvo1, ?_⟩
          · intro q hq hlt hvq
            by_cases hqo : q = o
            · subst hqo; exact ⟨e1', e2'⟩
            · by_cases hlt' : rank q < rank o
              · exact i1.vis q hq hlt' hvq
              · have hq' : q ∉ S ∨ rank o ≤ rank q := Or.inr (not_lt.1 hlt')
                have hv := fr.val q hq'
                have hdv := fr.dval q hq'
                have hvv := fr.vis q hq'
                rw [hm1] at hvq ⊢
                simp [hm0, Mem.setVisited, Mem.setValue, Mem.setDValue, hqo] at hv hdv hvv hvq ⊢
                rw [hv, hdv]
                exact hi.vis q hq hlt (by rw [← hvv]; exact hvq)
          · intro q hq hlt hp
            by_cases hqo : q = o
            · subst hqo
              have : m1 = m0 := by simpa [hp, fwdItems] using h1.symm
              rw [this]
              exact hi.plain q hq hlt hp
            · by_cases hlt' : rank q < rank o
              · exact i1.plain q hq hlt' hp
              · have hq' : q ∉ S ∨ rank o ≤ rank q := Or.inr (not_lt.1 hlt')
                have hv := fr.val q hq'
                have hdv := fr.dval q hq'
                rw [hm1]
                simp [hm0, Mem.setVisited, Mem.setValue, Mem.setDValue, hqo] at hv hdv ⊢
                rw [hv, hdv]
                exact hi.plain q hq hlt hp
          · intro q hq hq' i hii p hp
            by_cases hqo : q = o
            · subst hqo; exact l1 i hii p hp
            · exact c1 q (by simpa [hm0, Mem.setVisited, hqo] using hq) hq' i hii p hp

end

section
variable (P : Arith K) (D : Defs K)
variable {n : ℕ} {recE recD : ℕ → Mem K → Option (K × Mem K)}

theorem fwdN_total (hE : TotE D n recE) (hF : TotE D n recD) (t : Node K) :
    ∀ m, (∀ p ∈ t.leaves, p < D.size) → unv D.size m < n →
      ∃ v m', fwdN P D recE recD t m = some (v, m') ∧ Mono m m' := by
  induction t with
  | leaf o => intro m hl hm; exact hF o m (hl o (by simp [Node.leaves])) hm
  | par p => intro m hl hm; exact ⟨_, m, rfl, Mono.refl m⟩
  | op1 n f a ih =>
      intro m hl hm
      obtain ⟨du, m1, h1, mo1⟩ := ih m hl hm
      simp only [fwdN, h1, Option.bind_eq_bind, Option.bind_some]
      split
      · obtain ⟨u, m2, h2, mo2⟩ := evalN_total P D hE a m1 hl (mo1.unv_le.trans_lt hm)
        exact ⟨_, m2, by rw [h2]; rfl, mo1.trans mo2⟩
      · exact ⟨_, m1, rfl, mo1⟩
  | op2 n f a b iha ihb =>
      intro m hl hm
      have hla : ∀ p ∈ a.leaves, p < D.size := fun p hp => hl p (by simp [Node.leaves, hp])
      have hlb : ∀ p ∈ b.leaves, p < D.size := fun p hp => hl p (by simp [Node.leaves, hp])
      obtain ⟨du, m1, h1, mo1⟩ := iha m hla hm
      have hm1 := mo1.unv_le.trans_lt hm
      obtain ⟨dv, m2, h2, mo2⟩ := ihb m1 hlb hm1
      have hm2 := mo2.unv_le.trans_lt hm1
      simp only [fwdN, h1, Option.bind_eq_bind, Option.bind_some, h2]
      split
      · split
        · obtain ⟨v, m3, h3, mo3⟩ := evalN_total P D hE b m2 hlb hm2
          obtain ⟨u, m4, h4, mo4⟩ := evalN_total P D hE a m3 hla (mo3.unv_le.trans_lt hm2)
          exact ⟨_, m4, by rw [h3]; simp only [Option.bind_some]; rw [h4]; rfl,
            ((mo1.trans mo2).trans mo3).trans mo4⟩
        · obtain ⟨v, m3, h3, mo3⟩ := evalN_total P D hE a m2 hla hm2
          obtain ⟨u, m4, h4, mo4⟩ := evalN_total P D hE b m3 hlb (mo3.unv_le.trans_lt hm2)
          exact ⟨_, m4, by rw [h3]; simp only [Option.bind_some]; rw [h4]; rfl,
            ((mo1.trans mo2).trans mo3).trans mo4⟩
      · exact ⟨_, m2, rfl, mo1.trans mo2⟩

theorem fwdItems_total (hE : TotE D n recE) (hF : TotE D n recD) (o : ℕ) (is : List (Node K)) :
    ∀ m, (∀ i ∈ is, ∀ p ∈ i.leaves, p < D.size) → unv D.size m < n →
      ∃ m', fwdItems P D recE recD o is m = some m' ∧ Mono m m' := by
  induction is with
  | nil => intro m _ _; exact ⟨m, rfl, Mono.refl m⟩
  | cons i is ih =>
      intro m hl hm
      obtain ⟨d, m1, h1, mo1⟩ := fwdN_total P D hE hF i m (hl i (by simp)) hm
      obtain ⟨v, m2, h2, mo2⟩ := evalN_total P D hE i (m1.setDValue o d) (hl i (by simp))
        (mo1.unv_le.trans_lt hm)
      have mo2' : Mono m1 m2 := mo2
      obtain ⟨m3, h3, mo3⟩ := ih (m2.setValue o v) (fun j hj => hl j (by simp [hj]))
        ((mo1.trans mo2').unv_le.trans_lt hm)
      refine ⟨m3, ?_, Mono.trans (m' := m2.setValue o v) (mo1.trans mo2') mo3⟩
      simp only [fwdItems, h1, Option.bind_eq_bind, Option.bind_some, h2]
      exact h3

theorem fwdO_total (hD : D.Closed) (k : ℕ) (fuel : ℕ) : TotE D fuel (fwdO P D k fuel) := by
  induction fuel with
  | zero => intro o m _ h; exact absurd h (by omega)
  | succ f ih =>
      intro o m ho hm
      cases hv : m.visited o with
      | true => exact ⟨_, m, by simp only [fwdO, hv]; rfl, Mono.refl m⟩
      | false =>
          have hmo := mono_setVisited m o
          have hlt := unv_lt ho hv (by simp [Mem.setVisited]) hmo
          obtain ⟨m1, h1, mo1⟩ := fwdItems_total P D (evalO_total P D hD f) ih o (D.items o)
            (m.setVisited o true) (hD o ho) (show _ < f by omega)
          exact ⟨_, m1, by simp only [fwdO, hv, if_true, h1]; rfl, hmo.trans mo1⟩


end

section
variable {P : Arith K}

theorem seqDer_congr (π : ℕ → K) {ρ ρ' δ δ' : ℕ → K} (o : ℕ) (is : List (Node K)) :
    ∀ v d, (∀ i ∈ is, ∀ p ∈ i.leaves, p ≠ o → ρ p = ρ' p ∧ δ p = δ' p) →
      seqDer P π ρ δ o is v d = seqDer P π ρ' δ' o is v d := by
  induction is with
  | nil => intro v d _; rfl
  | cons i is ih =>
      intro v d h
      have hρ : ∀ p ∈ i.leaves, Function.update ρ o v p = Function.update ρ' o v p := by
        intro p hp
        by_cases hpo : p = o
        · subst hpo; simp
        · simp [hpo, (h i (by simp) p hp hpo).1]
      have hδ : ∀ p ∈ i.leaves, Function.update δ o d p = Function.update δ' o d p := by
        intro p hp
        by_cases hpo : p = o
        · subst hpo; simp
        · simp [hpo, (h i (by simp) p hp hpo).2]
      simp only [seqDer, nval_congr P π i hρ, nder_congr P π i hρ hδ]
      exact ih _ _ fun j hj => h j (List.mem_cons_of_mem _ hj)

theorem local_der {D : Defs K} {y x : ℕ} {rank : ℕ → ℕ}
    (hr : ∀ q, Reach D y q → ∀ i ∈ D.items q, ∀ p ∈ i.leaves, p = q ∨ rank p < rank q)
    (ρ : ℕ → K) :
    ∀ q ∈ {q | Reach D y q}, ∀ f g : ℕ → K,
      (∀ p ∈ {q | Reach D y q}, rank p < rank q → f p = g p) →
      (if q = x then P.one else seqDer P D.par ρ f q (D.items q) (D.base q) 0) =
      (if q = x then P.one else seqDer P D.par ρ g q (D.items q) (D.base q) 0) := by
  intro q hq f g hfg
  split
  · rfl
  · apply seqDer_congr
    intro i hi p hp hpq
    rcases hr q hq i hi p hp with h | h
    · exact absurd h hpq
    · exact ⟨rfl, hfg p (Reach.step hq hi hp) h⟩

/-- Every well-defined object has a derivative with respect to every object. -/
theorem exists_tangent {D : Defs K} {y : ℕ} (h : WellDefined D y) (x : ℕ)
    (ρ : ℕ → K) : ∃ δ, Tangent P D y x ρ δ := by
  obtain ⟨⟨rank, hr⟩, -⟩ := h
  exact exists_fixpoint
    (fun δ q => if q = x then P.one else seqDer P D.par ρ δ q (D.items q) (D.base q) 0)
    {q | Reach D y q} rank (fun _ => 0) (local_der hr ρ)

theorem Tangent.congr_left {D : Defs K} {y x : ℕ} {ρ ρ' δ : ℕ → K}
    (h : Tangent P D y x ρ δ) (he : ∀ q, Reach D y q → ρ q = ρ' q) : Tangent P D y x ρ' δ := by
  intro q hq
  rw [h q hq]
  split
  · rfl
  · exact seqDer_congr _ _ _ _ _ fun i hi p hp _ => ⟨he p (Reach.step hq hi hp), rfl⟩

/-- The derivative is unique. -/
theorem tangent_unique {D : Defs K} {y x : ℕ} (h : WellDefined D y) {ρ δ δ' : ℕ → K}
    (h1 : Tangent P D y x ρ δ) (h2 : Tangent P D y x ρ δ') : ∀ q, Reach D y q → δ q = δ' q := by
  obtain ⟨⟨rank, hr⟩, -⟩ := h
  exact fixpoint_unique
    (fun δ q => if q = x then P.one else seqDer P D.par ρ δ q (D.items q) (D.base q) 0)
    {q | Reach D y q} rank (local_der hr ρ) h1 h2

end

section
variable {α : Type} (P : Arith K) (D : Defs K) (φ : Mem K → α)

def KeepE (rec : ℕ → Mem K → Option (K × Mem K)) : Prop :=
  ∀ q m v m', rec q m = some (v, m') → φ m' = φ m
def KeepT (rec : ℕ → Mem K → Option (Mem K)) : Prop :=
  ∀ q m m', rec q m = some m' → φ m' = φ m

variable {recE recD : ℕ → Mem K → Option (K × Mem K)} {recT : ℕ → Mem K → Option (Mem K)}

theorem evalN_keep (hE : KeepE φ recE) (t : Node K) :
    ∀ m v m', evalN P D recE t m = some (v, m') → φ m' = φ m := by
  induction t with
  | leaf o => intro m v m' h; exact hE o m v m' h
  | par p => intro m v m' h; simp [evalN] at h; rw [h.2]
  | op1 n f a ih =>
      intro m v m' h
      simp only [evalN, Option.bind_eq_bind, Option.bind_eq_some_iff, Prod.exists,
        Option.some.injEq, Prod.mk.injEq] at h
      obtain ⟨u, m1, h1, rfl, rfl⟩ := h
      exact ih m u m1 h1
  | op2 n f a b iha ihb =>
      intro m v m' h
      simp only [evalN] at h
      split at h <;>
      · simp only [Option.bind_eq_bind, Option.bind_eq_some_iff, Prod.exists,
          Option.some.injEq, Prod.mk.injEq] at h
        obtain ⟨u, m1, h1, w, m2, h2, rfl, rfl⟩ := h
        first
        | exact (iha m1 w m2 h2).trans (ihb m u m1 h1)
        | exact (ihb m1 w m2 h2).trans (iha m u m1 h1)

variable (hV : ∀ m o b, φ (Mem.setVisited m o b) = φ m) (hv : ∀ m o v, φ (Mem.setValue m o v) = φ m)
include hV hv

theorem evalO_keep (fuel : ℕ) : KeepE φ (evalO P D fuel) := by
  induction fuel with
  | zero => intro q m v m' h; simp [evalO] at h
  | succ f ih =>
      intro o m v m' h
      have items : ∀ is m m', evalItems P D (evalO P D f) o is m = some m' → φ m' = φ m := by
        intro is
        induction is with
        | nil => intro m m' h; simp [evalItems] at h; rw [h]
        | cons i is ih2 =>
            intro m m' h
            simp only [evalItems, Option.bind_eq_bind, Option.bind_eq_some_iff, Prod.exists] at h
            obtain ⟨v, m1, h1, h2⟩ := h
            rw [ih2 _ _ h2, hv, evalN_keep P D φ ih i _ _ _ h1]
      simp only [evalO] at h
      split at h
      · simp only [Option.bind_eq_bind, Option.bind_eq_some_iff, Option.some.injEq,
          Prod.mk.injEq] at h
        obtain ⟨m1, h1, rfl, rfl⟩ := h
        rw [items _ _ _ h1, hV, hv]
      · simp only [Option.some.injEq, Prod.mk.injEq] at h
        rw [h.2]

end

end CoolDiff.Mach
