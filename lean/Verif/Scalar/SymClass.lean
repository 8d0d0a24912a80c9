import Verif.Scalar.SymOps

/-!
# Classes of operator applications

Which operators occur in a definition, and whether each is applied inside its domain, are statements
of the form "every operator application satisfies a condition on the operator and its operands".
Symbolic differentiation turns such a statement about an Expression into one about the Expression it
creates.
-/

set_option linter.unusedSectionVars false

namespace CoolDiff

variable {K : Type} [Field K] [DecidableEq K]

/-- A condition on operator applications. -/
structure OpClass (K : Type) where
  p1 : Op1 K → K → Prop
  p2 : Op2 K → K → K → Prop

variable (C C' : OpClass K) (P : Prim K)

/-- Every operator application in a tree satisfies the condition. -/
def Node.All (π ρ : ℕ → K) : Node K → Prop
  | .leaf _ => True
  | .par _ => True
  | .op1 _ f a => a.All π ρ ∧ C.p1 f (a.val P π ρ)
  | .op2 _ f a b => a.All π ρ ∧ b.All π ρ ∧ C.p2 f (a.val P π ρ) (b.val P π ρ)

/-- The same for the right-hand sides of object `o`, run in order from value `v`. -/
def SeqAll (π ρ : ℕ → K) (o : ℕ) : List (Node K) → K → Prop
  | [], _ => True
  | i :: is, v => i.All C P π (Function.update ρ o v) ∧
      SeqAll π ρ o is (i.val P π (Function.update ρ o v))

/-- The same for everything object `q` depends on. -/
def AllBelow (π ρ : ℕ → K) (D : Defs K) (q : ℕ) : Prop :=
  ∀ o, Reach D q o → SeqAll C P π ρ o (D.items o) (D.base o)

/-- The operator applications of a one-operand form. -/
def UForm.All : UForm K → K → Prop
  | .fn f, u => C.p1 (.fn f) u
  | .mulC c, u => C.p1 (.mulC c) u
  | .cMul c, u => C.p1 (.mulC c) u
  | .cAdd c, u => C.p1 (.addC c) u
  | .cSub c, u => C.p1 (.mulC (-1)) u ∧ C.p1 (.addC c) ((-1) * u)
  | .subC c, u => C.p1 (.addC ((-1) * c)) u
  | .cDiv c, u => C.p1 (.divC c) u
  | .powC c, u => C.p1 (.powC c) u
  | .cPow c, u => C.p1 (.cPow c) u

/-- The operator application of a two-operand form. -/
def BForm.All : BForm → K → K → Prop
  | .add, u, v => C.p2 .add u v
  | .sub, u, v => C.p2 .sub u v
  | .mul, u, v => C.p2 .mul u v
  | .div, u, v => C.p2 .div u v
  | .pow, u, v => C.p2 .pow u v

/-- The operator applications of a formula whose calls have the values `h`. -/
def Tm.All (h : Hole → K) : Tm K → Prop
  | .hole _ => True
  | .un g a => a.All h ∧ g.All C (a.val P h)
  | .bin g a b => a.All h ∧ b.All h ∧ g.All C (a.val P h) (b.val P h)

/-- If an operator application satisfies `C`, the formulas built for it satisfy `C'`. -/
structure Closes : Prop where
  le1 : ∀ f u, C.p1 f u → C'.p1 f u
  le2 : ∀ f u v, C.p2 f u v → C'.p2 f u v
  one : ∀ u, C'.p1 (.mulC 1) u
  val1 : ∀ f t, f.symVal = some t → ∀ h, C.p1 f (h .evL) → t.All C' P h
  der1 : ∀ f t, f.symDer P = some t → ∀ h, C.p1 f (h .evL) → t.All C' P h
  val2 : ∀ f t, f.symVal = some t → ∀ h, C.p2 f (h .evL) (h .evR) → t.All C' P h
  der2 : ∀ f t, f.symDer = some t → ∀ h, C.p2 f (h .evL) (h .evR) → t.All C' P h

variable {C C' P}

theorem Node.All.mono (hC : Closes C C' P) {π ρ : ℕ → K} {t : Node K} (h : t.All C P π ρ) :
    t.All C' P π ρ := by
  induction t with
  | leaf o => trivial
  | par p => trivial
  | op1 n f a ih => exact ⟨ih h.1, hC.le1 _ _ h.2⟩
  | op2 n f a b iha ihb => exact ⟨iha h.1, ihb h.2.1, hC.le2 _ _ _ h.2.2⟩

theorem SeqAll.mono (hC : Closes C C' P) {π ρ : ℕ → K} {o : ℕ} {is : List (Node K)} {v : K}
    (h : SeqAll C P π ρ o is v) : SeqAll C' P π ρ o is v := by
  induction is generalizing v with
  | nil => trivial
  | cons i is ih => exact ⟨h.1.mono hC, ih h.2⟩

theorem AllBelow.mono (hC : Closes C C' P) {π ρ : ℕ → K} {D : Defs K} {q : ℕ}
    (h : AllBelow C P π ρ D q) : AllBelow C' P π ρ D q := fun o ho => (h o ho).mono hC

theorem AllBelow.below {π ρ : ℕ → K} {D : Defs K} {q p : ℕ} (h : AllBelow C P π ρ D q)
    (hr : Reach D q p) : AllBelow C P π ρ D p := fun o ho => h o (hr.trans ho)

theorem Node.val_congr' (π : ℕ → K) {ρ ρ' : ℕ → K} (t : Node K) (h : ∀ p ∈ t.leaves, ρ p = ρ' p) :
    t.val P π ρ = t.val P π ρ' := by
  induction t with
  | leaf o => exact h o (by simp [leaves])
  | par p => rfl
  | op1 n f a ih => simp only [val, ih h]
  | op2 n f a b iha ihb =>
      simp only [val, iha (fun p hp => h p (by simp [leaves, hp])),
        ihb (fun p hp => h p (by simp [leaves, hp]))]

theorem Node.All.congr {π ρ ρ' : ℕ → K} {t : Node K} (h : ∀ p ∈ t.leaves, ρ p = ρ' p)
    (ha : t.All C P π ρ) : t.All C P π ρ' := by
  induction t with
  | leaf o => trivial
  | par p => trivial
  | op1 n f a ih => exact ⟨ih h ha.1, Node.val_congr' (P := P) π a h ▸ ha.2⟩
  | op2 n f a b iha ihb =>
      have h1 : ∀ p ∈ a.leaves, ρ p = ρ' p := fun p hp => h p (by simp [leaves, hp])
      have h2 : ∀ p ∈ b.leaves, ρ p = ρ' p := fun p hp => h p (by simp [leaves, hp])
      refine ⟨iha h1 ha.1, ihb h2 ha.2.1, ?_⟩
      rw [← Node.val_congr' (P := P) π a h1, ← Node.val_congr' (P := P) π b h2]
      exact ha.2.2

theorem Node.All.clone {π ρ : ℕ → K} {t : Node K} (h : t.All C P π ρ) (n : ℕ) :
    (cloneN t n).1.All C P π ρ := by
  induction t generalizing n with
  | leaf o => trivial
  | par p => trivial
  | op1 m f a ih =>
      refine ⟨ih h.1 n, ?_⟩
      rw [cloneN_val]; exact h.2
  | op2 m f a b iha ihb =>
      refine ⟨iha h.1 n, ihb h.2.1 _, ?_⟩
      rw [cloneN_val, cloneN_val]; exact h.2.2

theorem UForm.build_all (g : UForm K) {e : Exp K} {π ρ : ℕ → K}
    (he : ∀ n, (e.build n).1.All C P π ρ) (hg : g.All C (e.val P π ρ)) (n : ℕ) :
    ((g.app e).build n).1.All C P π ρ := by
  cases g
  case cSub c =>
    refine ⟨⟨(he n).clone _ |>.clone _ |>.clone _ , ?_⟩, ?_⟩ <;>
      simp only [cloneN_val, e.build_val, Node.val, Op1.sem, cloneN, mk1] <;> first | exact hg.1 | exact hg.2
  case subC c =>
    refine ⟨((he n).clone _).clone _, ?_⟩
    rw [cloneN_val, cloneN_val, e.build_val]; exact hg
  all_goals
    refine ⟨(he n).clone _, ?_⟩
    rw [cloneN_val, e.build_val]; exact hg

theorem BForm.build_all (g : BForm) {a b : Exp K} {π ρ : ℕ → K}
    (ha : ∀ n, (a.build n).1.All C P π ρ) (hb : ∀ n, (b.build n).1.All C P π ρ)
    (hg : g.All C (a.val P π ρ) (b.val P π ρ)) (n : ℕ) :
    ((g.app a b).build n).1.All C P π ρ := by
  cases g <;>
    · refine ⟨(ha n).clone _, (hb _).clone _, ?_⟩
      rw [cloneN_val, cloneN_val, a.build_val, b.build_val]; exact hg

theorem stored_all {e : Exp K} {π ρ : ℕ → K} (he : ∀ n, (e.build n).1.All C P π ρ)
    (h1 : ∀ u, C.p1 (.mulC 1) u) (n : ℕ) : (stored e n).All C P π ρ :=
  ⟨(he n).clone _, h1 _⟩

theorem SeqAll.append {π ρ : ℕ → K} {o : ℕ} {pre post : List (Node K)} {i : Node K} {v : K}
    (h : SeqAll C P π ρ o (pre ++ i :: post) v) :
    i.All C P π (Function.update ρ o (seqVal P π ρ o pre v)) := by
  induction pre generalizing v with
  | nil => exact h.1
  | cons j pre ih => exact ih h.2

theorem allBelow_congr {D D' : Defs K} {T : Set ℕ}
    (hc : ∀ q ∈ T, ∀ i ∈ D.items q, ∀ p ∈ i.leaves, p ∈ T) (hi : ∀ q ∈ T, D'.items q = D.items q)
    (hb : ∀ q ∈ T, D.items q = [] ∨ D'.base q = D.base q) {π ρ : ℕ → K} {q : ℕ} (hq : q ∈ T) :
    AllBelow C P π ρ D' q ↔ AllBelow C P π ρ D q := by
  have hT : ∀ o, Reach D q o → o ∈ T := by
    intro o ho
    induction ho with
    | refl => exact hq
    | step _ hm hp ih => exact hc _ ih _ hm _ hp
  have h1 : ∀ o, Reach D' q o → Reach D q o := by
    intro o ho
    induction ho with
    | refl => exact .refl
    | step _ hm hp ih => exact .step ih (by rw [← hi _ (hT _ ih)]; exact hm) hp
  have h2 : ∀ o, Reach D q o → Reach D' q o := by
    intro o ho
    induction ho with
    | refl => exact .refl
    | step hr hm hp ih => exact .step ih (by rw [hi _ (hT _ hr)]; exact hm) hp
  have he : ∀ o ∈ T, SeqAll C P π ρ o (D'.items o) (D'.base o) ↔
      SeqAll C P π ρ o (D.items o) (D.base o) := by
    intro o ho
    rw [hi o ho]
    rcases hb o ho with e | e
    · rw [e]; exact Iff.rfl
    · rw [e]
  exact ⟨fun h o ho => (he o (hT o ho)).1 (h o (h2 o ho)),
    fun h o ho => (he o (hT o (h1 o ho))).2 (h o (h1 o ho))⟩

variable (P) in
/-- Every class of operator applications carries over from the definitions below `q` to those below
`e`. -/
def Ob (D : Defs K) (π ρ : ℕ → K) (q e : ℕ) : Prop :=
  ∀ C C' : OpClass K, Closes C C' P → AllBelow C P π ρ D q → AllBelow C' P π ρ D e

variable (P) in
/-- The same for a reference. -/
def Ref.Ob (D : Defs K) (π ρ : ℕ → K) (q : ℕ) : Ref → Prop
  | .obj e => CoolDiff.Ob P D π ρ q e
  | .par _ => True

theorem Ob.refl (D : Defs K) (π ρ : ℕ → K) (q : ℕ) : Ob P D π ρ q q := fun _ _ hC h => h.mono hC

theorem Ob.below {D : Defs K} {π ρ : ℕ → K} {q p e : ℕ} (hr : Reach D q p) (h : Ob P D π ρ p e) :
    Ob P D π ρ q e := fun C C' hC ha => h C C' hC (ha.below hr)

theorem Ref.Ob.below {D : Defs K} {π ρ : ℕ → K} {q p : ℕ} {v : Ref} (hr : Reach D q p)
    (h : v.Ob P D π ρ p) : v.Ob P D π ρ q := by
  cases v with
  | obj e => exact CoolDiff.Ob.below hr h
  | par p => trivial

/-- A Variable satisfies everything. -/
theorem AllBelow.empty {D : Defs K} {π ρ : ℕ → K} {q : ℕ} (h : D.items q = []) :
    AllBelow C P π ρ D q := by
  intro o ho
  have : o = q := by
    cases ho with
    | refl => rfl
    | step hr hm hp =>
        exfalso
        have key : ∀ z, Reach D q z → z = q := by
          intro z hz
          induction hz with
          | refl => rfl
          | step _ hm _ ih => rw [ih, h] at hm; simp at hm
        rw [key _ hr, h] at hm; simp at hm
  rw [this, h]; trivial

theorem Ob.empty {D : Defs K} {π ρ : ℕ → K} {q e : ℕ} (h : D.items e = []) : Ob P D π ρ q e :=
  fun _ _ _ _ => .empty h

theorem Ob.congr {D D' : Defs K} {T : Set ℕ}
    (hc : ∀ q ∈ T, ∀ i ∈ D.items q, ∀ p ∈ i.leaves, p ∈ T) (hi : ∀ q ∈ T, D'.items q = D.items q)
    (hb : ∀ q ∈ T, D.items q = [] ∨ D'.base q = D.base q) {π ρ : ℕ → K} {q e : ℕ} (hq : q ∈ T)
    (he : e ∈ T) : Ob P D' π ρ q e ↔ Ob P D π ρ q e := by
  unfold Ob
  constructor
  · intro h C C' hC ha
    rw [← allBelow_congr hc hi hb he]
    exact h C C' hC ((allBelow_congr hc hi hb hq).2 ha)
  · intro h C C' hC ha
    rw [allBelow_congr hc hi hb he]
    exact h C C' hC ((allBelow_congr hc hi hb hq).1 ha)

end CoolDiff
