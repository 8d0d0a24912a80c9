import Verif.Matrix.Joint
import Verif.Matrix.Runs
import Verif.Props.Exact
import Verif.Props.Reverse
import Verif.Props.Meaning

/-!
# The joint model follows the matrix model

Whatever a matrix query answers when the scalar layer is an oracle telling the truth, it answers when its scalar
queries run on the heap.
-/

set_option linter.unusedSectionVars false

namespace CoolDiff

variable {K : Type} [Field K] [DecidableEq K]

/-- The scalar Expressions `H` can be queried in any order after `U` has been used: if an Expression below one of
them has not been used, then no Expression it directly mentions has been, and every member of `H` that depends
on the latter depends on the former. -/
def Orderly (D : Defs K) (U H : ℕ → Prop) : Prop :=
  ∀ o, H o → ∀ q, Reach D o q → q ≠ o → ¬ U q → ∀ i ∈ D.items q, ∀ p ∈ i.leaves, D.items p ≠ [] →
    ¬ U p ∧ ∀ o', H o' → Reach D o' p → Reach D o' q

theorem Orderly.safe {D : Defs K} {U H : ℕ → Prop} (h : Orderly D U H) {o : ℕ} (ho : H o) : Safe D U o :=
  fun q hq hqo hu i hi p hp hpe => (h o ho q hq hqo hu i hi p hp hpe).1

theorem Orderly.step {D : Defs K} {U H : ℕ → Prop} (h : Orderly D U H) {y : ℕ} (hy : H y) :
    Orderly D (fun q => U q ∨ Reach D y q) H := by
  intro o ho q hq hqo hu i hi p hp hpe
  have h1 := h o ho q hq hqo (fun hh => hu (Or.inl hh)) i hi p hp hpe
  refine ⟨?_, h1.2⟩
  rintro (hh | hh)
  · exact h1.1 hh
  · exact hu (Or.inr (h1.2 y hy hh))

/-- All Expressions below `H` have been used. -/
theorem Orderly.of_used {D : Defs K} {U H : ℕ → Prop}
    (h : ∀ o, H o → ∀ q, Reach D o q → q ≠ o → D.items q ≠ [] → U q) : Orderly D U H :=
  fun o ho q hq hqo hu i hi _ _ _ => absurd (h o ho q hq hqo (List.ne_nil_of_mem hi)) hu

/-- The members of `H` mention no Expression that itself mentions Expressions. -/
theorem Orderly.of_shallow {D : Defs K} {U H : ℕ → Prop}
    (h : ∀ o, H o → ∀ q, Reach D o q → q ≠ o → ∀ i ∈ D.items q, ∀ p ∈ i.leaves, D.items p = []) : Orderly D U H :=
  fun o ho q hq hqo _ i hi p hp he => absurd (h o ho q hq hqo i hi p hp) he

/-- The answers `sc` are those of the definitions in force. -/
structure Truth (j : JCtx K) (D : Defs K) (sc : Scal K) : Prop where
  obj : ∀ s o, j.h s = .obj o → WellDefined D o → ValueOf j.P D o (sc.val s)
  par : ∀ s p, j.h s = .par p → sc.val s = D.par p
  num : ∀ s v, j.h s = .num v → sc.val s = v
  der : ∀ s o, j.h s = .obj o → WellDefined D o → ∀ x, x < D.size → D.items x = [] →
    DerivOf j.P D o x (sc.der s (D.nidx x))

/-- Handle `s` is a Variable, known to the matrices under its own number. -/
def VarEl (j : JCtx K) (D : Defs K) (s : ℕ) : Prop :=
  ∃ x, j.h s = .obj x ∧ IsVar D x ∧ j.E.vid s = D.nidx x

/-- The scalar operands of a formula. -/
def MNode.scals : MNode K → List ℕ
  | .obj _ => []
  | .bin _ _ a b => a.scals ++ b.scals
  | .un _ (.saddE s) a => s :: a.scals
  | .un _ (.smulE s) a => s :: a.scals
  | .un _ _ a => a.scals

/-- The elements and scalar operands of the matrices `S`: those of a `Matrix<Variable>` are Variables, those of a
`Matrix<Expression>` and the scalar operands of formulas are Expressions in `H`, whose definitions are not
circular, those of the other matrices are Parameters or numbers. -/
structure ElemsOk (j : JCtx K) (D : Defs K) (S : Set ℕ) (H : ℕ → Prop) : Prop where
  var : ∀ o ∈ S, j.E.kind o = .var → ∀ r c, r < j.E.rows o → c < j.E.cols o → VarEl j D (j.E.el o r c)
  exp : ∀ o ∈ S, j.E.kind o = .exp → ∀ r c, r < j.E.rows o → c < j.E.cols o →
    ∃ y, j.h (j.E.el o r c) = .obj y ∧ H y
  oth : ∀ o ∈ S, (j.E.kind o = .num ∨ j.E.kind o = .par) → ∀ r c, r < j.E.rows o → c < j.E.cols o →
    ∀ y, j.h (j.E.el o r c) ≠ .obj y
  ops : ∀ o ∈ S, ∀ n e eye, j.E.kind o = .form n e eye → ∀ s ∈ e.scals, ∃ y, j.h s = .obj y ∧ H y
  handle : ∀ y, H y → y < D.size ∧ D.items y ≠ [] ∧ WellDefined D y

/-- Between two scalar queries. -/
structure HeapInv (P : Prim K) (D : Defs K) (U0 H : ℕ → Prop) (σ : St K) : Prop where
  defs : σ.defs = D
  hist : ∃ U, Hist P σ U ∧ Orderly D U H ∧ (∀ q, U0 q → U q) ∧ ∀ q, U q → U0 q ∨ ∃ o, H o ∧ Reach D o q

section
variable {P : Prim K} {D : Defs K} {U0 H : ℕ → Prop} {σ : St K}

theorem HeapInv.start {U : ℕ → Prop} (h : Hist P σ U) (hc : Orderly σ.defs U H) : HeapInv P σ.defs U H σ :=
  ⟨rfl, U, h, hc, fun _ h => h, fun _ h => Or.inl h⟩

theorem HeapInv.wf (h : HeapInv P D U0 H σ) : σ.WF := by obtain ⟨U, hU, -⟩ := h.hist; exact hU.inv.wf

theorem HeapInv.eval (h : HeapInv P D U0 H σ) {y : ℕ} (hy : H y) (hlt : y < D.size) (hwd : WellDefined D y) {v : K}
    (hv : ValueOf P D y v) : ∃ σ', Eval P y σ = some (v, σ') ∧ HeapInv P D U0 H σ' := by
  obtain ⟨rfl, U, hU, hc, ha, hb⟩ := h
  obtain ⟨ρ, hρ, rfl⟩ := hv
  obtain ⟨σ', e, hq⟩ := Eval_spec P hU.inv.wf hlt hwd (hU.inv.safe (hc.safe hy)) hρ
  refine ⟨σ', e, hq.defs, _, .eval y _ hU hlt hwd (hc.safe hy) e, hc.step hy, fun q hq => Or.inl (ha q hq), ?_⟩
  rintro q (h | h)
  · exact hb q h
  · exact Or.inr ⟨y, hy, h⟩

theorem HeapInv.preComp (h : HeapInv P D U0 H σ) {y : ℕ} (hy : H y) (hlt : y < D.size) (hwd : WellDefined D y) :
    ∃ σ', PreComp P y σ = some σ' ∧ HeapInv P D U0 H σ' ∧ Cur (GoodR P) σ' y ∧
      ∀ q, Cur (GoodR P) σ q → Cur (GoodR P) σ' q := by
  obtain ⟨rfl, U, hU, hc, ha, hb⟩ := h
  have hs := hU.inv.safe (hc.safe hy)
  obtain ⟨ρ, σ', e, hw, st, c1, c2⟩ := (hs.fine (GoodR P)).preComp hU.inv.wf hlt hwd
  refine ⟨σ', e, ⟨st.defs, _, .preComp y hU hlt hwd (hc.safe hy) e, hc.step hy, fun q hq => Or.inl (ha q hq), ?_⟩,
    c1, c2⟩
  rintro q (h | h)
  · exact hb q h
  · exact Or.inr ⟨y, hy, h⟩

/-- Reading a reverse derivative of an Expression whose results are current. -/
theorem HeapInv.devalR (h : HeapInv P D U0 H σ) {y : ℕ} (hlt : y < D.size) (hi : D.items y ≠ []) (hwd : WellDefined D y)
    (hc : Cur (GoodR P) σ y) {x : ℕ} (hx : x < D.size) (hx0 : x ≠ 0) (hxv : D.items x = []) {d : K}
    (hd : DerivOf P D y x d) : σ.mem.cache y (D.nidx x) = d := by
  obtain ⟨rfl, U, hU, -⟩ := h
  have h1 := hc.devalR hU.inv.wf hlt hi hx (hU.run.revOK hlt hx hx0 hxv) (by rintro rfl; exact hi hxv)
  obtain ⟨ρ, δ, hρ, hδ, rfl⟩ := hd
  exact DerivOf.eq hwd h1 hρ hδ

end

section
variable {j : JCtx K} {D : Defs K} {U0 H : ℕ → Prop} {S : Set ℕ} {sc : Scal K} {σ : St K}

local notation "Inv" => HeapInv j.P D U0 H

theorem scalEval_expr (hT : Truth j D sc) (hh : ∀ y, H y → y < D.size ∧ D.items y ≠ [] ∧ WellDefined D y) {s y : ℕ}
    (hs : j.h s = .obj y) (hy : H y) (hi : Inv σ) :
    ∃ σ', scalEval j s σ = some (sc.val s, σ') ∧ Inv σ' := by
  obtain ⟨h1, h2, h3⟩ := hh y hy
  obtain ⟨σ', e, h'⟩ := hi.eval hy h1 h3 (hT.obj s y hs h3)
  refine ⟨σ', ?_, h'⟩
  rw [scalEval, hs]
  simp only [hi.defs, h2, if_false, e]

theorem wellDefined_plain {D : Defs K} {x : ℕ} (h : D.items x = []) : WellDefined D x := by
  have hp : ∀ p, Reach D x p → p = x := by
    intro p hp
    induction hp with
    | refl => rfl
    | step _ hi _ ih => subst ih; rw [h] at hi; simp at hi
  exact ⟨⟨fun _ => 0, fun q hq => by rw [hp q hq, h]; simp⟩, fun q hq => by rw [hp q hq, h]; simp⟩

theorem scalEval_var (hT : Truth j D sc) {s x : ℕ} (hs : j.h s = .obj x) (hx : x < D.size) (hv : D.items x = [])
    (hi : Inv σ) : scalEval j s σ = some (sc.val s, σ) := by
  have h1 := hT.obj s x hs (wellDefined_plain hv)
  obtain rfl := hi.defs
  obtain ⟨ρ, hρ, h2⟩ := ValueOf.plain (P := j.P) hi.wf hx hv
  rw [scalEval, hs]
  simp only [hv, if_true]
  rw [← h2, ValueOf.eq (wellDefined_plain hv) h1 hρ]

theorem scalEval_oth (hT : Truth j D sc) {s : ℕ} (hs : ∀ y, j.h s ≠ .obj y) (hi : Inv σ) :
    scalEval j s σ = some (sc.val s, σ) := by
  rw [scalEval]
  cases e : j.h s with
  | obj o => exact absurd e (hs o)
  | par p => simp only [hT.par s p e, hi.defs]
  | num v => simp only [hT.num s v e]

/-- Any element of a matrix in `S` that is no formula. -/
theorem scalEval_elem (hT : Truth j D sc) (hE : ElemsOk j D S H) {o r c : ℕ} (ho : o ∈ S) (hk : ¬ j.E.isForm o)
    (hr : r < j.E.rows o) (hc : c < j.E.cols o) (hi : Inv σ) :
    ∃ σ', scalEval j (j.E.el o r c) σ = some (sc.val (j.E.el o r c), σ') ∧ Inv σ' := by
  cases e : j.E.kind o with
  | num => exact ⟨σ, scalEval_oth hT (hE.oth o ho (Or.inl e) r c hr hc) hi, hi⟩
  | par => exact ⟨σ, scalEval_oth hT (hE.oth o ho (Or.inr e) r c hr hc) hi, hi⟩
  | var =>
      obtain ⟨x, h1, ⟨h2, -, h3⟩, -⟩ := hE.var o ho e r c hr hc
      exact ⟨σ, scalEval_var hT h1 h2 h3 hi, hi⟩
  | exp =>
      obtain ⟨y, h1, h2⟩ := hE.exp o ho e r c hr hc
      exact scalEval_expr hT hE.handle h1 h2 hi
  | form n e' eye => exact absurd ⟨n, e', eye, e⟩ hk

theorem fillEvalJ_list (f : ℕ → ℕ) (l : List ℕ)
    (hl : ∀ n ∈ l, ∀ σ, Inv σ → ∃ σ', scalEval j (f n) σ = some (sc.val (f n), σ') ∧ Inv σ') :
    ∀ (res m : Mat K) (σ : St K), Inv σ → l.foldlM (fun (m : Mat K) n => m.rawPut? n (sc.val (f n))) res = some m →
    ∃ σ', l.foldlM (fun (z : Mat K × St K) n => do
      let (v, σ) ← scalEval j (f n) z.2
      let m ← z.1.rawPut? n v
      some (m, σ)) (res, σ) = some (m, σ') ∧ Inv σ' := by
  induction l with
  | nil =>
      intro res m σ hi h
      simp only [List.foldlM_nil, Option.pure_def, Option.some.injEq] at h
      subst h
      exact ⟨σ, rfl, hi⟩
  | cons n l ih =>
      intro res m σ hi h
      simp only [List.foldlM_cons, Option.bind_eq_bind, Option.bind_eq_some_iff] at h
      obtain ⟨r1, h1, h2⟩ := h
      obtain ⟨σ1, e1, i1⟩ := hl n (by simp) σ hi
      obtain ⟨σ2, e2, i2⟩ := ih (fun k hk => hl k (by simp [hk])) r1 m σ1 i1 h2
      refine ⟨σ2, ?_, i2⟩
      simp only [List.foldlM_cons, Option.bind_eq_bind, e1, h1, Option.bind_some]
      simpa using e2

theorem div_mod_lt {n r c : ℕ} (h : n < r * c) : n / c < r ∧ n % c < c := by
  have hc : 0 < c := by rcases Nat.eq_zero_or_pos c with rfl | h'; · simp at h
                        · exact h'
  exact ⟨by rw [Nat.div_lt_iff_lt_mul hc]; exact h, Nat.mod_lt _ hc⟩

theorem leafEvalJ_sim (hT : Truth j D sc) (hE : ElemsOk j D S H) {o : ℕ} (ho : o ∈ S) (hk : ¬ j.E.isForm o)
    {v : MObj K} {m : Mat K} (h : leafEval (j.at sc) o v = some m) (hi : Inv σ) :
    ∃ σ', leafEvalJ j o v σ = some (m, σ') ∧ Inv σ' := by
  simp only [leafEval, Option.bind_eq_some_iff] at h
  obtain ⟨r, h1, h2⟩ := h
  change Mat.pool v.result (j.E.rows o) (j.E.cols o) = some r at h1
  simp only [leafEvalJ, h1, Option.bind_some]
  by_cases hv : v.evald = true
  · rw [if_pos hv] at h2 ⊢
    simp only [Option.some.injEq] at h2
    subst h2
    exact ⟨σ, rfl, hi⟩
  · rw [if_neg hv] at h2 ⊢
    exact fillEvalJ_list (fun n => j.E.el o (n / j.E.cols o) (n % j.E.cols o)) _
      (fun n hn σ hi => by
        have := div_mod_lt (List.mem_range.1 hn)
        exact scalEval_elem hT hE ho hk this.1 this.2 hi) r m σ hi h2

/-- `f` does on states what `fJ` does on states with a heap. -/
def SimAt (P : Prim K) (D : Defs K) (U0 H : ℕ → Prop) (f : MSt K → Option (MSt K × Mat K))
    (fJ : JSt K → Option (JSt K × Mat K)) : Prop :=
  ∀ s s' m σ, f s = some (s', m) → HeapInv P D U0 H σ → ∃ σ', fJ (s, σ) = some ((s', σ'), m) ∧ HeapInv P D U0 H σ'

local notation "Sim" => SimAt j.P D U0 H

theorem MBin.eval_indep (j : JCtx K) (sc sc' : Scal K) (op : MBin) (L R : Mat K) (a : Slots K) :
    op.eval (j.at sc) L R a = op.eval (j.at sc') L R a := by cases op <;> rfl

theorem opEvalJ_sim (hT : Truth j D sc) (hh : ∀ y, H y → y < D.size ∧ D.items y ≠ [] ∧ WellDefined D y)
    {n : ℕ} {op : MUn K} {x : MNode K} (hs : ∀ s ∈ (MNode.un n op x).scals, ∃ y, j.h s = .obj y ∧ H y) (hi : Inv σ)
    (R : Mat K) (a : Slots K) :
    ∃ v σ', opEvalJ j op σ = some (v, σ') ∧ Inv σ' ∧
      op.eval (j.at ⟨fun _ => v, fun _ _ => 0⟩) R a = op.eval (j.at sc) R a := by
  cases op with
  | saddE s =>
      obtain ⟨y, h1, h2⟩ := hs s (by simp [MNode.scals])
      obtain ⟨σ', e, i'⟩ := scalEval_expr hT hh h1 h2 hi
      exact ⟨_, σ', e, i', rfl⟩
  | smulE s =>
      obtain ⟨y, h1, h2⟩ := hs s (by simp [MNode.scals])
      obtain ⟨σ', e, i'⟩ := scalEval_expr hT hh h1 h2 hi
      exact ⟨_, σ', e, i', rfl⟩
  | sadd c => exact ⟨0, σ, rfl, hi, rfl⟩
  | smul c => exact ⟨0, σ, rfl, hi, rfl⟩
  | tr => exact ⟨0, σ, rfl, hi, rfl⟩
  | map f df => exact ⟨0, σ, rfl, hi, rfl⟩
  | inv => exact ⟨0, σ, rfl, hi, rfl⟩
  | det => exact ⟨0, σ, rfl, hi, rfl⟩

theorem MNode.scals_un (n : ℕ) (op : MUn K) (x : MNode K) {s : ℕ} (h : s ∈ x.scals) :
    s ∈ (MNode.un n op x).scals := by cases op <;> simp [MNode.scals, h]

theorem evalJ_sim (hT : Truth j D sc) (hh : ∀ y, H y → y < D.size ∧ D.items y ≠ [] ∧ WellDefined D y)
    {ev : ℕ → MSt K → Option (MSt K × Mat K)} {evJ : ℕ → JSt K → Option (JSt K × Mat K)} :
    ∀ e : MNode K, (∀ o ∈ e.objs, Sim (ev o) (evJ o)) → (∀ s ∈ e.scals, ∃ y, j.h s = .obj y ∧ H y) →
      Sim (evalE (j.at sc) ev e) (evalJ j evJ e) := by
  intro e
  induction e with
  | obj o => intro ho _; exact ho o (by simp [MNode.objs])
  | bin n op x y ihx ihy =>
      intro ho hs s s' m σ h hi
      simp only [evalE] at h
      split at h
      · next hd =>
        simp only [Option.bind_eq_bind, Option.bind_eq_some_iff, Prod.exists, Option.some.injEq,
          Prod.mk.injEq] at h
        obtain ⟨s1, L, h1, s2, R, h2, a, m', h3, rfl, rfl⟩ := h
        obtain ⟨σ1, e1, i1⟩ := ihx (fun o h => ho o (by simp [MNode.objs, h])) (fun s h => hs s (by simp [MNode.scals, h]))
          s s1 L σ h1 hi
        obtain ⟨σ2, e2, i2⟩ := ihy (fun o h => ho o (by simp [MNode.objs, h])) (fun s h => hs s (by simp [MNode.scals, h]))
          s1 s2 R σ1 h2 i1
        refine ⟨σ2, ?_, i2⟩
        rw [MBin.eval_indep j sc ⟨fun _ => 0, fun _ _ => 0⟩] at h3
        change op.dimOk (x.dims j.E) (y.dims j.E) = true at hd
        simp only [evalJ, hd, if_true, Option.bind_eq_bind, e1, e2, h3, Option.bind_some]
      · exact absurd h (by simp)
  | un n op x ihx =>
      intro ho hs s s' m σ h hi
      simp only [evalE] at h
      split at h
      · next hd =>
        simp only [Option.bind_eq_bind, Option.bind_eq_some_iff, Prod.exists, Option.some.injEq,
          Prod.mk.injEq] at h
        obtain ⟨s1, R, h1, a, m', h3, rfl, rfl⟩ := h
        obtain ⟨σ1, e1, i1⟩ := ihx ho (fun s h => hs s (MNode.scals_un n op x h)) s s1 R σ h1 hi
        obtain ⟨v, σ2, e2, i2, h4⟩ := opEvalJ_sim hT hh hs i1 R (s1.slot n)
        refine ⟨σ2, ?_, i2⟩
        rw [← h4] at h3
        change op.dimOk (x.dims j.E) = true at hd
        simp only [evalJ, hd, if_true, Option.bind_eq_bind, e1, e2, h3, Option.bind_some]
      · exact absurd h (by simp)

theorem item_scals (n : ℕ) (e : MNode K) (eye : ℕ) : (MEnv.item n e eye).scals = e.scals := by
  simp [MEnv.item, MNode.scals]

theorem mevalJ_sim (hT : Truth j D sc) (hE : ElemsOk j D S H) (hS : Closed j.E S) :
    ∀ f o, o ∈ S → Sim (mevalO (j.at sc) f o) (mevalJ j f o) := by
  intro f
  induction f with
  | zero => intro o _ s s' m σ h; simp [mevalO] at h
  | succ f ih =>
      intro o ho s s' m σ h hi
      by_cases hk : j.E.isForm o
      · obtain ⟨n, e, eye, hk⟩ := hk
        have hk' : (j.at sc).E.kind o = .form n e eye := hk
        simp only [mevalO, hk'] at h
        simp only [mevalJ, hk]
        split at h
        · next hv =>
          rw [if_pos hv]
          simp only [Option.map_eq_some_iff, Prod.mk.injEq] at h ⊢
          obtain ⟨a, ha, rfl, rfl⟩ := h
          exact ⟨σ, ⟨a, ha, ⟨rfl, rfl⟩, rfl⟩, hi⟩
        · next hv =>
          rw [if_neg hv]
          simp only [Option.bind_eq_bind, Option.bind_eq_some_iff, Prod.exists, Option.some.injEq,
            Prod.mk.injEq] at h
          obtain ⟨s1, m1, h1, rfl, rfl⟩ := h
          obtain ⟨σ1, e1, i1⟩ := evalJ_sim hT hE.handle (MEnv.item n e eye)
            (fun p hp => ih p (hS o ho n e eye hk p hp))
            (by rw [item_scals]; exact hE.ops o ho n e eye hk) _ _ _ σ h1 hi
          refine ⟨σ1, ?_, i1⟩
          simp only [Option.bind_eq_bind, e1, Option.bind_some]
      · have h' : ∃ r, leafEval (j.at sc) o (s.obj o) = some r ∧
            s' = s.setO o { s.obj o with result := some r, evald := true, visited := true } ∧ m = r := by
          unfold mevalO at h
          split at h
          · next n e eye he => exact absurd ⟨n, e, eye, he⟩ hk
          · simp only [Option.bind_eq_bind, Option.bind_eq_some_iff, Option.some.injEq, Prod.mk.injEq] at h
            obtain ⟨r, h1, rfl, rfl⟩ := h
            exact ⟨r, h1, rfl, rfl⟩
        obtain ⟨r, h1, rfl, rfl⟩ := h'
        obtain ⟨σ1, e1, i1⟩ := leafEvalJ_sim hT hE ho hk h1 hi
        refine ⟨σ1, ?_, i1⟩
        unfold mevalJ
        split
        · next n e eye he => exact absurd ⟨n, e, eye, he⟩ hk
        · simp only [Option.bind_eq_bind, e1, Option.bind_some]

/-! ## Forward mode -/

theorem MBin.fwd_indep (j : JCtx K) (sc sc' : Scal K) (xr xc : ℕ) (op : MBin) (L R dL dR : Mat K) (a : Slots K) :
    op.fwd (j.at sc) xr xc L R dL dR a = op.fwd (j.at sc') xr xc L R dL dR a := by cases op <;> rfl

theorem forEach_congr {ι : Type} {l : List ι} {f g : ι → Mat K → Option (Mat K)} (h : ∀ a ∈ l, f a = g a)
    (m : Mat K) : forEach l f m = forEach l g m := by
  induction l generalizing m with
  | nil => rfl
  | cons a l ih =>
      simp only [forEach, List.foldlM_cons] at ih ⊢
      rw [h a (by simp)]
      cases g a m with
      | none => rfl
      | some r => exact ih (fun b hb => h b (by simp [hb])) r

theorem scalDer_congr (j : JCtx K) {sc sc' : Scal K} {X s : ℕ}
    (h : ∀ r c, r < j.E.rows X → c < j.E.cols X →
      sc.der s (j.E.vid (j.E.el X r c)) = sc'.der s (j.E.vid (j.E.el X r c))) :
    scalDer (j.at sc) X s = scalDer (j.at sc') X s := by
  funext result
  simp only [scalDer, JCtx.at]
  congr 1
  funext res
  refine forEach_congr (fun n hn => ?_) res
  have := div_mod_lt (List.mem_range.1 hn)
  funext m
  rw [h _ _ this.1 this.2]

theorem fillDerExp_congr (j : JCtx K) {sc sc' : Scal K} {X o : ℕ}
    (h : ∀ l k, l < j.E.rows o → k < j.E.cols o → ∀ r c, r < j.E.rows X → c < j.E.cols X →
      sc.der (j.E.el o l k) (j.E.vid (j.E.el X r c)) = sc'.der (j.E.el o l k) (j.E.vid (j.E.el X r c)))
    (res : Mat K) : fillDerExp (j.at sc) X o res = fillDerExp (j.at sc') X o res := by
  simp only [fillDerExp, JCtx.at]
  refine forEach_congr (fun p hp => ?_) res
  rw [Sched.mem, mem_pairs] at hp
  funext m
  have h1 := div_mod_lt hp.1
  have h2 := div_mod_lt hp.2
  have e1 : (p.1 - p.1 % j.E.cols o) / j.E.cols o = p.1 / j.E.cols o := by
    exact (Nat.div_eq_sub_mod_div).symm
  have e2 : (p.2 - p.2 % j.E.cols X) / j.E.cols X = p.2 / j.E.cols X := by
    exact (Nat.div_eq_sub_mod_div).symm
  simp only [e1, e2]
  rw [h _ _ h1.1 h1.2 _ _ h2.1 h2.2]

/-- `PreComp` of a handle, then `DevalR`. -/
theorem scalPreComp_sim (hh : ∀ y, H y → y < D.size ∧ D.items y ≠ [] ∧ WellDefined D y) {s y : ℕ}
    (hs : j.h s = .obj y) (hy : H y) (hi : Inv σ) :
    ∃ σ', scalPreComp j s σ = some σ' ∧ Inv σ' ∧ Cur (GoodR j.P) σ' y ∧
      ∀ q, Cur (GoodR j.P) σ q → Cur (GoodR j.P) σ' q := by
  obtain ⟨h1, h2, h3⟩ := hh y hy
  obtain ⟨σ', e, a, b, c⟩ := hi.preComp hy h1 h3
  exact ⟨σ', by rw [scalPreComp, hs]; exact e, a, b, c⟩

theorem scalDevalR_eq (hT : Truth j D sc) (hh : ∀ y, H y → y < D.size ∧ D.items y ≠ [] ∧ WellDefined D y)
    {s y t : ℕ} (hs : j.h s = .obj y) (hy : H y) (hi : Inv σ) (hc : Cur (GoodR j.P) σ y) (ht : VarEl j D t) :
    scalDevalR j σ s (j.E.vid t) = sc.der s (j.E.vid t) := by
  obtain ⟨h1, h2, h3⟩ := hh y hy
  obtain ⟨x, -, ⟨xl, x0, xv⟩, e⟩ := ht
  rw [scalDevalR, hs, e]
  exact hi.devalR h1 h2 h3 hc xl x0 xv (hT.der s y hs h3 x xl xv)

theorem preComps_sim (hh : ∀ y, H y → y < D.size ∧ D.items y ≠ [] ∧ WellDefined D y) (f : ℕ → ℕ) (l : List ℕ)
    (hl : ∀ n ∈ l, ∃ y, j.h (f n) = .obj y ∧ H y) : ∀ σ : St K, Inv σ →
    ∃ σ', l.foldlM (fun σ n => scalPreComp j (f n) σ) σ = some σ' ∧ Inv σ' ∧
      (∀ n ∈ l, ∀ y, j.h (f n) = .obj y → Cur (GoodR j.P) σ' y) ∧
      ∀ q, Cur (GoodR j.P) σ q → Cur (GoodR j.P) σ' q := by
  induction l with
  | nil => intro σ hi; exact ⟨σ, rfl, hi, by simp, fun _ h => h⟩
  | cons n l ih =>
      intro σ hi
      obtain ⟨y, h1, h2⟩ := hl n (by simp)
      obtain ⟨σ1, e1, i1, c1, k1⟩ := scalPreComp_sim hh h1 h2 hi
      obtain ⟨σ2, e2, i2, c2, k2⟩ := ih (fun k hk => hl k (by simp [hk])) σ1 i1
      refine ⟨σ2, ?_, i2, ?_, fun q hq => k2 q (k1 q hq)⟩
      · simp only [List.foldlM_cons, Option.bind_eq_bind, e1, Option.bind_some]
        exact e2
      · intro m hm z hz
        rcases List.mem_cons.1 hm with rfl | hm
        · rw [h1] at hz; cases hz; exact k2 y c1
        · exact c2 m hm z hz

variable {X : ℕ}

theorem leafFwdJ_sim (hT : Truth j D sc) (hE : ElemsOk j D S H)
    (hX : ∀ r c, r < j.E.rows X → c < j.E.cols X → VarEl j D (j.E.el X r c)) {o : ℕ} (ho : o ∈ S)
    {v : MObj K} {m : Mat K} (h : leafFwd (j.at sc) X o v = some m) (hi : Inv σ) :
    ∃ σ', leafFwdJ j X o v σ = some (m, σ') ∧ Inv σ' := by
  simp only [leafFwd, Option.bind_eq_some_iff] at h
  obtain ⟨r, h1, h2⟩ := h
  change Mat.pool v.dresult (j.E.rows o * j.E.rows X) (j.E.cols o * j.E.cols X) = some r at h1
  simp only [leafFwdJ, h1, Option.bind_some]
  by_cases hv : v.devald = true
  · rw [if_pos hv] at h2 ⊢
    simp only [Option.some.injEq] at h2
    subst h2
    exact ⟨σ, rfl, hi⟩
  · rw [if_neg hv] at h2 ⊢
    cases hk : j.E.kind o with
    | exp =>
        have hk' : (j.at sc).E.kind o = .exp := hk
        simp only [fillDer, hk'] at h2
        obtain ⟨σ1, e1, i1, c1, -⟩ := preComps_sim hE.handle
          (fun n => j.E.el o (n / j.E.cols o) (n % j.E.cols o)) (List.range (j.E.rows o * j.E.cols o))
          (fun n hn => by
            have := div_mod_lt (List.mem_range.1 hn)
            exact hE.exp o ho hk _ _ this.1 this.2) σ hi
        refine ⟨σ1, ?_, i1⟩
        rw [fillDerExp_congr j (sc' := ⟨fun _ => 0, scalDevalR j σ1⟩)] at h2
        · simp only [fillDerJ, hk, Option.bind_eq_bind, e1, Option.bind_some, h2]
        · intro l k hl hk' r c hr hc
          obtain ⟨y, hy1, hy2⟩ := hE.exp o ho hk l k hl hk'
          have hn : l * j.E.cols o + k < j.E.rows o * j.E.cols o := by
            calc l * j.E.cols o + k < l * j.E.cols o + j.E.cols o := by omega
              _ = (l + 1) * j.E.cols o := by ring
              _ ≤ j.E.rows o * j.E.cols o := Nat.mul_le_mul_right _ hl
          have hcur : Cur (GoodR j.P) σ1 y := by
            refine c1 (l * j.E.cols o + k) (List.mem_range.2 hn) y ?_
            have e1 : (l * j.E.cols o + k) / j.E.cols o = l := by
              rw [Nat.mul_comm, Nat.mul_add_div (by omega), Nat.div_eq_of_lt hk', Nat.add_zero]
            have e2 : (l * j.E.cols o + k) % j.E.cols o = k := by
              rw [Nat.mul_comm, Nat.mul_add_mod, Nat.mod_eq_of_lt hk']
            simp only [e1, e2, hy1]
          exact (scalDevalR_eq hT hE.handle hy1 hy2 i1 hcur (hX r c hr hc)).symm
    | num => exact ⟨σ, by simp only [fillDerJ, hk]; simp only [fillDer, JCtx.at, hk] at h2 ⊢; simp [h2], hi⟩
    | par => exact ⟨σ, by simp only [fillDerJ, hk]; simp only [fillDer, JCtx.at, hk] at h2 ⊢; simp [h2], hi⟩
    | var =>
        refine ⟨σ, ?_, hi⟩
        have : fillDer (j.at ⟨fun _ => 0, fun _ _ => 0⟩) X o r = fillDer (j.at sc) X o r := by
          simp only [fillDer, JCtx.at, hk]; rfl
        simp only [fillDerJ, hk, this, h2, Option.map_some]
    | form n e eye =>
        exact ⟨σ, by simp only [fillDerJ, hk]; simp only [fillDer, JCtx.at, hk] at h2 ⊢; simp [h2], hi⟩

theorem opFwdJ_sim (hT : Truth j D sc) (hh : ∀ y, H y → y < D.size ∧ D.items y ≠ [] ∧ WellDefined D y)
    (hX : ∀ r c, r < j.E.rows X → c < j.E.cols X → VarEl j D (j.E.el X r c))
    {n : ℕ} {op : MUn K} {x : MNode K} (hs : ∀ s ∈ (MNode.un n op x).scals, ∃ y, j.h s = .obj y ∧ H y) (hi : Inv σ)
    (rf cf : ℕ) (R dR : Mat K) (a : Slots K) :
    ∃ sc' σ', opFwdJ j op σ = some (sc', σ') ∧ Inv σ' ∧
      op.fwd (j.at sc') X rf cf R dR a = op.fwd (j.at sc) X rf cf R dR a := by
  cases op with
  | saddE s =>
      obtain ⟨y, h1, h2⟩ := hs s (by simp [MNode.scals])
      obtain ⟨σ', e, i', c', -⟩ := scalPreComp_sim hh h1 h2 hi
      refine ⟨_, σ', by simp only [opFwdJ, Option.bind_eq_bind, e, Option.bind_some]; rfl, i', ?_⟩
      have : scalDer (j.at ⟨fun _ => 0, scalDevalR j σ'⟩) X s = scalDer (j.at sc) X s :=
        scalDer_congr j fun r c hr hc => scalDevalR_eq hT hh h1 h2 i' c' (hX r c hr hc)
      simp only [MUn.fwd, this]
      rfl
  | smulE s =>
      obtain ⟨y, h1, h2⟩ := hs s (by simp [MNode.scals])
      obtain ⟨σ', e, i', c', -⟩ := scalPreComp_sim hh h1 h2 hi
      obtain ⟨σ'', e2, i2⟩ := scalEval_expr hT hh h1 h2 i'
      refine ⟨_, σ'', by simp only [opFwdJ, Option.bind_eq_bind, e, e2, Option.bind_some]; rfl, i2, ?_⟩
      have : scalDer (j.at ⟨fun _ => sc.val s, scalDevalR j σ'⟩) X s = scalDer (j.at sc) X s :=
        scalDer_congr j fun r c hr hc => scalDevalR_eq hT hh h1 h2 i' c' (hX r c hr hc)
      simp only [MUn.fwd, this]
      rfl
  | sadd c => exact ⟨_, σ, rfl, hi, rfl⟩
  | smul c => exact ⟨_, σ, rfl, hi, rfl⟩
  | tr => exact ⟨_, σ, rfl, hi, rfl⟩
  | map f df => exact ⟨_, σ, rfl, hi, rfl⟩
  | inv => exact ⟨_, σ, rfl, hi, rfl⟩
  | det => exact ⟨_, σ, rfl, hi, rfl⟩

theorem fwdJ_sim (hT : Truth j D sc) (hh : ∀ y, H y → y < D.size ∧ D.items y ≠ [] ∧ WellDefined D y)
    (hX : ∀ r c, r < j.E.rows X → c < j.E.cols X → VarEl j D (j.E.el X r c))
    {ev fw : ℕ → MSt K → Option (MSt K × Mat K)} {evJ fwJ : ℕ → JSt K → Option (JSt K × Mat K)} :
    ∀ e : MNode K, (∀ o ∈ e.objs, Sim (ev o) (evJ o)) → (∀ o ∈ e.objs, Sim (fw o) (fwJ o)) →
      (∀ s ∈ e.scals, ∃ y, j.h s = .obj y ∧ H y) →
      Sim (fwdE (j.at sc) X ev fw e) (fwdJ j X evJ fwJ e) := by
  intro e
  induction e with
  | obj o => intro _ ho _; exact ho o (by simp [MNode.objs])
  | bin n op x y ihx ihy =>
      intro he hf hs s s' m σ h hi
      have hex : ∀ o ∈ x.objs, Sim (ev o) (evJ o) := fun o h => he o (by simp [MNode.objs, h])
      have hey : ∀ o ∈ y.objs, Sim (ev o) (evJ o) := fun o h => he o (by simp [MNode.objs, h])
      have hsx : ∀ s ∈ x.scals, ∃ y, j.h s = .obj y ∧ H y := fun s h => hs s (by simp [MNode.scals, h])
      have hsy : ∀ s ∈ y.scals, ∃ y, j.h s = .obj y ∧ H y := fun s h => hs s (by simp [MNode.scals, h])
      simp only [fwdE] at h
      split at h
      · next hd =>
        change op.dimOk (x.dims j.E) (y.dims j.E) = true at hd
        simp only [Option.bind_eq_bind, Option.bind_eq_some_iff, Prod.exists] at h
        obtain ⟨s1, dL, h1, s2, dR, h2, h⟩ := h
        obtain ⟨σ1, e1, i1⟩ := ihx hex (fun o h => hf o (by simp [MNode.objs, h])) hsx s s1 dL σ h1 hi
        obtain ⟨σ2, e2, i2⟩ := ihy hey (fun o h => hf o (by simp [MNode.objs, h])) hsy s1 s2 dR σ1 h2 i1
        split at h
        · next ho =>
          simp only [Option.bind_eq_some_iff, Prod.exists, Option.some.injEq, Prod.mk.injEq] at h
          obtain ⟨s3, L, h3, s4, R, h4, a, m', h5, rfl, rfl⟩ := h
          obtain ⟨σ3, e3, i3⟩ := evalJ_sim hT hh x hex hsx s2 s3 L σ2 h3 i2
          obtain ⟨σ4, e4, i4⟩ := evalJ_sim hT hh y hey hsy s3 s4 R σ3 h4 i3
          refine ⟨σ4, ?_, i4⟩
          rw [MBin.fwd_indep j sc ⟨fun _ => 0, fun _ _ => 0⟩] at h5
          change op.fwd _ (j.E.rows X) (j.E.cols X) _ _ _ _ _ = _ at h5
          simp only [fwdJ, hd, if_true, Option.bind_eq_bind, e1, e2, ho, e3, e4, h5, Option.bind_some]
        · next ho =>
          simp only [Option.bind_eq_some_iff, Prod.exists, Option.some.injEq, Prod.mk.injEq] at h
          obtain ⟨a, m', h5, rfl, rfl⟩ := h
          refine ⟨σ2, ?_, i2⟩
          rw [MBin.fwd_indep j sc ⟨fun _ => 0, fun _ _ => 0⟩] at h5
          change op.fwd _ (j.E.rows X) (j.E.cols X) _ _ _ _ _ = _ at h5
          simp only [fwdJ, hd, if_true, Option.bind_eq_bind, e1, e2, ho, h5, Option.bind_some]
          rfl
      · exact absurd h (by simp)
  | un n op x ihx =>
      intro he hf hs s s' m σ h hi
      have hsx : ∀ s ∈ x.scals, ∃ y, j.h s = .obj y ∧ H y := fun s h => hs s (MNode.scals_un n op x h)
      simp only [fwdE] at h
      split at h
      · next hd =>
        change op.dimOk (x.dims j.E) = true at hd
        simp only [Option.bind_eq_bind, Option.bind_eq_some_iff, Prod.exists] at h
        obtain ⟨s1, dR, h1, h⟩ := h
        obtain ⟨σ1, e1, i1⟩ := ihx he hf hsx s s1 dR σ h1 hi
        split at h
        · next ho =>
          simp only [Option.bind_eq_some_iff, Prod.exists, Option.some.injEq, Prod.mk.injEq] at h
          obtain ⟨s2, R, h2, a, m', h5, rfl, rfl⟩ := h
          obtain ⟨σ2, e2, i2⟩ := evalJ_sim hT hh x he hsx s1 s2 R σ1 h2 i1
          obtain ⟨sc', σ3, e3, i3, h4⟩ := opFwdJ_sim hT hh hX hs i2 (x.dims j.E).1 (x.dims j.E).2 R dR (s2.slot n)
          refine ⟨σ3, ?_, i3⟩
          change op.fwd (j.at sc) X (x.dims j.E).1 (x.dims j.E).2 _ _ _ = _ at h5
          rw [← h4] at h5
          simp only [fwdJ, hd, if_true, Option.bind_eq_bind, e1, ho, e2, e3, h5, Option.bind_some]
        · next ho =>
          simp only [Option.bind_eq_some_iff, Prod.exists, Option.some.injEq, Prod.mk.injEq] at h
          obtain ⟨a, m', h5, rfl, rfl⟩ := h
          obtain ⟨sc', σ3, e3, i3, h4⟩ := opFwdJ_sim hT hh hX hs i1 (x.dims j.E).1 (x.dims j.E).2 dR dR (s1.slot n)
          refine ⟨σ3, ?_, i3⟩
          change op.fwd (j.at sc) X (x.dims j.E).1 (x.dims j.E).2 _ _ _ = _ at h5
          rw [← h4] at h5
          simp only [fwdJ, hd, if_true, Option.bind_eq_bind, e1, ho, e3, h5, Option.bind_some]
          rfl
      · exact absurd h (by simp)

theorem mfwdJ_sim (hT : Truth j D sc) (hE : ElemsOk j D S H) (hS : Closed j.E S)
    (hX : ∀ r c, r < j.E.rows X → c < j.E.cols X → VarEl j D (j.E.el X r c)) :
    ∀ f o, o ∈ S → Sim (mfwdO (j.at sc) X f o) (mfwdJ j X f o) := by
  intro f
  induction f with
  | zero => intro o _ s s' m σ h; simp [mfwdO] at h
  | succ f ih =>
      intro o ho s s' m σ h hi
      by_cases hk : j.E.isForm o
      · obtain ⟨n, e, eye, hk⟩ := hk
        have hk' : (j.at sc).E.kind o = .form n e eye := hk
        have hev : ∀ p ∈ (MEnv.item n e eye).objs, Sim (mevalO (j.at sc) f p) (mevalJ j f p) :=
          fun p hp => mevalJ_sim hT hE hS f p (hS o ho n e eye hk p hp)
        have hsc : ∀ s ∈ (MEnv.item n e eye).scals, ∃ y, j.h s = .obj y ∧ H y := by
          rw [item_scals]; exact hE.ops o ho n e eye hk
        simp only [mfwdO, hk'] at h
        simp only [mfwdJ, hk]
        split at h
        · next hv =>
          rw [if_pos hv]
          simp only [Option.map_eq_some_iff, Prod.mk.injEq] at h ⊢
          obtain ⟨a, ha, rfl, rfl⟩ := h
          exact ⟨σ, ⟨a, ha, ⟨rfl, rfl⟩, rfl⟩, hi⟩
        · next hv =>
          rw [if_neg hv]
          simp only [Option.bind_eq_bind, Option.bind_eq_some_iff, Prod.exists, Option.some.injEq,
            Prod.mk.injEq] at h
          obtain ⟨s1, d, h1, s2, m2, h2, rfl, rfl⟩ := h
          obtain ⟨σ1, e1, i1⟩ := fwdJ_sim hT hE.handle hX (MEnv.item n e eye) hev
            (fun p hp => ih p (hS o ho n e eye hk p hp)) hsc _ _ _ σ h1 hi
          obtain ⟨σ2, e2, i2⟩ := evalJ_sim hT hE.handle (MEnv.item n e eye) hev hsc _ _ _ σ1 h2 i1
          refine ⟨σ2, ?_, i2⟩
          simp only [Option.bind_eq_bind, e1, e2, Option.bind_some]
      · have h' : ∃ r, leafFwd (j.at sc) X o (s.obj o) = some r ∧
            s' = s.setO o { s.obj o with dresult := some r, devald := true, visited := true } ∧ m = r := by
          unfold mfwdO at h
          split at h
          · next n e eye he => exact absurd ⟨n, e, eye, he⟩ hk
          · simp only [Option.bind_eq_bind, Option.bind_eq_some_iff, Option.some.injEq, Prod.mk.injEq] at h
            obtain ⟨r, h1, rfl, rfl⟩ := h
            exact ⟨r, h1, rfl, rfl⟩
        obtain ⟨r, h1, rfl, rfl⟩ := h'
        obtain ⟨σ1, e1, i1⟩ := leafFwdJ_sim hT hE hX ho h1 hi
        refine ⟨σ1, ?_, i1⟩
        unfold mfwdJ
        split
        · next n e eye he => exact absurd ⟨n, e, eye, he⟩ hk
        · simp only [Option.bind_eq_bind, e1, Option.bind_some]

/-! ## Queries -/

theorem matEvalJ_sim (hT : Truth j D sc) (hE : ElemsOk j D S H) (hS : Closed j.E S) {f o : ℕ} (ho : o ∈ S) :
    Sim (matEval (j.at sc) f (.obj o)) (matEvalJ j f (.obj o)) := by
  intro s s' m σ h hi
  simp only [matEval, Option.bind_eq_bind, Option.bind_eq_some_iff] at h
  obtain ⟨s1, h1, h2⟩ := h
  obtain ⟨σ', e', i'⟩ := evalJ_sim hT hE.handle (.obj o) (fun p hp => by
    simp only [MNode.objs, List.mem_singleton] at hp; subst hp
    exact mevalJ_sim hT hE hS f p ho) (by simp [MNode.scals]) _ _ _ σ h2 hi
  refine ⟨σ', ?_, i'⟩
  have h1' : mresetE (mresetO j.E f) (.obj o) s = some s1 := h1
  simp only [matEvalJ, Option.bind_eq_bind, h1', Option.bind_some, e']

theorem matDevalFJ_sim (hT : Truth j D sc) (hE : ElemsOk j D S H) (hS : Closed j.E S)
    (hX : ∀ r c, r < j.E.rows X → c < j.E.cols X → VarEl j D (j.E.el X r c)) {f o : ℕ} (ho : o ∈ S) :
    Sim (matDevalF (j.at sc) f X (.obj o)) (matDevalFJ j f X (.obj o)) := by
  intro s s' m σ h hi
  simp only [matDevalF, Option.bind_eq_bind, Option.bind_eq_some_iff] at h
  obtain ⟨s1, h1, h2⟩ := h
  obtain ⟨σ', e', i'⟩ := fwdJ_sim hT hE.handle hX (.obj o) (fun p hp => by
      simp only [MNode.objs, List.mem_singleton] at hp; subst hp
      exact mevalJ_sim hT hE hS f p ho) (fun p hp => by
      simp only [MNode.objs, List.mem_singleton] at hp; subst hp
      exact mfwdJ_sim hT hE hS hX f p ho) (by simp [MNode.scals]) _ _ _ σ h2 hi
  refine ⟨σ', ?_, i'⟩
  have h1' : mresetE (mresetO j.E f) (.obj o) s = some s1 := h1
  simp only [matDevalFJ, Option.bind_eq_bind, h1', Option.bind_some, e']

end

end CoolDiff
