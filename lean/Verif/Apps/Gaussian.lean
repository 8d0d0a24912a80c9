import Verif.Scalar.Formula
import Verif.Props.Phases

/-!
# example/Gaussian.cpp

The whole program over the reals: the function `Gaussian`, the queries of `main` and what it prints.
-/

set_option linter.unusedSectionVars false

namespace CoolDiff

/-- The right-hand side in `Gaussian` (example/Gaussian.cpp:29):
`(1 / sqrt(2 * PI * pow(sig, 2))) * exp(-pow((x - mu), 2) / (2 * pow(sig, 2)))`.  The parts without `x` are numbers of
C++ (std::sqrt, std::pow).  `pi` is the macro `PI`, line 24. -/
noncomputable def gaussExp (pi : ℝ) (x : ℕ) (mu sig : ℝ) : Exp ℝ :=
  .cMul (1 / √(2 * pi * sig ^ 2))
    (.fn .exp (.divC (.neg (.powC (.subC (.var x) mu) 2)) (2 * sig ^ 2)))

/-- `Expression& Gaussian(const Variable& x, Type mu, Type sig)` (example/Gaussian.cpp:27-31). -/
noncomputable def gaussFn (pi : ℝ) (x : ℕ) (mu sig : ℝ) (st : St ℝ) : ℕ × St ℝ :=
  let r := createExpr 0 st
  (r.1, define r.1 (gaussExp pi x mu sig) r.2)

/-- The declarations of `main` (example/Gaussian.cpp:34-36): the Variable, the Expression `gauss` (a copy of what
`Gaussian` returns, that is: a reference to it), and the heap. -/
noncomputable def gaussStart (pi x0 mu sig : ℝ) : ℕ × ℕ × SSt ℝ :=
  let s0 : SSt ℝ := SSt.init
  let x := newVar x0 s0.st
  let g := gaussFn pi x.1 mu sig x.2
  let y := newExprRef g.1 g.2
  (x.1, y.1, { s0 with st := y.2 })

/-- The queries of `main` on an Expression (example/Gaussian.cpp:39-45 and 51-57): `Eval`, `DevalF`, `PreComp`,
`DevalR`. -/
noncomputable def threeModes (y x : ℕ) (s : SSt ℝ) : Option (List ℝ × SSt ℝ) :=
  (EvalS realPrim y s).bind fun r =>
    (DevalFS realPrim y x r.2).bind fun r' =>
      (PreCompS realPrim y r'.2).map fun s => ([r.1, r'.1, DevalR y x s.st], s)

/-- `main` (example/Gaussian.cpp:33-60): what is printed.  `rf` is the order in which the compiler evaluates operands in
`SymDiff`. -/
noncomputable def gaussMain (rf : ℕ → Bool → List Bool → Bool) (pi x0 mu sig : ℝ) : Option (List ℝ) :=
  let r := gaussStart pi x0 mu sig
  (threeModes r.2.1 r.1 r.2.2).bind fun a =>
    (symDiff realPrim rf r.2.1 r.1 a.2).bind fun d =>
      (threeModes d.1 r.1 d.2).map fun b => a.1 ++ b.1

/-! ## Specification -/

/-- The density of the normal distribution, with `pi` for the circle constant. -/
noncomputable def normalDensity (pi mu sig t : ℝ) : ℝ :=
  1 / √(2 * pi * sig ^ 2) * Real.exp (-(t - mu) ^ 2 / (2 * sig ^ 2))

/-! ## Proof -/

/-- The session in which the queries start. -/
noncomputable def gaussSess (pi x0 mu sig : ℝ) : Sess ℝ :=
  ⟨(gaussStart pi x0 mu sig).2.2, fun q => False ∨ q = 2, {0, 1}⟩

theorem gaussStart_ids (pi x0 mu sig : ℝ) :
    (gaussStart pi x0 mu sig).1 = 2 ∧ (gaussStart pi x0 mu sig).2.1 = 4 ∧
    (gaussStart pi x0 mu sig).2.2.st.defs.size = 5 := ⟨rfl, rfl, rfl⟩

theorem gaussStart_items (pi x0 mu sig : ℝ) :
    (gaussStart pi x0 mu sig).2.2.st.defs.items 2 = [] ∧
    (gaussStart pi x0 mu sig).2.2.st.defs.items 4 = [.leaf 3] ∧
    ∃ n, (gaussStart pi x0 mu sig).2.2.st.defs.items 3 = [stored (gaussExp pi 2 mu sig) n] :=
  ⟨rfl, rfl, _, rfl⟩

theorem gaussStart_eq (pi x0 mu sig : ℝ) : (gaussStart pi x0 mu sig).2.2.st =
    assignRef 4 3 (newExpr (define 3 (gaussExp pi 2 mu sig) (define 3 (.par 0) (newExpr
      (newPar 0 (newVar x0 (SSt.init : SSt ℝ).st).2).2).2))).2 := by
  have h1 : createExpr 0 (newVar x0 (SSt.init : SSt ℝ).st).2 = (3, define 3 (.par 0) (newExpr
      (newPar 0 (newVar x0 (SSt.init : SSt ℝ).st).2).2).2) := by
    show newExprOf (.par 0) _ = _
    rw [newExprOf_eq (by simp [Node.leaves])]
    rfl
  show (newExprRef (gaussFn pi 2 mu sig (newVar x0 (SSt.init : SSt ℝ).st).2).1
    (gaussFn pi 2 mu sig (newVar x0 (SSt.init : SSt ℝ).st).2).2).2 = _
  have h2 : gaussFn pi 2 mu sig (newVar x0 (SSt.init : SSt ℝ).st).2 = (3, define 3 (gaussExp pi 2 mu sig)
      (define 3 (.par 0) (newExpr (newPar 0 (newVar x0 (SSt.init : SSt ℝ).st).2).2).2)) := by
    simp only [gaussFn, h1]
  rw [h2, newExprRef_eq (by show 3 < 4; omega)]
  rfl

theorem reach_stored {D : Defs ℝ} {o x n q : ℕ} {e : Exp ℝ} (ho : D.items o = [stored e n])
    (hl : e.leaves = [x]) (hx : D.items x = []) (h : Reach D o q) : q = o ∨ q = x := by
  induction h with
  | refl => simp
  | step _ hm hp ih =>
      rcases ih with rfl | rfl
      · rw [ho] at hm
        simp only [List.mem_singleton] at hm
        subst hm
        rw [stored_leaves, hl] at hp
        simp only [List.mem_singleton] at hp
        exact Or.inr hp
      · rw [hx] at hm; cases hm

theorem gaussSess_session (pi x0 mu sig : ℝ) : Session realPrim (gaussSess pi x0 mu sig) := by
  have e : gaussSess pi x0 mu sig = ⟨{ (SSt.init : SSt ℝ) with
      st := assignRef 4 3 (newExpr (define 3 (gaussExp pi 2 mu sig) (define 3 (.par 0) (newExpr
        (newPar 0 (newVar x0 (SSt.init : SSt ℝ).st).2).2).2))).2 }, fun q => False ∨ q = 2, {0, 1}⟩ := by
    rw [← gaussStart_eq]; rfl
  rw [e]
  refine .step (.step (.step (.step (.step (.step (.step .refl (.newVar x0)) (.newPar 0)) .newExpr)
    (.define 3 (.par 0) ?_ ?_ ?_ ?_ ?_ ?_)) (.define 3 (gaussExp pi 2 mu sig) ?_ ?_ ?_ ?_ ?_ ?_)) .newExpr)
    (.defineRef 4 3 ?_ ?_ ?_ ?_ ?_ ?_)
  · show 3 < 4; omega
  · show ¬ (3 = 0 ∨ 3 = 1); decide
  · show [Node.leaf 0] ≠ []; simp
  · simp [Exp.leaves]
  · intro p hp
    simp only [Exp.pars, List.mem_singleton] at hp
    subst hp
    show 0 < 1; omega
  · simp [Exp.leaves]
  · show 3 < 4; omega
  · show ¬ (3 = 0 ∨ 3 = 1); decide
  · show [_] ≠ []; simp
  · intro p hp
    simp only [gaussExp, Exp.leaves, List.mem_singleton] at hp
    subst hp
    show 2 < 4; omega
  · simp [gaussExp, Exp.pars]
  · intro p hp
    simp only [gaussExp, Exp.leaves, List.mem_singleton] at hp
    subst hp
    right
    intro hr
    have := Ex.reach_empty (p := 2) rfl hr
    omega
  · show 4 < 5; omega
  · show ¬ (4 = 0 ∨ 4 = 1); decide
  · show [Node.leaf 0] ≠ []; simp
  · show 3 < 5; omega
  · show [_] ≠ []; simp
  · intro hr
    have := reach_stored (e := gaussExp pi 2 mu sig) (o := 3) rfl rfl rfl hr
    omega

/-- The definitions of the program are those of its start, whatever was created since. -/
structure GaussDefs (pi mu sig : ℝ) (c : Sess ℝ) : Prop where
  i2 : c.s.st.defs.items 2 = []
  i4 : c.s.st.defs.items 4 = [.leaf 3]
  i3 : ∃ n, c.s.st.defs.items 3 = [stored (gaussExp pi 2 mu sig) n]

theorem GaussDefs.reach {pi mu sig : ℝ} {c : Sess ℝ} (h : GaussDefs pi mu sig c) {q : ℕ}
    (hq : Reach c.s.st.defs 4 q) : q = 4 ∨ q = 3 ∨ q = 2 := by
  obtain ⟨n, h3⟩ := h.i3
  induction hq with
  | refl => simp
  | step _ hm hp ih =>
      rcases ih with rfl | rfl | rfl
      · rw [h.i4] at hm
        simp only [List.mem_singleton] at hm
        subst hm
        simp only [Node.leaves, List.mem_singleton] at hp
        simp [hp]
      · rw [h3] at hm
        simp only [List.mem_singleton] at hm
        subst hm
        rw [stored_leaves] at hp
        simp only [gaussExp, Exp.leaves, List.mem_singleton] at hp
        simp [hp]
      · rw [h.i2] at hm; cases hm

theorem GaussDefs.value {pi mu sig : ℝ} {c : Sess ℝ} (h : GaussDefs pi mu sig c) :
    ValueOf realPrim c.s.st.defs 4 (normalDensity pi mu sig (c.s.st.defs.base 2)) := by
  obtain ⟨n, h3⟩ := h.i3
  set D := c.s.st.defs
  refine ⟨fun q => if q = 2 then D.base 2 else normalDensity pi mu sig (D.base 2), fun q hq => ?_, by simp⟩
  rcases h.reach hq with rfl | rfl | rfl
  · rw [h.i4]
    simp [seqVal, Node.val]
  · rw [h3]
    simp only [seqVal, stored_val]
    simp [gaussExp, Exp.val, normalDensity, Op1.sem, realPrim]
  · rw [h.i2]
    simp [seqVal]

theorem GaussDefs.only {pi mu sig : ℝ} {c : Sess ℝ} (h : GaussDefs pi mu sig c) : c.Only Op1.SymOkN 4 := by
  obtain ⟨n, h3⟩ := h.i3
  intro q hq i hi
  rcases h.reach hq with rfl | rfl | rfl
  · rw [h.i4] at hi
    simp only [List.mem_singleton] at hi
    subst hi
    trivial
  · rw [h3] at hi
    simp only [List.mem_singleton] at hi
    subst hi
    exact ⟨trivial, trivial, trivial, trivial, trivial, trivial, trivial, trivial⟩
  · rw [h.i2] at hi; cases hi

theorem GaussDefs.inDom {pi mu sig : ℝ} {c : Sess ℝ} (h : GaussDefs pi mu sig c) : c.InDom 1 4 := by
  obtain ⟨n, h3⟩ := h.i3
  intro ρ _ q hq
  rcases h.reach hq with rfl | rfl | rfl
  · rw [h.i4]; exact ⟨trivial, trivial⟩
  · rw [h3]
    refine ⟨?_, trivial⟩
    refine ⟨⟨⟨⟨⟨⟨⟨trivial, trivial⟩, ?_⟩, trivial⟩, trivial⟩, trivial⟩, trivial⟩, trivial⟩
    refine Or.inr ⟨⟨2, by norm_num⟩, Or.inr (by norm_num)⟩
  · rw [h.i2]; trivial

theorem set_set {K : Type} [Field K] [DecidableEq K] (c : Sess K) (x : ℕ) (t s : K) :
    (c.set x t).set x s = c.set x s := by
  simp [Sess.set, assignNum]

/-- If all differentiations are with respect to the same Variable, the iterated partial derivative is the iterated
derivative of the value as a function of that Variable. -/
theorem NthDerivative.iterated {y x n : ℕ} {c : Sess ℝ} {w : ℝ} {G : ℝ → ℝ} (hx : c.H x) (hc : SInv realPrim c)
    (hy : y < c.s.st.defs.size) (hG : ∀ t, ValueOf realPrim (c.set x t).s.st.defs y (G t))
    (h : NthDerivative y (List.replicate n x) c w) : w = iteratedDeriv n G (c.s.st.defs.base x) := by
  induction n generalizing c w with
  | zero =>
      have he : c.s.st.defs.items x = [] := by
        obtain ⟨ord, hf⟩ := hc
        exact (hf.good.d.user x hx).2
      have h1 := hG (c.s.st.defs.base x)
      have hself : (c.set x (c.s.st.defs.base x)).s.st.defs = c.s.st.defs := assignNum_self he
      rw [hself] at h1
      obtain ⟨ρ, a1, rfl⟩ := h
      obtain ⟨ρ', b1, b2⟩ := h1
      rw [iteratedDeriv_zero, ← b2]
      exact (Sess.wellDefined hc hy).solves_unique a1 b1 y .refl
  | succ n ih =>
      obtain ⟨F, h1, h2⟩ := h
      rw [iteratedDeriv_succ]
      have he : F =ᶠ[nhds (c.s.st.defs.base x)] iteratedDeriv n G := by
        filter_upwards [h1] with t ht
        have := ih (c := c.set x t) hx (Sess.set_inv hc hx t) hy (fun s => by rw [set_set]; exact hG s) ht
        rw [this]
        congr 1
        show Function.update c.s.st.defs.base x t x = t
        simp
      rw [← he.deriv_eq, h2.deriv]

/-- What the three modes print, in a state of a program that works on one Expression at a time. -/
theorem threeModes_spec {a : Sess ℝ} (ha : Session realPrim a) (hq : a.Quiet) {y : ℕ} (hy : y < a.s.st.defs.size)
    (hok : a.Only Op1.SymOkN y) {xs : List ℕ} {e : ℕ} {c : Sess ℝ} (h : Phase realPrim a y xs e c)
    (hd : c.InDom xs.length y) {x : ℕ} (hx : c.H x) (hxe : x ≠ e) :
    ∃ v w s', NthDerivative y xs c v ∧ NthDerivative y (x :: xs) c w ∧
      threeModes e x c.s = some ([v, w, w], s') ∧ s'.st.defs = c.s.st.defs ∧
      Phase realPrim a y xs e ⟨s', c.H, c.T⟩ := by
  have hi := h.inv ha.inv hq hy hok
  have hci := hi.inv ha.inv
  have hl := hi.lt
  obtain ⟨b, hch, hbc⟩ := hi.chain
  have hrev := revOK_of_user hci hl hx
  obtain ⟨ord, hf⟩ := id hci
  have hxl : x < c.s.st.defs.size := (hf.good.d.user x hx).1
  obtain ⟨ρ, hρ⟩ := (hf.wellDefined hl).exists_solves (P := realPrim)
  obtain ⟨δ, hδ⟩ := (hf.wellDefined hl).exists_tangent (P := realPrim) x ρ
  have hρ : Solves realPrim c.s.st.defs e ρ := hρ
  have hδ : Tangent realPrim c.s.st.defs e x ρ δ := hδ
  -- Eval
  obtain ⟨m₁, e1, -⟩ := hf.evalS hl hi.tidy.safe hρ
  have e1 : EvalS realPrim e c.s = some (ρ e, { c.s with st := ⟨c.s.st.defs, m₁⟩ }) := e1
  have h₁ := Phase.eval _ h e1
  have hi₁ := h₁.inv ha.inv hq hy hok
  -- DevalF
  obtain ⟨ord₁, hf₁⟩ := hi₁.inv ha.inv
  obtain ⟨m₂, e2, -⟩ := hf₁.devalFS (y := e) (x := x) hl hxl hi₁.tidy.safe hρ hδ
  have e2 : DevalFS realPrim e x { c.s with st := ⟨c.s.st.defs, m₁⟩ } =
    some (δ e, { c.s with st := ⟨c.s.st.defs, m₂⟩ }) := e2
  have h₂ := Phase.devalF x _ h₁ hxl e2
  have hi₂ := h₂.inv ha.inv hq hy hok
  -- PreComp, DevalR
  obtain ⟨ord₂, hf₂⟩ := hi₂.inv ha.inv
  obtain ⟨m₃, e3, -⟩ := hf₂.preCompS (y := e) hl hi₂.tidy.safe
  have e4 := hf₂.preCompS_key (y := e) (x := x) hl hxl hi₂.tidy.safe hrev hρ hδ e3
  have e3 : PreCompS realPrim e { c.s with st := ⟨c.s.st.defs, m₂⟩ } =
    some { c.s with st := ⟨c.s.st.defs, m₃⟩ } := e3
  rw [if_neg (Ne.symm hxe)] at e4
  have e4 : DevalR e x ⟨c.s.st.defs, m₃⟩ = δ e := e4
  have h₃ := Phase.preComp h₂ e3
  refine ⟨ρ e, δ e, { c.s with st := ⟨c.s.st.defs, m₃⟩ }, hch.nth ha.inv hbc (Nat.le_succ _) hd ⟨ρ, hρ, rfl⟩,
    hi.nth_deriv ha.inv hx hd ⟨ρ, δ, hρ, hδ, rfl⟩, ?_, rfl, h₃⟩
  simp only [threeModes, e1, e2, e3, Option.bind_some, Option.map_some, e4]

theorem gaussSess_defs (pi x0 mu sig : ℝ) : GaussDefs pi mu sig (gaussSess pi x0 mu sig) :=
  ⟨(gaussStart_items pi x0 mu sig).1, (gaussStart_items pi x0 mu sig).2.1, (gaussStart_items pi x0 mu sig).2.2⟩

theorem gaussSess_quiet (pi x0 mu sig : ℝ) : (gaussSess pi x0 mu sig).Quiet := by
  intro q hq _
  have hq : q < 5 := hq
  have : q = 0 ∨ q = 1 ∨ q = 2 ∨ q = 3 ∨ q = 4 := by omega
  rcases this with rfl | rfl | rfl | rfl | rfl <;> rfl

theorem GaussDefs.set {pi mu sig : ℝ} {c : Sess ℝ} (h : GaussDefs pi mu sig c) (hc : SInv realPrim c) (hx : c.H 2)
    (t : ℝ) : GaussDefs pi mu sig (c.set 2 t) := by
  have e := Sess.set_items hc hx t
  exact ⟨by rw [e]; exact h.i2, by rw [e]; exact h.i4, by rw [e]; exact h.i3⟩

theorem GaussDefs.values {pi mu sig : ℝ} {c : Sess ℝ} (h : GaussDefs pi mu sig c) (hc : SInv realPrim c) (hx : c.H 2)
    (t : ℝ) : ValueOf realPrim (c.set 2 t).s.st.defs 4 (normalDensity pi mu sig t) := by
  have := (h.set hc hx t).value
  rwa [show (c.set 2 t).s.st.defs.base 2 = t from by
    show Function.update c.s.st.defs.base 2 t 2 = t
    simp] at this

/-- C58.  example/Gaussian.cpp, for every point, mean, deviation, constant `PI` and order of evaluation: the program ends
and prints the density, its derivative twice (forward and reverse mode), then, for the Expression returned by `SymDiff`,
the derivative and the second derivative twice. -/
theorem C58_gaussian (rf : ℕ → Bool → List Bool → Bool) (pi x0 mu sig : ℝ) :
    gaussMain rf pi x0 mu sig =
      let G := normalDensity pi mu sig
      some [G x0, deriv G x0, deriv G x0, deriv G x0, deriv (deriv G) x0, deriv (deriv G) x0] := by
  set a := gaussSess pi x0 mu sig with ha_def
  have ha : Session realPrim a := gaussSess_session pi x0 mu sig
  have hg := gaussSess_defs pi x0 mu sig
  have hq := gaussSess_quiet pi x0 mu sig
  have hy : 4 < a.s.st.defs.size := by show 4 < 5; omega
  have hx : a.H 2 := Or.inr rfl
  have hb : a.s.st.defs.base 2 = x0 := rfl
  obtain ⟨v, w, s₁, n1, n2, e1, d1, p1⟩ := threeModes_spec ha hq hy hg.only .start (hg.inDom.mono) hx (by decide)
  have hi₁ := p1.inv ha.inv hq hy hg.only
  obtain ⟨d, s₂, e2, hsd, -, hit, hba⟩ := SymD.of_tidy (hi₁.inv ha.inv) hi₁.tidy hi₁.lt hx hi₁.only.symOk rf
  have p2 := Phase.symDiff rf 2 p1 hx e2
  have hi₂ := p2.inv ha.inv hq hy hg.only
  have hi₂' := hi₂.inv ha.inv
  have hxd : (2 : ℕ) ≠ d := (hsd.later (hi₁.inv ha.inv) .refl).2.2.2.2.2.1
  -- the definitions and the point are those of the start
  have hsz : s₁.st.defs.size = 5 := by rw [d1]; rfl
  have hit : ∀ q < 5, s₂.st.defs.items q = a.s.st.defs.items q := by
    intro q hq
    rw [hit q (by show q < s₁.st.defs.size; omega)]
    show s₁.st.defs.items q = _
    rw [d1]
  have hb₂ : s₂.st.defs.base 2 = x0 := by
    rw [hba 2 (by show 2 < s₁.st.defs.size; omega)]
    show s₁.st.defs.base 2 = _
    rw [d1]; exact hb
  set b := (⟨s₁, a.H, a.T⟩ : Sess ℝ).diffed 4 s₂ with hb_def
  have hg₂ : GaussDefs pi mu sig b := by
    refine ⟨(hit 2 (by omega)).trans hg.i2, (hit 4 (by omega)).trans hg.i4, ?_⟩
    obtain ⟨n, h3⟩ := hg.i3
    exact ⟨n, (hit 3 (by omega)).trans h3⟩
  obtain ⟨v', w', s₃, n3, n4, e3, -, -⟩ := threeModes_spec ha hq hy hg.only p2 hg₂.inDom hx hxd
  have r1 := NthDerivative.iterated (n := 0) hx ha.inv hy (hg.values ha.inv hx) n1
  have r2 := NthDerivative.iterated (n := 1) hx ha.inv hy (hg.values ha.inv hx) n2
  have hy₂ : 4 < b.s.st.defs.size := hi₂.ylt
  have r3 := NthDerivative.iterated (n := 1) (c := b) hx hi₂' hy₂ (hg₂.values hi₂' hx) n3
  have r4 := NthDerivative.iterated (n := 2) (c := b) hx hi₂' hy₂ (hg₂.values hi₂' hx) n4
  have hb₂' : b.s.st.defs.base 2 = x0 := hb₂
  rw [hb] at r1 r2
  rw [hb₂'] at r3 r4
  simp only [iteratedDeriv_zero, iteratedDeriv_succ] at r1 r2 r3 r4
  have e0 : gaussMain rf pi x0 mu sig = (threeModes 4 2 a.s).bind fun a =>
    (symDiff realPrim rf 4 2 a.2).bind fun d => (threeModes d.1 2 d.2).map fun b => a.1 ++ b.1 := rfl
  have e2 : symDiff realPrim rf 4 2 s₁ = some (d, s₂) := e2
  have e3 : threeModes d 2 s₂ = some ([v', w', w'], s₃) := e3
  rw [e0, e1, Option.bind_some]
  simp only [e2, e3, Option.bind_some, Option.map_some, r1, r2, r3, r4]
  rfl

theorem normalDensity_hasDerivAt (pi mu : ℝ) {sig : ℝ} (hs : sig ≠ 0) (t : ℝ) :
    HasDerivAt (normalDensity pi mu sig) (-(t - mu) / sig ^ 2 * normalDensity pi mu sig t) t := by
  have h1 : HasDerivAt (fun t : ℝ => -(t - mu) ^ 2 / (2 * sig ^ 2)) (-(t - mu) / sig ^ 2) t := by
    have := ((((hasDerivAt_id t).sub_const mu).pow 2).neg).div_const (2 * sig ^ 2)
    refine this.congr_deriv ?_
    simp only [id]
    field_simp
    norm_num
    ring
  have h2 := (h1.exp).const_mul (1 / √(2 * pi * sig ^ 2))
  refine h2.congr_deriv ?_
  simp only [normalDensity]
  ring

/-- C58 in closed form: the printed derivatives are `-(x-mu)/sig² * G` and `((x-mu)²/sig⁴ - 1/sig²) * G`. -/
theorem C58_gaussian_values (rf : ℕ → Bool → List Bool → Bool) (pi x0 mu : ℝ) {sig : ℝ} (hs : sig ≠ 0) :
    gaussMain rf pi x0 mu sig =
      let g := 1 / √(2 * pi * sig ^ 2) * Real.exp (-(x0 - mu) ^ 2 / (2 * sig ^ 2))
      let g' := -(x0 - mu) / sig ^ 2 * g
      let g'' := ((x0 - mu) ^ 2 / sig ^ 4 - 1 / sig ^ 2) * g
      some [g, g', g', g', g'', g''] := by
  have h1 : deriv (normalDensity pi mu sig) = fun t => -(t - mu) / sig ^ 2 * normalDensity pi mu sig t :=
    funext fun t => (normalDensity_hasDerivAt pi mu hs t).deriv
  have h2 : deriv (deriv (normalDensity pi mu sig)) x0 =
      ((x0 - mu) ^ 2 / sig ^ 4 - 1 / sig ^ 2) * normalDensity pi mu sig x0 := by
    rw [h1]
    have h3 : HasDerivAt (fun t : ℝ => -(t - mu) / sig ^ 2) (-1 / sig ^ 2) x0 := by
      simpa using (((hasDerivAt_id x0).sub_const mu).neg).div_const (sig ^ 2)
    have h4 := (h3.mul (normalDensity_hasDerivAt pi mu hs x0)).deriv
    have h4 : deriv (fun t => -(t - mu) / sig ^ 2 * normalDensity pi mu sig t) x0 = _ := h4
    rw [h4]
    field_simp
    ring
  rw [C58_gaussian]
  simp only [h2]
  rw [h1]
  rfl

end CoolDiff
