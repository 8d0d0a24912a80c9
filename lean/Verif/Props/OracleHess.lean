import Verif.Apps.OracleHess
import Verif.Props.Gradients

/-!
# C52: the Hessian of a scalar oracle
-/

set_option linter.unusedSectionVars false

namespace CoolDiff

variable {K : Type} [Field K] [DecidableEq K]
variable {P : Prim K} {rf : ℕ → Bool → List Bool → Bool}

/-- C52, more than one unknown.  `hessian()` never returns: whatever the error function, the numbers and the state are,
the first call on a new oracle stops the program (the matrix of symbolic derivatives has one entry). -/
theorem C52_stops_for_two_unknowns (y : ℕ) (vs : List ℕ) (h2 : 2 ≤ vs.length) (s s' : SSt K) :
    oracleHessian P rf ((newOracle y vs s).1, s') = none := by
  have hsj : symJacob P rf (newOracle y vs s).1 s' = none := by
    obtain ⟨n, hn⟩ : ∃ n, vs.length = n + 2 := ⟨vs.length - 2, by omega⟩
    have hl : (newOracle y vs s).1.sym.length = 1 := rfl
    rw [symJacob, show (newOracle y vs s).1.vs.length = n + 2 from hn, List.range_eq_range', List.range'_succ,
      List.range'_succ, List.foldlM_cons]
    cases symJacobStep P rf (newOracle y vs s).1 s' 0 with
    | none => rfl
    | some t =>
        show List.foldlM (symJacobStep P rf (newOracle y vs s).1) t _ = none
        rw [List.foldlM_cons]
        have : symJacobStep P rf (newOracle y vs s).1 t (0 + 1) = none := by
          rw [symJacobStep, List.getElem?_eq_none (l := (newOracle y vs s).1.sym) (by omega)]
          cases (newOracle y vs s).1.vs[0 + 1]? with
          | none => rfl
          | some x =>
              show (symDiff P rf _ x t).bind _ = none
              cases symDiff P rf (newOracle y vs s).1.y x t <;> rfl
        rw [this]
        rfl
  rw [oracleHessian, oracleInit]
  show ((Mat.new _ _).bind fun m => (symJacob P rf (newOracle y vs s).1 s').map _).bind _ = none
  rw [hsj]
  cases (Mat.new (K := K) (newOracle y vs s).1.vs.length (newOracle y vs s).1.vs.length) <;> rfl

/-! ## One unknown -/

theorem newExprs_assignNum {x : ℕ} {s : SSt K} (hx : x < s.st.defs.size) (v : K) :
    (newExprs 1 { s with st := assignNum x v s.st }).2 =
      { (newExprs 1 s).2 with st := assignNum x v (newExprs 1 s).2.st } ∧
    (newExprs 1 { s with st := assignNum x v s.st }).1 = (newExprs 1 s).1 := by
  have hne : x ≠ s.st.defs.size := by omega
  refine ⟨?_, rfl⟩
  simp only [newExprs, newExpr, assignNum]
  congr 1
  congr 1
  · congr 1 <;> exact Function.update_comm hne _ _ _
  · congr 1 <;> exact Function.update_comm hne _ _ _

theorem newExprs_assignPar (p : ℕ) (s : SSt K) (v : K) :
    (newExprs 1 { s with st := assignPar p v s.st }).2 =
      { (newExprs 1 s).2 with st := assignPar p v (newExprs 1 s).2.st } ∧
    (newExprs 1 { s with st := assignPar p v s.st }).1 = (newExprs 1 s).1 := ⟨rfl, rfl⟩

/-- What is known about the oracle between calls. -/
inductive OInv (P : Prim K) (a : Sess K) (y x : ℕ) : HOracle K × SSt K → Prop
  | before {s : SSt K} (h : Calls P a.H y a.s s) : OInv P a y x (newOracle y [x] s)
  | after {b c : Sess K} {f : ℕ} {S : Set ℕ} (hb : SInv P b) (hH : b.H = a.H) (hN : a.s.st.defs.size ≤ f)
      (hf : f < b.s.st.defs.size) (hq : Quiet P b.s b.H S)
      (he : EntFact (f + 1) (GradR P y x) b S f) (hr : Rounds P f b c) {m : Mat K} (hm : m.WF) (h1 : m.rows = 1)
      (h2 : m.cols = 1) : OInv P a y x (⟨y, [x], [f], some m⟩, c.s)

/-- The loop of `hessian()` for one unknown. -/
theorem oracleLoop_one {y x f : ℕ} {hs : Option (Mat K)} {m : Mat K} (hm : m.WF) (h1 : m.rows = 1) (h2 : m.cols = 1)
    {s s' : SSt K} (hp : PreCompS P f s = some s') :
    ∃ m', (List.range 1).foldlM (oracleStep P ⟨y, [x], [f], hs⟩) (m, s) = some (m', s') ∧ m'.WF ∧ m'.rows = 1 ∧
      m'.cols = 1 ∧ m'.get? 0 0 = some (DevalR f x s'.st) := by
  obtain ⟨m', p1, p2, p3, p4, p5⟩ := Mat.put?_spec hm (i := 0) (j := 0) (by omega) (by omega) (DevalR f x s'.st)
  refine ⟨m', ?_, p4, by rw [p2, h1], by rw [p3, h2], by rw [p5]; simp⟩
  have hr : oracleRow (K := K) ⟨y, [x], [f], hs⟩ f 0 s' m = some m' := by
    show ((m.put? 0 0 (DevalR f x s'.st)).bind fun m => some m) = _
    rw [p1]; rfl
  show ((oracleStep P ⟨y, [x], [f], hs⟩ (m, s) 0).bind fun r => some r) = _
  rw [oracleStep]
  show (((PreCompS P f s).bind fun s => (oracleRow ⟨y, [x], [f], hs⟩ f 0 s m).map fun m => (m, s)).bind _) = _
  rw [hp, Option.bind_some, hr]
  rfl

/-- `PreComp` and `DevalR` on the entry, after any rounds. -/
theorem entry_second {b c : Sess ℝ} {y x f : ℕ} {S : Set ℕ} (hb : SInv realPrim b) (hf : f < b.s.st.defs.size)
    (hq : Quiet realPrim b.s b.H S) (he : EntFact (f + 1) (GradR realPrim y x) b S f) (hr : Rounds realPrim f b c)
    (hx : b.H x) (hxf : x ≠ f) :
    ∃ m, PreCompS realPrim f c.s = some { c.s with st := ⟨c.s.st.defs, m⟩ } ∧
      (c.InDom 1 y → SecondDerivative c y x x (DevalR f x ⟨c.s.st.defs, m⟩)) := by
  obtain ⟨l1, l2, l3, l4, l5⟩ := hr.laterS hb hf (he.safe hq)
  have hci : SInv realPrim c := (l1.inv hb).1
  have hxc : c.H x := by rw [l5]; exact hx
  have hrev := revOK_of_user hci l2 hxc
  obtain ⟨d, e1, e2, -, -, -, p, p', e5, e6, e7⟩ := he
  obtain ⟨ord, hfu⟩ := hci
  obtain ⟨m, g1, -⟩ := hfu.preCompS l2 l3
  have g1 : PreCompS realPrim f c.s = some { c.s with st := ⟨c.s.st.defs, m⟩ } := g1
  refine ⟨m, g1, fun hd => ?_⟩
  obtain ⟨ρ, hρ⟩ := (hfu.wellDefined l2).exists_solves (P := realPrim)
  obtain ⟨δ, hδ⟩ := (hfu.wellDefined l2).exists_tangent (P := realPrim) x ρ
  have hk := hfu.preCompS_key l2 (hfu.good.d.user _ hxc).1 l3 hrev hρ hδ g1
  rw [if_neg (Ne.symm hxf)] at hk
  have hder : DerivOf realPrim c.s.st.defs f x (DevalR f x ⟨c.s.st.defs, m⟩) := ⟨ρ, δ, hρ, hδ, hk.symm⟩
  exact second_of_deriv e6 e5 (e7.trans l1) hxc hd (hder.of_ref (by rw [l4]; exact e1) e2 (Ne.symm hxf))

theorem oracle_call {a : Sess ℝ} (ha : Session realPrim a) (hu : a.Unflagged) {y x : ℕ}
    (hy : y < a.s.st.defs.size) (hi : a.s.st.defs.items y ≠ []) (hok : a.SymOk y) (hx : a.H x)
    {z : HOracle ℝ × SSt ℝ} (h : OInv realPrim a y x z) :
    ∃ m z', oracleHessian realPrim rf z = some (m, z') ∧ OInv realPrim a y x z' ∧
      SameTo a.s.st.defs.size z.2 z'.2 ∧ m.rows = 1 ∧ m.cols = 1 ∧
      ∃ w, m.get? 0 0 = some w ∧ m.data = [w] ∧
        ((⟨z'.2, a.H, a.T⟩ : Sess ℝ).InDom 1 y → SecondDerivative ⟨z'.2, a.H, a.T⟩ y x x w) := by
  have hxl : x < a.s.st.defs.size := by
    obtain ⟨ord, hf⟩ := ha.inv
    exact (hf.good.d.user _ hx).1
  have hdata : ∀ (m : Mat ℝ) w, m.WF → m.rows = 1 → m.cols = 1 → m.get? 0 0 = some w → m.data = [w] := by
    intro m w hm h1 h2 hg
    have hl := hm.len
    rw [h1, h2] at hl
    obtain ⟨v, hv⟩ := List.length_eq_one_iff.1 hl
    rw [Mat.get?, if_pos (by omega), hv] at hg
    rw [hv]
    simpa using hg
  cases h with
  | @before s hs =>
      obtain ⟨b, S, rfl, h2, h3, h4, h5, h6, h7, h8, -⟩ := hs.start ha hu hy hi hok
      have hab : a.s.st.defs.size ≤ b.s.st.defs.size := (h3.inv ha.inv).2.size
      obtain ⟨b', S', g1, g2, -, g4, g5⟩ := symGradient_run (vs := [x]) h4 h5 h6 h7 (by simp)
        (fun x' hx' => by rw [h2]; simp only [List.mem_singleton] at hx'; rw [hx']; exact hx) rf
      have hb' : SInv realPrim b' := (g2.later.inv h4).1
      have hf : b.s.st.defs.size + 0 < b'.s.st.defs.size := by
        have := g2.size
        simp only [List.length_singleton] at this
        omega
      have he := g5 0 x rfl
      obtain ⟨m, k1, k2⟩ := entry_second hb' hf g4 he .refl (by rw [g2.H, h2]; exact hx) (by omega)
      have hsj : symJacob realPrim rf (newOracle y [x] b.s).1 (newOracle y [x] b.s).2 = some b'.s := by
        rw [symGradient, if_neg (by simp)] at g1
        simp only [List.length_singleton, Option.map_eq_some_iff, Prod.mk.injEq] at g1
        obtain ⟨t, t1, -, t2⟩ := g1
        rw [← t2, ← t1]
        have hz : (newExprs 1 b.s).1.zip [x] = [((newExpr b.s.st).1, x)] := rfl
        rw [hz, symInto, symJacob]
        show ((symJacobStep realPrim rf (newOracle y [x] b.s).1 (newExprs 1 b.s).2 0).bind fun r => some r) = _
        rw [symJacobStep]
        show ((symDiff realPrim rf y x (newExprs 1 b.s).2).bind fun d =>
          some (d.2.assignRef (newExpr b.s.st).1 d.1)).bind _ = _
        cases symDiff realPrim rf y x (newExprs 1 b.s).2 <;> rfl
      obtain ⟨m', q1, q2, q3, q4, q5⟩ := oracleLoop_one (y := y) (x := x) (hs := none)
        (m := (⟨1, 1, [0]⟩ : Mat ℝ)) ⟨by decide, by decide, rfl⟩ rfl rfl k1
      refine ⟨m', (⟨y, [x], [b.s.st.defs.size + 0], some m'⟩, _), ?_, .after (S := S') hb' (g2.H.trans h2) (by omega) hf g4 he
        (.preComp .refl k1) q2 q3 q4, ⟨fun q hq => ?_, fun q hq => ?_, ?_⟩, q3, q4, _, q5, hdata m' _ q2 q3 q4 q5, k2⟩
      · rw [oracleHessian, oracleInit]
        show (((Mat.new 1 1).bind fun m => (symJacob realPrim rf (newOracle y [x] b.s).1 (newOracle y [x] b.s).2).map
          fun s => (m, s)).bind _) = _
        rw [hsj]
        show ((List.range 1).foldlM (oracleStep realPrim (newOracle y [x] b.s).1) ((⟨1, 1, [0]⟩ : Mat ℝ), b'.s)).map _ = _
        have q1 : (List.range 1).foldlM (oracleStep realPrim (newOracle y [x] b.s).1) ((⟨1, 1, [0]⟩ : Mat ℝ), b'.s) = _ := q1
        rw [q1]
        rfl
      all_goals
        obtain ⟨-, -, n3, n4, n5, -⟩ := newExprs_spec (P := realPrim) 1 b
      · show b'.s.st.defs.items q = (newExprs 1 b.s).2.st.defs.items q
        rw [(n4 q (by omega)).1, g2.ext.items q (by omega)]
      · show b'.s.st.defs.base q = (newExprs 1 b.s).2.st.defs.base q
        rw [(n4 q (by omega)).2.1, g2.ext.base q (by omega)]
      · show b'.s.st.defs.par = (newExprs 1 b.s).2.st.defs.par
        rw [n5, g2.ext.par]
  | @after b c f S hb hH hN hf hq he hr m₀ hm h1 h2 =>
      obtain ⟨m, k1, k2⟩ := entry_second hb hf hq he hr (by rw [hH]; exact hx) (by omega)
      obtain ⟨m', q1, q2, q3, q4, q5⟩ := oracleLoop_one (y := y) (x := x) (hs := some m₀) hm h1 h2 k1
      refine ⟨m', (⟨y, [x], [f], some m'⟩, _), ?_, .after hb hH hN hf hq he (.preComp hr k1) q2 q3 q4,
        ⟨fun _ _ => rfl, fun _ _ => rfl, rfl⟩, q3, q4, _, q5, hdata m' _ q2 q3 q4 q5, k2⟩
      rw [oracleHessian, oracleInit]
      show ((List.range 1).foldlM (oracleStep realPrim ⟨y, [x], [f], some m₀⟩) (m₀, c.s)).map _ = _
      rw [q1]
      rfl

theorem OCalls.inv {a : Sess ℝ} (ha : Session realPrim a) (hu : a.Unflagged) {y x : ℕ}
    (hy : y < a.s.st.defs.size) (hi : a.s.st.defs.items y ≠ []) (hok : a.SymOk y) (hx : a.H x)
    {s : SSt ℝ} (hs : Calls realPrim a.H y a.s s) {z : HOracle ℝ × SSt ℝ}
    (h : OCalls realPrim rf a.H (newOracle y [x] s) z) : OInv realPrim a y x z := by
  induction h with
  | refl => exact .before hs
  | @setVar z x' v _ hx' ih =>
      cases ih with
      | @before s hs =>
          obtain ⟨b, S, rfl, h2, h3, h4, -⟩ := hs.start ha hu hy hi hok
          have hl : x' < b.s.st.defs.size := by
            obtain ⟨ord, hf⟩ := h4
            exact (hf.good.d.user _ (by rw [h2]; exact hx')).1
          obtain ⟨n1, n2⟩ := newExprs_assignNum hl v
          have := OInv.before (x := x) (Calls.setVar x' v hs hx')
          rw [newOracle, n1, n2] at this
          exact this
      | @after b c f S hb hH hN hf hq he hr m hm h1 h2 =>
          have hH' : c.H = b.H := (hr.laterS hb hf (he.safe hq)).2.2.2.2
          exact .after (c := ⟨{ c.s with st := assignNum x' v c.s.st }, c.H, c.T⟩) hb hH hN hf hq he
            (.setVar x' v hr (by rw [hH', hH]; exact hx')) hm h1 h2
  | @setPar z p v _ ih =>
      cases ih with
      | @before s hs => exact .before (Calls.setPar p v hs)
      | @after b c f S hb hH hN hf hq he hr m hm h1 h2 =>
          exact .after (c := ⟨{ c.s with st := assignPar p v c.s.st }, c.H, c.T⟩) hb hH hN hf hq he (.setPar p v hr) hm h1 h2
  | @hessian z z' m _ he ih =>
      obtain ⟨m', z'', g1, g2, -⟩ := oracle_call (rf := rf) ha hu hy hi hok hx ih
      rw [he] at g1
      simp only [Option.some.injEq, Prod.mk.injEq] at g1
      rw [g1.2]
      exact g2

/-- C52, one unknown.  Start in a state in which no query has been made, make any calls on the error Expression `y`
(`Calls`), make the oracle, and then change Variables and Parameters and call `hessian()` in any order (`OCalls`).  The
next call of `hessian()` returns a 1 × 1 matrix, leaves the definitions and numbers of all objects of the user alone, and
its entry is the second derivative of `y` at the current point, wherever the operators below `y` are inside their
domains. -/
theorem C52_hessian_partial {a : Sess ℝ} (ha : Session realPrim a) (hu : a.Unflagged) {y x : ℕ}
    (hy : y < a.s.st.defs.size) (hi : a.s.st.defs.items y ≠ []) (hok : a.SymOk y) (hx : a.H x)
    {s : SSt ℝ} (hs : Calls realPrim a.H y a.s s) {z : HOracle ℝ × SSt ℝ}
    (h : OCalls realPrim rf a.H (newOracle y [x] s) z) :
    ∃ m z', oracleHessian realPrim rf z = some (m, z') ∧ m.rows = 1 ∧ m.cols = 1 ∧
      SameTo a.s.st.defs.size z.2 z'.2 ∧
      ∃ w, m.data = [w] ∧
        ((⟨z'.2, a.H, a.T⟩ : Sess ℝ).InDom 1 y → SecondDerivative ⟨z'.2, a.H, a.T⟩ y x x w) := by
  obtain ⟨m, z', h1, -, h3, h4, h5, w, -, h6, h7⟩ := oracle_call (rf := rf) ha hu hy hi hok hx
    (h.inv ha hu hy hi hok hx hs)
  exact ⟨m, z', h1, h4, h5, h3, w, h6, h7⟩

namespace Ex

/-- The hypotheses are met: `y = sin(x)*z`, the unknown `x`, `Eval(y)`, make the oracle, `x = 5`, `hessian()`, `z = 7`,
`hessian()`. -/
example : ∃ s z, Calls realPrim sess0.H 4 sess0.s s ∧ OCalls realPrim rf0 sess0.H (newOracle 4 [2] s) z ∧
    z.1.hess.isSome := by
  have hok : sess0.SymOk 4 := Sess.only_symOk.1 fun q hq i hi =>
    (sess0_entire q hq i hi).mono (fun _ h => h.symOkN.symOk) fun _ h => h.symOk
  have hi : sess0.s.st.defs.items 4 ≠ [] := by
    have : ∃ a b c, sess0.s.st.defs.items 4 =
        [.op1 a (.mulC 1) (.op2 b .mul (.op1 c (.fn .sin) (.leaf 2)) (.leaf 3))] := ⟨_, _, _, rfl⟩
    obtain ⟨a, b, c, h⟩ := this
    rw [h]
    simp
  have hv : ∀ x ∈ [3, 2], sess0.H x := by
    intro x hx
    simp only [List.mem_cons, List.not_mem_nil, or_false] at hx
    rcases hx with rfl | rfl <;> simp [sess0]
  obtain ⟨b, S, hb, hH, hl, hbi, hc, -⟩ := (Calls.refl (P := realPrim) (H := sess0.H) (y := 4) (s₀ := sess0.s)).start
    sess0_session sess0_unflagged (by decide) hi hok
  obtain ⟨v, m, e1, -⟩ := hc.eval
  rw [hb] at e1
  obtain ⟨s1, c1⟩ : ∃ s1, Calls realPrim sess0.H 4 sess0.s s1 := ⟨_, .eval v .refl e1⟩
  have o1 : OCalls realPrim rf0 sess0.H (newOracle 4 [2] s1) _ := .setVar 2 5 .refl (hv 2 (by simp))
  obtain ⟨m1, z1, r1, -⟩ := C52_hessian_partial (rf := rf0) sess0_session sess0_unflagged (by decide) hi hok
    (hv 2 (by simp)) c1 o1
  have o2 := OCalls.setVar 3 7 (OCalls.hessian m1 o1 r1) (hv 3 (by simp))
  obtain ⟨m2, z2, r2, -⟩ := C52_hessian_partial (rf := rf0) sess0_session sess0_unflagged (by decide) hi hok
    (hv 2 (by simp)) c1 o2
  refine ⟨s1, z2, c1, OCalls.hessian m2 o2 r2, ?_⟩
  rw [oracleHessian] at r2
  simp only [Option.bind_eq_some_iff, Option.map_eq_some_iff, Prod.mk.injEq] at r2
  obtain ⟨_, -, _, -, -, r3⟩ := r2
  rw [← r3]
  rfl

/-- `y = (x*x)*z`: with the unknown `x` alone, `hessian()` returns `2*z`, also after `z` has changed (10, then 14); with
the unknowns `x` and `z` it stops. -/
theorem oracle_answers :
    ((oracleHessian P1 rf0 (newOracle 4 [2] cubic)).bind fun r =>
      (oracleHessian P1 rf0 (r.2.1, { r.2.2 with st := assignNum 3 7 r.2.2.st })).map fun r' =>
        (r.1.data, r'.1.data)) = some ([10], [14]) ∧
    (oracleHessian P1 rf0 (newOracle 4 [2, 3] cubic)).isNone := by decide +kernel

end Ex

end CoolDiff
