import Verif.Props.GNPrograms

/-!
# C59: `ScalarSolve` and `NonLinearSolve` of example/GaussNewton/main.cpp
-/

set_option linter.unusedSectionVars false

namespace CoolDiff

/-! ## `ScalarSolve` -/

namespace Sq

variable {x0 : ℝ}

local notation "σS" => squareStart x0

theorem items : ∃ a b c d e, (σS).defs.items 2 = [.op1 a (.mulC 1) (.op1 b (.addC 1) (.op2 c .sub
    (.op2 d .mul (.leaf 1) (.leaf 1)) (.op1 e (.mulC 2) (.leaf 1))))] := ⟨_, _, _, _, _, rfl⟩

theorem hist : Hist realPrim (σS) (fun _ => False) := by
  refine .define 2 _ (.newExpr (.newVar x0 .init)) ?_ ?_ ?_ ?_
  · show 2 < 3; omega
  · show [Node.leaf 0] ≠ []; simp
  · intro p hp
    show p < 3
    simp [Exp.leaves] at hp
    omega
  · simp [Exp.pars]

theorem leaf {q : ℕ} (hq : q < 3) {i : Node ℝ} (hi : i ∈ (σS).defs.items q) {p : ℕ} (hp : p ∈ i.leaves) : p = 1 ∧ q = 2 := by
  obtain ⟨a, b, c, d, e, i2⟩ := items (x0 := x0)
  obtain rfl | rfl | rfl : q = 0 ∨ q = 1 ∨ q = 2 := by omega
  · rw [show (σS).defs.items 0 = [] from rfl] at hi; simp at hi
  · rw [show (σS).defs.items 1 = [] from rfl] at hi; simp at hi
  · rw [i2] at hi; simp only [List.mem_singleton] at hi; subst hi; simp [Node.leaves] at hp; omega

theorem wd : WellDefined (σS).defs 2 := by
  refine (Acyclic.of_ordered (fun q hq i hi p hp => ?_) (fun q hq i hi hp => ?_)).wellDefined
    hist.inv.wf.defs.closed (show 2 < 3 by omega)
  · have := leaf hq hi hp; omega
  · have := leaf hq (List.mem_of_mem_head? hi) hp; omega

theorem reach {q : ℕ} (h : Reach (σS).defs 2 q) : q = 2 ∨ q = 1 := by
  obtain ⟨a, b, c, d, e, i2⟩ := items (x0 := x0)
  have h1 : (σS).defs.items 1 = [] := rfl
  induction h with
  | refl => simp
  | step _ hm hp ih =>
      rcases ih with rfl | rfl
      · rw [i2] at hm; simp only [List.mem_singleton] at hm; subst hm; simp [Node.leaves] at hp; omega
      · rw [h1] at hm; simp at hm

theorem dom {b p : ℕ → ℝ} : InDomain ((σS).defs.withValues b p) 2 := by
  intro ρ _ q hq
  obtain ⟨a, b', c, d, e, i2⟩ := items (x0 := x0)
  have hi : ((σS).defs.withValues b p).items = (σS).defs.items := rfl
  have hr : Reach (σS).defs 2 q := hq.of_items hi.symm
  rw [hi]
  rcases reach hr with rfl | rfl
  · rw [i2]; simp [SeqInDom, Node.InDom, Op1.Dom, Op2.Dom]
  · rw [show (σS).defs.items 1 = [] from rfl]; trivial

theorem value (i : ℕ) (b p : ℕ → ℝ) : ValueOf realPrim ((σS).defs.withValues b p) 2 (sqRes i b) := by
  have hf : IsFormula ((σS).defs.withValues b p) 2 (.addC (.sub (.mul (.var 1) (.var 1)) (.cMul 2 (.var 1))) 1) :=
    ⟨⟨_, rfl⟩, by simp [Exp.leaves]⟩
  have hw : WellDefined ((σS).defs.withValues b p) 2 := by
    have h : WellDefined (σS).defs 2 := wd
    have hi : ((σS).defs.withValues b p).items = (σS).defs.items := rfl
    exact h.of_items hi
  obtain ⟨ρ, hρ⟩ := hw.exists_solves (P := realPrim)
  refine ⟨ρ, hρ, ?_⟩
  rw [hf.val .refl hρ]
  have h1 : ρ 1 = b 1 := hρ.variable (hf.reach (by simp [Exp.leaves])) rfl
  simp only [Exp.val, h1, sqRes]

end Sq

/-- C59, `ScalarSolve`: from every starting value other than the double root 1 of `x*x - 2*x + 1`, `n` iterations end
at `1 + (x0 - 1)/2^n`, whichever kernels are configured. -/
theorem C59_scalar {B : Backend ℝ} (hB : B.Sound Pads.none) {llt : Mat ℝ → Mat ℝ → Option (Mat ℝ)}
    (hL : SolvesOn llt fun n A => (toMatrix n A).PosDef) (π : Sched) (n : ℕ) {x0 : ℝ} (h0 : x0 ≠ 1) :
    scalarSolve B llt π n x0 = some (1 + (x0 - 1) / 2 ^ n) := by
  have hd : ({} : GNData ℝ).OK (squareStart x0).defs :=
    ⟨by simp [GNData.pars], by simp [GNData.pars], (fun qs h => by cases h), (fun qs h => by cases h)⟩
  have hv : IsVar (squareStart x0).defs 1 := ⟨(by omega : 1 < 3), by decide, rfl⟩
  have hne : ∀ k b, GNSteps 1 [1] sqRes (partials sqRes) k (squareStart x0).defs.base b → b 1 ≠ 1 := by
    intro k b hb
    rw [sqRes_steps (show (squareStart x0).defs.base 1 ≠ 1 from h0) hb]
    have hp : (0 : ℝ) < 2 ^ k := by positivity
    have hx : (squareStart x0).defs.base 1 - 1 ≠ 0 := sub_ne_zero.2 h0
    intro hc
    have : ((squareStart x0).defs.base 1 - 1) / 2 ^ k = 0 := by linarith
    exact (div_ne_zero hx hp.ne') this
  obtain ⟨buf', σ', e, h1, -, h3, -, h5, -⟩ := C47_newton hB hL π (Sq.hist (x0 := x0)).run (y := 2) (vs := [1]) (d := {})
    (show 2 < 3 by omega) Sq.wd (Sq.hist.inv.safe Safe.none) (by simp) (by simp)
    (fun x hx => by rw [List.mem_singleton.1 hx]; exact ⟨hv, by decide⟩) hd (r := sqRes)
    (fun i _ b p _ => Sq.value i b p) (GNBuf.fits_new 1) n
    (fun k _ b hb => ⟨sqRes_rank (hne k b hb), fun i _ p _ => Sq.dom⟩)
  have hb := sqRes_steps (show (squareStart x0).defs.base 1 ≠ 1 from h0) h1
  have hv' : σ'.mem.value 1 = σ'.defs.base 1 := by
    refine (h5.wf.plain 1 ?_ ?_).1
    · rw [h3]; show 1 < 3; omega
    · rw [h3]; rfl
  rw [scalarSolve, e, Option.map_some, hv', hb]
  rfl

/-! ## `NonLinearSolve` -/

namespace Circle

variable {x0 y0 : ℝ} {B : Backend ℝ} {π : Sched}

local notation "σC" => circleStart x0 y0

local notation "EC" => circleEnv (circleStart x0 y0)

local notation "jC" => circleCtx B π x0 y0

def rank : ℕ → ℕ | _ => 0

def H (y : ℕ) : Prop := y = 3 ∨ y = 4

theorem items : ∃ a b c d e f g h, (σC).defs.items 3 = [.op1 a (.mulC 1) (.op1 b (.addC (-1 * 20)) (.op2 c .add
    (.op2 d .mul (.leaf 1) (.leaf 1)) (.op2 e .mul (.leaf 2) (.leaf 2))))] ∧
    (σC).defs.items 4 = [.op1 f (.mulC 1) (.op1 g (.addC 2) (.op2 h .sub (.leaf 1) (.leaf 2)))] :=
  ⟨_, _, _, _, _, _, _, _, rfl, rfl⟩

theorem hist : Hist realPrim (σC) (fun _ => False) := by
  refine .define 4 _ (.define 3 _ (.newExpr (.newExpr (.newVar y0 (.newVar x0 .init)))) ?_ ?_ ?_ ?_) ?_ ?_ ?_ ?_
  · show 3 < 5; omega
  · show [Node.leaf 0] ≠ []; simp
  · intro p hp
    show p < 5
    simp [Exp.leaves] at hp
    omega
  · simp [Exp.pars]
  · show 4 < 5; omega
  · show [Node.leaf 0] ≠ []; simp
  · intro p hp
    show p < 5
    simp [Exp.leaves] at hp
    omega
  · simp [Exp.pars]

theorem leaf {q : ℕ} (hq : q < 5) {i : Node ℝ} (hi : i ∈ (σC).defs.items q) {p : ℕ} (hp : p ∈ i.leaves) :
    (p = 1 ∨ p = 2) ∧ 3 ≤ q := by
  obtain ⟨a, b, c, d, e, f, g, h, i3, i4⟩ := items (x0 := x0) (y0 := y0)
  obtain rfl | rfl | rfl | rfl | rfl : q = 0 ∨ q = 1 ∨ q = 2 ∨ q = 3 ∨ q = 4 := by omega
  · rw [show (σC).defs.items 0 = [] from rfl] at hi; simp at hi
  · rw [show (σC).defs.items 1 = [] from rfl] at hi; simp at hi
  · rw [show (σC).defs.items 2 = [] from rfl] at hi; simp at hi
  · rw [i3] at hi; simp only [List.mem_singleton] at hi; subst hi; simp [Node.leaves] at hp; omega
  · rw [i4] at hi; simp only [List.mem_singleton] at hi; subst hi; simp [Node.leaves] at hp; omega

theorem wd0 {y : ℕ} (hy : y < 5) : WellDefined (σC).defs y := by
  refine (Acyclic.of_ordered (fun q hq i hi p hp => ?_) (fun q hq i hi hp => ?_)).wellDefined
    hist.inv.wf.defs.closed hy
  · have := leaf hq hi hp; omega
  · have := leaf hq (List.mem_of_mem_head? hi) hp; omega

theorem wd (b p : ℕ → ℝ) {y : ℕ} (hy : y < 5) : WellDefined ((σC).defs.withValues b p) y := by
  have h : WellDefined (σC).defs y := wd0 hy
  have hi : ((σC).defs.withValues b p).items = (σC).defs.items := rfl
  exact h.of_items hi

theorem reach {y q : ℕ} (hy : H y) (h : Reach (σC).defs y q) : q = y ∨ q = 1 ∨ q = 2 := by
  obtain ⟨a, b, c, d, e, f, g, h', i3, i4⟩ := items (x0 := x0) (y0 := y0)
  have h1 : (σC).defs.items 1 = [] := rfl
  have h2 : (σC).defs.items 2 = [] := rfl
  induction h with
  | refl => simp
  | step _ hm hp ih =>
      rcases ih with rfl | rfl | rfl
      · rcases hy with rfl | rfl
        · rw [i3] at hm; simp only [List.mem_singleton] at hm; subst hm; simp [Node.leaves] at hp; omega
        · rw [i4] at hm; simp only [List.mem_singleton] at hm; subst hm; simp [Node.leaves] at hp; omega
      · rw [h1] at hm; simp at hm
      · rw [h2] at hm; simp at hm

theorem orderly (V : ℕ → Prop) : Orderly (σC).defs V H := by
  refine Orderly.of_shallow fun o ho q hq hqo i hi p hp => ?_
  have h1 : (σC).defs.items 1 = [] := rfl
  have h2 : (σC).defs.items 2 = [] := rfl
  rcases reach ho hq with rfl | rfl | rfl
  · exact absurd rfl hqo
  · rw [h1] at hi; simp at hi
  · rw [h2] at hi; simp at hi

theorem dom {b p : ℕ → ℝ} {y : ℕ} (hy : H y) : InDomain ((σC).defs.withValues b p) y := by
  intro ρ _ q hq
  obtain ⟨a, b', c, d, e, f, g, h', i3, i4⟩ := items (x0 := x0) (y0 := y0)
  have hi : ((σC).defs.withValues b p).items = (σC).defs.items := rfl
  have hr : Reach (σC).defs y q := hq.of_items hi.symm
  rw [hi]
  rcases reach hy hr with rfl | rfl | rfl
  · rcases hy with rfl | rfl
    · rw [i3]; simp [SeqInDom, Node.InDom, Op1.Dom, Op2.Dom]
    · rw [i4]; simp [SeqInDom, Node.InDom, Op1.Dom, Op2.Dom]
  · rw [show (σC).defs.items 1 = [] from rfl]; trivial
  · rw [show (σC).defs.items 2 = [] from rfl]; trivial

theorem kindf {o n e eye} (hk : (EC).kind o = .form n e eye) : False := by
  match o with
  | 0 => simp [circleEnv] at hk
  | 1 => simp [circleEnv] at hk
  | (k + 2) => simp [circleEnv] at hk

theorem kindv {o} (hk : (EC).kind o = .var) : o = 0 := by
  match o with
  | 0 => rfl
  | 1 => simp [circleEnv] at hk
  | (k + 2) => simp [circleEnv] at hk

theorem kinde {o} (hk : (EC).kind o = .exp) : o = 1 := by
  match o with
  | 0 => simp [circleEnv] at hk
  | 1 => rfl
  | (k + 2) => simp [circleEnv] at hk

theorem wf : (EC).WF rank := by
  refine ⟨fun o => by simp only [circleEnv]; split <;> omega, fun o => by simp only [circleEnv]; split <;> omega,
    fun o n e eye hk => (kindf hk).elim⟩

theorem isVar {D : Defs ℝ} {b0 p0 : ℕ → ℝ} (hD : D = (σC).defs.withValues b0 p0) {x : ℕ} (h1 : 0 < x) (h2 : x < 3) :
    IsVar D x := by
  subst hD
  obtain rfl | rfl : x = 1 ∨ x = 2 := by omega
  · exact ⟨(by decide : 1 < 5), by decide, rfl⟩
  · exact ⟨(by decide : 2 < 5), by decide, rfl⟩

theorem h_obj {a : ℕ} (h1 : 0 < a) (h2 : a < 5) : circleEnt a = .obj a := by
  rw [circleEnt, if_neg (by omega), if_pos h2]

theorem elems {D : Defs ℝ} {b0 p0 : ℕ → ℝ} (hD : D = (σC).defs.withValues b0 p0) (S : Set ℕ) : ElemsOk (jC) D S H := by
  have hv := fun x h1 h2 => isVar (x := x) hD h1 h2
  subst hD
  refine ⟨fun o _ hk r c hr hc => ?_, fun o _ hk r c hr hc => ?_, fun o _ hk r c hr hc y => ?_,
    fun o _ n e eye hk a ha => (kindf hk).elim, fun y hy => ?_⟩
  · obtain rfl := kindv hk
    have hc' : c < 2 := hc
    exact ⟨1 + c, h_obj (a := 1 + c) (by omega) (by omega), hv _ (by omega) (by omega), rfl⟩
  · obtain rfl := kinde hk
    have hr' : r < 2 := hr
    exact ⟨3 + r, h_obj (a := 3 + r) (by omega) (by omega), by simp only [H]; omega⟩
  · have key : 5 ≤ (EC).el o r c := by
      match o with
      | 0 => rcases hk with hk | hk <;> cases hk
      | 1 => rcases hk with hk | hk <;> cases hk
      | (k + 2) => exact (by omega : 5 ≤ 5)
    show circleEnt ((EC).el o r c) ≠ _
    rw [circleEnt, if_neg (by omega), if_neg (by omega)]
    nofun
  · rcases hy with rfl | rfl
    · exact ⟨(by decide : 3 < 5), (by show [_] ≠ []; simp), wd _ _ (by decide)⟩
    · exact ⟨(by decide : 4 < 5), (by show [_] ≠ []; simp), wd _ _ (by decide)⟩

theorem eye : ∀ p n e eye, (EC).kind p = .form n e eye → ∀ r c, r < (EC).rows eye → c < (EC).cols eye →
    circleEnt ((EC).el eye r c) = .num (if r = c then 1 else 0) := fun _ _ _ _ hk => (kindf hk).elim

theorem queryOk (hB : B.Sound Pads.none) (D : Defs ℝ) (d : Prop) (o : ℕ) : QueryOk ((jC).at ((jC).scal D)) rank d o :=
  ⟨wf, hB, fun _ _ _ _ hk => (kindf hk).elim, ⟨fun _ _ _ _ _ hk => (kindf hk).elim, fun _ _ _ _ _ hk => (kindf hk).elim⟩⟩

theorem nidx_inj {x y : ℕ} (hx : x < 3) (hy : y < 3) (h : (σC).defs.nidx x = (σC).defs.nidx y) : x = y := by
  have key : ∀ x < 4, (rotStart 0 0 0).defs.nidx x = GNMEx.s.defs.nidx x := by
    intro x hx
    obtain rfl | rfl | rfl | rfl : x = 0 ∨ x = 1 ∨ x = 2 ∨ x = 3 := by omega
    · rfl
    · rfl
    · rfl
    · rfl
  have k2 : ∀ x < 3, (σC).defs.nidx x = GNMEx.s.defs.nidx x := by
    intro x hx
    obtain rfl | rfl | rfl : x = 0 ∨ x = 1 ∨ x = 2 := by omega
    · rfl
    · rfl
    · rfl
  exact GNMEx.nidx_inj (by omega) (by omega) ((k2 x hx).symm.trans (h.trans (k2 y hy)))

theorem vars : VarsOk (EC) := by
  intro o p ho hp hs l k i j hl hk hi hj h
  obtain rfl := kindv ho
  obtain rfl := kindv hp
  have h1 : l < 1 := hl
  have h2 : i < 1 := hi
  have h3 : k < 2 := hk
  have h4 : j < 2 := hj
  have h' : (σC).defs.nidx (1 + k) = (σC).defs.nidx (1 + j) := h
  have := nidx_inj (by omega) (by omega) h'
  exact ⟨rfl, by omega, by omega⟩

theorem oracle (hK : B.KronSound) {D : Defs ℝ} {b0 p0 : ℕ → ℝ} (hD : D = (σC).defs.withValues b0 p0) :
    GNMOK (jC) D H rank 1 0 [1, 2] := by
  refine ⟨elems hD _, rfl, rfl, rfl, hK, PadsOk.of_empty rfl rfl, vars, rfl, ?_, by decide⟩
  have hv := fun x h1 h2 => isVar (x := x) hD h1 h2
  subst hD
  intro c hc
  have hc' : c < 2 := hc
  obtain rfl | rfl : c = 0 ∨ c = 1 := by omega
  · exact ⟨rfl, hv 1 (by decide) (by decide), rfl⟩
  · exact ⟨rfl, hv 2 (by decide) (by decide), rfl⟩

theorem val_of (b p : ℕ → ℝ) {y : ℕ} (h0 : 0 < y) (hy : y < 5) {e : Exp ℝ}
    (hf : IsFormula ((σC).defs.withValues b p) y e) (h1 : 1 ∈ e.leaves) (h2 : 2 ∈ e.leaves) :
    ∃ ρ : ℕ → ℝ, ρ 1 = b 1 ∧ ρ 2 = b 2 ∧ ((jC).scal ((σC).defs.withValues b p)).val y = e.val realPrim p ρ := by
  have hT := (jC).scal_truth (St.atPoint_wf (hist (x0 := x0) (y0 := y0)).inv.wf.defs b p).defs
  have hh : (jC).h y = .obj y := h_obj h0 hy
  obtain ⟨ρ, hρ, e'⟩ := hT.obj y y hh (wd b p hy)
  refine ⟨ρ, hρ.variable (hf.reach h1) rfl, hρ.variable (hf.reach h2) rfl, ?_⟩
  exact e'.symm.trans (hf.val .refl hρ)

theorem isFormula (b p : ℕ → ℝ) :
    IsFormula ((σC).defs.withValues b p) 3 (.subC (.add (.mul (.var 1) (.var 1)) (.mul (.var 2) (.var 2))) 20) ∧
    IsFormula ((σC).defs.withValues b p) 4 (.addC (.sub (.var 1) (.var 2)) 2) :=
  ⟨⟨⟨_, rfl⟩, by simp [Exp.leaves]⟩, ⟨⟨_, rfl⟩, by simp [Exp.leaves]⟩⟩

theorem value (hB : B.Sound Pads.none) {D : Defs ℝ} {b0 p0 : ℕ → ℝ} (hD : D = (σC).defs.withValues b0 p0) :
    ∀ i < 1, ∀ b p, ({} : GNData ℝ).Row i D.par p →
      ∀ a < 2, MVal ((jC).point D b p) rank 1 a 0 = circRes (i * 2 + a) b := by
  subst hD
  intro i hi b p _ a ha
  obtain ⟨f3, f4⟩ := isFormula (x0 := x0) (y0 := y0) b p
  have q := queryOk (x0 := x0) (y0 := y0) (π := π) hB ((σC).defs.withValues b p) True 1
  have hl : MVal ((jC).point (σC).defs b p) rank 1 a 0 = ((jC).scal ((σC).defs.withValues b p)).val ((EC).el 1 a 0) :=
    mval_leaf ((jC).point (σC).defs b p) q.wf q.eyes (fun ⟨n, e, eye, hk⟩ => kindf hk) ha one_pos
  obtain rfl : i = 0 := by omega
  refine Eq.trans (show _ = MVal ((jC).point (σC).defs b p) rank 1 a 0 from rfl) (hl.trans ?_)
  obtain rfl | rfl : a = 0 ∨ a = 1 := by omega
  · obtain ⟨ρ, h1, h2, h3⟩ := val_of (B := B) (π := π) b p (by decide) (by decide) f3 (by simp [Exp.leaves]) (by simp [Exp.leaves])
    refine h3.trans ?_
    simp [Exp.val, h1, h2, circRes]
  · obtain ⟨ρ, h1, h2, h3⟩ := val_of (B := B) (π := π) b p (by decide) (by decide) f4 (by simp [Exp.leaves]) (by simp [Exp.leaves])
    refine h3.trans ?_
    simp [Exp.val, h1, h2, circRes]

theorem all_obj {D : Defs ℝ} {b0 p0 : ℕ → ℝ} (hD : D = (σC).defs.withValues b0 p0) :
    ∀ a y, (jC).h a = .obj y → IsVar D y ∨ H y := by
  intro a y hy
  have hy' : circleEnt a = .obj y := hy
  rw [circleEnt] at hy'
  split at hy'
  · cases hy'
  · split at hy'
    · cases hy'
      by_cases h4 : a < 3
      · exact Or.inl (isVar hD (by omega) h4)
      · exact Or.inr (by simp only [H]; omega)
    · cases hy'

theorem nonzero {k : ℕ} {b₀ b : ℕ → ℝ} (h0 : b₀ 1 + b₀ 2 ≠ 0) (hb : GNSteps 2 [1, 2] circRes (partials circRes) k b₀ b) :
    b 1 + b 2 ≠ 0 := by
  cases k with
  | zero => cases hb; exact h0
  | succ k => intro hc; have := (circRes_steps h0 hb).2.1; rw [hc] at this; simp at this

/-- What holds between the calls of `solve()`. -/
structure Inv (B : Backend ℝ) (π : Sched) (x0 y0 : ℝ) (z : GNBuf ℝ × JSt ℝ) : Prop where
  hist : ∃ U V, MHist (circleEnv (circleStart x0 y0)) rank z.2.1 U ∧ Hist realPrim z.2.2 V ∧ Orderly z.2.2.defs V H ∧
    (U 1 ∨ ∀ p, MReach (circleEnv (circleStart x0 y0)) 1 p → ¬U p)
  defs : z.2.2.defs = (circleStart x0 y0).defs.withValues z.2.2.defs.base z.2.2.defs.par
  buf : z.1.Fits 2

theorem solve_once (hB : B.Sound Pads.none) (hK : B.KronSound) {llt : Mat ℝ → Mat ℝ → Option (Mat ℝ)}
    (hL : SolvesOn llt fun n A => (toMatrix n A).PosDef) {z : GNBuf ℝ × JSt ℝ} (hz : Inv B π x0 y0 z)
    (h0 : z.2.2.defs.base 1 + z.2.2.defs.base 2 ≠ 0) (n : ℕ) :
    ∃ z', gnmSolve (jC) llt 1 1 0 {} n z = some z' ∧ Inv B π x0 y0 z' ∧
      GNSteps 2 [1, 2] circRes (partials circRes) n z.2.2.defs.base z'.2.2.defs.base := by
  obtain ⟨buf, s, σ⟩ := z
  obtain ⟨⟨U, V, hm, hs, ho, hF⟩, hD, hbuf⟩ := hz
  simp only at hm hs ho hD hbuf h0
  have hd : ({} : GNData ℝ).OK σ.defs :=
    ⟨by simp [GNData.pars], by simp [GNData.pars], (fun qs h => by cases h), (fun qs h => by cases h)⟩
  have hne : ∀ k b, GNSteps 2 [1, 2] circRes (partials circRes) k σ.defs.base b → b 1 + b 2 ≠ 0 :=
    fun k b hb => nonzero h0 hb
  obtain ⟨buf', s', σ', U', V', e, h1, -, h3, -, h5, h6, h7, h8, h9⟩ := C51_newton_partial (j := jC) (f := 1) rfl hL
    hm hs ho hF (oracle hK hD)
    (by show 0 < 2; decide) (by show 0 < 2; decide) (all_obj hD) eye (by show 0 < 1; decide) hd
    (r := circRes) (value hB hD) hbuf n (fun k _ b hb => ⟨circRes_rank (hne k b hb),
      fun i _ p _ => ⟨queryOk hB _ _ _, fun y hy => by rw [hD]; exact dom hy, fun p n e eye _ hk => (kindf hk).elim⟩⟩)
  refine ⟨(buf', s', σ'), e, ⟨⟨U', V', h5, h6, h7, h8⟩, ?_, h9⟩, h1⟩
  show σ'.defs = _
  rw [h3, hD]
  rfl

theorem start : Inv B π x0 y0 ({}, (MSt.fresh, σC)) :=
  ⟨⟨_, _, MHist.fresh, hist, orderly _, Or.inr fun _ _ h => h⟩, rfl, GNBuf.fits_new 2⟩

theorem steps_append {m : ℕ} {vs : List ℕ} {r : ℕ → (ℕ → ℝ) → ℝ} {J : ℕ → ℕ → (ℕ → ℝ) → ℝ} {n k : ℕ} {a b c : ℕ → ℝ}
    (h : GNSteps m vs r J n a b) (h' : GNSteps m vs r J k b c) : GNSteps m vs r J (n + k) a c := by
  induction h' with
  | zero => exact h
  | succ _ hs ih => exact (ih h).succ hs

theorem solves (hB : B.Sound Pads.none) (hK : B.KronSound) {llt : Mat ℝ → Mat ℝ → Option (Mat ℝ)}
    (hL : SolvesOn llt fun n A => (toMatrix n A).PosDef) (ns : List ℕ) : ∀ {z : GNBuf ℝ × JSt ℝ}, Inv B π x0 y0 z →
    z.2.2.defs.base 1 + z.2.2.defs.base 2 ≠ 0 →
    ∃ z', gnmSolves (jC) llt 1 1 0 {} ns z = some z' ∧ Inv B π x0 y0 z' ∧
      GNSteps 2 [1, 2] circRes (partials circRes) ns.sum z.2.2.defs.base z'.2.2.defs.base := by
  induction ns with
  | nil => intro z hz _; exact ⟨z, rfl, hz, .zero _⟩
  | cons n ns ih =>
      intro z hz h0
      obtain ⟨z1, e1, i1, s1⟩ := solve_once hB hK hL hz h0 n
      have h1 : z1.2.2.defs.base 1 + z1.2.2.defs.base 2 ≠ 0 := nonzero h0 s1
      obtain ⟨z2, e2, i2, s2⟩ := ih i1 h1
      refine ⟨z2, ?_, i2, ?_⟩
      · rw [gnmSolves, e1, Option.bind_some, e2]
      · rw [List.sum_cons]; exact steps_append s1 s2

end Circle

section NonLinear

variable {B : Backend ℝ} {llt : Mat ℝ → Mat ℝ → Option (Mat ℝ)}

/-- C59, `NonLinearSolve`: from every starting point with `x0 + y0 ≠ 0`, with any number of calls of `solve()` of any
numbers of iterations (at least one in all), the printed `x` and `y` satisfy the linear equation `x - y + 2 = 0` exactly
and their position between the two intersections (2, 4) and (-4, -2) of line and circle is given in closed form.
Only the sum of the numbers of iterations matters. -/
theorem C59_nonlinear (hB : B.Sound Pads.none) (hK : B.KronSound) (hL : SolvesOn llt fun n A => (toMatrix n A).PosDef)
    (π : Sched) {ns : List ℕ} {n : ℕ} (hn : ns.sum = n + 1) {x0 y0 : ℝ} (h0 : x0 + y0 ≠ 0) :
    ∃ x y, nonLinearSolve B llt π ns x0 y0 = some (x, y) ∧ y = x + 2 ∧ 0 < (x0 + y0) * (x + y) ∧
      (x - 2) * ((x0 + 4) ^ 2 + (y0 + 2) ^ 2) ^ 2 ^ n = (x + 4) * ((x0 - 2) ^ 2 + (y0 - 4) ^ 2) ^ 2 ^ n := by
  obtain ⟨z, e, hz, hs⟩ := Circle.solves hB hK hL ns (Circle.start (π := π) (x0 := x0) (y0 := y0)) h0
  rw [hn] at hs
  obtain ⟨c1, c2, c3⟩ := circRes_steps (b₀ := (circleStart x0 y0).defs.base) h0 hs
  obtain ⟨U, V, -, hh, -⟩ := hz.hist
  have hv : ∀ k < 3, z.2.2.mem.value k = z.2.2.defs.base k := by
    intro k hk
    refine (hh.inv.wf.plain k ?_ ?_).1
    · rw [hz.defs]; show k < 5; omega
    · rw [hz.defs]
      obtain rfl | rfl | rfl : k = 0 ∨ k = 1 ∨ k = 2 := by omega
      · rfl
      · rfl
      · rfl
  refine ⟨z.2.2.defs.base 1, z.2.2.defs.base 2, ?_, c1, c2, c3⟩
  rw [nonLinearSolve, e, Option.map_some, hv 1 (by omega), hv 2 (by omega)]

/-- Convergence to the intersection (2, 4) from the side `x0 + y0 > 0`: the ratio `q < 1` of the squared distances of the
start from the two intersections is squared by every iteration after the first. -/
theorem C59_nonlinear_upper (hB : B.Sound Pads.none) (hK : B.KronSound)
    (hL : SolvesOn llt fun n A => (toMatrix n A).PosDef) (π : Sched) {ns : List ℕ} {n : ℕ} (hn : ns.sum = n + 1) {x0 y0 : ℝ}
    (h0 : 0 < x0 + y0) :
    ((x0 - 2) ^ 2 + (y0 - 4) ^ 2) / ((x0 + 4) ^ 2 + (y0 + 2) ^ 2) < 1 ∧
    ∃ δ, nonLinearSolve B llt π ns x0 y0 = some (2 + δ, 4 + δ) ∧
      δ = 6 * (((x0 - 2) ^ 2 + (y0 - 4) ^ 2) / ((x0 + 4) ^ 2 + (y0 + 2) ^ 2)) ^ 2 ^ n /
        (1 - (((x0 - 2) ^ 2 + (y0 - 4) ^ 2) / ((x0 + 4) ^ 2 + (y0 + 2) ^ 2)) ^ 2 ^ n) := by
  obtain ⟨x, y, e, h1, -, h3⟩ := C59_nonlinear hB hK hL π hn h0.ne'
  set P := (x0 + 4) ^ 2 + (y0 + 2) ^ 2 with hP
  set M := (x0 - 2) ^ 2 + (y0 - 4) ^ 2 with hM
  have hM0 : 0 ≤ M := by positivity
  have hd : P = M + 12 * (x0 + y0) := by rw [hP, hM]; ring
  have hP0 : 0 < P := by linarith
  have hq : M / P < 1 := (div_lt_one hP0).2 (by linarith)
  have hQ : (M / P) ^ 2 ^ n < 1 := pow_lt_one₀ (by positivity) hq (by positivity)
  refine ⟨hq, x - 2, ?_, ?_⟩
  · rw [e, h1]; congr 2 <;> ring
  · have hPn : P ^ 2 ^ n ≠ 0 := by positivity
    have h4 : x - 2 = (x + 4) * (M / P) ^ 2 ^ n := by
      rw [div_pow, ← mul_div_assoc, eq_div_iff hPn]; exact h3
    rw [eq_div_iff (by linarith)]
    linear_combination h4

/-- Convergence to the intersection (-4, -2) from the other side. -/
theorem C59_nonlinear_lower (hB : B.Sound Pads.none) (hK : B.KronSound)
    (hL : SolvesOn llt fun n A => (toMatrix n A).PosDef) (π : Sched) {ns : List ℕ} {n : ℕ} (hn : ns.sum = n + 1) {x0 y0 : ℝ}
    (h0 : x0 + y0 < 0) :
    ((x0 + 4) ^ 2 + (y0 + 2) ^ 2) / ((x0 - 2) ^ 2 + (y0 - 4) ^ 2) < 1 ∧
    ∃ δ, nonLinearSolve B llt π ns x0 y0 = some (-4 - δ, -2 - δ) ∧
      δ = 6 * (((x0 + 4) ^ 2 + (y0 + 2) ^ 2) / ((x0 - 2) ^ 2 + (y0 - 4) ^ 2)) ^ 2 ^ n /
        (1 - (((x0 + 4) ^ 2 + (y0 + 2) ^ 2) / ((x0 - 2) ^ 2 + (y0 - 4) ^ 2)) ^ 2 ^ n) := by
  obtain ⟨x, y, e, h1, -, h3⟩ := C59_nonlinear hB hK hL π hn h0.ne
  set P := (x0 + 4) ^ 2 + (y0 + 2) ^ 2 with hP
  set M := (x0 - 2) ^ 2 + (y0 - 4) ^ 2 with hM
  have hP0 : 0 ≤ P := by positivity
  have hd : P = M + 12 * (x0 + y0) := by rw [hP, hM]; ring
  have hM0 : 0 < M := by linarith
  have hq : P / M < 1 := (div_lt_one hM0).2 (by linarith)
  have hQ : (P / M) ^ 2 ^ n < 1 := pow_lt_one₀ (by positivity) hq (by positivity)
  refine ⟨hq, -4 - x, ?_, ?_⟩
  · rw [e, h1]; congr 2 <;> ring
  · have hMn : M ^ 2 ^ n ≠ 0 := by positivity
    have h4 : x + 4 = (x - 2) * (P / M) ^ 2 ^ n := by
      rw [div_pow, ← mul_div_assoc, eq_div_iff hMn]; exact h3.symm
    rw [eq_div_iff (by linarith)]
    linear_combination (-1) * h4

/-- The program as it stands (`x{10}`, `y{15}`, three iterations twice) prints the intersection (2, 4) up to `10⁻¹²`. -/
theorem C59_nonlinear_main (hB : B.Sound Pads.none) (hK : B.KronSound)
    (hL : SolvesOn llt fun n A => (toMatrix n A).PosDef) (π : Sched) :
    ∃ δ, nonLinearSolve B llt π [3, 3] 10 15 = some (2 + δ, 4 + δ) ∧ 0 < δ ∧ δ < 1 / 10 ^ 12 := by
  obtain ⟨-, δ, e, h⟩ := C59_nonlinear_upper hB hK hL π (ns := [3, 3]) (n := 5) (by decide) (x0 := 10) (y0 := 15) (by norm_num)
  refine ⟨δ, e, ?_, ?_⟩
  · rw [h]; norm_num
  · rw [h]; norm_num

end NonLinear

/-- The hypotheses of the theorems of this file hold: the Eigen kernels are configured in /repo, and a solver exists. -/
example : ∃ llt : Mat ℝ → Mat ℝ → Option (Mat ℝ), ∃ δ,
    nonLinearSolve (backend ⟨.eigen, false, .cpu⟩ .seq) llt .seq [3, 3] 10 15 = some (2 + δ, 4 + δ) ∧ 0 < δ ∧ δ < 1 / 10 ^ 12 := by
  obtain ⟨llt, hL⟩ := exists_llt
  exact ⟨llt, C59_nonlinear_main (backend_sound0 (show _ = _ from rfl) _) (backend_kronSound (show _ = _ from rfl) rfl _) hL _⟩

end CoolDiff
