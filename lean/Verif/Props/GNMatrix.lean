import Verif.Apps.GNMProof

/-!
# C51: the Gauss–Newton driver with a matrix oracle
-/

set_option linter.unusedSectionVars false

namespace CoolDiff

section general

variable {K : Type} [Field K] [DecidableEq K] {j : JCtx K} {H : ℕ → Prop} {rank : ℕ → ℕ} {F X f : ℕ}
  {vs : List ℕ} {d : GNData K}
variable {llt : Mat K → Mat K → Option (Mat K)} {Ok : ℕ → (ℕ → ℕ → K) → Prop}

/-- The driver finds the unknowns. -/
theorem GNMOK.vars_eq {D : Defs K} (hO : GNMOK j D H rank F X vs) : gnmVars j X = some vs := by
  rw [gnmVars, hO.row, Nat.one_mul, ← hO.len]
  have key : ∀ n ≤ vs.length, (List.range n).mapM (gnmVar j X) = some (vs.take n) := by
    intro n
    induction n with
    | zero => intro _; rfl
    | succ n ih =>
        intro hn
        have hn' : n < vs.length := by omega
        have h1 : gnmVar j X n = some vs[n] := by
          have hlt : n < j.E.cols X := by rw [← hO.len]; exact hn'
          rw [gnmVar, Nat.div_eq_of_lt hlt, Nat.mod_eq_of_lt hlt, (hO.el n hn').1]
        rw [List.range_succ, List.mapM_append, ih (by omega)]
        have h2 : vs.take (n + 1) = vs.take n ++ [vs[n]] := by rw [List.take_succ_eq_append_getElem hn']
        rw [h2]
        simp only [List.mapM_cons, List.mapM_nil, h1, Option.pure_def, Option.bind_eq_bind, Option.bind_some]
  rw [key _ (le_refl _), List.take_length]

/-- C51: the Gauss–Newton driver with a matrix oracle, over any field and with any linear solver.  `solve()` with `n` iterations, started after
any run of scalar calls and matrix queries: the Variables end at a point reached by `n` Gauss–Newton steps for the
residuals `r (i*R+a)` (element `a` of the error function with row `i` of the data in the data Parameters, `R` elements)
and their derivatives; nothing but the values of the unknowns and of the data Parameters changes; the driver can be
used again.  Partial: as `C46_eval_partial`. -/
theorem C51_iterations_partial (hL : SolvesOn llt Ok) {s : MSt K} {σ : St K} {U V : ℕ → Prop}
    (hm : MHist j.E rank s U) (hs : Hist j.P σ V) (hord : Orderly σ.defs V H)
    (hF : U F ∨ ∀ p, MReach j.E F p → ¬U p) (hO : GNMOK j σ.defs H rank F X vs) (hcol : 0 < j.E.cols X)
    (hf : rank F < f) (hd : d.OK σ.defs) {r : ℕ → (ℕ → K) → K}
    {J : ℕ → ℕ → (ℕ → K) → K} (hM : GNMModel j σ.defs rank F X vs d σ.defs.par r J) {buf : GNBuf K}
    (hbuf : buf.Fits vs.length) (n : ℕ)
    (hok : ∀ k < n, ∀ b, GNSteps (d.size * j.E.rows F) vs r J k σ.defs.base b →
      (∀ i < d.size, ∀ p, d.Row i σ.defs.par p → QueryOk (j.point σ.defs b p) rank True F) ∧
      Ok vs.length fun a c => normalA (d.size * j.E.rows F) J b (vs.getD a 0) (vs.getD c 0)) :
    ∃ buf' s' σ' U' V', gnmSolve j llt f F X d n (buf, (s, σ)) = some (buf', (s', σ')) ∧
      GNSteps (d.size * j.E.rows F) vs r J n σ.defs.base σ'.defs.base ∧
      σ'.defs = σ.defs.withValues σ'.defs.base σ'.defs.par ∧ (∀ q, q ∉ d.pars → σ'.defs.par q = σ.defs.par q) ∧
      MHist j.E rank s' U' ∧ Hist j.P σ' V' ∧ Orderly σ'.defs V' H ∧ (U' F ∨ ∀ p, MReach j.E F p → ¬U' p) ∧
      buf'.Fits vs.length := by
  have hpos : 0 < vs.length := by rw [hO.len]; exact hcol
  obtain ⟨mA, A, eA, hA⟩ := allocOnce_spec hpos hpos hbuf.A
  obtain ⟨mB, B, eB, hB'⟩ := allocOnce_spec hpos one_pos hbuf.B
  obtain ⟨mX, eX⟩ : ∃ m, allocOnce buf.delX vs.length 1 = some m := by
    cases hx : buf.delX with
    | none => obtain ⟨m, e, -⟩ := Mat.new_spec (K := K) hpos one_pos; exact ⟨m, e⟩
    | some m => exact ⟨m, rfl⟩
  obtain ⟨buf', ⟨s', σ'⟩, b', e, hinv, hp, hsteps, A', B'', hb⟩ := gnmLoop_spec hL hO hf hd hM n
    (b := σ.defs.base) (z := (s, σ)) ⟨⟨V, hs, hord⟩, ⟨σ.defs.par, rfl⟩, ⟨U, hm, hF⟩⟩ (fun _ _ => rfl)
    (buf := { buf with A := some mA, B := some mB, delX := some mX }) (A := A) (B := fun i => B i 0)
    ⟨⟨mA, rfl, hA⟩, ⟨mB, rfl, hB'.congr fun i j _ hj => by rw [Nat.lt_one_iff.1 hj]⟩, hbuf.tA1, hbuf.tA2, hbuf.tB, hbuf.jac⟩ hok
  obtain ⟨p, hp'⟩ := hinv.defs
  obtain ⟨V', hV', ho'⟩ := hinv.hist
  obtain ⟨U', hU', hF'⟩ := hinv.mat
  simp only at hp' hV' hU'
  have h1 : σ'.defs.base = b' := by rw [hp']; rfl
  have h2 : σ'.defs.par = p := by rw [hp']; rfl
  refine ⟨buf', s', σ', U', V', ?_, by rw [h1]; exact hsteps, by rw [h1, h2]; exact hp', hp, hU', hV', ?_, hF', hb.fits⟩
  · simp only [gnmSolve, if_pos (And.intro hO.col hO.row), hO.vars_eq, Option.bind_some, eX, eA, eB, e]
  · rw [hp']; exact Orderly.of_items (D := σ.defs) (D' := σ.defs.withValues b' p) rfl ho'

end general

/-! ## Over the reals -/

/-- A heap with given values. -/
noncomputable def St.atPoint (D : Defs ℝ) (b p : ℕ → ℝ) : St ℝ :=
  ⟨D.withValues b p, ⟨fun _ => false, b, fun _ => 0, fun _ _ => 0⟩⟩

theorem St.atPoint_wf {D : Defs ℝ} (hD : D.WF) (b p : ℕ → ℝ) : (St.atPoint D b p).WF :=
  ⟨{ hD with },
    fun _ _ _ => ⟨rfl, rfl, rfl⟩⟩

/-- Where the error function can be differentiated. -/
structure GNMDom (j : JCtx ℝ) (D : Defs ℝ) (H : ℕ → Prop) (rank : ℕ → ℕ) (F : ℕ) (b p : ℕ → ℝ) : Prop where
  query : QueryOk (j.point D b p) rank True F
  scalar : ∀ y, H y → InDomain (D.withValues b p) y
  maps : ∀ q n e eye, MReach j.E F q → j.E.kind q = .form n e eye →
    MapsOk j.E (j.scal (D.withValues b p)).val (MVal (j.point D b p) rank) e

/-- C51: the Gauss–Newton driver with a matrix oracle.  `r (i*R+a) b` is what the definitions say element `a` of the error function is worth with
row `i` of the data in the data Parameters and the values `b` in the Variables.  If at every point on the way the
operators are applied inside their domains of differentiability and the Jacobian has linearly independent columns,
`solve()` with `n` iterations takes exactly `n` Gauss–Newton steps with the true partial derivatives of the residuals,
and there is only one such point.  Partial: as `C46_eval_partial`. -/
theorem C51_newton_partial {j : JCtx ℝ} (hPj : j.P = realPrim) {H : ℕ → Prop} {rank : ℕ → ℕ} {F X f : ℕ}
    {vs : List ℕ} {d : GNData ℝ} {llt : Mat ℝ → Mat ℝ → Option (Mat ℝ)}
    (hL : SolvesOn llt fun n A => (toMatrix n A).PosDef) {s : MSt ℝ} {σ : St ℝ} {U V : ℕ → Prop}
    (hm : MHist j.E rank s U) (hs : Hist j.P σ V) (hord : Orderly σ.defs V H)
    (hF : U F ∨ ∀ p, MReach j.E F p → ¬U p) (hO : GNMOK j σ.defs H rank F X vs) (hcol : 0 < j.E.cols X)
    (hrow : 0 < j.E.rows F)
    (hall : ∀ a y, j.h a = .obj y → IsVar σ.defs y ∨ H y)
    (hey : ∀ p n e eye, j.E.kind p = .form n e eye → ∀ r c, r < j.E.rows eye → c < j.E.cols eye →
      j.h (j.E.el eye r c) = .num (if r = c then 1 else 0))
    (hf : rank F < f) (hd : d.OK σ.defs) {r : ℕ → (ℕ → ℝ) → ℝ}
    (hr : ∀ i < d.size, ∀ b p, d.Row i σ.defs.par p → ∀ a < j.E.rows F,
      MVal (j.point σ.defs b p) rank F a 0 = r (i * j.E.rows F + a) b)
    {buf : GNBuf ℝ} (hbuf : buf.Fits vs.length) (n : ℕ)
    (hok : ∀ k < n, ∀ b, GNSteps (d.size * j.E.rows F) vs r (partials r) k σ.defs.base b →
      FullRank (d.size * j.E.rows F) vs (partials r) b ∧
      ∀ i < d.size, ∀ p, d.Row i σ.defs.par p → GNMDom j σ.defs H rank F b p) :
    ∃ buf' s' σ' U' V', gnmSolve j llt f F X d n (buf, (s, σ)) = some (buf', (s', σ')) ∧
      GNSteps (d.size * j.E.rows F) vs r (partials r) n σ.defs.base σ'.defs.base ∧
      (∀ b, GNSteps (d.size * j.E.rows F) vs r (partials r) n σ.defs.base b → b = σ'.defs.base) ∧
      σ'.defs = σ.defs.withValues σ'.defs.base σ'.defs.par ∧ (∀ q, q ∉ d.pars → σ'.defs.par q = σ.defs.par q) ∧
      MHist j.E rank s' U' ∧ Hist j.P σ' V' ∧ Orderly σ'.defs V' H ∧ (U' F ∨ ∀ p, MReach j.E F p → ¬U' p) ∧
      buf'.Fits vs.length := by
  have hwf := hs.inv.wf
  set R := j.E.rows F with hRdef
  have hrow' : ∀ i, ∃ p, i < d.size → d.Row i σ.defs.par p := by
    intro i
    by_cases hi : i < d.size
    · obtain ⟨p, -, hp⟩ := setDataUnit_spec (σ := σ) hd hi; exact ⟨p, fun _ => hp⟩
    · exact ⟨fun _ => 0, fun h => absurd h hi⟩
  choose pr hpr using hrow'
  set J : ℕ → ℕ → (ℕ → ℝ) → ℝ := fun n x b =>
    MDer (j.point σ.defs b (pr (n / R))) X rank F (n % R) 0 0 (vs.idxOf x) with hJ
  have hM : GNMModel j σ.defs rank F X vs d σ.defs.par r J :=
    ⟨hr, fun i hi b p hp a ha c hc => by
      have e1 : (i * j.E.rows F + a) / R = i := flat_div ha
      have e2 : (i * j.E.rows F + a) % R = a := flat_mod ha
      simp only [hJ, e1, e2, hO.nodup.idxOf_getElem]
      rw [hp.unique hd hi (hpr i hi)]⟩
  have hJeq : ∀ k < n, ∀ b, GNSteps (d.size * R) vs r (partials r) k σ.defs.base b →
      ∀ m < d.size * R, ∀ x ∈ vs, J m x b = partials r m x b := by
    intro k hk b hb m hmlt x hx
    have hi : m / R < d.size := Nat.div_lt_of_lt_mul (by rw [Nat.mul_comm]; exact hmlt)
    have ha : m % R < R := Nat.mod_lt _ hrow
    have hc := List.idxOf_lt_length_iff.2 hx
    obtain ⟨hx1, hx2, hx3⟩ := hO.el _ hc
    rw [List.getElem_idxOf] at hx1 hx2 hx3
    have hdom := (hok k hk b hb).2 _ hi _ (hpr _ hi)
    have hder := mval_hasDerivAt (rank := rank) j hPj (σ := St.atPoint σ.defs b (pr (m / R))) (H := H)
      (St.atPoint_wf hwf.defs _ _) (o := F) (X := X)
      (ElemsOk.of_items (D := σ.defs) (D' := σ.defs.withValues b (pr (m / R))) rfl rfl rfl hO.elems)
      (fun a y h => (hall a y h).imp (fun h => ⟨h.1, h.2.1, h.2.2⟩) id) hdom.query hdom.scalar hey hdom.maps
      (a := 0) (b := vs.idxOf x) (x' := x) (by rw [hO.row]; exact one_pos) (by rw [← hO.len]; exact hc)
      ⟨hx2.1, hx2.2.1, hx2.2.2⟩ hx3 (l := m % R) (k := 0) ha (by rw [hO.col]; exact one_pos)
    have e : (fun t => MVal (j.at (j.scal (assignNum x t (St.atPoint σ.defs b (pr (m / R)))).defs)) rank F (m % R) 0) =
        fun t => r m (Function.update b x t) := by
      funext t
      rw [assignNum_withValues (σ := St.atPoint σ.defs b (pr (m / R))) (D := σ.defs) (b := b) (p := pr (m / R)) rfl hx2.2.2 t]
      have := hr _ hi (Function.update b x t) _ (hpr _ hi) (m % R) ha
      rw [div_mul_mod] at this
      exact this
    rw [e] at hder
    exact hder.deriv.symm
  have hto := GNSteps.congr hJeq
  obtain ⟨buf', s', σ', U', V', e, h1, h2⟩ := C51_iterations_partial hL hm hs hord hF hO hcol hf hd hM hbuf n
    (fun k hk b hb => by
      have hb' := hto k (by omega) b hb
      have hfr : FullRank (d.size * R) vs J b := fun v hv => (hok k hk b hb').1 v fun i hi => by
        rw [← hv i hi]; congr 1
        exact List.map_congr_left fun z hz => by rw [hJeq k hk b hb' i hi z hz]
      exact ⟨fun i hi p hp => ((hok k hk b hb').2 i hi p hp).query, normalA_posDef hO.nodup hfr⟩)
  have h1' := hto n (le_refl _) _ h1
  exact ⟨buf', s', σ', U', V', e, h1',
    fun b hb => GNSteps.unique hO.nodup (fun k hk b hb => (hok k hk b hb).1) n (le_refl _) hb h1', h2⟩

/-! ## A program that meets the hypotheses -/

namespace GNMEx

/-- `GNMatrix` of example/GaussNewton/main.cpp:100-134: `Matrix<Variable> V(1,3)` with elements θ, tx, ty (objects 1 to 3),
the elements `cos(θ)`, `sin(θ)`, `-sin(θ)`, `cos(θ)` of R (objects 4 to 7), Parameters PX (0, 1) and PY (2, 3). -/
noncomputable def s : St ℝ :=
  (newPar 0 (newPar 0 (newPar 0 (newPar 0
    (define 7 (.fn .cos (.var 1)) (newExpr (define 6 (.neg (.fn .sin (.var 1))) (newExpr
      (define 5 (.fn .sin (.var 1)) (newExpr (define 4 (.fn .cos (.var 1)) (newExpr
        (newVar (-20) (newVar 20 (newVar 0.5142 St.init).2).2).2).2)).2)).2)).2)).2).2).2).2

theorem s_hist : Hist realPrim s (fun _ => False) :=
  .newPar 0 (.newPar 0 (.newPar 0 (.newPar 0 (.define 7 _ (.newExpr (.define 6 _ (.newExpr (.define 5 _ (.newExpr
    (.define 4 _ (.newExpr (.newVar _ (.newVar _ (.newVar _ .init))))
      (by decide) nofun (by decide) (by decide))) (by decide) nofun (by decide) (by decide)))
      (by decide) nofun (by decide) (by decide))) (by decide) nofun (by decide) (by decide)))))

theorem s_wd {y : ℕ} (h : y < 8) : WellDefined s.defs y :=
  (Acyclic.of_ordered (by decide) (by decide)).wellDefined s_hist.inv.wf.defs.closed h

/-- `V` (0), `t(2,1,V.getMatrixPtr()+1)` (1), `R` (2), `PX` (3), `PY` (4), `J = PY - (R*PX + t)` (5), the identity (6):
`t` is a view of two elements of `V`. -/
noncomputable def E : MEnv ℝ where
  kind := fun o => match o with
    | 0 => .var
    | 1 => .var
    | 2 => .exp
    | 3 => .par
    | 4 => .par
    | 5 => .form 50 (.bin 51 .sub (.obj 4) (.bin 52 .add (.bin 53 .mul (.obj 2) (.obj 3)) (.obj 1))) 6
    | _ => .num
  rows := fun o => match o with
    | 1 => 2
    | 2 => 2
    | 3 => 2
    | 4 => 2
    | 5 => 2
    | _ => 1
  cols := fun o => match o with
    | 0 => 3
    | 2 => 2
    | _ => 1
  el := fun o r c => match o with
    | 0 => 1 + c
    | 1 => 2 + r
    | 2 => 4 + 2 * r + c
    | 3 => 8 + r
    | 4 => 10 + r
    | _ => 12
  vid := fun s' => s.defs.nidx s'

noncomputable def h : ℕ → Ent ℝ := fun a =>
  if a = 0 then .num 0 else if a < 8 then .obj a else if a < 12 then .par (a - 8) else .num 1

noncomputable def j : JCtx ℝ := ⟨backend ⟨.eigen, false, .cpu⟩ Sched.seq, Sched.seq, E, realPrim, h⟩

def rank : ℕ → ℕ | 5 => 1 | _ => 0

def H (y : ℕ) : Prop := y = 4 ∨ y = 5 ∨ y = 6 ∨ y = 7

theorem kindf {o n e eye} (hk : E.kind o = .form n e eye) : o = 5 ∧ n = 50 ∧
    e = .bin 51 .sub (.obj 4) (.bin 52 .add (.bin 53 .mul (.obj 2) (.obj 3)) (.obj 1)) ∧ eye = 6 := by
  match o with
  | 0 => simp [E] at hk
  | 1 => simp [E] at hk
  | 2 => simp [E] at hk
  | 3 => simp [E] at hk
  | 4 => simp [E] at hk
  | 5 => simp only [E, MKind.form.injEq] at hk; exact ⟨rfl, hk.1.symm, hk.2.1.symm, hk.2.2.symm⟩
  | (k + 6) => simp [E] at hk

theorem kindv {o} (hk : E.kind o = .var) : o = 0 ∨ o = 1 := by
  match o with
  | 0 => simp
  | 1 => simp
  | 2 => simp [E] at hk
  | 3 => simp [E] at hk
  | 4 => simp [E] at hk
  | 5 => simp [E] at hk
  | (k + 6) => simp [E] at hk

theorem kinde {o} (hk : E.kind o = .exp) : o = 2 := by
  match o with
  | 0 => simp [E] at hk
  | 1 => simp [E] at hk
  | 2 => rfl
  | 3 => simp [E] at hk
  | 4 => simp [E] at hk
  | 5 => simp [E] at hk
  | (k + 6) => simp [E] at hk

theorem wf : E.WF rank := by
  refine ⟨fun o => by simp only [E]; split <;> omega, fun o => by simp only [E]; split <;> omega, fun o n e eye hk => ?_⟩
  obtain ⟨rfl, rfl, rfl, rfl⟩ := kindf hk
  refine ⟨rfl, rfl, rfl, ?_, rfl, rfl, ?_⟩
  · simp [DimOk, MNode.dims, MBin.dimOk, MBin.padOk, MBin.odims, E]
  · intro q hq
    simp only [MEnv.item, MNode.objs, List.mem_append, List.mem_singleton] at hq
    rcases hq with (rfl | (rfl | rfl) | rfl) | rfl <;> decide

theorem isVar {x : ℕ} (h1 : 0 < x) (h2 : x < 4) : IsVar s.defs x := by
  obtain rfl | rfl | rfl : x = 1 ∨ x = 2 ∨ x = 3 := by omega
  · exact ⟨by decide, by decide, rfl⟩
  · exact ⟨by decide, by decide, rfl⟩
  · exact ⟨by decide, by decide, rfl⟩

theorem h_obj {a : ℕ} (h1 : 0 < a) (h2 : a < 8) : h a = .obj a := by
  rw [h, if_neg (by omega), if_pos h2]

theorem elems (S : Set ℕ) : ElemsOk j s.defs S H := by
  refine ⟨fun o _ hk r c hr hc => ?_, fun o _ hk r c hr hc => ?_, fun o _ hk r c hr hc y => ?_,
    fun o _ n e eye hk a ha => ?_, fun y hy => ?_⟩
  · rcases kindv hk with rfl | rfl
    · have hc' : c < 3 := hc
      exact ⟨1 + c, h_obj (a := 1 + c) (by omega) (by omega), isVar (by omega) (by omega), rfl⟩
    · have hr' : r < 2 := hr
      exact ⟨2 + r, h_obj (a := 2 + r) (by omega) (by omega), isVar (by omega) (by omega), rfl⟩
  · obtain rfl := kinde hk
    have hr' : r < 2 := hr
    have hc' : c < 2 := hc
    exact ⟨4 + 2 * r + c, h_obj (a := 4 + 2 * r + c) (by omega) (by omega), by simp only [H]; omega⟩
  · have key : 8 ≤ E.el o r c := by
      match o with
      | 0 => rcases hk with hk | hk <;> cases hk
      | 1 => rcases hk with hk | hk <;> cases hk
      | 2 => rcases hk with hk | hk <;> cases hk
      | 3 => exact Nat.le_add_right _ _
      | 4 => exact (by omega : 8 ≤ 10).trans (Nat.le_add_right 10 r)
      | 5 => rcases hk with hk | hk <;> cases hk
      | (k + 6) => exact (by omega : 8 ≤ 12)
    show h (E.el o r c) ≠ _
    rw [h, if_neg (by omega), if_neg (by omega)]
    split <;> nofun
  · obtain ⟨rfl, rfl, rfl, rfl⟩ := kindf hk
    simp [MNode.scals] at ha
  · rcases hy with rfl | rfl | rfl | rfl
    · exact ⟨by decide, by decide, s_wd (by decide)⟩
    · exact ⟨by decide, by decide, s_wd (by decide)⟩
    · exact ⟨by decide, by decide, s_wd (by decide)⟩
    · exact ⟨by decide, by decide, s_wd (by decide)⟩

theorem s_items : ∃ a b c d e f g i k, s.defs.items 4 = [.op1 a (.mulC 1) (.op1 b (.fn .cos) (.leaf 1))] ∧
    s.defs.items 5 = [.op1 c (.mulC 1) (.op1 d (.fn .sin) (.leaf 1))] ∧
    s.defs.items 6 = [.op1 e (.mulC 1) (.op1 f (.mulC (-1)) (.op1 g (.fn .sin) (.leaf 1)))] ∧
    s.defs.items 7 = [.op1 i (.mulC 1) (.op1 k (.fn .cos) (.leaf 1))] :=
  ⟨_, _, _, _, _, _, _, _, _, rfl, rfl, rfl, rfl⟩

theorem s_reach {y q : ℕ} (hy : H y) (h : Reach s.defs y q) : q = y ∨ q = 1 := by
  obtain ⟨a, b, c, d, e, f, g, i, k, i4, i5, i6, i7⟩ := s_items
  have h1 : s.defs.items 1 = [] := rfl
  induction h with
  | refl => simp
  | step _ hm hp ih =>
      rcases ih with rfl | rfl
      · rcases hy with rfl | rfl | rfl | rfl
        · rw [i4] at hm; simp only [List.mem_singleton] at hm; subst hm; simp [Node.leaves] at hp; omega
        · rw [i5] at hm; simp only [List.mem_singleton] at hm; subst hm; simp [Node.leaves] at hp; omega
        · rw [i6] at hm; simp only [List.mem_singleton] at hm; subst hm; simp [Node.leaves] at hp; omega
        · rw [i7] at hm; simp only [List.mem_singleton] at hm; subst hm; simp [Node.leaves] at hp; omega
      · rw [h1] at hm; simp at hm

theorem orderly (V : ℕ → Prop) : Orderly s.defs V H := by
  refine Orderly.of_shallow fun o ho q hq hqo i hi p hp => ?_
  have h1 : s.defs.items 1 = [] := rfl
  rcases s_reach ho hq with rfl | rfl
  · exact absurd rfl hqo
  · rw [h1] at hi; simp at hi

theorem dom {b p : ℕ → ℝ} {y : ℕ} (hy : H y) : InDomain (s.defs.withValues b p) y := by
  intro ρ _ q hq
  obtain ⟨a, b, c, d, e, f, g, i, k, i4, i5, i6, i7⟩ := s_items
  have hi : (s.defs.withValues b p).items = s.defs.items := rfl
  rcases s_reach hy (hq.of_items rfl) with rfl | rfl
  · rw [show ∀ b p, (s.defs.withValues b p).items = s.defs.items from fun _ _ => rfl]
    rcases hy with rfl | rfl | rfl | rfl
    · rw [i4]; simp [SeqInDom, Node.InDom, Op1.Dom, Fn.Dom]
    · rw [i5]; simp [SeqInDom, Node.InDom, Op1.Dom, Fn.Dom]
    · rw [i6]; simp [SeqInDom, Node.InDom, Op1.Dom, Fn.Dom]
    · rw [i7]; simp [SeqInDom, Node.InDom, Op1.Dom, Fn.Dom]
  · rw [show ∀ b p, (s.defs.withValues b p).items 1 = [] from fun _ _ => rfl]; trivial

theorem eye : ∀ p n e eye, E.kind p = .form n e eye → ∀ r c, r < E.rows eye → c < E.cols eye →
    h (E.el eye r c) = .num (if r = c then 1 else 0) := by
  intro p n e eye hk r c hr hc
  obtain ⟨rfl, rfl, rfl, rfl⟩ := kindf hk
  have hr' : r < 1 := hr
  have hc' : c < 1 := hc
  rw [if_pos (by omega)]
  rfl

theorem queryOk (D : Defs ℝ) (d : Prop) (o : ℕ) : QueryOk (j.at (j.scal D)) rank d o := by
  have hg : Cfg.CPU ⟨.eigen, false, .cpu⟩ := rfl
  refine ⟨wf, backend_sound hg _ (Or.inl rfl), fun p n e eye' hk r c hr hc => ?_,
    ⟨fun _ _ _ _ _ _ _ => backend_invSound hg rfl _, ?_⟩⟩
  · have : j.h (E.el eye' r c) = .num (if r = c then 1 else 0) := eye p n e eye' hk r c hr hc
    show (j.scal D).val (E.el eye' r c) = _
    simp only [JCtx.scal, this]
  · intro p _ n e eye hk
    obtain ⟨rfl, rfl, rfl, rfl⟩ := kindf hk
    exact ⟨trivial, ⟨trivial, trivial⟩, trivial⟩

theorem nidx_inj {x y : ℕ} (hx : x < 4) (hy : y < 4) (h : s.defs.nidx x = s.defs.nidx y) : x = y := by
  have key : ∀ x < 4, ∀ y < 4, s.defs.nidx x = s.defs.nidx y → x = y := by decide
  exact key x hx y hy h

/-- `t` shares its elements with `V` but has another number of elements. -/
theorem vars : VarsOk E := by
  intro o p ho hp hs l k i j hl hk hi hj h
  rcases kindv ho with rfl | rfl <;> rcases kindv hp with rfl | rfl
  · have h1 : l < 1 := hl
    have h2 : i < 1 := hi
    have h3 : k < 3 := hk
    have h4 : j < 3 := hj
    have := nidx_inj (x := 1 + k) (y := 1 + j) (by omega) (by omega) h
    exact ⟨rfl, by omega, by omega⟩
  · exact absurd hs (by decide)
  · exact absurd hs (by decide)
  · have h1 : l < 2 := hl
    have h2 : i < 2 := hi
    have h3 : k < 1 := hk
    have h4 : j < 1 := hj
    have := nidx_inj (x := 2 + l) (y := 2 + i) (by omega) (by omega) h
    exact ⟨rfl, by omega, by omega⟩

/-- Two points and their images. -/
noncomputable def data (y0 y1 y2 y3 : ℝ) : GNData ℝ :=
  { dx := some [0, 1], x := some ⟨2, 2, [0, 0, 1, 0]⟩, dy := some [2, 3], y := some ⟨2, 2, [y0, y1, y2, y3]⟩, size := 2 }

theorem rep (a b c d : ℝ) : Rep (⟨2, 2, [a, b, c, d]⟩ : Mat ℝ) 2 2 fun i j => [a, b, c, d].getD (i * 2 + j) 0 := by
  refine ⟨by omega, by omega, rfl, rfl, rfl, fun i j hi hj => ?_⟩
  obtain rfl | rfl : i = 0 ∨ i = 1 := by omega
  · obtain rfl | rfl : j = 0 ∨ j = 1 := by omega
    · rfl
    · rfl
  · obtain rfl | rfl : j = 0 ∨ j = 1 := by omega
    · rfl
    · rfl

theorem data_ok (y0 y1 y2 y3 : ℝ) : (data y0 y1 y2 y3).OK s.defs :=
  ⟨by simp [GNData.pars, data], by simp [GNData.pars, data]; decide,
    fun qs h => by cases h; exact ⟨_, _, rfl, rep 0 0 1 0⟩, fun qs h => by cases h; exact ⟨_, _, rfl, rep y0 y1 y2 y3⟩⟩

/-- The residuals: image minus rotated and translated point. -/
noncomputable def res (y0 y1 y2 y3 : ℝ) (n : ℕ) (b : ℕ → ℝ) : ℝ :=
  match n with
  | 0 => y0 - b 2
  | 1 => y1 - b 3
  | 2 => y2 - (Real.cos (b 1) + b 2)
  | 3 => y3 - (-Real.sin (b 1) + b 3)
  | _ => 0

theorem val_exp (b p : ℕ → ℝ) :
    (j.scal (s.defs.withValues b p)).val 4 = Real.cos (b 1) ∧ (j.scal (s.defs.withValues b p)).val 5 = Real.sin (b 1) ∧
    (j.scal (s.defs.withValues b p)).val 6 = -Real.sin (b 1) ∧ (j.scal (s.defs.withValues b p)).val 7 = Real.cos (b 1) := by
  have hT := j.scal_truth (St.atPoint_wf s_hist.inv.wf.defs b p).defs
  have hw : ∀ y < 8, WellDefined (s.defs.withValues b p) y := fun y hy => (s_wd hy).of_items rfl
  have key : ∀ y, 0 < y → y < 8 → ∀ e : Exp ℝ, IsFormula (s.defs.withValues b p) y e → 1 ∈ e.leaves →
      ∃ ρ : ℕ → ℝ, ρ 1 = b 1 ∧ (j.scal (s.defs.withValues b p)).val y = e.val realPrim p ρ := by
    intro y h0 hy e hf h1
    obtain ⟨ρ, hρ, e'⟩ := hT.obj y y (h_obj h0 hy) (hw y hy)
    refine ⟨ρ, hρ.variable (hf.reach h1) rfl, ?_⟩
    exact e'.symm.trans (hf.val .refl hρ)
  refine ⟨?_, ?_, ?_, ?_⟩
  · obtain ⟨ρ, h1, h2⟩ := key 4 (by decide) (by decide) (.fn .cos (.var 1)) ⟨⟨_, rfl⟩, by decide⟩ (by simp [Exp.leaves])
    rw [h2]; simp [Exp.val, h1, Op1.sem, realPrim]
  · obtain ⟨ρ, h1, h2⟩ := key 5 (by decide) (by decide) (.fn .sin (.var 1)) ⟨⟨_, rfl⟩, by decide⟩ (by simp [Exp.leaves])
    rw [h2]; simp [Exp.val, h1, Op1.sem, realPrim]
  · obtain ⟨ρ, h1, h2⟩ := key 6 (by decide) (by decide) (.neg (.fn .sin (.var 1))) ⟨⟨_, rfl⟩, by decide⟩
      (by simp [Exp.leaves])
    rw [h2]; simp [Exp.val, h1, Op1.sem, realPrim]
  · obtain ⟨ρ, h1, h2⟩ := key 7 (by decide) (by decide) (.fn .cos (.var 1)) ⟨⟨_, rfl⟩, by decide⟩ (by simp [Exp.leaves])
    rw [h2]; simp [Exp.val, h1, Op1.sem, realPrim]

theorem val_var (b p : ℕ → ℝ) {x : ℕ} (h0 : 0 < x) (h : x < 4) : (j.scal (s.defs.withValues b p)).val x = b x := by
  have hT := j.scal_truth (St.atPoint_wf s_hist.inv.wf.defs b p).defs
  obtain ⟨ρ, hρ, e⟩ := hT.obj x x (h_obj h0 (by omega)) ((s_wd (y := x) (by omega)).of_items rfl)
  exact e.symm.trans (hρ.variable .refl (isVar h0 h).2.2)

theorem val_par (b p : ℕ → ℝ) {k : ℕ} (h : k < 4) : (j.scal (s.defs.withValues b p)).val (8 + k) = p k := by
  have e : j.h (8 + k) = .par k := by
    show GNMEx.h (8 + k) = _
    rw [GNMEx.h, if_neg (by omega), if_neg (by omega), if_pos (by omega), Nat.add_sub_cancel_left]
  simp only [JCtx.scal, e]
  rfl

theorem value (y0 y1 y2 y3 : ℝ) : ∀ i < (data y0 y1 y2 y3).size, ∀ b p, (data y0 y1 y2 y3).Row i s.defs.par p →
    ∀ a < j.E.rows 5, MVal (j.point s.defs b p) rank 5 a 0 = res y0 y1 y2 y3 (i * j.E.rows 5 + a) b := by
  intro i hi b p hp a ha
  have hi' : i < 2 := hi
  have ha' : a < 2 := ha
  have hx : ∀ k < 2, p k = [(0 : ℝ), 0, 1, 0].getD (i * 2 + k) 0 := by
    intro k hk
    obtain rfl | rfl : k = 0 ∨ k = 1 := by omega
    · exact hp.dx [0, 1] _ rfl rfl 0 (by decide) _ ((rep 0 0 1 0).elem i 0 hi' (by omega)) 0 rfl
    · exact hp.dx [0, 1] _ rfl rfl 1 (by decide) _ ((rep 0 0 1 0).elem i 1 hi' (by omega)) 1 rfl
  have hy : ∀ k < 2, p (2 + k) = [y0, y1, y2, y3].getD (i * 2 + k) 0 := by
    intro k hk
    obtain rfl | rfl : k = 0 ∨ k = 1 := by omega
    · exact hp.dy [2, 3] _ rfl rfl 0 two_pos _ ((rep y0 y1 y2 y3).elem i 0 hi' (by omega)) 2 rfl
    · exact hp.dy [2, 3] _ rfl rfl 1 one_lt_two _ ((rep y0 y1 y2 y3).elem i 1 hi' (by omega)) 3 rfl
  obtain ⟨e4, e5, e6, e7⟩ := val_exp b p
  have e2 := val_var b p (x := 2) (by decide) (by decide)
  have e3 := val_var b p (x := 3) (by decide) (by decide)
  have p0 := val_par b p (k := 0) (by decide)
  have p1 := val_par b p (k := 1) (by decide)
  have p2 := val_par b p (k := 2) (by decide)
  have p3 := val_par b p (k := 3) (by decide)
  have q := queryOk (s.defs.withValues b p) True 5
  have hl : ∀ o, o < 5 → ∀ r c, r < E.rows o → c < E.cols o → MVal (j.point s.defs b p) rank o r c =
      (j.scal (s.defs.withValues b p)).val (E.el o r c) := fun o ho r c hr hc =>
    mval_leaf (j.point s.defs b p) q.wf q.eyes
      (fun ⟨n, e, eye, hk⟩ => by have := (kindf hk).1; omega) hr hc
  rw [mval_form (j.point s.defs b p) q.wf q.eyes (o := 5) rfl ha one_pos]
  have r2 : j.E.rows 5 = 2 := rfl
  have d2 : ((MNode.obj 2 : MNode ℝ).dims (j.point s.defs b p).E).2 = 2 := rfl
  rw [r2]
  simp only [den, d2, Finset.sum_range_succ, Finset.sum_range_zero, zero_add]
  have m40 := (hl 4 (by decide) 0 0 (by decide) (by decide)).trans p2
  have m41 := (hl 4 (by decide) 1 0 (by decide) (by decide)).trans p3
  have m30 := (hl 3 (by decide) 0 0 (by decide) (by decide)).trans p0
  have m31 := (hl 3 (by decide) 1 0 (by decide) (by decide)).trans p1
  have m200 := (hl 2 (by decide) 0 0 (by decide) (by decide)).trans e4
  have m201 := (hl 2 (by decide) 0 1 (by decide) (by decide)).trans e5
  have m210 := (hl 2 (by decide) 1 0 (by decide) (by decide)).trans e6
  have m211 := (hl 2 (by decide) 1 1 (by decide) (by decide)).trans e7
  have m10 := (hl 1 (by decide) 0 0 (by decide) (by decide)).trans e2
  have m11 := (hl 1 (by decide) 1 0 (by decide) (by decide)).trans e3
  have x0 := hx 0 (by decide)
  have x1 := hx 1 (by decide)
  have z0 := hy 0 (by decide)
  have z1 := hy 1 (by decide)
  obtain rfl | rfl : a = 0 ∨ a = 1 := by omega
  · rw [m40, m200, m201, m30, m31, m10]
    obtain rfl | rfl : i = 0 ∨ i = 1 := by omega
    · simp at x0 x1 z0
      simp [res, x0, x1, z0]
    · simp at x0 x1 z0
      simp [res, x0, x1, z0]
  · rw [m41, m210, m211, m30, m31, m11]
    obtain rfl | rfl : i = 0 ∨ i = 1 := by omega
    · simp at x0 x1 z1
      simp [res, x0, x1, z1]
    · simp at x0 x1 z1
      simp [res, x0, x1, z1]

theorem res_partials (y0 y1 y2 y3 : ℝ) (b : ℕ → ℝ) :
    partials (res y0 y1 y2 y3) 0 1 b = 0 ∧ partials (res y0 y1 y2 y3) 0 2 b = -1 ∧ partials (res y0 y1 y2 y3) 0 3 b = 0 ∧
    partials (res y0 y1 y2 y3) 1 1 b = 0 ∧ partials (res y0 y1 y2 y3) 1 2 b = 0 ∧ partials (res y0 y1 y2 y3) 1 3 b = -1 ∧
    partials (res y0 y1 y2 y3) 2 1 b = Real.sin (b 1) ∧ partials (res y0 y1 y2 y3) 2 2 b = -1 ∧
    partials (res y0 y1 y2 y3) 2 3 b = 0 ∧
    partials (res y0 y1 y2 y3) 3 1 b = Real.cos (b 1) ∧ partials (res y0 y1 y2 y3) 3 2 b = 0 ∧
    partials (res y0 y1 y2 y3) 3 3 b = -1 := by
  have hid : ∀ t : ℝ, HasDerivAt (fun t : ℝ => t) 1 t := fun t => hasDerivAt_id t
  refine ⟨?_, ?_, ?_, ?_, ?_, ?_, ?_, ?_, ?_, ?_, ?_, ?_⟩
  · simp [partials, res]
  · have := ((hid (b 2)).const_sub y0).deriv
    simpa [partials, res] using this
  · simp [partials, res]
  · simp [partials, res]
  · simp [partials, res]
  · have := ((hid (b 3)).const_sub y1).deriv
    simpa [partials, res] using this
  · have := (((Real.hasDerivAt_cos (b 1)).add_const (b 2)).const_sub y2).deriv
    simpa [partials, res] using this
  · have := (((hid (b 2)).const_add (Real.cos (b 1))).const_sub y2).deriv
    simpa [partials, res] using this
  · simp [partials, res]
  · have := ((((Real.hasDerivAt_sin (b 1)).neg).add_const (b 3)).const_sub y3).deriv
    simpa [partials, res] using this
  · simp [partials, res]
  · have := (((hid (b 3)).const_add (-Real.sin (b 1))).const_sub y3).deriv
    simpa [partials, res] using this

theorem full_rank (y0 y1 y2 y3 : ℝ) (b : ℕ → ℝ) : FullRank 4 [1, 2, 3] (partials (res y0 y1 y2 y3)) b := by
  intro v hv
  obtain ⟨a1, a2, a3, b1, b2, b3, c1, c2, c3, d1, d2, d3⟩ := res_partials y0 y1 y2 y3 b
  have h0 := hv 0 (by omega)
  have h1 := hv 1 (by omega)
  have h2 := hv 2 (by omega)
  have h3 := hv 3 (by omega)
  simp only [List.map_cons, List.map_nil, List.sum_cons, List.sum_nil, a1, a2, a3, b1, b2, b3, c1, c2, c3, d1, d2, d3]
    at h0 h1 h2 h3
  have e2 : v 2 = 0 := by linarith
  have e3 : v 3 = 0 := by linarith
  have e1 : v 1 = 0 := by
    have h4 : Real.sin (b 1) * v 1 = 0 := by rw [e2] at h2; linarith
    have h5 : Real.cos (b 1) * v 1 = 0 := by rw [e3] at h3; linarith
    have := Real.sin_sq_add_cos_sq (b 1)
    linear_combination (Real.sin (b 1)) * h4 + Real.cos (b 1) * h5 - v 1 * this
  intro z hz
  simp only [List.mem_cons, List.not_mem_nil, or_false] at hz
  rcases hz with rfl | rfl | rfl
  · exact e1
  · exact e2
  · exact e3

theorem oracle : GNMOK j s.defs H rank 5 0 [1, 2, 3] := by
  refine ⟨elems _, rfl, rfl, rfl, ?_, PadsOk.of_empty rfl rfl, vars, rfl, ?_, by decide⟩
  · exact backend_kronSound (g := ⟨.eigen, false, .cpu⟩) rfl rfl _
  · intro c hc
    have hc' : c < 3 := hc
    obtain rfl | rfl | rfl : c = 0 ∨ c = 1 ∨ c = 2 := by omega
    · exact ⟨rfl, isVar (x := 1) (by decide) (by decide), rfl⟩
    · exact ⟨rfl, isVar (x := 2) (by decide) (by decide), rfl⟩
    · exact ⟨rfl, isVar (x := 3) (by decide) (by decide), rfl⟩

/-- The hypotheses of `C51_newton_partial` hold for this program and all images `y` of the two points (0,0) and (1,0),
whatever the number of iterations and the execution order of the parallel loops, although `J` is a formula over a view
of the unknowns. -/
example {llt : Mat ℝ → Mat ℝ → Option (Mat ℝ)} (hL : SolvesOn llt fun n A => (toMatrix n A).PosDef)
    (y0 y1 y2 y3 : ℝ) (n : ℕ) : ∃ buf' s' σ', gnmSolve j llt 2 5 0 (data y0 y1 y2 y3) n ({}, (MSt.fresh, s)) =
        some (buf', (s', σ')) ∧
      GNSteps 4 [1, 2, 3] (res y0 y1 y2 y3) (partials (res y0 y1 y2 y3)) n s.defs.base σ'.defs.base := by
  have hall : ∀ a y, j.h a = .obj y → IsVar s.defs y ∨ H y := by
    intro a y hy
    have hy' : GNMEx.h a = .obj y := hy
    rw [GNMEx.h] at hy'
    split at hy'
    · cases hy'
    · split at hy'
      · cases hy'
        by_cases h4 : a < 4
        · exact Or.inl (isVar (by omega) h4)
        · exact Or.inr (by simp only [H]; omega)
      · split at hy' <;> cases hy'
  obtain ⟨buf', s', σ', -, -, e, h1, -⟩ := C51_newton_partial (j := j) (f := 2) rfl hL (MHist.fresh (E := E) (rank := rank))
    s_hist (orderly _) (Or.inr fun _ _ h => h) oracle (by decide) (by decide) hall eye (by decide)
    (data_ok y0 y1 y2 y3) (value y0 y1 y2 y3) (GNBuf.fits_new 3) n (fun k _ b _ => ⟨full_rank y0 y1 y2 y3 b,
      fun i _ p _ => ⟨queryOk _ _ _, fun y hy => dom hy, fun p n e eye _ hk => by
        obtain ⟨rfl, rfl, rfl, rfl⟩ := kindf hk
        exact ⟨trivial, ⟨trivial, trivial⟩, trivial⟩⟩⟩)
  exact ⟨buf', s', σ', e, h1⟩

/-- `NonLinearSolve` of example/GaussNewton/main.cpp:136-156: `Variable x{10}, y{15}; E(0,0) = x*x + y*y - 20;
E(1,0) = x - y + 2;` (objects x=1, y=2, the elements of E 3 and 4). -/
def sq : St ℚ :=
  define 4 (.addC (.sub (.var 1) (.var 2)) 2) (newExpr (define 3 (.subC (.add (.mul (.var 1) (.var 1))
    (.mul (.var 2) (.var 2))) 20) (newExpr (newVar 15 (newVar 10 St.init).2).2).2)).2

/-- `X` (0) and `E` (1). -/
def Eq : MEnv ℚ where
  kind := fun o => match o with
    | 0 => .var
    | _ => .exp
  rows := fun o => match o with
    | 0 => 1
    | _ => 2
  cols := fun o => match o with
    | 0 => 2
    | _ => 1
  el := fun o r c => match o with
    | 0 => 1 + c
    | _ => 3 + r
  vid := fun a => sq.defs.nidx a

noncomputable def jq : JCtx ℚ := ⟨backend ⟨.eigen, false, .cpu⟩ Sched.seq, Sched.seq, Eq, Ex.P0, fun a => .obj a⟩

/-- A solver for two unknowns. -/
def solve2 (A B : Mat ℚ) : Option (Mat ℚ) :=
  match A, B with
  | ⟨2, 2, [a, b, c, d]⟩, ⟨2, 1, [u, v]⟩ =>
      some ⟨2, 1, [(u * d - b * v) / (a * d - b * c), (a * v - u * c) / (a * d - b * c)]⟩
  | _, _ => none

/-- The code runs: one iteration leads from (10, 15) to (57/10, 77/10), where `x - y + 2 = 0`. -/
theorem nonLinear_one : (gnmSolve jq solve2 1 1 0 {} 1 ({}, (MSt.fresh, sq))).map
    (fun s => (s.2.2.defs.base 1, s.2.2.defs.base 2)) = some (57 / 10, 77 / 10) := by decide +kernel

/-- An error function with two columns is refused. -/
theorem nonLinear_shape : gnmSolve jq solve2 1 0 0 {} 1 ({}, (MSt.fresh, sq)) = none := by decide +kernel

end GNMEx

end CoolDiff
