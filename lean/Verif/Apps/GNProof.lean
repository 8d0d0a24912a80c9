import Verif.Apps.GaussNewton
import Verif.Apps.GNSpec
import Verif.Scalar.GradProof
import Verif.Props.Meaning

/-!
# The Gauss–Newton driver computes Gauss–Newton steps
-/

set_option linter.unusedSectionVars false

namespace CoolDiff

variable {K : Type} [Field K] [DecidableEq K] {P : Prim K}

/-- The same definitions with other values of the Variables and of the Parameters. -/
def Defs.withValues (D : Defs K) (b p : ℕ → K) : Defs K := { D with base := b, par := p }

/-- Row `i` of a data matrix is in the Parameters `ps` (`none`: no data attached). -/
def RowIn (ps : Option (List ℕ)) (X : Option (Mat K)) (i : ℕ) (p : ℕ → K) : Prop :=
  ∀ qs M, ps = some qs → X = some M → ∀ j < M.cols, ∀ v, M.get? i j = some v → ∀ q, qs[j]? = some q → p q = v

/-- The Parameters that receive data. -/
def GNData.pars (d : GNData K) : List ℕ := (d.dx.getD []) ++ (d.dy.getD [])

/-- `p` is `p₀` with row `i` of the data in the data Parameters. -/
structure GNData.Row (d : GNData K) (i : ℕ) (p₀ p : ℕ → K) : Prop where
  dx : RowIn d.dx d.x i p
  dy : RowIn d.dy d.y i p
  rest : ∀ q, q ∉ d.pars → p q = p₀ q

/-- The data of a problem: matrices with `size` rows, as many Parameters as columns, all different. -/
structure GNData.OK (d : GNData K) (D : Defs K) : Prop where
  nodup : d.pars.Nodup
  lt : ∀ q ∈ d.pars, q < D.psize
  dx : ∀ qs, d.dx = some qs → ∃ M A, d.x = some M ∧ Rep M d.size qs.length A
  dy : ∀ qs, d.dy = some qs → ∃ M A, d.y = some M ∧ Rep M d.size qs.length A

/-- Assign the numbers `v` to the Parameters `qs`. -/
theorem setRow_foldlM (qs : List ℕ) (i : ℕ) {M : Mat K} (v : ℕ → K) (hnd : qs.Nodup) :
    ∀ n, n ≤ qs.length → (∀ j < n, M.get? i j = some (v j)) → ∀ σ : St K,
      ∃ p, (List.range n).foldlM (fun σ j => qs[j]?.bind fun q => (M.get? i j).map fun w => assignPar q w σ) σ =
          some { σ with defs := { σ.defs with par := p } } ∧
        (∀ j < n, ∀ q, qs[j]? = some q → p q = v j) ∧
        ∀ q, (∀ j < n, qs[j]? ≠ some q) → p q = σ.defs.par q := by
  intro n
  induction n with
  | zero => intro _ _ σ; exact ⟨σ.defs.par, rfl, fun j hj => absurd hj (by omega), fun q _ => rfl⟩
  | succ n ih =>
      intro hn hv σ
      obtain ⟨p, e, h1, h2⟩ := ih (by omega) (fun j hj => hv j (by omega)) σ
      have hq : qs[n]? = some (qs[n]'(by omega)) := List.getElem?_eq_getElem (by omega)
      refine ⟨Function.update p (qs[n]'(by omega)) (v n), ?_, fun j hj q hjq => ?_, fun q hq' => ?_⟩
      · rw [List.range_succ, List.foldlM_append, e]
        simp only [Option.bind_eq_bind, Option.bind_some, List.foldlM_cons, List.foldlM_nil, hq, hv n (by omega),
          Option.map_some, Option.pure_def]
        rfl
      · rcases Nat.lt_succ_iff_lt_or_eq.1 hj with hj | rfl
        · have : q ≠ qs[n]'(by omega) := by
            rintro rfl
            have hjn := List.getElem?_eq_some_iff.1 hjq
            obtain ⟨hl, he⟩ := hjn
            have := (List.Nodup.getElem_inj_iff hnd).1 he
            omega
          rw [Function.update_of_ne this]; exact h1 j hj q hjq
        · rw [hq] at hjq; cases hjq; simp
      · have : q ≠ qs[n]'(by omega) := fun h => hq' n (by omega) (by rw [hq, h])
        rw [Function.update_of_ne this]; exact h2 q fun j hj => hq' j (by omega)

theorem setRow_spec {ps : Option (List ℕ)} {X : Option (Mat K)} {i m : ℕ} (hi : i < m)
    (hX : ∀ qs, ps = some qs → qs.Nodup ∧ ∃ M A, X = some M ∧ Rep M m qs.length A) (σ : St K) :
    ∃ p, setRow ps X i σ = some { σ with defs := { σ.defs with par := p } } ∧ RowIn ps X i p ∧
      ∀ q, q ∉ ps.getD [] → p q = σ.defs.par q := by
  cases ps with
  | none =>
      exact ⟨σ.defs.par, by cases X <;> rfl, fun qs _ h => by simp at h, fun _ _ => rfl⟩
  | some qs =>
      obtain ⟨hnd, M, A, rfl, hM⟩ := hX qs rfl
      obtain ⟨p, e, h1, h2⟩ := setRow_foldlM qs i (M := M) (fun j => A i j) hnd M.cols (by rw [hM.cols])
        (fun j hj => hM.elem i j hi (by rw [← hM.cols]; exact hj)) σ
      refine ⟨p, e, ?_, fun q hq => h2 q fun j _ hj => hq ?_⟩
      · rintro qs' M' hq hM' j hj v hv q hjq
        cases hq; cases hM'
        rw [hM.elem i j hi (by rw [← hM.cols]; exact hj)] at hv
        cases hv
        exact h1 j hj q hjq
      · exact List.mem_of_getElem? hj

theorem setDataUnit_spec {d : GNData K} {σ : St K} (hd : d.OK σ.defs) {i : ℕ} (hi : i < d.size) :
    ∃ p, setDataUnit d i σ = some { σ with defs := { σ.defs with par := p } } ∧ d.Row i σ.defs.par p := by
  have hnd := List.nodup_append.1 hd.nodup
  obtain ⟨p, e, h1, h2⟩ := setRow_spec (ps := d.dx) (X := d.x) hi (fun qs h => by
    have := hnd.1; rw [h] at this; exact ⟨this, hd.dx qs h⟩) σ
  obtain ⟨p', e', h1', h2'⟩ := setRow_spec (ps := d.dy) (X := d.y) hi (fun qs h => by
    have := hnd.2.1; rw [h] at this; exact ⟨this, hd.dy qs h⟩)
    ({ σ with defs := { σ.defs with par := p } } : St K)
  refine ⟨p', ?_, ⟨?_, h1', fun q hq => ?_⟩⟩
  · rw [setDataUnit, e, Option.bind_some, e']
  · intro qs M hq hM j hj v hv q hjq
    have hq' : q ∉ d.dy.getD [] := by
      intro hmem
      refine hnd.2.2 q ?_ q hmem rfl
      rw [hq]; exact List.mem_of_getElem? hjq
    exact (h2' q hq').trans (h1 qs M hq hM j hj v hv q hjq)
  · simp only [GNData.pars, List.mem_append, not_or] at hq
    rw [h2' q hq.2]; exact h2 q hq.1

/-- Assigning data keeps what assigning to a Parameter keeps. -/
theorem setRow_ind {I : St K → Prop} (hI : ∀ σ q w, I σ → q < σ.defs.psize → I (assignPar q w σ))
    {ps : Option (List ℕ)} {X : Option (Mat K)} {i : ℕ} {σ σ' : St K} (h : I σ)
    (hlt : ∀ q ∈ ps.getD [], q < σ.defs.psize) (he : setRow ps X i σ = some σ') : I σ' := by
  unfold setRow at he
  split at he
  · next qs M =>
      have key : ∀ l : List ℕ, ∀ σ : St K, I σ → (∀ q ∈ qs, q < σ.defs.psize) →
          l.foldlM (fun σ j => qs[j]?.bind fun q => (M.get? i j).map fun w => assignPar q w σ) σ = some σ' →
          I σ' := by
        intro l
        induction l with
        | nil => intro σ h _ he; simp at he; rw [← he]; exact h
        | cons j l ih =>
            intro σ h hlt he
            rw [List.foldlM_cons] at he
            cases hq : qs[j]? with
            | none => rw [hq] at he; simp at he
            | some q =>
                cases hv : M.get? i j with
                | none => rw [hq, hv] at he; simp at he
                | some w =>
                    rw [hq, hv] at he
                    simp only [Option.bind_some, Option.map_some, Option.bind_eq_bind] at he
                    exact ih _ (hI _ q w h (hlt q (List.mem_of_getElem? hq))) hlt he
      exact key _ σ h hlt he
  · simp at he; rw [← he]; exact h

theorem setRow_psize {ps : Option (List ℕ)} {X : Option (Mat K)} {i : ℕ} {σ σ' : St K}
    {p : ℕ → K} (he : setRow ps X i σ = some { σ with defs := { σ.defs with par := p } })
    (he' : setRow ps X i σ = some σ') : σ'.defs.psize = σ.defs.psize := by
  rw [he] at he'; cases he'; rfl

theorem setDataUnit_ind {I : St K → Prop} (hI : ∀ σ q w, I σ → q < σ.defs.psize → I (assignPar q w σ))
    {d : GNData K} {σ σ' : St K} (h : I σ) (hd : d.OK σ.defs) {i : ℕ} (hi : i < d.size)
    (he : setDataUnit d i σ = some σ') : I σ' := by
  have hnd := List.nodup_append.1 hd.nodup
  obtain ⟨p, e, -, -⟩ := setRow_spec (ps := d.dx) (X := d.x) hi (fun qs h => by
    have := hnd.1; rw [h] at this; exact ⟨this, hd.dx qs h⟩) σ
  rw [setDataUnit, e, Option.bind_some] at he
  refine setRow_ind hI (setRow_ind hI h (fun q hq => hd.lt q (List.mem_append_left _ hq)) e) ?_ he
  exact fun q hq => hd.lt q (List.mem_append_right _ hq)

/-- Assigning data does not leave the histories. -/
theorem setDataUnit_run {d : GNData K} {σ σ' : St K} (h : Run P σ) (hd : d.OK σ.defs) {i : ℕ} (hi : i < d.size)
    (he : setDataUnit d i σ = some σ') : Run P σ' :=
  setDataUnit_ind (I := Run P) (fun _ q w h hq => h.setPar q w hq) h hd hi he

/-! ## One row -/

/-- What stays true while the driver runs: `D` are the definitions the user made. -/
structure GNInv (P : Prim K) (D : Defs K) (y : ℕ) (σ : St K) (b : ℕ → K) : Prop where
  run : Run P σ
  defs : ∃ p, σ.defs = D.withValues b p
  safe : Safe σ.defs (fun q => σ.mem.visited q = true) y

theorem Queried.safe {y : ℕ} {σ σ' : St K} (h : Queried y σ σ') :
    Safe σ'.defs (fun q => σ'.mem.visited q = true) y := by
  intro q hq _ hv
  rw [h.defs] at hq
  exact absurd (h.vis q hq) hv

theorem Solves.withValues_par {D : Defs K} {b p : ℕ → K} {y : ℕ} {ρ : ℕ → K} {p' : ℕ → K} (hp : p = p')
    (h : Solves P (D.withValues b p) y ρ) : Solves P (D.withValues b p') y ρ := hp ▸ h

/-- `Eval` and the Jacobian row. -/
theorem gnJacobian_spec {σ : St K} (h : Run P σ) {y : ℕ} (hy : y < σ.defs.size) (hwd : WellDefined σ.defs y)
    (hs : Safe σ.defs (fun q => σ.mem.visited q = true) y) {vs : List ℕ} (hne : vs ≠ [])
    (hvs : ∀ x ∈ vs, IsVar σ.defs x ∧ x ≠ y) {jac : Option (Mat K)}
    (hj : jac = none ∨ ∃ m A, jac = some m ∧ Rep m 1 vs.length A) (g : ℕ → K)
    (hg : ∀ x ∈ vs, DerivOf P σ.defs y x (g x)) :
    ∃ J σ', gnJacobian P y vs jac σ = some (J, σ') ∧ Run P σ' ∧ Queried y σ σ' ∧
      Rep J 1 vs.length fun _ j => g (vs.getD j 0) := by
  have hpos : 0 < vs.length := List.length_pos_iff.2 hne
  obtain ⟨m, A, hm, hR⟩ : ∃ m A, allocOnce jac 1 vs.length = some m ∧
      Rep m 1 vs.length A := by
    rcases hj with rfl | ⟨m, A, rfl, hR⟩
    · obtain ⟨m, e, hR⟩ := Mat.new_spec (K := K) one_pos hpos
      exact ⟨m, _, e, hR⟩
    · exact ⟨m, A, rfl, hR⟩
  obtain ⟨σ', e, hq⟩ := PreComp_queried P h.wf hy hwd hs
  have hd : ∀ x ∈ vs, DevalR y x σ' = g x := by
    intro x hx
    obtain ⟨hxv, hxy⟩ := hvs x hx
    obtain ⟨ρ, δ, hρ, hδ, hv⟩ := hg x hx
    obtain ⟨σ₂, e2, -, e3⟩ := PreComp_spec P h.wf hy hxv.1 hwd hs (h.revOK hy hxv.1 hxv.2.1 hxv.2.2) hρ hδ
    rw [e] at e2; cases e2
    rw [e3, if_neg (Ne.symm hxy), hv]
  obtain ⟨J, s', e1, hI, r1, r2, r3, r4⟩ := transformTo_spec (fun s => s = σ') g
    (f := fun x σ => some (DevalR y x σ, σ)) vs (fun x hx s hs => ⟨σ', by rw [hs, hd x hx], rfl⟩) 0 m σ' rfl
    (by rw [hR.len]; omega)
  refine ⟨J, σ', ?_, .preComp y h hy e, hq, ?_⟩
  · rw [gnJacobian, hm, Option.bind_some, e, Option.bind_some, e1, hI]
  · refine ⟨one_pos, hpos, r1.trans hR.rows, r2.trans hR.cols, r3.trans hR.len, fun i j hi hj => ?_⟩
    obtain rfl : i = 0 := by omega
    rw [Mat.get?, if_pos ⟨by rw [r1, hR.rows]; omega, by rw [r2, hR.cols]; exact hj⟩, r4,
      if_pos ⟨by omega, by omega⟩]
    simp [List.getElem?_eq_getElem hj]

/-- The buffers between rows: `m_A`, `m_B` hold `A`, `B`; the others were created by earlier rows, or not yet. -/
structure GNBuf.Holds (s : GNBuf K) (n : ℕ) (A : ℕ → ℕ → K) (B : ℕ → K) : Prop where
  A : ∃ m, s.A = some m ∧ Rep m n n A
  B : ∃ m, s.B = some m ∧ Rep m n 1 fun i _ => B i
  tA1 : Live s.tA1
  tA2 : Live s.tA2
  tB : Live s.tB
  jac : s.jac = none ∨ ∃ m A, s.jac = some m ∧ Rep m 1 n A

variable {Bk : Backend K} {Q : Pads}

theorem gnRow_spec (hB : Bk.Sound Q) {D : Defs K} {y : ℕ} {σ : St K} {b : ℕ → K} {vs : List ℕ} {d : GNData K}
    {buf : GNBuf K} (hy : y < D.size) (hwd : WellDefined D y) (hne : vs ≠ [])
    (hvs : ∀ x ∈ vs, IsVar D x ∧ x ≠ y) (hd : d.OK D) (hinv : GNInv P D y σ b)
    {A : ℕ → ℕ → K} {B : ℕ → K} (hbuf : buf.Holds vs.length A B) {i : ℕ} (hi : i < d.size) {r : K} {g : ℕ → K}
    (hr : ∀ p, d.Row i σ.defs.par p → ValueOf P (D.withValues b p) y r)
    (hg : ∀ p, d.Row i σ.defs.par p → ∀ x ∈ vs, DerivOf P (D.withValues b p) y x (g x)) :
    ∃ buf' σ', gnRow P Bk y vs d (buf, σ) i = some (buf', σ') ∧ GNInv P D y σ' b ∧
      d.Row i σ.defs.par σ'.defs.par ∧
      buf'.Holds vs.length (fun a c => A a c + g (vs.getD a 0) * g (vs.getD c 0))
        (fun a => B a + r * g (vs.getD a 0)) := by
  obtain ⟨p₀, hdefs⟩ := hinv.defs
  have hdσ : d.OK σ.defs := by
    rw [hdefs]; exact ⟨hd.nodup, hd.lt, hd.dx, hd.dy⟩
  obtain ⟨p, e1, hrow⟩ := setDataUnit_spec hdσ hi
  have hrun1 := setDataUnit_run hinv.run hdσ hi e1
  have hD1 : { σ.defs with par := p } = D.withValues b p := by rw [hdefs]; rfl
  rw [hD1] at e1 hrun1
  set σ₁ : St K := { σ with defs := D.withValues b p } with hσ₁
  have hs1 : Safe σ₁.defs (fun q => σ₁.mem.visited q = true) y := by
    have := hinv.safe
    rw [hdefs] at this
    exact this.of_items (D' := σ₁.defs) rfl
  have hwd1 : WellDefined σ₁.defs y := hwd.of_items rfl
  obtain ⟨ρ, hρ, hv⟩ := hr p hrow
  obtain ⟨σ₂, e2, hq2⟩ := Eval_spec P hrun1.wf (y := y) hy hwd1 hs1 hρ
  have hrun2 : Run P σ₂ := .eval y _ hrun1 hy e2
  have hd2 : σ₂.defs = D.withValues b p := hq2.defs
  obtain ⟨J, σ₃, e3, hrun3, hq3, hJ⟩ := gnJacobian_spec hrun2 (y := y) (by rw [hd2]; exact hy)
    (by rw [hd2]; exact hwd1) hq2.safe hne (fun x hx => by rw [hd2]; exact hvs x hx) hbuf.jac g
    (fun x hx => by rw [hd2]; exact hg p hrow x hx)
  obtain ⟨t1, e4, h4⟩ := hB.transpose hbuf.tA1 hJ
  obtain ⟨t2, e5, h5⟩ := hB.mul hbuf.tA2 h4 hJ
  obtain ⟨mA, hmA, hRA⟩ := hbuf.A
  obtain ⟨mB, hmB, hRB⟩ := hbuf.B
  obtain ⟨A', e6, h6⟩ := hB.add (l := .self) (r := .ext t2) (b := some mA) (Live.some hRA.wf) rfl hRA rfl h5
  obtain ⟨tb, e7, h7⟩ := hB.scalarMul r (r := .ext t1) hbuf.tB rfl h4
  obtain ⟨B', e8, h8⟩ := hB.add (l := .self) (r := .ext tb) (b := some mB) (Live.some hRB.wf) rfl hRB rfl h7
  refine ⟨{ buf with A := some A', B := some B', tA1 := some t1, tA2 := some t2, tB := some tb, jac := some J }, σ₃,
    ?_, ⟨hrun3, ⟨p, hq3.defs.trans hd2⟩, hq3.safe⟩, ?_, ⟨A', rfl, h6.congr ?_⟩, ⟨B', rfl, h8⟩, Live.some h4.wf,
    Live.some h5.wf, Live.some h7.wf, Or.inr ⟨J, _, rfl, hJ⟩⟩
  · simp only [gnRow, e1, e2, e3, e4, e5, hmA, e6, hv, e7, hmB, e8, Option.bind_some, Option.map_some]
  · rw [hq3.defs, hd2]; exact hrow
  · intro a c _ _; simp

/-! ## All rows -/

/-- The residuals and their partial derivatives as functions of the unknowns. -/
structure GNModel (P : Prim K) (D : Defs K) (y : ℕ) (vs : List ℕ) (d : GNData K) (p₀ : ℕ → K)
    (r : ℕ → (ℕ → K) → K) (J : ℕ → ℕ → (ℕ → K) → K) : Prop where
  val : ∀ i < d.size, ∀ b p, d.Row i p₀ p → ValueOf P (D.withValues b p) y (r i b)
  der : ∀ i < d.size, ∀ b p, d.Row i p₀ p → ∀ x ∈ vs, DerivOf P (D.withValues b p) y x (J i x b)

theorem GNData.Row.trans {d : GNData K} {i j : ℕ} {p p' p'' : ℕ → K} (h : d.Row i p p') (h' : d.Row j p' p'') :
    d.Row j p p'' := ⟨h'.dx, h'.dy, fun q hq => (h'.rest q hq).trans (h.rest q hq)⟩

/-- The Parameters without data are untouched. -/
def GNData.Keeps (d : GNData K) (p p' : ℕ → K) : Prop := ∀ q, q ∉ d.pars → p' q = p q

theorem GNData.Row.after {d : GNData K} {i : ℕ} {p p' p'' : ℕ → K} (h : d.Keeps p p') (h' : d.Row i p' p'') :
    d.Row i p p'' := ⟨h'.dx, h'.dy, fun q hq => (h'.rest q hq).trans (h q hq)⟩

theorem computeAB_loop (hB : Bk.Sound Q) {D : Defs K} {y : ℕ} {b : ℕ → K} {vs : List ℕ} {d : GNData K}
    (hy : y < D.size) (hwd : WellDefined D y) (hne : vs ≠ []) (hvs : ∀ x ∈ vs, IsVar D x ∧ x ≠ y) (hd : d.OK D)
    {p₀ : ℕ → K} {r : ℕ → (ℕ → K) → K} {J : ℕ → ℕ → (ℕ → K) → K} (hM : GNModel P D y vs d p₀ r J)
    {σ : St K} (hinv : GNInv P D y σ b) (hp : d.Keeps p₀ σ.defs.par) {buf : GNBuf K}
    (hbuf : buf.Holds vs.length (fun _ _ => 0) (fun _ => 0)) :
    ∀ m ≤ d.size, ∃ buf' σ', (List.range m).foldlM (gnRow P Bk y vs d) (buf, σ) = some (buf', σ') ∧
      GNInv P D y σ' b ∧ d.Keeps p₀ σ'.defs.par ∧
      buf'.Holds vs.length (fun a c => normalA m J b (vs.getD a 0) (vs.getD c 0))
        (fun a => normalB m r J b (vs.getD a 0)) := by
  intro m
  induction m with
  | zero =>
      intro _
      exact ⟨buf, σ, rfl, hinv, hp, by simpa [normalA, normalB] using hbuf⟩
  | succ m ih =>
      intro hm
      obtain ⟨buf', σ', e, hinv', hp', hbuf'⟩ := ih (by omega)
      obtain ⟨buf'', σ'', e2, hinv'', hrow, hbuf''⟩ := gnRow_spec hB hy hwd hne hvs hd hinv' hbuf' (i := m) (by omega)
        (r := r m b) (g := fun x => J m x b) (fun p hr => hM.val m (by omega) b p (hr.after hp'))
        (fun p hr => hM.der m (by omega) b p (hr.after hp'))
      refine ⟨buf'', σ'', ?_, hinv'', fun q hq => (hrow.rest q hq).trans (hp' q hq), ?_⟩
      · rw [List.range_succ, List.foldlM_append, e]
        simp [e2]
      · simpa only [normalA, normalB, Finset.sum_range_succ] using hbuf''

theorem Rep.resetZero {m : Mat K} {r c A} (h : Rep m r c A) : Rep m.resetZero r c fun _ _ => 0 := by
  refine ⟨h.rpos, h.cpos, h.rows, h.cols, by simp [Mat.resetZero, h.len], fun i j hi hj => ?_⟩
  have := h.elem i j hi hj
  simp only [Mat.get?, Mat.resetZero, h.rows, h.cols, hi, hj, and_self, if_true, List.getElem?_map] at this ⊢
  rw [this]; rfl

theorem computeAB_spec (hB : Bk.Sound Q) {D : Defs K} {y : ℕ} {b : ℕ → K} {vs : List ℕ} {d : GNData K}
    (hy : y < D.size) (hwd : WellDefined D y) (hne : vs ≠ []) (hvs : ∀ x ∈ vs, IsVar D x ∧ x ≠ y) (hd : d.OK D)
    {p₀ : ℕ → K} {r : ℕ → (ℕ → K) → K} {J : ℕ → ℕ → (ℕ → K) → K} (hM : GNModel P D y vs d p₀ r J)
    {σ : St K} (hinv : GNInv P D y σ b) (hp : d.Keeps p₀ σ.defs.par) {buf : GNBuf K} {A : ℕ → ℕ → K} {B : ℕ → K}
    (hbuf : buf.Holds vs.length A B) :
    ∃ buf' σ', computeAB P Bk y vs d (buf, σ) = some (buf', σ') ∧
      GNInv P D y σ' b ∧ d.Keeps p₀ σ'.defs.par ∧
      buf'.Holds vs.length (fun a c => normalA d.size J b (vs.getD a 0) (vs.getD c 0))
        (fun a => normalB d.size r J b (vs.getD a 0)) := by
  obtain ⟨mA, hA, hRA⟩ := hbuf.A
  obtain ⟨mB, hB', hRB⟩ := hbuf.B
  exact computeAB_loop hB hy hwd hne hvs hd hM hinv hp (buf := { buf with A := buf.A.map Mat.resetZero, B := buf.B.map Mat.resetZero })
    ⟨⟨_, by rw [hA]; rfl, hRA.resetZero⟩, ⟨_, by rw [hB']; rfl, hRB.resetZero⟩, hbuf.tA1, hbuf.tA2, hbuf.tB, hbuf.jac⟩
    d.size (le_refl _)

/-! ## The update -/

/-- The update of the unknowns, for any invariant `I σ b` (`b`: the values of the Variables) that assigning numbers
to unknowns keeps. -/
theorem gnUpdate_gen (π : Sched) {vs : List ℕ} (hnd : vs.Nodup) (I : St K → (ℕ → K) → Prop)
    (hval : ∀ σ b x, x ∈ vs → I σ b → σ.mem.value x = b x)
    (hset : ∀ σ b x v, x ∈ vs → I σ b → I (assignNum x v σ) (Function.update b x v))
    {X : Mat K} {δ : ℕ → ℕ → K} (hX : Rep X vs.length 1 δ) {b : ℕ → K} {σ : St K} (hinv : I σ b) :
    ∃ σ' b', gnUpdate π vs X σ = some σ' ∧ σ'.defs.par = σ.defs.par ∧ I σ' b' ∧
      (∀ i (hi : i < vs.length), b' vs[i] = b vs[i] - δ i 0) ∧ ∀ x, x ∉ vs → b' x = b x := by
  have hflat : ∀ i, i < vs.length → X.flat? i = some (δ i 0) := by
    intro i hi
    have h1 := hX.elem i 0 hi one_pos
    rw [Mat.get?, if_pos ⟨by rw [hX.rows]; exact hi, by rw [hX.cols]; exact one_pos⟩, hX.cols, Nat.mul_one,
      Nat.add_zero] at h1
    rw [Mat.flat?, if_pos (by rw [hX.rows, hX.cols]; omega), h1]
  have key : ∀ l : List ℕ, l.Nodup → (∀ i ∈ l, i < vs.length) → ∀ (b : ℕ → K) (σ : St K), I σ b →
      ∃ σ' b', l.foldlM (gnUpdate1 vs X) σ = some σ' ∧ σ'.defs.par = σ.defs.par ∧ I σ' b' ∧
        (∀ i ∈ l, ∀ (hi : i < vs.length), b' vs[i] = b vs[i] - δ i 0) ∧
        ∀ x, (∀ i ∈ l, ∀ (hi : i < vs.length), x ≠ vs[i]) → b' x = b x := by
    intro l
    induction l with
    | nil => exact fun _ _ b σ h => ⟨σ, b, rfl, rfl, h, by simp, fun _ _ => rfl⟩
    | cons i l ih =>
        intro hl hlt b σ h
        obtain ⟨hil, hl'⟩ := List.nodup_cons.1 hl
        have hi := hlt i (by simp)
        have e1 : gnUpdate1 vs X σ i = some (assignNum vs[i] (b vs[i] - δ i 0) σ) := by
          rw [gnUpdate1, List.getElem?_eq_getElem hi, Option.bind_some, hflat i hi,
            hval σ b _ (List.getElem_mem hi) h]; rfl
        have h1 := hset σ b _ (b vs[i] - δ i 0) (List.getElem_mem hi) h
        obtain ⟨σ₂, b₂, e2, p2, h2, ha, ho⟩ := ih hl' (fun j hj => hlt j (List.mem_cons_of_mem _ hj)) _ _ h1
        refine ⟨σ₂, b₂, ?_, p2, h2, fun j hj hjl => ?_, fun x hx => ?_⟩
        · rw [List.foldlM_cons, e1]; exact e2
        · rcases List.mem_cons.1 hj with rfl | hj
          · rw [ho _ fun k hk hkl he => ?_, Function.update_self]
            have := (List.Nodup.getElem_inj_iff hnd).1 he
            exact hil (this ▸ hk)
          · rw [ha j hj hjl, Function.update_of_ne]
            intro he
            have := (List.Nodup.getElem_inj_iff hnd).1 he
            exact hil (this ▸ hj)
        · rw [ho x fun k hk => hx k (List.mem_cons_of_mem _ hk), Function.update_of_ne (hx i (by simp) hi)]
  obtain ⟨σ', b', e, p, h, ha, ho⟩ := key (π.run ℕ (List.range vs.length)) (π.nodup List.nodup_range)
    (fun i hi => List.mem_range.1 (π.mem.1 hi)) b σ hinv
  refine ⟨σ', b', e, p, h, fun i hi => ha i (π.mem.2 (List.mem_range.2 hi)) hi, fun x hx => ho x fun i _ hi he => ?_⟩
  exact hx (he ▸ List.getElem_mem hi)

theorem assignNum_withValues {D : Defs K} {b p : ℕ → K} {σ : St K} (hd : σ.defs = D.withValues b p) {x : ℕ}
    (hit : D.items x = []) (v : K) : (assignNum x v σ).defs = D.withValues (Function.update b x v) p := by
  have h1 : Function.update D.items x [] = D.items := by rw [← hit, Function.update_eq_self]
  simp only [assignNum, hd, Defs.withValues, h1]

theorem GNInv.assign {D : Defs K} {y : ℕ} {b : ℕ → K} {σ : St K} (hinv : GNInv P D y σ b) {x : ℕ} (hx : IsVar D x)
    (v : K) : GNInv P D y (assignNum x v σ) (Function.update b x v) := by
  obtain ⟨p, hdefs⟩ := hinv.defs
  have hitσ : σ.defs.items x = [] := by rw [hdefs]; exact hx.2.2
  refine ⟨.setVar x _ hinv.run (by rw [hdefs]; exact hx.1) hitσ, ⟨p, assignNum_withValues hdefs hx.2.2 v⟩, ?_⟩
  have hit' : (assignNum x v σ).defs.items = σ.defs.items := by
    have h1 : Function.update σ.defs.items x [] = σ.defs.items := by rw [← hitσ, Function.update_eq_self]
    simp only [assignNum, h1]
  exact hinv.safe.of_items hit'

theorem gnUpdate_spec (π : Sched) {D : Defs K} {y : ℕ} {vs : List ℕ} (hnd : vs.Nodup)
    (hvs : ∀ x ∈ vs, IsVar D x ∧ x ≠ y) {X : Mat K} {δ : ℕ → ℕ → K} (hX : Rep X vs.length 1 δ) {b : ℕ → K}
    {σ : St K} (hinv : GNInv P D y σ b) :
    ∃ σ' b', gnUpdate π vs X σ = some σ' ∧ σ'.defs.par = σ.defs.par ∧ GNInv P D y σ' b' ∧
      (∀ i (hi : i < vs.length), b' vs[i] = b vs[i] - δ i 0) ∧ ∀ x, x ∉ vs → b' x = b x :=
  gnUpdate_gen π hnd (GNInv P D y)
    (fun σ b x hx h => by
      obtain ⟨p, hdefs⟩ := h.defs
      have := h.run.wf.plain x (by rw [hdefs]; exact (hvs x hx).1.1) (by rw [hdefs]; exact (hvs x hx).1.2.2)
      rw [this.1, hdefs]; rfl)
    (fun σ b x v hx h => h.assign (hvs x hx).1 v) hX hinv

/-! ## Iterations -/

/-- The linear solver does its job on the matrices of the class `Ok`: `A X = B`. -/
def SolvesOn (llt : Mat K → Mat K → Option (Mat K)) (Ok : ℕ → (ℕ → ℕ → K) → Prop) : Prop :=
  ∀ {n : ℕ} {A : ℕ → ℕ → K} {B : ℕ → K} {mA mB : Mat K}, Rep mA n n A → Rep mB n 1 (fun i _ => B i) → Ok n A →
    ∃ X δ, llt mA mB = some X ∧ Rep X n 1 δ ∧ ∀ i < n, ∑ j ∈ Finset.range n, A i j * δ j 0 = B i

theorem sum_map_getD (vs : List ℕ) (f : ℕ → K) :
    (vs.map f).sum = ∑ j ∈ Finset.range vs.length, f (vs.getD j 0) := by
  rw [← sum_range_list]
  congr 1
  apply List.ext_getElem
  · simp
  · intro i h1 h2
    simp only [List.length_map] at h1
    simp [List.getElem?_eq_getElem h1]

theorem GNStep.of_solve {m : ℕ} {vs : List ℕ} (hnd : vs.Nodup) {r : ℕ → (ℕ → K) → K} {J : ℕ → ℕ → (ℕ → K) → K}
    {b b' : ℕ → K} {δ : ℕ → ℕ → K}
    (hδ : ∀ i < vs.length, ∑ c ∈ Finset.range vs.length, normalA m J b (vs.getD i 0) (vs.getD c 0) * δ c 0 =
      normalB m r J b (vs.getD i 0))
    (ha : ∀ i (hi : i < vs.length), b' vs[i] = b vs[i] - δ i 0) (ho : ∀ x, x ∉ vs → b' x = b x) :
    GNStep m vs r J b b' := by
  refine ⟨fun x => δ (vs.idxOf x) 0, fun x hx => ?_, fun x hx => ?_, ho⟩
  · have hi := List.idxOf_lt_length_iff.2 hx
    have := hδ (vs.idxOf x) hi
    have hgx : vs.getD (vs.idxOf x) 0 = x := by
      simp [List.getElem?_eq_getElem hi]
    rw [hgx] at this
    rw [← this, sum_map_getD]
    refine Finset.sum_congr rfl fun j hj => ?_
    have hj := Finset.mem_range.1 hj
    have hgj : vs.getD j 0 = vs[j] := by simp [List.getElem?_eq_getElem hj]
    simp only [hgj, hnd.idxOf_getElem]
  · have hi := List.idxOf_lt_length_iff.2 hx
    have := ha (vs.idxOf x) hi
    rwa [List.getElem_idxOf] at this

variable {llt : Mat K → Mat K → Option (Mat K)} {Ok : ℕ → (ℕ → ℕ → K) → Prop}

theorem gnIteration_spec (hB : Bk.Sound Q) (hL : SolvesOn llt Ok) (π : Sched) {D : Defs K} {y : ℕ} {b : ℕ → K}
    {vs : List ℕ} {d : GNData K} (hy : y < D.size) (hwd : WellDefined D y) (hne : vs ≠ []) (hnd : vs.Nodup)
    (hvs : ∀ x ∈ vs, IsVar D x ∧ x ≠ y) (hd : d.OK D) {p₀ : ℕ → K} {r : ℕ → (ℕ → K) → K} {J : ℕ → ℕ → (ℕ → K) → K}
    (hM : GNModel P D y vs d p₀ r J) {σ : St K} (hinv : GNInv P D y σ b) (hp : d.Keeps p₀ σ.defs.par) {buf : GNBuf K}
    {A : ℕ → ℕ → K} {B : ℕ → K} (hbuf : buf.Holds vs.length A B)
    (hok : Ok vs.length fun a c => normalA d.size J b (vs.getD a 0) (vs.getD c 0)) :
    ∃ buf' σ' b', gnIteration P Bk llt π y vs d (buf, σ) = some (buf', σ') ∧ GNInv P D y σ' b' ∧
      d.Keeps p₀ σ'.defs.par ∧ GNStep d.size vs r J b b' ∧ ∃ A B, buf'.Holds vs.length A B := by
  obtain ⟨buf₁, σ₁, e1, h1, hp1, hb1⟩ := computeAB_spec hB hy hwd hne hvs hd hM hinv hp hbuf
  obtain ⟨mA, hmA, hRA⟩ := hb1.A
  obtain ⟨mB, hmB, hRB⟩ := hb1.B
  obtain ⟨X, δ, e2, hX, hδ⟩ := hL hRA hRB hok
  obtain ⟨σ₂, b', e3, hp2, h2, ha, ho⟩ := gnUpdate_spec π hnd hvs hX h1
  refine ⟨{ buf₁ with delX := some X }, σ₂, b', ?_, h2, fun q hq => by rw [hp2]; exact hp1 q hq,
    GNStep.of_solve hnd hδ ha ho, _, _,
    ⟨⟨mA, hmA, hRA⟩, ⟨mB, hmB, hRB⟩, hb1.tA1, hb1.tA2, hb1.tB, hb1.jac⟩⟩
  simp only [gnIteration, e1, Option.bind_some, hmA, hmB, e2, e3, Option.map_some]

/-- From the other side: the first step, then the others. -/
theorem GNSteps.head {m : ℕ} {vs : List ℕ} {r : ℕ → (ℕ → K) → K} {J : ℕ → ℕ → (ℕ → K) → K} {n : ℕ}
    {b b' b'' : ℕ → K} (h : GNStep m vs r J b b') (hs : GNSteps m vs r J n b' b'') :
    GNSteps m vs r J (n + 1) b b'' := by
  induction hs with
  | zero _ => exact .succ (.zero _) h
  | succ _ h2 ih => exact .succ (ih h) h2

theorem gnLoop_spec (hB : Bk.Sound Q) (hL : SolvesOn llt Ok) (π : Sched) {D : Defs K} {y : ℕ}
    {vs : List ℕ} {d : GNData K} (hy : y < D.size) (hwd : WellDefined D y) (hne : vs ≠ []) (hnd : vs.Nodup)
    (hvs : ∀ x ∈ vs, IsVar D x ∧ x ≠ y) (hd : d.OK D) {p₀ : ℕ → K} {r : ℕ → (ℕ → K) → K} {J : ℕ → ℕ → (ℕ → K) → K}
    (hM : GNModel P D y vs d p₀ r J) (n : ℕ) : ∀ {b : ℕ → K} {σ : St K}, GNInv P D y σ b → d.Keeps p₀ σ.defs.par →
    ∀ {buf : GNBuf K} {A : ℕ → ℕ → K} {B : ℕ → K}, buf.Holds vs.length A B →
    (∀ k < n, ∀ b', GNSteps d.size vs r J k b b' →
      Ok vs.length fun a c => normalA d.size J b' (vs.getD a 0) (vs.getD c 0)) →
    ∃ buf' σ' b', gnLoop P Bk llt π y vs d n (buf, σ) = some (buf', σ') ∧ GNInv P D y σ' b' ∧
      d.Keeps p₀ σ'.defs.par ∧ GNSteps d.size vs r J n b b' ∧ ∃ A B, buf'.Holds vs.length A B := by
  induction n with
  | zero => exact fun h hp buf A B hb _ => ⟨buf, _, _, rfl, h, hp, .zero _, A, B, hb⟩
  | succ n ih =>
      intro b σ h hp buf A B hb hok
      obtain ⟨buf₁, σ₁, b₁, e1, h1, hp1, hs1, A1, B1, hb1⟩ := gnIteration_spec hB hL π hy hwd hne hnd hvs hd hM h hp hb
        (hok 0 (by omega) b (.zero b))
      obtain ⟨buf₂, σ₂, b₂, e2, h2, hp2, hs2, hb2⟩ := ih h1 hp1 hb1 fun k hk b' hs => hok (k + 1) (by omega) b' (.head hs1 hs)
      exact ⟨buf₂, σ₂, b₂, by rw [gnLoop, e1]; exact e2, h2, hp2, .head hs1 hs2, hb2⟩

end CoolDiff
