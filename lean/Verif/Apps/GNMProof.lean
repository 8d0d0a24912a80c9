import Verif.Apps.GNMatrix
import Verif.Apps.GNProof
import Verif.Props.Joint
import Verif.Props.GaussNewton

/-!
# The Gauss–Newton driver with a matrix oracle computes Gauss–Newton steps
-/

set_option linter.unusedSectionVars false

namespace CoolDiff

variable {K : Type} [Field K] [DecidableEq K]

/-- The matrix program with the values `b` in the Variables and `p` in the Parameters. -/
noncomputable abbrev JCtx.point (j : JCtx K) (D : Defs K) (b p : ℕ → K) : MCtx K := j.at (j.scal (D.withValues b p))

/-- What stays true while the driver runs: `D` are the scalar definitions the user made, `H` the Expressions among
the elements. -/
structure GNMInv (j : JCtx K) (D : Defs K) (H : ℕ → Prop) (rank : ℕ → ℕ) (F : ℕ) (z : JSt K) (b : ℕ → K) : Prop where
  hist : ∃ V, Hist j.P z.2 V ∧ Orderly D V H
  defs : ∃ p, z.2.defs = D.withValues b p
  mat : ∃ U, MHist j.E rank z.1 U ∧ (U F ∨ ∀ p, MReach j.E F p → ¬U p)

/-- The program: error function `F`, row `X` of unknowns `vs`. -/
structure GNMOK (j : JCtx K) (D : Defs K) (H : ℕ → Prop) (rank : ℕ → ℕ) (F X : ℕ) (vs : List ℕ) : Prop where
  elems : ElemsOk j D (MReach j.E F) H
  col : j.E.cols F = 1
  row : j.E.rows X = 1
  kind : j.E.kind X = .var
  kron : j.B.KronSound
  pads : PadsOk j.E X
  vars : VarsOk j.E
  len : vs.length = j.E.cols X
  el : ∀ c (hc : c < vs.length), j.h (j.E.el X 0 c) = .obj vs[c] ∧ IsVar D vs[c] ∧
    j.E.vid (j.E.el X 0 c) = D.nidx vs[c]
  nodup : vs.Nodup

/-- The residuals and their partial derivatives as functions of the unknowns: residual `i*R+a` is element `a` of the
error function with row `i` of the data. -/
structure GNMModel (j : JCtx K) (D : Defs K) (rank : ℕ → ℕ) (F X : ℕ) (vs : List ℕ) (d : GNData K) (p₀ : ℕ → K)
    (r : ℕ → (ℕ → K) → K) (J : ℕ → ℕ → (ℕ → K) → K) : Prop where
  val : ∀ i < d.size, ∀ b p, d.Row i p₀ p → ∀ a < j.E.rows F,
    MVal (j.point D b p) rank F a 0 = r (i * j.E.rows F + a) b
  der : ∀ i < d.size, ∀ b p, d.Row i p₀ p → ∀ a < j.E.rows F, ∀ c (hc : c < vs.length),
    MDer (j.point D b p) X rank F a 0 0 c = J (i * j.E.rows F + a) vs[c] b

variable {j : JCtx K} {D : Defs K} {H : ℕ → Prop} {rank : ℕ → ℕ} {F X f : ℕ} {vs : List ℕ} {d : GNData K}

theorem QueryOk.noDet {c : MCtx K} {o : ℕ} (hq : QueryOk c rank True o) : QueryOk c rank False o :=
  ⟨hq.wf, hq.sound, hq.eyes, hq.forms.inv, fun p hp n e eye hk => (hq.forms.invertible p hp n e eye hk).weaken⟩

theorem gnmRow_spec (hO : GNMOK j D H rank F X vs) (hf : rank F < f) (hd : d.OK D) {z : JSt K} {b : ℕ → K}
    (hinv : GNMInv j D H rank F z b) {A : ℕ → ℕ → K} {B : ℕ → K} {buf : GNBuf K} (hbuf : buf.Holds vs.length A B)
    {i : ℕ} (hi : i < d.size) (hq : ∀ p, d.Row i z.2.defs.par p → QueryOk (j.point D b p) rank True F)
    {r : ℕ → K} {g : ℕ → ℕ → K}
    (hr : ∀ p, d.Row i z.2.defs.par p → ∀ a < j.E.rows F, MVal (j.point D b p) rank F a 0 = r a)
    (hg : ∀ p, d.Row i z.2.defs.par p → ∀ a < j.E.rows F, ∀ c (hc : c < vs.length),
      MDer (j.point D b p) X rank F a 0 0 c = g a vs[c]) :
    ∃ buf' z', gnmRow j f F X d (buf, z) i = some (buf', z') ∧ GNMInv j D H rank F z' b ∧
      d.Row i z.2.defs.par z'.2.defs.par ∧
      buf'.Holds vs.length
        (fun x y => A x y + ∑ a ∈ Finset.range (j.E.rows F), g a (vs.getD x 0) * g a (vs.getD y 0))
        (fun x => B x + ∑ a ∈ Finset.range (j.E.rows F), r a * g a (vs.getD x 0)) := by
  obtain ⟨s, σ⟩ := z
  obtain ⟨V, hV, hord⟩ := hinv.hist
  obtain ⟨p₀, hdefs⟩ := hinv.defs
  obtain ⟨U, hU, hUF⟩ := hinv.mat
  simp only at hV hdefs hU hq hr hg
  have hdσ : d.OK σ.defs := by rw [hdefs]; exact ⟨hd.nodup, hd.lt, hd.dx, hd.dy⟩
  obtain ⟨p, e1, hrow⟩ := setDataUnit_spec hdσ hi
  have hV1 := setDataUnit_ind (I := fun σ => Hist j.P σ V) (fun _ q w h hq => h.setPar q w hq) hV hdσ hi e1
  have hD1 : { σ.defs with par := p } = D.withValues b p := by rw [hdefs]; rfl
  rw [hD1] at e1 hV1
  have hq1 := hq p hrow
  have hR : 0 < j.E.rows F := hq1.wf.rpos F
  have hel1 : ElemsOk j (D.withValues b p) (MReach j.E F) H := ElemsOk.of_items (D := D) (D' := D.withValues b p) rfl rfl rfl hO.elems
  obtain ⟨s₂, σ₂, m, V₂, e2, m1, hU2, hV2, hd2, ho2, -, -⟩ := joint_eval_rep hU j rfl hV1 hel1
    (Orderly.of_items (D := D) (D' := D.withValues b p) rfl hord) hq1.noDet hf hUF
  simp only at hd2 ho2 m1
  have hXe : ∀ x c, x < j.E.rows X → c < j.E.cols X → VarEl j σ₂.defs (j.E.el X x c) := by
    intro x c hx hc
    have hx0 : x = 0 := by rw [hO.row] at hx; omega
    subst hx0
    obtain ⟨h1, h2, h3⟩ := hO.el c (by rw [hO.len]; exact hc)
    rw [hd2]
    exact ⟨_, h1, ⟨h2.1, h2.2.1, h2.2.2⟩, h3⟩
  obtain ⟨s₃, σ₃, Jm, V₃, e3, j1, hU3, hV3, hd3, ho3, -, -⟩ := joint_devalF_rep hU2 j rfl hV2
    (by rw [hd2]; exact hel1) (by rw [hd2]; exact ho2) hXe (by rw [hd2]; exact hq1) hO.kron hO.pads hO.vars hO.kind hf
    (Or.inl (Or.inr .refl))
  have hmR : Rep m (j.E.rows F) 1 fun a _ => r a := by
    rw [hO.col] at m1
    refine m1.congr fun a c ha hc => ?_
    obtain rfl : c = 0 := by omega
    exact hr p hrow a ha
  have hJR : Rep Jm (j.E.rows F) vs.length fun a c => g a (vs.getD c 0) := by
    rw [hO.col, hO.row, Nat.mul_one, Nat.one_mul, ← hO.len, hd2] at j1
    refine j1.congr fun a c ha hc => ?_
    have h1 := hg p hrow a ha c hc
    simp only [lay, Nat.div_one, Nat.mod_one, Nat.div_eq_of_lt hc, Nat.mod_eq_of_lt hc]
    rw [h1]
    simp [List.getElem?_eq_getElem hc]
  have hB := hq1.sound
  obtain ⟨t1, e4, h4⟩ := hB.transpose hbuf.tA1 hJR
  obtain ⟨t2, e5, h5⟩ := hB.mul hbuf.tA2 h4 hJR
  obtain ⟨mA, hmA, hRA⟩ := hbuf.A
  obtain ⟨mB, hmB, hRB⟩ := hbuf.B
  obtain ⟨A', e6, h6⟩ := hB.add (l := .self) (r := .ext t2) (b := some mA) (Live.some hRA.wf) rfl hRA rfl h5
  obtain ⟨tb, e7, h7⟩ := hB.mul hbuf.tB h4 hmR
  obtain ⟨B', e8, h8⟩ := hB.add (l := .self) (r := .ext tb) (b := some mB) (Live.some hRB.wf) rfl hRB rfl h7
  refine ⟨{ buf with A := some A', B := some B', tA1 := some t1, tA2 := some t2, tB := some tb }, (s₃, σ₃),
    ?_, ⟨⟨V₃, hV3, ?_⟩, ⟨p, hd3.trans hd2⟩, ⟨_, hU3, Or.inl (Or.inr .refl)⟩⟩, ?_, ⟨A', rfl, h6⟩,
    ⟨B', rfl, h8.congr ?_⟩, Live.some h4.wf, Live.some h5.wf, Live.some h7.wf, hbuf.jac⟩
  · change j.B.transpose Jm buf.tA1 = some t1 at e4
    change j.B.mul t1 Jm buf.tA2 = some t2 at e5
    change j.B.add _ _ _ = _ at e6
    change j.B.mul _ _ _ = _ at e7
    change j.B.add _ _ _ = _ at e8
    simp only [gnmRow, e1, e2, e3, e4, e5, hmA, e6, e7, hmB, e8, Option.bind_some, Option.map_some]
  · rw [hd2] at ho3; exact Orderly.of_items (D := D.withValues b p) (D' := D) rfl ho3
  · simp only [hd3, hd2]; exact hrow
  · intro x _ _ _; simp only [mul_comm]

theorem sum_rows {R m : ℕ} (f : ℕ → K) : ∑ i ∈ Finset.range ((m + 1) * R), f i =
    ∑ i ∈ Finset.range (m * R), f i + ∑ a ∈ Finset.range R, f (m * R + a) := by
  rw [Nat.succ_mul, Finset.sum_range_add]

theorem computeABm_spec (hO : GNMOK j D H rank F X vs) (hf : rank F < f) (hd : d.OK D) {p₀ : ℕ → K}
    {r : ℕ → (ℕ → K) → K} {J : ℕ → ℕ → (ℕ → K) → K} (hM : GNMModel j D rank F X vs d p₀ r J) {z : JSt K} {b : ℕ → K}
    (hq : ∀ i < d.size, ∀ p, d.Row i p₀ p → QueryOk (j.point D b p) rank True F)
    (hinv : GNMInv j D H rank F z b) (hp : d.Keeps p₀ z.2.defs.par) {buf : GNBuf K} {A : ℕ → ℕ → K} {B : ℕ → K}
    (hbuf : buf.Holds vs.length A B) :
    ∃ buf' z', computeABm j f F X d (buf, z) = some (buf', z') ∧
      GNMInv j D H rank F z' b ∧ d.Keeps p₀ z'.2.defs.par ∧
      buf'.Holds vs.length (fun a c => normalA (d.size * j.E.rows F) J b (vs.getD a 0) (vs.getD c 0))
        (fun a => normalB (d.size * j.E.rows F) r J b (vs.getD a 0)) := by
  obtain ⟨mA, hA, hRA⟩ := hbuf.A
  obtain ⟨mB, hB', hRB⟩ := hbuf.B
  have hz : ({ buf with A := buf.A.map Mat.resetZero, B := buf.B.map Mat.resetZero } : GNBuf K).Holds vs.length
      (fun _ _ => 0) (fun _ => 0) :=
    ⟨⟨_, by rw [hA]; rfl, hRA.resetZero⟩, ⟨_, by rw [hB']; rfl, hRB.resetZero⟩, hbuf.tA1, hbuf.tA2, hbuf.tB, hbuf.jac⟩
  suffices h : ∀ m ≤ d.size, ∃ buf' z', (List.range m).foldlM (gnmRow j f F X d)
      ({ buf with A := buf.A.map Mat.resetZero, B := buf.B.map Mat.resetZero }, z) = some (buf', z') ∧
      GNMInv j D H rank F z' b ∧ d.Keeps p₀ z'.2.defs.par ∧
      buf'.Holds vs.length (fun a c => normalA (m * j.E.rows F) J b (vs.getD a 0) (vs.getD c 0))
        (fun a => normalB (m * j.E.rows F) r J b (vs.getD a 0)) from h _ (le_refl _)
  intro m
  induction m with
  | zero => intro _; exact ⟨_, z, rfl, hinv, hp, by simpa [normalA, normalB] using hz⟩
  | succ m ih =>
      intro hm
      obtain ⟨buf', z', e, hinv', hp', hbuf'⟩ := ih (by omega)
      obtain ⟨buf'', z'', e2, hinv'', hrow, hbuf''⟩ := gnmRow_spec hO hf hd hinv' hbuf' (i := m) (by omega)
        (fun p hr => hq m (by omega) p (hr.after hp'))
        (r := fun a => r (m * j.E.rows F + a) b) (g := fun a x => J (m * j.E.rows F + a) x b)
        (fun p hr => hM.val m (by omega) b p (hr.after hp'))
        (fun p hr => hM.der m (by omega) b p (hr.after hp'))
      refine ⟨buf'', z'', ?_, hinv'', fun q hq => (hrow.rest q hq).trans (hp' q hq), ?_⟩
      · rw [List.range_succ, List.foldlM_append, e]
        simp [e2]
      · simpa only [normalA, normalB, sum_rows] using hbuf''

theorem GNMInv.assign {z : JSt K} {b : ℕ → K} (h : GNMInv j D H rank F z b) {x : ℕ} (hx : IsVar D x) (v : K) :
    GNMInv j D H rank F (z.1, assignNum x v z.2) (Function.update b x v) := by
  obtain ⟨V, hV, ho⟩ := h.hist
  obtain ⟨p, hdefs⟩ := h.defs
  exact ⟨⟨V, hV.setVar x v (by rw [hdefs]; exact hx.1) (by rw [hdefs]; exact hx.2.2), ho⟩,
    ⟨p, assignNum_withValues hdefs hx.2.2 v⟩, h.mat⟩

variable {llt : Mat K → Mat K → Option (Mat K)} {Ok : ℕ → (ℕ → ℕ → K) → Prop}

theorem gnmIteration_spec (hL : SolvesOn llt Ok) (hO : GNMOK j D H rank F X vs) (hf : rank F < f) (hd : d.OK D)
    {p₀ : ℕ → K} {r : ℕ → (ℕ → K) → K} {J : ℕ → ℕ → (ℕ → K) → K} (hM : GNMModel j D rank F X vs d p₀ r J)
    {z : JSt K} {b : ℕ → K} (hq : ∀ i < d.size, ∀ p, d.Row i p₀ p → QueryOk (j.point D b p) rank True F)
    (hinv : GNMInv j D H rank F z b) (hp : d.Keeps p₀ z.2.defs.par) {buf : GNBuf K} {A : ℕ → ℕ → K} {B : ℕ → K}
    (hbuf : buf.Holds vs.length A B)
    (hok : Ok vs.length fun a c => normalA (d.size * j.E.rows F) J b (vs.getD a 0) (vs.getD c 0)) :
    ∃ buf' z' b', gnmIteration j llt f F X vs d (buf, z) = some (buf', z') ∧ GNMInv j D H rank F z' b' ∧
      d.Keeps p₀ z'.2.defs.par ∧ GNStep (d.size * j.E.rows F) vs r J b b' ∧ ∃ A B, buf'.Holds vs.length A B := by
  obtain ⟨buf₁, z₁, e1, h1, hp1, hb1⟩ := computeABm_spec hO hf hd hM hq hinv hp hbuf
  obtain ⟨mA, hmA, hRA⟩ := hb1.A
  obtain ⟨mB, hmB, hRB⟩ := hb1.B
  obtain ⟨Y, δ, e2, hY, hδ⟩ := hL hRA hRB hok
  have hvs : ∀ x ∈ vs, IsVar D x := by
    intro x hx
    obtain ⟨c, hc, rfl⟩ := List.getElem_of_mem hx
    exact (hO.el c hc).2.1
  obtain ⟨σ₂, b', e3, hp2, h2, ha, ho⟩ := gnUpdate_gen j.π hO.nodup (fun σ b => GNMInv j D H rank F (z₁.1, σ) b)
    (fun σ b x hx h => by
      obtain ⟨p, hdefs⟩ := h.defs
      obtain ⟨V, hV, -⟩ := h.hist
      simp only at hdefs hV
      have := hV.inv.wf.plain x (by rw [hdefs]; exact (hvs x hx).1) (by rw [hdefs]; exact (hvs x hx).2.2)
      rw [this.1, hdefs]; rfl)
    (fun σ b x v hx h => h.assign (hvs x hx) v) hY h1
  refine ⟨{ buf₁ with delX := some Y }, (z₁.1, σ₂), b', ?_, h2, fun q hq => by simp only [hp2]; exact hp1 q hq,
    GNStep.of_solve hO.nodup hδ ha ho, _, _,
    ⟨⟨mA, hmA, hRA⟩, ⟨mB, hmB, hRB⟩, hb1.tA1, hb1.tA2, hb1.tB, hb1.jac⟩⟩
  simp only [gnmIteration, e1, Option.bind_some, hmA, hmB, e2, e3, Option.map_some]

theorem gnmLoop_spec (hL : SolvesOn llt Ok) (hO : GNMOK j D H rank F X vs) (hf : rank F < f) (hd : d.OK D)
    {p₀ : ℕ → K} {r : ℕ → (ℕ → K) → K} {J : ℕ → ℕ → (ℕ → K) → K} (hM : GNMModel j D rank F X vs d p₀ r J) (n : ℕ) :
    ∀ {b : ℕ → K} {z : JSt K}, GNMInv j D H rank F z b → d.Keeps p₀ z.2.defs.par →
    ∀ {buf : GNBuf K} {A : ℕ → ℕ → K} {B : ℕ → K}, buf.Holds vs.length A B →
    (∀ k < n, ∀ b', GNSteps (d.size * j.E.rows F) vs r J k b b' →
      (∀ i < d.size, ∀ p, d.Row i p₀ p → QueryOk (j.point D b' p) rank True F) ∧
      Ok vs.length fun a c => normalA (d.size * j.E.rows F) J b' (vs.getD a 0) (vs.getD c 0)) →
    ∃ buf' z' b', gnmLoop j llt f F X vs d n (buf, z) = some (buf', z') ∧ GNMInv j D H rank F z' b' ∧
      d.Keeps p₀ z'.2.defs.par ∧ GNSteps (d.size * j.E.rows F) vs r J n b b' ∧ ∃ A B, buf'.Holds vs.length A B := by
  induction n with
  | zero => exact fun h hp buf A B hb _ => ⟨buf, _, _, rfl, h, hp, .zero _, A, B, hb⟩
  | succ n ih =>
      intro b z h hp buf A B hb hok
      obtain ⟨hq0, hok0⟩ := hok 0 (by omega) b (.zero b)
      obtain ⟨buf₁, z₁, b₁, e1, h1, hp1, hs1, A1, B1, hb1⟩ := gnmIteration_spec hL hO hf hd hM hq0 h hp hb hok0
      obtain ⟨buf₂, z₂, b₂, e2, h2, hp2, hs2, hb2⟩ := ih h1 hp1 hb1 fun k hk b' hs => hok (k + 1) (by omega) b' (.head hs1 hs)
      exact ⟨buf₂, z₂, b₂, by rw [gnmLoop, e1]; exact e2, h2, hp2, .head hs1 hs2, hb2⟩

end CoolDiff
