import Verif.Scalar.GradLoop

/-!
# The loops of `HessianR`, `SymGradient` and `SymHessian`
-/

set_option linter.unusedSectionVars false

namespace CoolDiff

variable {K : Type} [Field K] [DecidableEq K]
variable {P : Prim K} {rf : ℕ → Bool → List Bool → Bool}

theorem foldlM_skip {σ ι : Type} {body : σ → ι → Option σ} (l : List ι)
    (h : ∀ i ∈ l, ∀ s, body s i = some s) (s : σ) : l.foldlM body s = some s := by
  induction l with
  | nil => rfl
  | cons i l ih =>
      rw [List.foldlM_cons, h i (by simp)]
      exact ih fun j hj => h j (List.mem_cons_of_mem _ hj)

theorem foldlM_append {σ ι : Type} {body : σ → ι → Option σ} (l : List ι) (i : ι) (s : σ) :
    (l ++ [i]).foldlM body s = (l.foldlM body s).bind fun s => body s i := by
  rw [List.foldlM_append]
  show (l.foldlM body s).bind _ = _
  congr 1
  funext s
  simp [List.foldlM_cons]

/-- `j ≤ i` and `i < j` exclude each other: only the diagonal entry is written. -/
theorem hessRow_eq (f i : ℕ) (vs : List ℕ) (s : SSt K) (m : Mat K) :
    hessRow f i vs s m = vs[i]?.bind fun x => m.put? i i (DevalR f x s.st) := by
  rw [hessRow, forEach, List.range_succ, foldlM_append, foldlM_skip _ ?_]
  · simp
  · intro j hj m
    rw [List.mem_range] at hj
    rw [if_neg (by omega), if_neg (by omega)]

/-- The loop only writes the diagonal entries. -/
theorem symHess_inner (y n i : ℕ) (vs es : List ℕ) (s : SSt K) :
    (List.range (i + 1)).foldlM (symHessBody P rf y n i vs es) s = symHessBody P rf y n i vs es s i := by
  rw [List.range_succ, foldlM_append, foldlM_skip _ ?_]
  · rfl
  · intro j hj s
    rw [List.mem_range] at hj
    rw [symHessBody, if_neg (by omega), if_neg (by omega)]

theorem LoopI.init {a : Sess K} {S : Set ℕ} {y : ℕ} (ha : SInv P a) (hc : Calm P a S y) (n : ℕ) :
    LoopI P a (⟨(newExprs n a.s).2, a.H, a.T⟩ : Sess K) a.s.st.defs.size (a.s.st.defs.size + n) S ∧
    Calm P (⟨(newExprs n a.s).2, a.H, a.T⟩ : Sess K) S y ∧
    (newExprs n a.s).1 = (List.range n).map (a.s.st.defs.size + ·) ∧
    (∀ q, a.s.st.defs.size ≤ q → q < a.s.st.defs.size + n →
      (newExprs n a.s).2.st.defs.items q = [.leaf 0] ∧ (newExprs n a.s).2.st.mem.visited q = false) := by
  obtain ⟨h1, h2, h3, h4, h5, h6, h7⟩ := newExprs_spec (P := P) n a
  refine ⟨⟨by omega, h2, rfl, ⟨fun q hq => (h4 q hq).1, fun q hq => (h4 q hq).2.1, h5⟩, by rw [h3], fun q hq hn => ?_,
    fun q hq hn => ?_, fun q h8 h9 => ?_⟩, hc.new n, h1, h7⟩
  · have := hc.inv.lt q hq
    have this : q < a.s.st.defs.size := this
    omega
  · have := ha.lt q hq
    omega
  · rw [(h7 q h8 h9).1]; simp

/-! ## Roots that stay the same -/

theorem SameTo.reach {a b : Sess K} (ha : SInv P a) (h : SameTo a.s.st.defs.size a.s b.s) {y : ℕ}
    (hy : y < a.s.st.defs.size) {q : ℕ} : Reach b.s.st.defs y q ↔ Reach a.s.st.defs y q := by
  obtain ⟨ord, hf⟩ := ha
  exact Reach.congr fun q hq => h.items q (Reach.lt hf.good.d.wf.closed hy hq)

theorem SameTo.symOk {a b : Sess K} (ha : SInv P a) (h : SameTo a.s.st.defs.size a.s b.s) {y : ℕ}
    (hy : y < a.s.st.defs.size) (hok : a.SymOk y) : b.SymOk y := by
  intro q hq
  have hq := (h.reach ha hy).1 hq
  rw [h.items q (Reach.lt (by obtain ⟨ord, hf⟩ := ha; exact hf.good.d.wf.closed) hy hq)]
  exact hok q hq

theorem SameTo.only {a b : Sess K} (ha : SInv P a) (h : SameTo a.s.st.defs.size a.s b.s) {y : ℕ}
    (hy : y < a.s.st.defs.size) {p : Op1 K → Prop} (hok : a.Only p y) : b.Only p y := by
  intro q hq
  have hq := (h.reach ha hy).1 hq
  rw [h.items q (Reach.lt (by obtain ⟨ord, hf⟩ := ha; exact hf.good.d.wf.closed) hy hq)]
  exact hok q hq

theorem SameTo.inDom {a b : Sess ℝ} (ha : SInv realPrim a) (h : SameTo a.s.st.defs.size a.s b.s) {y m : ℕ}
    (hy : y < a.s.st.defs.size) (hd : a.InDom m y) : b.InDom m y := by
  have hlt : ∀ q, Reach a.s.st.defs y q → q < a.s.st.defs.size := fun q hq =>
    Reach.lt (by obtain ⟨ord, hf⟩ := ha; exact hf.good.d.wf.closed) hy hq
  intro ρ hρ
  have hρ' := (Solves.congr (P := realPrim) (fun q hq => h.items q (hlt q hq))
    (fun q hq => h.base q (hlt q hq)) h.par).1 hρ
  rw [h.par]
  exact (allBelow_congr (T := {q | Reach a.s.st.defs y q}) (fun q hq i hi p hp => Reach.step hq hi hp)
    (fun q hq => h.items q (hlt q hq)) (fun q hq => Or.inr (h.base q (hlt q hq))) Reach.refl).2 (hd ρ hρ')

theorem SameTo.set {a b : Sess K} {n : ℕ} (h : SameTo n a.s b.s) (x : ℕ) (t : K) :
    SameTo n (a.set x t).s (b.set x t).s := by
  refine ⟨fun q hq => ?_, fun q hq => ?_, h.par⟩
  · show Function.update b.s.st.defs.items x [] q = Function.update a.s.st.defs.items x [] q
    simp only [Function.update_apply, h.items q hq]
  · show Function.update b.s.st.defs.base x t q = Function.update a.s.st.defs.base x t q
    simp only [Function.update_apply, h.base q hq]

theorem SameTo.valueOf {a b : Sess K} (ha : SInv P a) (h : SameTo a.s.st.defs.size a.s b.s) {y : ℕ}
    (hy : y < a.s.st.defs.size) {v : K} : ValueOf P b.s.st.defs y v ↔ ValueOf P a.s.st.defs y v := by
  have hlt : ∀ q, Reach a.s.st.defs y q → q < a.s.st.defs.size := fun q hq =>
    Reach.lt (by obtain ⟨ord, hf⟩ := ha; exact hf.good.d.wf.closed) hy hq
  exact ValueOf.congr (fun q hq => h.items q (hlt q hq)) (fun q hq => h.base q (hlt q hq)) h.par

/-- The second derivative only depends on the definitions below the root. -/
theorem SameTo.second {a b : Sess ℝ} (ha : SInv realPrim a) (h : SameTo a.s.st.defs.size a.s b.s)
    {y x₁ x₂ : ℕ} (hy : y < a.s.st.defs.size) (hx₁ : a.H x₁) (hx₂ : a.H x₂) {w : ℝ}
    (hw : SecondDerivative b y x₁ x₂ w) : SecondDerivative a y x₁ x₂ w := by
  obtain ⟨V, F, h1, h2, h3⟩ := hw
  have hl : ∀ {x}, a.H x → x < a.s.st.defs.size := fun hx => by
    obtain ⟨ord, hf⟩ := ha
    exact (hf.good.d.user _ hx).1
  rw [h.base _ (hl hx₂)] at h2 h3
  refine ⟨V, F, fun t s => ?_, ?_, h3⟩
  · have hi := Sess.set_inv (Sess.set_inv ha hx₂ t) (show (a.set x₂ t).H x₁ from hx₁) s
    exact ((h.set x₂ t).set x₁ s).valueOf (a := (a.set x₂ t).set x₁ s) (b := (b.set x₂ t).set x₁ s) hi hy |>.1 (h1 t s)
  · filter_upwards [h2] with t ht
    rwa [(h.set x₂ t).base _ (hl hx₁)] at ht

/-! ## `HessianR` -/

/-- `w` is the formal derivative with respect to `x` of the Expression `SymDiff(y,x)` returned, in a
state that agrees with `a` on all objects of `a`. -/
def DiagFact (P : Prim K) (a : Sess K) (y x : ℕ) (w : K) : Prop :=
  ∃ c d c' b, SInv P c ∧ SymD P c y x d c' ∧ Later P c' b ∧ b.H = a.H ∧
    SameTo a.s.st.defs.size a.s b.s ∧ DerivOf P b.s.st.defs d x w

theorem hess_loop {a : Sess K} {S : Set ℕ} {y : ℕ} (ha : SInv P a) (hc : Calm P a S y)
    (hi : a.s.st.defs.items y ≠ []) (hok : a.SymOk y) {vs : List ℕ} (hvs : ∀ x ∈ vs, a.H x)
    {m₀ : Mat K} (hm : Rep m₀ vs.length vs.length fun _ _ => 0) :
    ∀ k ≤ vs.length, ∃ m b S',
      (List.range k).foldlM (hessStep P rf y vs (newExprs vs.length a.s).1)
        (m₀, (newExprs vs.length a.s).2) = some (m, b.s) ∧
      LoopI P a b a.s.st.defs.size (a.s.st.defs.size + vs.length) S' ∧ Calm P b S' y ∧
      ∃ A : ℕ → ℕ → K, Rep m vs.length vs.length A ∧ (∀ i j, i ≠ j → A i j = 0) ∧
        ∀ i < k, ∀ x, vs[i]? = some x → DiagFact P a y x (A i i) := by
  obtain ⟨hl0, hc0, hes, -⟩ := LoopI.init (P := P) ha hc vs.length
  have hy : y < a.s.st.defs.size := hc.inv.lt y (hc.below y .refl)
  intro k
  induction k with
  | zero =>
      intro _
      exact ⟨m₀, _, S, rfl, hl0, hc0, _, hm, fun _ _ _ => rfl, fun i hi => by omega⟩
  | succ k ih =>
      intro hk
      obtain ⟨m, b, S', h1, h2, h3, A, h4, h5, h6⟩ := ih (by omega)
      have hkl : k < vs.length := by omega
      have hx : a.H vs[k] := hvs _ (List.getElem_mem hkl)
      have hbx : b.H vs[k] := by rw [h2.H]; exact hx
      obtain ⟨d, s', S'', e1, e2, mm, e3, e4, e5, e6⟩ := h2.entry (rf := rf) (x := vs[k])
        (f := a.s.st.defs.size + k) ha h3 hbx (h2.ext.symOk ha hy hok)
        (by rw [h2.ext.items y hy]; exact hi) (by omega) (by omega)
      have hb : SInv P b := (h2.later.inv ha).1
      have hst1 : SStep P b (b.diffed y s') := SStep.symDiff rf y vs[k] d e1.symD.lt e1.symD.var
        e1.symD.safe e1.symD.ok e1.run
      set c2 : Sess K := ⟨s'.assignRef (a.s.st.defs.size + k) d, b.H, (b.diffed y s').T⟩ with hc2
      set c3 : Sess K := ⟨{ s' with st := ⟨(CoolDiff.assignRef (a.s.st.defs.size + k) d s'.st).defs, mm⟩ }, b.H,
        (b.diffed y s').T⟩ with hc3
      have hi2 : SInv P c2 := ((h2.later.step hst1).step e1.step).inv ha |>.1
      have hdefs : c3.s.st.defs = c2.s.st.defs := rfl
      -- the value written
      have hfl : a.s.st.defs.size + k < c2.s.st.defs.size := by
        have := e1.dlt; have := e1.dge
        show a.s.st.defs.size + k < s'.st.defs.size
        omega
      have hxf : a.s.st.defs.size + k ≠ vs[k] := by
        obtain ⟨ord, hf⟩ := ha
        have : vs[k] < a.s.st.defs.size := (hf.good.d.user _ hx).1
        omega
      have hder : DerivOf P c2.s.st.defs (a.s.st.defs.size + k) vs[k]
          (DevalR (a.s.st.defs.size + k) vs[k] c3.s.st) := by
        have hrev := revOK_of_user hi2 hfl (show c2.H vs[k] from hbx)
        obtain ⟨ord, hf⟩ := hi2
        have hxl : vs[k] < c2.s.st.defs.size := (hf.good.d.user _ hbx).1
        obtain ⟨ρ, hρ⟩ := (hf.wellDefined hfl).exists_solves (P := P)
        obtain ⟨δ, hδ⟩ := (hf.wellDefined hfl).exists_tangent (P := P) vs[k] ρ
        have := hf.preCompS_key hfl hxl e5 hrev hρ hδ e3
        rw [if_neg hxf] at this
        exact ⟨ρ, δ, hρ, hδ, this.symm⟩
      have hder' := hder.of_ref e1.ref e1.fd hxf
      obtain ⟨m', p1, p2, p3, p4, p5⟩ := Mat.put?_spec h4.wf (i := k) (j := k) (by rw [h4.rows]; exact hkl)
        (by rw [h4.cols]; exact hkl) (DevalR (a.s.st.defs.size + k) vs[k] c3.s.st)
      have hrun : (List.range (k + 1)).foldlM (hessStep P rf y vs (newExprs vs.length a.s).1)
          (m₀, (newExprs vs.length a.s).2) = some (m', c3.s) := by
        rw [List.range_succ, foldlM_append, h1, Option.bind_some, hessStep,
          List.getElem?_eq_getElem hkl, Option.bind_some, hes, List.getElem?_map,
          List.getElem?_range hkl, Option.map_some, Option.bind_some]
        simp only [e1.run, Option.bind_some, e3, hessRow_eq, List.getElem?_eq_getElem hkl]
        show (Mat.put? m k k (DevalR (a.s.st.defs.size + k) vs[k] c3.s.st)).map _ = _
        rw [p1]; rfl
      refine ⟨m', c3, S'', hrun, ?_, e6, fun i j => if i = k ∧ j = k then
        DevalR (a.s.st.defs.size + k) vs[k] c3.s.st else A i j, ⟨h4.rpos, h4.cpos, by rw [p2, h4.rows],
        by rw [p3, h4.cols], by rw [p4.len, p2, p3, h4.rows, h4.cols], fun i j hi hj => ?_⟩,
        fun i j hij => ?_, fun i hik x hxi => ?_⟩
      · exact ⟨e1.loop.le, e1.loop.later.step e4, e1.loop.H,
          ⟨e1.loop.ext.items, e1.loop.ext.base, e1.loop.ext.par⟩, e1.loop.size, e1.loop.freeS, e1.loop.freeT,
          e1.loop.cells⟩
      · rw [p5]
        split
        · rfl
        · exact h4.elem i j hi hj
      · simp only
        rw [if_neg (by omega)]
        exact h5 i j hij
      · simp only
        by_cases hik' : i = k
        · subst hik'
          rw [List.getElem?_eq_getElem hkl] at hxi
          simp only [Option.some.injEq] at hxi
          subst hxi
          rw [if_pos ⟨rfl, rfl⟩]
          exact ⟨b, d, _, c2, hb, e1.symD, .step .refl e1.step, h2.H, e1.loop.ext, hder'⟩
        · rw [if_neg (by omega)]
          exact h6 i (by omega) x hxi

theorem DiagFact.second {a : Sess ℝ} (ha : SInv realPrim a) {y x : ℕ} (hy : y < a.s.st.defs.size)
    (hx : a.H x) (hd : a.InDom 1 y) {w : ℝ} (h : DiagFact realPrim a y x w) :
    SecondDerivative a y x x w := by
  obtain ⟨c, d, c', b, h1, h2, h3, h4, h5, h6⟩ := h
  exact h5.second ha hy hx hx (second_of_deriv h2 h1 h3 (h4 ▸ hx) (h5.inDom ha hy hd) h6)

/-! ## Entries that are Expressions -/

/-- The entry `f` refers to an Expression `d` with property `R`; everything below `d` is in `S`. -/
def EntFact (N : ℕ) (R : Sess K → ℕ → Prop) (b : Sess K) (S : Set ℕ) (f : ℕ) : Prop :=
  ∃ d, b.s.st.defs.items f = [.leaf d] ∧ f ≠ d ∧ N ≤ d ∧ d < b.s.st.defs.size ∧
    (∀ q, Reach b.s.st.defs d q → q = d ∨ q ∈ S) ∧ R b d

theorem EntFact.mono {a b b' : Sess K} {n0 N f f' : ℕ} {S S' : Set ℕ} {R : Sess K → ℕ → Prop}
    (hl : LoopI P a b n0 N S) (hR : ∀ d, R b d → R b' d) (hsz : b.s.st.defs.size ≤ b'.s.st.defs.size)
    (hS : ∀ q ∈ S, q < b.s.st.defs.size)
    (same : ∀ q, q ≠ f' → q < b.s.st.defs.size → b'.s.st.defs.items q = b.s.st.defs.items q)
    (hf1 : n0 ≤ f') (hf2 : f' < N) (hff : f ≠ f') (hf : f < N) (hSS : ∀ q ∈ S, q ∈ S')
    (h : EntFact N R b S f) : EntFact N R b' S' f := by
  obtain ⟨d, h1, h2, h3, h4, h5, h6⟩ := h
  have hN := hl.size
  have hre : ∀ q, Reach b.s.st.defs d q → b'.s.st.defs.items q = b.s.st.defs.items q := by
    intro q hq
    rcases h5 q hq with rfl | hh
    · exact same q (by omega) h4
    · exact same q (fun e => by have := hl.freeS q hh (by omega); omega) (hS q hh)
  refine ⟨d, by rw [same f hff (by omega)]; exact h1, h2, h3, by omega, fun q hq => ?_, hR d h6⟩
  rcases h5 q ((Reach.congr hre).1 hq) with hh | hh
  · exact Or.inl hh
  · exact Or.inr (hSS q hh)

/-- After the loop the entries can be queried. -/
theorem EntFact.safe {N f : ℕ} {R : Sess K → ℕ → Prop} {b : Sess K} {S : Set ℕ}
    (h : EntFact N R b S f) (hq : Quiet P b.s b.H S) : b.Safe f := by
  obtain ⟨d, h1, h2, -, -, h5, -⟩ := h
  intro q hr hqf hqi hv
  have key : ∀ q, Reach b.s.st.defs f q → q = f ∨ Reach b.s.st.defs d q := by
    intro q hr
    induction hr with
    | refl => exact Or.inl rfl
    | @step q p i _ hi hp ih =>
        right
        rcases ih with rfl | ih
        · rw [h1] at hi
          simp only [List.mem_singleton] at hi
          subst hi
          simp only [Node.leaves, List.mem_singleton] at hp
          subst hp
          exact .refl
        · exact ih.step hi hp
  rcases key q hr with hh | hh
  · exact absurd hh hqf
  · rcases h5 q hh with rfl | hh
    · exact ⟨q, mem_itemTargets.2 ⟨.leaf q, by rw [h1]; simp, Or.inl (by simp [Node.leaves])⟩, .refl⟩
    · have := hq.un q hh hqi
      have hv : b.s.st.mem.visited q = true := hv
      rw [this] at hv
      simp at hv

/-- Rounds keep the flags safe, and change no definition. -/
theorem Rounds.laterS {d : ℕ} {a b : Sess K} (h : Rounds P d a b) (ha : SInv P a)
    (hd : d < a.s.st.defs.size) (hs : a.Safe d) :
    Later P a b ∧ d < b.s.st.defs.size ∧ b.Safe d ∧ b.s.st.defs.items = a.s.st.defs.items ∧ b.H = a.H := by
  induction h with
  | refl => exact ⟨.refl, hd, hs, rfl, rfl⟩
  | @setVar b x v _ hx ih =>
      obtain ⟨h1, h2, h3, h4, h5⟩ := ih
      obtain ⟨hb, -⟩ := h1.inv ha
      have he : (assignNum x v b.s.st).defs.items = b.s.st.defs.items := Sess.set_items hb hx v
      exact ⟨h1.step (.setVar x v hx), h2, SafeS.of_items h3 he, he.trans h4, h5⟩
  | @setPar b p v _ ih =>
      obtain ⟨h1, h2, h3, h4, h5⟩ := ih
      exact ⟨h1.step (.setPar p v), h2, SafeS.of_items h3 rfl, h4, h5⟩
  | @eval b s' v _ he ih =>
      obtain ⟨h1, h2, h3, h4, h5⟩ := ih
      obtain ⟨⟨ord, hf⟩, -⟩ := h1.inv ha
      obtain ⟨ρ, hρ⟩ := (hf.wellDefined h2).exists_solves (P := P)
      obtain ⟨m, e1, -, e3, -⟩ := hf.evalS h2 h3 hρ
      have e1 : EvalS P d b.s = _ := e1
      refine ⟨h1.step (.eval d v h2 h3 he), ?_⟩
      rw [e1] at he
      simp only [Option.some.injEq, Prod.mk.injEq] at he
      rw [← he.2]
      exact ⟨h2, (CoolDiff.Safe.all e3).safeS, h4, h5⟩
  | @devalF b s' x v _ hx he ih =>
      obtain ⟨h1, h2, h3, h4, h5⟩ := ih
      obtain ⟨⟨ord, hf⟩, -⟩ := h1.inv ha
      obtain ⟨ρ, hρ⟩ := (hf.wellDefined h2).exists_solves (P := P)
      obtain ⟨δ, hδ⟩ := (hf.wellDefined h2).exists_tangent (P := P) x ρ
      obtain ⟨m, e1, -, e3, -⟩ := hf.devalFS h2 hx h3 hρ hδ
      have e1 : DevalFS P d x b.s = _ := e1
      refine ⟨h1.step (.devalF d x v h2 hx h3 he), ?_⟩
      rw [e1] at he
      simp only [Option.some.injEq, Prod.mk.injEq] at he
      rw [← he.2]
      exact ⟨h2, (CoolDiff.Safe.all e3).safeS, h4, h5⟩
  | @preComp b s' _ he ih =>
      obtain ⟨h1, h2, h3, h4, h5⟩ := ih
      obtain ⟨⟨ord, hf⟩, -⟩ := h1.inv ha
      obtain ⟨m, e1, -, e3, -⟩ := hf.preCompS h2 h3
      have e1 : PreCompS P d b.s = _ := e1
      refine ⟨h1.step (.preComp d h2 h3 he), ?_⟩
      rw [e1] at he
      simp only [Option.some.injEq] at he
      rw [← he]
      exact ⟨h2, (CoolDiff.Safe.all e3).safeS, h4, h5⟩

/-! ## `SymGradient` -/

/-- `d` was returned by `SymDiff(y,x)` at some moment before. -/
def GradR (P : Prim K) (y x : ℕ) (b : Sess K) (d : ℕ) : Prop :=
  ∃ c c', SInv P c ∧ SymD P c y x d c' ∧ Later P c' b

theorem GradR.later {y x d : ℕ} {b b' : Sess K} (h : GradR P y x b d) (hl : Later P b b') :
    GradR P y x b' d := by
  obtain ⟨c, c', h1, h2, h3⟩ := h
  exact ⟨c, c', h1, h2, h3.trans hl⟩

theorem symInto_spec {a : Sess K} {y n0 N : ℕ} (ha : SInv P a) (hn : a.s.st.defs.size = n0)
    (hi : a.s.st.defs.items y ≠ []) (hok : a.SymOk y) (hy : y < n0) (ps : List (ℕ × ℕ)) :
    ∀ (b : Sess K) (S : Set ℕ), LoopI P a b n0 N S → Calm P b S y →
      (∀ p ∈ ps, n0 ≤ p.1 ∧ p.1 < N ∧ a.H p.2) → (ps.map Prod.fst).Nodup →
      ∃ (b' : Sess K) (S' : Set ℕ), symInto P rf y ps b.s = some b'.s ∧ LoopI P a b' n0 N S' ∧ Calm P b' S' y ∧
        (∀ q ∈ S, q ∈ S') ∧ Later P b b' ∧ b.s.st.defs.size ≤ b'.s.st.defs.size ∧
        (Quiet P b.s b.H S ∨ ps ≠ [] → Quiet P b'.s b'.H S') ∧
        (∀ (R : Sess K → ℕ → Prop) f, (∀ c c' d, Later P c c' → R c d → R c' d) → f < N →
          f ∉ ps.map Prod.fst → EntFact N R b S f → EntFact N R b' S' f) ∧
        ∀ p ∈ ps, EntFact N (GradR P y p.2) b' S' p.1 := by
  subst hn
  induction ps with
  | nil =>
      intro b S hl hc _ _
      exact ⟨b, S, rfl, hl, hc, fun _ h => h, .refl, le_refl _, fun h => h.resolve_right fun h => h rfl,
        fun R f _ _ _ h => h, fun p hp => by simp at hp⟩
  | cons p ps ih =>
      intro b S hl hc hps hnd
      obtain ⟨p1, p2, p3⟩ := hps p (by simp)
      simp only [List.map_cons, List.nodup_cons] at hnd
      obtain ⟨d, s', S1, e1, e2, -⟩ := hl.entry (rf := rf) (x := p.2) (f := p.1) ha hc (by rw [hl.H]; exact p3)
        (hl.ext.symOk ha hy hok) (by rw [hl.ext.items y hy]; exact hi) p1 p2
      set c2 : Sess K := ⟨s'.assignRef p.1 d, b.H, (b.diffed y s').T⟩ with hc2
      have hb : SInv P b := (hl.later.inv ha).1
      have hst1 : SStep P b (b.diffed y s') := SStep.symDiff rf y p.2 d e1.symD.lt e1.symD.var
        e1.symD.safe e1.symD.ok e1.run
      have hl2 : Later P b c2 := (Later.refl.step hst1).step e1.step
      have hsz : b.s.st.defs.size ≤ c2.s.st.defs.size := (hl2.inv hb).2.size
      have hyS : y ∈ S1 := e2 y (hc.below y .refl)
      obtain ⟨b', S', f1, f2, f3, f4, f5, f6, f7, f8, f9⟩ := ih c2 S1 e1.loop (e1.quiet'.calm hyS)
        (fun q hq => hps q (List.mem_cons_of_mem _ hq)) hnd.2
      refine ⟨b', S', ?_, f2, f3, fun q hq => f4 q (e2 q hq), hl2.trans f5, hsz.trans f6,
        fun _ => f7 (Or.inl e1.quiet'), fun R f hR hfN hf h => ?_, fun q hq => ?_⟩
      · rw [symInto, e1.run]
        exact f1
      · simp only [List.map_cons, List.mem_cons, not_or] at hf
        exact f8 R f hR hfN hf.2 (h.mono hl (fun d => hR b c2 d hl2) hsz (fun q hq => hc.inv.lt q hq) e1.same p1 p2 hf.1 hfN e2)
      · rcases List.mem_cons.1 hq with rfl | hq
        · refine f8 _ q.1 (fun c c' d hl h => h.later hl) p2 hnd.1 ⟨d, e1.ref, e1.fd, e1.dge, e1.dlt, e1.below,
            b, _, hb, e1.symD, .step .refl e1.step⟩
        · exact f9 q hq

/-! ## `SymHessian` -/

/-- `e` was returned by `SymDiff(SymDiff(y,x), x)`. -/
def HessR (P : Prim K) (y x : ℕ) (b : Sess K) (e : ℕ) : Prop :=
  ∃ c d c' g, SInv P c ∧ SymD P c y x d c' ∧ SymD P c' d x e g ∧ Later P g b

theorem HessR.later {y x d : ℕ} {b b' : Sess K} (h : HessR P y x b d) (hl : Later P b b') :
    HessR P y x b' d := by
  obtain ⟨c, d', c', g, h1, h2, h3, h4⟩ := h
  exact ⟨c, d', c', g, h1, h2, h3, h4.trans hl⟩

/-- `SymDiff` of a calm root; the result is calm too. -/
theorem LoopI.diff {a b : Sess K} {n0 N y x : ℕ} {S : Set ℕ} (hl : LoopI P a b n0 N S)
    (ha : SInv P a) (hc : Calm P b S y) (hx : b.H x) (hok : b.SymOk y)
    (hi : b.s.st.defs.items y ≠ []) :
    ∃ d s' S', symDiff P rf y x b.s = some (d, s') ∧ SymD P b y x d (b.diffed y s') ∧
      SStep P b (b.diffed y s') ∧ LoopI P a (b.diffed y s') n0 N S' ∧ Calm P (b.diffed y s') S' d ∧
      (∀ q ∈ S, q ∈ S') ∧ s'.st.defs.items d ≠ [] ∧
      (∀ q < b.s.st.defs.size, s'.st.defs.items q = b.s.st.defs.items q) ∧
      b.s.st.defs.size ≤ s'.st.defs.size := by
  have hb : SInv P b := (hl.later.inv ha).1
  have hyl : y < b.s.st.defs.size := hc.inv.lt y (hc.below y .refl)
  obtain ⟨d, s', e, S', h1, h2, h3, h4, h5, h6, h7, h8, h9, h10, h11, h12, h13, h14, h15, h16, h17⟩ :=
    hc.symDiff (rf := rf) hx hok hi
  obtain ⟨d₂, s₂, g1, g2, -⟩ := symDiff_core hb hyl hx hc.safe hok rf
  rw [h1] at g1
  simp only [Option.some.injEq, Prod.mk.injEq] at g1
  obtain ⟨rfl, rfl⟩ := g1
  have hN := hl.size
  have hrS : ∀ q, Reach s'.st.defs d q → q = d ∨ q ∈ S' := by
    intro q hq
    rcases h11 q hq with hh | hh
    · exact Or.inl hh
    · exact Or.inr (h2.below (y := e) h9 q hh)
  have hlt : ∀ q ∈ S', q < s'.st.defs.size := h2.lt
  obtain ⟨ord, hf⟩ := h2
  have h2' : SInv P (⟨s', b.H, S' ∪ {q | Reach s'.st.defs d q}⟩ : Sess K) :=
    ⟨ord, hf.addT (B := {q | Reach s'.st.defs d q}) (fun q hq => by
      rcases hrS q hq with rfl | hh
      · exact h4
      · exact hlt q hh) (fun q hq i hi p hp => Reach.step hq hi hp)⟩
  refine ⟨d, s', S' ∪ {q | Reach s'.st.defs d q}, h1, ⟨hyl, hx, hc.safe, hok, rf, s', h1, rfl⟩, g2,
    ⟨hl.le, hl.later.step g2, hl.H, hl.ext.trans ⟨fun q hq => h13 q (by have := hl.le; omega),
      fun q hq => h14 q (by have := hl.le; omega), h15⟩, ?_, ?_, ?_, ?_⟩,
    ⟨h2', fun q hq => Or.inr hq, fun q hq hqi hqd hqv => ?_⟩, fun q hq => Or.inl (h7 q hq), h12, h13, h16⟩
  · show N ≤ s'.st.defs.size
    omega
  · rintro q (hq | hq) hqn
    · rcases h6 q hq with hh | hh
      · exact hl.freeS q hh hqn
      · omega
    · rcases hrS q hq with rfl | hq
      · omega
      · rcases h6 q hq with hh | hh
        · exact hl.freeS q hh hqn
        · omega
  · rintro q (h | h | h) hqn
    · exact hl.freeT q h hqn
    · exact hl.freeS q (hc.below q h) hqn
    · omega
  · intro q hq1 hq2
    show s'.st.defs.items q ≠ []
    rw [h13 q (by omega)]
    exact hl.cells q hq1 hq2
  · have hqS : q ∈ S' := by
      rcases hq with hq | hq
      · exact hq
      · exact (hrS q hq).resolve_left hqd
    have := h8 q hqS hqi
    have hqv : s'.st.mem.visited q = true := hqv
    rw [this] at hqv
    simp at hqv

theorem symHess_loop {a : Sess K} {S : Set ℕ} {y : ℕ} (ha : SInv P a) (hc : Calm P a S y)
    (hi : a.s.st.defs.items y ≠ []) (hok : a.Only Op1.SymOk2 y) {vs : List ℕ} (hvs : ∀ x ∈ vs, a.H x) :
    ∀ k ≤ vs.length, ∃ (b : Sess K) (S' : Set ℕ),
      (List.range k).foldlM (fun t i => (List.range (i + 1)).foldlM
        (symHessBody P rf y vs.length i vs (newExprs (vs.length * vs.length) a.s).1) t)
        (newExprs (vs.length * vs.length) a.s).2 = some b.s ∧
      LoopI P a b a.s.st.defs.size (a.s.st.defs.size + vs.length * vs.length) S' ∧ Calm P b S' y ∧
      (0 < k → Quiet P b.s b.H S') ∧
      (∀ i < k, ∀ x, vs[i]? = some x → EntFact (a.s.st.defs.size + vs.length * vs.length) (HessR P y x) b S'
        (a.s.st.defs.size + (i * vs.length + i))) ∧
      ∀ q, a.s.st.defs.size ≤ q → q < a.s.st.defs.size + vs.length * vs.length →
        (∀ i < k, q ≠ a.s.st.defs.size + (i * vs.length + i)) → b.s.st.defs.items q = [.leaf 0] := by
  obtain ⟨hl0, hc0, hes, hit⟩ := LoopI.init (P := P) ha hc (vs.length * vs.length)
  have hy : y < a.s.st.defs.size := hc.inv.lt y (hc.below y .refl)
  have hok' : a.SymOk y := Sess.only_symOk.1 fun q hq i hi => (hok q hq i hi).mono (fun _ h => h.symOk) fun _ h => h
  intro k
  induction k with
  | zero =>
      intro _
      exact ⟨_, S, rfl, hl0, hc0, fun h => by omega, fun i hi => by omega, fun q h1 h2 _ => (hit q h1 h2).1⟩
  | succ k ih =>
      intro hk
      obtain ⟨b, S', h1, h2, h3, -, h5, h6⟩ := ih (by omega)
      have hkl : k < vs.length := by omega
      have hcell : k * vs.length + k < vs.length * vs.length := flat_lt hkl hkl
      have hx : a.H vs[k] := hvs _ (List.getElem_mem hkl)
      have hbx : b.H vs[k] := by rw [h2.H]; exact hx
      have hb : SInv P b := (h2.later.inv ha).1
      obtain ⟨d, s1, S1, g1, g2, g3, g4, g5, g6, g7, g8, g9⟩ := h2.diff (rf := rf) (x := vs[k]) ha h3 hbx
        (h2.ext.symOk ha hy hok') (by rw [h2.ext.items y hy]; exact hi)
      have hdok : (b.diffed y s1).SymOk d :=
        Sess.only_symOk.1 (g2.only hb .refl symOk2_closes (h2.ext.only ha hy hok))
      obtain ⟨e, s2, S2, e1, e2, -⟩ := g4.entry (rf := rf) (x := vs[k])
        (f := a.s.st.defs.size + (k * vs.length + k)) ha g5 hbx hdok g7 (by omega) (by omega)
      set c2 : Sess K := ⟨s2.assignRef (a.s.st.defs.size + (k * vs.length + k)) e, (b.diffed y s1).H,
        ((b.diffed y s1).diffed d s2).T⟩ with hc2
      have hb1 : SInv P (b.diffed y s1) := (g3.inv hb).1
      have hst2 : SStep P (b.diffed y s1) ((b.diffed y s1).diffed d s2) :=
        SStep.symDiff rf d vs[k] e e1.symD.lt e1.symD.var e1.symD.safe e1.symD.ok e1.run
      have hl2 : Later P b c2 := ((Later.refl.step g3).step hst2).step e1.step
      have hsame : ∀ q, q ≠ a.s.st.defs.size + (k * vs.length + k) → q < b.s.st.defs.size →
          c2.s.st.defs.items q = b.s.st.defs.items q := by
        intro q hq hql
        have h9 : b.s.st.defs.size ≤ s1.st.defs.size := g9
        rw [← g8 q hql]
        exact e1.same q hq (show q < s1.st.defs.size by omega)
      have hyS : y ∈ S2 := e2 y (g6 y (h3.below y .refl))
      have hrun : (List.range (k + 1)).foldlM (fun t i => (List.range (i + 1)).foldlM
        (symHessBody P rf y vs.length i vs (newExprs (vs.length * vs.length) a.s).1) t)
        (newExprs (vs.length * vs.length) a.s).2 = some c2.s := by
        rw [List.range_succ, foldlM_append, h1, Option.bind_some, symHess_inner, symHessBody,
          if_neg (by omega), if_pos rfl, List.getElem?_eq_getElem hkl, Option.bind_some, Option.bind_some,
          hes, List.getElem?_map, List.getElem?_range hcell, Option.map_some, Option.bind_some, g1,
          Option.bind_some]
        have := e1.run
        have this : symDiff P rf d vs[k] s1 = some (e, s2) := this
        rw [this]; rfl
      refine ⟨c2, S2, hrun, e1.loop, e1.quiet'.calm hyS, fun _ => e1.quiet', fun i hik x hxi => ?_,
        fun q hq1 hq2 hne => ?_⟩
      · by_cases hik' : i = k
        · subst hik'
          rw [List.getElem?_eq_getElem hkl] at hxi
          simp only [Option.some.injEq] at hxi
          subst hxi
          exact ⟨e, e1.ref, e1.fd, e1.dge, e1.dlt, e1.below, b, d, _, _, hb, g2, e1.symD, .step .refl e1.step⟩
        · have hil : i < vs.length := by omega
          refine (h5 i (by omega) x hxi).mono h2 (fun d h => h.later hl2) (hl2.inv hb).2.size
            (fun q hq => h3.inv.lt q hq) hsame (by omega) (by omega) ?_ (by have := flat_lt hil hil; omega)
            fun q hq => e2 q (g6 q hq)
          intro heq
          have : i * vs.length + i = k * vs.length + k := by omega
          have h7 : i * (vs.length + 1) = k * (vs.length + 1) := by linarith
          exact hik' (Nat.eq_of_mul_eq_mul_right (by omega) h7)
      · rw [hsame q (hne k (by omega)) (by have := h2.size; omega)]
        exact h6 q hq1 hq2 fun i hi => hne i (by omega)

/-- A default-constructed Expression has the value 0. -/
theorem value_of_default {b : Sess K} (hb : SInv P b) {q : ℕ} (hq : b.s.st.defs.items q = [.leaf 0])
    {v : K} (h : ValueOf P b.s.st.defs q v) : v = 0 := by
  obtain ⟨ord, hf⟩ := hb
  have h0 : b.s.st.defs.items 0 = [] := hf.good.d.zero.2.1
  have hb0 : b.s.st.defs.base 0 = 0 := hf.good.d.zero.2.2.1
  have hne : q ≠ 0 := by
    rintro rfl
    rw [h0] at hq
    simp at hq
  obtain ⟨ρ, hs, rfl⟩ := h.of_ref hq hne
  have := hs 0 .refl
  rw [h0, hb0] at this
  exact this

theorem safe_of_default {b : Sess K} (hb : SInv P b) {q : ℕ} (hq : b.s.st.defs.items q = [.leaf 0]) :
    b.Safe q := by
  obtain ⟨ord, hf⟩ := hb
  have h0 : b.s.st.defs.items 0 = [] := hf.good.d.zero.2.1
  intro p hp hpq hpi _
  have key : ∀ p, Reach b.s.st.defs q p → p = q ∨ p = 0 := by
    intro p hp
    induction hp with
    | refl => exact Or.inl rfl
    | @step p p' i _ hi hl ih =>
        right
        rcases ih with rfl | rfl
        · rw [hq] at hi
          simp only [List.mem_singleton] at hi
          subst hi
          simpa [Node.leaves] using hl
        · rw [h0] at hi
          simp at hi
  rcases key p hp with rfl | rfl
  · exact absurd rfl hpq
  · exact absurd h0 hpi

end CoolDiff
