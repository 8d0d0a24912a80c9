import Verif.Scalar.GradMain
import Verif.Props.SymExamples

/-!
# C22: gradient and Hessian matrices

The functions are modelled in Verif/Scalar/Gradients.lean.  `Rep m r c A`: the matrix `m` has `r` rows,
`c` columns and the entries `A i j`.
-/

set_option linter.unusedSectionVars false

namespace CoolDiff

variable {K : Type} [Field K] [DecidableEq K] {P : Prim K}

/-! ## Reverse mode gradient -/

theorem devalR_matrix {a : Sess K} (ha : SInv P a) {y : ℕ} (hy : y < a.s.st.defs.size)
    (hi : a.s.st.defs.items y ≠ []) (hs : a.Safe y) {vs : List ℕ} (hvs : ∀ x ∈ vs, a.H x) {r c : ℕ}
    (hr : 0 < r) (hc : 0 < c) (hl : vs.length = r * c) :
    ∃ m₀ s' m, Mat.new r c = some m₀ ∧ PreCompS P y a.s = some s' ∧
      SStep P a ⟨s', a.H, a.T⟩ ∧ s'.st.defs = a.s.st.defs ∧
      transformTo (fun x s => some (DevalR y x s.st, s)) vs 0 m₀ s' = some (m, s') ∧
      ∃ A, Rep m r c A ∧
        ∀ i j, i < r → j < c → ∀ x, vs[i * c + j]? = some x → DerivOf P a.s.st.defs y x (A i j) := by
  have hrev : ∀ x, a.H x → RevOK a.s.st.defs y x := fun x hx => revOK_of_user ha hy hx
  obtain ⟨ord, hf⟩ := ha
  obtain ⟨m1, e1, -⟩ := hf.preCompS hy hs
  have e1 : PreCompS P y a.s = some { a.s with st := ⟨a.s.st.defs, m1⟩ } := e1
  set s' : SSt K := { a.s with st := ⟨a.s.st.defs, m1⟩ } with hs'
  obtain ⟨m₀, m, s2, h1, h2, h3, A, h4, h5⟩ := transformTo_new (fun s => s = s')
    (fun x => DevalR y x s'.st) (f := fun x s => some (DevalR y x s.st, s)) (vs := vs)
    (fun v _ s h => ⟨s, by rw [h], h⟩) hr hc hl rfl
  refine ⟨m₀, s', m, h1, e1, .preComp y hy hs e1, rfl, by rw [h2, h3], A, h4, fun i j hi' hj x hx => ?_⟩
  have hxv : a.H x := hvs x (List.mem_of_getElem? hx)
  have hxu : x < a.s.st.defs.size ∧ a.s.st.defs.items x = [] := hf.good.d.user x hxv
  have := h5 i j hi' hj
  rw [hx, Option.map_some, Option.some.injEq] at this
  rw [← this]
  obtain ⟨ρ, hρ⟩ := (hf.wellDefined hy).exists_solves (P := P)
  obtain ⟨δ, hδ⟩ := (hf.wellDefined hy).exists_tangent (P := P) x ρ
  have hk := hf.preCompS_key hy hxu.1 hs (hrev x hxv) hρ hδ e1
  rw [if_neg (by rintro rfl; exact hi hxu.2)] at hk
  exact ⟨ρ, δ, hρ, hδ, hk.symm⟩

/-- C22, `JacobianR(exp, vec)`: for every Expression `y` (with safe flags) and every non-empty vector of
Variables the call returns a column whose entry `i` is the derivative of `y` with respect to the `i`-th
Variable.  Missing for the full property: states whose flags are not safe (C08). -/
theorem C22_jacobianR_partial {a : Sess K} (ha : Session P a) {y : ℕ} (hy : y < a.s.st.defs.size)
    (hi : a.s.st.defs.items y ≠ []) (hs : a.Safe y) {vs : List ℕ} (hvs : ∀ x ∈ vs, a.H x) (hn : vs ≠ []) :
    ∃ m s' A, jacobianR P y vs a.s = some (m, s') ∧ Rep m vs.length 1 A ∧
      ∀ i x, vs[i]? = some x → DerivOf P a.s.st.defs y x (A i 0) := by
  obtain ⟨m₀, s', m, h1, h2, h3, -, h4, A, h5, h6⟩ := devalR_matrix ha.inv hy hi hs hvs (r := vs.length) (c := 1)
    (List.length_pos_of_ne_nil hn) one_pos (by omega)
  refine ⟨m, s', A, by simp only [jacobianR, h1, h2, h4, Option.bind_some], h5, fun i x hx => ?_⟩
  have hil : i < vs.length := (List.getElem?_eq_some_iff.1 hx).1
  exact h6 i 0 hil one_pos x (by simpa using hx)

/-- C22, `DevalR(exp, M)` for a matrix of Variables: entry `(i,j)` is the derivative of `y` with respect
to the Variable `M(i,j)`. -/
theorem C22_devalR_matrix_partial {a : Sess K} (ha : Session P a) {y : ℕ} (hy : y < a.s.st.defs.size)
    (hi : a.s.st.defs.items y ≠ []) (hs : a.Safe y) {vs : List ℕ} (hvs : ∀ x ∈ vs, a.H x) {r c : ℕ}
    (hr : 0 < r) (hc : 0 < c) (hl : vs.length = r * c) :
    ∃ m s' A, devalRMat P y r c vs a.s = some (m, s') ∧ Rep m r c A ∧
      ∀ i j, i < r → j < c → ∀ x, vs[i * c + j]? = some x → DerivOf P a.s.st.defs y x (A i j) := by
  obtain ⟨m₀, s', m, h1, h2, h3, -, h4, A, h5, h6⟩ := devalR_matrix ha.inv hy hi hs hvs hr hc hl
  exact ⟨m, s', A, by simp only [devalRMat, h1, h2, h4, Option.bind_some], h5, h6⟩

/-- C22 over the reals: if the operators below `y` are applied inside their domains, entry `i` of
`JacobianR` is the partial derivative of the value of `y`. -/
theorem C22_jacobianR_real_partial {a : Sess ℝ} (ha : Session realPrim a) {y : ℕ} (hy : y < a.s.st.defs.size)
    (hi : a.s.st.defs.items y ≠ []) (hs : a.Safe y) (hd : a.InDom 0 y) {vs : List ℕ}
    (hvs : ∀ x ∈ vs, a.H x) (hn : vs ≠ []) :
    ∃ m s' A, jacobianR realPrim y vs a.s = some (m, s') ∧ Rep m vs.length 1 A ∧
      ∀ i x, vs[i]? = some x → ∃ F : ℝ → ℝ, (∀ t, ValueOf realPrim (a.set x t).s.st.defs y (F t)) ∧
        HasDerivAt F (A i 0) (a.s.st.defs.base x) := by
  obtain ⟨m, s', A, h1, h2, h3⟩ := C22_jacobianR_partial ha hy hi hs hvs hn
  refine ⟨m, s', A, h1, h2, fun i x hx => ?_⟩
  have hxv : a.H x := hvs x (List.mem_of_getElem? hx)
  have hF : ∀ t, ∃ v, ValueOf realPrim (a.set x t).s.st.defs y v := fun t =>
    exists_value (Sess.set_inv ha.inv hxv t) hy
  choose F hF using hF
  exact ⟨F, hF, deriv_at ha.inv hy hxv hd hF (h3 i x hx)⟩

/-! ## Forward mode gradient -/

/-- Either `y` is flagged and its flags are safe, or no Expression below `y` is flagged. -/
def Sess.SafeCopy (a : Sess K) (y : ℕ) : Prop :=
  (a.s.st.mem.visited y = true ∧ a.Safe y) ∨
    ∀ q, Reach a.s.st.defs y q → q ≠ y → a.s.st.defs.items q ≠ [] → a.s.st.mem.visited q = false

theorem Sess.SafeCopy.safe {a : Sess K} {y : ℕ} (h : a.SafeCopy y) : a.Safe y := by
  rcases h with h | h
  · exact h.2
  · intro q hq hqy hi hv
    have hv : a.s.st.mem.visited q = true := hv
    rw [h q hq hqy hi] at hv
    simp at hv

theorem Reach.of_ref {D : Defs K} {c y q : ℕ} (hc : D.items c = [.leaf y]) (h : Reach D c q) :
    q = c ∨ Reach D y q := by
  induction h with
  | refl => exact Or.inl rfl
  | @step q p i _ hi hp ih =>
      right
      rcases ih with rfl | ih
      · rw [hc] at hi
        simp only [List.mem_singleton] at hi
        subst hi
        simp only [Node.leaves, List.mem_singleton] at hp
        subst hp
        exact .refl
      · exact ih.step hi hp

/-- A copy of `y` may be queried. -/
theorem Sess.SafeCopy.ref {a : Sess K} {y c : ℕ} (h : a.SafeCopy y) (hc : a.s.st.defs.items c = [.leaf y]) :
    a.Safe c := by
  intro q hq hqc hi hv
  have hm : y ∈ itemTargets a.s.tm (a.s.st.defs.items c) :=
    mem_itemTargets.2 ⟨.leaf y, by rw [hc]; simp, Or.inl (by simp [Node.leaves])⟩
  have hr := (Reach.of_ref hc hq).resolve_left hqc
  by_cases hqy : q = y
  · subst hqy; exact ⟨q, hm, .refl⟩
  · rcases h with ⟨h1, h2⟩ | h
    · obtain ⟨b, hb, ht⟩ := h2 q hr hqy hi hv
      exact ⟨y, hm, .item h1 hb ht⟩
    · have hv : a.s.st.mem.visited q = true := hv
      rw [h q hr hqy hi] at hv
      simp at hv

/-- The copies. -/
theorem fillRef_spec {y n0 : ℕ} (cs : List ℕ) : ∀ (b : Sess K), SInv P b → cs.Nodup →
    (∀ c ∈ cs, n0 ≤ c ∧ c < b.s.st.defs.size ∧ c ∉ b.T ∧ b.s.st.defs.items c ≠ []) → y < n0 →
    n0 ≤ b.s.st.defs.size → b.s.st.defs.items y ≠ [] → (∀ q, Reach b.s.st.defs y q → q < n0) →
    Later P b ⟨fillRef y cs b.s, b.H, b.T⟩ ∧ SameTo n0 b.s (fillRef y cs b.s) ∧
      (fillRef y cs b.s).st.mem = b.s.st.mem ∧ (fillRef y cs b.s).st.defs.size = b.s.st.defs.size ∧
      (∀ c ∈ cs, (fillRef y cs b.s).st.defs.items c = [.leaf y]) ∧
      ∀ q, q ∉ cs → (fillRef y cs b.s).st.defs.items q = b.s.st.defs.items q := by
  induction cs with
  | nil => intro b _ _ _ _ _ _ _; exact ⟨.refl, .refl _ _, rfl, rfl, by simp, fun _ _ => rfl⟩
  | cons c cs ih =>
      intro b hb hnd hcs hy hn hi hlt
      simp only [List.nodup_cons] at hnd
      obtain ⟨c1, c2, c3, c4⟩ := hcs c (by simp)
      have hcy : c ≠ y := by omega
      have hnr : ¬ Reach b.s.st.defs y c := fun h => by have := hlt c h; omega
      have hst : SStep P b ⟨b.s.assignRef c y, b.H, b.T⟩ :=
        .defineRef c y c2 c3 c4 (by omega) hi hnr
      have hsame : SameTo n0 b.s (b.s.assignRef c y) :=
        ⟨fun q hq => assignRef_items_ne (by omega) b.s, fun _ _ => rfl, rfl⟩
      have hre : ∀ q, Reach (b.s.assignRef c y).st.defs y q ↔ Reach b.s.st.defs y q := fun q =>
        Reach.congr fun q hq => hsame.items q (hlt q hq)
      have hcs' : ∀ q ∈ cs, n0 ≤ q ∧ q < b.s.st.defs.size ∧ q ∉ b.T ∧
          (b.s.assignRef c y).st.defs.items q ≠ [] := by
        intro q hq
        obtain ⟨q1, q2, q3, q4⟩ := hcs q (List.mem_cons_of_mem _ hq)
        refine ⟨q1, q2, q3, ?_⟩
        rw [assignRef_items_ne (by rintro rfl; exact hnd.1 hq)]
        exact q4
      obtain ⟨h1, h2, h3, h4, h5, h6⟩ := ih ⟨b.s.assignRef c y, b.H, b.T⟩ (hst.inv hb).1 hnd.2
        hcs' hy hn (by rw [hsame.items y hy]; exact hi) (fun q hq => hlt q ((hre q).1 hq))
      refine ⟨(Later.refl.step hst).trans h1, hsame.trans h2, h3, h4, fun q hq => ?_, fun q hq => ?_⟩
      · rcases List.mem_cons.1 hq with rfl | hq
        · show (fillRef y cs (b.s.assignRef q y)).st.defs.items q = _
          rw [h6 q hnd.1]
          exact assignRef_items_self hcy b.s
        · exact h5 q hq
      · simp only [List.mem_cons, not_or] at hq
        show (fillRef y cs (b.s.assignRef c y)).st.defs.items q = _
        rw [h6 q hq.2]
        exact assignRef_items_ne hq.1 b.s

theorem devalF_serial {a : Sess K} (ha : SInv P a) {y : ℕ} (hy : y < a.s.st.defs.size) (hs : a.Safe y)
    {vs : List ℕ} (hvs : ∀ x ∈ vs, a.H x) {r c : ℕ} (hr : 0 < r) (hc : 0 < c) (hl : vs.length = r * c) :
    ∃ m₀ s' m A, Mat.new r c = some m₀ ∧
      transformTo (fun x s => DevalFS P y x s) vs 0 m₀ a.s = some (m, s') ∧ Rep m r c A ∧
        ∀ i j, i < r → j < c → ∀ x, vs[i * c + j]? = some x → DerivOf P a.s.st.defs y x (A i j) := by
  classical
  have hex := fun x => exists_deriv (P := P) ha hy x
  choose w hw using hex
  have hstep : ∀ x ∈ vs, ∀ s : SSt K, (s.st.defs = a.s.st.defs ∧ SInv P ⟨s, a.H, a.T⟩ ∧
      (⟨s, a.H, a.T⟩ : Sess K).Safe y) → ∃ s', DevalFS P y x s = some (w x, s') ∧
      (s'.st.defs = a.s.st.defs ∧ SInv P ⟨s', a.H, a.T⟩ ∧ (⟨s', a.H, a.T⟩ : Sess K).Safe y) := by
    intro x hx s hI
    obtain ⟨i1, i2, i3⟩ := hI
    obtain ⟨ord, hf⟩ := i2
    have hy' : y < s.st.defs.size := by rw [i1]; exact hy
    have hxl : x < s.st.defs.size := (hf.good.d.user x (hvs x hx)).1
    obtain ⟨ρ, hρ⟩ := (hf.wellDefined hy').exists_solves (P := P)
    obtain ⟨δ, hδ⟩ := (hf.wellDefined hy').exists_tangent (P := P) x ρ
    obtain ⟨m1, e1, e2, e3, -⟩ := hf.devalFS hy' hxl i3 hρ hδ
    have hv : δ y = w x := by
      refine DerivOf.unique (Sess.wellDefined ha hy) ?_ (hw x)
      rw [← i1]
      exact ⟨ρ, δ, hρ, hδ, rfl⟩
    refine ⟨{ s with st := ⟨s.st.defs, m1⟩ }, by rw [← hv]; exact e1, i1, ⟨ord, e2⟩, (CoolDiff.Safe.all e3).safeS⟩
  obtain ⟨m₀, m, s', h1, h2, -, A, h3, h4⟩ := transformTo_new _ w hstep hr hc hl (s := a.s) ⟨rfl, ha, hs⟩
  refine ⟨m₀, s', m, A, h1, h2, h3, fun i j hi hj x hx => ?_⟩
  have := h4 i j hi hj
  rw [hx, Option.map_some, Option.some.injEq] at this
  rw [← this]; exact hw x

theorem devalF_copies {a : Sess K} (ha : SInv P a) {y : ℕ} (hy : y < a.s.st.defs.size)
    (hi : a.s.st.defs.items y ≠ []) (hs : a.SafeCopy y)
    {vs : List ℕ} (hvs : ∀ x ∈ vs, a.H x) {r c : ℕ} (hr : 0 < r) (hc : 0 < c) (hl : vs.length = r * c) :
    ∃ m₀ s' m A, Mat.new r c = some m₀ ∧
      transformTo (fun p s => DevalFS P p.1 p.2 s) ((newExprs (r * c) a.s).1.zip vs) 0 m₀
        (fillRef y (newExprs (r * c) a.s).1 (newExprs (r * c) a.s).2) = some (m, s') ∧ Rep m r c A ∧
        ∀ i j, i < r → j < c → ∀ x, vs[i * c + j]? = some x → DerivOf P a.s.st.defs y x (A i j) := by
  classical
  have hlt : ∀ q, Reach a.s.st.defs y q → q < a.s.st.defs.size := fun q hq =>
    Reach.lt (by obtain ⟨ord, hf⟩ := ha; exact hf.good.d.wf.closed) hy hq
  obtain ⟨n1, n2, n3, n4, n5, n6, n7⟩ := newExprs_spec (P := P) (r * c) a
  have hi1 : SInv P (⟨(newExprs (r * c) a.s).2, a.H, a.T⟩ : Sess K) := (n2.inv ha).1
  have same1 : SameTo a.s.st.defs.size a.s (newExprs (r * c) a.s).2 :=
    ⟨fun q hq => (n4 q hq).1, fun q hq => (n4 q hq).2.1, n5⟩
  have hcs : ∀ c' ∈ (newExprs (r * c) a.s).1, a.s.st.defs.size ≤ c' ∧ c' < a.s.st.defs.size + r * c := by
    intro c' hc'
    rw [n1] at hc'
    simp only [List.mem_map, List.mem_range] at hc'
    obtain ⟨k, hk, rfl⟩ := hc'
    omega
  obtain ⟨f1, f2, f3, f4, f5, f6⟩ := fillRef_spec (P := P) (y := y) (n0 := a.s.st.defs.size)
    (newExprs (r * c) a.s).1 ⟨(newExprs (r * c) a.s).2, a.H, a.T⟩ hi1
    (by rw [n1]; exact List.Nodup.map (fun i j h => by simpa using h) List.nodup_range)
    (fun c' hc' => ⟨(hcs c' hc').1, by have := hcs c' hc'; show _ < (newExprs (r * c) a.s).2.st.defs.size; omega,
      fun h => by have := ha.lt c' h; have := hcs c' hc'; omega,
      by show (newExprs (r * c) a.s).2.st.defs.items c' ≠ []
         rw [(n7 c' (hcs c' hc').1 (hcs c' hc').2).1]; simp⟩) hy
    (by show _ ≤ (newExprs (r * c) a.s).2.st.defs.size; omega)
    (by show (newExprs (r * c) a.s).2.st.defs.items y ≠ []; rw [same1.items y hy]; exact hi)
    (fun q hq => hlt q ((Reach.congr fun q hq => same1.items q (hlt q hq)).1 hq))
  set s0 : SSt K := fillRef y (newExprs (r * c) a.s).1 (newExprs (r * c) a.s).2 with hs0
  have f3 : s0.st.mem = (newExprs (r * c) a.s).2.st.mem := f3
  have f4 : s0.st.defs.size = (newExprs (r * c) a.s).2.st.defs.size := f4
  have same0 : SameTo a.s.st.defs.size a.s s0 := same1.trans f2
  have hi0 : SInv P (⟨s0, a.H, a.T⟩ : Sess K) := (f1.inv hi1).1
  have hre : ∀ q, Reach s0.st.defs y q ↔ Reach a.s.st.defs y q := fun q =>
    Reach.congr fun q hq => same0.items q (hlt q hq)
  have hv0 : ∀ q < a.s.st.defs.size, s0.st.mem.visited q = a.s.st.mem.visited q := fun q hq => by
    rw [f3, (n4 q hq).2.2]
  have htm0 : s0.tm = a.s.tm := by
    have : ∀ (cs : List ℕ) (t : SSt K), (fillRef y cs t).tm = t.tm := by
      intro cs
      induction cs with
      | nil => intro t; rfl
      | cons c cs ih => intro t; exact ih _
    rw [hs0, this, n6]
  have hsafe0 : (⟨s0, a.H, a.T⟩ : Sess K).SafeCopy y := by
    rcases hs with ⟨h1, h2⟩ | h
    · left
      refine ⟨by show s0.st.mem.visited y = true; rw [hv0 y hy]; exact h1, fun q hq hqy hqi hqv => ?_⟩
      have hqr := (hre q).1 hq
      have hqi : s0.st.defs.items q ≠ [] := hqi
      have hqv : s0.st.mem.visited q = true := hqv
      rw [same0.items q (hlt q hqr)] at hqi
      rw [hv0 q (hlt q hqr)] at hqv
      obtain ⟨b, hb, ht⟩ := h2 q hqr hqy hqi hqv
      obtain ⟨rk, hd⟩ := ha.descends
      show ∃ b ∈ itemTargets s0.tm (s0.st.defs.items y), Touch s0.st.defs s0.tm _ b q
      rw [same0.items y hy, htm0]
      exact ⟨b, hb, ht.grow hd same0.items (fun q hq h => by
        show s0.st.mem.visited q = true
        rw [hv0 q hq]; exact h) (itemTargets_lt hd hy hb)⟩
    · right
      intro q hq hqy hqi
      have hqr := (hre q).1 hq
      have hqi : s0.st.defs.items q ≠ [] := hqi
      rw [same0.items q (hlt q hqr)] at hqi
      show s0.st.mem.visited q = false
      rw [hv0 q (hlt q hqr)]
      exact h q hqr hqy hqi
  have hy0 : y < s0.st.defs.size := by rw [f4]; omega
  have hex := fun x => exists_deriv (P := P) hi0 hy0 x
  choose w hw using hex
  have hlen : ((newExprs (r * c) a.s).1.zip vs).length = r * c := by
    rw [List.length_zip, n1, List.length_map, List.length_range, hl, min_self]
  have hstep : ∀ p ∈ (newExprs (r * c) a.s).1.zip vs, ∀ s : SSt K, (s.st.defs = s0.st.defs ∧ s.tm = s0.tm ∧
      SInv P ⟨s, a.H, a.T⟩ ∧ (⟨s, a.H, a.T⟩ : Sess K).SafeCopy y) → ∃ s', DevalFS P p.1 p.2 s = some (w p.2, s') ∧
      (s'.st.defs = s0.st.defs ∧ s'.tm = s0.tm ∧ SInv P ⟨s', a.H, a.T⟩ ∧
        (⟨s', a.H, a.T⟩ : Sess K).SafeCopy y) := by
    intro p hp s hI
    obtain ⟨i1, i2, i3, i4⟩ := hI
    obtain ⟨p1, p2⟩ := List.of_mem_zip (show (p.1, p.2) ∈ _ from hp)
    have hpit : s.st.defs.items p.1 = [.leaf y] := by rw [i1]; exact f5 p.1 p1
    have hsp : (⟨s, a.H, a.T⟩ : Sess K).Safe p.1 := i4.ref hpit
    obtain ⟨ord, hf⟩ := i3
    have hpl : p.1 < s.st.defs.size := by rw [i1, f4, n3]; exact (hcs p.1 p1).2
    have hxl : p.2 < s.st.defs.size := (hf.good.d.user p.2 (hvs p.2 p2)).1
    have hxi : s.st.defs.items p.2 = [] := (hf.good.d.user p.2 (hvs p.2 p2)).2
    obtain ⟨ρ, hρ⟩ := (hf.wellDefined hpl).exists_solves (P := P)
    obtain ⟨δ, hδ⟩ := (hf.wellDefined hpl).exists_tangent (P := P) p.2 ρ
    obtain ⟨m1, e1, e2, e3, -⟩ := hf.devalFS hpl hxl hsp hρ hδ
    have hpy : p.1 ≠ y := by have := (hcs p.1 p1).1; omega
    have hpx : p.1 ≠ p.2 := by
      intro h
      rw [← h, hpit] at hxi
      simp at hxi
    have hv : δ p.1 = w p.2 := by
      have hd : DerivOf P s.st.defs p.1 p.2 (δ p.1) := ⟨ρ, δ, hρ, hδ, rfl⟩
      have := hd.of_ref hpit hpy hpx
      rw [i1] at this
      exact this.unique (Sess.wellDefined hi0 hy0) (hw p.2)
    have hall : ∀ q, Reach s.st.defs y q → m1.visited q = true := fun q hq => e3 q
      ((Reach.of_leaf (i := .leaf y) (show Node.leaf y ∈ s.st.defs.items p.1 by rw [hpit]; simp)
        (by simp [Node.leaves])).trans hq)
    refine ⟨{ s with st := ⟨s.st.defs, m1⟩ }, by rw [← hv]; exact e1, i1, i2, ⟨ord, e2⟩, Or.inl ⟨hall y .refl, ?_⟩⟩
    exact (CoolDiff.Safe.all hall).safeS
  obtain ⟨m₀, m, s', h1, h2, -, A, h3, h4⟩ := transformTo_new _ (fun p : ℕ × ℕ => w p.2) hstep hr hc hlen
    (s := s0) ⟨rfl, rfl, hi0, hsafe0⟩
  refine ⟨m₀, s', m, A, h1, h2, h3, fun i j hi hj x hx => ?_⟩
  have := h4 i j hi hj
  have hz : ((newExprs (r * c) a.s).1.zip vs)[i * c + j]? = some (a.s.st.defs.size + (i * c + j), x) := by
    rw [List.getElem?_zip_eq_some, n1, List.getElem?_map, List.getElem?_range (flat_lt hi hj)]
    exact ⟨rfl, hx⟩
  rw [hz, Option.map_some, Option.some.injEq] at this
  rw [← this]
  exact (DerivOf.congr (fun q hq => same0.items q (hlt q hq)) (fun q hq => same0.base q (hlt q hq))
    same0.par).1 (hw x)

/-- C22, `DevalF(exp, M)` for a matrix of Variables, whatever `exp.isRecursive()` and `serial` are: entry
`(i,j)` is the derivative of `y` with respect to the Variable `M(i,j)`.  When the function works on copies
of the Expression, the flags have to satisfy more than for `DevalF(exp, x)`: `Ex.devalF_matrix_stale` is a
state where every `DevalF(y, x)` is right and `DevalF(y, M)` is stale. -/
theorem C22_devalF_matrix_partial {a : Sess K} (ha : Session P a) {y : ℕ} (hy : y < a.s.st.defs.size)
    (hi : a.s.st.defs.items y ≠ []) {recursive serial : Bool}
    (hs : if recursive = true ∧ serial = true then a.Safe y else a.SafeCopy y) {vs : List ℕ}
    (hvs : ∀ x ∈ vs, a.H x) {r c : ℕ} (hr : 0 < r) (hc : 0 < c) (hl : vs.length = r * c) :
    ∃ m s' A, devalFMat P recursive serial y r c vs a.s = some (m, s') ∧ Rep m r c A ∧
      ∀ i j, i < r → j < c → ∀ x, vs[i * c + j]? = some x → DerivOf P a.s.st.defs y x (A i j) := by
  by_cases h : recursive = true ∧ serial = true
  · rw [if_pos h] at hs
    obtain ⟨m₀, s', m, A, h1, h2, h3, h4⟩ := devalF_serial ha.inv hy hs hvs hr hc hl
    exact ⟨m, s', A, by simp only [devalFMat, h1, Option.bind_some, if_pos h, h2], h3, h4⟩
  · rw [if_neg h] at hs
    obtain ⟨m₀, s', m, A, h1, h2, h3, h4⟩ := devalF_copies ha.inv hy hi hs hvs hr hc hl
    exact ⟨m, s', A, by simp only [devalFMat, h1, Option.bind_some, if_neg h, h2], h3, h4⟩

/-! ## Calls on one root -/

/-- Calls on the root `y`: changes of numbers, queries, `SymDiff`, and the functions of this file, in any
order and number.  `H x`: `x` is a Variable of the user. -/
inductive Calls (P : Prim K) (H : ℕ → Prop) (y : ℕ) (s₀ : SSt K) : SSt K → Prop
  | refl : Calls P H y s₀ s₀
  | setVar {s : SSt K} (x : ℕ) (v : K) : Calls P H y s₀ s → H x →
      Calls P H y s₀ { s with st := assignNum x v s.st }
  | setPar {s : SSt K} (p : ℕ) (v : K) : Calls P H y s₀ s → Calls P H y s₀ { s with st := assignPar p v s.st }
  | eval {s s' : SSt K} (v : K) : Calls P H y s₀ s → EvalS P y s = some (v, s') → Calls P H y s₀ s'
  | devalF {s s' : SSt K} (x : ℕ) (v : K) : Calls P H y s₀ s → H x → DevalFS P y x s = some (v, s') →
      Calls P H y s₀ s'
  | preComp {s s' : SSt K} : Calls P H y s₀ s → PreCompS P y s = some s' → Calls P H y s₀ s'
  | jacobian {s s' : SSt K} (vs : List ℕ) (m : Mat K) : Calls P H y s₀ s → vs ≠ [] → (∀ x ∈ vs, H x) →
      jacobianR P y vs s = some (m, s') → Calls P H y s₀ s'
  | symDiff {s s' : SSt K} (rf : ℕ → Bool → List Bool → Bool) (x d : ℕ) : Calls P H y s₀ s → H x →
      symDiff P rf y x s = some (d, s') → Calls P H y s₀ s'
  | symGradient {s s' : SSt K} (rf : ℕ → Bool → List Bool → Bool) (vs es : List ℕ) : Calls P H y s₀ s →
      (∀ x ∈ vs, H x) → symGradient P rf y vs s = some (es, s') → Calls P H y s₀ s'
  | hessian {s s' : SSt K} (rf : ℕ → Bool → List Bool → Bool) (vs : List ℕ) (m : Mat K) : Calls P H y s₀ s →
      vs ≠ [] → (∀ x ∈ vs, H x) → hessianR P rf y vs s = some (m, s') → Calls P H y s₀ s'

theorem hessianR_run {a : Sess K} {S : Set ℕ} {y : ℕ} (ha : SInv P a) (hc : Calm P a S y)
    (hi : a.s.st.defs.items y ≠ []) (hok : a.SymOk y) {vs : List ℕ} (hn : vs ≠ []) (hvs : ∀ x ∈ vs, a.H x)
    (rf : ℕ → Bool → List Bool → Bool) :
    ∃ m b S', hessianR P rf y vs a.s = some (m, b.s) ∧
      LoopI P a b a.s.st.defs.size (a.s.st.defs.size + vs.length) S' ∧ Calm P b S' y ∧
      ∃ A : ℕ → ℕ → K, Rep m vs.length vs.length A ∧ (∀ i j, i ≠ j → A i j = 0) ∧
        ∀ i x, vs[i]? = some x → DiagFact P a y x (A i i) := by
  have hl := List.length_pos_of_ne_nil hn
  have hm : Rep (⟨vs.length, vs.length, List.replicate (vs.length * vs.length) 0⟩ : Mat K) vs.length vs.length
      fun _ _ => 0 := by
    refine ⟨hl, hl, rfl, rfl, List.length_replicate, fun i j hi hj => ?_⟩
    rw [Mat.get?, if_pos ⟨hi, hj⟩, List.getElem?_replicate, if_pos (flat_lt hi hj)]
  obtain ⟨m, b, S', h1, h2, h3, A, h4, h5, h6⟩ := hess_loop (rf := rf) ha hc hi hok hvs hm vs.length (le_refl _)
  refine ⟨m, b, S', ?_, h2, h3, A, h4, h5, fun i x hx => h6 i (List.getElem?_eq_some_iff.1 hx).1 x hx⟩
  rw [hessianR, Mat.new, if_pos ⟨hl, hl⟩, Option.bind_some, h1]

theorem symGradient_run {a : Sess K} {S : Set ℕ} {y : ℕ} (ha : SInv P a) (hc : Calm P a S y)
    (hi : a.s.st.defs.items y ≠ []) (hok : a.SymOk y) {vs : List ℕ} (hn : vs ≠ []) (hvs : ∀ x ∈ vs, a.H x)
    (rf : ℕ → Bool → List Bool → Bool) :
    ∃ (b : Sess K) (S' : Set ℕ), symGradient P rf y vs a.s =
        some ((List.range vs.length).map (a.s.st.defs.size + ·), b.s) ∧
      LoopI P a b a.s.st.defs.size (a.s.st.defs.size + vs.length) S' ∧ Calm P b S' y ∧ Quiet P b.s b.H S' ∧
      ∀ i x, vs[i]? = some x → EntFact (a.s.st.defs.size + vs.length) (GradR P y x) b S'
        (a.s.st.defs.size + i) := by
  have hy : y < a.s.st.defs.size := hc.inv.lt y (hc.below y .refl)
  obtain ⟨hl0, hc0, hes, -⟩ := LoopI.init (P := P) ha hc vs.length
  have hne : (newExprs vs.length a.s).1.zip vs ≠ [] := by
    intro h
    have := congrArg List.length h
    rw [List.length_zip, hes, List.length_map, List.length_range, min_self] at this
    exact hn (List.length_eq_zero_iff.1 this)
  have hfst : ((newExprs vs.length a.s).1.zip vs).map Prod.fst = (newExprs vs.length a.s).1 :=
    List.map_fst_zip (by rw [hes, List.length_map, List.length_range])
  obtain ⟨b, S', h1, h2, h3, -, -, -, h4, -, h5⟩ := symInto_spec (P := P) (rf := rf) (y := y) ha rfl hi hok hy
    ((newExprs vs.length a.s).1.zip vs) _ S hl0 hc0 (fun p hp => by
      obtain ⟨p1, p2⟩ := List.of_mem_zip (show (p.1, p.2) ∈ _ from hp)
      rw [hes] at p1
      simp only [List.mem_map, List.mem_range] at p1
      obtain ⟨k, hk, he⟩ := p1
      exact ⟨by omega, by omega, hvs _ p2⟩)
    (by rw [hfst, hes]; exact List.Nodup.map (fun i j h => by simpa using h) List.nodup_range)
  refine ⟨b, S', ?_, h2, h3, h4 (Or.inr hne), fun i x hx => ?_⟩
  · have h1 : symInto P rf y ((newExprs vs.length a.s).1.zip vs) (newExprs vs.length a.s).2 = some b.s := h1
    rw [symGradient, if_neg hn, h1, Option.map_some, hes]
  · refine h5 (a.s.st.defs.size + i, x) (List.mem_of_getElem? (i := i) ?_)
    rw [List.getElem?_zip_eq_some, hes, List.getElem?_map,
      List.getElem?_range (List.getElem?_eq_some_iff.1 hx).1]
    exact ⟨rfl, hx⟩

/-- Calls on `y` keep `y` calm. -/
theorem Calls.calm {a : Sess K} {y : ℕ} {s : SSt K} (h : Calls P a.H y a.s s) (ha : SInv P a) {S₀ : Set ℕ}
    (hc : Calm P a S₀ y) (hi : a.s.st.defs.items y ≠ []) (hok : a.SymOk y) :
    ∃ (b : Sess K) (S : Set ℕ), b.s = s ∧ b.H = a.H ∧ Later P a b ∧ Calm P b S y ∧
      (∀ q < a.s.st.defs.size, b.s.st.defs.items q = a.s.st.defs.items q) := by
  have hy : y < a.s.st.defs.size := hc.inv.lt y (hc.below y .refl)
  have hlt : ∀ q, Reach a.s.st.defs y q → q < a.s.st.defs.size := fun q hq =>
    Reach.lt (by obtain ⟨ord, hf⟩ := ha; exact hf.good.d.wf.closed) hy hq
  have hokb : ∀ b : Sess K, (∀ q < a.s.st.defs.size, b.s.st.defs.items q = a.s.st.defs.items q) →
      b.SymOk y ∧ b.s.st.defs.items y ≠ [] := by
    intro b hb
    refine ⟨fun q hq => ?_, by rw [hb y hy]; exact hi⟩
    have hq := (Reach.congr fun q hq => hb q (hlt q hq)).1 hq
    rw [hb q (hlt q hq)]
    exact hok q hq
  have hmem : ∀ {b : Sess K}, Later P a b → a.s.st.defs.size ≤ b.s.st.defs.size := fun h => (h.inv ha).2.size
  induction h with
  | refl => exact ⟨a, S₀, rfl, rfl, .refl, hc, fun _ _ => rfl⟩
  | @setVar s x v _ hx ih =>
      obtain ⟨b, S, rfl, h2, h3, h4, h5⟩ := ih
      have hst := SStep.setVar (P := P) (a := b) x v (h2 ▸ hx)
      have he : (assignNum x v b.s.st).defs.items = b.s.st.defs.items := Sess.set_items (h3.inv ha).1 (h2 ▸ hx) v
      refine ⟨⟨_, b.H, b.T⟩, S, rfl, h2, h3.step hst, h4.setItems ?_ he rfl rfl, fun q hq => ?_⟩
      · exact ((SStep.setVar (P := P) (a := ⟨b.s, b.H, S⟩) x v (show b.H x from h2 ▸ hx)).inv h4.inv).1
      · show (assignNum x v b.s.st).defs.items q = _
        rw [he]; exact h5 q hq
  | @setPar s p v _ ih =>
      obtain ⟨b, S, rfl, h2, h3, h4, h5⟩ := ih
      refine ⟨⟨_, b.H, b.T⟩, S, rfl, h2, h3.step (SStep.setPar (P := P) (a := b) p v), h4.setItems ?_ rfl rfl rfl, h5⟩
      exact ((SStep.setPar (P := P) (a := ⟨b.s, b.H, S⟩) p v).inv h4.inv).1
  | @eval s s' v _ he ih =>
      obtain ⟨b, S, rfl, h2, h3, h4, h5⟩ := ih
      obtain ⟨v', m, e1, e2, e3, -⟩ := h4.eval
      rw [he] at e1
      simp only [Option.some.injEq, Prod.mk.injEq] at e1
      obtain ⟨-, rfl⟩ := e1
      exact ⟨⟨_, b.H, b.T⟩, S, rfl, h2, h3.step e2, e3, h5⟩
  | @devalF s s' x v _ hx he ih =>
      obtain ⟨b, S, rfl, h2, h3, h4, h5⟩ := ih
      have hxl : x < b.s.st.defs.size := by
        obtain ⟨ord, hf⟩ := (h3.inv ha).1
        exact (hf.good.d.user x (h2 ▸ hx)).1
      obtain ⟨v', m, e1, e2, e3, -⟩ := h4.devalF hxl
      rw [he] at e1
      simp only [Option.some.injEq, Prod.mk.injEq] at e1
      obtain ⟨-, rfl⟩ := e1
      exact ⟨⟨_, b.H, b.T⟩, S, rfl, h2, h3.step e2, e3, h5⟩
  | @preComp s s' _ he ih =>
      obtain ⟨b, S, rfl, h2, h3, h4, h5⟩ := ih
      obtain ⟨m, e1, e2, e3, -⟩ := h4.preComp
      rw [he] at e1
      simp only [Option.some.injEq] at e1
      subst e1
      exact ⟨⟨_, b.H, b.T⟩, S, rfl, h2, h3.step e2, e3, h5⟩
  | @jacobian s s' vs m _ hn hvs he ih =>
      obtain ⟨b, S, rfl, h2, h3, h4, h5⟩ := ih
      obtain ⟨m1, e1, e2, e3, -⟩ := h4.preComp
      obtain ⟨m₀, s1, m', d1, d2, -, -, d3, -⟩ := devalR_matrix (h3.inv ha).1 (by have := hmem h3; omega) (hokb b h5).2 h4.safe
        (fun x hx => by rw [h2]; exact hvs x hx) (r := vs.length) (c := 1) (List.length_pos_of_ne_nil hn) one_pos
        (by omega)
      simp only [jacobianR, d1, d2, d3, Option.bind_some, Option.some.injEq, Prod.mk.injEq] at he
      obtain ⟨-, rfl⟩ := he
      rw [d2] at e1
      simp only [Option.some.injEq] at e1
      subst e1
      exact ⟨⟨_, b.H, b.T⟩, S, rfl, h2, h3.step e2, e3, h5⟩
  | @symDiff s s' rf x d _ hx he ih =>
      obtain ⟨b, S, rfl, h2, h3, h4, h5⟩ := ih
      have hb : SInv P b := (h3.inv ha).1
      obtain ⟨d', s1, e, S', g1, g2, -, -, -, -, g3, g4, -, -, -, -, g5, -⟩ :=
        h4.symDiff (rf := rf) (h2 ▸ hx) (hokb b h5).1 (hokb b h5).2
      rw [he] at g1
      simp only [Option.some.injEq, Prod.mk.injEq] at g1
      obtain ⟨rfl, rfl⟩ := g1
      refine ⟨b.diffed y s', S', rfl, h2, h3.step (SStep.symDiff rf y x d (by have := hmem h3; omega) (h2 ▸ hx)
        h4.safe (hokb b h5).1 he), (Quiet.mk g2 g4).calm (g3 y (h4.below y .refl)), fun q hq => ?_⟩
      rw [← h5 q hq]
      exact g5 q (by have := hmem h3; omega)
  | @symGradient s s' rf vs es _ hvs he ih =>
      obtain ⟨b, S, rfl, h2, h3, h4, h5⟩ := ih
      have hn : vs ≠ [] := by
        rintro rfl
        simp [CoolDiff.symGradient] at he
      obtain ⟨b', S', g1, g2, g3, -⟩ := symGradient_run (h3.inv ha).1 h4 (hokb b h5).2 (hokb b h5).1 hn
        (fun x hx => by rw [h2]; exact hvs x hx) rf
      rw [he] at g1
      simp only [Option.some.injEq, Prod.mk.injEq] at g1
      exact ⟨b', S', g1.2.symm, g2.H.trans h2, h3.trans g2.later, g3, fun q hq => by
        rw [g2.ext.items q (by have := hmem h3; omega), h5 q hq]⟩
  | @hessian s s' rf vs m _ hn hvs he ih =>
      obtain ⟨b, S, rfl, h2, h3, h4, h5⟩ := ih
      obtain ⟨m', b', S', g1, g2, g3, -⟩ := hessianR_run (h3.inv ha).1 h4 (hokb b h5).2 (hokb b h5).1 hn
        (fun x hx => by rw [h2]; exact hvs x hx) rf
      rw [he] at g1
      simp only [Option.some.injEq, Prod.mk.injEq] at g1
      exact ⟨b', S', g1.2.symm, g2.H.trans h2, h3.trans g2.later, g3, fun q hq => by
        rw [g2.ext.items q (by have := hmem h3; omega), h5 q hq]⟩

/-- The state before a call, with everything the loops need to know. -/
theorem Calls.start {a : Sess K} (ha : Session P a) (hu : a.Unflagged) {y : ℕ} (hy : y < a.s.st.defs.size)
    (hi : a.s.st.defs.items y ≠ []) (hok : a.SymOk y) {s : SSt K} (hs : Calls P a.H y a.s s) :
    ∃ (b : Sess K) (S : Set ℕ), b.s = s ∧ b.H = a.H ∧ Later P a b ∧ SInv P b ∧ Calm P b S y ∧
      b.s.st.defs.items y ≠ [] ∧ b.SymOk y ∧ y < b.s.st.defs.size ∧
      (∀ p, a.Only p y → b.Only p y) := by
  have hlt : ∀ q, Reach a.s.st.defs y q → q < a.s.st.defs.size := fun q hq =>
    Reach.lt (by obtain ⟨ord, hf⟩ := ha.inv; exact hf.good.d.wf.closed) hy hq
  obtain ⟨b, S, h1, h2, h3, h4, h5⟩ := hs.calm ha.inv (Calm.of_unflagged ha.inv hu hy) hi hok
  refine ⟨b, S, h1, h2, h3, (h3.inv ha.inv).1, h4, by rw [h5 y hy]; exact hi, fun q hq => ?_,
    h4.inv.lt y (h4.below y .refl), fun p hp q hq => ?_⟩ <;>
  · have hq := (Reach.congr fun q hq => h5 q (hlt q hq)).1 hq
    rw [h5 q (hlt q hq)]
    first | exact hok q hq | exact hp q hq

/-! ## Hessians -/

/-- C22, `HessianR(exp, vec)`.  Start in a state in which no query has been made, make any calls on `y`
(`Calls`), and let the operators below `y` be inside their domains.  Then `HessianR` returns a square
matrix whose diagonal entries are the second derivatives `∂²y/∂xᵢ²` at the current point.  All other
entries are 0, whatever `y` is: the branch `i < j` inside the loop `j <= i` is never taken, so the
property is false for the entries off the diagonal (`Ex.hessian_off_diagonal`). -/
theorem C22_hessianR_partial {a : Sess ℝ} (ha : Session realPrim a) (hu : a.Unflagged) {y : ℕ}
    (hy : y < a.s.st.defs.size) (hi : a.s.st.defs.items y ≠ []) (hok : a.SymOk y) {s : SSt ℝ}
    (hs : Calls realPrim a.H y a.s s) (hd : (⟨s, a.H, a.T⟩ : Sess ℝ).InDom 1 y) {vs : List ℕ} (hn : vs ≠ [])
    (hvs : ∀ x ∈ vs, a.H x) (rf : ℕ → Bool → List Bool → Bool) :
    ∃ m s' A, hessianR realPrim rf y vs s = some (m, s') ∧ Rep m vs.length vs.length A ∧
      (∀ i x, vs[i]? = some x → SecondDerivative ⟨s, a.H, a.T⟩ y x x (A i i)) ∧
      ∀ i j, i ≠ j → A i j = 0 := by
  obtain ⟨b, S, rfl, h2, -, h4, h5, h6, h7, h8, -⟩ := hs.start ha hu hy hi hok
  obtain ⟨m, b', S', g1, -, -, A, g2, g3, g4⟩ := hessianR_run h4 h5 h6 h7 hn (fun x hx => by rw [h2]; exact hvs x hx) rf
  refine ⟨m, b'.s, A, g1, g2, fun i x hx => ?_, g3⟩
  have hxv : b.H x := by rw [h2]; exact hvs x (List.mem_of_getElem? hx)
  have hd : b.InDom 1 y := hd
  exact (g4 i x hx).second h4 h8 hxv hd

/-! ## Symbolic gradient and Hessian -/

/-- C22, `SymGradient(exp, vec)` and `SymMatDiff(exp, M)`.  Start in a state in which no query has been
made and make any calls on `y` (`Calls`).  Then the call returns as many Expressions as there are
Variables, and after any number of rounds of changing Variables and Parameters and querying entry `i`,
`Eval` of entry `i` returns the derivative of `y` with respect to the `i`-th Variable at the current
point. -/
theorem C22_symGradient_partial {a : Sess K} (ha : Session P a) (hu : a.Unflagged) {y : ℕ}
    (hy : y < a.s.st.defs.size) (hi : a.s.st.defs.items y ≠ []) (hok : a.SymOk y) {s : SSt K}
    (hs : Calls P a.H y a.s s) {vs : List ℕ} (hn : vs ≠ [])
    (hvs : ∀ x ∈ vs, a.H x) (rf : ℕ → Bool → List Bool → Bool) :
    ∃ (es : List ℕ) (b : Sess K), symGradient P rf y vs s = some (es, b.s) ∧ b.H = a.H ∧ es.length = vs.length ∧
      ∀ (i x e : ℕ), vs[i]? = some x → es[i]? = some e → ∀ c, Rounds P e b c →
        ∃ v, (EvalS P e c.s).map Prod.fst = some v ∧ ∀ w, DerivOf P c.s.st.defs y x w ↔ w = v := by
  obtain ⟨b, S, rfl, h2, -, h4, h5, h6, h7, h8, -⟩ := hs.start ha hu hy hi hok
  obtain ⟨b', S', g1, g2, g3, g4, g5⟩ := symGradient_run h4 h5 h6 h7 hn (fun x hx => by rw [h2]; exact hvs x hx) rf
  refine ⟨_, b', g1, g2.H.trans h2, by simp, fun i x e hx he c hc => ?_⟩
  rw [List.getElem?_map, List.getElem?_range (List.getElem?_eq_some_iff.1 hx).1, Option.map_some,
    Option.some.injEq] at he
  subst he
  have hb' : SInv P b' := (g2.later.inv h4).1
  have hel : b.s.st.defs.size + i < b'.s.st.defs.size := by
    have := g2.size
    have := (List.getElem?_eq_some_iff.1 hx).1
    omega
  obtain ⟨d, e1, e2, e3, e4, -, p, p', e5, e6, e7⟩ := g5 i x hx
  obtain ⟨l1, l2, l3, l4, l5⟩ := hc.laterS hb' hel ((g5 i x hx).safe g4)
  have hci : SInv P c := (l1.inv hb').1
  obtain ⟨v, v1, v2⟩ := evalS_value hci l2 l3
  have hval := e6.value e5 (e7.trans l1)
  have hd : DerivOf P c.s.st.defs y x v :=
    (hval v).1 (((v2 v).2 rfl).of_ref (by rw [l4]; exact e1) e2)
  refine ⟨v, v1, fun w => ⟨fun hw => hw.unique (Sess.wellDefined hci (e6.later e5 (e7.trans l1)).2.2.2.1) hd,
    fun hw => hw ▸ hd⟩⟩

/-- C22, `SymHessian(exp, vec)`.  Start in a state in which no query has been made and make any calls on
`y` (`Calls`); `y` uses no `sqrt`, `acos`, `atanh`, user operator or `c / e`, `c ≠ 1`.  The call returns
`n²` Expressions, and after any rounds of changing numbers and querying entry `(i,i)`, `Eval` of entry
`(i,i)` returns `∂²y/∂xᵢ²` at the current point.  The entries off the diagonal keep the value of a default
Expression, 0, for ever: there the property is false (`Ex.hessian_off_diagonal`). -/
theorem C22_symHessian_partial {a : Sess ℝ} (ha : Session realPrim a) (hu : a.Unflagged) {y : ℕ}
    (hy : y < a.s.st.defs.size) (hi : a.s.st.defs.items y ≠ []) (hok : a.Only Op1.SymOk2 y) {s : SSt ℝ}
    (hs : Calls realPrim a.H y a.s s) {vs : List ℕ} (hn : vs ≠ [])
    (hvs : ∀ x ∈ vs, a.H x) (rf : ℕ → Bool → List Bool → Bool) :
    ∃ (es : List ℕ) (b : Sess ℝ), symHessian realPrim rf y vs s = some (es, b.s) ∧ b.H = a.H ∧
      es.length = vs.length * vs.length ∧
      (∀ (i x e : ℕ), vs[i]? = some x → es[i * vs.length + i]? = some e → ∀ c, Rounds realPrim e b c →
        c.InDom 1 y → ∃ w, SecondDerivative c y x x w ∧ (EvalS realPrim e c.s).map Prod.fst = some w) ∧
      ∀ (i j e : ℕ), i < vs.length → j < vs.length → i ≠ j → es[i * vs.length + j]? = some e →
        ∀ c, Rounds realPrim e b c → (EvalS realPrim e c.s).map Prod.fst = some 0 := by
  have hok' : a.SymOk y := Sess.only_symOk.1 fun q hq i hi =>
    (hok q hq i hi).mono (fun _ h => h.symOk) fun _ h => h
  obtain ⟨b, S, rfl, h2, -, h4, h5, h6, h7, h8, h9⟩ := hs.start ha hu hy hi hok'
  have hl := List.length_pos_of_ne_nil hn
  obtain ⟨b', S', g1, g2, g3, g4, g5, g6⟩ := symHess_loop (P := realPrim) (rf := rf) h4 h5 h6 (h9 _ hok)
    (vs := vs) (fun x hx => by rw [h2]; exact hvs x hx) vs.length (le_refl _)
  have hes := (LoopI.init h4 h5 (vs.length * vs.length)).2.2.1
  have hb' : SInv realPrim b' := (g2.later.inv h4).1
  have hidx : ∀ k e, k < vs.length * vs.length →
      ((List.range (vs.length * vs.length)).map (b.s.st.defs.size + ·))[k]? = some e →
      e = b.s.st.defs.size + k ∧ e < b'.s.st.defs.size := by
    intro k e hk he
    rw [List.getElem?_map, List.getElem?_range hk, Option.map_some, Option.some.injEq] at he
    have := g2.size
    omega
  refine ⟨(List.range (vs.length * vs.length)).map (b.s.st.defs.size + ·), b', ?_, g2.H.trans h2, by simp,
    fun i x e hx he c hc hd => ?_, fun i j e hil hjl hij he c hc => ?_⟩
  · rw [symHessian, if_neg hn, g1, Option.map_some, hes]
  · have hil := (List.getElem?_eq_some_iff.1 hx).1
    obtain ⟨rfl, hel⟩ := hidx _ e (flat_lt hil hil) he
    obtain ⟨l1, l2, l3, l4, l5⟩ := hc.laterS hb' hel ((g5 i hil x hx).safe (g4 hl))
    obtain ⟨d, e1, e2, e3, e4, -, p, d', p', g, e5, e6, e7, e8⟩ := g5 i hil x hx
    have hci : SInv realPrim c := (l1.inv hb').1
    obtain ⟨v, v1, v2⟩ := evalS_value hci l2 l3
    have hp' : SInv realPrim p' := (e6.later e5 .refl).2.1
    have hval := e7.value hp' (e8.trans l1)
    have hdv : DerivOf realPrim c.s.st.defs d' x v :=
      (hval v).1 (((v2 v).2 rfl).of_ref (by rw [l4]; exact e1) e2)
    have hxc : c.H x := by rw [l5, g2.H, h2]; exact hvs x (List.mem_of_getElem? hx)
    exact ⟨v, second_of_deriv e6 e5 ((e7.later hp' .refl).1.trans (e8.trans l1)) hxc hd hdv, v1⟩
  · obtain ⟨rfl, hel⟩ := hidx _ e (flat_lt hil hjl) he
    have hit : b'.s.st.defs.items (b.s.st.defs.size + (i * vs.length + j)) = [.leaf 0] := by
      refine g6 _ (by omega) (by have := flat_lt hil hjl; omega) fun k hk heq => hij ?_
      have h1 : i * vs.length + j = k * vs.length + k := by omega
      have h2 : i = k := by
        have := congrArg (· / vs.length) h1
        simp only [Nat.add_comm _ j, Nat.add_comm _ k, Nat.add_mul_div_right _ _ hl, Nat.div_eq_of_lt hjl,
          Nat.div_eq_of_lt hk] at this
        omega
      subst h2
      omega
    obtain ⟨l1, l2, l3, l4, l5⟩ := hc.laterS hb' hel (safe_of_default hb' hit)
    obtain ⟨v, v1, v2⟩ := evalS_value (l1.inv hb').1 l2 l3
    rw [v1, value_of_default (l1.inv hb').1 (by rw [l4]; exact hit) ((v2 v).2 rfl)]

namespace Ex

/-- The hypotheses are met by `y = sin(x)*z`, the vector `(x, z)` and the calls
`Eval(y); x = 5; HessianR(y, (z, x)); z = 7`. -/
example : ∃ s, Calls realPrim sess0.H 4 sess0.s s ∧ (⟨s, sess0.H, sess0.T⟩ : Sess ℝ).InDom 1 4 := by
  have hok : sess0.SymOk 4 := Sess.only_symOk.1 fun q hq i hi =>
    (sess0_entire q hq i hi).mono (fun _ h => h.symOkN.symOk) fun _ h => h.symOk
  have hi : sess0.s.st.defs.items 4 ≠ [] := by
    have : ∃ a b c, sess0.s.st.defs.items 4 =
        [.op1 a (.mulC 1) (.op2 b .mul (.op1 c (.fn .sin) (.leaf 2)) (.leaf 3))] := ⟨_, _, _, rfl⟩
    obtain ⟨a, b, c, h⟩ := this
    rw [h]
    simp
  have hv : ∀ x ∈ [3, 2], sess0.H x := by
    intro x hx
    simp only [List.mem_cons, List.not_mem_nil, or_false] at hx
    rcases hx with rfl | rfl <;> simp [sess0]
  obtain ⟨b, S, hb, hH, hl, hbi, hc, -⟩ := (Calls.refl (P := realPrim) (H := sess0.H) (y := 4) (s₀ := sess0.s)).start
    sess0_session sess0_unflagged (by decide) hi hok
  obtain ⟨v, m, e1, -⟩ := hc.eval
  rw [hb] at e1
  have c1 : Calls realPrim sess0.H 4 sess0.s _ := .setVar 2 5 (.eval v .refl e1) (hv 2 (by simp))
  obtain ⟨b1, S1, hb1, hH1, hl1, hbi1, hc1, hi1, hok1, -⟩ := c1.start sess0_session sess0_unflagged (by decide) hi hok
  obtain ⟨m', b2, S2, g1, -⟩ := hessianR_run (vs := [3, 2]) hbi1 hc1 hi1 hok1 (by simp)
    (fun x hx => by rw [hH1]; exact hv x hx) rf0
  rw [hb1] at g1
  have c2 : Calls realPrim sess0.H 4 sess0.s _ := .setVar 3 7 (.hessian rf0 [3, 2] m' c1 (by simp) hv g1) (hv 3 (by simp))
  refine ⟨_, c2, ?_⟩
  obtain ⟨b3, S3, hb3, hH3, hl3, hc3, hi3⟩ := c2.calm sess0_session.inv
    (Calm.of_unflagged sess0_session.inv sess0_unflagged (by decide)) hi hok
  have he : b3.Entire 4 := by
    intro q hq
    have hlt : ∀ q, Reach sess0.s.st.defs 4 q → q < sess0.s.st.defs.size := fun q hq =>
      Reach.lt (by obtain ⟨ord, hf⟩ := sess0_session.inv; exact hf.good.d.wf.closed)
        (show 4 < sess0.s.st.defs.size by decide) hq
    have hq := (Reach.congr fun q hq => hi3 q (hlt q hq)).1 hq
    rw [hi3 q (hlt q hq)]
    exact sess0_entire q hq
  have := he.inDom 1
  rw [← hb3]
  exact this

/-- `Variable x(2), z(5); Expression e, y; y = (x*x)*z`, with `y` the object 4. -/
def cubic : SSt ℚ :=
  { prog with st := CoolDiff.define 4 (.mul (.mul (.var 2) (.var 2)) (.var 3)) prog.st }

/-- The second derivatives of `y = (x*x)*z` at `x = 2, z = 5` are `[[10, 4], [4, 0]]`: `SymDiff(y,x)` gives
the object 15, whose `DevalF` with respect to `x` and `z` is 10 and 4.  `HessianR(y, (x,z))` returns
`[[10, 0], [0, 0]]`, and the entries of `SymHessian(y, (x,z))` evaluate to 10, 0, 0 and 0. -/
theorem hessian_off_diagonal :
    run [.symDiff 4 2, .devalF 15 2, .devalF 15 3] cubic = [some 15, some 10, some 4] ∧
    (hessianR P1 rf0 4 [2, 3] cubic).map (fun r => r.1.data) = some [10, 0, 0, 0] ∧
    (symHessian P1 rf0 4 [2, 3] cubic).map (fun r => r.1.map fun e => (EvalS P1 e r.2).map Prod.fst) =
      some [some 10, some 0, some 0, some 0] := by decide +kernel

/-- `Variable x(2), z(5); Expression e, y; e = x*x; y = e*z;` (objects: x = 2, z = 3, e = 4, y = 5), then
`Eval(e); x = 7;`. -/
def evalBelow : Option (SSt ℚ) :=
  (EvalS P1 4
    { prog with
      st := CoolDiff.define 5 (.mul (.var 4) (.var 3)) (CoolDiff.define 4 (.mul (.var 2) (.var 2)) prog.st) }).map
    fun r => { r.2 with st := assignNum 2 7 r.2.st }

/-- After `Eval(e); x = 7`, `DevalF(y,x)` returns `2*x*z = 70` and `DevalF(y,z)` returns 49, but
`DevalF(y, (x z))` returns `(0 49)`: the reset of a copy of `y` stops at `y`, which is not flagged, and the
flag and the map of `e` survive. -/
theorem devalF_matrix_stale :
    (evalBelow.bind fun s => (DevalFS P1 5 2 s).map Prod.fst) = some 70 ∧
    (evalBelow.bind fun s => (DevalFS P1 5 3 s).map Prod.fst) = some 49 ∧
    (evalBelow.bind fun s => (devalFMat P1 false true 5 1 2 [2, 3] s).map fun r => r.1.data) =
      some [0, 49] := by decide +kernel

/-- A case where every function is right: `y = x*x*z`, `Eval(y); x = 3`, then `JacobianR`, `DevalR`,
`DevalF` in both variants. -/
theorem gradient_answers : ((EvalS P1 4 cubic).bind fun r =>
    let s : SSt ℚ := { r.2 with st := assignNum 2 3 r.2.st }
    (jacobianR P1 4 [2, 3] s).bind fun a => (devalRMat P1 4 1 2 [2, 3] s).bind fun b =>
      (devalFMat P1 true true 4 1 2 [3, 2] s).bind fun c => (devalFMat P1 false true 4 1 2 [3, 2] s).map fun d =>
        [a.1.data, b.1.data, c.1.data, d.1.data]) = some [[30, 9], [30, 9], [9, 30], [9, 30]] := by
  decide +kernel

end Ex

end CoolDiff
