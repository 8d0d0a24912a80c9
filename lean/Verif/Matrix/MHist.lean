import Verif.Matrix.MatDeriv
import Verif.Matrix.ExprQuery
import Verif.Matrix.RevMain

/-!
# Runs of matrix queries

Values and derivatives of the matrices of a program (`MVal`, `MDer`), what a query needs (`QueryOk`,
`RevQueryOk`) and `PreComp` (`matPreComp_spec`).  Program runs (`MHist`) are in `Verif/Matrix/Runs.lean`.
-/

set_option linter.unusedSectionVars false

namespace CoolDiff

variable {K : Type} [Field K] [DecidableEq K]

/-- Value of element `(i,j)` of matrix `o`. -/
noncomputable def MVal (c : MCtx K) (rank : ℕ → ℕ) : ℕ → ℕ → ℕ → K := valOf c.E c.sc.val rank

/-- Partial derivatives with respect to the elements of `X`. -/
noncomputable def MDer (c : MCtx K) (X : ℕ) (rank : ℕ → ℕ) : ℕ → ℕ → ℕ → ℕ → ℕ → K :=
  derOf c.E c.sc.val (c.sd X) (MVal c rank) X rank

/-- A matrix with elements holds the values of its scalars. -/
theorem mval_leaf (c : MCtx K) {rank : ℕ → ℕ} (hwf : c.E.WF rank) (he : EyesOk c.E c.sc.val) {o : ℕ}
    (ho : ¬c.E.isForm o) {i j : ℕ} (hi : i < c.E.rows o) (hj : j < c.E.cols o) :
    MVal c rank o i j = c.sc.val (c.E.el o i j) :=
  (valOf_solves c.E c.sc.val hwf he Set.univ).leaf o trivial ho i j hi hj

/-- A formula matrix holds the value of its formula. -/
theorem mval_form (c : MCtx K) {rank : ℕ → ℕ} (hwf : c.E.WF rank) (he : EyesOk c.E c.sc.val)
    {o n e eye} (hk : c.E.kind o = .form n e eye) {i j : ℕ} (hi : i < c.E.rows o)
    (hj : j < c.E.cols o) : MVal c rank o i j = den c.E c.sc.val (MVal c rank) e i j :=
  ((valOf_solves c.E c.sc.val hwf he Set.univ).form o trivial n e eye hk).1 i j hi hj

/-- What a query on matrix `o` needs: kernels that work, registered identity matrices, dimensions
of formulas that fit (part of `MEnv.WF`), operands of `inv` (for derivatives also of `det`) that are
invertible at the current values and an Eigen build where they occur. -/
structure QueryOk (c : MCtx K) (rank : ℕ → ℕ) (detInv : Prop) (o : ℕ) : Prop where
  wf : c.E.WF rank
  sound : c.B.Sound c.E.P
  eyes : EyesOk c.E c.sc.val
  forms : FormsOk c detInv (MVal c rank) (MReach c.E o)

/-- What a query on the expression `e` needs: as for a named matrix, and dimensions of `e` that fit. -/
structure QueryOkE (c : MCtx K) (rank : ℕ → ℕ) (detInv : Prop) (e : MNode K) : Prop where
  wf : c.E.WF rank
  sound : c.B.Sound c.E.P
  eyes : EyesOk c.E c.sc.val
  forms : FormsOk c detInv (MVal c rank) (EReach c.E e)
  dims : DimOk c.E e
  inv : UsesInv e → c.B.InvSound
  invertible : Invertible detInv c.E c.sc.val (MVal c rank) e

/-! ## Numbers of operator nodes -/

/-- Every operator node occurs once (every C++ operator object takes a new number, `m_nidx`). -/
structure UniqueNodes (E : MEnv K) (S : Set ℕ) : Prop where
  nodup : ∀ q ∈ S, ∀ n e eye, E.kind q = .form n e eye → (MEnv.item n e eye).nums.Nodup
  disj : ∀ q ∈ S, ∀ p ∈ S, ∀ n e eye n' e' eye', E.kind q = .form n e eye →
    E.kind p = .form n' e' eye' → ∀ m ∈ (MEnv.item n e eye).nums, m ∈ (MEnv.item n' e' eye').nums →
    q = p

/-- Dimensions of the node with number `m` in `e`. -/
def MNode.dimsAt (E : MEnv K) (m : ℕ) : MNode K → ℕ × ℕ
  | .obj _ => (0, 0)
  | .bin n op a b => if n = m then (MNode.bin n op a b).dims E
      else if m ∈ a.nums then a.dimsAt E m else b.dimsAt E m
  | .un n op a => if n = m then (MNode.un n op a).dims E else a.dimsAt E m

theorem ndOk_dimsAt {E : MEnv K} {nd : ℕ → ℕ × ℕ} : ∀ {e : MNode K}, e.nums.Nodup →
    (∀ m ∈ e.nums, nd m = e.dimsAt E m) → NdOk E nd e
  | .obj _, _, _ => trivial
  | .bin n op a b, hn, h => by
    simp only [MNode.nums, List.nodup_cons, List.nodup_append, List.mem_append, not_or] at hn
    obtain ⟨⟨h1, h2⟩, h3, h4, h5⟩ := hn
    refine ⟨ndOk_dimsAt h3 fun m hm => ?_, ndOk_dimsAt h4 fun m hm => ?_, ?_⟩
    · have : n ≠ m := by rintro rfl; exact h1 hm
      rw [h m (by simp [MNode.nums, hm])]
      simp [MNode.dimsAt, this, hm]
    · have : n ≠ m := by rintro rfl; exact h2 hm
      have h6 : m ∉ a.nums := fun hh => h5 m hh m hm rfl
      rw [h m (by simp [MNode.nums, hm])]
      simp [MNode.dimsAt, this, h6]
    · rw [h n (by simp [MNode.nums])]; simp [MNode.dimsAt]
  | .un n op a, hn, h => by
    simp only [MNode.nums, List.nodup_cons] at hn
    refine ⟨ndOk_dimsAt hn.2 fun m hm => ?_, ?_⟩
    · have : n ≠ m := by rintro rfl; exact hn.1 hm
      rw [h m (by simp [MNode.nums, hm])]
      simp [MNode.dimsAt, this]
    · rw [h n (by simp [MNode.nums])]; simp [MNode.dimsAt]

theorem UniqueNodes.choose {E : MEnv K} {S : Set ℕ} (h : UniqueNodes E S) :
    ∃ (own : ℕ → ℕ) (nd : ℕ → ℕ × ℕ), ∀ q ∈ S, ∀ n e eye, E.kind q = .form n e eye → (MEnv.item n e eye).nums.Nodup ∧
      (∀ m ∈ (MEnv.item n e eye).nums, own m = q) ∧ NdOk E nd (MEnv.item n e eye) := by
  classical
  let P : ℕ → ℕ → Prop := fun m q => q ∈ S ∧ ∃ n e eye, E.kind q = .form n e eye ∧
    m ∈ (MEnv.item n e eye).nums
  let own : ℕ → ℕ := fun m => if h : ∃ q, P m q then h.choose else 0
  let nd : ℕ → ℕ × ℕ := fun m => match E.kind (own m) with
    | .form n e eye => (MEnv.item n e eye).dimsAt E m
    | _ => (0, 0)
  have hown : ∀ q ∈ S, ∀ n e eye, E.kind q = .form n e eye →
      ∀ m ∈ (MEnv.item n e eye).nums, own m = q := by
    intro q hq n e eye hk m hm
    have hex : ∃ q, P m q := ⟨q, hq, n, e, eye, hk, hm⟩
    have : own m = hex.choose := dif_pos hex
    rw [this]
    obtain ⟨h1, n', e', eye', h2, h3⟩ := hex.choose_spec
    exact h.disj _ h1 _ hq _ _ _ _ _ _ h2 hk m h3 hm
  refine ⟨own, nd, fun q hq n e eye hk => ⟨h.nodup q hq n e eye hk, hown q hq n e eye hk, ?_⟩⟩
  refine ndOk_dimsAt (h.nodup q hq n e eye hk) fun m hm => ?_
  show (match E.kind (own m) with
    | .form n e eye => (MEnv.item n e eye).dimsAt E m
    | _ => (0, 0)) = _
  rw [hown q hq n e eye hk m hm, hk]

/-- What `PreComp(Y); DevalR(Y, X)` needs: `Y = o` and all named formulas it uses are 1×1, operands
of `inv` and `det` are invertible at the current values, every operator object occurs once, the
scalar expressions inside `Y` (elements of `Matrix<Expression>` and scalar coefficients) do not
depend on the elements of `X`, and convolutions inside `Y` have strides 1, pads `px`, `py` and a kernel
of `2 px + 1` by `2 py + 1` elements; if the input of the convolution depends on `X`, the kernel is
symmetric under rotation by 180 degrees (`ConvRev`). -/
structure RevQueryOk (c : MCtx K) (rank : ℕ → ℕ) (o X : ℕ) : Prop where
  query : QueryOk c rank True o
  root : c.E.isForm o
  one : ∀ q, MReach c.E o q → c.E.isForm q → c.E.rows q = 1 ∧ c.E.cols q = 1
  vars : VarsApart c.E
  isVar : c.E.kind X = .var
  nodes : UniqueNodes c.E (MReach c.E o)
  exp : ∀ q, MReach c.E o q → c.E.kind q = .exp → ∀ l k i j, l < c.E.rows q → k < c.E.cols q →
    i < c.E.rows X → j < c.E.cols X → c.sd X (c.E.el q l k) i j = 0
  coeff : ∀ q n e eye, MReach c.E o q → c.E.kind q = .form n e eye →
    CoeffConst (c.sd X) (c.E.rows X) (c.E.cols X) e
  conv : ∀ q n e eye, MReach c.E o q → c.E.kind q = .form n e eye →
    ConvRev c.E c.sc.val (c.sd X) (MVal c rank) (MDer c X rank) X e

/-! ## Caches of matrices that are not visited are empty -/

/-- A matrix that is not visited has no cached adjoints. -/
def CacheAt (s : MSt K) (q : ℕ) : Prop := (s.obj q).visited = false → (s.obj q).cache = []

theorem CacheAt.setO {s : MSt K} {q o : ℕ} {v : MObj K} (h : q ≠ o → CacheAt s q)
    (hv : q = o → v.visited = false → v.cache = []) : CacheAt (s.setO o v) q := by
  intro hq
  by_cases hqo : q = o
  · subst hqo; simp only [setO_same] at hq ⊢; exact hv rfl hq
  · rw [setO_ne _ _ hqo] at hq ⊢; exact h hqo hq

theorem CacheAt.resetE {rs : ℕ → MSt K → Option (MSt K)} {q : ℕ}
    (hrs : ∀ o s s', rs o s = some s' → CacheAt s q → CacheAt s' q) : ∀ (e : MNode K) s s',
    mresetE rs e s = some s' → CacheAt s q → CacheAt s' q
  | .obj o, s, s', h, hs => hrs o s s' h hs
  | .bin _ _ x y, s, s', h, hs => by
    simp only [mresetE, Option.bind_eq_bind, Option.bind_eq_some_iff] at h
    obtain ⟨s1, h1, h2⟩ := h
    exact CacheAt.resetE hrs y s1 s' h2 (CacheAt.resetE hrs x s s1 h1 hs)
  | .un _ _ x, s, s', h, hs => CacheAt.resetE hrs x s s' h hs

theorem CacheAt.resetItem {E : MEnv K} {rs : ℕ → MSt K → Option (MSt K)} {q : ℕ}
    (hrs : ∀ o s s', rs o s = some s' → CacheAt s q → CacheAt s' q) {o : ℕ} {s s' : MSt K}
    (h : mresetItem E rs o s = some s') (hs : CacheAt s q) : CacheAt s' q := by
  simp only [mresetItem] at h
  rcases hk : E.kind o with _ | _ | _ | _ | ⟨n, e, eye⟩ <;> simp only [hk] at h
  · cases h; exact hs
  · cases h; exact hs
  · cases h; exact hs
  · cases h; exact hs
  · exact CacheAt.resetE hrs _ _ _ h hs

theorem CacheAt.reset {E : MEnv K} {q : ℕ} : ∀ f o (s s' : MSt K), mresetO E f o s = some s' →
    CacheAt s q → CacheAt s' q
  | 0, o, s, s', h, _ => by simp [mresetO] at h
  | f + 1, o, s, s', h, hs => by
    simp only [mresetO, Option.bind_eq_some_iff] at h
    obtain ⟨s1, h1, h2⟩ := h
    cases h2
    refine CacheAt.setO (fun hqo => ?_) (fun _ _ => rfl)
    by_cases hv : (s.obj o).visited = true
    · rw [if_pos hv] at h1
      exact CacheAt.resetItem (CacheAt.reset f) h1 (CacheAt.setO (fun _ => hs) (fun h => absurd h hqo))
    · rw [if_neg hv] at h1; cases h1; exact hs

/-! ## Reset before `PreComp` -/

/-- Everything below `o` that uses an already used matrix was itself used. -/
def NoGaps (E : MEnv K) (U : ℕ → Prop) (o : ℕ) : Prop :=
  ∀ p n e eye q, MReach E o p → p ≠ o → E.kind p = .form n e eye → q ∈ (MEnv.item n e eye).objs →
    U q → U p

theorem MReach.rank_lt {E : MEnv K} {rank : ℕ → ℕ} (hwf : E.WF rank) {o p : ℕ} (h : MReach E o p) :
    p = o ∨ rank p < rank o := by
  induction h with
  | refl => exact Or.inl rfl
  | step hp hk hq ih =>
    have := (hwf.form _ _ _ _ hk).2.2.2.2.2.2 _ hq
    have := hp.rank hwf
    exact Or.inr (by omega)

theorem precompReset_spec {c : MCtx K} {X : ℕ} {rank : ℕ → ℕ} {V : ℕ → ℕ → ℕ → K}
    {D : ℕ → ℕ → ℕ → ℕ → ℕ → K} {own : ℕ → ℕ} {nd : ℕ → ℕ × ℕ}
    (hwf : c.E.WF rank) {s : MSt K} (hs : Rest c.E s) (hc : ∀ q, CacheAt s q) {o f : ℕ}
    (ho : c.E.isForm o) (hf : rank o < f)
    (hg : NoGaps c.E (fun p => (s.obj p).visited = true) o) :
    ∃ s', precompReset c.E f o s = some s' ∧
      TInv c X rank V D (MReach c.E o) own nd (rank o + 1) s' ∧
      (∀ p, ¬MReach c.E o p → s'.obj p = s.obj p) ∧
      (∀ p, (s'.obj p).dresult = (s.obj p).dresult) ∧ (∀ q, CacheAt s' q) ∧
      (∀ p, MReach c.E o p → (s'.obj p).visited = false) := by
  obtain ⟨n, e, eye, hk⟩ := ho
  let S : Set ℕ := MReach c.E o
  have hit : ∀ q ∈ (MEnv.item n e eye).objs, q ∈ S ∧ rank q < rank o := fun q hq =>
    ⟨(MReach.refl.step hk hq : MReach c.E o q), (hwf.form _ _ _ _ hk).2.2.2.2.2.2 q hq⟩
  set s0 := s.setO o { s.obj o with visited := true, evald := false, devald := false,
                                    cache := [] } with hs0
  have h0 : ∀ q, q ≠ o → s0.obj q = s.obj q := fun q hq => setO_ne _ _ hq
  have j0 : JInv c.E rank (MReach c.E o) (rank o) s0 := by
    intro p hp hr hv n' e' eye' hk' q hq
    have hpo : p ≠ o := by rintro rfl; omega
    have hqr := (hwf.form _ _ _ _ hk').2.2.2.2.2.2 q hq
    rw [h0 p hpo] at hv
    rw [h0 q (by rintro rfl; omega)]
    by_contra hqv
    have : (s.obj p).visited = true := hg p n' e' eye' q hp hpo hk' hq (by simpa using hqv)
    rw [hv] at this; cases this
  obtain ⟨s1, e1, j1, f1, v1⟩ := mresetE_spec (S := MReach c.E o) (r := rank o)
    (mresetO_spec hwf (MReach.closed c.E o) f (rank o) hf.le) (MEnv.item n e eye) hit s0 j0
  set s2 := s1.setO o { s1.obj o with visited := false } with hs2
  have h2 : ∀ q, q ≠ o → s2.obj q = s1.obj q := fun q hq => setO_ne _ _ hq
  have hun : ∀ p, MReach c.E o p → (s2.obj p).visited = false := by
    intro p hp
    induction hp with
    | refl => simp [hs2]
    | @step p q n' e' eye' hp hk' hq ih =>
      have hqr := (hwf.form _ _ _ _ hk').2.2.2.2.2.2 q hq
      have := hp.rank hwf
      rw [h2 q (by rintro rfl; omega)]
      rcases hp.rank_lt hwf with rfl | hlt
      · rw [hk] at hk'; cases hk'; exact v1 q hq
      · rw [h2 p (by rintro rfl; omega)] at ih
        exact j1 p hp hlt ih _ _ _ hk' q hq
  have hco1 : (s1.obj o).cache = [] := by
    rw [f1.out o (fun h => by omega)]; simp [hs0]
  have hca : ∀ q, CacheAt s2 q := fun q => CacheAt.setO
    (fun hqo => CacheAt.resetE (CacheAt.reset f) _ _ _ e1
      (CacheAt.setO (fun _ => hc q) (fun _ _ => rfl))) (fun _ _ => hco1)
  have hfl0 : FlagOk c.E s0 := by
    intro q hq hev
    by_cases hqo : q = o
    · subst hqo; simp [hs0]
    · rw [h0 q hqo] at hev ⊢; exact hs.fl q hq hev
  have hnf : ∀ q, ¬c.E.isForm q → q ≠ o := by rintro q hq rfl; exact hq ⟨n, e, eye, hk⟩
  refine ⟨s2, ?_, ⟨⟨?_, ?_, ?_, ?_, ?_⟩, fun q hq _ => hca q (hun q hq), ?_⟩, ?_, ?_, hca, hun⟩
  · simp only [precompReset, hk, mresetImpl, mresetItem]
    rw [← hs0, e1]; rfl
  · intro m
    show SlotsOk c.E.P (s1.slot m)
    rw [f1.slot]; exact hs.live m
  · intro q hq
    rw [h2 q (hnf q hq), f1.res, h0 q (hnf q hq)]; exact hs.rlive q hq
  · intro q hqS hq hev
    have hv := hun q hqS
    rw [h2 q (hnf q hq)] at hev hv
    rw [f1.flags hfl0 q hq (Or.inl hev)] at hv; cases hv
  · intro q hqS _ _ hv; rw [hun q hqS] at hv; cases hv
  · intro q hqS _ n' e' eye' _ hv; rw [hun q hqS] at hv; cases hv
  · intro q hqS _ _ hv; rw [hun q hqS] at hv; cases hv
  · intro q hq
    have hqo : q ≠ o := by rintro rfl; exact hq MReach.refl
    rw [h2 q hqo, f1.out q (fun h => hq h.1), h0 q hqo]
  · intro q
    have h1 : (s1.obj q).dresult = (s0.obj q).dresult := f1.dres q
    have h0' : (s0.obj q).dresult = (s.obj q).dresult := by
      by_cases hqo : q = o
      · subst hqo; simp [hs0]
      · rw [h0 q hqo]
    have h2' : (s2.obj q).dresult = (s1.obj q).dresult := by
      by_cases hqo : q = o
      · subst hqo; simp [hs2]
      · rw [h2 q hqo]
    exact (h2'.trans h1).trans h0'

/-- The conditions of the traversal theorems, from those of the query. -/
theorem RevQueryOk.revOk {c : MCtx K} {rank : ℕ → ℕ} {o X : ℕ} (hq : RevQueryOk c rank o X)
    {own : ℕ → ℕ} {nd : ℕ → ℕ × ℕ} (hn : ∀ q, MReach c.E o q → ∀ n e eye,
      c.E.kind q = .form n e eye → (MEnv.item n e eye).nums.Nodup ∧
      (∀ m ∈ (MEnv.item n e eye).nums, own m = q) ∧ NdOk c.E nd (MEnv.item n e eye)) :
    RevOk c X rank (MVal c rank) (MDer c X rank) (MReach c.E o) own nd :=
  ⟨hq.query.wf, hq.query.sound, MReach.closed c.E o, hq.query.forms,
    valOf_solves c.E c.sc.val hq.query.wf hq.query.eyes _, hq.vars, hq.isVar,
    derOf_solves c.E c.sc.val (c.sd X) _ X hq.query.wf _, hq.one, hq.exp,
    fun q hS n e eye hk => hq.coeff q n e eye hS hk,
    fun q hS n e eye hk => hq.conv q n e eye hS hk, hn⟩

/-- **`TensorR2::PreComp` on a 1×1 formula**, between queries. -/
theorem matPreComp_spec {c : MCtx K} {rank : ℕ → ℕ} {o X f : ℕ} (hq : RevQueryOk c rank o X)
    (hf : rank o < f) {s : MSt K} (hs : Rest c.E s) (hc : ∀ q, CacheAt s q)
    (hg : NoGaps c.E (fun p => (s.obj p).visited = true) o) :
    ∃ s' own nd, matPreComp c f o s = some s' ∧
      CInv c X rank (MDer c X rank) own nd o (s'.obj o).cache ∧ Rest c.E s' ∧
      (∀ q, CacheAt s' q) ∧ (∀ p, MReach c.E o p → (s'.obj p).visited = true) ∧
      (∀ p, ¬MReach c.E o p → s'.obj p = s.obj p) := by
  obtain ⟨own, nd, hn⟩ := hq.nodes.choose
  obtain ⟨s1, e1, t1, o1, d1, c1, u1⟩ := precompReset_spec (c := c) (X := X) (V := MVal c rank)
    (D := MDer c X rank) (own := own) (nd := nd) hq.query.wf hs hc hq.root hf hg
  obtain ⟨s2, e2, t2, f2, v2⟩ := mtravO_spec (hq.revOk hn) f (rank o + 1) hf o MReach.refl (by omega)
    s1 t1
  have hb : DBufs c.E s2 := by
    refine ⟨?_, ?_, ?_⟩
    · intro p hp; rw [f2.dres, d1]; exact hs.bufs.live p hp
    · intro p hp; rw [f2.dres, d1]; exact hs.bufs.num p hp
    · intro p hp; rw [f2.dres, d1]; exact hs.bufs.var p hp
  have hall := t2.me.allVisited hq.query.wf v2
  refine ⟨s2, own, nd, by simp [matPreComp, e1, e2], t2.formC o MReach.refl (by omega) hq.root v2,
    hs.after hq.query.wf o1 t2.me hb f2.out v2, ?_, hall, ?_⟩
  · intro q
    by_cases hr : MReach c.E o q
    · intro h; rw [hall q hr] at h; cases h
    · have : s2.obj q = s1.obj q := f2.out q (fun h => hr h.1)
      intro h; rw [this] at h ⊢; exact c1 q h
  · intro p hp; rw [f2.out p (fun h => hp h.1), o1 p hp]

end CoolDiff
