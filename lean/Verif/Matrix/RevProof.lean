import Verif.Matrix.RevCache
import Verif.Matrix.ExprHist

/-!
# Reverse differentiation of matrix expressions is correct
-/

set_option linter.unusedSectionVars false

namespace CoolDiff

open Finset

variable {K : Type} [Field K] [DecidableEq K]

/-- The numbers of the operator nodes of an expression. -/
def MNode.nums : MNode K → List ℕ
  | .obj _ => []
  | .bin n _ a b => n :: (a.nums ++ b.nums)
  | .un n _ a => n :: a.nums

/-- The numbers of the operator nodes strictly below the root. -/
def MNode.sub : MNode K → List ℕ
  | .obj _ => []
  | .bin _ _ a b => a.nums ++ b.nums
  | .un _ _ a => a.nums

/-- `nd` gives the dimensions of every operator node. -/
def NdOk (E : MEnv K) (nd : ℕ → ℕ × ℕ) : MNode K → Prop
  | .obj _ => True
  | .bin n op a b => NdOk E nd a ∧ NdOk E nd b ∧ nd n = (MNode.bin n op a b).dims E
  | .un n op a => NdOk E nd a ∧ nd n = (MNode.un n op a).dims E

/-- The dimensions that belong to a cache key. -/
def keyDims (E : MEnv K) (nd : ℕ → ℕ × ℕ) : MKey → ℕ × ℕ
  | .obj o => (E.rows o, E.cols o)
  | .node n => nd n

theorem keyDims_key {E : MEnv K} {nd : ℕ → ℕ × ℕ} : ∀ {e : MNode K}, NdOk E nd e →
    keyDims E nd e.key = e.dims E
  | .obj _, _ => rfl
  | .bin _ _ _ _, h => h.2.2
  | .un _ _ _, h => h.2

/-- Scalar coefficients (`s + A`, `s * A`) do not depend on the elements of `X`. -/
def CoeffConst (sd : ℕ → ℕ → ℕ → K) (xr xc : ℕ) : MNode K → Prop
  | .obj _ => True
  | .bin _ _ a b => CoeffConst sd xr xc a ∧ CoeffConst sd xr xc b
  | .un _ op a => CoeffConst sd xr xc a ∧ ∀ i j, i < xr → j < xc → op.coeffConst sd i j

/-- Every convolution in the expression meets the conditions of the reverse rule: strides 1, a kernel
of `2 px + 1` by `2 py + 1` elements which is symmetric under rotation by 180 degrees, unless the
derivatives of the input (the left operand) with respect to the elements of `X` are zero. -/
def ConvRev (E : MEnv K) (sv : ℕ → K) (sd : ℕ → ℕ → ℕ → K) (V : ℕ → ℕ → ℕ → K)
    (D : ℕ → ℕ → ℕ → ℕ → ℕ → K) (X : ℕ) : MNode K → Prop
  | .obj _ => True
  | .bin _ op a b => ConvRev E sv sd V D X a ∧ ConvRev E sv sd V D X b ∧
      op.revOk (b.dims E) (den E sv V b) (∀ l k i j, l < (a.dims E).1 → k < (a.dims E).2 →
        i < E.rows X → j < E.cols X → tan E sv sd V D a l k i j = 0)
  | .un _ _ a => ConvRev E sv sd V D X a

section
variable (c : MCtx K) (X : ℕ) (rank : ℕ → ℕ) (V : ℕ → ℕ → ℕ → K) (D : ℕ → ℕ → ℕ → ℕ → ℕ → K)
  (S : Set ℕ) (own : ℕ → ℕ) (nd : ℕ → ℕ × ℕ)

/-- Conditions for reverse differentiation. -/
structure RevOk : Prop where
  wf : c.E.WF rank
  B : c.B.Sound c.E.P
  cl : Closed c.E S
  F : FormsOk c True V S
  hV : MSolves c.E c.sc.val V S
  vars : VarsApart c.E
  hX : c.E.kind X = .var
  hD : MSolvesD c.E c.sc.val (c.sd X) V D X S
  one : ∀ q ∈ S, c.E.isForm q → c.E.rows q = 1 ∧ c.E.cols q = 1
  exp : ∀ q ∈ S, c.E.kind q = .exp → ∀ l k i j, l < c.E.rows q → k < c.E.cols q →
    i < c.E.rows X → j < c.E.cols X → c.sd X (c.E.el q l k) i j = 0
  coeff : ∀ q ∈ S, ∀ n e eye, c.E.kind q = .form n e eye →
    CoeffConst (c.sd X) (c.E.rows X) (c.E.cols X) e
  conv : ∀ q ∈ S, ∀ n e eye, c.E.kind q = .form n e eye → ConvRev c.E c.sc.val (c.sd X) V D X e
  nums : ∀ q ∈ S, ∀ n e eye, c.E.kind q = .form n e eye → (MEnv.item n e eye).nums.Nodup ∧
    (∀ m ∈ (MEnv.item n e eye).nums, own m = q) ∧ NdOk c.E nd (MEnv.item n e eye)

/-- `X` is mentioned by the formula of `q`, directly or through other formulas. -/
def StrictReach (q : ℕ) : Prop :=
  ∃ n e eye, c.E.kind q = .form n e eye ∧ ∃ p ∈ (MEnv.item n e eye).objs, MReach c.E p X

/-- What the cache of a traversed formula holds. -/
structure CInv (q : ℕ) (κ : MCache K) : Prop where
  wf : CWF (keyDims c.E nd) κ
  nodes : ∀ n, κ.has (.node n) → rank (own n) ≤ rank q
  hasX : κ.has (.obj X) ↔ StrictReach c X q
  entX : ∀ i j, i < c.E.rows X → j < c.E.cols X → κ.ent (.obj X) i j = D q 0 0 i j

/-- State invariant during traversal. -/
structure TInv (r : ℕ) (s : MSt K) : Prop where
  me : MEInv c rank V S r s
  leafC : ∀ q ∈ S, ¬c.E.isForm q → (s.obj q).cache = []
  formC : ∀ q ∈ S, rank q < r → c.E.isForm q → (s.obj q).visited = true →
    CInv c X rank D own nd q (s.obj q).cache

/-- What traversal leaves alone. -/
structure TFrame (r : ℕ) (s s' : MSt K) : Prop where
  out : ∀ o, ¬(o ∈ S ∧ rank o < r) → s'.obj o = s.obj o
  mono : ∀ o, (s.obj o).visited = true → (s'.obj o).visited = true
  dres : ∀ o, (s'.obj o).dresult = (s.obj o).dresult

/-- Growth of the cache of formula `o`: operator nodes of `o` outside `T` keep their entries, the
entry of `X` grows by `g`, and appears if `P`. -/
structure Grow (o : ℕ) (T : ℕ → Prop) (P : Prop) (g : ℕ → ℕ → K) (κ κ' : MCache K) : Prop where
  wf : CWF (keyDims c.E nd) κ'
  keep : ∀ n, own n = o → ¬T n → κ'.find (.node n) = κ.find (.node n)
  nodes : ∀ n, κ'.has (.node n) → κ.has (.node n) ∨ rank (own n) ≤ rank o
  hasX : κ'.has (.obj X) ↔ κ.has (.obj X) ∨ P
  entX : ∀ i j, i < c.E.rows X → j < c.E.cols X →
    κ'.ent (.obj X) i j = κ.ent (.obj X) i j + g i j

variable {c X rank V D S own nd}

theorem Grow.refl {o : ℕ} {κ : MCache K} (h : CWF (keyDims c.E nd) κ) :
    Grow c X rank own nd o (fun _ => False) False (fun _ _ => 0) κ κ :=
  ⟨h, fun _ _ _ => rfl, fun _ h => Or.inl h, by simp, fun i j _ _ => by simp⟩

theorem Grow.trans {o : ℕ} {T T' : ℕ → Prop} {P P' : Prop} {g g' : ℕ → ℕ → K}
    {κ κ' κ'' : MCache K} (h : Grow c X rank own nd o T P g κ κ')
    (h' : Grow c X rank own nd o T' P' g' κ' κ'') :
    Grow c X rank own nd o (fun n => T n ∨ T' n) (P ∨ P') (fun i j => g i j + g' i j) κ κ'' := by
  refine ⟨h'.wf, ?_, ?_, ?_, ?_⟩
  · intro n hn hT
    rw [h'.keep n hn (fun x => hT (Or.inr x)), h.keep n hn (fun x => hT (Or.inl x))]
  · intro n hn
    rcases h'.nodes n hn with h1 | h1
    · exact h.nodes n h1
    · exact Or.inr h1
  · rw [h'.hasX, h.hasX]; tauto
  · intro i j hi hj
    rw [h'.entX i j hi hj, h.entX i j hi hj]; ring

theorem Grow.congr {o : ℕ} {T T' : ℕ → Prop} {P P' : Prop} {g g' : ℕ → ℕ → K}
    {κ κ' : MCache K} (h : Grow c X rank own nd o T P g κ κ') (hT : ∀ n, T n → T' n)
    (hP : P ↔ P') (hg : ∀ i j, i < c.E.rows X → j < c.E.cols X → g i j = g' i j) :
    Grow c X rank own nd o T' P' g' κ κ' :=
  ⟨h.wf, fun n hn hT' => h.keep n hn (fun x => hT' (hT n x)), h.nodes, by rw [h.hasX, hP],
    fun i j hi hj => by rw [h.entX i j hi hj, hg i j hi hj]⟩

/-! ## Pushing an adjoint to an operand -/

/-- The derivatives of a matrix with elements: one for `X` itself, zero otherwise. -/
theorem RevOk.leafD (h : RevOk c X rank V D S own nd) {q : ℕ} (hq : q ∈ S) (hl : ¬c.E.isForm q)
    {i j : ℕ} (hi : i < c.E.rows X) (hj : j < c.E.cols X) (A : ℕ → ℕ → K) :
    pair2 (c.E.rows q) (c.E.cols q) A (fun l k => D q l k i j) = if q = X then A i j else 0 := by
  by_cases hqX : q = X
  · subst hqX
    rw [if_pos rfl, ← pair2_delta hi hj A]
    refine pair2_congr fun l k hl hk => ?_
    rw [h.hD.var q hq h.hX l k i j hl hk hi hj]
    congr 1
    by_cases hlk : l = i ∧ k = j
    · rw [if_pos hlk, if_pos (by rw [hlk.1, hlk.2])]
    · rw [if_neg hlk, if_neg]
      intro hv
      exact hlk (h.vars q q h.hX h.hX l k i j hl hk hi hj hv).2
  · rw [if_neg hqX]
    refine pair2_zero fun l k hl' hk => ?_
    rcases hkind : c.E.kind q with _ | _ | _ | _ | ⟨n, e, eye⟩
    · first
      | exact h.hD.num q hq (Or.inl hkind) l k i j hl' hk hi hj
      | exact h.hD.num q hq (Or.inr hkind) l k i j hl' hk hi hj
      | (rw [h.hD.exp q hq hkind l k i j hl' hk hi hj]; exact h.exp q hq hkind l k i j hl' hk hi hj)
      | (rw [h.hD.var q hq hkind l k i j hl' hk hi hj, if_neg]
         intro hv
         exact hqX (h.vars q X hkind h.hX l k i j hl' hk hi hj hv).1)
    · first
      | exact h.hD.num q hq (Or.inl hkind) l k i j hl' hk hi hj
      | exact h.hD.num q hq (Or.inr hkind) l k i j hl' hk hi hj
      | (rw [h.hD.exp q hq hkind l k i j hl' hk hi hj]; exact h.exp q hq hkind l k i j hl' hk hi hj)
      | (rw [h.hD.var q hq hkind l k i j hl' hk hi hj, if_neg]
         intro hv
         exact hqX (h.vars q X hkind h.hX l k i j hl' hk hi hj hv).1)
    · first
      | exact h.hD.num q hq (Or.inl hkind) l k i j hl' hk hi hj
      | exact h.hD.num q hq (Or.inr hkind) l k i j hl' hk hi hj
      | (rw [h.hD.exp q hq hkind l k i j hl' hk hi hj]; exact h.exp q hq hkind l k i j hl' hk hi hj)
      | (rw [h.hD.var q hq hkind l k i j hl' hk hi hj, if_neg]
         intro hv
         exact hqX (h.vars q X hkind h.hX l k i j hl' hk hi hj hv).1)
    · first
      | exact h.hD.num q hq (Or.inl hkind) l k i j hl' hk hi hj
      | exact h.hD.num q hq (Or.inr hkind) l k i j hl' hk hi hj
      | (rw [h.hD.exp q hq hkind l k i j hl' hk hi hj]; exact h.exp q hq hkind l k i j hl' hk hi hj)
      | (rw [h.hD.var q hq hkind l k i j hl' hk hi hj, if_neg]
         intro hv
         exact hqX (h.vars q X hkind h.hX l k i j hl' hk hi hj hv).1)
    · exact absurd ⟨n, e, eye, hkind⟩ hl

/-- Contribution to the entry of `X` from adding the adjoint itself. -/
def addGain (X : ℕ) (x : MNode K) (A : ℕ → ℕ → K) (i j : ℕ) : K :=
  match x with
  | .obj q => if q = X then A i j else 0
  | _ => 0

/-- Contribution to the entry of `X` from merging the operand's cache. -/
noncomputable def mergeGain (E : MEnv K) (D : ℕ → ℕ → ℕ → ℕ → ℕ → K) (x : MNode K)
    (A : ℕ → ℕ → K) (i j : ℕ) : K :=
  open Classical in
  match x with
  | .obj q => if E.isForm q then A 0 0 * D q 0 0 i j else 0
  | _ => 0

/-- Contribution from the traversal of the operand. -/
noncomputable def travGain (c : MCtx K) (X : ℕ) (V : ℕ → ℕ → ℕ → K)
    (D : ℕ → ℕ → ℕ → ℕ → ℕ → K) (x : MNode K) (A : ℕ → ℕ → K) (i j : ℕ) : K :=
  match x with
  | .obj _ => 0
  | x => pair2 (x.dims c.E).1 (x.dims c.E).2 A
      (fun l k => tan c.E c.sc.val (c.sd X) V D x l k i j)

theorem RevOk.gain (h : RevOk c X rank V D S own nd) (x : MNode K) (hx : ∀ q ∈ x.objs, q ∈ S)
    (A : ℕ → ℕ → K) {i j : ℕ} (hi : i < c.E.rows X) (hj : j < c.E.cols X) :
    addGain X x A i j + mergeGain c.E D x A i j + travGain c X V D x A i j =
      pair2 (x.dims c.E).1 (x.dims c.E).2 A
        (fun l k => tan c.E c.sc.val (c.sd X) V D x l k i j) := by
  cases x with
  | obj q =>
    have hq := hx q (by simp [MNode.objs])
    simp only [addGain, mergeGain, travGain, MNode.dims, tan, add_zero]
    by_cases hf : c.E.isForm q
    · have hqX : q ≠ X := by
        rintro rfl
        obtain ⟨n, e, eye, hk⟩ := hf
        rw [h.hX] at hk; cases hk
      obtain ⟨h1, h2⟩ := h.one q hq hf
      rw [if_neg hqX, if_pos hf, h1, h2, pair2_one, zero_add]
    · rw [if_neg hf, h.leafD hq hf hi hj A, add_zero]
  | bin n op a b => simp [addGain, mergeGain, travGain]
  | un n op a => simp [addGain, mergeGain, travGain]

/-- Is the operand `X` itself? -/
def addP (X : ℕ) (x : MNode K) : Prop :=
  match x with
  | .obj q => q = X
  | _ => False

/-- Does the operand's formula mention `X`? -/
def mergeP (c : MCtx K) (X : ℕ) (x : MNode K) : Prop :=
  match x with
  | .obj q => StrictReach c X q
  | _ => False

/-- Does an operator operand mention `X`? -/
def travP (c : MCtx K) (X : ℕ) (x : MNode K) : Prop :=
  match x with
  | .obj _ => False
  | x => ∃ q ∈ x.objs, MReach c.E q X

theorem MReach.head {E : MEnv K} {o p q n : ℕ} {e : MNode K} {eye : ℕ}
    (hk : E.kind o = .form n e eye) (hq : q ∈ (MEnv.item n e eye).objs) (h : MReach E q p) :
    MReach E o p := by
  induction h with
  | refl => exact MReach.refl.step hk hq
  | step _ hk' hq' ih => exact ih.step hk' hq'

theorem MReach.cases' {E : MEnv K} {o p : ℕ} (h : MReach E o p) :
    o = p ∨ ∃ n e eye, E.kind o = .form n e eye ∧ ∃ q ∈ (MEnv.item n e eye).objs, MReach E q p := by
  induction h with
  | refl => exact Or.inl rfl
  | step _ hk hq ih =>
    rcases ih with rfl | ⟨n, e, eye, h1, q', h2, h3⟩
    · exact Or.inr ⟨_, _, _, hk, _, hq, MReach.refl⟩
    · exact Or.inr ⟨n, e, eye, h1, q', h2, h3.step hk hq⟩

theorem mreach_iff (q : ℕ) : MReach c.E q X ↔ q = X ∨ StrictReach c X q := by
  constructor
  · exact MReach.cases'
  · rintro (rfl | ⟨n, e, eye, hk, p, hp, h⟩)
    · exact MReach.refl
    · exact h.head hk hp

theorem allP (x : MNode K) :
    (addP X x ∨ mergeP c X x ∨ travP c X x) ↔ ∃ q ∈ x.objs, MReach c.E q X := by
  cases x with
  | obj q => simp [addP, mergeP, travP, MNode.objs, mreach_iff]
  | bin n op a b => simp [addP, mergeP, travP]
  | un n op a => simp [addP, mergeP, travP]

theorem kaddG (h : RevOk c X rank V D S own nd) {o : ℕ} {x : MNode K} (hx : NdOk c.E nd x)
    (hown : ∀ n ∈ x.nums, own n = o) {κ : MCache K} (hκ : CWF (keyDims c.E nd) κ) {m : Mat K}
    {A : ℕ → ℕ → K} (hm : Rep m (x.dims c.E).1 (x.dims c.E).2 A) :
    ∃ κ', kadd c κ x.key m = some κ' ∧
      Grow c X rank own nd o (fun n => x.key = .node n) (addP X x) (addGain X x A) κ κ' ∧
      (∀ k, k ≠ x.key → κ'.find k = κ.find k) ∧
      κ'.has x.key ∧ ∀ i j, i < (x.dims c.E).1 → j < (x.dims c.E).2 →
        κ'.ent x.key i j = κ.ent x.key i j + A i j := by
  rw [← keyDims_key hx] at hm
  obtain ⟨κ', e1, w1, k1, h1, v1⟩ := kadd_spec h.B hκ hm
  refine ⟨κ', e1, ⟨w1, ?_, ?_, ?_, ?_⟩, k1, h1, ?_⟩
  · intro n _ hn; exact k1 _ (fun h => hn h.symm)
  · intro n hn
    by_cases hk : MKey.node n = x.key
    · right
      have : n ∈ x.nums := by cases x <;> simp_all [MNode.key, MNode.nums]
      rw [hown n this]
    · left; rwa [MCache.has, k1 _ hk] at hn
  · cases x with
    | obj q =>
      simp only [addP, MNode.key] at *
      by_cases hq : q = X
      · subst hq; simp [h1]
      · rw [MCache.has_congr (k1 (.obj X) (by simp [Ne.symm hq]))]; simp [hq]
    | bin n op a b => rw [MCache.has_congr (k1 (.obj X) (by simp [MNode.key]))]; simp [addP]
    | un n op a => rw [MCache.has_congr (k1 (.obj X) (by simp [MNode.key]))]; simp [addP]
  · intro i j hi hj
    cases x with
    | obj q =>
      simp only [addGain, MNode.key] at *
      by_cases hq : q = X
      · subst hq; rw [if_pos rfl]; exact v1 i j hi hj
      · rw [if_neg hq, MCache.ent_congr (k1 (.obj X) (by simp [Ne.symm hq])), add_zero]
    | bin n op a b =>
      rw [MCache.ent_congr (k1 (.obj X) (by simp [MNode.key]))]; simp [addGain]
    | un n op a =>
      rw [MCache.ent_congr (k1 (.obj X) (by simp [MNode.key]))]; simp [addGain]
  · rw [← keyDims_key hx]; exact v1

theorem mergeC_nil (c : MCtx K) (κ : MCache K) (adj : Mat K) : mergeC c κ adj [] = some κ := by
  have : c.π.run MKey [] = [] := List.Perm.eq_nil (c.π.perm MKey [])
  simp [mergeC, this]

theorem mergeG (h : RevOk c X rank V D S own nd) {o r : ℕ} (hr : r ≤ rank o) {x : MNode K}
    {s : MSt K} (hs : TInv c X rank V D S own nd r s)
    (hobj : ∀ q ∈ x.objs, q ∈ S ∧ rank q < r ∧ (s.obj q).visited = true)
    {κ : MCache K} (hκ : CWF (keyDims c.E nd) κ) {m : Mat K}
    {A : ℕ → ℕ → K} (hm : Rep m (x.dims c.E).1 (x.dims c.E).2 A) :
    ∃ κ', mergeC c κ m (childCache s x) = some κ' ∧
      Grow c X rank own nd o (fun _ => False) (mergeP c X x) (mergeGain c.E D x A) κ κ' := by
  have key : childCache s x = [] → ¬mergeP c X x → (∀ i j, mergeGain c.E D x A i j = 0) →
      ∃ κ', mergeC c κ m (childCache s x) = some κ' ∧
        Grow c X rank own nd o (fun _ => False) (mergeP c X x) (mergeGain c.E D x A) κ κ' := by
    intro h1 h2 h3
    refine ⟨κ, by rw [h1, mergeC_nil], (Grow.refl hκ).congr (fun _ h => h) (by simp [h2]) ?_⟩
    intro i j _ _; rw [h3]
  cases x with
  | bin n op a b => exact key rfl (fun h => h) (fun _ _ => rfl)
  | un n op a => exact key rfl (fun h => h) (fun _ _ => rfl)
  | obj q =>
    obtain ⟨hqS, hqr, hqv⟩ := hobj q (by simp [MNode.objs])
    by_cases hf : c.E.isForm q
    · have hC := hs.formC q hqS hqr hf hqv
      obtain ⟨h1, h2⟩ := h.one q hqS hf
      simp only [MNode.dims, h1, h2] at hm
      obtain ⟨κ', e1, w1, k1, p1, v1⟩ := mergeC_spec h.B hm _ hC.wf κ hκ
      refine ⟨κ', e1, w1, ?_, ?_, ?_, ?_⟩
      · intro n hn _
        refine k1 _ (fun hh => ?_)
        have := hC.nodes n hh
        rw [hn] at this; omega
      · intro n hn
        by_cases hh : (s.obj q).cache.has (.node n)
        · right; have := hC.nodes n hh; omega
        · left; rwa [MCache.has, k1 _ hh] at hn
      · simp only [mergeP, ← hC.hasX]
        by_cases hh : (s.obj q).cache.has (.obj X)
        · simp [hh, p1 _ hh]
        · rw [MCache.has_congr (k1 _ hh)]; simp [hh]
      · intro i j hi hj
        rw [v1 (.obj X) i j hi hj, hC.entX i j hi hj]
        simp [mergeGain, hf]
    · refine key (hs.leafC q hqS hf) ?_ ?_
      · rintro ⟨n, e, eye, hk, _⟩; exact hf ⟨n, e, eye, hk⟩
      · intro i j; simp [mergeGain, hf]

/-- The cache holds the adjoint of an operator operand. -/
def EntryOk (E : MEnv K) (κ : MCache K) (A : ℕ → ℕ → K) (x : MNode K) : Prop :=
  match x with
  | .obj _ => True
  | x => ∃ C, κ.find x.key = some C ∧ Rep C (x.dims E).1 (x.dims E).2 A

theorem EntryOk.of {E : MEnv K} {κ κ' : MCache K} {A : ℕ → ℕ → K} {x : MNode K}
    (h : EntryOk E κ A x) (hk : ∀ n, x.key = .node n → κ'.find (.node n) = κ.find (.node n)) :
    EntryOk E κ' A x := by
  cases x with
  | obj q => trivial
  | bin n op a b =>
    obtain ⟨C, h1, h2⟩ := h
    exact ⟨C, by rw [← h1]; exact hk n rfl, h2⟩
  | un n op a =>
    obtain ⟨C, h1, h2⟩ := h
    exact ⟨C, by rw [← h1]; exact hk n rfl, h2⟩

theorem EntryOk.intro {κ κ' : MCache K} {A : ℕ → ℕ → K} {x : MNode K}
    (hw : CWF (keyDims c.E nd) κ') (hx : NdOk c.E nd x) (h0 : ∀ n ∈ x.nums, ¬κ.has (.node n))
    (hh : κ'.has x.key) (hv : ∀ i j, i < (x.dims c.E).1 → j < (x.dims c.E).2 →
        κ'.ent x.key i j = κ.ent x.key i j + A i j) : EntryOk c.E κ' A x := by
  have gen : ∀ n, x.key = .node n → n ∈ x.nums →
      ∃ C, κ'.find x.key = some C ∧ Rep C (x.dims c.E).1 (x.dims c.E).2 A := by
    intro n hk hn
    obtain ⟨C, hC⟩ := hh
    refine ⟨C, hC, ?_⟩
    have := hw.rep hC
    rw [keyDims_key hx] at this
    refine this.congr fun i j hi hj => ?_
    rw [hv i j hi hj, hk, MCache.ent_of_not_has (h0 n hn), zero_add]
  cases x with
  | obj q => trivial
  | bin n op a b => exact gen n rfl (by simp [MNode.nums])
  | un n op a => exact gen n rfl (by simp [MNode.nums])

theorem key_mem_nums {x : MNode K} {n : ℕ} (h : x.key = .node n) : n ∈ x.nums := by
  cases x <;> simp_all [MNode.key, MNode.nums]

/-- Contribution of pushing an adjoint to one operand, before the operand is traversed. -/
noncomputable def pushGain (E : MEnv K) (X : ℕ) (D : ℕ → ℕ → ℕ → ℕ → ℕ → K) (x : MNode K)
    (A : ℕ → ℕ → K) (i j : ℕ) : K := addGain X x A i j + mergeGain E D x A i j

theorem push2_spec (h : RevOk c X rank V D S own nd) {o r : ℕ} (hr : r ≤ rank o) {x y : MNode K}
    {s : MSt K} (hs : TInv c X rank V D S own nd r s)
    (hox : ∀ q ∈ x.objs, q ∈ S ∧ rank q < r ∧ (s.obj q).visited = true)
    (hoy : ∀ q ∈ y.objs, q ∈ S ∧ rank q < r ∧ (s.obj q).visited = true)
    (hnx : NdOk c.E nd x) (hny : NdOk c.E nd y)
    (hwx : ∀ n ∈ x.nums, own n = o) (hwy : ∀ n ∈ y.nums, own n = o)
    (hdis : ∀ n ∈ x.nums, n ∉ y.nums)
    {κ : MCache K} (hκ : CWF (keyDims c.E nd) κ)
    (hax : ∀ n ∈ x.nums, ¬κ.has (.node n)) (hay : ∀ n ∈ y.nums, ¬κ.has (.node n))
    {mL mR : Mat K} {A B : ℕ → ℕ → K} (hL : Rep mL (x.dims c.E).1 (x.dims c.E).2 A)
    (hR : Rep mR (y.dims c.E).1 (y.dims c.E).2 B) :
    ∃ κ', push2 c x y mL mR κ s = some κ' ∧
      Grow c X rank own nd o (fun n => x.key = .node n ∨ y.key = .node n)
        ((addP X x ∨ mergeP c X x) ∨ (addP X y ∨ mergeP c X y))
        (fun i j => pushGain c.E X D x A i j + pushGain c.E X D y B i j) κ κ' ∧
      EntryOk c.E κ' A x ∧ EntryOk c.E κ' B y := by
  obtain ⟨κ1, e1, g1, o1, h1, v1⟩ := kaddG h hnx hwx hκ hL
  obtain ⟨κ2, e2, g2, o2, h2, v2⟩ := kaddG h hny hwy g1.wf hR
  obtain ⟨κ3, e3, g3⟩ := mergeG h hr hs hox g2.wf hL
  obtain ⟨κ4, e4, g4⟩ := mergeG h hr hs hoy g3.wf hR
  have hay1 : ∀ n ∈ y.nums, ¬κ1.has (.node n) := by
    intro n hn
    rw [MCache.has, o1]
    · exact hay n hn
    · intro hk; exact hdis n (key_mem_nums hk.symm) hn
  have ex : EntryOk c.E κ1 A x := EntryOk.intro g1.wf hnx hax h1 v1
  have ey : EntryOk c.E κ2 B y := EntryOk.intro g2.wf hny hay1 h2 v2
  have k34 : ∀ n, own n = o → κ4.find (.node n) = κ2.find (.node n) := by
    intro n hn
    rw [g4.keep n hn (fun h => h), g3.keep n hn (fun h => h)]
  refine ⟨κ4, ?_, (((g1.trans g2).trans g3).trans g4).congr ?_ ?_ ?_, ?_, ?_⟩
  · simp only [push2, e1, e2, e3, e4, Option.bind_eq_bind, Option.bind_some]
  · intro n; tauto
  · tauto
  · intro i j _ _; simp only [pushGain]; ring
  · refine ex.of fun n hk => ?_
    rw [k34 n (hwx n (key_mem_nums hk)), o2]
    intro hk'
    exact hdis n (key_mem_nums hk) (key_mem_nums hk'.symm)
  · refine ey.of fun n hk => ?_
    rw [k34 n (hwy n (key_mem_nums hk))]

theorem push1_spec (h : RevOk c X rank V D S own nd) {o r : ℕ} (hr : r ≤ rank o) {x : MNode K}
    {s : MSt K} (hs : TInv c X rank V D S own nd r s)
    (hox : ∀ q ∈ x.objs, q ∈ S ∧ rank q < r ∧ (s.obj q).visited = true)
    (hnx : NdOk c.E nd x) (hwx : ∀ n ∈ x.nums, own n = o)
    {κ : MCache K} (hκ : CWF (keyDims c.E nd) κ) (hax : ∀ n ∈ x.nums, ¬κ.has (.node n))
    {m : Mat K} {A : ℕ → ℕ → K} (hm : Rep m (x.dims c.E).1 (x.dims c.E).2 A) :
    ∃ κ', push1 c x m κ s = some κ' ∧
      Grow c X rank own nd o (fun n => x.key = .node n) (addP X x ∨ mergeP c X x)
        (pushGain c.E X D x A) κ κ' ∧ EntryOk c.E κ' A x := by
  obtain ⟨κ1, e1, g1, o1, h1, v1⟩ := kaddG h hnx hwx hκ hm
  obtain ⟨κ3, e3, g3⟩ := mergeG h hr hs hox g1.wf hm
  have ex : EntryOk c.E κ1 A x := EntryOk.intro g1.wf hnx hax h1 v1
  refine ⟨κ3, ?_, (g1.trans g3).congr ?_ Iff.rfl (fun i j _ _ => rfl), ?_⟩
  · simp only [push1, e1, e3, Option.bind_eq_bind, Option.bind_some]
  · intro n; tauto
  · refine ex.of fun n hk => ?_
    rw [g3.keep n (hwx n (key_mem_nums hk)) (fun h => h)]

end

end CoolDiff
