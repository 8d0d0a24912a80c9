import Verif.Matrix.RevProof

/-!
# Traversal of matrix expressions
-/

set_option linter.unusedSectionVars false

namespace CoolDiff

open Finset

variable {K : Type} [Field K] [DecidableEq K]

section
variable {c : MCtx K} {X : ℕ} {rank : ℕ → ℕ} {V : ℕ → ℕ → ℕ → K} {D : ℕ → ℕ → ℕ → ℕ → ℕ → K}
  {S : Set ℕ} {own : ℕ → ℕ} {nd : ℕ → ℕ × ℕ}

theorem TFrame.refl (r : ℕ) (s : MSt K) : TFrame rank S r s s :=
  ⟨fun _ _ => rfl, fun _ h => h, fun _ => rfl⟩

theorem TFrame.trans {r : ℕ} {s s' s'' : MSt K} (h : TFrame rank S r s s')
    (h' : TFrame rank S r s' s'') : TFrame rank S r s s'' :=
  ⟨fun o ho => (h'.out o ho).trans (h.out o ho), fun o ho => h'.mono o (h.mono o ho),
    fun o => (h'.dres o).trans (h.dres o)⟩

theorem EFrame.toT {r : ℕ} {s s' : MSt K} (h : EFrame rank S r s s') : TFrame rank S r s s' :=
  ⟨h.out, h.mono, h.dres⟩

/-- What `traverse` of a named matrix must achieve. -/
def TSpecO (c : MCtx K) (X : ℕ) (rank : ℕ → ℕ) (V : ℕ → ℕ → ℕ → K) (D : ℕ → ℕ → ℕ → ℕ → ℕ → K)
    (S : Set ℕ) (own : ℕ → ℕ) (nd : ℕ → ℕ × ℕ) (r : ℕ) (tr : ℕ → MSt K → Option (MSt K)) : Prop :=
  ∀ o ∈ S, rank o < r → ∀ s, TInv c X rank V D S own nd r s → ∃ s', tr o s = some s' ∧
    TInv c X rank V D S own nd r s' ∧ TFrame rank S r s s' ∧ (s'.obj o).visited = true

theorem TInv.setN {r : ℕ} {s : MSt K} (h : TInv c X rank V D S own nd r s) (n : ℕ) {a : Slots K}
    (ha : SlotsOk c.E.P a) : TInv c X rank V D S own nd r (s.setN n a) :=
  ⟨h.me.setN n ha, h.leafC, h.formC⟩

theorem TInv.eval {r : ℕ} {s s' : MSt K} (h : TInv c X rank V D S own nd r s)
    (hm : MEInv c rank V S r s') (hf : EFrame rank S r s s')
    (hv : ∀ q, (s'.obj q).visited = (s.obj q).visited) : TInv c X rank V D S own nd r s' :=
  ⟨hm, fun q hq hl => by rw [hf.cache]; exact h.leafC q hq hl,
    fun q hq hr hl hv' => by rw [hf.cache]; exact h.formC q hq hr hl (by rw [← hv q]; exact hv')⟩

theorem unlessSeen_obj {q : ℕ} {κ : MCache K} {s : MSt K} (h : (s.obj q).visited = true) {r} :
    unlessSeen (.obj q) κ s r = some (κ, s) := by simp [unlessSeen, visitedOf, h]

theorem unlessSeen_bin {n : ℕ} {op : MBin} {x y : MNode K} {κ : MCache K} {s : MSt K} {r} :
    unlessSeen (.bin n op x y) κ s r = r := by simp [unlessSeen, visitedOf]

theorem unlessSeen_un {n : ℕ} {op : MUn K} {x : MNode K} {κ : MCache K} {s : MSt K} {r} :
    unlessSeen (.un n op x) κ s r = r := by simp [unlessSeen, visitedOf]

/-- First pass: without entries for its nodes, an expression only traverses the matrices it
mentions. -/
theorem trav_first {r : ℕ} {ev : ℕ → MSt K → Option (MSt K × Mat K)}
    {tr : ℕ → MSt K → Option (MSt K)} (htr : TSpecO c X rank V D S own nd r tr) (e : MNode K) :
    (∀ q ∈ e.objs, q ∈ S ∧ rank q < r) → ∀ κ : MCache K, (∀ n ∈ e.nums, ¬κ.has (.node n)) →
    ∀ s, TInv c X rank V D S own nd r s → ∃ s', unlessSeen e κ s (travE c ev tr e κ s) = some (κ, s') ∧
      TInv c X rank V D S own nd r s' ∧ TFrame rank S r s s' ∧
      ∀ q ∈ e.objs, (s'.obj q).visited = true := by
  induction e with
  | obj o =>
    intro hobj κ _ s hs
    obtain ⟨h1, h2⟩ := hobj o (by simp [MNode.objs])
    by_cases hv : (s.obj o).visited = true
    · refine ⟨s, unlessSeen_obj hv, hs, TFrame.refl r s, ?_⟩
      intro q hq; simp only [MNode.objs, List.mem_singleton] at hq; subst hq; exact hv
    · obtain ⟨s', e1, i1, f1, v1⟩ := htr o h1 h2 s hs
      refine ⟨s', ?_, i1, f1, ?_⟩
      · simp [unlessSeen, visitedOf, hv, travE, e1]
      · intro q hq; simp only [MNode.objs, List.mem_singleton] at hq; subst hq; exact v1
  | bin n op x y ihx ihy =>
    intro hobj κ hκ s hs
    obtain ⟨s1, e1, i1, f1, v1⟩ := ihx (fun q hq => hobj q (by simp [MNode.objs, hq])) κ
      (fun m hm => hκ m (by simp [MNode.nums, hm])) s hs
    obtain ⟨s2, e2, i2, f2, v2⟩ := ihy (fun q hq => hobj q (by simp [MNode.objs, hq])) κ
      (fun m hm => hκ m (by simp [MNode.nums, hm])) s1 i1
    refine ⟨s2, ?_, i2, f1.trans f2, ?_⟩
    · have hn := (MCache.not_has κ _).1 (hκ n (by simp [MNode.nums]))
      simp only [unlessSeen_bin, unlessSeen_un, travE, hn,
        Option.bind_eq_bind, Option.bind_some]
      rw [e1]; simp only [Option.bind_some]; rw [e2]
    · intro q hq
      simp only [MNode.objs, List.mem_append] at hq
      rcases hq with hq | hq
      · exact f2.mono q (v1 q hq)
      · exact v2 q hq
  | un n op x ih =>
    intro hobj κ hκ s hs
    obtain ⟨s1, e1, i1, f1, v1⟩ := ih (fun q hq => hobj q (by simpa [MNode.objs] using hq)) κ
      (fun m hm => hκ m (by simp [MNode.nums, hm])) s hs
    refine ⟨s1, ?_, i1, f1, by simpa [MNode.objs] using v1⟩
    have hn := (MCache.not_has κ _).1 (hκ n (by simp [MNode.nums]))
    simp only [unlessSeen_bin, unlessSeen_un, travE, hn,
        Option.bind_eq_bind, Option.bind_some]
    rw [e1]

/-- The same when everything mentioned is visited: nothing happens. -/
theorem trav_idle {ev : ℕ → MSt K → Option (MSt K × Mat K)}
    {tr : ℕ → MSt K → Option (MSt K)} (e : MNode K) (κ : MCache K) (s : MSt K) :
    (∀ n ∈ e.nums, ¬κ.has (.node n)) → (∀ q ∈ e.objs, (s.obj q).visited = true) →
    unlessSeen e κ s (travE c ev tr e κ s) = some (κ, s) := by
  induction e with
  | obj o => intro _ hv; exact unlessSeen_obj (hv o (by simp [MNode.objs]))
  | bin n op x y ihx ihy =>
    intro hκ hv
    have e1 := ihx (fun m hm => hκ m (by simp [MNode.nums, hm]))
      (fun q hq => hv q (by simp [MNode.objs, hq]))
    have e2 := ihy (fun m hm => hκ m (by simp [MNode.nums, hm]))
      (fun q hq => hv q (by simp [MNode.objs, hq]))
    have hn := (MCache.not_has κ _).1 (hκ n (by simp [MNode.nums]))
    simp only [unlessSeen_bin, unlessSeen_un, travE, hn,
      Option.bind_eq_bind, Option.bind_some]
    rw [e1]; simp only [Option.bind_some]; rw [e2]
  | un n op x ih =>
    intro hκ hv
    have e1 := ih (fun m hm => hκ m (by simp [MNode.nums, hm]))
      (fun q hq => hv q (by simpa [MNode.objs] using hq))
    have hn := (MCache.not_has κ _).1 (hκ n (by simp [MNode.nums]))
    simp only [unlessSeen_bin, unlessSeen_un, travE, hn,
      Option.bind_eq_bind, Option.bind_some]
    rw [e1]

theorem revVals2_spec (h : RevOk c X rank V D S own nd) {r : ℕ}
    {ev : ℕ → MSt K → Option (MSt K × Mat K)} (hev : ESpecO c rank V S r ev) (op : MBin)
    {x y : MNode K} (hdx : DimOk c.E x) (hdy : DimOk c.E y)
    (hIx : UsesInv x → c.B.InvSound) (hIy : UsesInv y → c.B.InvSound)
    (hvx : Invertible True c.E c.sc.val V x) (hvy : Invertible True c.E c.sc.val V y)
    {s : MSt K} (hs : TInv c X rank V D S own nd r s)
    (hox : ∀ q ∈ x.objs, q ∈ S ∧ rank q < r ∧ (s.obj q).visited = true)
    (hoy : ∀ q ∈ y.objs, q ∈ S ∧ rank q < r ∧ (s.obj q).visited = true) (C : Mat K) :
    ∃ s' L R, revVals2 c ev op x y C s = some (s', L, R) ∧ TInv c X rank V D S own nd r s' ∧
      EFrame rank S r s s' ∧ (∀ q, (s'.obj q).visited = (s.obj q).visited) ∧
      (op.evalsOperands = true → Rep L (x.dims c.E).1 (x.dims c.E).2 (den c.E c.sc.val V x)) ∧
      (op.evalsOperands = true → Rep R (y.dims c.E).1 (y.dims c.E).2 (den c.E c.sc.val V y)) := by
  by_cases ho : op.evalsOperands = true
  · obtain ⟨s1, L, e1, i1, f1, _, w1, r1⟩ := evalE_spec h.B hev x hdx hIx hvx.weaken
      (fun q hq => ⟨(hox q hq).1, (hox q hq).2.1⟩) s hs.me
    have w1' := w1 (fun q hq => (hox q hq).2.2)
    obtain ⟨s2, R, e2, i2, f2, _, w2, r2⟩ := evalE_spec h.B hev y hdy hIy hvy.weaken
      (fun q hq => ⟨(hoy q hq).1, (hoy q hq).2.1⟩) s1 i1
    have w2' := w2 (fun q hq => by rw [w1']; exact (hoy q hq).2.2)
    have hw : ∀ q, (s2.obj q).visited = (s.obj q).visited := fun q => (w2' q).trans (w1' q)
    refine ⟨s2, L, R, ?_, hs.eval i2 (f1.trans f2) hw, f1.trans f2, hw, fun _ => r1, fun _ => r2⟩
    simp [revVals2, ho, e1, e2]
  · refine ⟨s, C, C, by simp [revVals2, ho], hs, EFrame.refl r s, fun _ => rfl,
      fun h => absurd h ho, fun h => absurd h ho⟩

theorem revVals1_spec (h : RevOk c X rank V D S own nd) {r : ℕ}
    {ev : ℕ → MSt K → Option (MSt K × Mat K)} (hev : ESpecO c rank V S r ev) (op : MUn K)
    {x : MNode K} (hdx : DimOk c.E x) (hIx : UsesInv x → c.B.InvSound)
    (hvx : Invertible True c.E c.sc.val V x)
    {s : MSt K} (hs : TInv c X rank V D S own nd r s)
    (hox : ∀ q ∈ x.objs, q ∈ S ∧ rank q < r ∧ (s.obj q).visited = true) (C : Mat K) :
    ∃ s' R, revVals1 c ev op x C s = some (s', R) ∧ TInv c X rank V D S own nd r s' ∧
      EFrame rank S r s s' ∧ (∀ q, (s'.obj q).visited = (s.obj q).visited) ∧
      (op.revEvals = true → Rep R (x.dims c.E).1 (x.dims c.E).2 (den c.E c.sc.val V x)) := by
  by_cases ho : op.revEvals = true
  · obtain ⟨s1, L, e1, i1, f1, _, w1, r1⟩ := evalE_spec h.B hev x hdx hIx hvx.weaken
      (fun q hq => ⟨(hox q hq).1, (hox q hq).2.1⟩) s hs.me
    have w1' := w1 (fun q hq => (hox q hq).2.2)
    exact ⟨s1, L, by simp [revVals1, ho, e1], hs.eval i1 f1 w1', f1, w1', fun _ => r1⟩
  · exact ⟨s, C, by simp [revVals1, ho], hs, EFrame.refl r s, fun _ => rfl, fun h => absurd h ho⟩

theorem travGain_bin (n : ℕ) (op : MBin) (x y : MNode K) (A : ℕ → ℕ → K) (i j : ℕ) :
    travGain c X V D (.bin n op x y) A i j = pair2 (op.odims (x.dims c.E) (y.dims c.E)).1
      (op.odims (x.dims c.E) (y.dims c.E)).2 A
      (fun l k => tan c.E c.sc.val (c.sd X) V D (.bin n op x y) l k i j) := rfl

theorem travGain_un (n : ℕ) (op : MUn K) (x : MNode K) (A : ℕ → ℕ → K) (i j : ℕ) :
    travGain c X V D (.un n op x) A i j =
      pair2 (op.odims (x.dims c.E)).1 (op.odims (x.dims c.E)).2 A
      (fun l k => tan c.E c.sc.val (c.sd X) V D (.un n op x) l k i j) := by
  rw [← dims_un c.E n op x]; rfl

theorem sub_spec {x : MNode K} (hnum : x.nums.Nodup) :
    ∀ m ∈ x.sub, m ∈ x.nums ∧ x.key ≠ .node m := by
  intro m hm
  cases x with
  | obj q => simp [MNode.sub] at hm
  | bin m' op' a' b' =>
    simp only [MNode.sub, List.mem_append] at hm
    simp only [MNode.nums, List.nodup_cons, List.mem_append] at hnum
    refine ⟨by simp only [MNode.nums, List.mem_cons, List.mem_append]; exact Or.inr hm, ?_⟩
    simp only [MNode.key, ne_eq, MKey.node.injEq]
    rintro rfl; exact hnum.1 hm
  | un m' op' a' =>
    simp only [MNode.sub] at hm
    simp only [MNode.nums, List.nodup_cons] at hnum
    refine ⟨by simp only [MNode.nums, List.mem_cons]; exact Or.inr hm, ?_⟩
    simp only [MNode.key, ne_eq, MKey.node.injEq]
    rintro rfl; exact hnum.1 hm

theorem regroup6 (a b d e f g : Prop) :
    ((((a ∨ b) ∨ (d ∨ e)) ∨ f) ∨ g) ↔ ((a ∨ b ∨ f) ∨ (d ∨ e ∨ g)) := by tauto

theorem allP2 (x y : MNode K) :
    (((((addP X x ∨ mergeP c X x) ∨ (addP X y ∨ mergeP c X y)) ∨ travP c X x) ∨ travP c X y)) ↔
      ∃ q ∈ x.objs ++ y.objs, MReach c.E q X := by
  rw [regroup6, allP, allP]
  simp only [List.mem_append]
  constructor
  · rintro (⟨q, hq, h⟩ | ⟨q, hq, h⟩)
    · exact ⟨q, Or.inl hq, h⟩
    · exact ⟨q, Or.inr hq, h⟩
  · rintro ⟨q, hq | hq, h⟩
    · exact Or.inl ⟨q, hq, h⟩
    · exact Or.inr ⟨q, hq, h⟩

/-- Second pass: an expression whose adjoint is in the cache adds, to the entry of `X`, its adjoint
paired with its derivative. -/
theorem trav_second (h : RevOk c X rank V D S own nd) {o r : ℕ} (hr : r ≤ rank o)
    {ev : ℕ → MSt K → Option (MSt K × Mat K)} (hev : ESpecO c rank V S r ev)
    {tr : ℕ → MSt K → Option (MSt K)} (e : MNode K) :
    DimOk c.E e → (UsesInv e → c.B.InvSound) → Invertible True c.E c.sc.val V e →
    NdOk c.E nd e → CoeffConst (c.sd X) (c.E.rows X) (c.E.cols X) e →
    ConvRev c.E c.sc.val (c.sd X) V D X e →
    e.nums.Nodup → (∀ n ∈ e.nums, own n = o) →
    ∀ (κ : MCache K) (A : ℕ → ℕ → K), CWF (keyDims c.E nd) κ → EntryOk c.E κ A e →
    (∀ n ∈ e.sub, ¬κ.has (.node n)) →
    ∀ s, TInv c X rank V D S own nd r s →
    (∀ q ∈ e.objs, q ∈ S ∧ rank q < r ∧ (s.obj q).visited = true) →
    ∃ κ' s', unlessSeen e κ s (travE c ev tr e κ s) = some (κ', s') ∧
      TInv c X rank V D S own nd r s' ∧ EFrame rank S r s s' ∧
      (∀ q, (s'.obj q).visited = (s.obj q).visited) ∧
      Grow c X rank own nd o (fun n => n ∈ e.sub) (travP c X e) (travGain c X V D e A) κ κ' := by
  induction e with
  | obj q =>
    intro _ _ _ _ _ _ _ _ κ A hκ _ _ s hs hobj
    refine ⟨κ, s, unlessSeen_obj (hobj q (by simp [MNode.objs])).2.2, hs, EFrame.refl r s,
      fun _ => rfl, ?_⟩
    exact (Grow.refl hκ).congr (fun _ h => h.elim) Iff.rfl (fun _ _ _ _ => rfl)
  | bin n op x y ihx ihy =>
    intro hdim hI hinv hnd hcf hcv hnum hown κ A hκ hent hsub s hs hobj
    obtain ⟨hdx, hdy, hd, hpad⟩ := hdim
    obtain ⟨hnx, hny, hnn⟩ := hnd
    obtain ⟨C, hfC, hC⟩ := hent
    change κ.find (.node n) = some C at hfC
    simp only [MNode.nums, List.nodup_cons, List.nodup_append, List.mem_append] at hnum
    obtain ⟨hn0, hnumx, hnumy, hdisj⟩ := hnum
    have hox : ∀ q ∈ x.objs, q ∈ S ∧ rank q < r ∧ (s.obj q).visited = true :=
      fun q hq => hobj q (by simp [MNode.objs, hq])
    have hoy : ∀ q ∈ y.objs, q ∈ S ∧ rank q < r ∧ (s.obj q).visited = true :=
      fun q hq => hobj q (by simp [MNode.objs, hq])
    have hwx : ∀ m ∈ x.nums, own m = o := fun m hm => hown m (by simp [MNode.nums, hm])
    have hwy : ∀ m ∈ y.nums, own m = o := fun m hm => hown m (by simp [MNode.nums, hm])
    have hax : ∀ m ∈ x.nums, ¬κ.has (.node m) := fun m hm => hsub m (by simp [MNode.sub, hm])
    have hay : ∀ m ∈ y.nums, ¬κ.has (.node m) := fun m hm => hsub m (by simp [MNode.sub, hm])
    have hdis : ∀ m ∈ x.nums, m ∉ y.nums := fun m hm hm' => hdisj m hm m hm' rfl
    -- first visits: nothing happens
    have t1 := trav_idle (c := c) (ev := ev) (tr := tr) x κ s hax (fun q hq => (hox q hq).2.2)
    have t2 := trav_idle (c := c) (ev := ev) (tr := tr) y κ s hay (fun q hq => (hoy q hq).2.2)
    -- operand values and adjoints
    obtain ⟨s1, L, R, e1, i1, f1, w1, rL, rR⟩ := revVals2_spec h hev op hdx hdy
      (fun hu => hI (Or.inl hu)) (fun hu => hI (Or.inr hu)) hinv.1 hinv.2 hs hox hoy C
    obtain ⟨a, mL, mR, aL, e2, l2, r2, r3, r4⟩ := MBin.rev_spec h.B op (i1.me.live n) hd hpad hcv.2.2 rL rR hC
    have i2 := i1.setN n l2
    have hv2 : ∀ q, ((s1.setN n a).obj q).visited = (s.obj q).visited := w1
    obtain ⟨κ1, e3, g1, ex, ey⟩ := push2_spec h hr i2
      (fun q hq => by rw [hv2]; exact hox q hq) (fun q hq => by rw [hv2]; exact hoy q hq)
      hnx hny hwx hwy hdis hκ hax hay r2 r3
    -- second visits
    have hxs := sub_spec hnumx
    have hys := sub_spec hnumy
    have hsx : ∀ m ∈ x.sub, ¬κ1.has (.node m) := by
      intro m hm
      obtain ⟨h1, h2⟩ := hxs m hm
      rw [MCache.has, g1.keep m (hwx m h1)]
      · exact hax m h1
      · rintro (h3 | h3)
        · exact h2 h3
        · exact hdis m h1 (key_mem_nums h3)
    have hsy : ∀ m ∈ y.sub, ¬κ1.has (.node m) := by
      intro m hm
      obtain ⟨h1, h2⟩ := hys m hm
      rw [MCache.has, g1.keep m (hwy m h1)]
      · exact hay m h1
      · rintro (h3 | h3)
        · exact hdis m (key_mem_nums h3) h1
        · exact h2 h3
    obtain ⟨κ2, s3, e4, i3, f3, w3, g2⟩ := ihx hdx (fun hu => hI (Or.inl hu)) hinv.1 hnx hcf.1
      hcv.1 hnumx hwx κ1 _ g1.wf ex hsx _ i2 (fun q hq => by rw [hv2]; exact hox q hq)
    have hv3 : ∀ q, (s3.obj q).visited = (s.obj q).visited := fun q => (w3 q).trans (hv2 q)
    have hxsub : ∀ m ∈ y.nums, m ∉ x.sub := fun m hm hm' => hdis m (hxs m hm').1 hm
    have ey2 := ey.of (κ' := κ2) (fun m hm =>
      g2.keep m (hwy m (key_mem_nums hm)) (hxsub m (key_mem_nums hm)))
    have hsy2 : ∀ m ∈ y.sub, ¬κ2.has (.node m) := by
      intro m hm
      obtain ⟨h1, h2⟩ := hys m hm
      rw [MCache.has, g2.keep m (hwy m h1) (hxsub m h1)]
      exact hsy m hm
    obtain ⟨κ3, s4, e5, i4, f4, w4, g3⟩ := ihy hdy (fun hu => hI (Or.inr hu)) hinv.2 hny hcf.2
      hcv.2.1 hnumy hwy κ2 _ g2.wf ey2 hsy2 s3 i3 (fun q hq => by rw [hv3]; exact hoy q hq)
    refine ⟨κ3, s4, ?_, i4, ((f1.setN n a).trans f3).trans f4, fun q => (w4 q).trans (hv3 q),
      ((g1.trans g2).trans g3).congr ?_ ?_ ?_⟩
    · simp only [unlessSeen_bin, unlessSeen_un, travE, hfC,
        Option.bind_eq_bind]
      rw [t1]; simp only [Option.bind_some]
      rw [t2]; simp only [Option.bind_some]
      rw [e1]; simp only [Option.bind_some]
      rw [e2]; simp only [Option.bind_some]
      rw [e3]; simp only [Option.bind_some]
      rw [e4]; simp only [Option.bind_some]
      rw [e5]
    · intro m hm
      simp only [MNode.sub, List.mem_append]
      rcases hm with ((hm | hm) | hm) | hm
      · exact Or.inl (key_mem_nums hm)
      · exact Or.inr (key_mem_nums hm)
      · exact Or.inl (hxs m hm).1
      · exact Or.inr (hys m hm).1
    · exact allP2 x y
    · intro i j hi hj
      have gx := h.gain x (fun q hq => (hox q hq).1) aL hi hj
      have gy := h.gain y (fun q hq => (hoy q hq).1)
        (op.adjR (den c.E c.sc.val V x) (den c.E c.sc.val V y) A (x.dims c.E) (y.dims c.E)) hi hj
      have hp := MBin.pairing op hd (den c.E c.sc.val V x) (den c.E c.sc.val V y) A
        (tan c.E c.sc.val (c.sd X) V D x) (tan c.E c.sc.val (c.sd X) V D y) i j
      have hx : pair2 (x.dims c.E).1 (x.dims c.E).2 aL
          (fun l k => tan c.E c.sc.val (c.sd X) V D x l k i j) =
          pair2 (x.dims c.E).1 (x.dims c.E).2
            (op.adjL (den c.E c.sc.val V x) (den c.E c.sc.val V y) A (x.dims c.E) (y.dims c.E))
            (fun l k => tan c.E c.sc.val (c.sd X) V D x l k i j) := by
        rcases r4 with hz | ha
        · rw [pair2_zeroR fun l k hl hk => hz l k i j hl hk hi hj,
            pair2_zeroR fun l k hl hk => hz l k i j hl hk hi hj]
        · exact pair2_congrL ha
      rw [travGain_bin]; simp only [tan_bin, pushGain]
      rw [hp, ← hx, ← gx, ← gy]; ring
  | un n op x ih =>
    intro hdim hI hinv hnd hcf hcv hnum hown κ A hκ hent hsub s hs hobj
    obtain ⟨hdx, hd⟩ := hdim
    obtain ⟨hnx, hnn⟩ := hnd
    obtain ⟨C, hfC, hC⟩ := hent
    change κ.find (.node n) = some C at hfC
    simp only [MNode.nums, List.nodup_cons] at hnum
    obtain ⟨hn0, hnumx⟩ := hnum
    have hox : ∀ q ∈ x.objs, q ∈ S ∧ rank q < r ∧ (s.obj q).visited = true :=
      fun q hq => hobj q (by simpa [MNode.objs] using hq)
    have hwx : ∀ m ∈ x.nums, own m = o := fun m hm => hown m (by simp [MNode.nums, hm])
    have hax : ∀ m ∈ x.nums, ¬κ.has (.node m) := fun m hm => hsub m (by simp [MNode.sub, hm])
    have hIx : UsesInv x → c.B.InvSound := fun hu => hI (by cases op <;> simp [UsesInv, hu])
    have hvx : Invertible True c.E c.sc.val V x := by
      cases op <;> first | exact hinv | exact hinv.1
    have t1 := trav_idle (c := c) (ev := ev) (tr := tr) x κ s hax (fun q hq => (hox q hq).2.2)
    obtain ⟨s1, R, e1, i1, f1, w1, rR⟩ := revVals1_spec h hev op hdx hIx hvx hs hox C
    rw [dims_un] at hC
    obtain ⟨a, m, e2, l2, r2⟩ := MUn.rev_spec h.B op
      (fun hu => hI (by cases op <;> simp_all [UsesInv, MUn.isInv])) (i1.me.live n) hd rR hC
      (by
        intro hu
        cases op with
        | inv => exact hinv.2
        | det => exact hinv.2 trivial
        | _ => exact hu.elim)
    have i2 := i1.setN n l2
    have hv2 : ∀ q, ((s1.setN n a).obj q).visited = (s.obj q).visited := w1
    obtain ⟨κ1, e3, g1, ex⟩ := push1_spec h hr i2
      (fun q hq => by rw [hv2]; exact hox q hq) hnx hwx hκ hax r2
    have hxs := sub_spec hnumx
    have hsx : ∀ m ∈ x.sub, ¬κ1.has (.node m) := by
      intro m hm
      obtain ⟨h1, h2⟩ := hxs m hm
      rw [MCache.has, g1.keep m (hwx m h1) h2]
      exact hax m h1
    obtain ⟨κ2, s3, e4, i3, f3, w3, g2⟩ := ih hdx hIx hvx hnx hcf.1
      hcv hnumx hwx κ1 _ g1.wf ex hsx _ i2 (fun q hq => by rw [hv2]; exact hox q hq)
    refine ⟨κ2, s3, ?_, i3, (f1.setN n a).trans f3, fun q => (w3 q).trans (hv2 q),
      (g1.trans g2).congr ?_ ?_ ?_⟩
    · simp only [unlessSeen_bin, unlessSeen_un, travE, hfC,
        Option.bind_eq_bind]
      rw [t1]; simp only [Option.bind_some]
      rw [e1]; simp only [Option.bind_some]
      rw [e2]; simp only [Option.bind_some]
      rw [e3]; simp only [Option.bind_some]
      rw [e4]
    · intro m hm
      simp only [MNode.sub]
      rcases hm with hm | hm
      · exact key_mem_nums hm
      · exact (hxs m hm).1
    · change _ ↔ ∃ q ∈ x.objs, MReach c.E q X
      rw [← allP, or_assoc]
    · intro i j hi hj
      have gx := h.gain x (fun q hq => (hox q hq).1)
        (op.adj c.sc.val (x.dims c.E) (den c.E c.sc.val V x) A) hi hj
      have hp := MUn.pairing op c.sc.val (c.sd X) hd (den c.E c.sc.val V x) A
        (tan c.E c.sc.val (c.sd X) V D x) (hcf.2 i j hi hj)
      rw [travGain_un]; simp only [tan_un, pushGain]
      rw [hp, ← gx]

end

end CoolDiff
