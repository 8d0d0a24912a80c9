import Verif.Apps.AccSpec
import Verif.Apps.NNProof
import Verif.Props.MatrixExpr

/-!
# Accuracy and training statistics: proofs
-/

set_option linter.unusedSectionVars false

namespace CoolDiff

variable {K : Type} [Field K] [DecidableEq K]

/-! ## `std::max_element` -/

section
variable [LinearOrder K]

theorem maxElement_spec {g : ℕ → Option K} {x : ℕ → K} : ∀ {n : ℕ}, 0 < n → (∀ k < n, g k = some (x k)) →
    ∃ p, maxElement g n = some p ∧ FirstMax x n p := by
  intro n
  induction n with
  | zero => intro h; exact absurd h (by omega)
  | succ n ih =>
    intro _ hg
    rcases Nat.eq_zero_or_pos n with rfl | hn
    · refine ⟨0, rfl, by omega, fun q hq => ?_, fun q hq => absurd hq (by omega)⟩
      obtain rfl : q = 0 := by omega
      exact lt_irrefl _
    · obtain ⟨p, e, h1, h2, h3⟩ := ih hn fun k hk => hg k (by omega)
      obtain ⟨m, rfl⟩ : ∃ m, n = m + 1 := ⟨n - 1, by omega⟩
      have e' : (List.range m).foldlM (fun best i => (g best).bind fun a => (g (i + 1)).map fun b =>
          if a < b then i + 1 else best) 0 = some p := e
      refine ⟨if x p < x (m + 1) then m + 1 else p, ?_, ?_⟩
      · show (List.range (m + 1)).foldlM _ 0 = _
        rw [List.range_succ, List.foldlM_append, e']
        simp only [Option.bind_eq_bind, Option.bind_some, List.foldlM_cons, List.foldlM_nil, hg p (by omega), hg (m + 1) (by omega),
          Option.map_some]
        rfl
      · by_cases h : x p < x (m + 1)
        · rw [if_pos h]
          refine ⟨by omega, fun q hq hlt => ?_, fun q hq => ?_⟩
          · rcases Nat.lt_succ_iff_lt_or_eq.1 hq with hq | rfl
            · exact h2 q hq (h.trans hlt)
            · exact lt_irrefl _ hlt
          · exact lt_of_le_of_lt (not_lt.1 (h2 q hq)) h
        · rw [if_neg h]
          refine ⟨by omega, fun q hq => ?_, h3⟩
          rcases Nat.lt_succ_iff_lt_or_eq.1 hq with hq | rfl
          · exact h2 q hq
          · exact h

theorem FirstMax.unique {x : ℕ → K} {n p q : ℕ} (h : FirstMax x n p) (h' : FirstMax x n q) : p = q := by
  rcases Nat.lt_trichotomy p q with hlt | rfl | hlt
  · exact absurd (h'.first p hlt) (h.largest q h'.lt)
  · rfl
  · exact absurd (h.first q hlt) (h'.largest p h.lt)

theorem rowClass_spec {m : Mat K} {r n : ℕ} {A : ℕ → ℕ → K} (h : Rep m r n A) (hn : 0 < n) {j : ℕ} (hj : j < r) :
    ∃ p, rowClass m j n = some p ∧ FirstMax (A j) n p := by
  obtain ⟨p, e, hp⟩ := maxElement_spec (g := fun k => m.raw? (j * m.cols + k)) (x := A j) hn fun k hk => by
    show m.raw? (j * m.cols + k) = _
    rw [h.cols]; exact h.raw hj hk
  exact ⟨p, by rw [rowClass, if_pos (by rw [h.rows]; exact hj)]; exact e, hp⟩

open Classical in
theorem hits_spec {Yh Y : Mat K} {b n : ℕ} {A B : ℕ → ℕ → K} (h : Rep Yh b n A) (h' : Rep Y b n B) (hn : 0 < n) (count : ℕ) :
    hits b n Yh Y count =
      some (count + ((Finset.range b).filter fun i => ∃ p, FirstMax (A i) n p ∧ FirstMax (B i) n p).card) := by
  have key : ∀ k ≤ b, (List.range k).foldlM (fun count j => (rowClass Yh j n).bind fun a => (rowClass Y j n).map fun b =>
      if a = b then count + 1 else count) count =
      some (count + ((Finset.range k).filter fun i => ∃ p, FirstMax (A i) n p ∧ FirstMax (B i) n p).card) := by
    intro k
    induction k with
    | zero => intro _; rfl
    | succ k ih =>
      intro hk
      obtain ⟨p, e1, f1⟩ := rowClass_spec h hn (j := k) (by omega)
      obtain ⟨q, e2, f2⟩ := rowClass_spec h' hn (j := k) (by omega)
      rw [List.range_succ, List.foldlM_append, ih (by omega), Finset.range_add_one, Finset.filter_insert]
      simp only [Option.bind_eq_bind, Option.bind_some, List.foldlM_cons, List.foldlM_nil, e1, e2, Option.map_some]
      by_cases hpq : p = q
      · subst hpq
        rw [if_pos rfl, if_pos ⟨p, f1, f2⟩, Finset.card_insert_of_notMem (by simp)]
        rfl
      · rw [if_neg hpq, if_neg]
        · rfl
        · rintro ⟨r, g1, g2⟩
          exact hpq ((f1.unique g1).trans (g2.unique f2))
  exact key b le_rfl

end

/-! ## The loop -/

theorem accLoop_eq {α : Type} {scan batch : ℕ} (hb : 0 < batch) (body : ℕ → α → Option α) (s : α) :
    accLoop scan batch body (scan + batch + 1) 0 s =
      (List.range ((scan + batch - 1) / batch)).foldlM (fun s t => body (t * batch) s) s := by
  have hT : ∀ k, k * batch < scan ↔ k < (scan + batch - 1) / batch := by
    intro k
    rw [Nat.lt_iff_add_one_le (m := k), Nat.le_div_iff_mul_le hb, Nat.succ_mul]
    omega
  have key : ∀ (n k fuel : ℕ) (s : α), k + n = (scan + batch - 1) / batch → n < fuel →
      accLoop scan batch body fuel (k * batch) s = (List.range' k n).foldlM (fun s t => body (t * batch) s) s := by
    intro n
    induction n with
    | zero =>
      intro k fuel s hk hf
      obtain ⟨fuel, rfl⟩ : ∃ m, fuel = m + 1 := ⟨fuel - 1, by omega⟩
      have hk' : ¬k * batch < scan := fun h => by have := (hT k).1 h; omega
      rw [accLoop, if_neg hk']; rfl
    | succ n ih =>
      intro k fuel s hk hf
      obtain ⟨fuel, rfl⟩ : ∃ m, fuel = m + 1 := ⟨fuel - 1, by omega⟩
      have hk' : k * batch < scan := (hT k).2 (by omega)
      rw [accLoop, if_pos hk', List.range'_succ, List.foldlM_cons]
      show Option.bind _ _ = Option.bind _ _
      congr 1
      funext s'
      rw [show k * batch + batch = (k + 1) * batch from (Nat.succ_mul ..).symm]
      exact ih (k + 1) fuel s' (by omega) (by omega)
  have := key ((scan + batch - 1) / batch) 0 (scan + batch + 1) s (by omega) (by
    have := Nat.div_le_self (scan + batch - 1) batch; omega)
  rw [Nat.zero_mul, ← List.range_eq_range'] at this
  exact this

/-! ## Accuracy -/

/-- What `accuracy` needs: the final layer can be evaluated and has one row per sample and one column per label; the
matrices that are written are distinct `Matrix<Type>` objects with elements of their own; the data fit. -/
structure AccOk (c : MCtx K) (rank : ℕ → ℕ) (N : NNet K) (out : MNode K) (Xd Yd : Mat K) : Prop where
  wf : c.E.WF rank
  query : ∀ v, EyesOk c.E v → QueryOkE (c.at v) rank False out
  dims : out.dims c.E = (N.batch, Yd.cols)
  nodes : UniqueNodes c.E Set.univ
  nodup : N.mats.Nodup
  num : ∀ o ∈ N.mats, c.E.kind o = .num
  eyes : ∀ p n e eye, c.E.kind p = .form n e eye → eye ∉ N.mats
  own : ∀ o ∈ N.mats, ∀ q, InUse c.E N.mats q → ¬c.E.isForm q → ∀ l k i j, l < c.E.rows q → k < c.E.cols q → i < c.E.rows o →
    j < c.E.cols o → c.E.el q l k = c.E.el o i j → q = o ∧ l = i ∧ k = j
  bpos : 0 < N.batch
  xrows : c.E.rows N.x = N.batch
  yrows : c.E.rows N.y = N.batch
  xdata : Xd.WF
  ydata : Yd.WF
  xcols : Xd.cols = c.E.cols N.x
  ycols : Yd.cols = c.E.cols N.y
  rows : Xd.rows = Yd.rows

section
variable {c : MCtx K} {rank : ℕ → ℕ} {N : NNet K} {out : MNode K} {Xd Yd : Mat K}

theorem AccOk.nums (H : AccOk c rank N out Xd Yd) : Nums c.E N.params := fun _ h => H.num _ (N.params_sub h)

theorem AccOk.notForm (H : AccOk c rank N out Xd Yd) {o : ℕ} (ho : o ∈ N.mats) : ¬c.E.isForm o := by
  rintro ⟨n, e, eye, hk⟩; rw [H.num o ho] at hk; cases hk

theorem NNet.drops_sub {d : K × ℕ} (h : d ∈ N.drops) : d.2 ∈ N.mats := by
  simp only [NNet.mats, List.mem_cons, List.mem_append, List.mem_map]
  exact Or.inr (Or.inr (Or.inl ⟨d, h, rfl⟩))

theorem AccOk.eyes_keep (H : AccOk c rank N out Xd Yd) {v w : ℕ → K} (he : EyesOk c.E v) (h : SameNet c.E N v w) :
    EyesOk c.E w := by
  intro o n e eye hk i j hi hj
  have hnf : ¬c.E.isForm eye := by
    rintro ⟨n', e', eye', h'⟩
    rw [(H.wf.form o n e eye hk).1] at h'; cases h'
  have key : ∀ q ∈ N.mats, ¬IsEl c.E q (c.E.el eye i j) := by
    rintro q hq ⟨l, k, hl, hk', hel⟩
    obtain ⟨rfl, _⟩ := H.own q hq eye (.eye hk) hnf i j l k hi hj hl hk' hel
    exact H.eyes o n e _ hk hq
  rw [h _ (key _ (by simp [NNet.mats])) (key _ (by simp [NNet.mats])) fun d hd => key _ (N.drops_sub hd),
    he o n e eye hk i j hi hj]

theorem dropOnes_eq (E : MEnv K) (v : ℕ → K) (D : List (K × ℕ)) :
    dropOnes E D v = dropout E (fun _ _ => 1) (D.map fun d => (1, d.2)) v := by
  rw [dropOnes, dropout, List.foldlM_map]
  simp

/-- The dropout matrices are filled with ones. -/
theorem AccOk.ones (H : AccOk c rank N out Xd Yd) (v : ℕ → K) :
    ∃ w, dropOnes c.E N.drops v = some w ∧
      (∀ d ∈ N.drops, ∀ i k, i < c.E.rows d.2 → k < c.E.cols d.2 → w (c.E.el d.2 i k) = 1) ∧
      ∀ a, (∀ d ∈ N.drops, ¬IsEl c.E d.2 a) → w a = v a := by
  have hnd := H.nodup
  simp only [NNet.mats, List.nodup_cons, List.nodup_append] at hnd
  obtain ⟨w, e, a, b⟩ := dropout_spec (E := c.E) (fun _ _ => (1 : K)) (N.drops.map fun d => (1, d.2))
    (by rw [List.map_map]; exact hnd.2.2.1) (fun d _ => H.wf.cpos d.2)
    (by
      intro d hd d' hd' l k i j
      obtain ⟨d, h, rfl⟩ := List.mem_map.1 hd
      obtain ⟨d', h', rfl⟩ := List.mem_map.1 hd'
      exact H.own d'.2 (N.drops_sub h') d.2 (Or.inl (N.drops_sub h)) (H.notForm (N.drops_sub h)) l k i j) v
  refine ⟨w, by rw [dropOnes_eq]; exact e, fun d hd i k hi hk => ?_, fun x hx => b x fun d hd => ?_⟩
  · have := a (1, d.2) (List.mem_map.2 ⟨d, hd, rfl⟩) i k hi hk
    rw [this]; simp
  · obtain ⟨d', hd', rfl⟩ := List.mem_map.1 hd
    exact hx d' hd'

/-- Between two batches of `accuracy`. -/
structure AccInv (c : MCtx K) (rank : ℕ → ℕ) (N : NNet K) (out : MNode K) (v : ℕ → K) (s : NNSt K) (U : ℕ → Prop) : Prop where
  hist : PHist (c.E.wrt N.params) rank s.p U
  gaps : NoGapsE c.E U out
  drop : ∀ d ∈ N.drops, ∀ i k, i < c.E.rows d.2 → k < c.E.cols d.2 → s.val (c.E.el d.2 i k) = 1
  same : SameNet c.E N v s.val

theorem AccOk.show (H : AccOk c rank N out Xd Yd) {j : ℕ} (hj : j + N.batch ≤ Yd.rows) {v u : ℕ → K}
    (hd : ∀ d ∈ N.drops, ∀ i k, i < c.E.rows d.2 → k < c.E.cols d.2 → u (c.E.el d.2 i k) = 1)
    (hs : SameNet c.E N v u) :
    ∃ v2 w, setRows c.E N.x Xd j u = some v2 ∧ setRows c.E N.y Yd j v2 = some w ∧ Shown c.E N Xd Yd j v w := by
  have hnd := H.nodup
  simp only [NNet.mats, List.nodup_cons, List.mem_cons, List.mem_append, not_or] at hnd
  obtain ⟨⟨hxy, hxd, hxp⟩, ⟨hyd, hyp⟩, _⟩ := hnd
  have hmx : N.x ∈ N.mats := by simp [NNet.mats]
  have hmy : N.y ∈ N.mats := by simp [NNet.mats]
  have own := fun {o q} (ho : o ∈ N.mats) (hq : q ∈ N.mats) => H.own o ho q (Or.inl hq) (H.notForm hq)
  obtain ⟨v2, e2, a2, b2⟩ := setRows_spec (E := c.E) (o := N.x) (H.wf.rpos _) (H.wf.cpos _)
    (fun l k i j h1 h2 h3 h4 h => (own hmx hmx l k i j h1 h2 h3 h4 h).2) H.xdata H.xcols
    (by rw [H.xrows, H.rows]; exact hj) u
  obtain ⟨w, e3, a3, b3⟩ := setRows_spec (E := c.E) (o := N.y) (H.wf.rpos _) (H.wf.cpos _)
    (fun l k i j h1 h2 h3 h4 h => (own hmy hmy l k i j h1 h2 h3 h4 h).2) H.ydata H.ycols
    (by rw [H.yrows]; exact hj) v2
  have nel : ∀ {o q}, o ∈ N.mats → q ∈ N.mats → q ≠ o → ∀ {l k}, l < c.E.rows q → k < c.E.cols q →
      ¬IsEl c.E o (c.E.el q l k) := by
    rintro o q ho hq hne l k hl hk ⟨i, j, hi, hj, he⟩
    exact hne (own ho hq l k i j hl hk hi hj he).1
  refine ⟨v2, w, e2, e3, ⟨fun i k hi hk => ?_, a3, fun d hd' i k hi hk => ?_, fun a h1 h2 h3 => ?_⟩⟩
  · rw [b3 _ (nel hmy hmx hxy hi hk)]; exact a2 i k hi hk
  · have h1 : d.2 ≠ N.x := fun h => hxd (List.mem_map.2 ⟨d, hd', h⟩)
    have h2 : d.2 ≠ N.y := fun h => hyd (List.mem_map.2 ⟨d, hd', h⟩)
    rw [b3 _ (nel hmy (N.drops_sub hd') h2 hi hk), b2 _ (nel hmx (N.drops_sub hd') h1 hi hk)]
    exact hd d hd' i k hi hk
  · rw [b3 a h2, b2 a h1, hs a h1 h2 h3]

theorem Shown.same {E : MEnv K} {j : ℕ} {v w : ℕ → K} (h : Shown E N Xd Yd j v w) : SameNet E N v w := h.rest

variable [LinearOrder K]

/-- One batch. -/
theorem accBatch_core (H : AccOk c rank N out Xd Yd) {f : ℕ} (hf : ∀ q ∈ out.objs, rank q < f) {j : ℕ}
    (hj : j + N.batch ≤ Yd.rows) {v : ℕ → K} (he : EyesOk c.E v) {s : NNSt K} {own kk : ℕ → ℕ}
    (hd : ∀ d ∈ N.drops, ∀ i k, i < c.E.rows d.2 → k < c.E.cols d.2 → s.val (c.E.el d.2 i k) = 1)
    (hs : SameNet c.E N v s.val) (hr : Rest (c.E.wrt N.params) s.p.val) (hp : PRest (c.E.wrt N.params) own kk s.p)
    (hg' : NoGapsE (c.E.wrt N.params) (fun q => (s.p.base.obj q).visited = true) out) (count : ℕ) :
    ∃ s' m, accBatch c f N out Xd Yd j (s, count) = some (s', count + rights c.E rank out N.batch Yd s'.val j) ∧
      pEvalE (c.at s'.val) f out s.p = some (s'.p, m) ∧ EyesOk c.E s'.val ∧
      Rest (c.E.wrt N.params) s'.p.val ∧ PRest (c.E.wrt N.params) own kk s'.p ∧
      Shown c.E N Xd Yd j v s'.val ∧ s'.grad = s.grad := by
  have hT := H.nums
  obtain ⟨v2, w, e2, e3, hsh⟩ := H.show hj hd hs
  have hew : EyesOk c.E w := H.eyes_keep he hsh.same
  have hq := H.query w hew
  have heT : ∀ o n e eye, c.E.kind o = .form n e eye → eye ∉ N.params :=
    fun o n e eye hk hm => H.eyes o n e eye hk (N.params_sub hm)
  have hq' := QueryOkE.wrt (c := c.at w) hT hq heT
  obtain ⟨p', m, a1, a2, a3⟩ := pEvalE_spec (c := (c.at w).wrt N.params) hq' hf hr hg' hp
  have a1' : pEvalE (c.at w) f out s.p = some (p', m) := (pEvalE_wrt (c := c.at w) hT f out s.p).symm.trans a1
  obtain ⟨s1, m1, b1, rep, r1, _⟩ := matEvalE_spec (c := (c.at w).wrt N.params) hq'.wf hq'.sound hq'.forms
    (valOf_solves _ _ hq'.wf hq'.eyes _) hq'.dims hq'.inv hq'.invertible hr hf hg'
  obtain ⟨hp', rfl⟩ := Prod.mk.inj (Option.some.inj (a2.symm.trans b1))
  rw [← hp'] at r1
  have rep' : Rep m N.batch Yd.cols (den c.E w (valOf c.E w rank) out) := by
    have hd := H.dims
    rw [show ((c.at w).wrt N.params).E = c.E.wrt N.params from rfl, MEnv.wrt_dims, den_wrt, hd] at rep
    have hv : MVal ((c.at w).wrt N.params) rank = valOf c.E w rank := valOf_wrt hT w rank
    rw [hv] at rep
    exact rep
  have repY : Rep (numsOf c.E N.y w) N.batch Yd.cols fun i k => Yd.val (j + i) k := by
    have := numsOf_rep (E := c.E) (o := N.y) (H.wf.rpos _) (H.wf.cpos _) w
    rw [H.yrows, ← H.ycols] at this
    refine this.congr fun i k hi hk => ?_
    have h1 := hsh.y i k (by rw [H.yrows]; exact hi) (by rw [← H.ycols]; exact hk)
    have h2 := H.ydata.rep.elem (j + i) k (by omega) hk
    exact Option.some.inj (h1.symm.trans h2)
  have hh := hits_spec rep' repY H.ydata.cpos count
  refine ⟨{ s with p := p', val := w }, m, ?_, a1', hew, r1, a3, hsh, rfl⟩
  simp only [accBatch, e2, e3, a1', hh, Option.bind_eq_bind, Option.bind_some]
  rfl

theorem accBatch_spec (H : AccOk c rank N out Xd Yd) {f : ℕ} (hf : ∀ q ∈ out.objs, rank q < f) {j : ℕ}
    (hj : j + N.batch ≤ Yd.rows) {v : ℕ → K} (he : EyesOk c.E v) {s : NNSt K} {U : ℕ → Prop}
    (hs : AccInv c rank N out v s U) (count : ℕ) :
    ∃ s', accBatch c f N out Xd Yd j (s, count) = some (s', count + rights c.E rank out N.batch Yd s'.val j) ∧
      AccInv c rank N out v s' (fun q => U q ∨ EReach c.E out q) ∧ Shown c.E N Xd Yd j v s'.val ∧ s'.grad = s.grad := by
  have hT := H.nums
  have heT : ∀ o n e eye, c.E.kind o = .form n e eye → eye ∉ N.params :=
    fun o n e eye hk hm => H.eyes o n e eye hk (N.params_sub hm)
  have hu : UniqueNodes (c.E.wrt N.params) Set.univ :=
    ⟨fun q _ n e eye hk => H.nodes.nodup q trivial n e eye ((c.E.wrt_form hT).1 hk),
      fun q _ p _ n e eye n' e' eye' hk hk' => H.nodes.disj q trivial p trivial n e eye n' e' eye'
        ((c.E.wrt_form hT).1 hk) ((c.E.wrt_form hT).1 hk')⟩
  obtain ⟨own, nd, kk, ck, hst, hn⟩ := Static.exists (QueryOkE.wrt (c := c.at v) hT (H.query v he) heT).wf hu
  obtain ⟨i1, i2⟩ := hs.hist.all hst hn
  obtain ⟨hr, hU, _⟩ := i1.all
  have hU' : ∀ q, (s.p.base.obj q).visited = true ↔ U q := hU
  have hg := hs.gaps.wrt hT
  have hg' : NoGapsE (c.E.wrt N.params) (fun q => (s.p.base.obj q).visited = true) out :=
    fun q n e' eye q' h1 h2 h3 h4 => (hU' q).2 (hg q n e' eye q' h1 h2 h3 ((hU' q').1 h4))
  obtain ⟨s', m, e1, e2, e3, _, _, e4, e5⟩ := accBatch_core H hf hj he hs.drop hs.same hr i2 hg' count
  exact ⟨s', e1, ⟨PHist.evalE_wrt (c := c.at s'.val) hT hs.hist heT (H.query _ e3) hf hs.gaps e2,
    fun p n e' eye q h1 _ _ _ => Or.inr h1, e4.drop, e4.same⟩, e4, e5⟩

/-- `accuracy`, for any property `I` of the state that every batch keeps. -/
theorem nnAccuracy_loop (H : AccOk c rank N out Xd Yd) {f : ℕ} (hbd : N.batch ≤ Yd.rows) {s : NNSt K} {I : NNSt K → Prop}
    (hstep : ∀ j, j + N.batch ≤ Yd.rows → ∀ u : NNSt K, I u →
      (∀ d ∈ N.drops, ∀ i k, i < c.E.rows d.2 → k < c.E.cols d.2 → u.val (c.E.el d.2 i k) = 1) → SameNet c.E N s.val u.val →
      ∀ count, ∃ s', accBatch c f N out Xd Yd j (u, count) = some (s', count + rights c.E rank out N.batch Yd s'.val j) ∧
        I s' ∧ Shown c.E N Xd Yd j s.val s'.val ∧ s'.grad = u.grad)
    (hI : ∀ v, SameNet c.E N s.val v → I { s with val := v }) :
    ∃ s' a, nnAccuracy c f N out Xd Yd s = some (s', a) ∧ AccuracyIs c.E rank N out Xd Yd s.val a ∧
      SameNet c.E N s.val s'.val ∧ s'.grad = s.grad ∧ I s' := by
  obtain ⟨v1, e1, d1, r1⟩ := H.ones s.val
  have key : ∀ T, T ≤ (Yd.rows - 1) / N.batch → ∃ s', ∃ w : ℕ → ℕ → K,
      (List.range T).foldlM (fun s t => accBatch c f N out Xd Yd (t * N.batch) s) ({ s with val := v1 }, 0) =
        some (s', ∑ t ∈ Finset.range T, rights c.E rank out N.batch Yd (w t) (t * N.batch)) ∧
      I s' ∧ (∀ d ∈ N.drops, ∀ i k, i < c.E.rows d.2 → k < c.E.cols d.2 → s'.val (c.E.el d.2 i k) = 1) ∧
      SameNet c.E N s.val s'.val ∧ s'.grad = s.grad ∧
      ∀ t < T, Shown c.E N Xd Yd (t * N.batch) s.val (w t) := by
    intro T
    induction T with
    | zero =>
      intro _
      exact ⟨_, fun _ => s.val, rfl, hI _ fun a _ _ h => r1 a h, d1, fun a _ _ h => r1 a h, rfl, fun t ht => absurd ht (by omega)⟩
    | succ T ih =>
      intro hT
      obtain ⟨s1, w, e, i, hdr, hsm, hgr, hw⟩ := ih (by omega)
      have hT' : T * N.batch + N.batch ≤ Yd.rows := by
        have h1 : (T + 1) * N.batch ≤ Yd.rows - 1 := (Nat.le_div_iff_mul_le H.bpos).1 hT
        rw [Nat.succ_mul] at h1
        omega
      obtain ⟨s2, e2, i2, sh2, g2⟩ := hstep _ hT' s1 i hdr hsm
        (∑ t ∈ Finset.range T, rights c.E rank out N.batch Yd (w t) (t * N.batch))
      refine ⟨s2, fun t => if t = T then s2.val else w t, ?_, i2, sh2.drop, sh2.same, g2.trans hgr, fun t ht => ?_⟩
      · rw [List.range_succ, List.foldlM_append, e]
        simp only [Option.bind_eq_bind, Option.bind_some, List.foldlM_cons, List.foldlM_nil, e2, Finset.sum_range_succ, if_true]
        have : ∑ t ∈ Finset.range T, rights c.E rank out N.batch Yd (if t = T then s2.val else w t) (t * N.batch) =
            ∑ t ∈ Finset.range T, rights c.E rank out N.batch Yd (w t) (t * N.batch) :=
          Finset.sum_congr rfl fun t ht => by rw [if_neg (Finset.mem_range.1 ht).ne]
        rw [this]; rfl
      · by_cases h : t = T
        · subst h; simpa using sh2
        · simpa [h] using hw t (by omega)
  obtain ⟨s', w, e, i, _, hsm, hgr, hw⟩ := key _ le_rfl
  have hl := accLoop_eq (scan := Xd.rows - N.batch) H.bpos (accBatch c f N out Xd Yd) ({ s with val := v1 }, 0)
  rw [H.rows] at hl
  rw [show Yd.rows - N.batch + N.batch - 1 = Yd.rows - 1 by omega, show Yd.rows - N.batch + N.batch + 1 = Yd.rows + 1 by omega, e] at hl
  refine ⟨s', _, ?_, ⟨w, hw, rfl⟩, hsm, hgr, i⟩
  simp only [nnAccuracy, e1, Option.bind_eq_bind, Option.bind_some, H.rows, if_neg (not_lt.2 hbd), hl]

/-- `accuracy`. -/
theorem nnAccuracy_spec (H : AccOk c rank N out Xd Yd) {f : ℕ} (hf : ∀ q ∈ out.objs, rank q < f)
    (hbd : N.batch ≤ Yd.rows) {s : NNSt K} {U : ℕ → Prop} (hh : PHist (c.E.wrt N.params) rank s.p U)
    (hg : NoGapsE c.E U out) (he : EyesOk c.E s.val) :
    ∃ s' a U', nnAccuracy c f N out Xd Yd s = some (s', a) ∧ AccuracyIs c.E rank N out Xd Yd s.val a ∧
      SameNet c.E N s.val s'.val ∧ s'.grad = s.grad ∧ PHist (c.E.wrt N.params) rank s'.p U' ∧ EyesOk c.E s'.val ∧
      (∀ q, U q → U' q) ∧ NoGapsE c.E U' out := by
  obtain ⟨s', a, e1, e2, e3, e4, U', e5, e6, e7⟩ := nnAccuracy_loop H (f := f) hbd (s := s)
    (I := fun u => ∃ U', PHist (c.E.wrt N.params) rank u.p U' ∧ (∀ q, U q → U' q) ∧ NoGapsE c.E U' out)
    (fun j hj u ⟨U', a1, a2, a3⟩ hd hs count => by
      obtain ⟨s', b1, b2, b3, b4⟩ := accBatch_spec H hf hj he (s := u) (U := U') ⟨a1, a3, hd, hs⟩ count
      exact ⟨s', b1, ⟨_, b2.hist, fun q hq => Or.inl (a2 q hq), b2.gaps⟩, b3, b4⟩)
    (fun v _ => ⟨U, hh, fun _ h => h, hg⟩)
  exact ⟨s', a, U', e1, e2, e3, e4, e5, H.eyes_keep he e3, e6, e7⟩

/-- `accuracy` of an expression of matrices without formulas. -/
theorem nnAccuracy_leaves (H : AccOk c rank N out Xd Yd) {f : ℕ} (hf : ∀ q ∈ out.objs, rank q < f)
    (hbd : N.batch ≤ Yd.rows) {s : NNSt K} {own kk : ℕ → ℕ} (hl : ∀ q ∈ out.objs, ¬c.E.isForm q)
    (hr : Rest (c.E.wrt N.params) s.p.val) (hp : PRest (c.E.wrt N.params) own kk s.p) (he : EyesOk c.E s.val) :
    ∃ s' a, nnAccuracy c f N out Xd Yd s = some (s', a) ∧ AccuracyIs c.E rank N out Xd Yd s.val a ∧
      SameNet c.E N s.val s'.val := by
  obtain ⟨s', a, e1, e2, e3, _⟩ := nnAccuracy_loop H (f := f) hbd (s := s)
    (I := fun u => Rest (c.E.wrt N.params) u.p.val ∧ PRest (c.E.wrt N.params) own kk u.p)
    (fun j hj u ⟨a1, a2⟩ hd hs count => by
      obtain ⟨s', m, b1, _, _, b2, b3, b4, b5⟩ := accBatch_core H hf hj he hd hs a1 a2
        ((NoGapsE.leaves hl).wrt H.nums) count
      exact ⟨s', b1, ⟨b2, b3⟩, b4, b5⟩)
    (fun v _ => ⟨hr, hp⟩)
  exact ⟨s', a, e1, e2, e3⟩

end

/-! ## Training with statistics -/

section
variable {c : MCtx K} {rank : ℕ → ℕ} {N : NNet K} {out : MNode K} {Xd Yd : Mat K}

/-- `Eval(err)` after `PreComp(err)`. -/
theorem nn_eval (H : NNOk c rank N Xd Yd) {f : ℕ} (hf : rank N.err < f) {p : PSt K} {U : ℕ → Prop}
    (hh : PHist (c.E.wrt N.params) rank p U) (hU : U N.err) {w : ℕ → K} (he : EyesOk c.E w) :
    ∃ p' m, pEval (c.at w) f N.err p = some (p', m) ∧ m.raw? 0 = some (valOf c.E w rank N.err 0 0) ∧
      PHist (c.E.wrt N.params) rank p' (fun q => U q ∨ MReach c.E N.err q) := by
  have hT := H.nums
  have heT : ∀ o n e eye, c.E.kind o = .form n e eye → eye ∉ N.params :=
    fun o n e eye hk hm => H.eyes o n e eye hk (N.params_sub hm)
  have hq : QueryOk (c.at w) rank False N.err := ⟨H.wf, H.sound, he, ⟨fun p hp n e eye hk => H.inv p n e eye hp hk,
    fun p hp n e eye hk => (H.invertible w he p n e eye hp hk).weaken⟩⟩
  have hu : UniqueNodes (c.E.wrt N.params) Set.univ :=
    ⟨fun q _ n e eye hk => H.nodes.nodup q trivial n e eye ((c.E.wrt_form hT).1 hk),
      fun q _ p _ n e eye n' e' eye' hk hk' => H.nodes.disj q trivial p trivial n e eye n' e' eye'
        ((c.E.wrt_form hT).1 hk) ((c.E.wrt_form hT).1 hk')⟩
  have hq' := QueryOk.wrt (c := c.at w) hT hq heT
  obtain ⟨own, nd, kk, ck, hst, hn⟩ := Static.exists hq'.wf hu
  obtain ⟨i1, i2⟩ := hh.all hst hn
  obtain ⟨hr, hV, _⟩ := i1.all
  obtain ⟨p', m, a1, a2, _⟩ := pEval_spec (c := (c.at w).wrt N.params) hq' hf hr (Or.inl ((hV _).2 hU)) i2
  obtain ⟨s1, m1, b1, rep, _⟩ := matEval_spec (c := (c.at w).wrt N.params) hq'.wf hq'.sound hq'.forms
    (valOf_solves _ _ hq'.wf hq'.eyes _) hr hf (Or.inl ((hV _).2 hU))
  obtain ⟨_, rfl⟩ := Prod.mk.inj (Option.some.inj (a2.symm.trans b1))
  have a1' : pEval (c.at w) f N.err p = some (p', m) := (pEval_wrt (c := c.at w) hT f N.err p).symm.trans a1
  refine ⟨p', m, a1', ?_, PHist.eval_wrt (c := c.at w) hT hh heT hq hf (Or.inl hU) a1'⟩
  have hv : MVal ((c.at w).wrt N.params) rank = valOf c.E w rank := valOf_wrt hT w rank
  obtain ⟨o1, o2⟩ := H.one N.err MReach.refl H.root
  have e1 : ((c.at w).wrt N.params).E.rows N.err = 1 := o1
  have e2 : ((c.at w).wrt N.params).E.cols N.err = 1 := o2
  rw [hv, e1, e2] at rep
  exact rep.raw0

/-- One batch with statistics. -/
theorem nnBatchS_spec (H : NNOk c rank N Xd Yd) (hne : N.params ≠ []) {f : ℕ} (hf : rank N.err < f) (alpha : K)
    (draw : ℕ → ℕ → K) {j : ℕ} (hj : j + N.batch ≤ Yd.rows) {s : NNSt K} {U : ℕ → Prop} (hs : NNInv c rank N s U) (acc : K) :
    ∃ s' w, nnBatchS c f N Xd Yd alpha draw j (s, acc) = some (s', acc + valOf c.E w rank N.err 0 0) ∧
      NNInv c rank N s' (fun q => U q ∨ MReach c.E N.err q) ∧
      Loaded c.E N Xd Yd draw j s.val w ∧ Stepped c.E N.params alpha (nnGrad c rank N w) w s'.val := by
  obtain ⟨v1, v2, w, e1, e2, e3, hl⟩ := H.load hj draw s.val
  obtain ⟨s1, e4, p1, vv1, g1⟩ := resetTasks_spec H { s with val := v1 } hs.grad
  have hew := H.eyes_keep hs.eyes hl.outside
  obtain ⟨p', e5, hh, hq⟩ := nn_query H hf hs.hist hs.gaps hs.warm hew hne
  obtain ⟨s2, e6, p2, vv2, g2⟩ := gradTasks_spec H { s1 with p := p', val := w } hq g1
  have vv2' : s2.val = w := vv2
  have p2' : s2.p = p' := p2
  obtain ⟨p'', m, e8, e9, hh'⟩ := nn_eval H hf hh (Or.inr MReach.refl) hew
  obtain ⟨s3, e7, p3, hst, g3⟩ := optTasks_spec H alpha { s2 with p := p'' } g2
  have hst' : Stepped c.E N.params alpha (nnGrad c rank N w) w s3.val := by rw [← vv2']; rw [vv2']; exact vv2' ▸ hst
  refine ⟨s3, w, ?_, ⟨?_, ?_, ?_, H.eyes_keep hew hst'.outside, g3⟩, hl, hst'⟩
  · have p1' : s1.p = s.p := p1
    have vv1' : s1.val = v1 := vv1
    simp only [nnBatchS, e1, e4, vv1', e2, e3, p1', e5, e6, vv2', p2', e8, e9, Option.bind_eq_bind, Option.bind_some]
    rw [vv2'] at e7
    simp only [e7, Option.bind_some]
  · rw [p3]
    have e2 : (fun q => (U q ∨ MReach c.E N.err q) ∨ MReach c.E N.err q) = fun q => U q ∨ MReach c.E N.err q := by
      funext q; exact propext ⟨fun h => h.elim id Or.inr, Or.inl⟩
    rw [← e2]; exact hh'
  · exact fun p n e eye q h1 _ _ _ _ => Or.inr h1
  · exact fun q h1 _ _ => Or.inr h1

/-- A list of batches. -/
theorem nnBatchesS_spec (H : NNOk c rank N Xd Yd) (hne : N.params ≠ []) {f : ℕ} (hf : rank N.err < f) (alpha : K) :
    ∀ (bs : List ((ℕ → ℕ → K) × ℕ)), (∀ b ∈ bs, b.2 + N.batch ≤ Yd.rows) → ∀ {s : NNSt K} {U : ℕ → Prop} (acc : K),
    NNInv c rank N s U →
    ∃ s' U' ws, bs.foldlM (fun s b => nnBatchS c f N Xd Yd alpha b.1 b.2 s) (s, acc) =
        some (s', acc + (ws.map fun w => valOf c.E w rank N.err 0 0).sum) ∧ NNInv c rank N s' U' ∧
      DescentW c.E N Xd Yd alpha (nnGrad c rank N) bs s.val ws s'.val ∧
      (bs ≠ [] → ∀ q, MReach c.E N.err q → U' q) ∧ ∀ q, U' q ↔ U q ∨ (bs ≠ [] ∧ MReach c.E N.err q)
  | [], _, s, U, acc, hs => ⟨s, U, [], by simp, hs, .nil _, fun h => absurd rfl h, by simp⟩
  | (draw, j) :: bs, hb, s, U, acc, hs => by
    obtain ⟨s1, w, e1, i1, l1, d1⟩ := nnBatchS_spec H hne hf alpha draw (j := j) (hb (draw, j) (by simp)) hs acc
    obtain ⟨s2, U2, ws, e2, i2, d2, _, hU⟩ := nnBatchesS_spec H hne hf alpha bs (fun b h => hb b (List.mem_cons_of_mem _ h))
      (acc + valOf c.E w rank N.err 0 0) i1
    refine ⟨s2, U2, w :: ws, ?_, i2, .cons l1 d1 d2, fun _ q hq => (hU q).2 (Or.inl (Or.inr hq)), fun q => ?_⟩
    · rw [List.foldlM_cons]
      simp only [e1]
      rw [List.map_cons, List.sum_cons, ← add_assoc]
      exact e2
    · rw [hU]
      constructor
      · rintro ((h | h) | ⟨_, h⟩)
        · exact Or.inl h
        · exact Or.inr ⟨by simp, h⟩
        · exact Or.inr ⟨by simp, h⟩
      · rintro (h | ⟨_, h⟩)
        · exact Or.inl (Or.inl h)
        · exact Or.inl (Or.inr h)

theorem batchStarts_ne_nil {d b : ℕ} (hb : 0 < b) (hbd : b ≤ d) : batchStarts d b ≠ [] := by
  have : 0 < d / b := Nat.div_pos hbd hb
  intro h
  rw [batchStarts, List.append_eq_nil_iff, List.map_eq_nil_iff, List.range_eq_nil] at h
  omega

variable [LinearOrder K]

/-- One epoch with statistics. -/
theorem nnEpochS_spec (H : NNOk c rank N Xd Yd) (HA : AccOk c rank N out Xd Yd) (hne : N.params ≠ []) {f : ℕ}
    (hf : rank N.err < f) (hfo : ∀ q ∈ out.objs, rank q < f) (rate : K) (draw : ℕ → ℕ → ℕ → K) {s : NNSt K} {U : ℕ → Prop}
    (hs : NNInv c rank N s U) (hg : NoGapsE c.E (fun q => U q ∨ MReach c.E N.err q) out) :
    ∃ s' U' ws a v1, nnEpochS c f N out Xd Yd rate draw s =
        some (s', (ws.map fun w => valOf c.E w rank N.err 0 0).sum, a) ∧ NNInv c rank N s' U' ∧
      (∀ q, MReach c.E N.err q → U' q) ∧ NoGapsE c.E U' out ∧
      DescentW c.E N Xd Yd (rate / (N.batch : K)) (nnGrad c rank N) ((batchStarts Yd.rows N.batch).map fun j => (draw j, j))
        s.val ws v1 ∧ AccuracyIs c.E rank N out Xd Yd v1 a ∧ SameNet c.E N v1 s'.val := by
  obtain ⟨s1, U1, ws, e1, i1, d1, r1, hU1⟩ := nnBatchesS_spec H hne hf (rate / (N.batch : K))
    ((batchStarts Yd.rows N.batch).map fun j => (draw j, j)) (fun b hb => by
      obtain ⟨j, hj, rfl⟩ := List.mem_map.1 hb
      exact batchStarts_le H.enough j hj) 0 hs
  have hne' : ((batchStarts Yd.rows N.batch).map fun j => (draw j, j)) ≠ [] := by
    rw [Ne, List.map_eq_nil_iff]; exact batchStarts_ne_nil H.bpos H.enough
  have hUe : U1 = fun q => U q ∨ MReach c.E N.err q := by
    funext q; exact propext ((hU1 q).trans ⟨fun h => h.imp id And.right, fun h => h.imp id fun h => ⟨hne', h⟩⟩)
  obtain ⟨s2, a, U2, e2, ha, hsame, hgr, hh, he, hU, hg2⟩ := nnAccuracy_spec HA hfo H.enough i1.hist (by rw [hUe]; exact hg) i1.eyes
  have hreach : ∀ q, MReach c.E N.err q → U2 q := fun q hq => hU q (r1 hne' q hq)
  refine ⟨s2, U2, ws, a, s1.val, ?_, ⟨hh, fun p n e eye q h1 _ _ _ _ => hreach p h1, fun q h1 _ _ => hreach q h1, he, ?_⟩,
    hreach, hg2, d1, ha, hsame⟩
  · rw [zero_add, List.foldlM_map] at e1
    simp only [nnEpochS, nnLoop_starts H.bpos H.enough, Option.bind_eq_bind]
    rw [e1]
    simp only [Option.bind_some, e2]
  · rw [hgr]; exact i1.grad

/-- Training with statistics. -/
theorem nnTrainS_spec (H : NNOk c rank N Xd Yd) (HA : AccOk c rank N out Xd Yd) (hne : N.params ≠ []) {f : ℕ}
    (hf : rank N.err < f) (hfo : ∀ q ∈ out.objs, rank q < f) (rate : K) (epochs : ℕ) (draw : ℕ → ℕ → ℕ → ℕ → K)
    {s : NNSt K} {U : ℕ → Prop} (hs : NNInv c rank N s U) (hg : NoGapsE c.E (fun q => U q ∨ MReach c.E N.err q) out) :
    ∃ s' U' log, nnTrainS c f N out Xd Yd rate epochs draw s = some (s', log) ∧ NNInv c rank N s' U' ∧
      Epochs c.E rank N out Xd Yd (rate / (N.batch : K)) (nnGrad c rank N) draw (List.range epochs) s.val log s'.val := by
  have key : ∀ (is : List ℕ) (s : NNSt K) (U : ℕ → Prop) (l0 : List (K × K)), NNInv c rank N s U →
      NoGapsE c.E (fun q => U q ∨ MReach c.E N.err q) out →
      ∃ s' U' log, is.foldlM (fun s i => (nnEpochS c f N out Xd Yd rate (draw i) s.1).map fun r => (r.1, s.2 ++ [r.2])) (s, l0) =
          some (s', l0 ++ log) ∧ NNInv c rank N s' U' ∧
        Epochs c.E rank N out Xd Yd (rate / (N.batch : K)) (nnGrad c rank N) draw is s.val log s'.val := by
    intro is
    induction is with
    | nil => intro s U l0 hs _; exact ⟨s, U, [], by simp, hs, .nil _⟩
    | cons i is ih =>
      intro s U l0 hs hg
      obtain ⟨s1, U1, ws, a, v1, e1, i1, r1, g1, d1, a1, m1⟩ := nnEpochS_spec H HA hne hf hfo rate (draw i) hs hg
      have hU1 : (fun q => U1 q ∨ MReach c.E N.err q) = U1 := by
        funext q; exact propext ⟨fun h => h.elim id (r1 q), Or.inl⟩
      obtain ⟨s2, U2, log, e2, i2, d2⟩ := ih s1 U1 (l0 ++ [_]) i1 (by rw [hU1]; exact g1)
      refine ⟨s2, U2, _, ?_, i2, .cons d1 a1 m1 d2⟩
      rw [List.foldlM_cons]
      simp only [e1, Option.map_some, Option.bind_eq_bind, Option.bind_some]
      rw [e2, List.append_assoc, List.singleton_append]
  obtain ⟨s', U', log, e, i, d⟩ := key (List.range epochs) s U [] hs hg
  exact ⟨s', U', log, by rw [nnTrainS, e, List.nil_append], i, d⟩

end

end CoolDiff
