import Verif.Matrix.RevHist
import Verif.Props.MatReverse

/-!
# C30, C40, C45: repeated reverse differentiation, with the objects that the code reuses

`MatReverse.lean` states the reverse derivative over caches that hold matrices.  Here the caches hold
pointers to objects with shared buffers that later calls of `PreComp` reuse (`RevPtr.lean`), and runs may
contain any number of `PreComp` calls.
-/

set_option linter.unusedSectionVars false

namespace CoolDiff

variable {K : Type} [Field K] [DecidableEq K]

/-! ## The theorems -/

/-- After any run with pointers, `PreComp` computes what it computes with matrices. -/
theorem pPreComp_eq {E : MEnv K} {rank : ℕ → ℕ} {p : PSt K} {U : ℕ → Prop} (h : PHist E rank p U)
    (hu : UniqueNodes E Set.univ) (c : MCtx K) (hE : c.E = E) {o X f : ℕ}
    (hq : RevQueryOk c rank o X) (hf : rank o < f) (hg : NoGaps E U o) :
    MHist E rank p.val U ∧
      ∃ p', pPreComp c f o p = some p' ∧ matPreComp c f o p.val = some p'.val := by
  subst hE
  obtain ⟨own, nd, kk, ck, hst, hn⟩ := Static.exists hq.query.wf hu
  obtain ⟨i1, i2⟩ := h.all hst hn
  obtain ⟨hs, hU, hC⟩ := i1.all
  have hU' : ∀ q, (p.base.obj q).visited = true ↔ U q := hU
  obtain ⟨p', a1, a2, _⟩ := pPreComp_spec hq hf hst hn hs hC
    (fun q n e eye q' h1 h2 h3 h4 h5 => (hU' q).2 (hg q n e eye q' h1 h2 h3 h4 ((hU' q').1 h5))) i2
  exact ⟨i1, p', a1, a2⟩

/-- **C30, repeated.**  After any run of `Eval`, `DevalF` and `PreComp` queries with changing scalars,
`PreComp(Y)` succeeds for a 1×1 formula `Y`, and if `Y` mentions `X` then `DevalR(Y, X)` has the shape of
`X` and its element `(i,j)` is the partial derivative of `Y` with respect to `X(i,j)` at the current
values.  The objects of earlier `PreComp` calls are reused.
Partial: as `C30_reverse_value_partial`, and the earlier `PreComp` calls were `Warm`
(`C30_cold_repeat_counterexample`). -/
theorem C30_repeated_value_partial {E : MEnv K} {rank : ℕ → ℕ} {p : PSt K} {U : ℕ → Prop}
    (h : PHist E rank p U) (hu : UniqueNodes E Set.univ) (c : MCtx K) (hE : c.E = E) {o X f : ℕ}
    (hq : RevQueryOk c rank o X) (hf : rank o < f) (hg : NoGaps E U o) (hm : MReach E o X) :
    ∃ p' m, pPreComp c f o p = some p' ∧ pDevalR E o X p' = some m ∧
      m.rows = E.rows X ∧ m.cols = E.cols X ∧
      ∀ i j, i < E.rows X → j < E.cols X → m.get? i j = some (MDer c X rank o 0 0 i j) := by
  obtain ⟨i1, p', a1, a2⟩ := pPreComp_eq h hu c hE hq hf hg
  obtain ⟨s', m, e1, e2, r⟩ := C30_reverse_value_partial i1 c hE hq hf hg hm
  obtain rfl := Option.some.inj (a2.symm.trans e1)
  exact ⟨p', m, a1, by rw [pDevalR_val]; exact e2, r⟩

/-- **C30, repeated.**  Reverse and forward derivative agree, in the state reached by any run. -/
theorem C30_repeated_eq_forward_partial {E : MEnv K} {rank : ℕ → ℕ} {p : PSt K} {U : ℕ → Prop}
    (h : PHist E rank p U) (hu : UniqueNodes E Set.univ) (c : MCtx K) (hE : c.E = E)
    (hK : c.B.KronSound) {o X f : ℕ} (hP : PadsOk E X)
    (hq : RevQueryOk c rank o X) (hf : rank o < f) (ho : U o ∨ ∀ p, MReach E o p → ¬U p)
    (hm : MReach E o X) :
    ∃ p' m p'' m', pPreComp c f o p = some p' ∧ pDevalR E o X p' = some m ∧
      pDevalF c f X o p = some (p'', m') ∧ m.rows = m'.rows ∧ m.cols = m'.cols ∧
      ∀ i j, i < m.rows → j < m.cols → m.get? i j = m'.get? i j := by
  subst hE
  obtain ⟨own, nd, kk, ck, hst, hn⟩ := Static.exists hq.query.wf hu
  obtain ⟨i1, i2⟩ := h.all hst hn
  obtain ⟨hs, hU, hC⟩ := i1.all
  have hg : NoGaps c.E U o := by
    intro q n e eye q' hq1 _ hk hq' hu'
    rcases ho with ho | ho
    · exact (hU q).1 (hs.reach hq1 ((hU o).2 ho))
    · exact absurd hu' (ho q' (hq1.step hk hq'))
  obtain ⟨_, p', a1, a2⟩ := pPreComp_eq h hu c rfl hq hf hg
  obtain ⟨s', m, s'', m', e1, e2, e3, r⟩ :=
    C30_reverse_eq_forward_partial i1 c rfl hK hP hq hf ho hm
  obtain rfl := Option.some.inj (a2.symm.trans e1)
  obtain ⟨p'', m'', b1, b2, _⟩ := pDevalF_spec (own := own) (kk := kk) hq.query hK hP hq.vars.ok hq.isVar
    hf hs (by
      rcases ho with ho | ho
      · exact Or.inl ((hU o).2 ho)
      · refine Or.inr ⟨⟨?_, ?_⟩, ⟨?_, ?_⟩⟩
        · intro q hr hl hev; exact absurd ((hU q).1 (hs.fl q hl (Or.inl hev))) (ho q hr)
        · intro q hr _ hv; exact absurd ((hU q).1 hv) (ho q hr)
        · intro q hr hl hev; exact absurd ((hU q).1 (hs.fl q hl (Or.inr hev))) (ho q hr)
        · intro q hr _ hv; exact absurd ((hU q).1 hv) (ho q hr)) i2
  obtain ⟨_, rfl⟩ := Prod.mk.inj (Option.some.inj (b2.symm.trans e3))
  exact ⟨p', m, p'', m'', a1, by rw [pDevalR_val]; exact e2, b1, r⟩

/-- **C40, repeated.** -/
theorem C40_repeated_zero_partial {E : MEnv K} {rank : ℕ → ℕ} {p : PSt K} {U : ℕ → Prop}
    (h : PHist E rank p U) (hu : UniqueNodes E Set.univ) (c : MCtx K) (hE : c.E = E) {o X f : ℕ}
    (hq : RevQueryOk c rank o X) (hf : rank o < f) (hg : NoGaps E U o) (hm : ¬MReach E o X) :
    ∃ p' m, pPreComp c f o p = some p' ∧ pDevalR E o X p' = some m ∧
      m.rows = E.rows o ∧ m.cols = E.cols o ∧
      (∀ i j, i < m.rows → j < m.cols → m.get? i j = some 0) ∧
      ∀ i j, i < E.rows X → j < E.cols X → MDer c X rank o 0 0 i j = 0 := by
  obtain ⟨i1, p', a1, a2⟩ := pPreComp_eq h hu c hE hq hf hg
  obtain ⟨s', m, e1, e2, r⟩ := C40_missing_variable_zero_partial i1 c hE hq hf hg hm
  obtain rfl := Option.some.inj (a2.symm.trans e1)
  exact ⟨p', m, a1, by rw [pDevalR_val]; exact e2, r⟩

/-- **C45.**  The derivatives stored by `PreComp(Y)` stay: if `PreComp(Y)` (after any run) is followed by
any further queries, `PreComp` calls included, on matrices that do not use `Y`, with any changes of the
scalars, then for every `X`, `DevalR(Y, X)` gives what it gave right after `PreComp(Y)`.  The later
queries may use the same named formulas as `Y` and reuse their objects. -/
theorem C45_stored_gradient_kept_partial {E : MEnv K} {rank : ℕ → ℕ} {p p1 p2 : PSt K}
    {U U2 : ℕ → Prop} (hwf : E.WF rank) (hu : UniqueNodes E Set.univ) (h : PHist E rank p U) {Y : ℕ}
    (c : MCtx K) {X f : ℕ} (hE : c.E = E) (hq : RevQueryOk c rank Y X) (hf : rank Y < f)
    (hg : NoGaps E U Y) (hw : Warm E U Y) (hp : pPreComp c f Y p = some p1)
    (hm : PMore E rank Y p1 (fun q => U q ∨ MReach E Y q) p2 U2) (X' : ℕ) :
    pDevalR E Y X' p2 = pDevalR E Y X' p1 := by
  obtain ⟨own, nd, kk, ck, hst, hn⟩ := Static.exists hwf hu
  have h1 : PHist E rank p1 (fun q => U q ∨ MReach E Y q) := .query h (.precomp c X f hE hq hf hg hw hp)
  have key : p2.val.obj Y = p1.val.obj Y := by
    induction hm with
    | refl => rfl
    | query hm' hno hq' ih =>
      obtain ⟨a, b⟩ := (hm'.hist h1).all hst hn
      exact ((hq'.val hst hn a b).2.2 Y hno).trans ih
  rw [pDevalR_val, pDevalR_val]
  simp only [matDevalR, key]

/-- **C30, repeated, over the reals**, with the Eigen handler (as `C30_reverse_real_partial`). -/
theorem C30_repeated_real_partial {E : MEnv ℝ} {rank : ℕ → ℕ} {p : PSt ℝ} {U : ℕ → Prop}
    (h : PHist E rank p U) (hu : UniqueNodes E Set.univ) (g : Cfg) (π : Sched)
    (sv : ℝ → ℕ → ℝ) (der : ℕ → ℕ → ℝ) (t : ℝ)
    {o X f : ℕ} (hq : RevQueryOk ⟨backend g π, π, E, ⟨sv t, der⟩⟩ rank o X)
    (hf : rank o < f) (hg : NoGaps E U o) (hm : MReach E o X)
    {i j : ℕ} (hi : i < E.rows X) (hj : j < E.cols X)
    (hs : ∀ a, HasDerivAt (fun u => sv u a) (der a (E.vid (E.el X i j))) t)
    (hnum : ∀ o, E.kind o = .num ∨ E.kind o = .par → ∀ l k, l < E.rows o → k < E.cols o →
      der (E.el o l k) (E.vid (E.el X i j)) = 0)
    (hvar : ∀ o, E.kind o = .var → ∀ l k, l < E.rows o → k < E.cols o →
      der (E.el o l k) (E.vid (E.el X i j)) =
        if E.vid (E.el o l k) = E.vid (E.el X i j) then 1 else 0)
    (heyes : ∀ u, EyesOk E (sv u))
    (hmaps : ∀ p n e eye, MReach E o p → E.kind p = .form n e eye →
      MapsOk E (sv t) (valOf E (sv t) rank) e) :
    ∃ p' m d, pPreComp ⟨backend g π, π, E, ⟨sv t, der⟩⟩ f o p = some p' ∧
      pDevalR E o X p' = some m ∧ m.rows = E.rows X ∧ m.cols = E.cols X ∧
      m.get? i j = some d ∧ HasDerivAt (fun u => valOf E (sv u) rank o 0 0) d t := by
  obtain ⟨i1, p', a1, a2⟩ := pPreComp_eq h hu ⟨backend g π, π, E, ⟨sv t, der⟩⟩ rfl hq hf hg
  obtain ⟨s', m, d, e1, e2, r⟩ := C30_reverse_real_partial i1 g π sv der t hq hf hg hm hi hj hs hnum
    hvar heyes hmaps
  obtain rfl := Option.some.inj (a2.symm.trans e1)
  exact ⟨p', m, d, a1, by rw [pDevalR_val]; exact e2, r⟩

/-! ## A concrete program -/

namespace RExample

theorem unique : UniqueNodes E Set.univ := by
  refine ⟨?_, ?_⟩
  · intro q _ n e eye hk
    obtain ⟨_, ⟨_, rfl, rfl⟩ | ⟨_, rfl, rfl⟩⟩ := kinds hk <;> simp [MEnv.item, MNode.nums]
  · intro q _ p _ n e eye n' e' eye' hk hk' m hm hm'
    obtain ⟨_, ⟨rfl, rfl, rfl⟩ | ⟨rfl, rfl, rfl⟩⟩ := kinds hk <;>
      obtain ⟨_, ⟨rfl, rfl, rfl⟩ | ⟨rfl, rfl, rfl⟩⟩ := kinds hk' <;>
      simp [MEnv.item, MNode.nums] at hm hm' ⊢ <;> omega

/-- `q` does not mention a named formula, so every `PreComp(Y)` is warm. -/
theorem warm (U : ℕ → Prop) : Warm E U 3 := by
  rintro q _ hq ⟨n, e, eye, hk, q', hq', n', e', eye', hk'⟩
  obtain ⟨rfl, ⟨rfl, rfl, rfl⟩ | ⟨rfl, rfl, rfl⟩⟩ := kinds hk
  · obtain ⟨_, ⟨rfl, _⟩ | ⟨rfl, _⟩⟩ := kinds hk' <;> simp [MEnv.item, MNode.objs] at hq'
  · exact absurd rfl hq

/-- Two `PreComp(Y)` calls and `DevalR(Y, X)`: the hypotheses of `C30_repeated_value_partial` are met. -/
example : ∃ p1 p2 m, pPreComp ctx 3 3 PSt.fresh = some p1 ∧ pPreComp ctx 3 3 p1 = some p2 ∧
    pDevalR E 3 0 p2 = some m ∧ m.rows = 2 ∧ m.cols = 2 ∧
    ∀ i j, i < 2 → j < 2 → m.get? i j = some (MDer ctx 0 rank 3 0 0 i j) := by
  have g0 : NoGaps E (fun _ => False) 3 := fun _ _ _ _ _ _ _ _ _ h => h.elim
  obtain ⟨p1, _, a1, _⟩ := C30_repeated_value_partial (E := E) (rank := rank) PHist.fresh unique ctx rfl
    (revQueryOk (X := 0) rfl) (f := 3) (by decide) g0 reaches
  have h1 : PHist E rank p1 (fun q => False ∨ MReach E 3 q) :=
    .query .fresh (.precomp ctx 0 3 rfl (revQueryOk rfl) (by decide) g0 (warm _) a1)
  obtain ⟨p2, m, a2, a3, r⟩ := C30_repeated_value_partial h1 unique ctx rfl
    (revQueryOk (X := 0) rfl) (f := 3) (by decide) (fun q _ _ _ _ hq _ _ _ _ => Or.inr hq) reaches
  exact ⟨p1, p2, m, a1, a2, a3, r⟩

/-- `PreComp(Y); Eval(q); DevalR(Y, X)`: the hypotheses of `C45_stored_gradient_kept_partial` are
met; `q` is used by `Y`. -/
example : ∃ p1 p2, pPreComp ctx 3 3 PSt.fresh = some p1 ∧ pEval ctx 3 2 p1 = some p2 ∧
    pDevalR E 3 0 p2.1 = pDevalR E 3 0 p1 := by
  have g0 : NoGaps E (fun _ => False) 3 := fun _ _ _ _ _ _ _ _ _ h => h.elim
  obtain ⟨p1, _, a1, _⟩ := C30_repeated_value_partial (E := E) (rank := rank) PHist.fresh unique ctx rfl
    (revQueryOk (X := 0) rfl) (f := 3) (by decide) g0 reaches
  have h1 : PHist E rank p1 (fun q => False ∨ MReach E 3 q) :=
    .query .fresh (.precomp ctx 0 3 rfl (revQueryOk rfl) (by decide) g0 (warm _) a1)
  have r2 : MReach E 3 2 := MReach.refl.step (n := 30) rfl (by simp [MEnv.item, MNode.objs])
  have tr : ∀ {q}, MReach E 2 q → MReach E 3 q := fun hq => by
    induction hq with
    | refl => exact r2
    | step _ hk hq ih => exact ih.step hk hq
  have hq3 := (revQueryOk (X := 0) rfl).query
  have hq2 : QueryOk ctx rank False 2 := ⟨hq3.wf, hq3.sound, hq3.eyes,
    ⟨fun q hq => hq3.forms.inv q (tr hq),
      fun q hq n e eye hk => (hq3.forms.invertible q (tr hq) n e eye hk).weaken⟩⟩
  obtain ⟨own, nd, kk, ck, hst, hn⟩ := Static.exists wf unique
  obtain ⟨i1, i2⟩ := h1.all hst hn
  obtain ⟨hs, hU, _⟩ := i1.all
  obtain ⟨p2, m, a2, _⟩ := pEval_spec (c := ctx) (own := own) (kk := kk) hq2 (f := 3) (by decide) hs
    (Or.inl ((hU 2).2 (Or.inr r2))) i2
  refine ⟨p1, (p2, m), a1, a2, ?_⟩
  refine C45_stored_gradient_kept_partial wf unique PHist.fresh ctx rfl (revQueryOk (X := 0) rfl)
    (by decide) g0 (warm _) a1 (.query .refl ?_ (.eval ctx 3 rfl hq2 (by decide) (Or.inl (Or.inr r2)) a2)) 0
  intro h
  have := h.rank wf
  simp [rank] at this

end RExample

/-! ## Where it fails -/

namespace PBad

/-- `T` (object 0, variable), identity (1), `G = T*T` (2), `F = G*T` (3), `Y = F + T` (4), all 1×1;
`Z = Y + T` (5). -/
def E : MEnv ℚ where
  kind := fun o => match o with
    | 0 => .var
    | 2 => .form 20 (.bin 21 .mul (.obj 0) (.obj 0)) 1
    | 3 => .form 30 (.bin 31 .mul (.obj 2) (.obj 0)) 1
    | 4 => .form 40 (.bin 41 .add (.obj 3) (.obj 0)) 1
    | 5 => .form 50 (.bin 51 .add (.obj 4) (.obj 0)) 1
    | _ => .num
  rows := fun _ => 1
  cols := fun _ => 1
  el := fun o _ _ => o
  vid := id

/-- Iteration of the caches in the opposite order. -/
def rev : Sched := ⟨fun _ l => l.reverse, fun _ l => List.reverse_perm l⟩

/-- `T = 2`. -/
def ctx (π : Sched) : MCtx ℚ :=
  ⟨naiveB Sched.seq, π, E,
    ⟨fun a => match a with | 0 => 2 | 1 => 1 | _ => 0, fun a v => if a = v then 1 else 0⟩⟩

/-- `PreComp(Y); DevalR(Y, T)` twice, in the given state. -/
def twice (π : Sched) (p : PSt ℚ) : Option (List ℚ × List ℚ) := do
  let p ← pPreComp (ctx π) 6 4 p
  let a ← pDevalR E 4 0 p
  let p ← pPreComp (ctx π) 6 4 p
  let b ← pDevalR E 4 0 p
  some (a.data, b.data)

/-- **C30 fails for repeated cold `PreComp`**: with `G = T*T; F = G*T; Y = F + T` the derivative of `Y` at
`T = 2` is 13.  `PreComp(Y)` as the first query of the run leaves the counter of `m_cloned` of the nodes of
`F` one further than a `PreComp` that resets `F` before; the second call writes a scaled entry into the
buffer of another entry of the cache and `DevalR(Y, T)` is 11.  Whether this happens depends on the order
in which the unordered map is iterated; after an `Eval(Y)` it does not happen
(`C30_repeated_value_partial`). -/
theorem C30_cold_repeat_counterexample :
    twice Sched.seq PSt.fresh = some ([13], [11]) ∧ twice rev PSt.fresh = some ([13], [13]) :=
  ⟨by decide +kernel, by decide +kernel⟩

/-- **C45 needs its condition**: after `PreComp(G)`, a query on `G` itself, or on a matrix `F` that uses
`G` and has been used before, empties the stored derivatives, and `DevalR(G, T)` is 0 instead of 4. -/
theorem C45_lost_gradient_counterexample :
    ((pPreComp (ctx Sched.seq) 2 2 PSt.fresh).bind fun p => (pEval (ctx Sched.seq) 2 2 p).bind fun r =>
      (pDevalR E 2 0 r.1).map Mat.data) = some [0] ∧
    ((pEval (ctx Sched.seq) 3 3 PSt.fresh).bind fun r => (pPreComp (ctx Sched.seq) 2 2 r.1).bind fun p =>
      (pDevalR E 2 0 p).map Mat.data) = some [4] ∧
    ((pEval (ctx Sched.seq) 3 3 PSt.fresh).bind fun r => (pPreComp (ctx Sched.seq) 2 2 r.1).bind fun p =>
      (pEval (ctx Sched.seq) 3 3 p).bind fun r => (pDevalR E 2 0 r.1).map Mat.data) = some [0] := by
  refine ⟨by decide +kernel, by decide +kernel, by decide +kernel⟩

end PBad

end CoolDiff
