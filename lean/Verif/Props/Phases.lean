import Verif.Props.SymExamples

/-!
# C57: queries, symbolic differentiation and queries of the result in turn
-/

set_option linter.unusedSectionVars false

namespace CoolDiff

open Filter Topology

variable {K : Type} [Field K] [DecidableEq K] {P : Prim K}

/-- No Expression is flagged. -/
def Sess.Quiet (a : Sess K) : Prop :=
  ∀ q < a.s.st.defs.size, a.s.st.defs.items q ≠ [] → a.s.st.mem.visited q = false

/-- Only Expressions below `y` are flagged: all of them, or none. -/
structure Sess.Tidy (a : Sess K) (y : ℕ) : Prop where
  out : ∀ q < a.s.st.defs.size, a.s.st.defs.items q ≠ [] → a.s.st.mem.visited q = true → Reach a.s.st.defs y q
  uni : (∀ q, Reach a.s.st.defs y q → a.s.st.defs.items q ≠ [] → a.s.st.mem.visited q = false) ∨
    ∀ q, Reach a.s.st.defs y q → a.s.st.mem.visited q = true

theorem Sess.Tidy.safe {a : Sess K} {y : ℕ} (h : a.Tidy y) : a.Safe y := by
  rcases h.uni with h | h
  · intro q hq _ hi hv
    rw [h q hq hi] at hv
    simp at hv
  · exact (CoolDiff.Safe.all h).safeS

theorem Sess.Quiet.tidy {a : Sess K} (h : a.Quiet) (ha : SInv P a) {y : ℕ} (hy : y < a.s.st.defs.size) :
    a.Tidy y := by
  refine ⟨fun q hq hi hv => by rw [h q hq hi] at hv; simp at hv, Or.inl fun q hq hi => h q ?_ hi⟩
  obtain ⟨ord, hf⟩ := ha
  exact Reach.lt hf.good.d.wf.closed hy hq

theorem Sess.Tidy.of_same {a b : Sess K} {y : ℕ} (h : a.Tidy y) (hn : b.s.st.defs.size = a.s.st.defs.size)
    (hi : b.s.st.defs.items = a.s.st.defs.items) (hv : b.s.st.mem.visited = a.s.st.mem.visited) : b.Tidy y := by
  have hr : ∀ q, Reach b.s.st.defs y q ↔ Reach a.s.st.defs y q := by
    intro q
    constructor <;> intro hq
    · induction hq with
      | refl => exact .refl
      | step _ hm hp ih => exact .step ih (by rw [← hi]; exact hm) hp
    · induction hq with
      | refl => exact .refl
      | step _ hm hp ih => exact .step ih (by rw [hi]; exact hm) hp
  refine ⟨fun q hq => ?_, ?_⟩
  · rw [hi, hv, hr]; rw [hn] at hq; exact h.out q hq
  · rcases h.uni with h | h
    · exact Or.inl fun q hq => by rw [hi, hv]; exact h q ((hr q).1 hq)
    · exact Or.inr fun q hq => by rw [hv]; exact h q ((hr q).1 hq)

/-- `SymDiff(y,x)` clears all flags if only Expressions below `y` were flagged. -/
theorem SymD.of_tidy {a : Sess K} (ha : SInv P a) {y x : ℕ} (ht : a.Tidy y) (hy : y < a.s.st.defs.size)
    (hx : a.H x) (hok : a.SymOk y) (rf : ℕ → Bool → List Bool → Bool) :
    ∃ d s', symDiff P rf y x a.s = some (d, s') ∧ SymD P a y x d (a.diffed y s') ∧ (a.diffed y s').Quiet ∧
      (∀ q < a.s.st.defs.size, s'.st.defs.items q = a.s.st.defs.items q) ∧
      (∀ q < a.s.st.defs.size, s'.st.defs.base q = a.s.st.defs.base q) := by
  obtain ⟨d, s', h1, hst, hge, hd, hv1, hv2, hit, -⟩ := symDiff_core ha hy hx ht.safe hok rf
  have hcl : (∀ q, Reach a.s.st.defs y q → a.s.st.defs.items q ≠ [] → s'.st.mem.visited q = false) ∧
      ∀ q < a.s.st.defs.size, s'.st.defs.base q = a.s.st.defs.base q := by
    obtain ⟨ord, hf⟩ := ha
    obtain ⟨d', g', e1, -, e3, -, -, -, e2, -⟩ := hf.symDiff_clean (rf := rf) hy hx ht.safe hok
    have e1 : symDiff P rf y x a.s = some (d', g'.s) := e1
    rw [h1] at e1
    simp only [Option.some.injEq, Prod.mk.injEq] at e1
    rw [e1.2]
    exact ⟨e2, fun q hq => e3.base q hq⟩
  refine ⟨d, s', h1, ⟨hy, hx, ht.safe, hok, rf, s', h1, rfl⟩, fun q hq hi => ?_, hit, hcl.2⟩
  replace hcl := hcl.1
  have hql : q < s'.st.defs.size := hq
  show s'.st.mem.visited q = false
  rcases Nat.lt_or_ge q a.s.st.defs.size with h | h
  · have hi' : a.s.st.defs.items q ≠ [] := by
      rw [← hit q h]; exact hi
    by_contra hne
    have := hv1 q h (by simpa using hne)
    have := hcl q (ht.out q h hi' this) hi'
    exact hne this
  · exact hv2 q hql h

/-- A program that works on one Expression at a time: it changes numbers, queries the current Expression in any of
the three modes, and goes over to the symbolic derivative of the current Expression.  `Phase P a y xs e c`: starting
with `y` in session `a`, the program has differentiated with respect to `xs` (latest first), the current Expression
is `e` and the session is `c`. -/
inductive Phase (P : Prim K) (a : Sess K) (y : ℕ) : List ℕ → ℕ → Sess K → Prop
  | start : Phase P a y [] y a
  | setVar {xs : List ℕ} {e : ℕ} {b : Sess K} (x : ℕ) (v : K) : Phase P a y xs e b → b.H x →
      Phase P a y xs e (b.set x v)
  | setPar {xs : List ℕ} {e : ℕ} {b : Sess K} (p : ℕ) (v : K) : Phase P a y xs e b →
      Phase P a y xs e ⟨{ b.s with st := assignPar p v b.s.st }, b.H, b.T⟩
  | eval {xs : List ℕ} {e : ℕ} {b : Sess K} {s' : SSt K} (v : K) : Phase P a y xs e b →
      EvalS P e b.s = some (v, s') → Phase P a y xs e ⟨s', b.H, b.T⟩
  | devalF {xs : List ℕ} {e : ℕ} {b : Sess K} {s' : SSt K} (x : ℕ) (v : K) : Phase P a y xs e b →
      x < b.s.st.defs.size → DevalFS P e x b.s = some (v, s') → Phase P a y xs e ⟨s', b.H, b.T⟩
  | preComp {xs : List ℕ} {e : ℕ} {b : Sess K} {s' : SSt K} : Phase P a y xs e b →
      PreCompS P e b.s = some s' → Phase P a y xs e ⟨s', b.H, b.T⟩
  | symDiff {xs : List ℕ} {e d : ℕ} {b : Sess K} {s' : SSt K} (rf : ℕ → Bool → List Bool → Bool) (x : ℕ) :
      Phase P a y xs e b → b.H x → symDiff P rf e x b.s = some (d, s') →
      Phase P a y (x :: xs) d (b.diffed e s')

/-- What holds between the calls of such a program. -/
structure PhInv (P : Prim K) (a : Sess K) (y : ℕ) (xs : List ℕ) (e : ℕ) (c : Sess K) : Prop where
  chain : ∃ b, SymChain P a y xs e b ∧ Later P b c
  lt : e < c.s.st.defs.size
  tidy : c.Tidy e
  only : c.Only Op1.SymOkN e
  ylt : y < c.s.st.defs.size
  yonly : c.Only Op1.SymOkN y

theorem PhInv.inv {a c : Sess K} {y e : ℕ} {xs : List ℕ} (h : PhInv P a y xs e c) (ha : SInv P a) : SInv P c := by
  obtain ⟨b, h1, h2⟩ := h.chain
  exact (((h1.later ha).trans h2).inv ha).1

theorem Sess.Only.symOk {c : Sess K} {e : ℕ} (h : c.Only Op1.SymOkN e) : c.SymOk e :=
  Sess.only_symOk.1 fun q hq i hi => (h q hq i hi).mono (fun _ h => h.symOk) fun _ h => h

theorem Sess.Only.of_items {a b : Sess K} {p : Op1 K → Prop} {y : ℕ} (h : a.Only p y)
    (hi : ∀ q, Reach a.s.st.defs y q → b.s.st.defs.items q = a.s.st.defs.items q) : b.Only p y := by
  have hr : ∀ q, Reach b.s.st.defs y q → Reach a.s.st.defs y q := by
    intro q hq
    induction hq with
    | refl => exact .refl
    | step _ hm hp ih => exact .step ih (by rw [← hi _ ih]; exact hm) hp
  intro q hq i hm
  rw [hi q (hr q hq)] at hm
  exact h q (hr q hq) i hm

/-- A call that changes no definition. -/
theorem PhInv.step {a b c : Sess K} {y e : ℕ} {xs : List ℕ} (h : PhInv P a y xs e b) (hs : SStep P b c)
    (hn : c.s.st.defs.size = b.s.st.defs.size) (hi : c.s.st.defs.items = b.s.st.defs.items) (ht : c.Tidy e) :
    PhInv P a y xs e c := by
  obtain ⟨d, h1, h2⟩ := h.chain
  exact ⟨⟨d, h1, h2.step hs⟩, hn ▸ h.lt, ht, h.only.of_items fun q _ => by rw [hi], hn ▸ h.ylt,
    h.yonly.of_items fun q _ => by rw [hi]⟩

theorem Sess.Tidy.query {b : Sess K} {e : ℕ} (h : b.Tidy e) {c : Sess K}
    (hn : c.s.st.defs.size = b.s.st.defs.size) (hi : c.s.st.defs.items = b.s.st.defs.items)
    (h1 : ∀ q, Reach b.s.st.defs e q → c.s.st.mem.visited q = true)
    (h2 : ∀ q, ¬ Reach b.s.st.defs e q → c.s.st.mem.visited q = true → b.s.st.mem.visited q = true) : c.Tidy e := by
  have hr : ∀ q, Reach c.s.st.defs e q ↔ Reach b.s.st.defs e q := by
    intro q
    constructor <;> intro hq
    · induction hq with
      | refl => exact .refl
      | step _ hm hp ih => exact .step ih (by rw [← hi]; exact hm) hp
    · induction hq with
      | refl => exact .refl
      | step _ hm hp ih => exact .step ih (by rw [hi]; exact hm) hp
  refine ⟨fun q hq he hv => ?_, Or.inr fun q hq => h1 q ((hr q).1 hq)⟩
  rw [hr]
  by_contra hq'
  rw [hn] at hq
  rw [hi] at he
  exact hq' (h.out q hq he (h2 q hq' hv))

/-- The invariant holds at all times. -/
theorem Phase.inv {a c : Sess K} {y e : ℕ} {xs : List ℕ} (h : Phase P a y xs e c) (ha : SInv P a) (hq : a.Quiet)
    (hy : y < a.s.st.defs.size) (hok : a.Only Op1.SymOkN y) : PhInv P a y xs e c := by
  induction h with
  | start => exact ⟨⟨a, .nil, .refl⟩, hy, hq.tidy ha hy, hok, hy, hok⟩
  | @setVar xs e b x v _ hx ih =>
      have hb := ih.inv ha
      exact ih.step (.setVar x v hx) rfl (Sess.set_items hb hx v) (ih.tidy.of_same rfl (Sess.set_items hb hx v) rfl)
  | @setPar xs e b p v _ ih =>
      exact ih.step (.setPar p v) rfl rfl (ih.tidy.of_same rfl rfl rfl)
  | @eval xs e b s' v _ he ih =>
      obtain ⟨ord, hf⟩ := ih.inv ha
      obtain ⟨ρ, hρ⟩ := (hf.wellDefined ih.lt).exists_solves (P := P)
      obtain ⟨m, e1, -, e3, e4⟩ := hf.evalS ih.lt ih.tidy.safe hρ
      have hs : SStep P b ⟨s', b.H, b.T⟩ := .eval e v ih.lt ih.tidy.safe he
      have e1 : EvalS P e b.s = _ := e1
      rw [e1] at he
      simp only [Option.some.injEq, Prod.mk.injEq] at he
      obtain ⟨rfl, rfl⟩ := he
      exact ih.step hs rfl rfl (ih.tidy.query rfl rfl e3 fun q hq hv => (e4 q hq hv).1)
  | @devalF xs e b s' x v _ hx he ih =>
      obtain ⟨ord, hf⟩ := ih.inv ha
      obtain ⟨ρ, hρ⟩ := (hf.wellDefined ih.lt).exists_solves (P := P)
      obtain ⟨δ, hδ⟩ := (hf.wellDefined ih.lt).exists_tangent (P := P) x ρ
      obtain ⟨m, e1, -, e3, e4⟩ := hf.devalFS ih.lt hx ih.tidy.safe hρ hδ
      have hs : SStep P b ⟨s', b.H, b.T⟩ := .devalF e x v ih.lt hx ih.tidy.safe he
      have e1 : DevalFS P e x b.s = _ := e1
      rw [e1] at he
      simp only [Option.some.injEq, Prod.mk.injEq] at he
      obtain ⟨rfl, rfl⟩ := he
      exact ih.step hs rfl rfl (ih.tidy.query rfl rfl e3 fun q hq hv => (e4 q hq hv).1)
  | @preComp xs e b s' _ he ih =>
      obtain ⟨ord, hf⟩ := ih.inv ha
      obtain ⟨m, e1, -, e3, e4⟩ := hf.preCompS ih.lt ih.tidy.safe
      have hs : SStep P b ⟨s', b.H, b.T⟩ := .preComp e ih.lt ih.tidy.safe he
      have e1 : PreCompS P e b.s = _ := e1
      rw [e1] at he
      simp only [Option.some.injEq] at he
      subst he
      exact ih.step hs rfl rfl (ih.tidy.query rfl rfl e3 fun q hq hv => (e4 q hq hv).1)
  | @symDiff xs e d b s' rf x _ hx he ih =>
      obtain ⟨b0, h1, h2⟩ := ih.chain
      have hb := ih.inv ha
      obtain ⟨d', s'', e1, e2, e3, e4, -⟩ := SymD.of_tidy hb ih.tidy ih.lt hx ih.only.symOk rf
      rw [he] at e1
      simp only [Option.some.injEq, Prod.mk.injEq] at e1
      obtain ⟨rfl, rfl⟩ := e1
      obtain ⟨hl, hc, hd, -⟩ := e2.later hb .refl
      have hsz := (hl.inv hb).2.size
      refine ⟨⟨_, .step h1 h2 e2, .refl⟩, hd, e3.tidy hc hd, e2.only hb .refl symOkN_closes ih.only,
        lt_of_lt_of_le ih.ylt hsz, ih.yonly.of_items fun q hq => e4 q ?_⟩
      obtain ⟨ord, hf⟩ := hb
      exact Reach.lt hf.good.d.wf.closed ih.ylt hq

/-- One more derivative of the current Expression. -/
theorem PhInv.nth_deriv {a c : Sess ℝ} {y e : ℕ} {xs : List ℕ} (h : PhInv realPrim a y xs e c)
    (ha : SInv realPrim a) {x : ℕ} (hx : c.H x) (hd : c.InDom xs.length y) {w : ℝ}
    (hw : DerivOf realPrim c.s.st.defs e x w) : NthDerivative y (x :: xs) c w := by
  obtain ⟨b, hch, hbc⟩ := h.chain
  have hci := h.inv ha
  have hset : ∀ t, SInv realPrim (c.set x t) := fun t => Sess.set_inv hci hx t
  have hF : ∀ t, ∃ v, ValueOf realPrim (c.set x t).s.st.defs e v := fun t => exists_value (hset t) h.lt
  choose F hF using hF
  have hY : ∀ t, ∃ v, ValueOf realPrim (c.set x t).s.st.defs y v := fun t => exists_value (hset t) h.ylt
  choose Y hY using hY
  have hself : (c.set x (c.s.st.defs.base x)).s.st.defs = c.s.st.defs := by
    have : c.s.st.defs.items x = [] := by
      obtain ⟨ord, hf⟩ := hci
      exact (hf.good.d.user x hx).2
    exact assignNum_self this
  have hopen := (family_smooth (m := xs.length) hci h.ylt h.yonly.symOk (c := fun t => c.set x t)
    (p := c.s.st.defs.base x) (fun t => Sess.set_items hci hx t) (fun _ => rfl) (fun q => by
      show ContDiffAt ℝ _ (fun t => Function.update c.s.st.defs.base x t q) _
      by_cases e : q = x
      · subst e; simp only [Function.update_self]; exact contDiffAt_id
      · simpa [e] using contDiffAt_const) (hd.of_defs hself) hY).2
  have hdd : c.InDom 0 e := hch.inDom ha hbc (by rw [Nat.zero_add]; exact hd)
  refine ⟨F, ?_, deriv_at hci h.lt hx hdd hF hw⟩
  filter_upwards [hopen] with t ht
  exact hch.nth ha (hbc.set hx t) (Nat.le_succ _) ht (hF t)

/-- C57.  Start with any Expression `y` made of `+ - * /`, powers, `sin`, `cos`, `tan`, `sinh`, `cosh`, `tanh`, `atan`,
`exp`, `log` and definitions, while no Expression is flagged (no query yet, or `SymDiff` was the last call).  At every
time of every program that changes numbers, queries the current Expression and goes over to its symbolic derivative:
`Eval` returns the iterated partial derivative of `y` at the point at that moment; `DevalF` and `PreComp`, `DevalR`
return that of the next order; `SymDiff` succeeds and the program goes on.  The operators below `y` are inside their
domains at that moment. -/
theorem C57_phases {a : Sess ℝ} (ha : Session realPrim a) (hq : a.Quiet) {y : ℕ} (hy : y < a.s.st.defs.size)
    (hok : a.Only Op1.SymOkN y) {xs : List ℕ} {e : ℕ} {c : Sess ℝ} (h : Phase realPrim a y xs e c)
    (hd : c.InDom xs.length y) :
    (∃ w, NthDerivative y xs c w ∧ (EvalS realPrim e c.s).map Prod.fst = some w) ∧
    (∀ x, c.H x → ∃ w, NthDerivative y (x :: xs) c w ∧ (DevalFS realPrim e x c.s).map Prod.fst = some w ∧
      (x ≠ e → ((PreCompS realPrim e c.s).map fun s => DevalR e x s.st) = some w)) ∧
    ∀ x, c.H x → ∀ rf, ∃ d s', symDiff realPrim rf e x c.s = some (d, s') ∧
      Phase realPrim a y (x :: xs) d (c.diffed e s') := by
  have hi := h.inv ha.inv hq hy hok
  have hci := hi.inv ha.inv
  refine ⟨?_, fun x hx => ?_, fun x hx rf => ?_⟩
  · obtain ⟨b, hch, hbc⟩ := hi.chain
    obtain ⟨w, e1, e2⟩ := evalS_value hci hi.lt hi.tidy.safe
    exact ⟨w, hch.nth ha.inv hbc (Nat.le_succ _) hd ((e2 w).2 rfl), e1⟩
  · have hrev := revOK_of_user hci hi.lt hx
    obtain ⟨ord, hf⟩ := id hci
    have hxl : x < c.s.st.defs.size := (hf.good.d.user x hx).1
    obtain ⟨ρ, hρ⟩ := (hf.wellDefined hi.lt).exists_solves (P := realPrim)
    obtain ⟨δ, hδ⟩ := (hf.wellDefined hi.lt).exists_tangent (P := realPrim) x ρ
    refine ⟨δ e, hi.nth_deriv ha.inv hx hd ⟨ρ, δ, hρ, hδ, rfl⟩, ?_, fun hxe => ?_⟩
    · obtain ⟨m, e1, -⟩ := hf.devalFS hi.lt hxl hi.tidy.safe hρ hδ
      have e1 : DevalFS realPrim e x c.s = _ := e1
      rw [e1]; rfl
    · obtain ⟨m, e1, -⟩ := hf.preCompS hi.lt hi.tidy.safe
      have e2 := hf.preCompS_key hi.lt hxl hi.tidy.safe hrev hρ hδ e1
      have e1 : PreCompS realPrim e c.s = _ := e1
      rw [if_neg (Ne.symm hxe)] at e2
      rw [e1, Option.map_some, e2]
  · obtain ⟨d, s', e1, -⟩ := SymD.of_tidy hci hi.tidy hi.lt hx hi.only.symOk rf
    exact ⟨d, s', e1, .symDiff rf x h hx e1⟩

end CoolDiff
