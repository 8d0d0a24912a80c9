import Verif.Scalar.SymSession
import Verif.Props.Analysis

/-!
# C14, C15, C06 and C16: symbolic differentiation

Sessions (`Session`, Verif/Scalar/SymSession.lean) are sequences of API calls that may contain
`SymDiff`.  `EvalS`, `DevalFS`, `PreCompS` are the queries on the heap with symbolic temporaries.
-/

set_option linter.unusedSectionVars false

namespace CoolDiff

variable {K : Type} [Field K] [DecidableEq K] {P : Prim K}

/-- The flags (`m_visited`) are such that the next reset from the root `y` reaches every flagged
Expression below `y`: a reset goes through the definitions of flagged Expressions and through all
temporaries (`Touch`, `SafeS` in Verif/Scalar/SymReset.lean). -/
def Sess.Safe (a : Sess K) (y : ℕ) : Prop :=
  SafeS a.s.st.defs a.s.tm (fun q => a.s.st.mem.visited q = true) y

/-- Every operator in the definitions below `y` is supported by `SymDiff`: no user operator, and a
number divided by an expression only as `1 / e`. -/
def Sess.SymOk (a : Sess K) (y : ℕ) : Prop :=
  ∀ q, Reach a.s.st.defs y q → ∀ i ∈ a.s.st.defs.items q, i.SymOk

/-- The session after a `SymDiff` of `y` that left the heap `s'`. -/
def Sess.diffed (a : Sess K) (y : ℕ) (s' : SSt K) : Sess K :=
  ⟨s', a.H, {q | q ∈ a.T ∨ Reach a.s.st.defs y q ∨ (a.s.st.defs.size ≤ q ∧ q < s'.st.defs.size)}⟩

/-- No Expression is flagged (for example: no query has been made). -/
def Sess.Unflagged (a : Sess K) : Prop := ∀ q < a.s.st.defs.size, a.s.st.mem.visited q = false

theorem symDiff_core {a : Sess K} (ha : SInv P a) {y x : ℕ} (hy : y < a.s.st.defs.size) (hx : a.H x)
    (hs : a.Safe y) (hok : a.SymOk y) (rf : ℕ → Bool → List Bool → Bool) :
    ∃ d s', symDiff P rf y x a.s = some (d, s') ∧ SStep P a (a.diffed y s') ∧
      a.s.st.defs.size ≤ d ∧ d ∈ (a.diffed y s').T ∧
      (∀ q < a.s.st.defs.size, s'.st.mem.visited q = true → a.s.st.mem.visited q = true) ∧
      (∀ q < s'.st.defs.size, a.s.st.defs.size ≤ q → s'.st.mem.visited q = false) ∧
      (∀ q < a.s.st.defs.size, s'.st.defs.items q = a.s.st.defs.items q) ∧
      ∀ π ρ δ, SolT P a.H s'.st.defs (a.diffed y s').T π ρ →
        TanT P x s'.st.defs (a.diffed y s').T π ρ δ → ρ d = δ y ∧ Ob P s'.st.defs π ρ y d := by
  obtain ⟨ord, hf⟩ := ha
  obtain ⟨d, g', h1, h2, h3, h4, h5, h6, h7⟩ := hf.symDiff (rf := rf) hy hx hs hok
  have h1 : symDiff P rf y x a.s = some (d, g'.s) := h1
  have hT : ∀ q, q ∈ (a.diffed y g'.s).T → q ∈ g'.T := by
    rintro q (h | h | h)
    · exact (h3.T q).2 (Or.inl (Or.inl h))
    · exact (h3.T q).2 (Or.inl (Or.inr h))
    · exact (h3.T q).2 (Or.inr h)
  have hT' : ∀ q, q ∈ g'.T → q ∈ (a.diffed y g'.s).T := by
    intro q h
    rcases (h3.T q).1 h with (h | h) | h
    · exact Or.inl h
    · exact Or.inr (Or.inl h)
    · exact Or.inr (Or.inr h)
  refine ⟨d, g'.s, h1, .symDiff rf y x d hy hx hs hok h1, h4, hT' d h5, h6,
    fun q hq hge => h3.visNew q hge hq, fun q hq => h3.items q hq, fun π ρ δ hr hd => ?_⟩
  exact h7 π ρ δ (fun q hq hH => hr q (hT' q hq) hH) (fun q hq => hd q (hT' q hq))

/-- Uniqueness of the derivative. -/
theorem DerivOf.unique {D : Defs K} {y x : ℕ} (hw : WellDefined D y) {v w : K} (h : DerivOf P D y x v)
    (h' : DerivOf P D y x w) : v = w := by
  obtain ⟨ρ, δ, h1, h2, rfl⟩ := h
  obtain ⟨ρ', δ', h1', h2', rfl⟩ := h'
  have e := hw.solves_unique h1 h1'
  have : Tangent P D y x ρ δ' := by
    intro q hq
    rw [h2' q hq]
    split
    · rfl
    · apply seqDer_congr
      intro i hi p hp hpq
      exact ⟨(e p (.step hq hi hp)).symm, rfl⟩
  exact hw.tangent_unique h2 this y .refl

/-- In every state reached after `SymDiff(y,x)` returned `d`, there are a valuation and a tangent of
all definitions, and the value of `d` is the derivative of `y`. -/
theorem symDiff_later {a b : Sess K} (ha : SInv P a) {y x d : ℕ} {s' : SSt K}
    (hst : SStep P a (a.diffed y s')) (hd : d ∈ (a.diffed y s').T)
    (hval : ∀ π ρ δ, SolT P a.H s'.st.defs (a.diffed y s').T π ρ →
        TanT P x s'.st.defs (a.diffed y s').T π ρ δ → ρ d = δ y ∧ Ob P s'.st.defs π ρ y d)
    (hb : Later P (a.diffed y s') b) :
    SInv P b ∧ d < b.s.st.defs.size ∧ y < b.s.st.defs.size ∧ ∀ ρ δ : ℕ → K,
      (∀ q < b.s.st.defs.size, ρ q = seqVal P b.s.st.defs.par ρ q (b.s.st.defs.items q) (b.s.st.defs.base q)) →
      (∀ q < b.s.st.defs.size, δ q = if q = x then 1 else
        seqDer P b.s.st.defs.par ρ δ q (b.s.st.defs.items q) (b.s.st.defs.base q) 0) →
      ρ d = δ y ∧ Ob P b.s.st.defs b.s.st.defs.par ρ y d := by
  obtain ⟨hi, -⟩ := hst.inv ha
  obtain ⟨hb', hk⟩ := hb.inv hi
  have hlt : ∀ q ∈ b.T, q < b.s.st.defs.size := by
    obtain ⟨ord, hf⟩ := hb'
    exact hf.good.d.lt
  have hyT : y ∈ (a.diffed y s').T := Or.inr (Or.inl .refl)
  refine ⟨hb', hlt d (hk.T d hd), hlt y (hk.T y hyT), fun ρ δ hρ hδ => ?_⟩
  obtain ⟨h1, h2⟩ := hval _ ρ δ (hk.solT (fun q hq _ => hρ q (hlt q hq)))
    (hk.tanT hi fun q hq => hδ q (hlt q hq))
  refine ⟨h1, (Ob.congr (D := s'.st.defs) (T := (a.diffed y s').T) ?_ (fun q hq => hk.items q hq) ?_ hyT hd).2 h2⟩
  · obtain ⟨ord, hf⟩ := hi
    exact hf.good.d.closed
  · intro q hq
    by_cases hh : a.H q
    · obtain ⟨ord, hf⟩ := hi
      exact Or.inl (hf.good.d.user q hh).2
    · exact Or.inr (hk.base q hq hh)

/-- C14.  `SymDiff(y,x)` succeeds.  Let `d` be the Expression it returns.  In every state reached from
there by any API calls (variables and parameters change, other objects are created and defined, other
queries and other `SymDiff` calls are made), if the flags are safe for `d` then `Eval(d)` returns the
derivative of `y` with respect to `x` at the current point, and that is what `DevalF(y,x)` returns
there if the flags are safe for `y`.  `rf` is the order in which the compiler evaluates operands.

Missing for the full property: states whose flags are not safe (`Ex.stale_after_eval` is a wrong
answer), user operators (`symEval` aborts), `c / e` with `c ≠ 1` (`Ex.two_over_x`), redefinition of
an object after it took part in a `SymDiff` (`Ex.stale_temporaries`), circular definitions. -/
theorem C14_symDiff_partial {a : Sess K} (ha : Session P a) {y x : ℕ} (hy : y < a.s.st.defs.size)
    (hx : a.H x) (hs : a.Safe y) (hok : a.SymOk y) (rf : ℕ → Bool → List Bool → Bool) :
    ∃ d s', symDiff P rf y x a.s = some (d, s') ∧ SStep P a (a.diffed y s') ∧
      ∀ b, Later P (a.diffed y s') b → b.Safe d →
        ∃ v, (EvalS P d b.s).map Prod.fst = some v ∧
          (∀ w, DerivOf P b.s.st.defs y x w ↔ w = v) ∧
          (b.Safe y → (DevalFS P y x b.s).map Prod.fst = some v) := by
  obtain ⟨d, s', h1, hst, -, hd, -, -, -, hval⟩ := symDiff_core ha.inv hy hx hs hok rf
  refine ⟨d, s', h1, hst, fun b hb hsd => ?_⟩
  have hkH := ((hb.inv (hst.inv ha.inv).1).2)
  obtain ⟨⟨ord, hf⟩, hdl, hyl, hv⟩ := symDiff_later ha.inv hst hd hval hb
  obtain ⟨ρ, hρ⟩ := hf.exists_sol
  obtain ⟨δ, hδ⟩ := hf.exists_tan x ρ
  have hcl := hf.good.d.wf.closed
  have sol : ∀ {z}, z < b.s.st.defs.size → Solves P b.s.st.defs z ρ := fun hz q hq =>
    hρ q (Reach.lt hcl hz hq)
  have tan : Tangent P b.s.st.defs y x ρ δ := fun q hq => hδ q (Reach.lt hcl hyl hq)
  have hxl : x < b.s.st.defs.size := by
    have h1 : x < (a.diffed y s').s.st.defs.size := by
      obtain ⟨ord', hf'⟩ := (hst.inv ha.inv).1
      exact (hf'.good.d.user x hx).1
    exact lt_of_lt_of_le h1 hkH.size
  have hwd := hf.wellDefined hyl
  obtain ⟨m, e1, -⟩ := hf.evalS hdl hsd (sol hdl)
  have e1 : EvalS P d b.s = _ := e1
  refine ⟨δ y, by rw [e1, Option.map_some, (hv ρ δ hρ hδ).1], fun w => ⟨fun hw => ?_, fun hw => ?_⟩,
    fun hsy => ?_⟩
  · exact hw.unique hwd ⟨ρ, δ, sol hyl, tan, rfl⟩
  · exact ⟨ρ, δ, sol hyl, tan, hw.symm⟩
  · obtain ⟨m', e2, -⟩ := hf.devalFS hyl hxl hsy (sol hyl) tan
    have e2 : DevalFS P y x b.s = _ := e2
    rw [e2]; rfl

/-! ### Evaluating the result at many points -/

/-- Calls that only change numbers and query `d`. -/
inductive Rounds (P : Prim K) (d : ℕ) (a : Sess K) : Sess K → Prop
  | refl : Rounds P d a a
  | setVar {b : Sess K} (x : ℕ) (v : K) : Rounds P d a b → b.H x →
      Rounds P d a ⟨{ b.s with st := assignNum x v b.s.st }, b.H, b.T⟩
  | setPar {b : Sess K} (p : ℕ) (v : K) : Rounds P d a b →
      Rounds P d a ⟨{ b.s with st := assignPar p v b.s.st }, b.H, b.T⟩
  | eval {b : Sess K} {s' : SSt K} (v : K) : Rounds P d a b → EvalS P d b.s = some (v, s') →
      Rounds P d a ⟨s', b.H, b.T⟩
  | devalF {b : Sess K} {s' : SSt K} (x : ℕ) (v : K) : Rounds P d a b → x < b.s.st.defs.size →
      DevalFS P d x b.s = some (v, s') → Rounds P d a ⟨s', b.H, b.T⟩
  | preComp {b : Sess K} {s' : SSt K} : Rounds P d a b → PreCompS P d b.s = some s' →
      Rounds P d a ⟨s', b.H, b.T⟩

theorem Sess.safe_items {a b : Sess K} {y : ℕ} (hi : b.s.st.defs.items = a.s.st.defs.items)
    (hv : ∀ q, b.s.st.mem.visited q = a.s.st.mem.visited q)
    (h : (∀ q, Reach a.s.st.defs y q → a.s.st.mem.visited q = false) ∨
      ∀ q, Reach a.s.st.defs y q → a.s.st.mem.visited q = true) :
    (∀ q, Reach b.s.st.defs y q → b.s.st.mem.visited q = false) ∨
      ∀ q, Reach b.s.st.defs y q → b.s.st.mem.visited q = true := by
  have hr : ∀ q, Reach b.s.st.defs y q → Reach a.s.st.defs y q := by
    intro q hq
    induction hq with
    | refl => exact .refl
    | step _ hm hp ih => exact .step ih (by rw [← hi]; exact hm) hp
  rcases h with h | h
  · exact Or.inl fun q hq => by rw [hv]; exact h q (hr q hq)
  · exact Or.inr fun q hq => by rw [hv]; exact h q (hr q hq)

theorem Sess.safe_of {a : Sess K} {y : ℕ}
    (h : (∀ q, Reach a.s.st.defs y q → a.s.st.mem.visited q = false) ∨
      ∀ q, Reach a.s.st.defs y q → a.s.st.mem.visited q = true) : a.Safe y := by
  rcases h with h | h
  · intro q hq _ _ hv
    rw [h q hq] at hv
    simp at hv
  · exact (CoolDiff.Safe.all h).safeS

/-- Rounds keep the flags below `d` uniform. -/
theorem Rounds.later {d : ℕ} {a b : Sess K} (h : Rounds P d a b) (ha : SInv P a)
    (hd : d < a.s.st.defs.size)
    (hu : (∀ q, Reach a.s.st.defs d q → a.s.st.mem.visited q = false) ∨
      ∀ q, Reach a.s.st.defs d q → a.s.st.mem.visited q = true) :
    Later P a b ∧ d < b.s.st.defs.size ∧
      ((∀ q, Reach b.s.st.defs d q → b.s.st.mem.visited q = false) ∨
        ∀ q, Reach b.s.st.defs d q → b.s.st.mem.visited q = true) := by
  induction h with
  | refl => exact ⟨.refl, hd, hu⟩
  | @setVar b x v _ hx ih =>
      obtain ⟨h1, h2, h3⟩ := ih
      obtain ⟨hb, -⟩ := h1.inv ha
      have he : b.s.st.defs.items x = [] := by
        obtain ⟨ord, hf⟩ := hb
        exact (hf.good.d.user x hx).2
      refine ⟨h1.step (.setVar x v hx), h2, Sess.safe_items (a := b) ?_ (fun _ => rfl) h3⟩
      show (assignNum x v b.s.st).defs.items = _
      simp [assignNum, ← he, Function.update_eq_self]
  | @setPar b p v _ ih =>
      obtain ⟨h1, h2, h3⟩ := ih
      exact ⟨h1.step (.setPar p v), h2, Sess.safe_items (a := b) rfl (fun _ => rfl) h3⟩
  | @eval b s' v _ he ih =>
      obtain ⟨h1, h2, h3⟩ := ih
      obtain ⟨⟨ord, hf⟩, -⟩ := h1.inv ha
      have hs := Sess.safe_of h3
      obtain ⟨ρ, hρ⟩ := (hf.wellDefined h2).exists_solves (P := P)
      obtain ⟨m, e1, -, e3, -⟩ := hf.evalS h2 hs hρ
      have e1 : EvalS P d b.s = _ := e1
      refine ⟨h1.step (.eval d v h2 hs he), ?_, ?_⟩ <;> rw [e1] at he <;>
        simp only [Option.some.injEq, Prod.mk.injEq] at he <;> rw [← he.2]
      · exact h2
      · exact Or.inr e3
  | @devalF b s' x v _ hx he ih =>
      obtain ⟨h1, h2, h3⟩ := ih
      obtain ⟨⟨ord, hf⟩, -⟩ := h1.inv ha
      have hs := Sess.safe_of h3
      obtain ⟨ρ, hρ⟩ := (hf.wellDefined h2).exists_solves (P := P)
      obtain ⟨δ, hδ⟩ := (hf.wellDefined h2).exists_tangent (P := P) x ρ
      obtain ⟨m, e1, -, e3, -⟩ := hf.devalFS h2 hx hs hρ hδ
      have e1 : DevalFS P d x b.s = _ := e1
      refine ⟨h1.step (.devalF d x v h2 hx hs he), ?_, ?_⟩ <;> rw [e1] at he <;>
        simp only [Option.some.injEq, Prod.mk.injEq] at he <;> rw [← he.2]
      · exact h2
      · exact Or.inr e3
  | @preComp b s' _ he ih =>
      obtain ⟨h1, h2, h3⟩ := ih
      obtain ⟨⟨ord, hf⟩, -⟩ := h1.inv ha
      have hs := Sess.safe_of h3
      obtain ⟨m, e1, -, e3, -⟩ := hf.preCompS h2 hs
      have e1 : PreCompS P d b.s = _ := e1
      refine ⟨h1.step (.preComp d h2 hs he), ?_, ?_⟩ <;> rw [e1] at he <;>
        simp only [Option.some.injEq] at he <;> rw [← he]
      · exact h2
      · exact Or.inr e3

/-- C14 for the usual program: differentiate before any query, then any number of rounds of changing
variables and parameters and querying the result.  Every `Eval(d)` returns the derivative of `y` at
the point at that moment; no condition on flags is left. -/
theorem C14_rounds_partial {a : Sess K} (ha : Session P a) {y x : ℕ} (hy : y < a.s.st.defs.size)
    (hx : a.H x) (hu : a.Unflagged) (hok : a.SymOk y) (rf : ℕ → Bool → List Bool → Bool) :
    ∃ d s', symDiff P rf y x a.s = some (d, s') ∧
      ∀ b, Rounds P d (a.diffed y s') b →
        ∃ v, (EvalS P d b.s).map Prod.fst = some v ∧ ∀ w, DerivOf P b.s.st.defs y x w ↔ w = v := by
  have hs : a.Safe y := Sess.safe_of (Or.inl fun q hq => hu q (by
    obtain ⟨ord, hf⟩ := ha.inv
    exact Reach.lt hf.good.d.wf.closed hy hq))
  obtain ⟨d, s', h1, hst, hge, hd, hv1, hv2, -, hval⟩ := symDiff_core ha.inv hy hx hs hok rf
  obtain ⟨d', s'', h1', -, hmain⟩ := C14_symDiff_partial ha hy hx hs hok rf
  rw [h1] at h1'
  simp only [Option.some.injEq, Prod.mk.injEq] at h1'
  obtain ⟨rfl, rfl⟩ := h1'
  refine ⟨d, s', h1, fun b hb => ?_⟩
  obtain ⟨ord, hf⟩ := (hst.inv ha.inv).1
  have hdl : d < s'.st.defs.size := hf.good.d.lt d hd
  have huni : ∀ q, Reach (a.diffed y s').s.st.defs d q → (a.diffed y s').s.st.mem.visited q = false := by
    intro q hq
    have hql : q < s'.st.defs.size := Reach.lt hf.good.d.wf.closed hdl hq
    show s'.st.mem.visited q = false
    rcases Nat.lt_or_ge q a.s.st.defs.size with h | h
    · by_contra hne
      have := hv1 q h (by simpa using hne)
      rw [hu q h] at this
      simp at this
    · exact hv2 q hql h
  obtain ⟨l1, l2, l3⟩ := hb.later ⟨ord, hf⟩ hdl (Or.inl huni)
  obtain ⟨v, e1, e2, -⟩ := hmain b l1 (Sess.safe_of l3)
  exact ⟨v, e1, e2⟩

/-! ## C06 -/

/-- C06, symbolic mode: the derivative with respect to a Variable `y` does not depend on evaluates to
0 in every later state. -/
theorem C06_symbolic_partial {a : Sess K} (ha : Session P a) {y x : ℕ} (hy : y < a.s.st.defs.size)
    (hx : a.H x) (hs : a.Safe y) (hok : a.SymOk y) (rf : ℕ → Bool → List Bool → Bool)
    (hr : ¬ Reach a.s.st.defs y x) :
    ∃ d s', symDiff P rf y x a.s = some (d, s') ∧
      ∀ b, Later P (a.diffed y s') b → b.Safe d → (EvalS P d b.s).map Prod.fst = some 0 := by
  obtain ⟨d, s', h1, hst, hmain⟩ := C14_symDiff_partial ha hy hx hs hok rf
  refine ⟨d, s', h1, fun b hb hsd => ?_⟩
  obtain ⟨v, e1, e2, -⟩ := hmain b hb hsd
  obtain ⟨hi, hk0⟩ := hst.inv ha.inv
  obtain ⟨⟨ord, hf⟩, hk⟩ := hb.inv hi
  have hitems : ∀ q, Reach a.s.st.defs y q → b.s.st.defs.items q = a.s.st.defs.items q := by
    intro q hq
    have hqT : q ∈ (a.diffed y s').T := Or.inr (Or.inl hq)
    rw [hk.items q hqT]
    obtain ⟨d', s'', h1', -, -, -, -, -, hit, -⟩ := symDiff_core ha.inv hy hx hs hok rf
    rw [h1] at h1'
    simp only [Option.some.injEq, Prod.mk.injEq] at h1'
    obtain ⟨rfl, rfl⟩ := h1'
    obtain ⟨ord', hf'⟩ := ha.inv
    exact hit q (Reach.lt hf'.good.d.wf.closed hy hq)
  have hrb : ¬ Reach b.s.st.defs y x := by
    intro h
    have : ∀ q, Reach b.s.st.defs y q → Reach a.s.st.defs y q := by
      intro q hq
      induction hq with
      | refl => exact .refl
      | step _ hm hp ih => exact .step ih (by rw [← hitems _ ih]; exact hm) hp
    exact hr (this x h)
  have hyl : y < b.s.st.defs.size := hf.good.d.lt y (hk.T y (Or.inr (Or.inl .refl)))
  obtain ⟨ρ, hρ⟩ := (hf.wellDefined hyl).exists_solves (P := P)
  have : (0 : K) = v := (e2 0).1 ⟨ρ, fun _ => 0, hρ, tangent_zero hrb ρ, rfl⟩
  rw [e1, this]

/-! ## C16 -/

/-- C16, symbolic mode, elementary functions: at every point of the open domain, the formula `SymDiff`
builds for `f(e)` has the value `f'(u) * du`, `u` the value and `du` the derivative of the operand. -/
theorem C16_symbolic_functions (f : Fn) {u : ℝ} (h : f.Dom u) :
    ∃ t d, (Op1.fn f).symDer realPrim = some t ∧ HasDerivAt f.math d u ∧
      ∀ r : Hole → ℝ, r .evL = u → t.val realPrim r = d * r .deL := by
  obtain ⟨t, h1, -, h2⟩ := Op1.symDer_spec realPrim (f := .fn f) trivial
  have hm : (Op1.fn f).sem realPrim = f.math := by
    funext x; cases f <;> rfl
  exact ⟨t, _, h1, hm ▸ f.hasDerivAt h, fun r hr => by rw [h2, hr]⟩

/-- C16, symbolic mode, `pow(c,u)`. -/
theorem C16_symbolic_pow_const_base {c : ℝ} (hc : 0 < c) (u : ℝ) :
    ∃ t d, (Op1.cPow c).symDer realPrim = some t ∧ HasDerivAt (fun x => c ^ x) d u ∧
      ∀ r : Hole → ℝ, r .evL = u → t.val realPrim r = d * r .deL := by
  obtain ⟨t, h1, -, h2⟩ := Op1.symDer_spec realPrim (f := .cPow c) trivial
  exact ⟨t, _, h1, (Op1.cPow c).hasDerivAt hc, fun r hr => by rw [h2, hr]⟩

/-- C16, symbolic mode, `pow(u,c)`. -/
theorem C16_symbolic_pow_const_exponent {c u : ℝ}
    (h : 0 < u ∨ ((∃ n : ℤ, c = n) ∧ (u ≠ 0 ∨ 1 ≤ c))) :
    ∃ t d, (Op1.powC c).symDer realPrim = some t ∧ HasDerivAt (fun x => x ^ c) d u ∧
      ∀ r : Hole → ℝ, r .evL = u → t.val realPrim r = d * r .deL := by
  obtain ⟨t, h1, -, h2⟩ := Op1.symDer_spec realPrim (f := .powC c) trivial
  exact ⟨t, _, h1, (Op1.powC c).hasDerivAt h, fun r hr => by rw [h2, hr]⟩

/-- C16, symbolic mode, `pow(u,v)`. -/
theorem C16_symbolic_pow {u : ℝ} (hu : 0 < u) (v : ℝ) :
    ∃ t dl dr, (Op2.pow : Op2 ℝ).symDer = some t ∧ HasDerivAt (fun x => x ^ v) dl u ∧
      HasDerivAt (fun x => u ^ x) dr v ∧
      ∀ r : Hole → ℝ, r .evL = u → r .evR = v →
        t.val realPrim r = dl * r .deL + dr * r .deR := by
  obtain ⟨t, h1, h2⟩ := Op2.symDer_spec realPrim (f := .pow) trivial
  obtain ⟨-, dl, dr, hl, hr, -, h3, h4, -⟩ := C16_pow hu v
  refine ⟨t, dl, dr, h1, hl, hr, fun r h5 h6 => ?_⟩
  rw [h2, h5, h6, ← h3, ← h4, Op2.revRootL_eq, Op2.revRootR_eq]

/-! ## C15 -/

/-- The session after `x = t`. -/
def Sess.set (a : Sess K) (x : ℕ) (t : K) : Sess K :=
  ⟨{ a.s with st := assignNum x t a.s.st }, a.H, a.T⟩

theorem revOK_of_user {b : Sess K} (hb : SInv P b) {z x : ℕ} (hz : z < b.s.st.defs.size) (hx : b.H x) :
    RevOK b.s.st.defs z x := by
  obtain ⟨ord, hf⟩ := hb
  have h : b.s.st.defs.items x = [] := (hf.good.d.user x hx).2
  refine ⟨fun i hi => by rw [h] at hi; simp at hi, fun q hq hm => ?_⟩
  exact hf.good.d.bare q (Reach.lt hf.good.d.wf.closed hz hq) x hm hx

/-- C03 for sessions with symbolic differentiation: if all operators below `z` are applied inside their
domains, `DevalF(z,x)` and `PreComp(z)`, `DevalR(z,x)` return the derivative of `t ↦ Eval(z)` after
`x = t`. -/
theorem C03_session {b : Sess ℝ} (hb : SInv realPrim b) {z x : ℕ} (hz : z < b.s.st.defs.size)
    (hx : b.H x) (hxz : x ≠ z) (hs : b.Safe z) (hdom : InDomain b.s.st.defs z) :
    ∃ F : ℝ → ℝ, ∃ w : ℝ,
      (∀ t, (EvalS realPrim z (b.set x t).s).map Prod.fst = some (F t)) ∧
      HasDerivAt F w (b.s.st.defs.base x) ∧
      (DevalFS realPrim z x b.s).map Prod.fst = some w ∧
      ((PreCompS realPrim z b.s).map fun s => DevalR z x s.st) = some w := by
  have hset : ∀ t, SStep realPrim b (b.set x t) := fun t => .setVar x t hx
  have hsets : ∀ t, SInv realPrim (b.set x t) := fun t => ((hset t).inv hb).1
  have hrev := revOK_of_user hb hz hx
  obtain ⟨ord, hf⟩ := hb
  have hxv : IsVar b.s.st.defs x := by
    have h := hf.good.d.user x hx
    refine ⟨h.1, ?_, h.2⟩
    rintro rfl
    exact hf.good.d.zero.2.2.2.1 hx
  have hwd := hf.wellDefined hz
  have hex : ∀ t, ∃ ρ, Solves realPrim (assignNum x t b.s.st).defs z ρ := fun t =>
    (hwd.of_items (assignNum_items hxv.2.2 t)).exists_solves
  choose r hr using hex
  have hsol : Solves realPrim b.s.st.defs z (r (b.s.st.defs.base x)) := by
    have := hr (b.s.st.defs.base x)
    rwa [assignNum_self hxv.2.2] at this
  obtain ⟨δ, hδ⟩ := hwd.exists_tangent (P := realPrim) x (r (b.s.st.defs.base x))
  refine ⟨fun t => r t z, δ z, fun t => ?_, solves_hasDerivAt hxv hwd hdom hr hδ z .refl, ?_, ?_⟩
  · obtain ⟨ord', hf'⟩ := hsets t
    have hs' : (b.set x t).Safe z := SafeS.of_items hs (assignNum_items hxv.2.2 t)
    obtain ⟨m, e1, -⟩ := hf'.evalS (y := z) hz hs' (hr t)
    have e1 : EvalS realPrim z (b.set x t).s = _ := e1
    rw [e1]; rfl
  · obtain ⟨m, e1, -⟩ := hf.devalFS hz hxv.1 hs hsol hδ
    have e1 : DevalFS realPrim z x b.s = _ := e1
    rw [e1]; rfl
  · obtain ⟨m, e1, -⟩ := hf.preCompS hz hs
    have e2 := hf.preCompS_key hz hxv.1 hs hrev hsol hδ e1
    have e1 : PreCompS realPrim z b.s = _ := e1
    rw [if_neg (Ne.symm hxz)] at e2
    rw [e1, Option.map_some, e2]

end CoolDiff
