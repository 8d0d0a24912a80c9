import Verif.Scalar.ThreadsProof
import Verif.Props.Exact
import Verif.Scalar.GradProof
import Verif.Scalar.Real
import Verif.Scalar.Examples

/-!
# C55: parallel builds

`DevalF(exp, X)` in a build with `ENABLE_STL_PARALLEL_EXECUTION`: one task per element of `X`, any interleaving
of their reads and writes (model: `Verif.Scalar.Threads`).
-/

set_option linter.unusedSectionVars false

namespace CoolDiff

open Prog

variable {K : Type} [Field K] [DecidableEq K] {P : Prim K}

/-! ## The heap when the tasks start -/

theorem newCopies_spec (n : ℕ) : ∀ {σ : St K}, Run P σ →
    (newCopies n σ).1 = (List.range n).map (σ.defs.size + ·) ∧ Run P (newCopies n σ).2 ∧
    (newCopies n σ).2.defs.size = σ.defs.size + n ∧ (newCopies n σ).2.defs.psize = σ.defs.psize ∧
    (newCopies n σ).2.defs.par = σ.defs.par ∧
    (∀ q < σ.defs.size, (newCopies n σ).2.defs.items q = σ.defs.items q ∧
      (newCopies n σ).2.defs.base q = σ.defs.base q ∧ (newCopies n σ).2.mem.visited q = σ.mem.visited q) ∧
    ∀ q, σ.defs.size ≤ q → q < σ.defs.size + n →
      (newCopies n σ).2.defs.items q ≠ [] ∧ (newCopies n σ).2.mem.visited q = false := by
  induction n with
  | zero => intro σ h; exact ⟨rfl, h, rfl, rfl, rfl, fun q _ => ⟨rfl, rfl, rfl⟩, fun q h1 h2 => by omega⟩
  | succ n ih =>
      intro σ h
      obtain ⟨a1, a2, a3, a4, a5, a6, a7⟩ := ih h.newExpr
      have hs : (newExpr σ).2.defs.size = σ.defs.size + 1 := rfl
      refine ⟨?_, a2, ?_, a4, a5, fun q hq => ?_, fun q h1 h2 => ?_⟩
      · simp only [newCopies, a1, hs, List.range_succ_eq_map, List.map_cons, List.map_map]
        simp only [newExpr, Nat.add_zero, List.cons.injEq, true_and]
        apply List.map_congr_left
        intro i _
        simp only [Function.comp]
        omega
      · show (newCopies n (newExpr σ).2).2.defs.size = _
        rw [a3, hs]; omega
      · obtain ⟨b1, b2, b3⟩ := a6 q (by rw [hs]; omega)
        have hne : q ≠ σ.defs.size := by omega
        refine ⟨b1.trans ?_, b2.trans ?_, b3.trans ?_⟩ <;> simp [newExpr, hne]
      · by_cases hq : q = σ.defs.size
        · subst hq
          obtain ⟨b1, b2, b3⟩ := a6 σ.defs.size (by rw [hs]; omega)
          refine ⟨?_, b3.trans ?_⟩
          · show (newCopies n (newExpr σ).2).2.defs.items σ.defs.size ≠ []
            rw [b1]; simp [newExpr]
          · simp [newExpr]
        · exact a7 q (by rw [hs]; omega) (by rw [hs]; omega)

/-- What a fill does, when each assignment defines its own copy. -/
theorem fillCopies_spec {assign : ℕ → St K → St K} {I : List (Node K) → Prop} {Z : ℕ → St K → Prop}
    (h1 : ∀ c σ, Z c σ → (assign c σ).mem = σ.mem ∧ (assign c σ).defs.size = σ.defs.size ∧
      (assign c σ).defs.par = σ.defs.par ∧ (assign c σ).defs.base = σ.defs.base ∧
      I ((assign c σ).defs.items c) ∧ ∀ q, q ≠ c → (assign c σ).defs.items q = σ.defs.items q)
    (h2 : ∀ c c' σ, Z c σ → Z c' σ → c ≠ c' → Z c' (assign c σ)) :
    ∀ (cs : List ℕ) (σ : St K), cs.Nodup → (∀ c ∈ cs, Z c σ) →
      (fillCopies assign cs σ).mem = σ.mem ∧ (fillCopies assign cs σ).defs.size = σ.defs.size ∧
      (fillCopies assign cs σ).defs.par = σ.defs.par ∧ (fillCopies assign cs σ).defs.base = σ.defs.base ∧
      (∀ c ∈ cs, I ((fillCopies assign cs σ).defs.items c)) ∧
      ∀ q, q ∉ cs → (fillCopies assign cs σ).defs.items q = σ.defs.items q := by
  intro cs
  induction cs with
  | nil => intro σ _ _; exact ⟨rfl, rfl, rfl, rfl, by simp, fun _ _ => rfl⟩
  | cons c cs ih =>
      intro σ hn hz
      obtain ⟨hc, hn⟩ := List.nodup_cons.1 hn
      obtain ⟨a1, a2, a3, a4, a5, a6⟩ := h1 c σ (hz c (by simp))
      obtain ⟨b1, b2, b3, b4, b5, b6⟩ := ih (assign c σ) hn fun c' hc' =>
        h2 c c' σ (hz c (by simp)) (hz c' (by simp [hc'])) (by rintro rfl; exact hc hc')
      refine ⟨b1.trans a1, b2.trans a2, b3.trans a3, b4.trans a4, fun c' hc' => ?_, fun q hq => ?_⟩
      · rcases List.mem_cons.1 hc' with rfl | hc'
        · show I ((fillCopies assign cs (assign c' σ)).defs.items c')
          rw [b6 c' hc]; exact a5
        · exact b5 c' hc'
      · simp only [List.mem_cons, not_or] at hq
        exact (b6 q hq.2).trans (a6 q hq.1)

theorem nodup_copies (s n : ℕ) : ((List.range n).map (s + ·)).Nodup :=
  List.Nodup.map (fun a b h => by simpa using h) List.nodup_range

theorem mem_copies {s n c : ℕ} : c ∈ (List.range n).map (s + ·) ↔ s ≤ c ∧ c < s + n := by
  simp only [List.mem_map, List.mem_range]
  constructor
  · rintro ⟨i, h, rfl⟩; omega
  · rintro ⟨h1, h2⟩; exact ⟨c - s, by omega, by omega⟩

/-- The heap of the formula version. -/
theorem gradHeap_formula {σ : St K} (h : Run P σ) {e : Exp K} (hl : ∀ p ∈ e.leaves, p < σ.defs.size)
    (hp : ∀ p ∈ e.pars, p < σ.defs.psize) (xs : List ℕ) :
    let τ := gradHeap (fun c => define c e) xs σ
    Run P τ ∧ τ.defs.size = σ.defs.size + xs.length ∧ τ.defs.par = σ.defs.par ∧
      (∀ q < σ.defs.size, τ.defs.items q = σ.defs.items q ∧ τ.defs.base q = σ.defs.base q) ∧
      ∀ c, σ.defs.size ≤ c → c < σ.defs.size + xs.length → ∃ n, τ.defs.items c = [stored e n] := by
  intro τ
  obtain ⟨a1, a2, a3, a4, a5, a6, a7⟩ := newCopies_spec xs.length h
  have hrun : ∀ (cs : List ℕ) (σ' : St K), Run P σ' → (∀ c ∈ cs, c < σ'.defs.size ∧ σ'.defs.items c ≠ []) →
      (∀ p ∈ e.leaves, p < σ'.defs.size) → (∀ p ∈ e.pars, p < σ'.defs.psize) →
      Run P (fillCopies (fun c => define c e) cs σ') := by
    intro cs
    induction cs with
    | nil => intro σ' h' _ _ _; exact h'
    | cons c cs ih =>
        intro σ' h' hc hl hp
        refine ih (define c e σ') (h'.define c e (hc c (by simp)).1 (hc c (by simp)).2 hl hp) (fun c' hc' => ?_) hl hp
        refine ⟨(hc c' (by simp [hc'])).1, ?_⟩
        by_cases hcc : c' = c
        · subst hcc; rw [define_items]; simp
        · rw [define_items_ne hcc]; exact (hc c' (by simp [hc'])).2
  have hmem : ∀ c ∈ (newCopies xs.length σ).1, σ.defs.size ≤ c ∧ c < σ.defs.size + xs.length := by
    intro c hc; rw [a1] at hc; exact mem_copies.1 hc
  obtain ⟨b1, b2, b3, b4, b5, b6⟩ := fillCopies_spec (assign := fun c => define c e) (I := fun l => ∃ n, l = [stored e n])
    (Z := fun c _ => c ∉ e.leaves) (fun c σ hc => ⟨rfl, rfl, rfl, rfl, ⟨σ.defs.next, by rw [define_items, if_neg hc]; rfl⟩,
      fun q hq => define_items_ne hq e σ⟩) (fun c c' σ _ h _ => h) (newCopies xs.length σ).1 (newCopies xs.length σ).2
    (by rw [a1]; exact nodup_copies _ _) (fun c hc hce => by have := hl c hce; have := (hmem c hc).1; omega)
  refine ⟨hrun _ _ a2 (fun c hc => ⟨by rw [a3]; exact (hmem c hc).2, (a7 c (hmem c hc).1 (hmem c hc).2).1⟩)
    (fun p hp => by have := hl p hp; rw [a3]; omega) (fun p hpp => by rw [a4]; exact hp p hpp), b2.trans a3,
    b3.trans a5, fun q hq => ?_, fun c h1 h2 => b5 c (by rw [a1]; exact mem_copies.2 ⟨h1, h2⟩)⟩
  refine ⟨(b6 q fun hq' => ?_).trans (a6 q hq).1, ?_⟩
  · have := (hmem q hq').1; omega
  · show (fillCopies (fun c => define c e) (newCopies xs.length σ).1 (newCopies xs.length σ).2).defs.base q = _
    rw [b4]; exact (a6 q hq).2.1

/-! ## Formulas over Variables -/

/-- C55.  `DevalF(e, X, false)` for a formula `e` over Variables and Parameters (no named Expression inside), in
a parallel build, after any history: whatever the interleaving of the tasks, the run ends, no task stops, and
entry `i` is the derivative of the formula with respect to the Variable `X[i]` at the current numbers. -/
theorem C55_formula {σ : St K} (h : Run P σ) {e : Exp K}
    (hl : ∀ p ∈ e.leaves, p < σ.defs.size ∧ σ.defs.items p = []) (hp : ∀ p ∈ e.pars, p < σ.defs.psize)
    {xs : List ℕ} (hx : ∀ x ∈ xs, x < σ.defs.size) :
    Acc (fun b a : Pool K K => Pool.Step a b) (gradPool P (fun c => define c e) xs σ) ∧
    ∀ c, Pool.Steps (gradPool P (fun c => define c e) xs σ) c → (∀ b, ¬ Pool.Step c b) →
      ∃ rs, c.Done rs ∧ rs.length = xs.length ∧ ∀ (i x : ℕ) (r : K), xs[i]? = some x → rs[i]? = some r →
        r = e.der P σ.defs.par σ.defs.base (fun q => if q = x then 1 else 0) := by
  refine ⟨Pool.acc _, fun c hc hstop => ?_⟩
  obtain ⟨a1, -⟩ := newCopies_spec xs.length h
  obtain ⟨t1, t2, t3, t4, t5⟩ := gradHeap_formula h (fun p hp => (hl p hp).1) hp xs
  set τ := gradHeap (fun c => define c e) xs σ with hτ
  set cs := (newCopies xs.length σ).1 with hcs
  have hlen : cs.length = xs.length := by rw [a1]; simp
  have hmem : ∀ c ∈ cs, σ.defs.size ≤ c ∧ c < σ.defs.size + xs.length := by
    intro c hc; rw [a1] at hc; exact mem_copies.1 hc
  have hw := t1.wf
  have hlt : (gradTasks P τ.defs cs xs).length = cs.length := by
    simp [gradTasks, hlen]
  have hok : PoolOk τ.defs cs (fun i r => ∀ x, xs[i]? = some x →
      r = e.der P σ.defs.par σ.defs.base (fun q => if q = x then 1 else 0))
      (gradPool P (fun c => define c e) xs σ) := by
    refine ⟨hlt, fun q hq => ⟨(hw.plain q hq.1 hq.2).1, (hw.plain q hq.1 hq.2).2.1⟩, fun i p o h1 h2 => ?_⟩
    have hi : i < cs.length := (List.getElem?_eq_some_iff.1 h2).1
    have hix : i < xs.length := by omega
    have hp : p = devalFT P τ.defs o xs[i] := by
      have h1 : (gradTasks P τ.defs cs xs)[i]? = some p := h1
      have hz : (cs.zip xs)[i]? = some (o, xs[i]) :=
        List.getElem?_zip_eq_some.2 ⟨h2, List.getElem?_eq_getElem hix⟩
      simp only [gradTasks, List.getElem?_map, hz, Option.map_some, Option.some.injEq] at h1
      exact h1.symm
    have ho := hmem o (List.mem_of_getElem? h2)
    obtain ⟨n, hn⟩ := t5 o ho.1 ho.2
    have hxi := hx xs[i] (List.getElem_mem hix)
    have hol : o < τ.defs.size := by rw [t2]; exact ho.2
    rw [hp]
    refine (devalFT_plain hn (fun q hq => ?_) (fun he => ?_) _).mono _ fun r _ hr x hx' => ?_
    · rw [stored_leaves] at hq
      exact ⟨by rw [t2]; have := (hl q hq).1; omega, by rw [(t4 q (hl q hq).1).1]; exact (hl q hq).2⟩
    · have := hw.defs.inj o hol xs[i] (by rw [t2]; omega) he
      have := ho.1
      omega
    · rw [List.getElem?_eq_getElem hix, Option.some.injEq] at hx'
      rw [hr, stored_der, t3, ← hx']
      apply Exp.der_congr
      · intro q hq; exact (t4 q (hl q hq).1).2
      · intro q hq
        have : τ.defs.nidx q = τ.defs.nidx xs[i] ↔ q = xs[i] :=
          ⟨fun he => hw.defs.inj q (by rw [t2]; have := (hl q hq).1; omega) xs[i] (by rw [t2]; omega) he, fun he => by rw [he]⟩
        simp only [this]
  have hfin := hok.steps (by rw [a1]; exact nodup_copies _ _) (fun c hc => by
    obtain ⟨n, hn⟩ := t5 c (hmem c hc).1 (hmem c hc).2
    rw [hn]; simp) hc
  obtain ⟨rs, hd, hr⟩ := hfin.done hstop
  refine ⟨rs, hd, ?_, fun i x r h1 h2 => hr i r h2 x h1⟩
  have := hfin.len
  rw [hd, List.length_map] at this
  omega

/-- C55 over the reals: if every operator of the formula is applied inside its domain of differentiability, the
entries of every run are the partial derivatives of the formula as a function of its Variables. -/
theorem C55_formula_real {σ : St ℝ} (h : Run realPrim σ) {e : Exp ℝ}
    (hl : ∀ p ∈ e.leaves, p < σ.defs.size ∧ σ.defs.items p = []) (hp : ∀ p ∈ e.pars, p < σ.defs.psize)
    (hdom : (stored e 0).InDom σ.defs.par σ.defs.base) {xs : List ℕ} (hx : ∀ x ∈ xs, x < σ.defs.size)
    {c : Pool ℝ ℝ} (hc : Pool.Steps (gradPool realPrim (fun c => define c e) xs σ) c) (hs : ∀ b, ¬ Pool.Step c b) :
    ∃ rs, c.Done rs ∧ rs.length = xs.length ∧ ∀ (i x : ℕ) (r : ℝ), xs[i]? = some x → rs[i]? = some r →
      HasDerivAt (fun t => e.val realPrim σ.defs.par (Function.update σ.defs.base x t)) r (σ.defs.base x) := by
  obtain ⟨rs, h1, h2, h3⟩ := (C55_formula h hl hp hx).2 c hc hs
  refine ⟨rs, h1, h2, fun i x r hi hr => ?_⟩
  rw [h3 i x r hi hr]
  have key := Node.hasDerivAt (stored e 0) (π := σ.defs.par) (r := fun t => Function.update σ.defs.base x t)
    (δ := fun q => if q = x then 1 else 0) (t := σ.defs.base x) (fun p _ => ?_)
    (by rw [Function.update_eq_self]; exact hdom)
  · simpa only [stored_val, stored_der, Function.update_eq_self] using key
  · by_cases hpx : p = x
    · subst hpx; simpa using hasDerivAt_id' (σ.defs.base p)
    · simpa [Function.update_of_ne hpx, hpx] using hasDerivAt_const (σ.defs.base x) (σ.defs.base p)

/-! ## Expressions: the tasks share the Expression -/

/-- The heap of the Expression version: every copy refers to `y` itself. -/
theorem gradHeap_ref {σ : St K} (h : Run P σ) {y : ℕ} (hy : y < σ.defs.size) (hyi : σ.defs.items y ≠ [])
    (xs : List ℕ) :
    let τ := gradHeap (fun c => assignRef c y) xs σ
    Run P τ ∧ τ.defs.size = σ.defs.size + xs.length ∧ τ.defs.par = σ.defs.par ∧
      (∀ q < σ.defs.size, τ.defs.items q = σ.defs.items q ∧ τ.defs.base q = σ.defs.base q ∧
        τ.mem.visited q = σ.mem.visited q) ∧
      ∀ c, σ.defs.size ≤ c → c < σ.defs.size + xs.length →
        τ.defs.items c = [.leaf y] ∧ τ.mem.visited c = false := by
  intro τ
  obtain ⟨a1, a2, a3, a4, a5, a6, a7⟩ := newCopies_spec xs.length h
  have hrun : ∀ (cs : List ℕ) (σ' : St K), Run P σ' → (∀ c ∈ cs, c < σ'.defs.size ∧ σ'.defs.items c ≠ []) →
      y < σ'.defs.size → σ'.defs.items y ≠ [] → Run P (fillCopies (fun c => assignRef c y) cs σ') := by
    intro cs
    induction cs with
    | nil => intro σ' h' _ _ _; exact h'
    | cons c cs ih =>
        intro σ' h' hc hl hp
        have key : ∀ q, σ'.defs.items q ≠ [] → (assignRef c y σ').defs.items q ≠ [] := by
          intro q hq
          by_cases hcc : q = c
          · subst hcc; simp [assignRef]
          · simpa [assignRef, hcc] using hq
        exact ih (assignRef c y σ') (h'.defineRef c y (hc c (by simp)).1 (hc c (by simp)).2 hl hp)
          (fun c' hc' => ⟨(hc c' (by simp [hc'])).1, key _ (hc c' (by simp [hc'])).2⟩) hl (key _ hp)
  have hmem : ∀ c ∈ (newCopies xs.length σ).1, σ.defs.size ≤ c ∧ c < σ.defs.size + xs.length := by
    intro c hc; rw [a1] at hc; exact mem_copies.1 hc
  obtain ⟨b1, b2, b3, b4, b5, b6⟩ := fillCopies_spec (assign := fun c => assignRef c y) (I := fun l => l = [.leaf y])
    (Z := fun c _ => c ≠ y) (fun c σ hc => ⟨rfl, rfl, rfl, rfl, by simp [assignRef, hc.symm],
      fun q hq => by simp [assignRef, hq]⟩) (fun c c' σ _ h _ => h) (newCopies xs.length σ).1 (newCopies xs.length σ).2
    (by rw [a1]; exact nodup_copies _ _) (fun c hc hce => by have := (hmem c hc).1; omega)
  refine ⟨hrun _ _ a2 (fun c hc => ⟨by rw [a3]; exact (hmem c hc).2, (a7 c (hmem c hc).1 (hmem c hc).2).1⟩)
    (by rw [a3]; omega) (by rw [(a6 y hy).1]; exact hyi), b2.trans a3,
    b3.trans a5, fun q hq => ?_, fun c h1 h2 => ⟨b5 c (by rw [a1]; exact mem_copies.2 ⟨h1, h2⟩), ?_⟩⟩
  · refine ⟨(b6 q fun hq' => ?_).trans (a6 q hq).1, ?_, ?_⟩
    · have := (hmem q hq').1; omega
    · show (fillCopies _ (newCopies xs.length σ).1 (newCopies xs.length σ).2).defs.base q = _
      rw [b4]; exact (a6 q hq).2.1
    · show (fillCopies _ (newCopies xs.length σ).1 (newCopies xs.length σ).2).mem.visited q = _
      rw [b1]; exact (a6 q hq).2.2
  · show (fillCopies _ (newCopies xs.length σ).1 (newCopies xs.length σ).2).mem.visited c = _
    rw [b1]; exact (a7 c h1 h2).2

/-- The tasks after `pre`, one after the other. -/
theorem Pool.steps_phase {ι α : Type} {g g' : ι → Prog K α} (Inv : List ι → Mem K → Prop)
    (h : ∀ a l m, Inv (a :: l) m → ∃ m', Inv l m' ∧ ∀ (ts : List (Prog K α)) (i : ℕ), ts[i]? = some (g a) →
      Pool.Steps ⟨ts, m⟩ ⟨ts.set i (g' a), m'⟩) :
    ∀ (l : List ι) (pre : List (Prog K α)) (m : Mem K), Inv l m →
      ∃ m', Inv [] m' ∧ Pool.Steps ⟨pre ++ l.map g, m⟩ ⟨pre ++ l.map g', m'⟩ := by
  intro l
  induction l with
  | nil => intro pre m hi; exact ⟨m, hi, .refl _⟩
  | cons a l ih =>
      intro pre m hi
      obtain ⟨m1, hi1, hs⟩ := h a l m hi
      obtain ⟨m2, hi2, hs2⟩ := ih (pre ++ [g' a]) m1 hi1
      refine ⟨m2, hi2, ?_⟩
      have := hs (pre ++ (a :: l).map g) pre.length (by simp)
      simp only [List.map_cons, List.set_append, lt_irrefl, if_false, Nat.sub_self, List.set_cons_zero] at this
      refine this.trans ?_
      simpa using hs2

/-- The reset of a copy that refers to `y`, when neither is flagged. -/
theorem resetImpl_ref {D : Defs K} {c y : ℕ} (hc : D.items c = [.leaf y]) (hcy : c ≠ y) {m : Mem K}
    (h1 : m.visited c = false) (h2 : m.visited y = false) :
    resetImpl D D.fuel c m = some (m.clearObj D y) := by
  have h2' : (m.setVisited c true).visited y = false := by simpa [Mem.setVisited, hcy.symm] using h2
  simp only [resetImpl, hc, resetItems, resetN, Defs.fuel, resetO, h2', Bool.false_eq_true, if_false,
    Option.bind_eq_bind, Option.bind_some, Option.some.injEq]
  ext q <;> simp only [Mem.setVisited, Mem.clearObj, Mem.setValue, Mem.setDValue, Mem.setCache]
  · by_cases hq : q = c
    · subst hq; simp [hcy, h1]
    · by_cases hq' : q = y
      · subst hq'; simp [hq]
      · simp [hq, hq']

/-- Forward mode at a copy that refers to an object already visited: it reports what that object holds. -/
theorem fwdO_ref {D : Defs K} {c y k : ℕ} (hc : D.items c = [.leaf y]) (hcy : c ≠ y) (hck : D.nidx c ≠ k)
    (hyk : D.nidx y ≠ k) {m : Mem K} (h1 : m.visited c = false) (h2 : m.visited y = true) :
    fwdO P D k D.fuel c m =
      some (m.dvalue y, ((m.setVisited c true).setDValue c (m.dvalue y)).setValue c (m.value y)) := by
  have h2' : (m.setVisited c true).visited y = true := by simpa [Mem.setVisited, hcy.symm] using h2
  have h3 : ((m.setVisited c true).setDValue c (m.dvalue y)).visited y = true := h2'
  have hv : ((m.setVisited c true).setDValue c (m.dvalue y)).value y = m.value y := rfl
  have hd : (m.setVisited c true).dvalue y = m.dvalue y := rfl
  simp only [Defs.fuel, fwdO, h1, if_true, hc, fwdItems, fwdN, evalN, evalO, h2', Bool.true_eq_false, if_false,
    Option.bind_eq_bind, Option.bind_some, hyk, hck, hd, h3, hv]
  simp [Mem.setValue, Mem.setDValue]

/-- Forward mode at a copy that refers to `y`: the answer is what `y` holds afterwards. -/
theorem fwdO_ref_dvalue {D : Defs K} {c y k : ℕ} (hc : D.items c = [.leaf y]) (hcy : c ≠ y) (hck : D.nidx c ≠ k)
    (hyk : D.nidx y ≠ k) {m m' : Mem K} {v : K} (h1 : m.visited c = false)
    (h : fwdO P D k D.fuel c m = some (v, m')) : m'.dvalue y = v := by
  obtain ⟨f, hf⟩ : ∃ f, D.fuel = f + 1 := ⟨D.size + 1, rfl⟩
  rw [hf] at h
  simp only [fwdO, h1, if_true, hc, fwdItems, fwdN, evalN, Option.bind_eq_bind, hck, if_false] at h
  have key : ∀ {m1 m2 : Mem K} {d : K}, fwdO P D k f y m1 = some (d, m2) → m2.dvalue y = d := by
    intro m1 m2 d hh
    cases f with
    | zero => simp [fwdO] at hh
    | succ f =>
      simp only [fwdO, hyk, if_false] at hh
      split at hh
      · cases hf : fwdItems P D (evalO P D f) (fwdO P D k f) y (D.items y) (m1.setVisited y true) with
        | none => simp [hf] at hh
        | some m3 => simp [hf] at hh; rw [← hh.2]; exact hh.1
      · simp at hh; rw [← hh.2]; exact hh.1
  cases hf : fwdO P D k f y (m.setVisited c true) with
  | none => simp [hf] at h
  | some r =>
    obtain ⟨d, m2⟩ := r
    simp only [hf, Option.bind_some] at h
    have hd := key hf
    cases he : evalO P D f y (m2.setDValue c d) with
    | none => simp [he] at h
    | some r =>
      obtain ⟨u, m3⟩ := r
      have hk : m3.dvalue = (m2.setDValue c d).dvalue :=
        evalO_keep P D Mem.dvalue (by intros; rfl) (by intros; rfl) _ _ _ _ _ he
      simp only [he, Option.bind_some, Option.some.injEq, Prod.mk.injEq] at h
      obtain ⟨rfl, rfl⟩ := h
      simp only [Mem.setValue, hk, Mem.setDValue, Function.update_self, ne_eq, hcy.symm, not_false_eq_true,
        Function.update_of_ne]
      exact hd

/-- C55, the race.  `DevalF(y, X)` for an Expression `y`, in a parallel build (the default: line 127 sends every
Expression that is not recursive to the parallel branch), at any reachable state with no stored result below `y`:
there is an interleaving of the tasks in which EVERY entry of the answer is the derivative with respect to the
first element of `X`. -/
theorem C55_race_counterexample {σ : St K} (h : Run P σ) {y : ℕ} (hy : y < σ.defs.size) (hyi : σ.defs.items y ≠ [])
    (hwd : WellDefined σ.defs y) (hfresh : ∀ q, Reach σ.defs y q → σ.defs.items q ≠ [] → σ.mem.visited q = false)
    {x : ℕ} {xs : List ℕ} (hx : ∀ z ∈ x :: xs, z < σ.defs.size ∧ σ.defs.items z = []) :
    ∃ v c rs, DerivOf P σ.defs y x v ∧ Pool.Steps (gradPool P (fun c => assignRef c y) (x :: xs) σ) c ∧
      c.Done rs ∧ rs = List.replicate (xs.length + 1) v := by
  obtain ⟨a1, -⟩ := newCopies_spec (x :: xs).length h
  obtain ⟨t1, t2, t3, t4, t5⟩ := gradHeap_ref h hy hyi (x :: xs)
  set τ := gradHeap (fun c => assignRef c y) (x :: xs) σ with hτ
  set D := τ.defs with hD
  have hw := t1.wf
  have hcl := h.wf.defs.closed
  have hreach : ∀ q, Reach σ.defs y q → q < σ.defs.size := fun q hq => Reach.lt hcl hy hq
  have hri : ∀ q, Reach σ.defs y q → D.items q = σ.defs.items q := fun q hq => (t4 q (hreach q hq)).1
  -- the pairs (copy, variable)
  have hcs : ∃ cs, (newCopies (x :: xs).length σ).1 = σ.defs.size :: cs ∧ cs.length = xs.length ∧
      (∀ c ∈ cs, σ.defs.size < c ∧ c < σ.defs.size + (x :: xs).length) ∧ cs.Nodup := by
    refine ⟨(List.range xs.length).map (σ.defs.size + 1 + ·), ?_, by simp, fun c hc => ?_, nodup_copies _ _⟩
    · rw [a1, List.length_cons, List.range_succ_eq_map, List.map_cons, List.map_map]
      simp only [Nat.add_zero, List.cons.injEq, true_and]
      apply List.map_congr_left
      intro i _
      simp only [Function.comp]; omega
    · have := mem_copies.1 hc
      simp only [List.length_cons]; omega
  obtain ⟨cs, hcs, hcl', hcm, hcn⟩ := hcs
  set c₁ := σ.defs.size with hc₁
  have hlen : (x :: xs).length = xs.length + 1 := rfl
  have hcopy : ∀ c, c = c₁ ∨ c ∈ cs → D.items c = [.leaf y] ∧ τ.mem.visited c = false ∧ c ≠ y ∧ c < D.size ∧
      c₁ ≤ c := by
    rintro c (rfl | hc)
    · have := t5 c₁ le_rfl (by simp only [List.length_cons]; omega)
      exact ⟨this.1, this.2, by omega, by rw [t2]; simp only [List.length_cons]; omega, le_rfl⟩
    · have hm := hcm c hc
      have := t5 c (by omega) hm.2
      exact ⟨this.1, this.2, by omega, by rw [t2]; exact hm.2, by omega⟩
  have hyD : y < D.size := by rw [t2]; omega
  have hzD : ∀ z ∈ x :: xs, z < D.size := fun z hz => by rw [t2]; have := (hx z hz).1; omega
  have hck : ∀ c, (c = c₁ ∨ c ∈ cs) → ∀ z ∈ x :: xs, D.nidx c ≠ D.nidx z := by
    intro c hc z hz he
    have := hw.defs.inj c (hcopy c hc).2.2.2.1 z (hzD z hz) he
    have := (hx z hz).1; have := (hcopy c hc).2.2.2.2; omega
  have hyk : ∀ z ∈ x :: xs, D.nidx y ≠ D.nidx z := by
    intro z hz he
    have := hw.defs.inj y hyD z (hzD z hz) he
    subst this; exact hyi (hx y hz).2
  have hyv : τ.mem.visited y = false := by rw [(t4 y hy).2.2]; exact hfresh y .refl hyi
  -- what the first task computes
  have hr1 : ∀ q, Reach D c₁ q → q = c₁ ∨ Reach σ.defs y q := by
    intro q hq
    induction hq with
    | refl => exact Or.inl rfl
    | @step q p i _ hi hp ih =>
        rcases ih with rfl | ih
        · rw [(hcopy c₁ (Or.inl rfl)).1, List.mem_singleton] at hi
          subst hi
          simp only [Node.leaves, List.mem_singleton] at hp
          subst hp; exact Or.inr .refl
        · rw [hri q ih] at hi; exact Or.inr (ih.step hi hp)
  have hwd1 : WellDefined D c₁ := by
    obtain ⟨⟨rk, h1⟩, h2⟩ := hwd
    have hne : ∀ q, Reach σ.defs y q → q ≠ c₁ := fun q hq he => by have := hreach q hq; omega
    refine ⟨⟨fun q => if q = c₁ then rk y + 1 else rk q, fun q hq i hi p hp => ?_⟩, fun q hq i is hi hqi => ?_⟩
    · rcases hr1 q hq with rfl | hq
      · rw [(hcopy c₁ (Or.inl rfl)).1, List.mem_singleton] at hi
        subst hi
        simp only [Node.leaves, List.mem_singleton] at hp
        subst hp
        right; simp [hne p .refl]
      · rw [hri q hq] at hi
        simp only [hne q hq, hne p (hq.step hi hp), if_false]
        exact h1 q hq i hi p hp
    · rcases hr1 q hq with rfl | hq
      · rw [(hcopy c₁ (Or.inl rfl)).1] at hi
        simp only [List.cons.injEq] at hi
        rw [← hi.1] at hqi
        simp only [Node.leaves, List.mem_singleton] at hqi
        omega
      · rw [hri q hq] at hi; exact h2 q hq i is hi hqi
  have hsafe : Safe D (fun q => τ.mem.visited q = true) c₁ := by
    intro q hq hqc _ i hi p hp hpi hv
    rcases hr1 q hq with rfl | hq
    · exact hqc rfl
    · rw [hri q hq] at hi
      have hpr := hq.step hi hp
      rw [hri p hpr] at hpi
      rw [(t4 p (hreach p hpr)).2.2, hfresh p hpr hpi] at hv
      simp at hv
  obtain ⟨ρ, hρ⟩ := hwd1.exists_solves (P := P)
  obtain ⟨δ, hδ⟩ := hwd1.exists_tangent (P := P) x ρ
  obtain ⟨σ', he, hq⟩ := DevalF_spec P hw (hcopy c₁ (Or.inl rfl)).2.2.2.1 (hzD x (by simp)) hwd1 hsafe hρ hδ
  have hcx : c₁ ≠ x := by have := (hx x (by simp)).1; omega
  have hder : DerivOf P σ.defs y x (δ c₁) :=
    (DerivOf.congr (fun q hq => hri q hq) (fun q hq => (t4 q (hreach q hq)).2.1) t3).1
      (DerivOf.of_ref (hcopy c₁ (Or.inl rfl)).1 (hcopy c₁ (Or.inl rfl)).2.2.1 hcx ⟨ρ, δ, hρ, hδ, rfl⟩)
  set m₁ := τ.mem.clearObj D y with hm₁
  have hm₁v : ∀ c, (c = c₁ ∨ c ∈ cs) → m₁.visited c = false := by
    intro c hc
    obtain ⟨-, g2, g3, -⟩ := hcopy c hc
    simpa [hm₁, Mem.clearObj, Mem.setVisited, Mem.setValue, Mem.setDValue, Mem.setCache, g3] using g2
  have hm₁y : m₁.visited y = false := by
    simp [hm₁, Mem.clearObj, Mem.setVisited, Mem.setValue, Mem.setDValue, Mem.setCache]
  have hm₁i : m₁.clearObj D y = m₁ := by
    ext q <;> simp [hm₁, Mem.clearObj, Mem.setVisited, Mem.setValue, Mem.setDValue, Mem.setCache]
  have hreset₁ : resetImpl D D.fuel c₁ τ.mem = some m₁ :=
    resetImpl_ref (hcopy c₁ (Or.inl rfl)).1 (hcopy c₁ (Or.inl rfl)).2.2.1 (hcopy c₁ (Or.inl rfl)).2.1 hyv
  have hfwd₁ : fwdO P D (D.nidx x) D.fuel c₁ m₁ = some (δ c₁, σ'.mem) := by
    have he' := he
    simp only [DevalF, ← hD, hreset₁, Option.bind_eq_bind, Option.bind_some] at he'
    cases hf : fwdO P D (D.nidx x) D.fuel c₁ m₁ with
    | none => simp [hf] at he'
    | some r =>
      obtain ⟨a, b⟩ := r
      simp only [hf, Option.bind_some, Option.some.injEq, Prod.mk.injEq] at he'
      rw [← he'.1, ← he'.2]
  set v := δ c₁ with hv
  have hyd : σ'.mem.dvalue y = v :=
    fwdO_ref_dvalue (hcopy c₁ (Or.inl rfl)).1 (hcopy c₁ (Or.inl rfl)).2.2.1 (hck c₁ (Or.inl rfl) x (by simp))
      (hyk x (by simp)) (hm₁v c₁ (Or.inl rfl)) hfwd₁
  have hyv' : σ'.mem.visited y = true :=
    hq.vis y (Reach.of_leaf (i := .leaf y) (by rw [← hD, (hcopy c₁ (Or.inl rfl)).1]; simp) (by simp [Node.leaves]))
  have hcv' : ∀ c ∈ cs, σ'.mem.visited c = false := by
    intro c hc
    rw [(hq.out c fun hr => ?_).1]
    · exact (hcopy c (Or.inr hc)).2.1
    · rcases hr1 c hr with rfl | hr
      · have := (hcm c₁ hc).1; omega
      · have := hreach c hr; have := (hcm c hc).1; omega
  -- the interleaving: all resets, then the rest of each task
  let l := cs.zip xs
  have hl : ∀ p ∈ l, p.1 ∈ cs ∧ p.2 ∈ xs := fun p hp => ⟨(List.of_mem_zip hp).1, (List.of_mem_zip hp).2⟩
  let g : ℕ × ℕ → Prog K K := fun p => devalFT P D p.1 p.2
  let g' : ℕ × ℕ → Prog K K := fun p => fwdOT P D (D.nidx p.2) D.fuel p.1
  have hg : ∀ p : ℕ × ℕ, g p = (resetImplT D D.fuel p.1).bind fun _ => g' p := fun p => rfl
  have hstart : gradPool P (fun c => assignRef c y) (x :: xs) σ = ⟨g (c₁, x) :: l.map g, τ.mem⟩ := by
    simp only [gradPool, gradTasks, hcs, List.zip_cons_cons, List.map_cons, ← hτ, ← hD]
    rfl
  have s1 : Pool.Steps (⟨g (c₁, x) :: l.map g, τ.mem⟩ : Pool K K) ⟨g' (c₁, x) :: l.map g, m₁⟩ :=
    Pool.steps_run (i := 0) (resetImplT D D.fuel c₁) (fun _ => g' (c₁, x)) (a := ())
      (by rw [resetImplT_run, hreset₁]; rfl) rfl
  obtain ⟨m2, hm2, s2⟩ := Pool.steps_phase (g := g) (g' := g') (fun l m => (∀ p ∈ l, p.1 ∈ cs) ∧ m = m₁)
    (fun p l m hi => by
      obtain ⟨h1, rfl⟩ := hi
      have hp := hcopy p.1 (Or.inr (h1 p (by simp)))
      refine ⟨m₁, ⟨fun q hq => h1 q (by simp [hq]), rfl⟩, fun ts i hts => ?_⟩
      refine Pool.steps_run (resetImplT D D.fuel p.1) (fun _ => g' p) (a := ()) ?_ hts
      rw [resetImplT_run, resetImpl_ref hp.1 hp.2.2.1 (hm₁v _ (Or.inr (h1 p (by simp)))) hm₁y, hm₁i]
      rfl) l [g' (c₁, x)] m₁ ⟨fun p hp => (hl p hp).1, rfl⟩
  obtain rfl := hm2.2
  have s3 : Pool.Steps (⟨g' (c₁, x) :: l.map g', m₁⟩ : Pool K K) ⟨ret v :: l.map g', σ'.mem⟩ := by
    refine Pool.steps_run (i := 0) (g' (c₁, x)) (fun r => ret r) (a := v) ?_ ?_
    · exact (fwdOT_run P D _ _ _ _).trans hfwd₁
    · rw [Prog.bind_ret]; rfl
  obtain ⟨m4, -, s4⟩ := Pool.steps_phase (g := g') (g' := fun _ => ret v)
    (fun l m => (∀ p ∈ l, p.1 ∈ cs ∧ p.2 ∈ xs ∧ m.visited p.1 = false) ∧ (l.map Prod.fst).Nodup ∧
      m.visited y = true ∧ m.dvalue y = v)
    (fun p l m hi => by
      obtain ⟨h1, h2, h3, h4⟩ := hi
      obtain ⟨p1, p2, p3⟩ := h1 p (by simp)
      have hp := hcopy p.1 (Or.inr p1)
      rw [List.map_cons, List.nodup_cons] at h2
      refine ⟨((m.setVisited p.1 true).setDValue p.1 (m.dvalue y)).setValue p.1 (m.value y),
        ⟨fun q hq => ?_, h2.2, ?_, ?_⟩, fun ts i hts => ?_⟩
      · have hqp : q.1 ≠ p.1 := fun he => h2.1 (by rw [← he]; exact List.mem_map_of_mem hq)
        obtain ⟨q1, q2, q3⟩ := h1 q (by simp [hq])
        exact ⟨q1, q2, by simpa [Mem.setVisited, Mem.setValue, Mem.setDValue, hqp] using q3⟩
      · simpa [Mem.setVisited, Mem.setValue, Mem.setDValue, hp.2.2.1.symm] using h3
      · simpa [Mem.setVisited, Mem.setValue, Mem.setDValue, hp.2.2.1.symm] using h4
      · refine Pool.steps_run (g' p) (fun r => ret r) (a := v) ?_ (by rw [Prog.bind_ret]; exact hts)
        rw [← h4]
        exact (fwdOT_run P D _ _ _ _).trans (fwdO_ref hp.1 hp.2.2.1 (hck _ (Or.inr p1) _ (by simp [p2]))
          (hyk _ (by simp [p2])) p3 h3)) l [ret v] σ'.mem
    ⟨fun p hp => ⟨(hl p hp).1, (hl p hp).2, hcv' _ (hl p hp).1⟩, by
      rw [show l.map Prod.fst = cs from List.map_fst_zip (by omega)]; exact hcn, hyv', hyd⟩
  refine ⟨v, ⟨[ret v] ++ l.map (fun _ => ret v), m4⟩, List.replicate (xs.length + 1) v, hder, ?_, ?_, rfl⟩
  · rw [hstart]; exact s1.trans (s2.trans (s3.trans s4))
  · have hll : l.length = xs.length := by simp [l, hcl']
    show [ret v] ++ l.map (fun _ => ret v) = _
    rw [List.map_const', hll, List.map_replicate, List.replicate_succ]
    rfl

namespace Ex

/-- `C55_formula` applies to `DevalF(x*z + x, {x, z}, false)` after a history with queries, and the run ends with
`(4, 2)`. -/
example : ∃ σ', DevalF P0 4 1 s0 = some (37, σ') ∧
    ∀ c, Pool.Steps (gradPool P0 (fun c => define c (.add (.mul (.var 1) (.var 2)) (.var 1))) [1, 2] σ') c →
      (∀ b, ¬ Pool.Step c b) → c.Done [4, 2] := by
  have h : (DevalF P0 4 1 s0).map Prod.fst = some 37 := by decide +kernel
  cases hd : DevalF P0 4 1 s0 with
  | none => rw [hd] at h; cases h
  | some r =>
    rw [hd, Option.map_some, Option.some.injEq] at h
    refine ⟨r.2, by rw [← h], fun c hc hs => ?_⟩
    have hdef : r.2.defs = s0.defs := DevalF_defs hd
    have hrun : Run P0 r.2 := s0_hist.run.devalF 4 1 r.1 (by decide) (by decide) hd
    obtain ⟨rs, h1, h2, h3⟩ := (C55_formula hrun (e := .add (.mul (.var 1) (.var 2)) (.var 1))
      (by rw [hdef]; decide) (by rw [hdef]; decide) (xs := [1, 2]) (by rw [hdef]; decide)).2 c hc hs
    match rs, h2, h3, h1 with
    | [a, b], _, h3, h1 =>
      have e1 := h3 0 1 a rfl rfl
      have e2 := h3 1 2 b rfl rfl
      rw [hdef] at e1 e2
      have f1 : a = 4 := e1.trans (by decide +kernel)
      have f2 : b = 2 := e2.trans (by decide +kernel)
      rw [← f1, ← f2]; exact h1

/-- `DevalF(y, {x, z})` for the Expression `y = e*e + x` with `e = x*z` at `x = 2`, `z = 3`: the gradient is
`(37, 24)`, and there is a run that reports `(37, 37)`. -/
theorem C55_wrong_counterexample : DerivOf P0 s0.defs 4 1 37 ∧ DerivOf P0 s0.defs 4 2 24 ∧
    ∃ c, Pool.Steps (gradPool P0 (fun c => assignRef c 4) [1, 2] s0) c ∧ c.Done [37, 37] := by
  have hfresh : ∀ q, Reach s0.defs 4 q → s0.defs.items q ≠ [] → s0.mem.visited q = false := fun q hq _ => by
    have : q < 5 := Reach.lt s0_hist.inv.wf.defs.closed (by decide) hq
    exact (by decide +kernel : ∀ q < 5, s0.mem.visited q = false) q this
  have hder : ∀ x < 5, ∀ v, (DevalF P0 4 x s0).map Prod.fst = some v → DerivOf P0 s0.defs 4 x v := by
    intro x hx v hv
    obtain ⟨d, σ', e, hd, -⟩ := C02_fine_devalF s0_hist.run (y := 4) (x := x) (by decide) hx s0_wd
      (ready_of_fresh hfresh x).fwd
    rw [e, Option.map_some, Option.some.injEq] at hv
    rw [← hv]; exact hd
  have d1 := hder 1 (by decide) 37 (by decide +kernel)
  refine ⟨d1, hder 2 (by decide) 24 (by decide +kernel), ?_⟩
  obtain ⟨v, c, rs, h1, h2, h3, h4⟩ := C55_race_counterexample s0_hist.run (y := 4) (by decide) nofun s0_wd hfresh
    (x := 1) (xs := [2]) (by decide)
  obtain ⟨ρ, hρ⟩ := s0_wd.exists_solves (P := P0)
  obtain ⟨δ, hδ⟩ := s0_wd.exists_tangent (P := P0) 1 ρ
  have : v = 37 := (DerivOf.eq s0_wd h1 hρ hδ).trans (DerivOf.eq s0_wd d1 hρ hδ).symm
  subst this h4
  exact ⟨c, h2, h3⟩

end Ex

end CoolDiff
