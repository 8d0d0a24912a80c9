import Verif.Scalar.CostBuild
import Verif.Props.Orders
import Mathlib.Analysis.SpecificLimits.Normed

/-!
# C60: how many calls a query makes

The counters of `Verif/Scalar/Cost.lean`; `EvalC_erase`, `DevalFC_erase` and `PreCompC_erase` say that the counted
functions are the queries of the model.
-/

set_option linter.unusedSectionVars false

namespace CoolDiff

variable {K : Type} [Field K] [DecidableEq K] {P : Prim K}

open Classical in
/-- The objects `y` depends on, and `y`. -/
noncomputable def reached (D : Defs K) (y : ℕ) : Finset ℕ := (Finset.range D.size).filter (Reach D y)

/-- The number of nodes of the formulas `y` depends on. -/
noncomputable def nodes (D : Defs K) (y : ℕ) : ℕ := ∑ q ∈ reached D y, ((D.items q).map Node.size).sum

/-- All the formulas `y` depends on have operators nested at most `d` deep. -/
def DepthLe (D : Defs K) (y d : ℕ) : Prop := ∀ q, Reach D y q → ∀ i ∈ D.items q, i.depth ≤ d

theorem reached_closed {D : Defs K} (hc : D.Closed) {y : ℕ} (hy : y < D.size) : ClosedIn D (reached D y) := by
  intro q hq i hi p hp
  simp only [reached, Finset.mem_filter, Finset.mem_range] at hq ⊢
  have := Reach.step hq.2 hi hp
  exact ⟨Reach.lt hc hy this, this⟩

theorem mem_reached {D : Defs K} {y : ℕ} (hy : y < D.size) : y ∈ reached D y := by
  simp only [reached, Finset.mem_filter, Finset.mem_range]
  exact ⟨hy, Reach.refl⟩

theorem sum_weights_le {D : Defs K} {y c : ℕ} {f : Node K → ℕ} (h : ∀ q, Reach D y q → ∀ i ∈ D.items q, f i ≤ c * i.size) :
    ∑ q ∈ reached D y, ((D.items q).map f).sum ≤ c * nodes D y := by
  rw [nodes, Finset.mul_sum]
  refine Finset.sum_le_sum fun q hq => ?_
  simp only [reached, Finset.mem_filter] at hq
  rw [← List.sum_map_mul_left]
  exact List.sum_le_sum fun i hi => h q hq.2 i hi

theorem eraseC_some {α : Type} {x : Option (ℕ × α)} {r : α} (h : eraseC x = some r) : ∃ c, x = some (c, r) := by
  simp only [eraseC, Option.map_eq_some_iff] at h
  obtain ⟨a, rfl, rfl⟩ := h
  exact ⟨a.1, rfl⟩

/-- C60.  After any history, `Eval y` makes at most three calls per node of the formulas `y` depends on, plus one:
an Expression used in many places is computed once. -/
theorem C60_eval {σ : St K} (h : Run P σ) {y : ℕ} (hy : y < σ.defs.size) :
    ∃ c v σ', EvalC P y σ = some (c, v, σ') ∧ Eval P y σ = some (v, σ') ∧ c ≤ 3 * nodes σ.defs y + 1 := by
  obtain ⟨⟨v, σ', he⟩, -⟩ := C12_terminates h hy
  obtain ⟨c, hc⟩ := eraseC_some ((EvalC_erase P y σ).trans he)
  refine ⟨c, v, σ', hc, he, ?_⟩
  simp only [EvalC, Option.bind_eq_some_iff, Option.some.injEq] at hc
  obtain ⟨r, hr, s, hs, e⟩ := hc
  have h1 := resetImplC_le (reached_closed h.wf.defs.closed hy) (mem_reached hy) hr
  have h2 := evalOC_le (P := P) (reached_closed h.wf.defs.closed hy) (w := fun q => ((σ.defs.items q).map Node.size).sum)
    (fun _ _ => le_refl _) _ y (mem_reached hy) _ s hs
  have h3 := potential_le false (reached σ.defs y) (fun q => ((σ.defs.items q).map Node.size).sum) r.2
  have e := congrArg Prod.fst e
  simp only at e
  simp only [nodes]
  omega

/-- C60.  After any history, if operators are nested at most `d` deep, `DevalF y x` makes at most `d + 4` calls per
node of the formulas `y` depends on, plus one. -/
theorem C60_devalF {σ : St K} (h : Run P σ) {y x : ℕ} (hy : y < σ.defs.size) {d : ℕ} (hd : DepthLe σ.defs y d) :
    ∃ c v σ', DevalFC P y x σ = some (c, v, σ') ∧ DevalF P y x σ = some (v, σ') ∧ c ≤ (d + 4) * nodes σ.defs y + 1 := by
  obtain ⟨-, h12, -⟩ := C12_terminates h hy
  obtain ⟨v, σ', he⟩ := h12 x
  obtain ⟨c, hc⟩ := eraseC_some ((DevalFC_erase P y x σ).trans he)
  refine ⟨c, v, σ', hc, he, ?_⟩
  simp only [DevalFC, Option.bind_eq_some_iff, Option.some.injEq] at hc
  obtain ⟨r, hr, s, hs, e⟩ := hc
  have h1 := resetImplC_le (reached_closed h.wf.defs.closed hy) (mem_reached hy) hr
  have h2 := fwdOC_le (P := P) (reached_closed h.wf.defs.closed hy)
    (w := fun q => ((σ.defs.items q).map fun i => i.fwdSize + i.size).sum)
    (fun _ _ => le_refl _) _ _ y (mem_reached hy) _ s hs
  have h3 := potential_le false (reached σ.defs y) (fun q => ((σ.defs.items q).map fun i => i.fwdSize + i.size).sum) r.2
  have h4 : ∑ q ∈ reached σ.defs y, ((σ.defs.items q).map fun i => i.fwdSize + i.size).sum ≤ (d + 2) * nodes σ.defs y :=
    sum_weights_le fun q hq i hi => by
      have := i.fwdSize_le
      have := Nat.mul_le_mul_right i.size (hd q hq i hi)
      nlinarith
  have e := congrArg Prod.fst e
  simp only at e
  have h1 : r.1 ≤ 2 * nodes σ.defs y := h1
  nlinarith

theorem Node.depth_lt_size (t : Node K) : t.depth < t.size := by
  induction t with
  | leaf => simp [depth, size]
  | par => simp [depth, size]
  | op1 n f a ih => simp only [depth, size]; omega
  | op2 n f a b iha ihb => simp only [depth, size]; omega

/-- C60.  Without a bound on the nesting: `DevalF` makes at most quadratically many calls. -/
theorem C60_devalF_quadratic {σ : St K} (h : Run P σ) {y x : ℕ} (hy : y < σ.defs.size) :
    ∃ c v σ', DevalFC P y x σ = some (c, v, σ') ∧ DevalF P y x σ = some (v, σ') ∧
      c ≤ (nodes σ.defs y + 4) * nodes σ.defs y + 1 := by
  refine C60_devalF h hy fun q hq i hi => ?_
  have hq' : q ∈ reached σ.defs y := by
    simp only [reached, Finset.mem_filter, Finset.mem_range]
    exact ⟨Reach.lt h.wf.defs.closed hy hq, hq⟩
  have h1 := i.depth_lt_size
  have h2 : i.size ≤ ((σ.defs.items q).map Node.size).sum := List.single_le_sum (by simp) _ (List.mem_map_of_mem hi)
  have h3 : ((σ.defs.items q).map Node.size).sum ≤ nodes σ.defs y :=
    Finset.single_le_sum (f := fun q => ((σ.defs.items q).map Node.size).sum) (fun _ _ => Nat.zero_le _) hq'
  omega

/-- C60.  After any history, if operators are nested at most `d` deep, `PreComp y` makes at most `2 + 2^(d+1)` calls
per node of the formulas `y` depends on, plus one: it is linear in the number of Expressions. -/
theorem C60_preComp_partial {σ : St K} (h : Run P σ) {y : ℕ} (hy : y < σ.defs.size) {d : ℕ} (hd : DepthLe σ.defs y d) :
    ∃ c σ', PreCompC P y σ = some (c, σ') ∧ PreComp P y σ = some σ' ∧ c ≤ (2 + 2 ^ (d + 1)) * nodes σ.defs y + 1 := by
  obtain ⟨-, -, ⟨σ', he⟩, -⟩ := C12_terminates h hy
  obtain ⟨c, hc⟩ := eraseC_some ((PreCompC_erase P y σ).trans he)
  refine ⟨c, σ', hc, he, ?_⟩
  simp only [PreCompC, Option.bind_eq_some_iff, Option.some.injEq] at hc
  obtain ⟨r, hr, s, hs, e⟩ := hc
  have h1 := resetImplC_le (reached_closed h.wf.defs.closed hy) (mem_reached hy) hr
  have h2 := revOC_le (P := P) (reached_closed h.wf.defs.closed hy)
    (w := fun q => ((σ.defs.items q).map fun i => i.revSize + i.size).sum)
    (fun _ _ => le_refl _) _ y (mem_reached hy) _ s hs
  have h3 := potential_le false (reached σ.defs y) (fun q => ((σ.defs.items q).map fun i => i.revSize + i.size).sum) r.2
  have h4 : ∑ q ∈ reached σ.defs y, ((σ.defs.items q).map fun i => i.revSize + i.size).sum ≤ 2 ^ (d + 1) * nodes σ.defs y :=
    sum_weights_le fun q hq i hi =>
      i.revSize_le.trans (Nat.mul_le_mul_right _ (Nat.pow_le_pow_right (by omega) (Nat.succ_le_succ (hd q hq i hi))))
  have e := congrArg Prod.fst e
  simp only at e
  have h1 : r.1 ≤ 2 * nodes σ.defs y := h1
  nlinarith

/-- C60.  After any history, `PreComp y` makes at least `2^d` calls if a formula of `y` has operators nested `d`
deep: `traverse` of an operator traverses its operands twice. -/
theorem C60_preComp_exponential {σ : St K} (h : Run P σ) {y : ℕ} (hy : y < σ.defs.size) {i : Node K}
    (hi : i ∈ σ.defs.items y) :
    ∃ c σ', PreCompC P y σ = some (c, σ') ∧ PreComp P y σ = some σ' ∧ 2 ^ i.depth ≤ c := by
  obtain ⟨-, -, ⟨σ', he⟩, -⟩ := C12_terminates h hy
  obtain ⟨c, hc⟩ := eraseC_some ((PreCompC_erase P y σ).trans he)
  refine ⟨c, σ', hc, he, ?_⟩
  simp only [PreCompC, Option.bind_eq_some_iff, Option.some.injEq] at hc
  obtain ⟨r, hr, s, hs, e⟩ := hc
  simp only [resetImplC, Option.bind_eq_some_iff, Option.some.injEq] at hr
  obtain ⟨u, -, rfl⟩ := hr
  have hv : (u.2.setVisited y false).visited y = false := by simp [Mem.setVisited]
  rw [show σ.defs.fuel = (σ.defs.size + 1) + 1 from rfl, revOC, if_pos hv] at hs
  simp only [Option.bind_eq_some_iff, Option.some.injEq] at hs
  obtain ⟨x, hx, rfl⟩ := hs
  have h1 := revItemsC_ge y _ _ x hx i hi
  have e := congrArg Prod.fst e
  simp only at e
  omega

/-- C60.  The counters count: every node of every formula of `y` is reached by the reset and by the evaluation of
every query, and by the derivative of `DevalF`. -/
theorem C60_at_least {σ : St K} {y x : ℕ} :
    (∀ c v σ', EvalC P y σ = some (c, v, σ') → 2 * ((σ.defs.items y).map Node.size).sum + 1 ≤ c) ∧
    (∀ c v σ', DevalFC P y x σ = some (c, v, σ') → 3 * ((σ.defs.items y).map Node.size).sum + 1 ≤ c) ∧
    (∀ c σ', PreCompC P y σ = some (c, σ') → ∀ i ∈ σ.defs.items y,
      2 ^ i.depth + 2 * ((σ.defs.items y).map Node.size).sum ≤ c) := by
  refine ⟨fun c v σ' h => ?_, fun c v σ' h => ?_, fun c σ' h i hi => ?_⟩
  · simp only [EvalC, Option.bind_eq_some_iff, Option.some.injEq] at h
    obtain ⟨r, hr, s, hs, e⟩ := h
    obtain ⟨h1, hv⟩ := resetImplC_ge hr
    rw [show σ.defs.fuel = (σ.defs.size + 1) + 1 from rfl, evalOC, if_pos hv] at hs
    simp only [Option.bind_eq_some_iff, Option.some.injEq] at hs
    obtain ⟨u, hu, rfl⟩ := hs
    have h2 := evalItemsC_ge (evalOC_pos _) y _ _ u hu
    have e := congrArg Prod.fst e
    simp only at e
    omega
  · simp only [DevalFC, Option.bind_eq_some_iff, Option.some.injEq] at h
    obtain ⟨r, hr, s, hs, e⟩ := h
    obtain ⟨h1, hv⟩ := resetImplC_ge hr
    rw [show σ.defs.fuel = (σ.defs.size + 1) + 1 from rfl, fwdOC, if_pos hv] at hs
    simp only [Option.bind_eq_some_iff, Option.some.injEq] at hs
    obtain ⟨u, hu, rfl⟩ := hs
    have h2 := fwdItemsC_ge (evalOC_pos _) (fwdOC_pos _ _) y _ _ u hu
    have e := congrArg Prod.fst e
    simp only at e
    omega
  · simp only [PreCompC, Option.bind_eq_some_iff, Option.some.injEq] at h
    obtain ⟨r, hr, s, hs, e⟩ := h
    obtain ⟨h1, hv⟩ := resetImplC_ge hr
    rw [show σ.defs.fuel = (σ.defs.size + 1) + 1 from rfl, revOC, if_pos hv] at hs
    simp only [Option.bind_eq_some_iff, Option.some.injEq] at hs
    obtain ⟨u, hu, rfl⟩ := hs
    have h2 := revItemsC_ge_eval (evalOC_pos _) y _ _ u hu i hi
    have e := congrArg Prod.fst e
    simp only at e
    omega

/-- C60.  The same for what the user wrote: `y = e; PreComp(y)` makes at least `2^(depth of e + 1)` calls. -/
theorem C60_preComp_written {σ : St K} (h : Run P σ) {y : ℕ} (hy : y < σ.defs.size) {e : Exp K} {n : ℕ}
    (hi : stored e n ∈ σ.defs.items y) :
    ∃ c σ', PreCompC P y σ = some (c, σ') ∧ PreComp P y σ = some σ' ∧ 2 ^ (e.depth + 1) ≤ c := by
  obtain ⟨c, σ', h1, h2, h3⟩ := C60_preComp_exponential h hy hi
  exact ⟨c, σ', h1, h2, (Nat.pow_le_pow_right (by omega) (stored_depth e n)).trans h3⟩

/-! ## The claim for reverse mode is false -/

/-- `sin(sin(...sin(x)))`. -/
def sines : ℕ → Exp K
  | 0 => .var 1
  | n + 1 => .fn .sin (sines n)

/-- `Variable x(1); Expression y; y = sin(sin(...sin(x)));` -/
def sineProgram (n : ℕ) : St K := define 2 (sines n) (newExpr (newVar 1 St.init).2).2

theorem sines_leaves (n : ℕ) : (sines n : Exp K).leaves = [1] := by
  induction n with
  | zero => rfl
  | succ n ih => simpa [sines, Exp.leaves] using ih

theorem sines_pars (n : ℕ) : (sines n : Exp K).pars = [] := by
  induction n with
  | zero => rfl
  | succ n ih => simpa [sines, Exp.pars] using ih

theorem sines_depth (n : ℕ) : (sines n : Exp K).depth = n := by
  induction n with
  | zero => rfl
  | succ n ih => simp [sines, Exp.depth, ih]

theorem sines_size (n : ℕ) : (sines n : Exp K).size = n + 1 := by
  induction n with
  | zero => rfl
  | succ n ih => simp [sines, Exp.size, ih]

theorem sineProgram_run (n : ℕ) : Run P (sineProgram n) := by
  refine Run.define 2 _ (Run.newExpr (Run.newVar 1 Run.init)) (show 2 < 3 by omega) (by simp [newExpr, newVar, St.init]) ?_ ?_
  · rw [sines_leaves]
    intro p hp
    simp only [List.mem_singleton] at hp
    subst hp
    show 1 < 3; omega
  · rw [sines_pars]; simp

theorem sineProgram_items (n : ℕ) : ∃ k, (sineProgram n : St K).defs.items 2 = [stored (sines n) k] := by
  refine ⟨(newExpr (newVar 1 St.init).2 : ℕ × St K).2.defs.next, (define_items 2 (sines n) _).trans ?_⟩
  rw [sines_leaves, if_neg (by simp)]
  rfl

theorem sineProgram_nodes (n : ℕ) : nodes (sineProgram n : St K).defs 2 ≤ 2 * (n + 1) := by
  have h1 : reached (sineProgram n : St K).defs 2 ⊆ Finset.range 3 := by
    classical
    exact Finset.filter_subset _ _
  refine (Finset.sum_le_sum_of_subset h1).trans ?_
  obtain ⟨k, hk⟩ := sineProgram_items (K := K) n
  simp only [Finset.sum_range_succ, Finset.sum_range_zero, hk]
  rw [show (sineProgram n : St K).defs.items 0 = [] by
      rw [sineProgram, define_items_ne (by omega)]; simp [newExpr, newVar, St.init],
    show (sineProgram n : St K).defs.items 1 = [] by
      rw [sineProgram, define_items_ne (by omega)]; simp [newExpr, newVar, St.init]]
  have := stored_size (sines n : Exp K) k
  rw [sines_size] at this
  simpa using this

theorem exists_two_pow_gt (C k : ℕ) : ∃ n, C * (n + 1) ^ k < 2 ^ (n + 1) := by
  have h := tendsto_pow_const_div_const_pow_of_one_lt k (r := 2) (by norm_num)
  have h' := (h.comp (Filter.tendsto_add_atTop_nat 1)).eventually_lt_const (show (0 : ℝ) < 1 / (C + 1) by positivity)
  obtain ⟨n, hn⟩ := h'.exists
  refine ⟨n, ?_⟩
  simp only [Function.comp] at hn
  rw [div_lt_div_iff₀ (by positivity) (by positivity), one_mul] at hn
  have h3 : (0 : ℝ) ≤ ((n + 1 : ℕ) : ℝ) ^ k := by positivity
  have : ((C * (n + 1) ^ k : ℕ) : ℝ) < ((2 ^ (n + 1) : ℕ) : ℝ) := by
    push_cast at *
    nlinarith
  exact_mod_cast this

/-- C60 is false of `PreComp`: no polynomial in the number of nodes of the formulas bounds the number of its calls.
`Variable x(1); Expression y; y = sin(...sin(x)); PreComp(y);` with `n` sines makes at least `2^(n+1)` of them. -/
theorem C60_reverse_counterexample : ¬ ∃ C k, ∀ (σ σ' : St K) (y c : ℕ), Run P σ → y < σ.defs.size →
    PreCompC P y σ = some (c, σ') → c ≤ C * (nodes σ.defs y + 1) ^ k := by
  rintro ⟨C, k, h⟩
  obtain ⟨n, hn⟩ := exists_two_pow_gt (C * 3 ^ k) k
  obtain ⟨j, hj⟩ := sineProgram_items (K := K) n
  obtain ⟨c, σ', h1, -, h3⟩ := C60_preComp_written (sineProgram_run (P := P) n) (show 2 < 3 by omega) (e := sines n) (n := j)
    (by rw [hj]; simp)
  have h4 := h _ _ _ _ (sineProgram_run n) (show 2 < 3 by omega) h1
  rw [sines_depth] at h3
  have h5 : (nodes (sineProgram n : St K).defs 2 + 1) ^ k ≤ (3 * (n + 1)) ^ k :=
    Nat.pow_le_pow_left (by have := sineProgram_nodes (K := K) n; omega) k
  rw [mul_pow] at h5
  have h6 := Nat.mul_le_mul_left C h5
  rw [← mul_assoc] at h6
  omega

/-- The same program is cheap forwards: `Eval` makes at most `6n + 7` calls. -/
theorem C60_sines_eval (n : ℕ) : ∃ c v σ', EvalC P 2 (sineProgram n) = some (c, v, σ') ∧ c ≤ 6 * n + 7 := by
  obtain ⟨c, v, σ', h1, -, h2⟩ := C60_eval (sineProgram_run (P := P) n) (show 2 < 3 by omega)
  have := sineProgram_nodes (K := K) n
  exact ⟨c, v, σ', h1, by omega⟩

/-! ## Sharing -/

/-- `Variable x(v); Expression y1, ..., yn; y1 = x*x; y2 = y1*y1; ...; yn = y(n-1)*y(n-1);` (x = 1, yk = k + 1). -/
def squares (v : K) : ℕ → St K
  | 0 => (newVar v St.init).2
  | n + 1 => define (n + 2) (.mul (.var (n + 1)) (.var (n + 1))) (newExpr (squares v n)).2

theorem squares_spec (v : K) (n : ℕ) : Run P (squares v n) ∧ (squares v n).defs.size = n + 2 ∧
    ∀ q, (((squares v n).defs.items q).map Node.size).sum ≤ 4 ∧ ∀ i ∈ (squares v n).defs.items q, i.depth ≤ 2 := by
  induction n with
  | zero =>
      refine ⟨Run.newVar v Run.init, rfl, fun q => ?_⟩
      have : (squares v 0 : St K).defs.items q = [] := by
        simp only [squares, newVar, St.init, Function.update_apply, ite_self]
      simp [this]
  | succ n ih =>
      obtain ⟨h1, h2, h3⟩ := ih
      have hs : (newExpr (squares v n)).2.defs.size = n + 3 := by
        show (squares v n).defs.size + 1 = _
        rw [h2]
      have hit : (newExpr (squares v n)).2.defs.items (n + 2) = [.leaf 0] := by
        show Function.update _ (squares v n).defs.size _ _ = _
        rw [h2, Function.update_self]
      refine ⟨Run.define (n + 2) _ (Run.newExpr h1) (by rw [hs]; omega) (by rw [hit]; simp) ?_ ?_, hs, fun q => ?_⟩
      · intro p hp
        simp only [Exp.leaves, List.cons_append, List.nil_append, List.mem_cons, List.not_mem_nil, or_false, or_self] at hp
        rw [hs, hp]; omega
      · intro p hp; simp [Exp.pars] at hp
      · by_cases hq : q = n + 2
        · subst hq
          simp only [squares]
          rw [define_items, if_neg (by simp [Exp.leaves])]
          simp [stored, Exp.build, mk2, cloneN, Node.size, Node.depth]
        · simp only [squares]
          rw [define_items_ne hq]
          have : (newExpr (squares v n)).2.defs.items q = (squares v n).defs.items q := by
            show Function.update _ (squares v n).defs.size _ _ = _
            rw [h2, Function.update_of_ne hq]
          rw [this]
          exact h3 q

/-- C60.  Shared Expressions are paid for once, in all three modes: `yn`, which is the product of `2^n` copies of
`x`, is computed and differentiated with a number of calls linear in `n`. -/
theorem C60_shared (v : K) (n : ℕ) :
    (∃ c w σ', EvalC P (n + 1) (squares v n) = some (c, w, σ') ∧ c ≤ 12 * (n + 2) + 1) ∧
    (∃ c w σ', DevalFC P (n + 1) 1 (squares v n) = some (c, w, σ') ∧ c ≤ 24 * (n + 2) + 1) ∧
    (∃ c σ', PreCompC P (n + 1) (squares v n) = some (c, σ') ∧ c ≤ 40 * (n + 2) + 1) := by
  obtain ⟨h1, h2, h3⟩ := squares_spec (P := P) v n
  have hy : n + 1 < (squares v n).defs.size := by rw [h2]; omega
  have hn : nodes (squares v n).defs (n + 1) ≤ 4 * (n + 2) := by
    have : reached (squares v n).defs (n + 1) ⊆ Finset.range (n + 2) := by
      classical
      rw [← h2]
      exact Finset.filter_subset _ _
    refine (Finset.sum_le_sum_of_subset this).trans ((Finset.sum_le_card_nsmul _ _ 4 fun q _ => (h3 q).1).trans ?_)
    simp; omega
  have hd : DepthLe (squares v n).defs (n + 1) 2 := fun q _ i hi => (h3 q).2 i hi
  refine ⟨?_, ?_, ?_⟩
  · obtain ⟨c, w, σ', e, -, hc⟩ := C60_eval h1 hy
    exact ⟨c, w, σ', e, by omega⟩
  · obtain ⟨c, w, σ', e, -, hc⟩ := C60_devalF (x := 1) h1 hy hd
    exact ⟨c, w, σ', e, by omega⟩
  · obtain ⟨c, σ', e, -, hc⟩ := C60_preComp_partial h1 hy hd
    exact ⟨c, σ', e, by omega⟩

/-! ## Allocation -/

/-- C60.  `y = e` allocates at most `4 (size of e)²` operator nodes (none of them is freed before the program
ends). -/
theorem C60_define_alloc (σ : St K) (y : ℕ) (e : Exp K) :
    (define y e σ).defs.next ≤ σ.defs.next + 4 * e.size ^ 2 := by
  have h1 := e.build_alloc σ.defs.next
  have h2 := (cloneN_ops (e.build σ.defs.next).1 (e.build σ.defs.next).2).2
  have h3 := (e.build σ.defs.next).1.ops_le_size
  have h4 := e.build_size σ.defs.next
  simp only [define, assignExp]
  generalize (e.build σ.defs.next).1.ops = s at *
  have h5 : s + 1 ≤ 2 * e.size := by omega
  have h6 := Nat.mul_le_mul h5 h5
  nlinarith

theorem sines_build (n : ℕ) : ∀ m, ((sines n : Exp K).build m).1.ops = n ∧
    2 * ((sines n : Exp K).build m).2 = 2 * m + n * (n + 1) := by
  induction n with
  | zero => intro m; simp [sines, Exp.build, Node.ops, Node.opIds]
  | succ n ih =>
      intro m
      obtain ⟨h1, h2⟩ := ih m
      obtain ⟨h3, h4⟩ := mk1_ops (.fn .sin) ((sines n : Exp K).build m).1 ((sines n : Exp K).build m).2
      refine ⟨?_, ?_⟩
      · show (mk1 _ _ _).1.ops = _
        rw [h3, h1]
      · show 2 * (mk1 _ _ _).2 = _
        rw [h4, h1]
        nlinarith

/-- C60.  The square is needed: each operator function copies its operands. -/
theorem C60_define_alloc_sines (σ : St K) (y n : ℕ) :
    2 * (define y (sines n) σ).defs.next = 2 * σ.defs.next + n * (n + 1) + 2 * n + 2 := by
  obtain ⟨h1, h2⟩ := sines_build (K := K) n σ.defs.next
  have h3 := (cloneN_ops ((sines n : Exp K).build σ.defs.next).1 ((sines n : Exp K).build σ.defs.next).2).2
  simp only [define, assignExp]
  omega

/-- C60.  Queries allocate no nodes and change no definition. -/
theorem C60_queries_keep {σ : St K} {y x : ℕ} :
    (∀ v σ', Eval P y σ = some (v, σ') → σ'.defs = σ.defs) ∧
    (∀ v σ', DevalF P y x σ = some (v, σ') → σ'.defs = σ.defs) ∧
    (∀ σ', PreComp P y σ = some σ' → σ'.defs = σ.defs) :=
  ⟨fun _ _ => Eval_defs, fun _ _ => DevalF_defs, fun _ => PreComp_defs⟩

end CoolDiff
