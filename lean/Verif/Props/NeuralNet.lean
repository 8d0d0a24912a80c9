import Verif.Apps.NNProof
import Mathlib.Analysis.Calculus.Deriv.Pi

/-!
# C48: training a neural network

`train(X_data, Y_data, rate, epochs)` of example/NeuralNet is mini-batch gradient descent.
-/

set_option linter.unusedSectionVars false

namespace CoolDiff

section general
variable {K : Type} [Field K] [DecidableEq K] {c : MCtx K} {rank : ℕ → ℕ} {N : NNet K} {Xd Yd : Mat K}

/-- **C48.**  `train` ends, and the numbers in all matrices are those after gradient descent (`Descent`) over the
batches of all epochs: per batch, `X`, `Y` and the dropout matrices are loaded, then `rate / batch` times the derivative
of the error at the loaded numbers is added to every element of every weight and bias matrix, all at once; nothing else
changes.  The tasks of a phase run in any order (`c.π`), and training can go on afterwards.
Partial: see `NNOk` (no convolutions; every layer is used by the error; named formulas are 1×1) and `NNInv` (the first
`PreComp` is warm). -/
theorem C48_training_partial (H : NNOk c rank N Xd Yd) (hne : N.params ≠ []) {f : ℕ} (hf : rank N.err < f) (rate : K)
    (epochs : ℕ) (draw : ℕ → ℕ → ℕ → ℕ → K) {s : NNSt K} {U : ℕ → Prop} (hs : NNInv c rank N s U) :
    ∃ s' U', nnTrain c f N Xd Yd rate epochs draw s = some s' ∧ NNInv c rank N s' U' ∧
      Descent c.E N Xd Yd (rate / (N.batch : K)) (nnGrad c rank N) (allBatches Yd.rows N.batch epochs draw) s.val s'.val :=
  nnTrain_spec H hne hf rate epochs draw hs

/-- New objects: the error mentions no named formula that mentions named formulas. -/
theorem NNInv.fresh {val : ℕ → K} (he : EyesOk c.E val)
    (hw : ∀ q, MReach c.E N.err q → q ≠ N.err → ¬Nested c.E q) :
    NNInv c rank N ⟨PSt.fresh, val, fun _ => none⟩ (fun _ => False) :=
  ⟨.fresh, fun _ _ _ _ _ _ _ _ _ h => h.elim, fun q h1 h2 h3 => hw q h1 h2 h3, he, fun _ _ _ _ h => by cases h⟩

theorem Loaded.unique {E : MEnv K} {draw : ℕ → ℕ → K} {j : ℕ} {v w w' : ℕ → K} (h : Loaded E N Xd Yd draw j v w)
    (h' : Loaded E N Xd Yd draw j v w') : w = w' := by
  classical
  funext a
  by_cases hx : IsEl E N.x a
  · obtain ⟨i, k, hi, hk, rfl⟩ := hx
    exact Option.some.inj ((h.x i k hi hk).symm.trans (h'.x i k hi hk))
  by_cases hy : IsEl E N.y a
  · obtain ⟨i, k, hi, hk, rfl⟩ := hy
    exact Option.some.inj ((h.y i k hi hk).symm.trans (h'.y i k hi hk))
  by_cases hd : ∃ d ∈ N.drops, IsEl E d.2 a
  · obtain ⟨d, hd, i, k, hi, hk, rfl⟩ := hd
    rw [h.drop d hd i k hi hk, h'.drop d hd i k hi hk]
  · push Not at hd
    rw [h.rest a hx hy hd, h'.rest a hx hy hd]

theorem Stepped.unique {E : MEnv K} {T : List ℕ} {α : K} {g : ℕ → ℕ → ℕ → K} {v w w' : ℕ → K}
    (h : Stepped E T α g v w) (h' : Stepped E T α g v w') : w = w' := by
  classical
  funext a
  by_cases hx : ∃ θ ∈ T, IsEl E θ a
  · obtain ⟨θ, hθ, i, k, hi, hk, rfl⟩ := hx
    rw [h.par θ hθ i k hi hk, h'.par θ hθ i k hi hk]
  · push Not at hx
    rw [h.rest a hx, h'.rest a hx]

theorem Descent.unique {E : MEnv K} {α : K} {G : (ℕ → K) → ℕ → ℕ → ℕ → K} {bs : List ((ℕ → ℕ → K) × ℕ)} {v w w' : ℕ → K}
    (h : Descent E N Xd Yd α G bs v w) (h' : Descent E N Xd Yd α G bs v w') : w = w' := by
  induction h with
  | nil v => cases h'; rfl
  | cons l1 d1 _ ih =>
    cases h' with
    | cons l2 d2 r2 =>
      obtain rfl := l1.unique l2
      obtain rfl := d1.unique d2
      exact ih r2

/-- **C48.**  The trained numbers depend neither on the order of the tasks (threads), nor on the kernels (handler), nor
on what the objects were used for before. -/
theorem C48_same_result {c' : MCtx K} (hE : c'.E = c.E) (H : NNOk c rank N Xd Yd) (H' : NNOk c' rank N Xd Yd)
    (hne : N.params ≠ []) {f f' : ℕ} (hf : rank N.err < f) (hf' : rank N.err < f') (rate : K) (epochs : ℕ)
    (draw : ℕ → ℕ → ℕ → ℕ → K) {s s' : NNSt K} {U U' : ℕ → Prop} (hs : NNInv c rank N s U) (hs' : NNInv c' rank N s' U')
    (hv : s.val = s'.val) :
    ∃ t t', nnTrain c f N Xd Yd rate epochs draw s = some t ∧ nnTrain c' f' N Xd Yd rate epochs draw s' = some t' ∧
      t.val = t'.val := by
  obtain ⟨t, _, e, _, d⟩ := nnTrain_spec H hne hf rate epochs draw hs
  obtain ⟨t', _, e', _, d'⟩ := nnTrain_spec H' hne hf' rate epochs draw hs'
  refine ⟨t, t', e, e', ?_⟩
  have hg : nnGrad c' rank N = nnGrad c rank N := by
    have gen : ∀ c c' : MCtx K, c'.E = c.E → nnGrad c' rank N = nnGrad c rank N := by
      rintro ⟨B, π, E, sc⟩ ⟨B', π', E', sc'⟩ hE
      obtain rfl : E' = E := hE
      rfl
    exact gen c c' hE
  rw [hE, hg, ← hv] at d'
  exact d.unique d'

/-- **C48.**  Every batch lies inside the data, and every sample is in a batch. -/
theorem C48_every_sample {d b : ℕ} (hb : 0 < b) (hbd : b ≤ d) :
    (∀ j ∈ batchStarts d b, j + b ≤ d) ∧ ∀ r < d, ∃ j ∈ batchStarts d b, j ≤ r ∧ r < j + b := by
  refine ⟨batchStarts_le hbd, fun r hr => ?_⟩
  by_cases h : r / b < d / b
  · refine ⟨r / b * b, ?_, Nat.div_mul_le_self .., ?_⟩
    · rw [batchStarts, List.mem_append]
      exact Or.inl (List.mem_map.2 ⟨r / b, List.mem_range.2 h, rfl⟩)
    · have := Nat.lt_mul_div_succ r hb
      rw [Nat.mul_succ, Nat.mul_comm] at this
      exact this
  · have h1 : r / b = d / b := le_antisymm (Nat.div_le_div_right hr.le) (by omega)
    have h2 := Nat.div_add_mod r b
    have h3 := Nat.div_add_mod d b
    have h4 := Nat.mod_lt d hb
    rw [h1] at h2
    refine ⟨d - b, ?_, by omega, by omega⟩
    rw [batchStarts, List.mem_append, if_neg (by omega)]
    exact Or.inr (by simp)

/-- **C48.**  If the batch size divides the number of samples, every sample is in exactly one batch of an epoch. -/
theorem C48_once {d b : ℕ} (hb : 0 < b) (hdvd : b ∣ d) {r : ℕ} (hr : r < d) :
    ((batchStarts d b).filter fun j => decide (j ≤ r ∧ r < j + b)) = [r / b * b] := by
  have h0 : d % b = 0 := Nat.mod_eq_zero_of_dvd hdvd
  have hlt : r / b < d / b := by
    obtain ⟨q, rfl⟩ := hdvd
    rw [Nat.mul_div_cancel_left _ hb]
    exact Nat.div_lt_of_lt_mul hr
  rw [batchStarts, if_pos h0, List.append_nil, List.filter_map]
  have hp : ((fun j => decide (j ≤ r ∧ r < j + b)) ∘ fun x => x * b) = fun k => decide (k = r / b) := by
    funext k
    simp only [Function.comp, decide_eq_decide]
    constructor
    · rintro ⟨h1, h2⟩
      exact le_antisymm ((Nat.le_div_iff_mul_le hb).2 h1)
        (Nat.lt_succ_iff.1 ((Nat.div_lt_iff_lt_mul hb).2 (by rw [Nat.succ_mul]; exact h2)))
    · rintro rfl
      have := Nat.lt_mul_div_succ r hb
      rw [Nat.mul_succ, Nat.mul_comm] at this
      exact ⟨Nat.div_mul_le_self .., this⟩
  rw [hp]
  have : (List.range (d / b)).filter (fun k => decide (k = r / b)) = [r / b] := by
    have hs : ∀ (n q : ℕ), (List.range n).filter (fun k => decide (k = q)) = if q < n then [q] else [] := by
      intro n q
      induction n with
      | zero => simp
      | succ n ih =>
        rw [List.range_succ, List.filter_append, ih]
        by_cases h1 : q < n
        · rw [if_pos h1, if_pos (by omega)]
          have : ¬n = q := by omega
          simp [this]
        · by_cases h2 : n = q
          · subst h2; simp
          · rw [if_neg h1, if_neg (by omega)]; simp [h2]
    rw [hs, if_pos hlt]
  rw [this]; rfl

/-- **C48, where it fails.**  A batch size larger than the data: the first row wraps around and the program stops. -/
theorem C48_large_batch (c : MCtx K) (f : ℕ) (N : NNet K) (Xd Yd : Mat K) (rate : K) (epochs : ℕ)
    (draw : ℕ → ℕ → ℕ → ℕ → K) (s : NNSt K) (hY : 0 < Yd.rows) (hb : Yd.rows < N.batch) (he : 0 < epochs) :
    nnTrain c f N Xd Yd rate epochs draw s = none := by
  obtain ⟨n, rfl⟩ : ∃ n, epochs = n + 1 := ⟨epochs - 1, by omega⟩
  rw [nnTrain, List.range_succ_eq_map, List.foldlM_cons, nnLoop, if_pos hY, if_pos (by omega), if_neg (by omega)]
  rfl

end general

/-! ## Over the reals -/

/-- The derivative in `nnGrad` is the derivative of the error as a function of the one element, at numbers where the
element-wise functions are differentiable. -/
theorem nnGrad_hasDerivAt {c : MCtx ℝ} {rank : ℕ → ℕ} {N : NNet ℝ} {Xd Yd : Mat ℝ} (H : NNOk c rank N Xd Yd) {w : ℕ → ℝ}
    (he : EyesOk c.E w)
    (hmaps : ∀ p n e eye, MReach c.E N.err p → c.E.kind p = .form n e eye → MapsOk c.E w (valOf c.E w rank) e)
    {θ : ℕ} (hθ : θ ∈ N.params) {i k : ℕ} (hi : i < c.E.rows θ) (hk : k < c.E.cols θ) :
    HasDerivAt (fun u => valOf c.E (Function.update w (c.E.el θ i k) u) rank N.err 0 0) (nnGrad c rank N w θ i k)
      (w (c.E.el θ i k)) := by
  have hT := H.nums
  have hq := H.query he hθ
  obtain ⟨o1, o2⟩ := H.one N.err MReach.refl H.root
  have hsv : Function.update w (c.E.el θ i k) (w (c.E.el θ i k)) = w := Function.update_eq_self ..
  have hey : ∀ u, EyesOk c.E (Function.update w (c.E.el θ i k) u) := fun u => H.eyes_keep he fun a ha =>
    Function.update_of_ne (fun h => ha θ (N.params_sub hθ) ⟨i, k, hi, hk, h⟩) ..
  have hM : ∀ {e : MNode ℝ} {V : ℕ → ℕ → ℕ → ℝ}, MapsOk c.E w V e → MapsOk (c.E.wrt N.params) w V e := by
    intro e V h
    induction e with
    | obj _ => trivial
    | bin _ _ a b iha ihb => exact ⟨iha h.1, ihb h.2⟩
    | un _ op a ih =>
      cases op <;> simp only [MapsOk] at h ⊢ <;> first | exact ih h | skip
      refine ⟨ih h.1, ?_⟩
      rw [MEnv.wrt_dims]
      simpa only [den_wrt] using h.2
  have hv : ∀ sv, valOf c.E sv rank = valOf (c.E.wrt N.params) sv rank := fun sv => (valOf_wrt hT sv rank).symm
  have key := V_hasDerivAt (E := c.E.wrt N.params) (rank := rank) hq.query.wf (MReach.closed (c.E.wrt N.params) N.err)
    (sv := fun u => Function.update w (c.E.el θ i k) u) (sd := MCtx.sd ((c.at w).wrt N.params) θ)
    (V := fun u => valOf (c.E.wrt N.params) (Function.update w (c.E.el θ i k) u) rank)
    (D := MDer ((c.at w).wrt N.params) θ rank) (X := θ) (i := i) (j := k) hi hk (t := w (c.E.el θ i k))
    (fun a => by
      show HasDerivAt _ (if a = c.E.el θ i k then (1 : ℝ) else 0) _
      by_cases h : a = c.E.el θ i k
      · subst h; simp only [Function.update_self, if_true]; exact hasDerivAt_id _
      · simp only [Function.update_of_ne h, if_neg h]; exact hasDerivAt_const _ _)
    (fun q hqr hq' l m hl hm => by
      show (if c.E.el q l m = c.E.el θ i k then (1 : ℝ) else 0) = 0
      rw [if_neg]
      intro h
      have hqT : q ∉ N.params := fun hqT => by
        rcases hq' with h' | h' <;> simp [MEnv.wrt, hqT] at h'
      have hnf : ¬c.E.isForm q := by
        rintro ⟨n, e, eye, h'⟩
        rcases hq' with h'' | h'' <;> simp [MEnv.wrt, hqT, h'] at h''
      obtain ⟨rfl, _⟩ := H.own θ (N.params_sub hθ) q (.of_reach ((MReach.wrt hT).1 hqr) H.root hnf) hnf l m i k hl hm hi hk h
      exact hqT hθ)
    (fun q _ _ l m _ _ => rfl)
    (fun u => valOf_solves (c.E.wrt N.params) _ hq.query.wf ((hey u).wrt hT) _)
    (by
      rw [hsv]
      exact derOf_solves (c.E.wrt N.params) w _ _ θ hq.query.wf _)
    (fun p hp n e eye hk' => by rw [hsv]; exact hq.query.forms.invertible p hp n e eye hk')
    (fun p hp n e eye hk' => by
      rw [hsv, ← hv]
      exact hM (hmaps p n e eye ((MReach.wrt hT).1 hp) ((c.E.wrt_form hT).1 hk')))
    (rank N.err + 1) N.err MReach.refl (by omega) 0 0 (by show 0 < c.E.rows N.err; omega) (by show 0 < c.E.cols N.err; omega)
  simp only [hv]
  exact key

/-- **C48, over the reals**: the numbers added are `rate / batch` times the partial derivatives of the error at the loaded
numbers (wherever the element-wise functions, such as LeakyReLU, are differentiable there). -/
theorem C48_training_real_partial {c : MCtx ℝ} {rank : ℕ → ℕ} {N : NNet ℝ} {Xd Yd : Mat ℝ} (H : NNOk c rank N Xd Yd)
    (hne : N.params ≠ []) {f : ℕ} (hf : rank N.err < f) (rate : ℝ) (epochs : ℕ) (draw : ℕ → ℕ → ℕ → ℕ → ℝ) {s : NNSt ℝ}
    {U : ℕ → Prop} (hs : NNInv c rank N s U) :
    ∃ s' G, nnTrain c f N Xd Yd rate epochs draw s = some s' ∧
      Descent c.E N Xd Yd (rate / (N.batch : ℝ)) G (allBatches Yd.rows N.batch epochs draw) s.val s'.val ∧
      ∀ w, EyesOk c.E w →
        (∀ p n e eye, MReach c.E N.err p → c.E.kind p = .form n e eye → MapsOk c.E w (valOf c.E w rank) e) →
        ∀ θ ∈ N.params, ∀ i k, i < c.E.rows θ → k < c.E.cols θ →
          HasDerivAt (fun u => valOf c.E (Function.update w (c.E.el θ i k) u) rank N.err 0 0) (G w θ i k)
            (w (c.E.el θ i k)) := by
  obtain ⟨s', _, e, _, d⟩ := nnTrain_spec H hne hf rate epochs draw hs
  exact ⟨s', nnGrad c rank N, e, d, fun w he hm θ hθ i k hi hk => nnGrad_hasDerivAt H he hm hθ hi hk⟩

/-! ## Example -/

namespace NNExample

/-- Batches of two samples with one feature and one label: `X` (object 0), `Y` (1), dropout `D` (2), all 2×1; weight `W`
(3), bias `b` (4), 1×1; ones `O` (5, 1×2) and `P` (6, 2×1), identity (7), `r = O * (D ^ (X*W + P*b) - Y)` (8), the error
`r * r` (9). -/
def E : MEnv ℚ where
  kind := fun o => match o with
    | 8 => .form 80 (.bin 81 .mul (.obj 5) (.bin 82 .sub (.bin 83 .had (.obj 2)
        (.bin 84 .add (.bin 85 .mul (.obj 0) (.obj 3)) (.bin 86 .mul (.obj 6) (.obj 4)))) (.obj 1))) 7
    | 9 => .form 90 (.bin 91 .mul (.obj 8) (.obj 8)) 7
    | _ => .num
  rows := fun o => if o < 3 ∨ o = 6 then 2 else 1
  cols := fun o => if o = 5 then 2 else 1
  el := fun o i j => 2 * o + i + j
  vid := id

def rank : ℕ → ℕ | 8 => 1 | 9 => 2 | _ => 0

def net : NNet ℚ := ⟨9, [(3, 4)], 0, 1, [(1 / 2, 2)], 2⟩

/-- Three samples. -/
def Xd : Mat ℚ := ⟨3, 1, [1, 2, 3]⟩
def Yd : Mat ℚ := ⟨3, 1, [2, 4, 5]⟩

/-- Ones in `O`, `P` and the identity, zero weights. -/
def val0 (a : ℕ) : ℚ := if 10 ≤ a ∧ a < 15 then 1 else 0

noncomputable def ctx : MCtx ℚ :=
  ⟨backend ⟨.eigen, false, .cpu⟩ Sched.seq, Sched.seq, E, ⟨val0, fun a v => if a = v then 1 else 0⟩⟩

theorem kinds {o n e eye} (hk : E.kind o = .form n e eye) :
    eye = 7 ∧ ((o = 8 ∧ n = 80 ∧ e = .bin 81 .mul (.obj 5) (.bin 82 .sub (.bin 83 .had (.obj 2)
        (.bin 84 .add (.bin 85 .mul (.obj 0) (.obj 3)) (.bin 86 .mul (.obj 6) (.obj 4)))) (.obj 1))) ∨
    (o = 9 ∧ n = 90 ∧ e = .bin 91 .mul (.obj 8) (.obj 8))) := by
  by_cases h8 : o = 8
  · subst h8
    simp only [E, MKind.form.injEq] at hk
    exact ⟨hk.2.2.symm, Or.inl ⟨rfl, hk.1.symm, hk.2.1.symm⟩⟩
  by_cases h9 : o = 9
  · subst h9
    simp only [E, MKind.form.injEq] at hk
    exact ⟨hk.2.2.symm, Or.inr ⟨rfl, hk.1.symm, hk.2.1.symm⟩⟩
  · simp [E, h8, h9] at hk

theorem num {o : ℕ} (h8 : o ≠ 8) (h9 : o ≠ 9) : E.kind o = .num := by simp [E, h8, h9]

theorem wf : E.WF rank := by
  refine ⟨fun o => ?_, fun o => ?_, ?_⟩
  · simp only [E]; split <;> omega
  · simp only [E]; split <;> omega
  · intro o n e eye hk
    obtain ⟨rfl, ⟨rfl, rfl, rfl⟩ | ⟨rfl, rfl, rfl⟩⟩ := kinds hk
    · refine ⟨rfl, rfl, rfl, ?_, rfl, rfl, ?_⟩
      · simp [DimOk, MNode.dims, MBin.dimOk, MBin.odims, MBin.padOk, E]
      · intro q hq
        simp only [MEnv.item, MNode.objs, List.mem_append, List.mem_singleton] at hq
        have : rank q = 0 := by
          rcases hq with (rfl | (rfl | (rfl | rfl) | rfl | rfl) | rfl) | rfl <;> rfl
        rw [this]; decide
    · refine ⟨rfl, rfl, rfl, ?_, rfl, rfl, ?_⟩
      · simp [DimOk, MNode.dims, MBin.dimOk, MBin.odims, MBin.padOk, E]
      · intro q hq
        simp only [MEnv.item, MNode.objs, List.mem_append, List.mem_singleton] at hq
        rcases hq with (rfl | rfl) | rfl <;> decide

theorem mats {o : ℕ} (h : o ∈ net.mats) : o < 5 := by
  simp [NNet.mats, NNet.params, net] at h; omega

theorem reach8 : MReach E 9 8 := MReach.refl.step (n := 90) rfl (by simp [MEnv.item, MNode.objs])

/-- The example meets the conditions of C48. -/
theorem ok : NNOk ctx rank net Xd Yd := by
  have hg : Cfg.CPU ⟨.eigen, false, .cpu⟩ := rfl
  refine { wf := wf, sound := backend_sound hg _ (Or.inl rfl), root := ⟨_, _, _, rfl⟩, one := ?_, nodes := ⟨?_, ?_⟩,
           vars := ?_, nodup := by decide, num := ?_, eyes := ?_, own := ?_, coeff := ?_, uses := ?_,
           inv := fun _ _ _ _ _ _ _ => backend_invSound hg rfl _, invertible := ?_, conv := ?_, bpos := by decide,
           xrows := rfl, yrows := rfl, xdata := ⟨by decide, by decide, rfl⟩, ydata := ⟨by decide, by decide, rfl⟩, xcols := rfl, ycols := rfl, rows := rfl,
           enough := by decide }
  · rintro q _ ⟨n, e, eye, hk⟩
    obtain ⟨_, ⟨rfl, _⟩ | ⟨rfl, _⟩⟩ := kinds hk <;> exact ⟨rfl, rfl⟩
  · intro q _ n e eye hk
    obtain ⟨_, ⟨_, rfl, rfl⟩ | ⟨_, rfl, rfl⟩⟩ := kinds hk <;> simp [MEnv.item, MNode.nums]
  · intro q _ p _ n e eye n' e' eye' hk hk' m hm hm'
    obtain ⟨_, ⟨rfl, rfl, rfl⟩ | ⟨rfl, rfl, rfl⟩⟩ := kinds hk <;>
      obtain ⟨_, ⟨rfl, rfl, rfl⟩ | ⟨rfl, rfl, rfl⟩⟩ := kinds hk' <;>
      simp [MEnv.item, MNode.nums] at hm hm' ⊢ <;> omega
  · intro o p ho
    exfalso
    have : E.kind o = .var := ho
    by_cases h8 : o = 8
    · subst h8; cases this
    by_cases h9 : o = 9
    · subst h9; cases this
    rw [num h8 h9] at this; cases this
  · intro o ho
    have := mats ho
    exact num (by omega) (by omega)
  · intro p n e eye hk hm
    have := mats hm
    obtain ⟨rfl, _⟩ := kinds hk
    omega
  · intro o ho q _ _ l k i j hl hk hi hj h
    have hm := mats ho
    simp only [ctx, E] at hl hk hi hj h
    have e1 : l + k < 2 := by split at hl <;> split at hk <;> omega
    have e2 : i + j < 2 := by split at hi <;> split at hj <;> omega
    obtain rfl : q = o := by omega
    refine ⟨rfl, ?_⟩
    rw [if_neg (by omega)] at hk hj
    omega
  · intro p n e eye _ hk s hs
    obtain ⟨_, ⟨_, _, rfl⟩ | ⟨_, _, rfl⟩⟩ := kinds hk <;> simp [MNode.coeffs] at hs
  · intro θ hθ
    have : θ = 3 ∨ θ = 4 := by simpa [NNet.params, net] using hθ
    rcases this with rfl | rfl <;> exact reach8.step (n := 80) rfl (by simp [MEnv.item, MNode.objs])
  · intro v _ p n e eye _ hk
    obtain ⟨_, ⟨_, _, rfl⟩ | ⟨_, _, rfl⟩⟩ := kinds hk <;> simp [Invertible]
  · intro p n e eye _ hk
    obtain ⟨_, ⟨_, _, rfl⟩ | ⟨_, _, rfl⟩⟩ := kinds hk <;> simp [NoConv]

theorem inv : NNInv ctx rank net ⟨PSt.fresh, val0, fun _ => none⟩ (fun _ => False) := by
  refine NNInv.fresh ?_ ?_
  · intro o n e eye hk i j hi hj
    obtain ⟨rfl, _⟩ := kinds hk
    have h1 : i < 1 := hi
    have h2 : j < 1 := hj
    obtain rfl : i = 0 := by omega
    obtain rfl : j = 0 := by omega
    rfl
  · rintro q _ hne ⟨n, e, eye, hk, q', hq', n', e', eye', hk'⟩
    obtain ⟨rfl, ⟨rfl, rfl, rfl⟩ | ⟨rfl, _⟩⟩ := kinds hk
    · obtain ⟨_, ⟨rfl, _⟩ | ⟨rfl, _⟩⟩ := kinds hk' <;> simp [MEnv.item, MNode.objs] at hq'
    · exact hne rfl

example (rate : ℚ) (epochs : ℕ) (draw : ℕ → ℕ → ℕ → ℕ → ℚ) :
    ∃ s' U', nnTrain ctx 3 net Xd Yd rate epochs draw ⟨PSt.fresh, val0, fun _ => none⟩ = some s' ∧
      NNInv ctx rank net s' U' ∧
      Descent E net Xd Yd (rate / 2) (nnGrad ctx rank net) (allBatches 3 2 epochs draw) val0 s'.val :=
  C48_training_partial ok (by decide) (by decide) rate epochs draw inv

/-- Without a hidden layer, batches of one sample: `X` (0), `Y` (1), `W` (3), `b` (4), identity (7), the error
`X*W + b` (9); `U` (5) is 1×2. -/
def E1 : MEnv ℚ where
  kind := fun o => match o with
    | 9 => .form 90 (.bin 91 .add (.bin 92 .mul (.obj 0) (.obj 3)) (.obj 4)) 7
    | _ => .num
  rows := fun _ => 1
  cols := fun o => if o = 5 then 2 else 1
  el := fun o i j => 2 * o + i + j
  vid := id

def ctx1 : MCtx ℚ := ⟨naiveB Sched.seq, Sched.seq, E1, ⟨val0, fun a v => if a = v then 1 else 0⟩⟩

/-- **C48, where it fails.**  A layer with a 1×2 bias that the error does not mention: `DevalR` gives a 1×1 matrix, the
sum with the batch matrix does not fit, and training stops.  With layers that are all used it goes on, and the numbers
are those of gradient descent. -/
theorem C48_unused_layer_counterexample :
    (nnTrain ctx1 2 ⟨9, [(3, 5)], 0, 1, [], 1⟩ ⟨1, 1, [3]⟩ ⟨1, 1, [1]⟩ (-1 / 4) 1 (fun _ _ _ _ => 0)
      ⟨PSt.fresh, val0, fun _ => none⟩).isNone ∧
    (nnTrain ctx1 2 ⟨9, [(3, 4)], 0, 1, [], 1⟩ ⟨1, 1, [3]⟩ ⟨1, 1, [1]⟩ (-1 / 4) 1 (fun _ _ _ _ => 0)
      ⟨PSt.fresh, val0, fun _ => none⟩).map (fun s => (s.val 6, s.val 8)) = some (-3 / 4, -1 / 4) := by decide +kernel

end NNExample

end CoolDiff
