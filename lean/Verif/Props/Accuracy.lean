import Verif.Apps.AccProof
import Verif.Props.NeuralNet
import Mathlib.Algebra.Order.Field.Basic
import Mathlib.Tactic.FieldSimp
import Mathlib.Tactic.Positivity

/-!
# C49: accuracy of a neural network, and training with statistics
-/

set_option linter.unusedSectionVars false

namespace CoolDiff

section general
variable {K : Type} [Field K] [DecidableEq K] {c : MCtx K} {rank : ℕ → ℕ} {N : NNet K} {out : MNode K} {Xd Yd : Mat K}

section
variable [LinearOrder K]

/-- **C49.**  `accuracy` ends and gives the number `AccuracyIs`: the correct rows of the batches that start before row
`d - b`, divided by `d - b`, times 100; the network, the batch matrices apart, is unchanged.
Partial: this is not the share of correct rows (`C49_last_batch_not_looked_at`, `C49_more_than_100`). -/
theorem C49_accuracy_partial (H : AccOk c rank N out Xd Yd) {f : ℕ} (hf : ∀ q ∈ out.objs, rank q < f)
    (hbd : N.batch < Yd.rows) {s : NNSt K} {U : ℕ → Prop} (hh : PHist (c.E.wrt N.params) rank s.p U)
    (hg : NoGapsE c.E U out) (he : EyesOk c.E s.val) :
    ∃ s' a, nnAccuracy c f N out Xd Yd s = some (s', a) ∧ AccuracyIs c.E rank N out Xd Yd s.val a ∧
      SameNet c.E N s.val s'.val := by
  obtain ⟨s', a, _, e, h1, h2, _⟩ := nnAccuracy_spec H hf hbd.le hh hg he
  exact ⟨s', a, e, h1, h2⟩

/-- **C49.**  `train` with statistics ends; per epoch it is gradient descent over the batches, the displayed loss is the
sum of the errors at the numbers at which the gradients were taken (before the step of that batch), and the displayed
accuracy is that of `accuracy` after the epoch. -/
theorem C49_training_stats_partial (H : NNOk c rank N Xd Yd) (HA : AccOk c rank N out Xd Yd) (hne : N.params ≠ [])
    {f : ℕ} (hf : rank N.err < f) (hfo : ∀ q ∈ out.objs, rank q < f) (_hbd : N.batch < Yd.rows) (rate : K) (epochs : ℕ)
    (draw : ℕ → ℕ → ℕ → ℕ → K)
    {s : NNSt K} {U : ℕ → Prop} (hs : NNInv c rank N s U) (hg : NoGapsE c.E (fun q => U q ∨ MReach c.E N.err q) out) :
    ∃ s' U' log, nnTrainS c f N out Xd Yd rate epochs draw s = some (s', log) ∧ NNInv c rank N s' U' ∧
      Epochs c.E rank N out Xd Yd (rate / (N.batch : K)) (nnGrad c rank N) draw (List.range epochs) s.val log s'.val :=
  nnTrainS_spec H HA hne hf hfo rate epochs draw hs hg

end

theorem DescentW.forget {E : MEnv K} {α : K} {G : (ℕ → K) → ℕ → ℕ → ℕ → K} {bs : List ((ℕ → ℕ → K) × ℕ)} {v u : ℕ → K}
    {ws : List (ℕ → K)} (h : DescentW E N Xd Yd α G bs v ws u) : Descent E N Xd Yd α G bs v u := by
  induction h with
  | nil v => exact .nil v
  | cons l d _ ih => exact .cons l d ih

theorem SameNet.trans {E : MEnv K} {u v w : ℕ → K} (h : SameNet E N u v) (h' : SameNet E N v w) : SameNet E N u w :=
  fun a h1 h2 h3 => (h' a h1 h2 h3).trans (h a h1 h2 h3)

theorem Descent.start {E : MEnv K} {α : K} {G : (ℕ → K) → ℕ → ℕ → ℕ → K} {bs : List ((ℕ → ℕ → K) × ℕ)} {u u' v : ℕ → K}
    (h : Descent E N Xd Yd α G bs u u') (hs : SameNet E N v u) : ∃ u'', Descent E N Xd Yd α G bs v u'' ∧ SameNet E N u'' u' := by
  cases h with
  | nil => exact ⟨v, .nil _, hs⟩
  | cons l d r => exact ⟨u', .cons ⟨l.x, l.y, l.drop, fun a h1 h2 h3 => (l.rest a h1 h2 h3).trans (hs a h1 h2 h3)⟩ d r,
      fun _ _ _ _ => rfl⟩

theorem Descent.append {E : MEnv K} {α : K} {G : (ℕ → K) → ℕ → ℕ → ℕ → K} {as bs : List ((ℕ → ℕ → K) × ℕ)} {u v w : ℕ → K}
    (h : Descent E N Xd Yd α G as u v) (h' : Descent E N Xd Yd α G bs v w) : Descent E N Xd Yd α G (as ++ bs) u w := by
  induction h with
  | nil => exact h'
  | cons l d _ ih => exact .cons l d (ih h')

theorem Epochs.descent [LT K] {E : MEnv K} {α : K} {G : (ℕ → K) → ℕ → ℕ → ℕ → K} {draw : ℕ → ℕ → ℕ → ℕ → K} {is : List ℕ}
    {v w : ℕ → K} {log : List (K × K)} (h : Epochs E rank N out Xd Yd α G draw is v log w) :
    ∃ u, Descent E N Xd Yd α G (is.flatMap fun i => (batchStarts Yd.rows N.batch).map fun j => (draw i j, j)) v u ∧
      SameNet E N u w := by
  induction h with
  | nil v => exact ⟨v, .nil v, fun _ _ _ _ => rfl⟩
  | cons d _ m _ ih =>
    obtain ⟨u, d2, s2⟩ := ih
    obtain ⟨u', d3, s3⟩ := d2.start m
    exact ⟨u', by rw [List.flatMap_cons]; exact d.forget.append d3, s3.trans s2⟩

/-- **C49.**  Statistics do not change the training: with and without them, all numbers but those in the batch and
dropout matrices are the same. -/
theorem C49_stats_change_nothing [LinearOrder K] (H : NNOk c rank N Xd Yd) (HA : AccOk c rank N out Xd Yd)
    (hne : N.params ≠ []) {f : ℕ} (hf : rank N.err < f) (hfo : ∀ q ∈ out.objs, rank q < f) (rate : K) (epochs : ℕ)
    (draw : ℕ → ℕ → ℕ → ℕ → K)
    {s : NNSt K} {U : ℕ → Prop} (hs : NNInv c rank N s U) (hg : NoGapsE c.E (fun q => U q ∨ MReach c.E N.err q) out) :
    ∃ t t' log, nnTrain c f N Xd Yd rate epochs draw s = some t ∧
      nnTrainS c f N out Xd Yd rate epochs draw s = some (t', log) ∧ log.length = epochs ∧ SameNet c.E N t.val t'.val := by
  obtain ⟨t, _, e, _, d⟩ := nnTrain_spec H hne hf rate epochs draw hs
  obtain ⟨t', _, log, e', _, d'⟩ := nnTrainS_spec H HA hne hf hfo rate epochs draw hs hg
  obtain ⟨u, d2, h2⟩ := d'.descent
  have : t.val = u := d.unique d2
  subst this
  refine ⟨t, t', log, e, e', ?_, h2⟩
  have hlen : ∀ {is : List ℕ} {v w : ℕ → K} {log : List (K × K)},
      Epochs c.E rank N out Xd Yd (rate / (N.batch : K)) (nnGrad c rank N) draw is v log w → log.length = is.length := by
    intro is v w log h
    induction h with
    | nil => rfl
    | cons _ _ _ _ ih => simp [ih]
  rw [hlen d', List.length_range]

/-! ## What the accuracy says -/

theorem Shown.unique {E : MEnv K} {j : ℕ} {v w w' : ℕ → K} (h : Shown E N Xd Yd j v w) (h' : Shown E N Xd Yd j v w') :
    w = w' := by
  classical
  funext a
  by_cases hx : IsEl E N.x a
  · obtain ⟨i, k, hi, hk, rfl⟩ := hx
    exact Option.some.inj ((h.x i k hi hk).symm.trans (h'.x i k hi hk))
  by_cases hy : IsEl E N.y a
  · obtain ⟨i, k, hi, hk, rfl⟩ := hy
    exact Option.some.inj ((h.y i k hi hk).symm.trans (h'.y i k hi hk))
  by_cases hd : ∃ d ∈ N.drops, IsEl E d.2 a
  · obtain ⟨d, hd, i, k, hi, hk, rfl⟩ := hd
    rw [h.drop d hd i k hi hk, h'.drop d hd i k hi hk]
  · push Not at hd
    rw [h.rest a hx hy hd, h'.rest a hx hy hd]

/-- **C49.**  The accuracy is determined by the numbers of the network and the data. -/
theorem C49_determined [LT K] {E : MEnv K} {v : ℕ → K} {a a' : K} (h : AccuracyIs E rank N out Xd Yd v a)
    (h' : AccuracyIs E rank N out Xd Yd v a') : a = a' := by
  obtain ⟨w, hw, rfl⟩ := h
  obtain ⟨w', hw', rfl⟩ := h'
  congr 3
  exact Finset.sum_congr rfl fun t ht => by rw [(hw t (Finset.mem_range.1 ht)).unique (hw' t (Finset.mem_range.1 ht))]

section
variable {F : Type} [Field F] [DecidableEq F] [LinearOrder F] [IsStrictOrderedRing F] {M : NNet F} {o : MNode F} {X Y : Mat F}
  {E : MEnv F}

open Classical in
/-- **C49.**  When every row is classified correctly: 100 if the batch size divides the number of rows, and otherwise
more than 100. -/
theorem C49_more_than_100 {v : ℕ → F} {a : F} (h : AccuracyIs E rank M o X Y v a) (hb : 0 < M.batch) (hbd : M.batch < Y.rows)
    (hr : ∀ t < (Y.rows - 1) / M.batch, ∀ w, Shown E M X Y (t * M.batch) v w → ∀ i < M.batch, Right E rank o Y w (t * M.batch) i) :
    (M.batch ∣ Y.rows → a = 100) ∧ (¬M.batch ∣ Y.rows → 100 < a) := by
  obtain ⟨w, hw, rfl⟩ := h
  have hcard : ∀ t ∈ Finset.range ((Y.rows - 1) / M.batch), rights E rank o M.batch Y (w t) (t * M.batch) = M.batch := by
    intro t ht
    have ht := Finset.mem_range.1 ht
    rw [rights, Finset.filter_true_of_mem fun i hi => hr t ht _ (hw t ht) i (Finset.mem_range.1 hi), Finset.card_range]
  rw [Finset.sum_congr rfl hcard, Finset.sum_const, Finset.card_range, smul_eq_mul]
  have hpos : (0 : F) < ((Y.rows - M.batch : ℕ) : F) := by exact_mod_cast (by omega : 0 < Y.rows - M.batch)
  have hdm := Nat.div_add_mod Y.rows M.batch
  constructor
  · rintro ⟨q, hq⟩
    have hq' : 0 < q := Nat.pos_of_ne_zero fun h => by subst h; omega
    have h1 : (Y.rows - 1) / M.batch = q - 1 := by
      obtain ⟨q, rfl⟩ : ∃ k, q = k + 1 := ⟨q - 1, by omega⟩
      rw [hq, Nat.mul_succ, Nat.add_sub_assoc hb, Nat.mul_add_div hb, Nat.div_eq_of_lt (by omega)]; omega
    have h2 : (Y.rows - 1) / M.batch * M.batch = Y.rows - M.batch := by
      rw [h1, hq, Nat.sub_mul, Nat.mul_comm q, Nat.one_mul]
    rw [h2, div_self hpos.ne', one_mul]
  · intro hnd
    have hm : Y.rows % M.batch ≠ 0 := fun h => hnd (Nat.dvd_of_mod_eq_zero h)
    have hlt := Nat.mod_lt Y.rows hb
    have h1 : (Y.rows - 1) / M.batch = Y.rows / M.batch := by
      have : Y.rows - 1 = M.batch * (Y.rows / M.batch) + (Y.rows % M.batch - 1) := by omega
      have hz : (Y.rows % M.batch - 1) / M.batch = 0 := Nat.div_eq_of_lt (by omega)
      rw [this, Nat.mul_add_div hb, hz, Nat.add_zero]
    have h2 : Y.rows - M.batch < (Y.rows - 1) / M.batch * M.batch := by
      rw [h1, Nat.mul_comm]; omega
    have h3 : ((Y.rows - M.batch : ℕ) : F) < (((Y.rows - 1) / M.batch * M.batch : ℕ) : F) := by exact_mod_cast h2
    have h4 : (1 : F) < (((Y.rows - 1) / M.batch * M.batch : ℕ) : F) / ((Y.rows - M.batch : ℕ) : F) := (one_lt_div hpos).2 h3
    linarith

open Classical in
/-- **C49.**  When no row is classified correctly the accuracy is 0. -/
theorem C49_zero {v : ℕ → F} {a : F} (h : AccuracyIs E rank M o X Y v a)
    (hr : ∀ t < (Y.rows - 1) / M.batch, ∀ w, Shown E M X Y (t * M.batch) v w → ∀ i < M.batch, ¬Right E rank o Y w (t * M.batch) i) :
    a = 0 := by
  obtain ⟨w, hw, rfl⟩ := h
  rw [Finset.sum_eq_zero fun t ht => ?_]
  · simp
  · have ht := Finset.mem_range.1 ht
    rw [rights, Finset.filter_false_of_mem fun i hi => hr t ht _ (hw t ht) i (Finset.mem_range.1 hi), Finset.card_empty]

end

/-- **C49.**  If the batch size divides the number of rows, the last batch is not looked at: the accuracy is the same for
all data that agree in the rows before it. -/
theorem C49_last_batch_not_looked_at [LT K] {E : MEnv K} {Xd' Yd' : Mat K} {v : ℕ → K} {a : K} (hb : 0 < N.batch)
    (hx : E.rows N.x = N.batch) (hy : E.rows N.y = N.batch) (hdvd : N.batch ∣ Yd.rows) (hr : Yd'.rows = Yd.rows)
    (hc : Yd'.cols = Yd.cols)
    (hX : ∀ r < Yd.rows - N.batch, ∀ k, Xd'.get? r k = Xd.get? r k)
    (hY : ∀ r < Yd.rows - N.batch, ∀ k, Yd'.get? r k = Yd.get? r k) (h : AccuracyIs E rank N out Xd Yd v a) :
    AccuracyIs E rank N out Xd' Yd' v a := by
  obtain ⟨w, hw, rfl⟩ := h
  have hlt : ∀ t < (Yd.rows - 1) / N.batch, ∀ i < N.batch, t * N.batch + i < Yd.rows - N.batch := by
    intro t ht i hi
    obtain ⟨q, hq⟩ := hdvd
    rcases Nat.eq_zero_or_pos q with rfl | hq'
    · rw [hq] at ht; simp at ht
    obtain ⟨q, rfl⟩ : ∃ k, q = k + 1 := ⟨q - 1, by omega⟩
    have h1 : (Yd.rows - 1) / N.batch = q := by
      rw [hq, Nat.mul_succ, Nat.add_sub_assoc hb, Nat.mul_add_div hb, Nat.div_eq_of_lt (by omega), Nat.add_zero]
    rw [h1] at ht
    have h2 : Yd.rows - N.batch = N.batch * q := by rw [hq, Nat.mul_succ]; omega
    rw [h2]
    calc t * N.batch + i < t * N.batch + N.batch := by omega
      _ = (t + 1) * N.batch := (Nat.succ_mul ..).symm
      _ ≤ q * N.batch := Nat.mul_le_mul_right _ ht
      _ = N.batch * q := Nat.mul_comm ..
  refine ⟨w, fun t ht => ?_, ?_⟩
  · rw [hr] at ht
    have := hw t ht
    exact ⟨fun i k hi hk => by rw [hX _ (hlt t ht i (by rw [← hx]; exact hi))]; exact this.x i k hi hk,
      fun i k hi hk => by rw [hY _ (hlt t ht i (by rw [← hy]; exact hi))]; exact this.y i k hi hk, this.drop, this.rest⟩
  · rw [hr]
    congr 3
    refine Finset.sum_congr rfl fun t ht => ?_
    have ht := Finset.mem_range.1 ht
    simp only [rights]
    congr 1
    ext i
    simp only [Finset.mem_filter, Finset.mem_range, Right, hc]
    refine and_congr_right fun hi => ?_
    have : (fun k => Yd'.val (t * N.batch + i) k) = fun k => Yd.val (t * N.batch + i) k := by
      funext k; simp only [Mat.val, hY _ (hlt t ht i hi)]
    rw [this]

end general

/-! ## Examples -/

namespace AccExample

/-- Two features, two labels, batches of `b` rows: `X` (object 0), `Y` (1), `b`×2; weights `W` (2), 2×2, identity (3),
the error (4) mentions no matrix of interest. -/
def E (b : ℕ) : MEnv ℚ where
  kind := fun _ => .num
  rows := fun o => if o < 2 then b else 2
  cols := fun _ => 2
  el := fun o i j => 100 * o + 2 * i + j
  vid := id

def net (b : ℕ) : NNet ℚ := ⟨4, [], 0, 1, [], b⟩

/-- The final layer `X*W`. -/
def outL : MNode ℚ := .bin 50 .mul (.obj 0) (.obj 2)

/-- `W` is the identity: the network gives back `X`. -/
def val0 (a : ℕ) : ℚ := if a = 200 ∨ a = 203 then 1 else 0

def ctxN (b : ℕ) : MCtx ℚ := ⟨naiveB Sched.seq, Sched.seq, E b, ⟨val0, fun a v => if a = v then 1 else 0⟩⟩

/-- **C49, where it fails.**  Two rows in batches of one, the second one is classified wrongly: 100 percent.  Three rows
in batches of two, all classified correctly: 200 percent.  (Four rows, batches of two, three correct ones, the wrong one
among the first two: 50 percent.) -/
theorem C49_not_the_share_counterexample :
    (nnAccuracy (ctxN 1) 1 (net 1) outL ⟨2, 2, [1, 0, 0, 1]⟩ ⟨2, 2, [1, 0, 1, 0]⟩ ⟨PSt.fresh, val0, fun _ => none⟩).map
      Prod.snd = some 100 ∧
    (nnAccuracy (ctxN 2) 1 (net 2) outL ⟨3, 2, [1, 0, 0, 1, 1, 0]⟩ ⟨3, 2, [1, 0, 0, 1, 1, 0]⟩
      ⟨PSt.fresh, val0, fun _ => none⟩).map Prod.snd = some 200 ∧
    (nnAccuracy (ctxN 2) 1 (net 2) outL ⟨4, 2, [1, 0, 0, 1, 1, 0, 1, 0]⟩ ⟨4, 2, [1, 0, 1, 0, 1, 0, 1, 0]⟩
      ⟨PSt.fresh, val0, fun _ => none⟩).map Prod.snd = some 50 := by decide +kernel

noncomputable def ctx : MCtx ℚ :=
  ⟨backend ⟨.eigen, false, .cpu⟩ Sched.seq, Sched.seq, E 2, ⟨val0, fun a v => if a = v then 1 else 0⟩⟩

def Xd : Mat ℚ := ⟨3, 2, [1, 0, 0, 1, 1, 0]⟩
def Yd : Mat ℚ := ⟨3, 2, [1, 0, 0, 1, 1, 0]⟩

/-- The example meets the conditions of C49. -/
theorem ok : AccOk ctx (fun _ => 0) (net 2) outL Xd Yd := by
  have hg : Cfg.CPU ⟨.eigen, false, .cpu⟩ := rfl
  have hnf : ∀ o n e eye, (E 2).kind o ≠ .form n e eye := fun o n e eye h => by cases h
  have hwf : (E 2).WF fun _ => 0 := ⟨fun o => by simp only [E]; split <;> omega, fun _ => two_pos,
    fun o n e eye hk => absurd hk (hnf o n e eye)⟩
  have hquery : ∀ v, EyesOk (E 2) v → QueryOkE (ctx.at v) (fun _ => 0) False outL := fun v _ => ⟨hwf, backend_sound hg _ (Or.inl rfl),
      fun o n e eye hk => absurd hk (hnf o n e eye), ⟨fun _ _ _ _ _ hk => absurd hk (hnf _ _ _ _), fun _ _ _ _ _ hk => absurd hk (hnf _ _ _ _)⟩,
      by simp [outL, DimOk, MNode.dims, MBin.dimOk, MBin.padOk, E, ctx, MCtx.at], fun _ => backend_invSound hg rfl _,
      ⟨trivial, trivial⟩⟩
  refine { wf := hwf, query := hquery, dims := rfl, nodes := ⟨fun _ _ _ _ _ hk => absurd hk (hnf _ _ _ _), fun _ _ _ _ _ _ _ _ _ _ hk => absurd hk (hnf _ _ _ _)⟩,
           nodup := by decide, num := fun _ _ => rfl, eyes := fun _ _ _ _ hk => absurd hk (hnf _ _ _ _), own := ?_, bpos := two_pos,
           xrows := rfl, yrows := rfl, xdata := ⟨by decide, by decide, rfl⟩, ydata := ⟨by decide, by decide, rfl⟩, xcols := rfl,
           ycols := rfl, rows := rfl }
  intro o ho q _ _ l k i j hl hk hi hj h
  have ho' : o < 2 := by simp [NNet.mats, NNet.params, net] at ho; omega
  have hl' : l < 2 := by simp only [ctx, E] at hl; split at hl <;> omega
  have hk' : k < 2 := hk
  have hi' : i < 2 := by simp only [ctx, E] at hi; split at hi <;> omega
  have hj' : j < 2 := hj
  have h' : 100 * q + 2 * l + k = 100 * o + 2 * i + j := h
  omega

example : ∃ s' a, nnAccuracy ctx 1 (net 2) outL Xd Yd ⟨PSt.fresh, val0, fun _ => none⟩ = some (s', a) ∧
    AccuracyIs (E 2) (fun _ => 0) (net 2) outL Xd Yd val0 a ∧ SameNet (E 2) (net 2) val0 s'.val :=
  C49_accuracy_partial (rank := fun _ => 0) (U := fun _ => False) ok (by simp) (by decide) .fresh
    (NoGapsE.leaves fun q _ => by rintro ⟨n, e, eye, h⟩; cases h) fun o n e eye h => by cases h

end AccExample

namespace NNExample

/-- The final layer of the network of `NNExample`: `D ^ (X*W + P*b)`, part of the formula of the error. -/
def outL : MNode ℚ := .bin 83 .had (.obj 2) (.bin 84 .add (.bin 85 .mul (.obj 0) (.obj 3)) (.bin 86 .mul (.obj 6) (.obj 4)))

theorem accOk : AccOk ctx rank net outL Xd Yd := by
  have hg : Cfg.CPU ⟨.eigen, false, .cpu⟩ := rfl
  have H := ok
  have hl : ∀ q, EReach E outL q → ¬E.isForm q := by
    rintro q ⟨o, ho, hq⟩
    have hnum : E.kind o = .num := by
      simp only [outL, MNode.objs, List.mem_append, List.mem_singleton] at ho
      exact num (by omega) (by omega)
    have : q = o := by
      clear ho
      induction hq with
      | refl => rfl
      | step _ hk _ ih => subst ih; rw [hnum] at hk; cases hk
    subst this
    rintro ⟨n, e, eye, hk⟩
    rw [hnum] at hk; cases hk
  have hquery : ∀ v, EyesOk E v → QueryOkE (ctx.at v) rank False outL := fun v he => ⟨H.wf, H.sound, he,
      ⟨fun p hp n e eye hk => absurd ⟨n, e, eye, hk⟩ (hl p hp), fun p hp n e eye hk => absurd ⟨n, e, eye, hk⟩ (hl p hp)⟩,
      by simp [outL, DimOk, MNode.dims, MBin.dimOk, MBin.odims, MBin.padOk, E, ctx, MCtx.at], fun _ => backend_invSound hg rfl _,
      by simp [outL, Invertible]⟩
  exact { wf := H.wf, query := hquery, dims := rfl, nodes := H.nodes, nodup := H.nodup, num := H.num, eyes := H.eyes, own := H.own, bpos := H.bpos,
          xrows := H.xrows, yrows := H.yrows, xdata := H.xdata, ydata := H.ydata, xcols := H.xcols, ycols := H.ycols, rows := H.rows }

example (rate : ℚ) (epochs : ℕ) (draw : ℕ → ℕ → ℕ → ℕ → ℚ) :
    ∃ s' U' log, nnTrainS ctx 3 net outL Xd Yd rate epochs draw ⟨PSt.fresh, val0, fun _ => none⟩ = some (s', log) ∧
      NNInv ctx rank net s' U' ∧
      Epochs E rank net outL Xd Yd (rate / 2) (nnGrad ctx rank net) draw (List.range epochs) val0 log s'.val :=
  C49_training_stats_partial ok accOk (by decide) (by decide)
    (by
      intro q hq
      simp only [outL, MNode.objs, List.mem_append, List.mem_singleton] at hq
      have : rank q = 0 := by rcases hq with rfl | (rfl | rfl) | rfl | rfl <;> rfl
      omega)
    (by decide) rate epochs draw inv
    (NoGapsE.leaves fun q hq => by
      rintro ⟨n, e, eye, h⟩
      simp only [outL, MNode.objs, List.mem_append, List.mem_singleton] at hq
      have : E.kind q = .num := num (by omega) (by omega)
      rw [show ctx.E.kind q = E.kind q from rfl, this] at h; cases h)

end NNExample

end CoolDiff
