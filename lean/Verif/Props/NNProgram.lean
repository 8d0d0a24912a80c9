import Verif.Apps.NNMain

/-!
# C54: the neural network program

example/NeuralNet/main.cpp: adding layers, building the network and its error through the library's operators, and
training it is mini-batch gradient descent on the cross entropy of the softmax of a feed-forward network.
-/

set_option linter.unusedSectionVars false

namespace CoolDiff

section
variable {inp out batch : ℕ} {p : ℝ} {layers : List (LayerDef ℝ)}

local notation "CC" => NNConf.real inp out batch p layers

theorem SetupOk.starts {C : NNConf ℝ} {N : NNet ℝ} {s : NBld ℝ} {rows : List Row} {o1 o2 e1 e2 : ℕ}
    (h : SetupOk C N s rows o1 o2 e1 e2) :
    N.Starts s.b.E s.val (C.layers.map fun l => (l.n, l.m, l.W, fun i => l.b i 0)) := by
  rw [NNet.Starts, h.layers, forall2_map_left, forall2_map_right]
  refine h.rows.imp fun r l hh => ?_
  obtain ⟨_, c1, c2⟩ := hh
  exact ⟨⟨c1.rows, c1.cols, c2.rows, c2.cols⟩, fun i k hi hk => SetupOk.holds s _ _ (c1.el i k hi hk).2,
    fun i hi => SetupOk.holds s _ _ (c2.el i 0 hi one_pos).2⟩

/-- **C54 (building).**  If dimensions are positive and every layer has as many inputs as the one before has outputs, the
program builds the network; `X` and `Y` have a row per sample of a batch, weights and biases are the user's, every layer
has its own dropout matrix with the probability `1 - p` and all these matrices are different. -/
theorem C54_setup (hC : (CC).Ok) : ∃ N s, (CC).setup = some (N, s) ∧
    (s.b.E.rows N.x = batch ∧ s.b.E.cols N.x = inp ∧ s.b.E.rows N.y = batch ∧ s.b.E.cols N.y = out) ∧
    N.Starts s.b.E s.val (layers.map fun l => (l.n, l.m, l.W, fun i => l.b i 0)) ∧
    List.Forall₂ (fun d l => d.1 = 1 - p ∧ s.b.E.rows d.2 = batch ∧ s.b.E.cols d.2 = l.n) N.drops layers ∧
    (N.x :: N.y :: (N.drops.map Prod.snd ++ N.params)).Nodup := by
  obtain ⟨N, s, rows, o1, o2, e1, e2, e, h⟩ := (CC).setup_spec hC
  refine ⟨N, s, e, ⟨h.x.rows, h.x.cols, h.y.rows, h.y.cols⟩, h.starts, ?_, h.nodup⟩
  rw [h.drops, forall2_map_left]
  exact h.rows.imp fun r l hh => ⟨rfl, hh.1.d.rows, hh.1.d.cols⟩

/-- **C54 (the error).**  Whatever numbers the parameters, the batch and the dropout matrices hold: `TensorR2::Eval` of the
error is the cross entropy of `Y` and the softmax of the layers applied to `X`. -/
theorem C54_error (hC : (CC).Ok) {g : Cfg} (hg : g.CPU) (π : Sched) {N : NNet ℝ} {s : NBld ℝ}
    (e : (CC).setup = some (N, s)) (w : ℕ → ℝ)
    (hw : ∀ a, (∀ o ∈ N.x :: N.y :: (N.drops.map Prod.snd ++ N.params), ¬IsEl s.b.E o a) → w a = s.val a)
    (der : ℕ → ℕ → ℝ) {f : ℕ} (hf : 1 < f) :
    ∃ t m, matEval ⟨backend g π, π, s.b.E, ⟨w, der⟩⟩ f (.obj N.err) MSt.fresh = some (t, m) ∧ m.rows = 1 ∧ m.cols = 1 ∧
      m.get? 0 0 = some (N.loss s.b.E out w) := by
  obtain ⟨N', s', rows, o1, o2, e1, e2, e', h⟩ := (CC).setup_spec hC
  rw [e] at e'
  obtain ⟨rfl, rfl⟩ := Prod.mk.inj (Option.some.inj e')
  have hq : QueryOk ⟨backend g π, π, s.b.E, ⟨w, der⟩⟩ N.rank False N.err :=
    ⟨h.wf, h.sound hg π, h.eyes hw, ⟨fun q _ n e eye hk hu => by
      obtain ⟨_, _, hs⟩ := h.kind hk
      rw [← usesInv_strip, hs] at hu
      exact absurd hu NNConf.theTerm_plain.noInv, fun q _ n e eye hk => by
      obtain ⟨_, _, hs⟩ := h.kind hk
      rw [← invertible_strip, hs]
      exact NNConf.theTerm_plain.invertible⟩⟩
  obtain ⟨t, m, a1, a2, a3, a4, _⟩ := C38_eval_current_partial (E := s.b.E) (rank := N.rank) .fresh
    ⟨backend g π, π, s.b.E, ⟨w, der⟩⟩ rfl hq (f := f) (by simpa [NNet.rank] using hf) (Or.inr fun _ _ hh => hh)
  obtain ⟨r1, r2⟩ := h.one
  refine ⟨t, m, a1, a2.trans r1, a3.trans r2, ?_⟩
  rw [a4 0 0 (by omega) (by omega)]
  exact congrArg some (h.meaning hC hw).1

theorem trained_of_descent {N : NNet ℝ} {s : NBld ℝ} {Xd Yd : Mat ℝ} {α : ℝ} {L : (ℕ → ℝ) → ℝ} {R : (ℕ → ℝ) → Prop}
    {G : (ℕ → ℝ) → ℕ → ℕ → ℕ → ℝ} {bs : List ((ℕ → ℕ → ℝ) × ℕ)} {v v' : ℕ → ℝ}
    (hd : Descent s.b.E N Xd Yd α G bs v v')
    (hG : ∀ w, (∀ a, (∀ o ∈ N.mats, ¬IsEl s.b.E o a) → w a = s.val a) → R w → ∀ θ ∈ N.params, ∀ i k, i < s.b.E.rows θ →
      k < s.b.E.cols θ → HasDerivAt (fun u => L (Function.update w (s.b.E.el θ i k) u)) (G w θ i k) (w (s.b.E.el θ i k)))
    (hv : ∀ a, (∀ o ∈ N.mats, ¬IsEl s.b.E o a) → v a = s.val a) : Trained s.b.E N Xd Yd α L R bs v v' := by
  induction hd with
  | nil v => exact .nil v
  | @cons draw j bs v w v1 v2 hl hs _ ih =>
    have hw : ∀ a, (∀ o ∈ N.mats, ¬IsEl s.b.E o a) → w a = s.val a := fun a ha => (hl.outside a ha).trans (hv a ha)
    exact .cons (G w) hl (hG w hw) hs (ih fun a ha => (hs.outside a ha).trans (hw a ha))

/-- **C54 (training).**  The whole program ends, with any CPU handler and any schedule of its threads; it starts with the
user's weights and biases, and the numbers at the end are those of mini-batch gradient descent on the cross entropy of the
network over all epochs: per batch, `rate / batch` times the gradient is added to all weights and biases at once (as long
as no activation is evaluated at its kink, where LeakyReLU has no derivative). -/
theorem C54_training (hC : (CC).Ok) (hl : layers ≠ []) {g : Cfg} (hg : g.CPU) (π : Sched) {f : ℕ} (hf : 1 < f)
    {Xd Yd : Mat ℝ} (hX : Xd.WF) (hY : Yd.WF) (hXc : Xd.cols = inp) (hYc : Yd.cols = out) (hr : Xd.rows = Yd.rows)
    (hb : batch ≤ Yd.rows) (rate : ℝ) (epochs : ℕ) (draw : ℕ → ℕ → ℕ → ℕ → ℝ) :
    ∃ N s t, (CC).main (backend g π) π f Xd Yd rate epochs draw = some (N, s, t) ∧
      N.Starts s.b.E s.val (layers.map fun l => (l.n, l.m, l.W, fun i => l.b i 0)) ∧
      Trained s.b.E N Xd Yd (rate / (batch : ℝ)) (N.loss s.b.E out)
        (fun w => Regular batch (N.plain s.b.E w) (matAt s.b.E w N.x)) (allBatches Yd.rows batch epochs draw) s.val t.val := by
  obtain ⟨N, s, rows, o1, o2, e1, e2, e, h⟩ := (CC).setup_spec hC
  have H := h.nnOk hC π ⟨s.val, fun a v => if a = v then 1 else 0⟩ (h.sound hg π) hX hY hXc hYc hr hb
  obtain ⟨t, G, a1, a2, a3⟩ := C48_training_real_partial H (h.params_ne hl) (f := f) (by simpa [NNet.rank] using hf) rate epochs
    draw (h.inv (backend g π) π ⟨s.val, fun a v => if a = v then 1 else 0⟩)
  have hbe : N.batch = batch := h.batch
  rw [hbe] at a2
  refine ⟨N, s, t, ?_, h.starts, trained_of_descent a2 (fun w hw hreg θ hθ i k hi hk => ?_) fun _ _ => rfl⟩
  · rw [NNConf.main, e, Option.bind_some, a1, Option.map_some]
  · have hm := a3 w (h.eyes hw) (fun q n e eye _ hk => by
      obtain ⟨_, _, hs⟩ := h.kind hk
      rw [← mapsOk_strip, hs]
      exact (h.meaning hC hw).2 hreg) θ hθ i k hi hk
    refine hm.congr_of_eventuallyEq (Filter.Eventually.of_forall fun u => ?_)
    refine ((h.meaning hC fun a ha => ?_).1).symm
    rw [Function.update_of_ne (fun hh => ha θ (N.params_sub hθ) ⟨i, k, hi, hk, hh⟩)]
    exact hw a ha

end

/-! ## Example -/

namespace NNProgramExample

/-- Two inputs, a hidden layer with three outputs, two classes; all biases are one. -/
def lays : List (LayerDef ℝ) := [⟨3, 2, fun _ _ => 0, fun _ _ => 1⟩, ⟨2, 3, fun _ _ => 0, fun _ _ => 1⟩]

/-- Three samples. -/
def Xd : Mat ℝ := ⟨3, 2, [1, 2, 3, 4, 5, 6]⟩
def Yd : Mat ℝ := ⟨3, 2, [1, 0, 0, 1, 1, 0]⟩

theorem ok : (NNConf.real 2 2 2 (1 / 5) lays).Ok :=
  ⟨by norm_num [NNConf.real], by norm_num [NNConf.real], rfl, by norm_num, rfl, by norm_num, rfl⟩

/-- The conditions of `C54_training` are met. -/
example (rate : ℝ) (epochs : ℕ) (draw : ℕ → ℕ → ℕ → ℕ → ℝ) :
    ∃ N s t, (NNConf.real 2 2 2 (1 / 5) lays).main (backend ⟨.eigen, false, .cpu⟩ Sched.seq) Sched.seq 2 Xd Yd rate epochs
        draw = some (N, s, t) ∧
      N.Starts s.b.E s.val (lays.map fun l => (l.n, l.m, l.W, fun i => l.b i 0)) ∧
      Trained s.b.E N Xd Yd (rate / (2 : ℕ)) (N.loss s.b.E 2)
        (fun w => Regular 2 (N.plain s.b.E w) (matAt s.b.E w N.x)) (allBatches 3 2 epochs draw) s.val t.val := by
  have wX : Xd.WF := ⟨by simp [Xd], by simp [Xd], rfl⟩
  have wY : Yd.WF := ⟨by simp [Yd], by simp [Yd], rfl⟩
  exact C54_training (inp := 2) (out := 2) (batch := 2) (p := 1 / 5) (layers := lays) ok (by simp [lays])
    (g := ⟨.eigen, false, .cpu⟩) rfl Sched.seq (f := 2) (by norm_num) (Xd := Xd) (Yd := Yd) wX wY rfl rfl rfl (by simp [Yd])
    rate epochs draw

/-- No activation is at its kink at the start, whatever the data and the random numbers. -/
theorem regular {N : NNet ℝ} {s : NBld ℝ} (e : (NNConf.real 2 2 2 (1 / 5) lays).setup = some (N, s)) {w : ℕ → ℝ}
    (hw : ∀ θ ∈ N.params, ∀ i k, i < s.b.E.rows θ → k < s.b.E.cols θ → w (s.b.E.el θ i k) = s.val (s.b.E.el θ i k)) :
    Regular 2 (N.plain s.b.E w) (matAt s.b.E w N.x) := by
  obtain ⟨N', s', e', _, h1, h2, _⟩ := C54_setup ok
  rw [e] at e'
  obtain ⟨rfl, rfl⟩ := Prod.mk.inj (Option.some.inj e')
  simp only [NNet.plain, NNet.Starts, lays, List.map_cons, List.map_nil, NNet.params] at h1 h2 hw ⊢
  generalize N.layers = nl at *
  generalize N.drops = nd at *
  cases h1 with
  | @cons a _ _ _ a1 h1 => cases h1 with
    | @cons b _ _ _ b1 h1 => cases h1 with
      | nil => cases h2 with
        | cons c1 h2 => cases h2 with
          | cons c2 h2 => cases h2 with
            | nil =>
              obtain ⟨⟨r1, r2, r3, r4⟩, n1, m1⟩ := a1
              obtain ⟨⟨q1, q2, q3, q4⟩, n2, m2⟩ := b1
              have gW : ∀ j l, j < 3 → l < 2 → matAt s.b.E w a.1 j l = 0 := fun j l hj hl => by
                rw [matAt, hw a.1 (by simp) j l (by rw [r1]; exact hj) (by rw [r2]; exact hl)]; exact n1 j l hj hl
              have gb : ∀ j, j < 3 → matAt s.b.E w a.2 j 0 = 1 := fun j hj => by
                rw [matAt, hw a.2 (by simp) j 0 (by rw [r3]; exact hj) (by rw [r4]; exact one_pos)]; exact m1 j hj
              have gW' : ∀ j l, j < 2 → l < 3 → matAt s.b.E w b.1 j l = 0 := fun j l hj hl => by
                rw [matAt, hw b.1 (by simp) j l (by rw [q1]; exact hj) (by rw [q2]; exact hl)]; exact n2 j l hj hl
              have gb' : ∀ j, j < 2 → matAt s.b.E w b.2 j 0 = 1 := fun j hj => by
                rw [matAt, hw b.2 (by simp) j 0 (by rw [q3]; exact hj) (by rw [q4]; exact one_pos)]; exact m2 j hj
              refine ⟨fun i j _ hj => ?_, fun i j _ hj => ?_, trivial⟩
              · change j < s.b.E.rows a.1 at hj
                rw [r1] at hj
                show ∑ l ∈ Finset.range (s.b.E.cols a.1), _ * matAt s.b.E w a.1 j l + matAt s.b.E w a.2 j 0 ≠ 0
                rw [r2, gb j hj, Finset.sum_eq_zero fun l hl => by rw [gW j l hj (Finset.mem_range.1 hl), mul_zero]]
                norm_num
              · change j < s.b.E.rows b.1 at hj
                rw [q1] at hj
                show ∑ l ∈ Finset.range (s.b.E.cols b.1), _ * matAt s.b.E w b.1 j l + matAt s.b.E w b.2 j 0 ≠ 0
                rw [q2, gb' j hj, Finset.sum_eq_zero fun l hl => by rw [gW' j l hj (Finset.mem_range.1 hl), mul_zero]]
                norm_num

end NNProgramExample

end CoolDiff
