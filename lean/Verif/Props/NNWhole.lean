import Verif.Apps.NNWholeProof
import Verif.Props.NNProgram

/-!
# C54: the whole neural network program

example/NeuralNet/main.cpp: build the network, train it with statistics, compute the accuracy for the test data.
-/

set_option linter.unusedSectionVars false

namespace CoolDiff

section
variable {inp out batch : ℕ} {p : ℝ} {layers : List (LayerDef ℝ)}

local notation "CC" => NNConf.real inp out batch p layers

/-- What `accuracy` for external use gives after training. -/
theorem SetupOk.testAccuracy {N : NNet ℝ} {s : NBld ℝ} {rows : List Row} {o1 o2 e1 e2 : ℕ}
    (h : SetupOk (CC) N s rows o1 o2 e1 e2) (hC : (CC).Ok) {g : Cfg} (hg : g.CPU) (π : Sched) {f : ℕ} (hf : 1 < f)
    {Xt Yt : Mat ℝ} (hX : Xt.WF) (hY : Yt.WF) (hXc : Xt.cols = inp) (hYc : Yt.cols = out) (hr : Xt.rows = Yt.rows)
    {b : ℕ} (hb0 : 0 < b) (hb : b ≤ Yt.rows) {t : NNSt ℝ} {U : ℕ → Prop}
    (hi : NNInv (s.ctx (backend g π) π) N.rank N t U) (hk : NetKept N s t.val) :
    ∃ t' a, (CC).accuracy (backend g π) π f b N.err s t Xt Yt = some (t', a) ∧
      a = plainAccuracy (N.plain s.b.E t.val) out b Xt Yt := by
  obtain ⟨x, y, rows', o1', o2', s', e, st, w, hn⟩ := h.rebuild hC hb0
  have hC' : (NNConf.real inp out b p layers).Ok := ⟨hb0, hC.inp, hC.chain⟩
  have hlay : s'.layers = N.layers := st.layers.trans h.lay
  have hpar : (⟨N.err, s'.layers, x, y, s'.drops, b⟩ : NNet ℝ).params = N.params := by rw [NNet.params, NNet.params, hlay]
  have hT : Nums s.b.E N.params := fun o ho => (h.own o (N.params_sub ho)).2.1
  have hlt : ∀ θ ∈ N.params, θ < s.b.nobj := fun θ hθ => (h.mats_lt (N.params_sub hθ)).1
  -- the state
  obtain ⟨own, kk, hrest, hprest⟩ : ∃ own kk, Rest (s.b.E.wrt N.params) t.p.val ∧ PRest (s.b.E.wrt N.params) own kk t.p := by
    have hu0 := h.built.inv.uniq
    have hu : UniqueNodes (s.b.E.wrt N.params) Set.univ :=
      ⟨fun q _ n e eye hk => hu0.nodup q trivial n e eye ((s.b.E.wrt_form hT).1 hk),
        fun q _ p _ n e eye n' e' eye' hk hk' => hu0.disj q trivial p trivial n e eye n' e' eye'
          ((s.b.E.wrt_form hT).1 hk) ((s.b.E.wrt_form hT).1 hk')⟩
    have HA := h.net.accOk hC.batch π (h.sound hg π) (Xd := ⟨1, inp, List.replicate inp 0⟩) (Yd := ⟨1, out, List.replicate out 0⟩)
      ⟨one_pos, hC.inp, by simp⟩ ⟨one_pos, hC.chain.pos hC.inp, by simp⟩ rfl rfl rfl 0
    have hwf := (QueryOkE.wrt (c := (s.ctx (backend g π) π).at t.val) hT (HA.query _ hi.eyes)
      (fun o n e eye hk hm => HA.eyes o n e eye hk (N.params_sub hm))).wf
    obtain ⟨own, nd, kk, ck, hst, hnd⟩ := Static.exists hwf hu
    obtain ⟨i1, i2⟩ := hi.hist.all hst hnd
    exact ⟨own, kk, i1.all.1, i2⟩
  have hkind : (s'.b.E.wrt N.params).kind = (s.b.E.wrt N.params).kind := by
    funext o; simp only [MEnv.wrt, st.kinds]
  have hr' : Rest (s'.b.E.wrt N.params) t.p.val := by
    refine hrest.transfer hkind st.pads fun o ho => ?_
    have hm : o < s.b.nobj := by
      by_cases hm : o ∈ N.params
      · exact hlt o hm
      · have ho : s.b.E.kind o = .var := by simpa [MEnv.wrt, hm] using ho
        by_contra hh
        have := h.built.inv.new o (not_lt.1 hh)
        rw [this] at ho; cases ho
    exact ⟨st.ext.rows o hm, st.ext.cols o hm⟩
  -- the numbers
  have hold : ∀ a, a < s.b.nh → (fun a => if a < s.b.nh then t.val a else s'.val a) a = t.val a := fun a ha => if_pos ha
  have heyes : EyesOk s'.b.E (fun a => if a < s.b.nh then t.val a else s'.val a) := by
    intro o n e eye hk i j hi' hj'
    rw [st.kinds] at hk
    obtain ⟨k, hk'⟩ := h.built.inv.eye o n e eye hk
    obtain ⟨a1, _, a3, a4, a5⟩ := h.built.inv.eyes k eye hk'
    rw [st.ext.rows _ a1] at hi'
    rw [st.ext.cols _ a1] at hj'
    rw [st.ext.el eye a1, hold _ (a5 i j (a3 ▸ hi') (a4 ▸ hj')).1]
    exact hi.eyes o n e eye hk i j hi' hj'
  have hones : ∀ n m o, s'.reg n m = some o → ∀ i j, i < n → j < m →
      matAt s'.b.E (fun a => if a < s.b.nh then t.val a else s'.val a) o i j = 1 := by
    intro n m o ho i j hi' hj'
    rcases st.newReg n m o ho with h1 | h1
    · have hc := (h.reg n m o h1).2
      show (if s'.b.E.el o i j < s.b.nh then t.val (s'.b.E.el o i j) else s'.val (s'.b.E.el o i j)) = 1
      rw [st.ext.el o hc.lt, if_pos (hc.el i j hi' hj').1]
      exact h.ones hk h1 hi' hj'
    · have hc := hn.reg n m o ho
      have := st.newEl o h1 hc.lt i j
      show (if s'.b.E.el o i j < s.b.nh then t.val (s'.b.E.el o i j) else s'.val (s'.b.E.el o i j)) = 1
      rw [if_neg (not_lt.2 this)]
      exact SetupOk.holds s' _ _ (hc.el i j hi' hj').2
  -- the loop
  have HA := hn.accOk hb0 π (hn.sound hg π) hX hY hXc hYc hr s'.b.next
  obtain ⟨t', a, a1, a2, _⟩ := nnAccuracy_leaves HA (f := f) (fun q hq => by
      rw [NNet.rank]; split <;> omega) hb (fun q hq => hn.num_ne (hn.outObjs hq))
    (s := { t with val := fun a => if a < s.b.nh then t.val a else s'.val a }) (own := own) (kk := kk)
    (by show Rest (s'.b.E.wrt _) _; rw [hpar]; exact hr') (by show PRest (s'.b.E.wrt _) _ _ _; rw [hpar]; exact hprest.transfer hkind) heyes
  refine ⟨t', a, ?_, ?_⟩
  · rw [NNConf.accuracy, e]
    exact a1
  · have := NetOk.accuracy (inp := inp) (out := out) (batch := b) (p := p) (layers := layers) hn hC' heyes hones π (hn.sound hg π)
      hX hY hXc hYc hr a2
    rw [this]
    refine plainAccuracy_congr (inp := inp) ?_ ?_
    · rw [hn.clean, h.net.clean]
      show List.Forall₂ _ (s'.layers.map _) _
      rw [hlay, forall2_map_left, forall2_map_right, List.forall₂_same]
      intro l hl
      have hl2 := hl
      rw [h.layers, List.mem_map] at hl2
      obtain ⟨r, hr1, rfl⟩ := hl2
      obtain ⟨ld, _, _, c1, c2⟩ := forall2_mem_left h.rows hr1
      have w1 : s'.b.E.rows r.w = ld.n := (st.ext.rows _ c1.lt).trans c1.rows
      have w2 : s'.b.E.cols r.w = ld.m := (st.ext.cols _ c1.lt).trans c1.cols
      refine ⟨⟨w1.trans c1.rows.symm, w2.trans c1.cols.symm⟩, fun j l hj hl' => ?_, fun j hj => ?_, fun _ _ => rfl⟩
      · change j < s'.b.E.rows r.w at hj
        change l < s'.b.E.cols r.w at hl'
        show (if s'.b.E.el r.w j l < s.b.nh then t.val (s'.b.E.el r.w j l) else s'.val (s'.b.E.el r.w j l)) = t.val (s.b.E.el r.w j l)
        rw [st.ext.el _ c1.lt, if_pos (c1.el j l (w1 ▸ hj) (w2 ▸ hl')).1]
      · change j < s'.b.E.rows r.w at hj
        show (if s'.b.E.el r.b j 0 < s.b.nh then t.val (s'.b.E.el r.b j 0) else s'.val (s'.b.E.el r.b j 0)) = t.val (s.b.E.el r.b j 0)
        rw [st.ext.el _ c2.lt, if_pos (c2.el j 0 (w1 ▸ hj) one_pos).1]
    · rw [hn.shapes]; exact hC.chain

/-- **C54 (the program).**  If dimensions are positive and fit and there are more samples than in a batch, the whole program
ends, with any CPU handler and any schedule of its threads.  It starts with the user's weights and biases; per epoch it is
mini-batch gradient descent on the cross entropy of the network and prints the sum of the losses and the accuracy of the
network without dropout on the training data; at the end it prints the accuracy on the test data of the network with the
trained weights and biases, although that is computed with a network that is rebuilt for another batch size. -/
theorem C54_program (hC : (CC).Ok) (hl : layers ≠ []) {g : Cfg} (hg : g.CPU) (π : Sched) {f : ℕ} (hf : 1 < f)
    {Xd Yd : Mat ℝ} (hX : Xd.WF) (hY : Yd.WF) (hXc : Xd.cols = inp) (hYc : Yd.cols = out) (hr : Xd.rows = Yd.rows)
    (hb : batch < Yd.rows) {Xt Yt : Mat ℝ} (hXt : Xt.WF) (hYt : Yt.WF) (hXtc : Xt.cols = inp) (hYtc : Yt.cols = out)
    (hrt : Xt.rows = Yt.rows) {b : ℕ} (hb0 : 0 < b) (hbt : b < Yt.rows)
    (rate : ℝ) (epochs : ℕ) (draw : ℕ → ℕ → ℕ → ℕ → ℝ) :
    ∃ N s t log acc, (CC).program (backend g π) π f Xd Yd rate epochs draw b Xt Yt = some ((N, s), t, log, acc) ∧
      N.Starts s.b.E s.val (layers.map fun l => (l.n, l.m, l.W, fun i => l.b i 0)) ∧
      EpochsW s.b.E N Xd Yd (rate / (batch : ℝ)) (N.loss s.b.E out)
        (fun w => Regular batch (N.plain s.b.E w) (matAt s.b.E w N.x))
        (fun w => plainAccuracy (N.plain s.b.E w) out batch Xd Yd) draw (List.range epochs) s.val log t.val ∧
      acc = plainAccuracy (N.plain s.b.E t.val) out b Xt Yt := by
  obtain ⟨N, s, rows, o1, o2, e1, e2, e, h⟩ := (CC).setupF_spec hC
  have H : NNOk (s.ctx (backend g π) π) N.rank N Xd Yd := h.nnOk hC π _ (h.sound hg π) hX hY hXc hYc hr hb.le
  have HA := h.net.accOk hC.batch π (h.sound hg π) hX hY hXc hYc hr s.b.next
  have hbe : N.batch = batch := h.batch
  obtain ⟨t, U, log, a1, a2, a3⟩ := nnTrainS_spec H HA (h.params_ne hl) (f := f) (by simpa [NNet.rank] using hf)
    (fun q hq => by rw [NNet.rank]; split <;> omega) rate epochs draw (h.inv (backend g π) π _)
    (NoGapsE.leaves fun q hq => h.net.num_ne (h.net.outObjs hq))
  obtain ⟨b1, b2⟩ := epochsW_of_epochs (L := N.loss s.b.E out) (R := fun w => Regular batch (N.plain s.b.E w) (matAt s.b.E w N.x))
    (acc := fun w => plainAccuracy (N.plain s.b.E w) out batch Xd Yd) a3 (fun w hw hreg θ hθ i k hi hk => by
      have hm := nnGrad_hasDerivAt H (h.eyes hw) (fun q n e eye _ hk => by
        obtain ⟨_, _, hs⟩ := h.kind hk
        rw [← mapsOk_strip, hs]
        exact (h.meaning hC hw).2 hreg) hθ hi hk
      refine hm.congr_of_eventuallyEq (Filter.Eventually.of_forall fun u => ?_)
      refine ((h.meaning hC fun a ha => ?_).1).symm
      rw [Function.update_of_ne (fun hh => ha θ (N.params_sub hθ) ⟨i, k, hi, hk, hh⟩)]
      exact hw a ha)
    (fun w hw => (h.meaning hC hw).1)
    (fun w a hw ha => h.net.accuracy hC (h.eyes hw) (fun n m o ho i j hi hj => h.ones hw ho hi hj) π (h.sound hg π) hX hY hXc
      hYc hr ha) fun _ _ => rfl
  obtain ⟨t', acc, c1, c2⟩ := h.testAccuracy hC hg π hf hXt hYt hXtc hYtc hrt hb0 hbt.le a2 b2
  rw [hbe] at b1
  refine ⟨N, s, t, log, acc, ?_, h.starts, b1, c2⟩
  simp only [NNConf.program, e, Option.bind_some]
  rw [a1]
  simp only [Option.bind_some, c1, Option.map_some]

end

/-! ## Example -/

namespace NNProgramExample

/-- Test data: four samples. -/
def Xt : Mat ℝ := ⟨4, 2, [1, 2, 3, 4, 5, 6, 7, 8]⟩
def Yt : Mat ℝ := ⟨4, 2, [1, 0, 0, 1, 1, 0, 1, 0]⟩

/-- The conditions of `C54_program` are met: batches of two for training, of three for the test data. -/
example (rate : ℝ) (epochs : ℕ) (draw : ℕ → ℕ → ℕ → ℕ → ℝ) :
    ∃ N s t log acc, (NNConf.real 2 2 2 (1 / 5) lays).program (backend ⟨.eigen, false, .cpu⟩ Sched.seq) Sched.seq 2 Xd Yd rate
        epochs draw 3 Xt Yt = some ((N, s), t, log, acc) ∧
      N.Starts s.b.E s.val (lays.map fun l => (l.n, l.m, l.W, fun i => l.b i 0)) ∧
      EpochsW s.b.E N Xd Yd (rate / (2 : ℕ)) (N.loss s.b.E 2)
        (fun w => Regular 2 (N.plain s.b.E w) (matAt s.b.E w N.x))
        (fun w => plainAccuracy (N.plain s.b.E w) 2 2 Xd Yd) draw (List.range epochs) s.val log t.val ∧
      acc = plainAccuracy (N.plain s.b.E t.val) 2 3 Xt Yt := by
  have wX : Xd.WF := ⟨by simp [Xd], by simp [Xd], rfl⟩
  have wY : Yd.WF := ⟨by simp [Yd], by simp [Yd], rfl⟩
  have wXt : Xt.WF := ⟨by simp [Xt], by simp [Xt], rfl⟩
  have wYt : Yt.WF := ⟨by simp [Yt], by simp [Yt], rfl⟩
  exact C54_program (inp := 2) (out := 2) (batch := 2) (p := 1 / 5) (layers := lays) ok (by simp [lays])
    (g := ⟨.eigen, false, .cpu⟩) rfl Sched.seq (f := 2) (by norm_num) (Xd := Xd) (Yd := Yd) wX wY rfl rfl rfl (by simp [Yd])
    (Xt := Xt) (Yt := Yt) wXt wYt rfl rfl rfl (b := 3) (by norm_num) (by simp [Yt]) rate epochs draw

open Classical in
/-- A network that gives both classes the same probability: every sample is put into the first class; of the two samples
that are looked at one is right; related to the one sample that is left when a batch is taken away, that is 100 per cent.
(Not a bug of the proof: `accuracy` divides by the number of samples less the batch size.) -/
theorem plainAccuracy_example (D : ℕ → ℕ → ℝ) : plainAccuracy [⟨2, 2, fun _ _ => 0, fun _ => 1, D⟩] 2 2 Xd Yd = 100 := by
  have hs : ∀ i k, softmax 2 (forward ([(⟨2, 2, fun _ _ => 0, fun _ => 1, D⟩ : PlainLayer)].map PlainLayer.clean) Xd.val) i k =
      1 / 2 := by
    intro i k
    simp only [List.map_cons, List.map_nil, forward, softmax, PlainLayer.out, PlainLayer.pre, PlainLayer.clean, mul_zero,
      Finset.sum_const_zero, zero_add, one_mul, Finset.sum_const, Finset.card_range]
    have : Real.exp (leaky 1) ≠ 0 := (Real.exp_pos _).ne'
    field_simp
    simp [mul_comm]
  have h0 : RightClass 2 (softmax 2 (forward ([(⟨2, 2, fun _ _ => 0, fun _ => 1, D⟩ : PlainLayer)].map PlainLayer.clean) Xd.val))
      Yd.val 0 := by
    refine ⟨0, ⟨by norm_num, fun q _ => by rw [hs, hs]; exact lt_irrefl _, fun q hq => absurd hq (by omega)⟩,
      ⟨by norm_num, fun q hq => ?_, fun q hq => absurd hq (by omega)⟩⟩
    rcases (by omega : q = 0 ∨ q = 1) with rfl | rfl <;> norm_num [Yd, Mat.val, Mat.get?, Mat.raw?]
  have h1 : ¬RightClass 2 (softmax 2 (forward ([(⟨2, 2, fun _ _ => 0, fun _ => 1, D⟩ : PlainLayer)].map PlainLayer.clean) Xd.val))
      Yd.val 1 := by
    rintro ⟨p, a, b⟩
    have hp : p = 0 := by
      by_contra hp
      have := a.first 0 (by omega)
      rw [hs, hs] at this
      exact lt_irrefl _ this
    subst hp
    have := b.largest 1 (by norm_num)
    norm_num [Yd, Mat.val, Mat.get?, Mat.raw?] at this
  have hc : Finset.filter (RightClass 2 (softmax 2 (forward ([(⟨2, 2, fun _ _ => 0, fun _ => 1, D⟩ : PlainLayer)].map
      PlainLayer.clean) Xd.val)) Yd.val) (Finset.range 2) = {0} := by
    ext i
    simp only [Finset.mem_filter, Finset.mem_range, Finset.mem_singleton]
    constructor
    · rintro ⟨hi, hr⟩
      rcases (by omega : i = 0 ∨ i = 1) with rfl | rfl
      · rfl
      · exact absurd hr h1
    · rintro rfl
      exact ⟨by norm_num, h0⟩
  have hc' := congrArg (fun S : Finset ℕ => (S.card : ℝ)) hc
  simp only [Finset.card_singleton, Nat.cast_one] at hc'
  unfold plainAccuracy
  rw [show (Yd.rows - 1) / 2 * 2 = 2 from rfl, show Yd.rows - 2 = 1 from rfl]
  rw [show ((1 : ℕ) : ℝ) = 1 from Nat.cast_one, div_one]
  convert congrArg (· * (100 : ℝ)) hc' using 1
  norm_num

end NNProgramExample

end CoolDiff
