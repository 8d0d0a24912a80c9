import Verif.Apps.NNMain
import Verif.Apps.NNWhole
import Verif.Apps.NNWholeSpec
import Verif.Apps.AccProof

/-!
# The whole neural network program: proofs
-/

set_option linter.unusedSectionVars false

namespace CoolDiff

section general
variable {K : Type} [Field K] [DecidableEq K]

/-! ## Programs with the same formulas -/

theorem Rest.transfer {E F : MEnv K} (hk : F.kind = E.kind) (hP : F.P = E.P)
    (hd : ∀ o, E.kind o = .var → F.rows o = E.rows o ∧ F.cols o = E.cols o) {s : MSt K} (h : Rest E s) : Rest F s := by
  have hf : ∀ o, F.isForm o ↔ E.isForm o := fun o => by simp only [MEnv.isForm, hk]
  refine ⟨by rw [hP]; exact h.live, fun o ho => h.rlive o fun hh => ho ((hf o).2 hh), ⟨fun o ho => h.bufs.live o fun hh => ho ((hf o).2 hh),
    fun o ho => h.bufs.num o (by rw [← hk]; exact ho), fun o ho => ?_⟩, fun o ho => h.fl o fun hh => ho ((hf o).2 hh),
    fun o n e eye ho => h.vc o n e eye (by rw [← hk]; exact ho)⟩
  rw [hk] at ho
  have := h.bufs.var o ho
  obtain ⟨h1, h2⟩ := hd o ho
  rw [VarBuf, h1, h2]
  exact this

theorem PRest.transfer {E F : MEnv K} (hk : F.kind = E.kind) {own kk : ℕ → ℕ} {p : PSt K} (h : PRest E own kk p) :
    PRest F own kk p := by
  have hf : ∀ o, F.isForm o ↔ E.isForm o := fun o => by simp only [MEnv.isForm, hk]
  have hn : Nested F = Nested E := by funext q; simp only [Nested, MEnv.isForm, hk]
  exact ⟨by rw [hn]; exact h.inv, fun q hq => h.leaf q fun hh => hq ((hf q).2 hh)⟩

/-! ## A network is fine for `accuracy` -/

variable {C : NNConf K} {N : NNet K} {s : NBld K} {rows : List Row} {o1 o2 e1 e2 : ℕ}

theorem layers_objs_of (C : NNConf K) : ∀ (rows : List Row) {t : MTerm K} {q : ℕ}, q ∈ (rows.foldl C.layerTerm t).objs →
    q ∈ t.objs ∨ ∃ r ∈ rows, q = r.w ∨ q = r.b ∨ q = r.d ∨ q = r.o
  | [], _, _, h => Or.inl h
  | r :: rows, t, q, h => by
    rcases layers_objs_of C rows (t := C.layerTerm t r) h with h | ⟨r', h1, h2⟩
    · simp only [NNConf.layerTerm, MTerm.objs, List.mem_append, List.mem_singleton] at h
      rcases h with h | (h | h) | h | h
      · exact Or.inr ⟨r, by simp, by simp [h]⟩
      · exact Or.inl h
      · exact Or.inr ⟨r, by simp, by simp [h]⟩
      · exact Or.inr ⟨r, by simp, by simp [h]⟩
      · exact Or.inr ⟨r, by simp, by simp [h]⟩
    · exact Or.inr ⟨r', List.mem_cons_of_mem _ h1, h2⟩

theorem forall2_mem_left {α β : Type} {P : α → β → Prop} {l : List α} {l' : List β} (h : List.Forall₂ P l l') {a : α}
    (ha : a ∈ l) : ∃ b ∈ l', P a b := by
  induction h with
  | nil => cases ha
  | cons h1 _ ih =>
    rcases List.mem_cons.1 ha with rfl | ha
    · exact ⟨_, by simp, h1⟩
    · obtain ⟨b, hb, hp⟩ := ih ha
      exact ⟨b, by simp [hb], hp⟩

namespace NetOk
variable (h : NetOk C N s rows o1 o2)
include h

theorem numObjs {q : ℕ} (hq : q ∈ (C.softTerm (rows.foldl C.layerTerm (.mat N.x)) o1 o2).objs) : s.b.E.kind q = .num := by
  have key : ∀ {q}, q ∈ (rows.foldl C.layerTerm (.mat N.x)).objs → s.b.E.kind q = .num := by
    intro q hq
    rcases layers_objs_of C rows hq with hq | ⟨r, hr, hq⟩
    · simp only [MTerm.objs, List.mem_singleton] at hq
      subst hq
      exact (h.own _ (by simp [NNet.mats])).2.1
    · obtain ⟨m1, m2, m3⟩ := h.rowMats hr
      rcases hq with rfl | rfl | rfl | rfl
      · exact (h.own _ m1).2.1
      · exact (h.own _ m2).2.1
      · exact (h.own _ m3).2.1
      · obtain ⟨l, _, hl⟩ := forall2_mem_left h.rows hr
        exact (h.reg _ _ _ hl.o).kind
  simp only [NNConf.softTerm, MTerm.objs, List.mem_append, List.mem_singleton] at hq
  rcases hq with hq | (hq | hq) | hq
  · exact key hq
  · exact key hq
  · subst hq; exact (h.reg _ _ _ h.ro1).kind
  · subst hq; exact (h.reg _ _ _ h.ro2).kind

theorem softPlain : (C.softTerm (rows.foldl C.layerTerm (.mat N.x)) o1 o2).Plain := by
  have h := layers_plain C rows (t := .mat N.x) trivial
  exact ⟨h, ⟨h, trivial⟩, trivial⟩

theorem outObjs {k q : ℕ} (hq : q ∈ ((C.softTerm (rows.foldl C.layerTerm (.mat N.x)) o1 o2).build k).1.objs) :
    s.b.E.kind q = .num := by
  rw [← objs_strip, strip_build, objs_node] at hq
  exact h.numObjs hq

theorem sound {g : Cfg} (hg : g.CPU) (π : Sched) : (backend (K := K) g π).Sound s.b.E.P :=
  backend_sound hg π (Or.inr (by rw [MEnv.P, h.noPads]; exact Compat.empty))

theorem accOk (hb : 0 < C.batch) {B : Backend K} (π : Sched) (hB : B.Sound s.b.E.P) {Xd Yd : Mat K} (hX : Xd.WF) (hY : Yd.WF)
    (hXc : Xd.cols = C.inp) (hYc : Yd.cols = C.out) (hr : Xd.rows = Yd.rows) (k : ℕ) :
    AccOk (s.ctx B π) N.rank N ((C.softTerm (rows.foldl C.layerTerm (.mat N.x)) o1 o2).build k).1 Xd Yd where
  wf := h.wf
  query v he := by
    refine ⟨h.wf, hB, he, ?_, ?_, ?_, ?_⟩
    · have : ∀ o, EReach s.b.E ((C.softTerm (rows.foldl C.layerTerm (.mat N.x)) o1 o2).build k).1 o → ¬s.b.E.isForm o := by
        rintro o ⟨p, hp, hre⟩
        have hk := h.outObjs hp
        cases hre with
        | refl => exact h.num_ne hk
        | step h1 h2 h3 =>
          exfalso
          have : ∀ {a}, MReach s.b.E p a → a = p := by
            intro a ha
            induction ha with
            | refl => rfl
            | step _ hk' _ ih => rw [ih, hk] at hk'; cases hk'
          rw [this h1, hk] at h2; cases h2
      exact ⟨fun o ho n e eye hk => absurd ⟨n, e, eye, hk⟩ (this o ho), fun o ho n e eye hk => absurd ⟨n, e, eye, hk⟩ (this o ho)⟩
    · rw [← dimOk_strip, strip_build]
      exact dimOk_of_fits (E := s.b.E) _ h.soft.fits (by rw [h.softPlain.noReqs]; exact Set.empty_subset _) fun _ _ => ⟨rfl, rfl⟩
    · intro hu
      rw [← usesInv_strip, strip_build] at hu
      exact absurd hu h.softPlain.noInv
    · rw [← invertible_strip, strip_build]
      exact h.softPlain.invertible
  dims := by
    rw [← dims_strip, strip_build, hYc, h.batch]
    exact h.soft.dims
  nodes := by obtain ⟨d, hd⟩ := h.built; exact hd.inv.uniq
  nodup := h.nodup
  num o ho := (h.own o ho).2.1
  eyes := h.eyes
  own o ho q hq hf l k i j hl hk hi hj he := by
    obtain ⟨d, hd⟩ := h.built
    refine h.apart (h.own o ho).1 ?_ (h.num_ne (h.own o ho).2.1) hf hl hk hi hj he
    rcases hq with hq | hq | ⟨p, n, e, eye, hk, hq⟩
    · exact (h.own q hq).1
    · by_contra hh
      have := hd.inv.new q (not_lt.1 hh)
      change s.b.E.kind q = .var at hq
      rw [this] at hq; cases hq
    · exact hd.inv.objlt p n e eye hk q hq
  bpos := by rw [h.batch]; exact hb
  xrows := by rw [h.batch]; exact h.x.rows
  yrows := by rw [h.batch]; exact h.y.rows
  xdata := hX
  ydata := hY
  xcols := by rw [hXc]; exact h.x.cols.symm
  ycols := by rw [hYc]; exact h.y.cols.symm
  rows := hr

end NetOk

/-! ## Rebuilding the network for another batch size -/

theorem SetupOk.rebuild (h : SetupOk C N s rows o1 o2 e1 e2) (hC : C.Ok) {b : ℕ} (hb : 0 < b) :
    ∃ x y rows' o1' o2' s', ({ C with batch := b } : NNConf K).networkLayers s =
        some (x, y, C.softTerm (rows'.foldl C.layerTerm (.mat x)) o1' o2', s') ∧ NStep s s' ∧
      rows'.map (fun r => (r.w, r.b)) = N.layers ∧
      NetOk { C with batch := b } ⟨N.err, s'.layers, x, y, s'.drops, b⟩ s' rows' o1' o2' := by
  obtain ⟨R, hR, hni⟩ := h.ni
  have hs : List.Forall₂ (fun l sh => HasDims s.b l.1 sh.1 sh.2 ∧ HasDims s.b l.2 sh.1 1) s.layers C.shapes := by
    rw [h.lay, h.layers, NNConf.shapes, forall2_map_left, forall2_map_right]
    exact h.rows.imp fun r l hh => ⟨hh.1.w, hh.1.b⟩
  obtain ⟨x, y, rows', o1', o2', s', e, i, st, w, d, ok, hx, hy, r1, r2, t⟩ :=
    NNConf.networkLayers_spec ({ C with batch := b } : NNConf K) hb hC.inp hni hs hC.chain
  have hlay : s'.layers = N.layers := st.layers.trans h.lay
  have hsub : ((⟨N.err, s'.layers, x, y, s'.drops, b⟩ : NNet K).mats).Subperm (s'.owned (x :: y :: R)) := by
    have hsl : (x :: y :: (layerParams N.layers ++ s'.drops.map Prod.snd)).Sublist (s'.owned (x :: y :: R)) := by
      rw [NBld.owned, List.cons_append, List.cons_append]
      exact .cons_cons _ (.cons_cons _ (hR.append (List.sublist_append_left _ _)))
    refine List.Perm.subperm_right (List.Perm.refl _) |>.1 ?_
    refine (List.Perm.subperm ?_).trans hsl.subperm
    have : (⟨N.err, s'.layers, x, y, s'.drops, b⟩ : NNet K).mats = x :: y :: (s'.drops.map Prod.snd ++ layerParams N.layers) := by
      simp only [NNet.mats, NNet.params, layerParams, hlay]
    rw [this]
    exact (List.perm_append_comm.cons y).cons x
  have hkind : ∀ o, s'.b.E.kind o = s.b.E.kind o := fun o => by rw [st.kinds]
  refine ⟨x, y, rows', o1', o2', s', e, st, w.trans h.lay, ?_⟩
  refine { built := ⟨_, i.built⟩, forms := fun o ho => ?_, noPads := ?_, soft := t, nodup := ?_, own := fun o ho => ?_,
           eyes := fun p n e eye hk hm => ?_, reg := i.reg, layers := ?_, drops := d, rows := ?_, x := hx, y := hy, ro1 := r1,
           ro2 := r2, batch := rfl }
  · obtain ⟨n, e, eye, hk⟩ := ho
    exact h.isForm.1 ⟨n, e, eye, by rw [← hkind]; exact hk⟩
  · have := congrArg Pads.Q st.pads
    exact this.trans h.noPads
  · obtain ⟨l, hl, hl'⟩ := hsub
    exact hl.nodup (i.nodup.sublist hl')
  · obtain ⟨a1, a2, a3, _⟩ := i.own o (hsub.subset ho)
    exact ⟨a1, a2, a3⟩
  · obtain ⟨k, hk'⟩ := i.built.inv.eye p n e eye hk
    rw [i.eyes] at hk'
    exact (i.own eye (hsub.subset hm)).2.2.2 k hk'
  · show s'.layers = _
    rw [hlay, ← h.lay, ← w]
  · have := ok
    rw [NNConf.shapes, forall2_map_right] at this
    exact this

end general

/-! ## Over the reals -/

section real

open Finset

/-- What layers have in common that give the same outputs for sample `i` and sample `i'`. -/
def SameLayer (i i' : ℕ) (L L' : PlainLayer) : Prop :=
  (L.outs = L'.outs ∧ L.ins = L'.ins) ∧ (∀ j l, j < L.outs → l < L.ins → L.W j l = L'.W j l) ∧
    (∀ j, j < L.outs → L.b j = L'.b j) ∧ ∀ j, j < L.outs → L.D i j = L'.D i' j

theorem forward_congr {i i' : ℕ} : ∀ {Ls Ls' : List PlainLayer} {inp out : ℕ}, List.Forall₂ (SameLayer i i') Ls Ls' →
    LayerChain inp (Ls.map fun L => (L.outs, L.ins)) out → ∀ {A A' : ℕ → ℕ → ℝ}, (∀ l, l < inp → A i l = A' i' l) →
    ∀ k, k < out → forward Ls A i k = forward Ls' A' i' k
  | [], _, inp, out, h, hc, A, A', hA, k, hk => by
    cases h
    obtain rfl : inp = out := hc
    exact hA k hk
  | L :: Ls, [], _, _, h, _, _, _, _, _, _ => by cases h
  | L :: Ls, L' :: Ls', inp, out, h, hc, A, A', hA, k, hk => by
    cases h with
    | cons h1 h2 =>
      obtain ⟨⟨d1, d2⟩, hW, hb, hD⟩ := h1
      obtain ⟨hm, _, hc⟩ := hc
      have hm : L.ins = inp := hm
      refine forward_congr h2 hc (fun j hj => ?_) k hk
      have hj : j < L.outs := hj
      have hp : L.pre A i j = L'.pre A' i' j := by
        rw [PlainLayer.pre, PlainLayer.pre, ← d2, hb j hj]
        refine congrArg (· + _) (Finset.sum_congr rfl fun l hl => ?_)
        rw [hA l (by rw [← hm]; exact Finset.mem_range.1 hl), hW j l hj (Finset.mem_range.1 hl)]
      rw [PlainLayer.out, PlainLayer.out, hp, hD j hj]

theorem softmax_congr {m i i' : ℕ} {A A' : ℕ → ℕ → ℝ} (h : ∀ q, q < m → A i q = A' i' q) {k : ℕ} (hk : k < m) :
    softmax m A i k = softmax m A' i' k := by
  rw [softmax, softmax, h k hk]
  exact congrArg _ (Finset.sum_congr rfl fun q hq => by rw [h q (Finset.mem_range.1 hq)])

theorem FirstMax.congr {x y : ℕ → ℝ} {n p : ℕ} (h : ∀ k, k < n → x k = y k) (hx : FirstMax x n p) : FirstMax y n p := by
  obtain ⟨h1, h2, h3⟩ := hx
  refine ⟨h1, fun q hq => ?_, fun q hq => ?_⟩
  · rw [← h p h1, ← h q hq]; exact h2 q hq
  · rw [← h p h1, ← h q (hq.trans h1)]; exact h3 q hq

theorem FirstMax.congr_iff {x y : ℕ → ℝ} {n p : ℕ} (h : ∀ k, k < n → x k = y k) : FirstMax x n p ↔ FirstMax y n p :=
  ⟨FirstMax.congr h, FirstMax.congr fun k hk => (h k hk).symm⟩

open Classical in
theorem count_blocks (b : ℕ) (P : ℕ → Prop) : ∀ T : ℕ,
    ∑ t ∈ range T, ((range b).filter fun i => P (t * b + i)).card = ((range (T * b)).filter P).card
  | 0 => by simp
  | T + 1 => by
    rw [Finset.sum_range_succ, count_blocks b P T, Nat.succ_mul, Finset.card_filter, Finset.card_filter, Finset.card_filter,
      Finset.sum_range_add]

open Classical in
/-- Two networks with the same weights and biases have the same accuracy. -/
theorem plainAccuracy_congr {Ls Ls' : List PlainLayer} {inp m b : ℕ} {Xd Yd : Mat ℝ}
    (h : List.Forall₂ (SameLayer 0 0) (Ls.map PlainLayer.clean) (Ls'.map PlainLayer.clean))
    (hc : LayerChain inp (Ls.map fun L => (L.outs, L.ins)) m) : plainAccuracy Ls m b Xd Yd = plainAccuracy Ls' m b Xd Yd := by
  have hs : ∀ i, List.Forall₂ (SameLayer i i) (Ls.map PlainLayer.clean) (Ls'.map PlainLayer.clean) := by
    intro i
    rw [forall2_map_left, forall2_map_right] at h ⊢
    exact h.imp fun L L' hh => ⟨hh.1, hh.2.1, hh.2.2.1, fun _ _ => rfl⟩
  have hc' : LayerChain inp ((Ls.map PlainLayer.clean).map fun L => (L.outs, L.ins)) m := by
    rw [List.map_map]; exact hc
  have : ∀ i, RightClass m (softmax m (forward (Ls.map PlainLayer.clean) Xd.val)) Yd.val i ↔
      RightClass m (softmax m (forward (Ls'.map PlainLayer.clean) Xd.val)) Yd.val i := fun i => by
    refine exists_congr fun p => and_congr (FirstMax.congr_iff fun k hk => ?_) Iff.rfl
    exact softmax_congr (fun q hq => forward_congr (hs i) hc' (fun _ _ => rfl) q hq) hk
  rw [plainAccuracy, plainAccuracy]
  exact congrArg (fun n : ℕ => (n : ℝ) / ((Yd.rows - b : ℕ) : ℝ) * 100) (congrArg Finset.card (Finset.filter_congr fun i _ => this i))

variable {inp out batch : ℕ} {p : ℝ} {layers : List (LayerDef ℝ)} {N : NNet ℝ} {s : NBld ℝ} {rows : List Row}
  {o1 o2 e1 e2 : ℕ}

local notation "CC" => NNConf.real inp out batch p layers

/-- The layer of the weights `l.1` and the biases `l.2`, without dropout. -/
def cleanOf (E : MEnv ℝ) (w : ℕ → ℝ) (l : ℕ × ℕ) : PlainLayer :=
  ⟨E.rows l.1, E.cols l.1, matAt E w l.1, fun i => matAt E w l.2 i 0, fun _ _ => 1⟩

theorem NetOk.clean {C : NNConf ℝ} (h : NetOk C N s rows o1 o2) (w : ℕ → ℝ) :
    (N.plain s.b.E w).map PlainLayer.clean = N.layers.map (cleanOf s.b.E w) := by
  rw [h.plain, h.layers, List.map_map, List.map_map]
  rfl

theorem NetOk.shapes {C : NNConf ℝ} (h : NetOk C N s rows o1 o2) (w : ℕ → ℝ) :
    (N.plain s.b.E w).map (fun L => (L.outs, L.ins)) = C.shapes := by
  rw [h.plain, NNConf.shapes, List.map_map]
  have := h.rows
  generalize rows = rs at this
  generalize C.layers = ls at this
  induction this with
  | nil => rfl
  | cons h1 _ ih =>
    rw [List.map_cons, List.map_cons, ih]
    exact congrArg (· :: _) (Prod.ext h1.w.rows h1.w.cols)

open Classical in
/-- The number that `accuracy` gives is the accuracy of the network of plain functions. -/
theorem NetOk.accuracy (h : NetOk (CC) N s rows o1 o2) (hC : (CC).Ok) {v : ℕ → ℝ} (he : EyesOk s.b.E v)
    (hones : ∀ n m o, s.reg n m = some o → ∀ i j, i < n → j < m → matAt s.b.E v o i j = 1) {B : Backend ℝ} (π : Sched)
    (hB : B.Sound s.b.E.P) {Xd Yd : Mat ℝ} (hX : Xd.WF) (hY : Yd.WF) (hXc : Xd.cols = inp) (hYc : Yd.cols = out)
    (hr : Xd.rows = Yd.rows) {k : ℕ} {a : ℝ}
    (ha : AccuracyIs s.b.E N.rank N (((CC).softTerm (rows.foldl (CC).layerTerm (.mat N.x)) o1 o2).build k).1 Xd Yd v a) :
    a = plainAccuracy (N.plain s.b.E v) out batch Xd Yd := by
  have HA := h.accOk hC.batch π hB hX hY hXc hYc hr k
  have hbe : N.batch = batch := h.batch
  have hbp : 0 < batch := hC.batch
  obtain ⟨w, hw, rfl⟩ := ha
  rw [hbe] at hw ⊢
  rw [plainAccuracy, ← count_blocks]
  have key : ∀ t < (Yd.rows - 1) / batch, rights s.b.E N.rank
      (((CC).softTerm (rows.foldl (CC).layerTerm (.mat N.x)) o1 o2).build k).1 batch Yd (w t) (t * batch) =
      ((range batch).filter fun i => RightClass out (softmax out (forward ((N.plain s.b.E v).map PlainLayer.clean) Xd.val)) Yd.val
        (t * batch + i)).card := by
    intro t ht
    have hsh := hw t ht
    have hle : t * batch + batch ≤ Yd.rows := by
      have h1 : (t + 1) * batch ≤ Yd.rows - 1 := (Nat.le_div_iff_mul_le hbp).1 ht
      rw [Nat.succ_mul] at h1
      have := hY.rpos
      omega
    have hew : EyesOk s.b.E (w t) := HA.eyes_keep he hsh.same
    have hon : ∀ n m o, s.reg n m = some o → ∀ i j, i < n → j < m → matAt s.b.E (w t) o i j = 1 := by
      intro n m o ho i j hi hj
      have hap := h.ones_apart ho hi hj
      rw [matAt, hsh.rest _ (hap _ (by simp [NNet.mats])) (hap _ (by simp [NNet.mats])) fun d hd => hap _ (N.drops_sub hd)]
      exact hones n m o ho i j hi hj
    obtain ⟨_, b2, _⟩ := h.den hC hew hon
    unfold rights
    refine congrArg Finset.card (Finset.filter_congr fun i hi => ?_)
    have hi : i < batch := Finset.mem_range.1 hi
    rw [Right, hYc]
    refine exists_congr fun q => and_congr (FirstMax.congr_iff fun c hc => ?_) Iff.rfl
    rw [← den_strip, strip_build, b2 i c hi hc]
    refine softmax_congr (fun q hq => forward_congr (inp := inp) (out := out) ?_ ?_ ?_ q hq) hc
    · rw [h.plain, h.plain, List.map_map, forall2_map_left, forall2_map_right, List.forall₂_same]
      intro r hr
      obtain ⟨m1, m2, m3⟩ := h.rowMats hr
      obtain ⟨l, _, hl⟩ := forall2_mem_left h.rows hr
      have apart : ∀ {o q}, o ∈ N.mats → q ∈ N.mats → q ≠ o → ∀ {l k}, l < s.b.E.rows q → k < s.b.E.cols q →
          ¬IsEl s.b.E o (s.b.E.el q l k) := by
        rintro o q ho hq hne l k hl hk ⟨i, j, hi, hj, he⟩
        exact hne (h.apart (h.own o ho).1 (h.own q hq).1 (h.num_ne (h.own o ho).2.1) (h.num_ne (h.own q hq).2.1) hl hk hi hj he).1
      have hnd := h.nodup
      simp only [NNet.mats, List.nodup_cons, List.nodup_append, List.mem_cons, List.mem_append, not_or] at hnd
      obtain ⟨⟨hxy, hxd, hxp⟩, ⟨hyd, hyp⟩, _, _, hdp⟩ := hnd
      have keep : ∀ θ ∈ N.params, ∀ i j, i < s.b.E.rows θ → j < s.b.E.cols θ → matAt s.b.E (w t) θ i j = matAt s.b.E v θ i j := by
        intro θ hθ i j hi hj
        refine hsh.rest _ ?_ ?_ fun d hd => ?_
        · exact apart (o := N.x) (by simp [NNet.mats]) (N.params_sub hθ) (fun hh => hxp (hh ▸ hθ)) hi hj
        · exact apart (o := N.y) (by simp [NNet.mats]) (N.params_sub hθ) (fun hh => hyp (hh ▸ hθ)) hi hj
        · exact apart (N.drops_sub hd) (N.params_sub hθ) (fun hh => hdp _ (List.mem_map.2 ⟨d, hd, rfl⟩) _ hθ hh.symm) hi hj
      have p1 : r.w ∈ N.params := by
        simp only [NNet.params, h.layers, List.mem_flatMap, List.mem_map]; exact ⟨(r.w, r.b), ⟨r, hr, rfl⟩, by simp⟩
      have p2 : r.b ∈ N.params := by
        simp only [NNet.params, h.layers, List.mem_flatMap, List.mem_map]; exact ⟨(r.w, r.b), ⟨r, hr, rfl⟩, by simp⟩
      refine ⟨⟨rfl, rfl⟩, fun j l hj hl' => keep _ p1 j l hj hl', fun j hj => keep _ p2 j 0 ?_ ?_, fun j hj => ?_⟩
      · change j < s.b.E.rows r.w at hj
        rw [hl.b.rows, ← hl.w.rows]; exact hj
      · rw [hl.b.cols]; exact one_pos
      · change j < s.b.E.rows r.w at hj
        refine hsh.drop (1 - p, r.d) ?_ i j (by rw [hl.d.rows]; exact hi) (by rw [hl.d.cols, ← hl.w.rows]; exact hj)
        rw [h.drops]; exact List.mem_map.2 ⟨r, hr, rfl⟩
    · rw [h.shapes]; exact hC.chain
    · intro l hl
      have h1 := hsh.x i l (by rw [h.x.rows]; exact hi) (by rw [h.x.cols]; exact hl)
      have h2 := hX.rep.elem (t * batch + i) l (by omega) (by omega)
      exact Option.some.inj (h1.symm.trans h2)
  rw [Finset.sum_congr rfl fun t ht => key t (Finset.mem_range.1 ht)]

/-! ## Training -/

/-- The numbers outside the matrices of the network are those the program started with. -/
def NetKept (N : NNet ℝ) (s : NBld ℝ) (v : ℕ → ℝ) : Prop := ∀ a, (∀ o ∈ N.mats, ¬IsEl s.b.E o a) → v a = s.val a

theorem NetKept.same {v w : ℕ → ℝ} (h : NetKept N s v) (hs : SameNet s.b.E N v w) : NetKept N s w := fun a ha =>
  (hs a (ha _ (by simp [NNet.mats])) (ha _ (by simp [NNet.mats])) fun _ hd => ha _ (N.drops_sub hd)).trans (h a ha)

theorem trainedW_of_descent {Xd Yd : Mat ℝ} {α : ℝ} {L : (ℕ → ℝ) → ℝ} {R : (ℕ → ℝ) → Prop}
    {G : (ℕ → ℝ) → ℕ → ℕ → ℕ → ℝ} {bs : List ((ℕ → ℕ → ℝ) × ℕ)} {v v' : ℕ → ℝ} {ws : List (ℕ → ℝ)}
    (hd : DescentW s.b.E N Xd Yd α G bs v ws v')
    (hG : ∀ w, NetKept N s w → R w → ∀ θ ∈ N.params, ∀ i k, i < s.b.E.rows θ →
      k < s.b.E.cols θ → HasDerivAt (fun u => L (Function.update w (s.b.E.el θ i k) u)) (G w θ i k) (w (s.b.E.el θ i k)))
    (hv : NetKept N s v) : TrainedW s.b.E N Xd Yd α L R bs v ws v' ∧ (∀ w ∈ ws, NetKept N s w) ∧ NetKept N s v' := by
  induction hd with
  | nil v => exact ⟨.nil v, fun _ h => by (cases h), hv⟩
  | @cons draw j bs v w v1 v2 ws hl hs _ ih =>
    have hw : NetKept N s w := fun a ha => (hl.outside a ha).trans (hv a ha)
    obtain ⟨a1, a2, a3⟩ := ih fun a ha => (hs.outside a ha).trans (hw a ha)
    refine ⟨.cons (G w) hl (hG w hw) hs a1, fun x hx => ?_, a3⟩
    rcases List.mem_cons.1 hx with rfl | hx
    · exact hw
    · exact a2 x hx

theorem epochsW_of_epochs {Xd Yd : Mat ℝ} {α : ℝ} {L : (ℕ → ℝ) → ℝ} {R : (ℕ → ℝ) → Prop} {acc : (ℕ → ℝ) → ℝ}
    {G : (ℕ → ℝ) → ℕ → ℕ → ℕ → ℝ} {rank : ℕ → ℕ} {out : MNode ℝ} {draw : ℕ → ℕ → ℕ → ℕ → ℝ} {is : List ℕ} {v v' : ℕ → ℝ}
    {log : List (ℝ × ℝ)} (hd : Epochs s.b.E rank N out Xd Yd α G draw is v log v')
    (hG : ∀ w, NetKept N s w → R w → ∀ θ ∈ N.params, ∀ i k, i < s.b.E.rows θ →
      k < s.b.E.cols θ → HasDerivAt (fun u => L (Function.update w (s.b.E.el θ i k) u)) (G w θ i k) (w (s.b.E.el θ i k)))
    (hL : ∀ w, NetKept N s w → valOf s.b.E w rank N.err 0 0 = L w)
    (hA : ∀ w a, NetKept N s w → AccuracyIs s.b.E rank N out Xd Yd w a → a = acc w)
    (hv : NetKept N s v) : EpochsW s.b.E N Xd Yd α L R acc draw is v log v' ∧ NetKept N s v' := by
  induction hd with
  | nil v => exact ⟨.nil v, hv⟩
  | @cons i is v v1 v2 v3 ws a log h1 h2 h3 _ ih =>
    obtain ⟨a1, a2, a3⟩ := trainedW_of_descent h1 hG hv
    obtain ⟨b1, b2⟩ := ih (a3.same h3)
    refine ⟨?_, b2⟩
    rw [hA v1 a a3 h2, List.map_congr_left fun w hw => hL w (a2 w hw)]
    exact .cons a1 h3 b1

end real

end CoolDiff
