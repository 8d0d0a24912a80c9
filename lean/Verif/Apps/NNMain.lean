import Verif.Apps.NNBuildProof
import Verif.Apps.NNLoss
import Verif.Props.NeuralNet

/-!
# Building and training a network: proofs
-/

set_option linter.unusedSectionVars false

namespace CoolDiff

section general
variable {K : Type} [Field K] [DecidableEq K]

/-- Only sums, products, transposition, multiplication with numbers and element-wise functions. -/
def MTerm.Plain : MTerm K → Prop
  | .mat _ => True
  | .bin (.conv _ _ _ _) _ _ => False
  | .bin _ a b => a.Plain ∧ b.Plain
  | .un (.smul _) a => a.Plain
  | .un .tr a => a.Plain
  | .un (.map _ _) a => a.Plain
  | .un _ _ => False

theorem MTerm.Plain.noConv : ∀ {t : MTerm K}, t.Plain → NoConv t.node
  | .mat _, _ => trivial
  | .bin op a b, h => by
    cases op <;> simp only [MTerm.Plain] at h <;> exact ⟨noConv h.1, noConv h.2⟩
  | .un op a, h => by
    cases op <;> simp only [MTerm.Plain] at h <;> exact noConv (t := a) h

theorem MTerm.Plain.noInv : ∀ {t : MTerm K}, t.Plain → ¬UsesInv t.node
  | .mat _, _ => id
  | .bin op a b, h => by
    cases op <;> simp only [MTerm.Plain] at h <;> exact fun hh => hh.elim (noInv h.1) (noInv h.2)
  | .un op a, h => by
    cases op <;> simp only [MTerm.Plain] at h <;> exact noInv (t := a) h

theorem MTerm.Plain.invertible {dI : Prop} {E : MEnv K} {sv : ℕ → K} {V : ℕ → ℕ → ℕ → K} : ∀ {t : MTerm K}, t.Plain →
    Invertible dI E sv V t.node
  | .mat _, _ => trivial
  | .bin op a b, h => by
    cases op <;> simp only [MTerm.Plain] at h <;> exact ⟨invertible h.1, invertible h.2⟩
  | .un op a, h => by
    cases op <;> simp only [MTerm.Plain] at h <;> exact invertible (t := a) h

theorem MTerm.Plain.noCoeffs : ∀ {t : MTerm K}, t.Plain → t.node.coeffs = []
  | .mat _, _ => rfl
  | .bin op a b, h => by
    cases op <;> simp only [MTerm.Plain] at h <;> simp [MTerm.node, MNode.coeffs, noCoeffs h.1, noCoeffs h.2]
  | .un op a, h => by
    cases op <;> simp only [MTerm.Plain] at h <;> simpa [MTerm.node, MNode.coeffs] using noCoeffs (t := a) h

theorem MTerm.Plain.noReqs {E : MEnv K} : ∀ {t : MTerm K}, t.Plain → t.node.reqs E = ∅
  | .mat _, _ => rfl
  | .bin op a b, h => by
    cases op <;> simp only [MTerm.Plain] at h <;> simp [MTerm.node, MNode.reqs, noReqs h.1, noReqs h.2]
  | .un op a, h => by
    cases op <;> simp only [MTerm.Plain] at h <;> exact noReqs (t := a) h

theorem coeffs_strip (e : MNode K) : e.strip.coeffs = e.coeffs := by
  induction e with
  | obj o => rfl
  | bin n op a b iha ihb => simp only [MNode.strip, MNode.coeffs, iha, ihb]
  | un n op a ih => cases op <;> simp only [MNode.strip, MNode.coeffs, ih]

theorem noConv_strip (e : MNode K) : NoConv e.strip ↔ NoConv e := by
  induction e with
  | obj o => rfl
  | bin n op a b iha ihb => cases op <;> simp only [MNode.strip, NoConv, iha, ihb]
  | un n op a ih => simp only [MNode.strip, NoConv, ih]

/-- Only the error is a formula. -/
def NNet.rank (N : NNet K) (o : ℕ) : ℕ := if o = N.err then 1 else 0

theorem layers_plain (C : NNConf K) : ∀ (rows : List Row) {t : MTerm K}, t.Plain → (rows.foldl C.layerTerm t).Plain
  | [], _, h => h
  | r :: rows, t, h => layers_plain C rows (t := C.layerTerm t r) ⟨trivial, ⟨h, trivial⟩, trivial, trivial⟩

theorem layers_objs (C : NNConf K) : ∀ (rows : List Row) {t : MTerm K} {q : ℕ},
    (q ∈ t.objs ∨ ∃ r ∈ rows, q = r.w ∨ q = r.b) → q ∈ (rows.foldl C.layerTerm t).objs
  | [], _, _, h => by
    rcases h with h | ⟨r, hr, _⟩
    · exact h
    · cases hr
  | r :: rows, t, q, h => by
    refine layers_objs C rows (t := C.layerTerm t r) ?_
    rcases h with h | ⟨r', hr, h⟩
    · left; simp [NNConf.layerTerm, MTerm.objs, h]
    · rcases List.mem_cons.1 hr with rfl | hr
      · left; rcases h with rfl | rfl <;> simp [NNConf.layerTerm, MTerm.objs]
      · exact Or.inr ⟨r', hr, h⟩

section
variable {C : NNConf K} {N : NNet K} {s : NBld K} {rows : List Row} {o1 o2 e1 e2 : ℕ}

/-- The expression of the error. -/
def NNConf.theTerm (C : NNConf K) (N : NNet K) (rows : List Row) (o1 o2 e1 e2 : ℕ) : MTerm K :=
  C.errTerm N.y (C.softTerm (rows.foldl C.layerTerm (.mat N.x)) o1 o2) e1 e2

theorem NNConf.theTerm_plain : (C.theTerm N rows o1 o2 e1 e2).Plain := by
  have h := layers_plain C rows (t := .mat N.x) trivial
  exact ⟨⟨trivial, trivial, h, ⟨h, trivial⟩, trivial⟩, trivial⟩

namespace SetupOk

theorem isForm (h : SetupOk C N s rows o1 o2 e1 e2) {o : ℕ} : s.b.E.isForm o ↔ o = N.err := by
  have := h.built.none_iff o
  by_cases ho : o = N.err
  · subst ho
    obtain ⟨n, e, hk, _⟩ := h.form
    exact ⟨fun _ => rfl, fun _ => ⟨n, e, _, hk⟩⟩
  · rw [Function.update_of_ne ho] at this
    exact ⟨fun hh => absurd hh (this.1 rfl), fun hh => absurd hh ho⟩

theorem kind (h : SetupOk C N s rows o1 o2 e1 e2) {o n e eye} (hk : s.b.E.kind o = .form n e eye) :
    o = N.err ∧ eye = N.err + 1 ∧ e.strip = (C.theTerm N rows o1 o2 e1 e2).node := by
  obtain rfl := h.isForm.1 ⟨n, e, eye, hk⟩
  obtain ⟨n', e', hk', hs⟩ := h.form
  rw [hk'] at hk
  obtain ⟨rfl, rfl, rfl⟩ := MKind.form.inj hk
  exact ⟨rfl, rfl, hs⟩

theorem wf (h : SetupOk C N s rows o1 o2 e1 e2) : s.b.E.WF N.rank := by
  obtain ⟨rank, hw⟩ := h.built.inv.wf
  refine ⟨hw.rpos, hw.cpos, fun o n e eye hk => ?_⟩
  obtain ⟨a1, a2, a3, a4, a5, a6, a7⟩ := hw.form o n e eye hk
  refine ⟨a1, a2, a3, a4, a5, a6, fun q hq => ?_⟩
  obtain ⟨rfl, _⟩ := h.kind hk
  have hne : q ≠ N.err := by
    rintro rfl
    exact lt_irrefl _ (a7 _ hq)
  simp [NNet.rank, hne]

theorem one (h : SetupOk C N s rows o1 o2 e1 e2) : s.b.E.rows N.err = 1 ∧ s.b.E.cols N.err = 1 := by
  obtain ⟨n, e, hk, hs⟩ := h.form
  obtain ⟨_, _, _, _, a5, a6, _⟩ := h.wf.form _ _ _ _ hk
  have := h.term.dims
  rw [← hs, dims_strip] at this
  rw [a5, a6, this]
  exact ⟨rfl, rfl⟩

theorem objs (h : SetupOk C N s rows o1 o2 e1 e2) {q : ℕ} (hq : q ∈ (C.theTerm N rows o1 o2 e1 e2).objs) :
    MReach s.b.E N.err q := by
  obtain ⟨n, e, hk, hs⟩ := h.form
  refine .step .refl hk ?_
  simp only [MEnv.item, MNode.objs, List.mem_append]
  exact Or.inl (by rw [← objs_strip, hs, objs_node]; exact hq)

theorem params (h : SetupOk C N s rows o1 o2 e1 e2) {θ : ℕ} (hθ : θ ∈ N.params) : ∃ r ∈ rows, θ = r.w ∨ θ = r.b := by
  rw [NNet.params, h.layers] at hθ
  simp only [List.mem_flatMap, List.mem_map] at hθ
  obtain ⟨l, ⟨r, hr, rfl⟩, h2⟩ := hθ
  exact ⟨r, hr, by simpa using h2⟩

theorem uses (h : SetupOk C N s rows o1 o2 e1 e2) {θ : ℕ} (hθ : θ ∈ N.params) : MReach s.b.E N.err θ := by
  refine h.objs ?_
  have := layers_objs C rows (t := .mat N.x) (Or.inr (h.params hθ))
  simp [NNConf.theTerm, NNConf.errTerm, NNConf.softTerm, MTerm.objs, this]

/-- Matrices of the program have elements of their own. -/
theorem apart (h : SetupOk C N s rows o1 o2 e1 e2) {o q : ℕ} (ho : o < s.b.nobj) (hq : q < s.b.nobj) (fo : o ≠ N.err)
    (fq : q ≠ N.err) {l k i j : ℕ} (hl : l < s.b.E.rows q) (hk : k < s.b.E.cols q) (hi : i < s.b.E.rows o)
    (hj : j < s.b.E.cols o) (he : s.b.E.el q l k = s.b.E.el o i j) : q = o ∧ l = i ∧ k = j :=
  h.built.apart.inj o ho (by simp) (fun hh => fo (h.isForm.1 hh)) q hq (by simp) (fun hh => fq (h.isForm.1 hh)) l k i j hl hk
    hi hj he

theorem mats_lt (h : SetupOk C N s rows o1 o2 e1 e2) {o : ℕ} (ho : o ∈ N.mats) : o < s.b.nobj ∧ o ≠ N.err := by
  have := (h.own o ho).1
  exact ⟨by rw [h.nobj]; omega, by omega⟩

/-- Matrices of ones keep their numbers. -/
theorem ones_apart (h : SetupOk C N s rows o1 o2 e1 e2) {n m o : ℕ} (hr : s.reg n m = some o) {i j : ℕ} (hi : i < n)
    (hj : j < m) : ∀ q ∈ N.mats, ¬IsEl s.b.E q (s.b.E.el o i j) := by
  rintro q hq ⟨l, k, hl, hk, he⟩
  obtain ⟨lt, hc⟩ := h.reg n m o hr
  obtain ⟨hq1, hq2⟩ := h.mats_lt hq
  obtain ⟨rfl, _⟩ := h.apart hq1 hc.lt hq2 (by omega) (by rw [hc.rows]; exact hi) (by rw [hc.cols]; exact hj) hl hk he
  exact (h.own _ hq).2.2 n m hr

theorem holds (s : NBld K) : s.b.Holds s.val := fun h v hh => by rw [NBld.val, hh]; rfl

/-- The network is fine for training. -/
theorem nnOk (h : SetupOk C N s rows o1 o2 e1 e2) (hC : C.Ok) {B : Backend K} (π : Sched) (sc : Scal K)
    (hB : B.Sound s.b.E.P) {Xd Yd : Mat K} (hX : Xd.WF) (hY : Yd.WF) (hXc : Xd.cols = C.inp) (hYc : Yd.cols = C.out)
    (hr : Xd.rows = Yd.rows) (hb : C.batch ≤ Yd.rows) : NNOk ⟨B, π, s.b.E, sc⟩ N.rank N Xd Yd where
  wf := h.wf
  sound := hB
  root := h.isForm.2 rfl
  one q _ hq := by obtain rfl := h.isForm.1 hq; exact h.one
  nodes := h.built.inv.uniq
  vars := h.built.inv.vars
  nodup := h.nodup
  num o ho := (h.own o ho).2.1
  eyes p n e eye hk hm := by
    have := (h.own _ hm).1
    obtain ⟨_, rfl, _⟩ := h.kind hk
    omega
  own o ho q hq hf l k i j hl hk hi hj he := by
    obtain ⟨a1, a2⟩ := h.mats_lt ho
    have hqe : q ≠ N.err := fun hh => hf (h.isForm.2 hh)
    refine h.apart a1 ?_ a2 hqe hl hk hi hj he
    rcases hq with hq | hq | ⟨p, n, e, eye, hk, hq⟩
    · exact (h.mats_lt hq).1
    · by_contra hh
      have := h.built.inv.new q (not_lt.1 hh)
      change s.b.E.kind q = .var at hq
      rw [this] at hq; cases hq
    · exact h.built.inv.objlt p n e eye hk q hq
  coeff p n e eye _ hk a ha := by
    obtain ⟨_, _, hs⟩ := h.kind hk
    rw [← coeffs_strip, hs, NNConf.theTerm_plain.noCoeffs] at ha
    cases ha
  uses θ hθ := h.uses hθ
  inv p n e eye _ hk hu := by
    obtain ⟨_, _, hs⟩ := h.kind hk
    rw [← usesInv_strip, hs] at hu
    exact absurd hu NNConf.theTerm_plain.noInv
  invertible v _ p n e eye _ hk := by
    obtain ⟨_, _, hs⟩ := h.kind hk
    rw [← invertible_strip, hs]
    exact NNConf.theTerm_plain.invertible
  conv p n e eye _ hk := by
    obtain ⟨_, _, hs⟩ := h.kind hk
    rw [← noConv_strip, hs]
    exact NNConf.theTerm_plain.noConv
  bpos := by rw [h.batch]; exact hC.batch
  xrows := by rw [h.batch]; exact h.x.rows
  yrows := by rw [h.batch]; exact h.y.rows
  xdata := hX
  ydata := hY
  xcols := by rw [hXc]; exact h.x.cols.symm
  ycols := by rw [hYc]; exact h.y.cols.symm
  rows := hr
  enough := by rw [h.batch]; exact hb

theorem inv (h : SetupOk C N s rows o1 o2 e1 e2) (B : Backend K) (π : Sched) (sc : Scal K) :
    NNInv ⟨B, π, s.b.E, sc⟩ N.rank N ⟨PSt.fresh, s.val, fun _ => none⟩ (fun _ => False) := by
  refine NNInv.fresh (h.built.eyesOk (holds s)) ?_
  rintro q _ hne ⟨n, e, eye, hk, _⟩
  exact hne (h.kind hk).1

/-- No convolutions. -/
theorem noPads (h : SetupOk C N s rows o1 o2 e1 e2) : s.b.E.pads = ∅ := by
  obtain ⟨E, hE⟩ := h.pads
  rw [hE]
  exact NNConf.theTerm_plain.noReqs

theorem sound (h : SetupOk C N s rows o1 o2 e1 e2) {g : Cfg} (hg : g.CPU) (π : Sched) :
    (backend (K := K) g π).Sound s.b.E.P :=
  backend_sound hg π (Or.inr (by rw [MEnv.P, h.noPads]; exact Compat.empty))

theorem params_ne (h : SetupOk C N s rows o1 o2 e1 e2) (hl : C.layers ≠ []) : N.params ≠ [] := by
  have := h.rows.length_eq
  rw [NNet.params, h.layers]
  cases rows with
  | nil =>
    cases hc : C.layers with
    | nil => exact absurd hc hl
    | cons a l => rw [hc] at this; cases this
  | cons r rs => simp

end SetupOk

/-- A network, built with the final layer `softTerm …`, in a program in which at most the error is a formula. -/
structure NetOk (C : NNConf K) (N : NNet K) (s : NBld K) (rows : List Row) (o1 o2 : ℕ) : Prop where
  built : ∃ d, Built s.b d
  forms : ∀ o, s.b.E.isForm o → o = N.err
  noPads : s.b.E.pads = ∅
  soft : TermOk s.b (C.softTerm (rows.foldl C.layerTerm (.mat N.x)) o1 o2) C.batch C.out
  nodup : N.mats.Nodup
  own : ∀ o ∈ N.mats, o < s.b.nobj ∧ s.b.E.kind o = .num ∧ ∀ n m, s.reg n m ≠ some o
  eyes : ∀ p n e eye, s.b.E.kind p = .form n e eye → eye ∉ N.mats
  reg : ∀ n m o, s.reg n m = some o → IsConst s.b o n m fun _ _ => 1
  layers : N.layers = rows.map fun r => (r.w, r.b)
  drops : N.drops = rows.map fun r => (1 - C.p, r.d)
  rows : List.Forall₂ (fun r l => RowOk s C.batch l.n l.m r) rows C.layers
  x : HasDims s.b N.x C.batch C.inp
  y : HasDims s.b N.y C.batch C.out
  ro1 : s.reg C.out 1 = some o1
  ro2 : s.reg 1 C.out = some o2
  batch : N.batch = C.batch

theorem SetupOk.net (h : SetupOk C N s rows o1 o2 e1 e2) : NetOk C N s rows o1 o2 where
  built := ⟨_, h.built⟩
  forms o := h.isForm.1
  noPads := h.noPads
  soft := h.soft
  nodup := h.nodup
  own o ho := ⟨(h.mats_lt ho).1, (h.own o ho).2⟩
  eyes p n e eye hk hm := by
    have := (h.own _ hm).1
    obtain ⟨_, rfl, _⟩ := h.kind hk
    omega
  reg n m o ho := (h.reg n m o ho).2
  layers := h.layers
  drops := h.drops
  rows := h.rows.imp fun _ _ hh => hh.1
  x := h.x
  y := h.y
  ro1 := h.ro1
  ro2 := h.ro2
  batch := h.batch

namespace NetOk

variable (h : NetOk C N s rows o1 o2)
include h

theorem num_ne {o : ℕ} (ho : s.b.E.kind o = .num) : ¬s.b.E.isForm o := by
  rintro ⟨n, e, eye, hk⟩
  rw [ho] at hk; cases hk

theorem wf : s.b.E.WF N.rank := by
  obtain ⟨d, hb⟩ := h.built
  obtain ⟨rank, hw⟩ := hb.inv.wf
  refine ⟨hw.rpos, hw.cpos, fun o n e eye hk => ?_⟩
  obtain ⟨a1, a2, a3, a4, a5, a6, a7⟩ := hw.form o n e eye hk
  refine ⟨a1, a2, a3, a4, a5, a6, fun q hq => ?_⟩
  have ho := h.forms o ⟨n, e, eye, hk⟩
  have hne : q ≠ N.err := by
    rintro rfl
    rw [ho] at a7
    exact lt_irrefl _ (a7 _ hq)
  simp [NNet.rank, hne, ho]

/-- The matrices of a row are `Matrix<Type>` objects. -/
theorem rowMats {r : Row} (hr : r ∈ rows) : r.w ∈ N.mats ∧ r.b ∈ N.mats ∧ r.d ∈ N.mats := by
  refine ⟨?_, ?_, ?_⟩
  · simp only [NNet.mats, NNet.params, h.layers, List.mem_cons, List.mem_append, List.mem_flatMap, List.mem_map]
    exact Or.inr (Or.inr (Or.inr ⟨(r.w, r.b), ⟨r, hr, rfl⟩, by simp⟩))
  · simp only [NNet.mats, NNet.params, h.layers, List.mem_cons, List.mem_append, List.mem_flatMap, List.mem_map]
    exact Or.inr (Or.inr (Or.inr ⟨(r.w, r.b), ⟨r, hr, rfl⟩, by simp⟩))
  · simp only [NNet.mats, h.drops, List.mem_cons, List.mem_append, List.mem_map]
    exact Or.inr (Or.inr (Or.inl ⟨(1 - C.p, r.d), ⟨r, hr, rfl⟩, rfl⟩))

theorem apart {o q : ℕ} (ho : o < s.b.nobj) (hq : q < s.b.nobj) (fo : ¬s.b.E.isForm o) (fq : ¬s.b.E.isForm q) {l k i j : ℕ}
    (hl : l < s.b.E.rows q) (hk : k < s.b.E.cols q) (hi : i < s.b.E.rows o) (hj : j < s.b.E.cols o)
    (he : s.b.E.el q l k = s.b.E.el o i j) : q = o ∧ l = i ∧ k = j := by
  obtain ⟨d, hb⟩ := h.built
  exact hb.apart.inj o ho (by simp) fo q hq (by simp) fq l k i j hl hk hi hj he

/-- Matrices of ones keep their numbers. -/
theorem ones_apart {n m o : ℕ} (hr : s.reg n m = some o) {i j : ℕ} (hi : i < n)
    (hj : j < m) : ∀ q ∈ N.mats, ¬IsEl s.b.E q (s.b.E.el o i j) := by
  rintro q hq ⟨l, k, hl, hk, he⟩
  have hc := h.reg n m o hr
  obtain ⟨q1, q2, q3⟩ := h.own q hq
  obtain ⟨rfl, _⟩ := h.apart q1 hc.lt (h.num_ne q2) (h.num_ne hc.kind) (by rw [hc.rows]; exact hi) (by rw [hc.cols]; exact hj) hl hk he
  exact q3 n m hr

end NetOk

end

end general

/-! ## Over the reals -/

section real

open Finset

/-- The user's choices with the library's element-wise functions over the reals.  UnaryFunctions.hpp:40-165. -/
noncomputable def NNConf.real (inp out batch : ℕ) (p : ℝ) (layers : List (LayerDef ℝ)) : NNConf ℝ :=
  ⟨inp, out, batch, p, layers, UFn.leakyRelu.f, UFn.leakyRelu.df, UFn.exp.f, UFn.exp.df, UFn.log.f, UFn.log.df⟩

variable {inp out batch : ℕ} {p : ℝ} {layers : List (LayerDef ℝ)} {N : NNet ℝ} {s : NBld ℝ} {rows : List Row}
  {o1 o2 e1 e2 : ℕ}

local notation "CC" => NNConf.real inp out batch p layers

/-- A layer of the network. -/
def Row.plain (E : MEnv ℝ) (w : ℕ → ℝ) (r : Row) : PlainLayer :=
  ⟨E.rows r.w, E.cols r.w, matAt E w r.w, fun i => matAt E w r.b i 0, matAt E w r.d⟩

theorem SetupOk.plain {C : NNConf ℝ} (h : SetupOk C N s rows o1 o2 e1 e2) (w : ℕ → ℝ) :
    N.plain s.b.E w = rows.map (Row.plain s.b.E w) := by
  rw [NNet.plain, h.layers, h.drops, List.zip_map', List.map_map]
  rfl

/-- The numbers `w` in the matrices of ones. -/
theorem SetupOk.ones {C : NNConf ℝ} (h : SetupOk C N s rows o1 o2 e1 e2) {w : ℕ → ℝ}
    (hw : ∀ a, (∀ o ∈ N.mats, ¬IsEl s.b.E o a) → w a = s.val a) {n m o : ℕ} (hr : s.reg n m = some o) {i j : ℕ}
    (hi : i < n) (hj : j < m) : matAt s.b.E w o i j = 1 := by
  rw [matAt, hw _ (h.ones_apart hr hi hj)]
  exact SetupOk.holds s _ _ ((h.reg n m o hr).2.el i j hi hj).2

theorem layer_den {E : MEnv ℝ} {w : ℕ → ℝ} {V : ℕ → ℕ → ℕ → ℝ} {n m : ℕ} {r : Row}
    (hV : ∀ q i j, (q = r.w ∨ q = r.b ∨ q = r.d ∨ q = r.o) → i < E.rows q → j < E.cols q → V q i j = matAt E w q i j)
    (hw : E.rows r.w = n ∧ E.cols r.w = m) (hb : E.rows r.b = n ∧ E.cols r.b = 1) (hd : E.rows r.d = batch ∧ E.cols r.d = n)
    (ho : E.rows r.o = 1 ∧ E.cols r.o = batch) (h1 : ∀ i, i < batch → matAt E w r.o 0 i = 1)
    {t : MTerm ℝ} {A : ℕ → ℕ → ℝ} (hdim : t.node.dims E = (batch, m))
    (ht : ∀ i j, i < batch → j < m → den E w V t.node i j = A i j) :
    ((CC).layerTerm t r).node.dims E = (batch, n) ∧
    (∀ i j, i < batch → j < n → den E w V ((CC).layerTerm t r).node i j = (r.plain E w).out A i j) ∧
    (MapsOk E w V t.node → (∀ i j, i < batch → j < n → (r.plain E w).pre A i j ≠ 0) →
      MapsOk E w V ((CC).layerTerm t r).node) := by
  have hpre : ∀ i j, i < batch → j < n → (∑ l ∈ range (t.node.dims E).2, den E w V t.node i l * V r.w j l) +
      ∑ l ∈ range (E.cols r.b), V r.b j l * V r.o l i = (r.plain E w).pre A i j := by
    intro i j hi hj
    rw [hdim, hb.2, Finset.sum_range_one, hV r.b j 0 (by simp) (by omega) (by omega), hV r.o 0 i (by simp) (by omega) (by omega),
      h1 i hi, mul_one]
    simp only [PlainLayer.pre, Row.plain, hw.2]
    refine congrArg (· + _) (Finset.sum_congr rfl fun l hl => ?_)
    rw [ht i l hi (Finset.mem_range.1 hl), hV r.w j l (by simp) (by omega) (by rw [hw.2]; exact Finset.mem_range.1 hl)]
  refine ⟨?_, ?_, ?_⟩
  · show (E.rows r.d, E.rows r.b) = _
    rw [hd.1, hb.1]
  · intro i j hi hj
    show V r.d i j * UFn.leakyRelu.f (_ + _) = _
    rw [hV r.d i j (by simp) (by omega) (by omega)]
    exact congrArg (fun x => matAt E w r.d i j * UFn.leakyRelu.f x) (hpre i j hi hj)
  · intro hm hreg
    refine ⟨trivial, ⟨⟨⟨hm, trivial⟩, trivial, trivial⟩, fun i j hi hj => ?_⟩⟩
    have e : den E w V (.bin 0 .add (.bin 0 .mul t.node (.un 0 .tr (.obj r.w))) (.un 0 .tr (.bin 0 .mul (.obj r.b) (.obj r.o)))) i j =
        (r.plain E w).pre A i j := by
      refine hpre i j ?_ ?_
      · change i < (t.node.dims E).1 at hi; rw [hdim] at hi; exact hi
      · change j < E.rows r.b at hj; omega
    refine C35_table .leakyRelu _ ?_
    show den E w V (.bin 0 .add (.bin 0 .mul t.node (.un 0 .tr (.obj r.w))) (.un 0 .tr (.bin 0 .mul (.obj r.b) (.obj r.o)))) i j ≠ 0
    rw [e]
    refine hreg i j ?_ ?_
    · change i < (t.node.dims E).1 at hi; rw [hdim] at hi; exact hi
    · change j < E.rows r.b at hj; omega

theorem layers_den {E : MEnv ℝ} {w : ℕ → ℝ} {V : ℕ → ℕ → ℕ → ℝ} : ∀ (rows : List Row) (ls : List (LayerDef ℝ)) {i o : ℕ},
    List.Forall₂ (fun r l => (∀ q i j, (q = r.w ∨ q = r.b ∨ q = r.d ∨ q = r.o) → i < E.rows q → j < E.cols q →
        V q i j = matAt E w q i j) ∧ (E.rows r.w = l.n ∧ E.cols r.w = l.m) ∧ (E.rows r.b = l.n ∧ E.cols r.b = 1) ∧
      (E.rows r.d = batch ∧ E.cols r.d = l.n) ∧ (E.rows r.o = 1 ∧ E.cols r.o = batch) ∧
      ∀ i, i < batch → matAt E w r.o 0 i = 1) rows ls →
    LayerChain i (ls.map fun l => (l.n, l.m)) o → ∀ {t : MTerm ℝ} {A : ℕ → ℕ → ℝ}, t.node.dims E = (batch, i) →
    (∀ a j, a < batch → j < i → den E w V t.node a j = A a j) →
    (rows.foldl (CC).layerTerm t).node.dims E = (batch, o) ∧
    (∀ a j, a < batch → j < o → den E w V (rows.foldl (CC).layerTerm t).node a j =
      forward (rows.map (Row.plain E w)) A a j) ∧
    (MapsOk E w V t.node → Regular batch (rows.map (Row.plain E w)) A → MapsOk E w V (rows.foldl (CC).layerTerm t).node)
  | [], _, i, o, h, hc, t, A, hd, ht => by
    cases h
    obtain rfl : i = o := hc
    exact ⟨hd, ht, fun hm _ => hm⟩
  | r :: rows, [], _, _, h, _, _, _, _, _ => by cases h
  | r :: rows, l :: ls, i, o, h, hc, t, A, hd, ht => by
    cases h with
    | cons h1 h2 =>
      obtain ⟨hV, hw, hb, hdd, ho, hone⟩ := h1
      obtain ⟨hm, _, hc⟩ := hc
      have hm : l.m = i := hm
      rw [hm] at hw
      obtain ⟨a1, a2, a3⟩ := layer_den (inp := inp) (out := out) (p := p) (layers := layers) hV hw hb hdd ho hone hd ht
      obtain ⟨b1, b2, b3⟩ := layers_den rows ls h2 hc a1 a2
      refine ⟨b1, b2, fun hmm hreg => b3 (a3 hmm ?_) hreg.2⟩
      have := hreg.1
      simp only [Row.plain, hw.1] at this
      exact this

theorem soft_den {E : MEnv ℝ} {w : ℕ → ℝ} {V : ℕ → ℕ → ℕ → ℝ} {t : MTerm ℝ} {A : ℕ → ℕ → ℝ} (hout : 0 < out)
    (hd : t.node.dims E = (batch, out)) (ht : ∀ i j, i < batch → j < out → den E w V t.node i j = A i j)
    (h1 : ∀ q, q < out → V o1 q 0 = 1) (h2 : ∀ q, q < out → V o2 0 q = 1) (c1 : E.cols o1 = 1) (c2 : E.cols o2 = out) :
    ((CC).softTerm t o1 o2).node.dims E = (batch, out) ∧
    (∀ i j, i < batch → j < out → den E w V ((CC).softTerm t o1 o2).node i j = softmax out A i j) ∧
    (MapsOk E w V t.node → MapsOk E w V ((CC).softTerm t o1 o2).node) := by
  have hsum : ∀ i k, i < batch → k < 1 → ∑ q ∈ range (t.node.dims E).2, Real.exp (den E w V t.node i q) * V o1 q k =
      ∑ q ∈ range out, Real.exp (A i q) := by
    intro i k hi hk
    obtain rfl : k = 0 := by omega
    rw [hd]
    refine Finset.sum_congr rfl fun q hq => ?_
    rw [ht i q hi (Finset.mem_range.1 hq), h1 q (Finset.mem_range.1 hq), mul_one]
  have hpos : ∀ i, 0 < ∑ q ∈ range out, Real.exp (A i q) := fun i =>
    Finset.sum_pos (fun q _ => Real.exp_pos _) ⟨0, Finset.mem_range.2 hout⟩
  refine ⟨?_, ?_, ?_⟩
  · show ((t.node.dims E).1, E.cols o2) = _
    rw [hd, c2]
  · intro i j hi hj
    show Real.exp (den E w V t.node i j - ∑ z ∈ range (E.cols o1), Real.log (∑ q ∈ range (t.node.dims E).2,
      Real.exp (den E w V t.node i q) * V o1 q z) * V o2 z j) = _
    rw [c1, Finset.sum_range_one, hsum i 0 hi one_pos, h2 j hj, mul_one, ht i j hi hj, Real.exp_sub, Real.exp_log (hpos i)]
    rfl
  · intro hm
    refine ⟨⟨hm, ⟨⟨⟨hm, fun i j _ _ => C35_table .exp _ trivial⟩, trivial⟩, fun i j hi hj => C35_table .log _ ?_⟩, trivial⟩,
      fun i j _ _ => C35_table .exp _ trivial⟩
    change i < (t.node.dims E).1 at hi
    change j < E.cols o1 at hj
    rw [hd] at hi
    show 0 < ∑ q ∈ range (t.node.dims E).2, Real.exp (den E w V t.node i q) * V o1 q j
    rw [hsum i j hi (by omega)]
    exact hpos i

theorem err_den {E : MEnv ℝ} {w : ℕ → ℝ} {V : ℕ → ℕ → ℕ → ℝ} {y : ℕ} {t : MTerm ℝ} {P Y : ℕ → ℕ → ℝ}
    (hd : t.node.dims E = (batch, out)) (ht : ∀ i j, i < batch → j < out → den E w V t.node i j = P i j)
    (hP : ∀ i j, i < batch → j < out → 0 < P i j) (hY : ∀ i j, i < batch → j < out → V y i j = Y i j)
    (h1 : ∀ q, q < batch → V e1 0 q = 1) (h2 : ∀ q, q < out → V e2 q 0 = 1) (c1 : E.cols e1 = batch) :
    den E w V ((CC).errTerm y t e1 e2).node 0 0 = crossEntropy batch out Y P ∧
    (MapsOk E w V t.node → MapsOk E w V ((CC).errTerm y t e1 e2).node) := by
  refine ⟨?_, fun hm => ⟨⟨trivial, trivial, hm, fun i j hi hj => C35_table .log _ ?_⟩, trivial⟩⟩
  · show -1 * ∑ k ∈ range (t.node.dims E).2, (∑ i ∈ range (E.cols e1), V e1 0 i *
      (V y i k * Real.log (den E w V t.node i k))) * V e2 k 0 = _
    rw [hd, c1, crossEntropy, neg_one_mul, Finset.sum_comm]
    refine congrArg _ (Finset.sum_congr rfl fun k hk => ?_)
    rw [h2 k (Finset.mem_range.1 hk), mul_one]
    refine Finset.sum_congr rfl fun i hi => ?_
    rw [h1 i (Finset.mem_range.1 hi), one_mul, hY i k (Finset.mem_range.1 hi) (Finset.mem_range.1 hk),
      ht i k (Finset.mem_range.1 hi) (Finset.mem_range.1 hk)]
  · rw [hd] at hi hj
    show 0 < den E w V t.node i j
    rw [ht i j hi hj]
    exact hP i j hi hj

theorem softmax_pos {m : ℕ} {A : ℕ → ℕ → ℝ} {i j : ℕ} (hm : 0 < m) : 0 < softmax m A i j :=
  div_pos (Real.exp_pos _) (Finset.sum_pos (fun q _ => Real.exp_pos _) ⟨0, Finset.mem_range.2 hm⟩)

theorem SetupOk.leaf {C : NNConf ℝ} (h : SetupOk C N s rows o1 o2 e1 e2) {w : ℕ → ℝ} (he : EyesOk s.b.E w) {q i j : ℕ}
    (hq : q ≠ N.err) (hi : i < s.b.E.rows q) (hj : j < s.b.E.cols q) : valOf s.b.E w N.rank q i j = matAt s.b.E w q i j :=
  (valOf_solves s.b.E w h.wf he Set.univ).leaf q trivial (fun hh => hq (h.isForm.1 hh)) i j hi hj

theorem SetupOk.eyes {C : NNConf ℝ} (h : SetupOk C N s rows o1 o2 e1 e2) {w : ℕ → ℝ}
    (hw : ∀ a, (∀ o ∈ N.mats, ¬IsEl s.b.E o a) → w a = s.val a) : EyesOk s.b.E w := by
  intro o n e eye hk i j hi hj
  rw [hw, h.built.eyesOk (SetupOk.holds s) o n e eye hk i j hi hj]
  rintro q hq ⟨l, k, hl, hk', he⟩
  obtain ⟨_, rfl, _⟩ := h.kind hk
  obtain ⟨a1, a2⟩ := h.mats_lt hq
  obtain ⟨h1, _⟩ := h.apart a1 (by rw [h.nobj]; omega) a2 (by omega) hi hj hl hk' he
  have := (h.own q hq).1
  omega

theorem NetOk.plain {C : NNConf ℝ} (h : NetOk C N s rows o1 o2) (w : ℕ → ℝ) :
    N.plain s.b.E w = rows.map (Row.plain s.b.E w) := by
  rw [NNet.plain, h.layers, h.drops, List.zip_map', List.map_map]
  rfl

/-- The value of the final layer is the softmax of the layers, and its element-wise functions are differentiable when no
activation is at its kink. -/
theorem NetOk.den (h : NetOk (CC) N s rows o1 o2) (hC : (CC).Ok) {w : ℕ → ℝ} (he : EyesOk s.b.E w)
    (hones : ∀ n m o, s.reg n m = some o → ∀ i j, i < n → j < m → matAt s.b.E w o i j = 1) :
    ((CC).softTerm (rows.foldl (CC).layerTerm (.mat N.x)) o1 o2).node.dims s.b.E = (batch, out) ∧
    (∀ i j, i < batch → j < out → CoolDiff.den s.b.E w (valOf s.b.E w N.rank)
      ((CC).softTerm (rows.foldl (CC).layerTerm (.mat N.x)) o1 o2).node i j =
        softmax out (forward (N.plain s.b.E w) (matAt s.b.E w N.x)) i j) ∧
    (Regular batch (N.plain s.b.E w) (matAt s.b.E w N.x) →
      MapsOk s.b.E w (valOf s.b.E w N.rank) ((CC).softTerm (rows.foldl (CC).layerTerm (.mat N.x)) o1 o2).node) := by
  have hout : 0 < out := hC.chain.pos hC.inp
  have hx := h.x
  have leaf : ∀ {q i j}, s.b.E.kind q = .num → i < s.b.E.rows q → j < s.b.E.cols q →
      valOf s.b.E w N.rank q i j = matAt s.b.E w q i j := fun hq hi hj =>
    (valOf_solves s.b.E w h.wf he Set.univ).leaf _ trivial (h.num_ne hq) _ _ hi hj
  have hones' : ∀ {n m o i j}, s.reg n m = some o → i < n → j < m → valOf s.b.E w N.rank o i j = 1 := by
    intro n m o i j hr hi hj
    have hc := h.reg n m o hr
    rw [leaf hc.kind (by rw [hc.rows]; exact hi) (by rw [hc.cols]; exact hj), hones n m o hr i j hi hj]
  have key : ∀ (rs : List Row) (ls : List (LayerDef ℝ)), (∀ r ∈ rs, r ∈ rows) →
      List.Forall₂ (fun r l => RowOk s batch l.n l.m r) rs ls →
      List.Forall₂ (fun (r : Row) (l : LayerDef ℝ) => (∀ q i j, (q = r.w ∨ q = r.b ∨ q = r.d ∨ q = r.o) →
        i < s.b.E.rows q → j < s.b.E.cols q → valOf s.b.E w N.rank q i j = matAt s.b.E w q i j) ∧
        (s.b.E.rows r.w = l.n ∧ s.b.E.cols r.w = l.m) ∧ (s.b.E.rows r.b = l.n ∧ s.b.E.cols r.b = 1) ∧
        (s.b.E.rows r.d = batch ∧ s.b.E.cols r.d = l.n) ∧ (s.b.E.rows r.o = 1 ∧ s.b.E.cols r.o = batch) ∧
        ∀ i, i < batch → matAt s.b.E w r.o 0 i = 1) rs ls := by
    intro rs ls hm hf
    induction hf with
    | nil => exact .nil
    | @cons r l rs ls h1 _ ih =>
      refine .cons ?_ (ih fun r hr => hm r (by simp [hr]))
      obtain ⟨m1, m2, m3⟩ := h.rowMats (hm r (by simp))
      obtain ⟨d1, d2, d3, d4⟩ := h1
      have hc := h.reg _ _ _ d4
      refine ⟨fun q i j hq hi hj => leaf ?_ hi hj, ⟨d1.rows, d1.cols⟩, ⟨d2.rows, d2.cols⟩, ⟨d3.rows, d3.cols⟩,
        ⟨hc.rows, hc.cols⟩, fun i hi => hones _ _ _ d4 _ _ one_pos hi⟩
      rcases hq with rfl | rfl | rfl | rfl
      · exact (h.own _ m1).2.1
      · exact (h.own _ m2).2.1
      · exact (h.own _ m3).2.1
      · exact hc.kind
  obtain ⟨a1, a2, a3⟩ := layers_den (inp := inp) (out := out) (p := p) (layers := layers) rows layers
    (key rows layers (fun _ h => h) h.rows) hC.chain
    (t := .mat N.x) (A := matAt s.b.E w N.x) hx.dims
    (fun i j hi hj => leaf (h.own _ (by simp [NNet.mats])).2.1 (by rw [hx.rows]; exact hi) (by rw [hx.cols]; exact hj))
  obtain ⟨b1, b2, b3⟩ := soft_den (inp := inp) (p := p) (layers := layers) hout a1 a2
    (fun q hq => hones' h.ro1 hq one_pos) (fun q hq => hones' h.ro2 one_pos hq) (h.reg _ _ _ h.ro1).cols (h.reg _ _ _ h.ro2).cols
  rw [h.plain]
  exact ⟨b1, b2, fun hreg => b3 (a3 trivial hreg)⟩

/-- The value of the error is the cross entropy of the network's output, and its element-wise functions are differentiable
when no activation is at its kink. -/
theorem SetupOk.meaning (h : SetupOk (CC) N s rows o1 o2 e1 e2) (hC : (CC).Ok) {w : ℕ → ℝ}
    (hw : ∀ a, (∀ o ∈ N.mats, ¬IsEl s.b.E o a) → w a = s.val a) :
    valOf s.b.E w N.rank N.err 0 0 = N.loss s.b.E out w ∧
    (Regular batch (N.plain s.b.E w) (matAt s.b.E w N.x) →
      MapsOk s.b.E w (valOf s.b.E w N.rank) ((CC).theTerm N rows o1 o2 e1 e2).node) := by
  have he := h.eyes hw
  have hout : 0 < out := hC.chain.pos hC.inp
  have hy := h.y
  have my : N.y ∈ N.mats := by simp [NNet.mats]
  have hones : ∀ {n m o i j}, s.reg n m = some o → i < n → j < m → valOf s.b.E w N.rank o i j = 1 := by
    intro n m o i j hr hi hj
    obtain ⟨lt, hc⟩ := h.reg n m o hr
    rw [h.leaf he (by omega) (by rw [hc.rows]; exact hi) (by rw [hc.cols]; exact hj), h.ones hw hr hi hj]
  obtain ⟨k3, k3'⟩ := h.reg _ _ _ h.re1
  obtain ⟨b1, b2, b3⟩ := h.net.den hC he fun n m o hr i j hi hj => h.ones hw hr hi hj
  obtain ⟨c1, c2⟩ := err_den (inp := inp) (p := p) (layers := layers) (y := N.y) (Y := matAt s.b.E w N.y) b1 b2
    (fun i j _ _ => softmax_pos hout)
    (fun i j hi hj => h.leaf he (h.mats_lt my).2 (by rw [hy.rows]; exact hi) (by rw [hy.cols]; exact hj))
    (fun q hq => hones h.re1 one_pos hq) (fun q hq => hones h.re2 hq one_pos) k3'.cols
  refine ⟨?_, fun hreg => c2 (b3 hreg)⟩
  obtain ⟨n, e, hk, hs⟩ := h.form
  obtain ⟨r1, r2⟩ := h.one
  rw [((valOf_solves s.b.E w h.wf he Set.univ).form N.err trivial n e _ hk).1 0 0 (by omega) (by omega), ← den_strip, hs, c1,
    NNet.loss, h.batch]
  rfl

end real

end CoolDiff
