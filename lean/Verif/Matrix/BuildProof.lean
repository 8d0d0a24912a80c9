import Verif.Matrix.Build
import Verif.Matrix.Runs
import Verif.Props.MatFunctions

/-!
# Programs that build matrices are well-formed
-/

set_option linter.unusedSectionVars false

namespace CoolDiff

variable {K : Type} [Field K] [DecidableEq K]

/-! ## Clones and built expressions -/

/-- The same tree with all numbers 0. -/
def MNode.strip : MNode K → MNode K
  | .obj o => .obj o
  | .bin _ op a b => .bin 0 op a.strip b.strip
  | .un _ op a => .un 0 op a.strip

theorem strip_clone (e : MNode K) (k : ℕ) : (e.clone k).1.strip = e.strip := by
  induction e generalizing k with
  | obj o => rfl
  | bin n op a b iha ihb => simp only [MNode.clone, MNode.strip, iha, ihb]
  | un n op a ih => simp only [MNode.clone, MNode.strip, ih]

theorem strip_build (t : MTerm K) (k : ℕ) : (t.build k).1.strip = t.node := by
  induction t generalizing k with
  | mat o => rfl
  | bin op a b iha ihb =>
      simp only [MTerm.build, mkBin, strip_clone, MNode.strip, MTerm.node, iha, ihb]
  | un op a ih => simp only [MTerm.build, mkUn, strip_clone, MNode.strip, MTerm.node, ih]

theorem dims_strip (E : MEnv K) (e : MNode K) : e.strip.dims E = e.dims E := by
  induction e with
  | obj o => rfl
  | bin n op a b iha ihb => simp only [MNode.strip, MNode.dims, iha, ihb]
  | un n op a ih => cases op <;> simp only [MNode.strip, MNode.dims, ih]

theorem objs_strip (e : MNode K) : e.strip.objs = e.objs := by
  induction e with
  | obj o => rfl
  | bin n op a b iha ihb => simp only [MNode.strip, MNode.objs, iha, ihb]
  | un n op a ih => simp only [MNode.strip, MNode.objs, ih]

theorem dimOk_strip (E : MEnv K) (e : MNode K) : DimOk E e.strip ↔ DimOk E e := by
  induction e with
  | obj o => rfl
  | bin n op a b iha ihb => simp only [MNode.strip, DimOk, iha, ihb, dims_strip]
  | un n op a ih => simp only [MNode.strip, DimOk, ih, dims_strip]

theorem usesInv_strip (e : MNode K) : UsesInv e.strip ↔ UsesInv e := by
  induction e with
  | obj o => rfl
  | bin n op a b iha ihb => simp only [MNode.strip, UsesInv, iha, ihb]
  | un n op a ih => cases op <;> simp only [MNode.strip, UsesInv, ih]

theorem den_strip (E : MEnv K) (sv : ℕ → K) (V : ℕ → ℕ → ℕ → K) (e : MNode K) :
    den E sv V e.strip = den E sv V e := by
  induction e with
  | obj o => rfl
  | bin n op a b iha ihb =>
      funext i j
      cases op <;> simp only [MNode.strip, den, iha, ihb, dims_strip]
  | un n op a ih =>
      funext i j
      cases op <;> simp only [MNode.strip, den, ih, dims_strip]
      rw [dims_strip]

theorem invertible_strip (d : Prop) (E : MEnv K) (sv : ℕ → K) (V : ℕ → ℕ → ℕ → K) (e : MNode K) :
    Invertible d E sv V e.strip ↔ Invertible d E sv V e := by
  induction e with
  | obj o => rfl
  | bin n op a b iha ihb => simp only [MNode.strip, Invertible, iha, ihb]
  | un n op a ih =>
      cases op <;> simp only [MNode.strip, Invertible, ih, den_strip]
      all_goals rw [dims_strip]

theorem objs_node (t : MTerm K) : t.node.objs = t.objs := by
  induction t with
  | mat o => rfl
  | bin op a b iha ihb => simp only [MTerm.node, MNode.objs, MTerm.objs, iha, ihb]
  | un op a ih => simp only [MTerm.node, MNode.objs, MTerm.objs, ih]

/-- A clone uses each number of an interval of the counter once. -/
theorem clone_nums (e : MNode K) (k : ℕ) :
    k ≤ (e.clone k).2 ∧ (∀ m ∈ (e.clone k).1.nums, k ≤ m ∧ m < (e.clone k).2) ∧ (e.clone k).1.nums.Nodup := by
  induction e generalizing k with
  | obj o => exact ⟨le_refl _, by simp [MNode.clone, MNode.nums], by simp [MNode.clone, MNode.nums]⟩
  | bin n op a b iha ihb =>
      obtain ⟨a1, a2, a3⟩ := iha k
      obtain ⟨b1, b2, b3⟩ := ihb (a.clone k).2
      simp only [MNode.clone, MNode.nums, List.mem_cons, List.mem_append, List.nodup_cons, not_or,
        List.nodup_append]
      refine ⟨by omega, fun m hm => ?_, ⟨fun h => ?_, fun h => ?_⟩, a3, b3, fun x hx y hy hxy => ?_⟩
      · rcases hm with rfl | hm | hm
        · omega
        · have := a2 m hm; omega
        · have := b2 m hm; omega
      · have := a2 _ h; omega
      · have := b2 _ h; omega
      · have := a2 x hx; have := b2 y hy; omega
  | un n op a ih =>
      obtain ⟨a1, a2, a3⟩ := ih k
      simp only [MNode.clone, MNode.nums, List.mem_cons, List.nodup_cons]
      refine ⟨by omega, fun m hm => ?_, fun h => ?_, a3⟩
      · rcases hm with rfl | hm
        · omega
        · have := a2 m hm; omega
      · have := a2 _ h; omega

theorem build_next (t : MTerm K) (k : ℕ) : k ≤ (t.build k).2 := by
  induction t generalizing k with
  | mat o => exact le_refl _
  | bin op a b iha ihb =>
      have h1 := iha k
      have h2 := ihb (a.build k).2
      have h3 := (clone_nums (MNode.bin 0 op (a.build k).1 (b.build (a.build k).2).1) (b.build (a.build k).2).2).1
      show k ≤ ((MNode.bin 0 op (a.build k).1 (b.build (a.build k).2).1).clone (b.build (a.build k).2).2).2
      omega
  | un op a ih =>
      have h1 := ih k
      have h3 := (clone_nums (MNode.un 0 op (a.build k).1) (a.build k).2).1
      show k ≤ ((MNode.un 0 op (a.build k).1).clone (a.build k).2).2
      omega

/-! ## Environments that agree on the matrices of an expression -/

theorem dims_congr {E F : MEnv K} : ∀ e : MNode K,
    (∀ q ∈ e.objs, F.rows q = E.rows q ∧ F.cols q = E.cols q) → e.dims F = e.dims E
  | .obj o, h => by simp [MNode.dims, h o (by simp [MNode.objs])]
  | .bin n op a b, h => by
      simp only [MNode.dims]
      rw [dims_congr a fun q hq => h q (by simp [MNode.objs, hq]), dims_congr b fun q hq => h q (by simp [MNode.objs, hq])]
  | .un n op a, h => by
      have := dims_congr a fun q hq => h q (by simpa [MNode.objs] using hq)
      cases op <;> simp only [MNode.dims, this]

theorem dimOk_mono {E F : MEnv K} (hp : E.pads ⊆ F.pads) : ∀ e : MNode K,
    (∀ q ∈ e.objs, F.rows q = E.rows q ∧ F.cols q = E.cols q) → DimOk E e → DimOk F e
  | .obj _, _, _ => trivial
  | .bin n op a b, h, hd => by
      have ha : ∀ q ∈ a.objs, F.rows q = E.rows q ∧ F.cols q = E.cols q := fun q hq => h q (by simp [MNode.objs, hq])
      have hb : ∀ q ∈ b.objs, F.rows q = E.rows q ∧ F.cols q = E.cols q := fun q hq => h q (by simp [MNode.objs, hq])
      obtain ⟨d1, d2, d3, d4⟩ := hd
      refine ⟨dimOk_mono hp a ha d1, dimOk_mono hp b hb d2, ?_, ?_⟩
      · rw [dims_congr a ha, dims_congr b hb]; exact d3
      · rw [dims_congr a ha]
        cases op <;> first | trivial | exact hp d4
  | .un n op a, h, hd => by
      have ha : ∀ q ∈ a.objs, F.rows q = E.rows q ∧ F.cols q = E.cols q := fun q hq => h q (by simpa [MNode.objs] using hq)
      refine ⟨dimOk_mono hp a ha hd.1, ?_⟩
      rw [dims_congr a ha]; exact hd.2

/-- The dimensions of the operands of all operators of an expression fit. -/
def MTerm.Fits (E : MEnv K) : MTerm K → Prop
  | .mat _ => True
  | .bin op a b => a.Fits E ∧ b.Fits E ∧ op.dimOk (a.node.dims E) (b.node.dims E) = true
  | .un op a => a.Fits E ∧ op.dimOk (a.node.dims E) = true

theorem dimOk_of_fits {E F : MEnv K} : ∀ t : MTerm K, t.Fits E → t.node.reqs E ⊆ F.pads →
    (∀ q ∈ t.objs, F.rows q = E.rows q ∧ F.cols q = E.cols q) → DimOk F t.node
  | .mat _, _, _, _ => trivial
  | .bin op a b, hf, hp, h => by
      have ha : ∀ q ∈ a.objs, F.rows q = E.rows q ∧ F.cols q = E.cols q := fun q hq => h q (by simp [MTerm.objs, hq])
      have hb : ∀ q ∈ b.objs, F.rows q = E.rows q ∧ F.cols q = E.cols q := fun q hq => h q (by simp [MTerm.objs, hq])
      have hda := dims_congr a.node (E := E) (F := F) (by rw [objs_node]; exact ha)
      have hdb := dims_congr b.node (E := E) (F := F) (by rw [objs_node]; exact hb)
      refine ⟨dimOk_of_fits a hf.1 (fun q hq => hp (Or.inr (Or.inl hq))) ha,
        dimOk_of_fits b hf.2.1 (fun q hq => hp (Or.inr (Or.inr hq))) hb, ?_, ?_⟩
      · rw [hda, hdb]; exact hf.2.2
      · rw [hda]
        cases op <;> first | trivial | exact hp (Or.inl ⟨_, _, _, _, rfl, rfl⟩)
  | .un op a, hf, hp, h => by
      have ha : ∀ q ∈ a.objs, F.rows q = E.rows q ∧ F.cols q = E.cols q := fun q hq => h q (by simpa [MTerm.objs] using hq)
      refine ⟨dimOk_of_fits a hf.1 hp ha, ?_⟩
      rw [dims_congr a.node (E := E) (F := F) (by rw [objs_node]; exact ha)]; exact hf.2

theorem reqs_strip (E : MEnv K) (e : MNode K) : e.strip.reqs E = e.reqs E := by
  induction e with
  | obj o => rfl
  | bin n op a b iha ihb => simp only [MNode.strip, MNode.reqs, iha, ihb, dims_strip]
  | un n op a ih => simp only [MNode.strip, MNode.reqs, ih]

/-! ## The invariant -/

/-- What every program that builds matrices guarantees; `d o` is the expression that defines the matrix `o`. -/
structure BInv (b : MBld K) (d : ℕ → Option (MTerm K)) : Prop where
  wf : ∃ rank, b.E.WF rank
  uniq : UniqueNodes b.E Set.univ
  numlt : ∀ o n e eye, b.E.kind o = .form n e eye → ∀ m ∈ (MEnv.item n e eye).nums, m < b.next
  objlt : ∀ o n e eye, b.E.kind o = .form n e eye → ∀ q ∈ (MEnv.item n e eye).objs, q < b.nobj
  new : ∀ o, b.nobj ≤ o → b.E.kind o = .num
  vid : b.E.vid = id
  vars : VarsApart b.E
  varlt : ∀ o, b.E.kind o = .var → ∀ i j, i < b.E.rows o → j < b.E.cols o → b.E.el o i j < b.nh
  eyes : ∀ n o, b.eyes n = some o → o < b.nobj ∧ b.E.kind o = .num ∧ b.E.rows o = n ∧ b.E.cols o = n ∧
    ∀ i j, i < n → j < n → b.E.el o i j < b.nh ∧ b.cv (b.E.el o i j) = some (if i = j then 1 else 0)
  eye : ∀ o n e eye, b.E.kind o = .form n e eye → ∃ k, b.eyes k = some eye
  defs : ∀ o t, d o = some t → ∃ n e eye, b.E.kind o = .form n e eye ∧ e.strip = t.node
  form : ∀ o n e eye, b.E.kind o = .form n e eye → ∃ t, d o = some t ∧ e.strip = t.node

theorem BInv.init : BInv (MBld.init : MBld K) fun _ => none := by
  refine ⟨⟨fun _ => 0, fun _ => Nat.one_pos, fun _ => Nat.one_pos, fun o n e eye h => (by cases h)⟩,
    ⟨fun q _ n e eye h => (by cases h), fun q _ p _ n e eye n' e' eye' h => (by cases h)⟩,
    fun o n e eye h => (by cases h), fun o n e eye h => (by cases h), fun _ _ => rfl, rfl,
    fun o p h => (by cases h), fun o h => (by cases h), fun n o h => (by cases h), fun o n e eye h => (by cases h),
    fun o t h => (by cases h), fun o n e eye h => (by cases h)⟩

theorem MNew.kind_ne_form (t : MNew K) {n e eye} : t.kind ≠ MKind.form n e eye := by
  cases t <;> simp [MNew.kind]

theorem flat_divmod {i j c : ℕ} (hj : j < c) : (i * c + j) / c = i ∧ (i * c + j) % c = j := by
  have hc : 0 < c := by omega
  constructor
  · rw [Nat.add_comm, Nat.add_mul_div_right _ _ hc, Nat.div_eq_of_lt hj, Nat.zero_add]
  · rw [Nat.add_comm, Nat.add_mul_mod_self_right, Nat.mod_eq_of_lt hj]

theorem BInv.newMat {b : MBld K} {d : ℕ → Option (MTerm K)} (h : BInv b d) {t : MNew K} {r c o : ℕ} {b' : MBld K}
    (he : b.newMat t r c = some (o, b')) :
    BInv b' d ∧ o = b.nobj ∧ b'.nobj = b.nobj + 1 ∧ b.next ≤ b'.next ∧ b'.eyes = b.eyes ∧ b'.E.pads = b.E.pads ∧
      b'.E.kind o = t.kind ∧ b'.E.rows o = r ∧ b'.E.cols o = c ∧
      (∀ q, q ≠ o → b'.E.kind q = b.E.kind q ∧ b'.E.rows q = b.E.rows q ∧ b'.E.cols q = b.E.cols q) ∧
      ∀ i j, i < r → j < c → b'.E.el o i j < b'.nh ∧ b'.cv (b'.E.el o i j) = t.elem i j := by
  unfold MBld.newMat at he
  split at he
  case isFalse => simp at he
  case isTrue hpos =>
  obtain ⟨hr, hc⟩ := hpos
  simp only [Option.some.injEq, Prod.mk.injEq] at he
  obtain ⟨rfl, rfl⟩ := he
  have hk : ∀ q n e eye, Function.update b.E.kind b.nobj t.kind q = .form n e eye →
      q ≠ b.nobj ∧ b.E.kind q = .form n e eye := by
    intro q n e eye hq
    by_cases hqo : q = b.nobj
    · subst hqo
      rw [Function.update_self] at hq
      exact absurd hq t.kind_ne_form
    · rw [Function.update_of_ne hqo] at hq
      exact ⟨hqo, hq⟩
  have hsame : ∀ n e eye o, b.E.kind o = .form n e eye → ∀ q ∈ (MEnv.item n e eye).objs,
      Function.update b.E.rows b.nobj r q = b.E.rows q ∧ Function.update b.E.cols b.nobj c q = b.E.cols q := by
    intro n e eye o ho q hq
    have : q ≠ b.nobj := by have := h.objlt o n e eye ho q hq; omega
    exact ⟨Function.update_of_ne this _ _, Function.update_of_ne this _ _⟩
  have hflat : ∀ i j, i < r → j < c → i * c + j < r * c := fun i j hi hj => flat_lt hi hj
  refine ⟨⟨?_, ⟨fun q _ n e eye hq => ?_, fun q _ p _ n e eye n' e' eye' hq hp m hm hm' => ?_⟩, ?_, ?_, ?_, h.vid, ?_, ?_,
    ?_, ?_, ?_, ?_⟩, rfl, rfl, Nat.le_succ _, rfl, rfl, ?_, ?_, ?_, ?_, ?_⟩
  · obtain ⟨rank, hwf⟩ := h.wf
    refine ⟨rank, fun q => ?_, fun q => ?_, fun q n e eye hq => ?_⟩
    · show 0 < Function.update b.E.rows b.nobj r q
      by_cases hqo : q = b.nobj
      · subst hqo; rw [Function.update_self]; exact hr
      · rw [Function.update_of_ne hqo]; exact hwf.rpos q
    · show 0 < Function.update b.E.cols b.nobj c q
      by_cases hqo : q = b.nobj
      · subst hqo; rw [Function.update_self]; exact hc
      · rw [Function.update_of_ne hqo]; exact hwf.cpos q
    · obtain ⟨hqo, hq⟩ := hk q n e eye hq
      obtain ⟨w1, w2, w3, w4, w5, w6, w7⟩ := hwf.form q n e eye hq
      have hs := hsame n e eye q hq
      have hse : ∀ p ∈ e.objs, ({ b.E with
        kind := Function.update b.E.kind b.nobj t.kind
        rows := Function.update b.E.rows b.nobj r
        cols := Function.update b.E.cols b.nobj c
        el := Function.update b.E.el b.nobj fun i j => b.nh + (i * c + j) } : MEnv K).rows p = b.E.rows p ∧ ({ b.E with
        kind := Function.update b.E.kind b.nobj t.kind
        rows := Function.update b.E.rows b.nobj r
        cols := Function.update b.E.cols b.nobj c
        el := Function.update b.E.el b.nobj fun i j => b.nh + (i * c + j) } : MEnv K).cols p = b.E.cols p :=
        fun p hp => hs p (by simp [MEnv.item, MNode.objs, hp])
      have heye := hs eye (by simp [MEnv.item, MNode.objs])
      have hne : eye ≠ b.nobj := by
        have := h.objlt q n e eye hq eye (by simp [MEnv.item, MNode.objs]); omega
      refine ⟨?_, ?_, ?_, dimOk_mono (E := b.E) ?_ e hse w4, ?_, ?_, w7⟩
      · show Function.update b.E.kind b.nobj t.kind eye = _
        rw [Function.update_of_ne hne]; exact w1
      · rw [dims_congr (E := b.E) e hse]; exact heye.1.trans w2
      · rw [dims_congr (E := b.E) e hse]; exact heye.2.trans w3
      · exact fun _ h => h
      · rw [dims_congr (E := b.E) e hse]
        exact (Function.update_of_ne hqo _ _).trans w5
      · rw [dims_congr (E := b.E) e hse]
        exact (Function.update_of_ne hqo _ _).trans w6
  · exact h.uniq.nodup q trivial n e eye (hk q n e eye hq).2
  · exact h.uniq.disj q trivial p trivial _ _ _ _ _ _ (hk q n e eye hq).2 (hk p n' e' eye' hp).2 m hm hm'
  · intro q n e eye hq m hm
    have := h.numlt q n e eye (hk q n e eye hq).2 m hm
    show m < b.next + 1
    omega
  · intro q n e eye hq p hp
    have := h.objlt q n e eye (hk q n e eye hq).2 p hp
    show p < b.nobj + 1
    omega
  · intro q hq
    have hq : b.nobj + 1 ≤ q := hq
    show Function.update b.E.kind b.nobj t.kind q = _
    rw [Function.update_of_ne (by omega)]
    exact h.new q (by omega)
  · intro q p hq hp l k i j hl hk' hi hj hv
    have hv : b.E.vid _ = b.E.vid _ := hv
    rw [h.vid] at hv
    have hv : Function.update b.E.el b.nobj (fun i j => b.nh + (i * c + j)) q l k =
      Function.update b.E.el b.nobj (fun i j => b.nh + (i * c + j)) p i j := hv
    have hl : l < Function.update b.E.rows b.nobj r q := hl
    have hk' : k < Function.update b.E.cols b.nobj c q := hk'
    have hi : i < Function.update b.E.rows b.nobj r p := hi
    have hj : j < Function.update b.E.cols b.nobj c p := hj
    have hq : Function.update b.E.kind b.nobj t.kind q = .var := hq
    have hp : Function.update b.E.kind b.nobj t.kind p = .var := hp
    by_cases hqo : q = b.nobj <;> by_cases hpo : p = b.nobj
    · subst hqo; subst hpo
      simp only [Function.update_self] at hv hk' hj
      have h1 : l * c + k = i * c + j := by omega
      have h2 := congrArg (· / c) h1
      have h3 := congrArg (· % c) h1
      simp only [(flat_divmod hk').1, (flat_divmod hj).1, (flat_divmod hk').2, (flat_divmod hj).2] at h2 h3
      exact ⟨rfl, h2, h3⟩
    · subst hqo
      simp only [Function.update_self, Function.update_of_ne hpo] at hv hi hj hp
      have := h.varlt p hp i j hi hj
      omega
    · subst hpo
      simp only [Function.update_self, Function.update_of_ne hqo] at hv hl hk' hq
      have := h.varlt q hq l k hl hk'
      omega
    · simp only [Function.update_of_ne hqo, Function.update_of_ne hpo] at hv hl hk' hi hj hq hp
      exact h.vars q p hq hp l k i j hl hk' hi hj (by rw [h.vid]; exact hv)
  · intro q hq i j hi hj
    show Function.update b.E.el b.nobj (fun i j => b.nh + (i * c + j)) q i j < b.nh + r * c
    have hi : i < Function.update b.E.rows b.nobj r q := hi
    have hj : j < Function.update b.E.cols b.nobj c q := hj
    have hq : Function.update b.E.kind b.nobj t.kind q = .var := hq
    by_cases hqo : q = b.nobj
    · subst hqo
      rw [Function.update_self] at hi hj ⊢
      have := hflat i j hi hj
      omega
    · rw [Function.update_of_ne hqo] at hi hj hq ⊢
      have := h.varlt q hq i j hi hj
      omega
  · intro n q hq
    obtain ⟨e1, e2, e3, e4, e5⟩ := h.eyes n q hq
    have hqo : q ≠ b.nobj := by omega
    refine ⟨Nat.lt_succ_of_lt e1, ?_, ?_, ?_, fun i j hi hj => ?_⟩
    · exact (Function.update_of_ne hqo _ _).trans e2
    · exact (Function.update_of_ne hqo _ _).trans e3
    · exact (Function.update_of_ne hqo _ _).trans e4
    · obtain ⟨f1, f2⟩ := e5 i j hi hj
      have hel : Function.update b.E.el b.nobj (fun i j => b.nh + (i * c + j)) q i j = b.E.el q i j := by
        rw [Function.update_of_ne hqo]
      refine ⟨?_, ?_⟩
      · show Function.update b.E.el b.nobj (fun i j => b.nh + (i * c + j)) q i j < b.nh + r * c
        rw [hel]; omega
      · show (fun h => if b.nh ≤ h ∧ h < b.nh + r * c then t.elem ((h - b.nh) / c) ((h - b.nh) % c) else b.cv h)
          (Function.update b.E.el b.nobj (fun i j => b.nh + (i * c + j)) q i j) = _
        rw [hel]
        show (if b.nh ≤ b.E.el q i j ∧ b.E.el q i j < b.nh + r * c then _ else b.cv (b.E.el q i j)) = _
        rw [if_neg (fun hh => by omega)]
        exact f2
  · intro q n e eye hq
    exact h.eye q n e eye (hk q n e eye hq).2
  · intro q t' hq
    obtain ⟨n, e, eye, h1, h2⟩ := h.defs q t' hq
    have hqo : q ≠ b.nobj := by
      rintro rfl
      rw [h.new _ (le_refl _)] at h1
      cases h1
    exact ⟨n, e, eye, (Function.update_of_ne hqo _ _).trans h1, h2⟩
  · intro q n e eye hq
    exact h.form q n e eye (hk q n e eye hq).2
  · exact Function.update_self _ _ _
  · exact Function.update_self _ _ _
  · exact Function.update_self _ _ _
  · intro q hq
    exact ⟨Function.update_of_ne hq _ _, Function.update_of_ne hq _ _, Function.update_of_ne hq _ _⟩
  · intro i j hi hj
    have hf := hflat i j hi hj
    have hel : Function.update b.E.el b.nobj (fun i j => b.nh + (i * c + j)) b.nobj i j = b.nh + (i * c + j) := by
      rw [Function.update_self]
    refine ⟨by show Function.update b.E.el b.nobj _ b.nobj i j < b.nh + r * c; rw [hel]; omega, ?_⟩
    show (if b.nh ≤ Function.update b.E.el b.nobj (fun i j => b.nh + (i * c + j)) b.nobj i j ∧
      Function.update b.E.el b.nobj (fun i j => b.nh + (i * c + j)) b.nobj i j < b.nh + r * c then
      t.elem ((Function.update b.E.el b.nobj (fun i j => b.nh + (i * c + j)) b.nobj i j - b.nh) / c)
        ((Function.update b.E.el b.nobj (fun i j => b.nh + (i * c + j)) b.nobj i j - b.nh) % c)
      else _) = _
    rw [hel, if_pos (by omega), Nat.add_sub_cancel_left, (flat_divmod hj).1, (flat_divmod hj).2]

/-- The registered identity matrix. -/
theorem BInv.regEye {b : MBld K} {d : ℕ → Option (MTerm K)} (h : BInv b d) {n : ℕ} (hn : 0 < n) :
    ∃ o b', b.eye n = some (o, b') ∧ BInv b' d ∧ b'.eyes n = some o ∧ b.nobj ≤ b'.nobj ∧ b.next ≤ b'.next ∧
      b'.E.pads = b.E.pads ∧ (∀ k p, b'.eyes k = some p → b.eyes k = some p ∨ p = b.nobj) ∧
      ∀ q < b.nobj, b'.E.kind q = b.E.kind q ∧ b'.E.rows q = b.E.rows q ∧ b'.E.cols q = b.E.cols q := by
  cases hb : b.eyes n with
  | some o =>
      exact ⟨o, b, by simp [MBld.eye, hb], h, hb, le_refl _, le_refl _, rfl, fun k p hp => Or.inl hp,
        fun q _ => ⟨rfl, rfl, rfl⟩⟩
  | none =>
      obtain ⟨r, hr⟩ : ∃ r, b.newMat (.num fun i j => if i = j then 1 else 0) n n = some r := by
        rw [MBld.newMat, if_pos ⟨hn, hn⟩]; exact ⟨_, rfl⟩
      obtain ⟨o, b'⟩ := r
      obtain ⟨g1, g2, g3, g4, g5, g6, g7, g8, g9, g10, g11⟩ := h.newMat hr
      refine ⟨o, { b' with eyes := Function.update b'.eyes n (some o) }, by simp [MBld.eye, hb, hr], ?_,
        Function.update_self _ _ _, by show b.nobj ≤ b'.nobj; omega, g4, g6, fun k p hp => ?_, fun q hq => g10 q (by omega)⟩
      · refine ⟨g1.wf, g1.uniq, g1.numlt, g1.objlt, g1.new, g1.vid, g1.vars, g1.varlt, fun k p hp => ?_, fun q m e eye hq => ?_,
          g1.defs, g1.form⟩
        · have hp : Function.update b'.eyes n (some o) k = some p := hp
          by_cases hk : k = n
          · subst hk
            rw [Function.update_self] at hp
            simp only [Option.some.injEq] at hp
            subst hp
            exact ⟨by show o < b'.nobj; omega, g7, g8, g9, fun i j hi hj => g11 i j hi hj⟩
          · rw [Function.update_of_ne hk] at hp
            exact g1.eyes k p hp
        · obtain ⟨k, hk⟩ := g1.eye q m e eye hq
          refine ⟨k, ?_⟩
          show Function.update b'.eyes n (some o) k = some eye
          have : k ≠ n := by
            rintro rfl
            rw [g5, hb] at hk
            cases hk
          rw [Function.update_of_ne this]
          exact hk
      · have hp : Function.update b'.eyes n (some o) k = some p := hp
        by_cases hk : k = n
        · subst hk
          rw [Function.update_self] at hp
          simp only [Option.some.injEq] at hp
          exact Or.inr (hp ▸ g2)
        · rw [Function.update_of_ne hk, g5] at hp
          exact Or.inl hp

/-! ## Definitions -/

/-- `Depends d p q`: `q` is `p` or occurs in the definitions below `p`. -/
inductive Depends (d : ℕ → Option (MTerm K)) (p : ℕ) : ℕ → Prop
  | refl : Depends d p p
  | step {q r t} : Depends d p q → d q = some t → r ∈ t.objs → Depends d p r

theorem BInv.reach {b : MBld K} {d : ℕ → Option (MTerm K)} (h : BInv b d) {p q : ℕ} (hr : MReach b.E p q) :
    Depends d p q ∨ ∃ k, b.eyes k = some q := by
  induction hr with
  | refl => exact Or.inl .refl
  | @step q r n e eye _ hk hm ih =>
      obtain ⟨t, ht, hst⟩ := h.form q n e eye hk
      rcases ih with ih | ⟨k, hk'⟩
      · simp only [MEnv.item, MNode.objs, List.mem_append, List.mem_singleton] at hm
        rcases hm with hm | rfl
        · exact Or.inl (.step ih ht (by rw [← objs_node, ← hst, objs_strip]; exact hm))
        · exact Or.inr (h.eye q n e r hk)
      · obtain ⟨_, e2, _⟩ := h.eyes k q hk'
        rw [e2] at hk; cases hk

theorem MReach.headB {E : MEnv K} {p q r : ℕ} {n e eye} (hk : E.kind p = .form n e eye)
    (hq : q ∈ (MEnv.item n e eye).objs) (h : MReach E q r) : MReach E p r := by
  induction h with
  | refl => exact .step .refl hk hq
  | step _ hk' hm ih => exact .step ih hk' hm

theorem MReach.of_leaf {E : MEnv K} {p r : ℕ} (hk : ¬E.isForm p) (h : MReach E p r) : r = p := by
  induction h with
  | refl => rfl
  | step _ hk' _ ih => subst ih; exact absurd ⟨_, _, _, hk'⟩ hk

theorem list_bound (f : ℕ → ℕ) (l : List ℕ) : ∃ M, ∀ q ∈ l, f q < M := by
  induction l with
  | nil => exact ⟨0, fun q hq => (by cases hq)⟩
  | cons a l ih =>
      obtain ⟨M, hM⟩ := ih
      refine ⟨max M (f a + 1), fun q hq => ?_⟩
      rcases List.mem_cons.1 hq with rfl | hq
      · omega
      · have := hM q hq; omega

theorem BInv.bind {b : MBld K} {d : ℕ → Option (MTerm K)} (h : BInv b d) {o : ℕ} {e : MNode K} {t : MTerm K}
    (hst : e.strip = t.node) (ho : o < b.nobj) (hoe : ∀ k, b.eyes k ≠ some o) (hobj : ∀ q ∈ t.objs, q < b.nobj)
    (hfit : t.Fits b.E) (hac : ∀ q ∈ t.objs, ¬Depends d q o)
    (hdim : (b.E.rows o = (t.node.dims b.E).1 ∧ b.E.cols o = (t.node.dims b.E).2) ∨
      ∀ p t', p ≠ o → d p = some t' → o ∉ t'.objs) :
    ∃ b', b.bind o e = some b' ∧ BInv b' (Function.update d o (some t)) := by
  classical
  obtain ⟨rank0, hwf0⟩ := h.wf
  have hde : e.dims b.E = t.node.dims b.E := by rw [← dims_strip, hst]
  have hdp := dims_pos hwf0 t.node
  obtain ⟨eye, b1, g1, g2, g3, g4, g5, g6, g7, g8⟩ := h.regEye (n := (e.dims b.E).2) (by rw [hde]; exact hdp.2)
  refine ⟨_, by rw [MBld.bind, g1]; rfl, ?_⟩
  obtain ⟨rank, hwf⟩ := g2.wf
  obtain ⟨y1, y2, y3, y4, y5⟩ := g2.eyes _ _ g3
  have hoe1 : ∀ k, b1.eyes k ≠ some o := by
    intro k hk
    rcases g7 k o hk with hk | rfl
    · exact hoe k hk
    · omega
  have heo : eye ≠ o := fun hh => hoe1 _ (hh ▸ g3)
  have hot : o ∉ t.objs := fun hh => hac o hh .refl
  have hcs : (e.clone b1.next).1.strip = t.node := by rw [strip_clone, hst]
  have hcobj : (e.clone b1.next).1.objs = t.objs := by rw [← objs_strip, hcs, objs_node]
  obtain ⟨n1, n2, n3⟩ := clone_nums e b1.next
  generalize hcl : e.clone b1.next = cl at *
  obtain ⟨c, k⟩ := cl
  simp only at hcs hcobj n1 n2 n3
  let E2 : MEnv K := { b1.E with
        kind := Function.update b1.E.kind o (.form k c eye)
        rows := Function.update b1.E.rows o (e.dims b.E).1
        cols := Function.update b1.E.cols o (e.dims b.E).2
        pads := b1.E.pads ∪ e.reqs b.E }
  have hE2 : BInv ({ b1 with E := E2, next := k + 1 } : MBld K) (Function.update d o (some t)) := by
    have hk1 : ∀ p n' e' eye', p ≠ o → (E2.kind p = .form n' e' eye' ↔ b1.E.kind p = .form n' e' eye') := by
      intro p n' e' eye' hp
      show Function.update b1.E.kind o _ p = _ ↔ _
      rw [Function.update_of_ne hp]
    have hko : E2.kind o = .form k c eye := Function.update_self _ _ _
    have hkof : ∀ n' e' eye', E2.kind o = .form n' e' eye' → n' = k ∧ e' = c ∧ eye' = eye := by
      intro n' e' eye' hh
      rw [hko] at hh
      simp only [MKind.form.injEq] at hh
      exact ⟨hh.1.symm, hh.2.1.symm, hh.2.2.symm⟩
    have hdo : ∀ p, p ≠ o → E2.rows p = b1.E.rows p ∧ E2.cols p = b1.E.cols p := fun p hp =>
      ⟨Function.update_of_ne hp _ _, Function.update_of_ne hp _ _⟩
    have hdt : ∀ q ∈ t.objs, E2.rows q = b.E.rows q ∧ E2.cols q = b.E.cols q := by
      intro q hq
      have h1 := hdo q (fun hh => hot (hh ▸ hq))
      have h2 := g8 q (hobj q hq)
      exact ⟨h1.1.trans h2.2.1, h1.2.trans h2.2.2⟩
    have hcd : c.dims E2 = e.dims b.E := by
      rw [← dims_strip, hcs, hde]
      exact dims_congr t.node (by rw [objs_node]; exact hdt)
    have hrows : E2.rows o = (e.dims b.E).1 := Function.update_self _ _ _
    have hcols : E2.cols o = (e.dims b.E).2 := Function.update_self _ _ _
    have hother : ∀ p n' e' eye', p ≠ o → b1.E.kind p = .form n' e' eye' → ∀ q ∈ e'.objs,
        E2.rows q = b1.E.rows q ∧ E2.cols q = b1.E.cols q := by
      intro p n' e' eye' hp hk' q hq
      by_cases hqo : q = o
      · subst hqo
        rcases hdim with hdim | hdim
        · have h2 := g8 q ho
          rw [hrows, hcols, hde, h2.2.1, h2.2.2]
          exact ⟨hdim.1.symm, hdim.2.symm⟩
        · obtain ⟨t', ht', hst'⟩ := g2.form p n' e' eye' hk'
          exact absurd (by rw [← objs_node, ← hst', objs_strip]; exact hq) (hdim p t' hp ht')
      · exact hdo q hqo
    obtain ⟨M, hM⟩ := list_bound rank (eye :: t.objs)
    refine ⟨⟨fun p => if MReach b1.E p o then rank p + M else rank p, ?_, ?_, ?_⟩, ⟨?_, ?_⟩, ?_, ?_, ?_, g2.vid, ?_, ?_, ?_,
      ?_, ?_, ?_⟩
    · intro p
      show 0 < E2.rows p
      by_cases hp : p = o
      · subst hp; rw [hrows, hde]; exact hdp.1
      · rw [(hdo p hp).1]; exact hwf.rpos p
    · intro p
      show 0 < E2.cols p
      by_cases hp : p = o
      · subst hp; rw [hcols, hde]; exact hdp.2
      · rw [(hdo p hp).2]; exact hwf.cpos p
    · intro p n' e' eye' hk'
      by_cases hp : p = o
      · subst hp
        obtain ⟨rfl, rfl, rfl⟩ := hkof n' e' eye' hk'
        refine ⟨?_, ?_, ?_, ?_, ?_, ?_, ?_⟩
        · show Function.update b1.E.kind p _ eye' = _
          rw [Function.update_of_ne heo]; exact y2
        · show E2.rows eye' = (MNode.dims E2 e').2
          rw [(hdo eye' heo).1, y3, hcd]
        · show E2.cols eye' = (MNode.dims E2 e').2
          rw [(hdo eye' heo).2, y4, hcd]
        · rw [← dimOk_strip, hcs]
          refine dimOk_of_fits (E := b.E) (F := E2) t hfit ?_ hdt
          rw [← hst, reqs_strip]
          exact fun x hx => Or.inr hx
        · show E2.rows p = (MNode.dims E2 e').1
          rw [hrows, hcd]
        · show E2.cols p = (MNode.dims E2 e').2
          rw [hcols, hcd]
        · intro q hq
          have hq' : q ∈ eye' :: t.objs := by
            simp only [MEnv.item, MNode.objs, List.mem_append, List.mem_singleton] at hq
            rw [List.mem_cons]
            rcases hq with hq | hq
            · exact Or.inr (hcobj ▸ hq)
            · exact Or.inl hq
          have hnr : ¬MReach b1.E q p := by
            intro hr
            rcases g2.reach hr with hr | ⟨k', hk''⟩
            · rcases List.mem_cons.1 hq' with rfl | hq'
              · have := MReach.of_leaf (E := b1.E) (p := q) (r := p)
                  (by rintro ⟨_, _, _, hh⟩; rw [y2] at hh; cases hh) (by assumption)
                exact heo this.symm
              · exact hac q hq' hr
            · exact hoe1 k' hk''
          have := hM q hq'
          simp only [if_neg hnr, if_pos (MReach.refl (E := b1.E) (o := p))]
          omega
      · have hk1' := (hk1 p n' e' eye' hp).1 hk'
        obtain ⟨w1, w2, w3, w4, w5, w6, w7⟩ := hwf.form p n' e' eye' hk1'
        have hoth := hother p n' e' eye' hp hk1'
        obtain ⟨ke, hke⟩ := g2.eye p n' e' eye' hk1'
        have hne : eye' ≠ o := fun hh => hoe1 ke (hh ▸ hke)
        have hdd : e'.dims E2 = e'.dims b1.E := dims_congr e' hoth
        refine ⟨?_, ?_, ?_, ?_, ?_, ?_, ?_⟩
        · show Function.update b1.E.kind o _ eye' = _
          rw [Function.update_of_ne hne]; exact w1
        · show E2.rows eye' = (MNode.dims E2 e').2
          rw [(hdo eye' hne).1, w2, hdd]
        · show E2.cols eye' = (MNode.dims E2 e').2
          rw [(hdo eye' hne).2, w3, hdd]
        · exact dimOk_mono (E := b1.E) (F := E2) (fun x hx => Or.inl hx) e' hoth w4
        · show E2.rows p = (MNode.dims E2 e').1
          rw [(hdo p hp).1, w5, hdd]
        · show E2.cols p = (MNode.dims E2 e').2
          rw [(hdo p hp).2, w6, hdd]
        · intro q hq
          have := w7 q hq
          by_cases hr : MReach b1.E q o
          · simp only [if_pos hr, if_pos (MReach.headB hk1' hq hr)]
            omega
          · simp only [if_neg hr]
            split <;> omega
    · intro q _ n' e' eye' hk'
      by_cases hq : q = o
      · subst hq
        obtain ⟨rfl, rfl, rfl⟩ := hkof n' e' eye' hk'
        simp only [MEnv.item, MNode.nums, List.append_nil, List.nodup_cons]
        exact ⟨fun hh => by have := n2 _ hh; omega, n3⟩
      · exact g2.uniq.nodup q trivial n' e' eye' ((hk1 q n' e' eye' hq).1 hk')
    · intro q _ p _ n' e' eye' n'' e'' eye'' hq hp m hm hm'
      have hnew : ∀ m ∈ (MEnv.item k c eye).nums, b1.next ≤ m := by
        intro m hm
        simp only [MEnv.item, MNode.nums, List.append_nil, List.mem_cons] at hm
        rcases hm with rfl | hm
        · exact n1
        · exact (n2 m hm).1
      by_cases hqo : q = o <;> by_cases hpo : p = o
      · exact hqo.trans hpo.symm
      · subst hqo
        obtain ⟨rfl, rfl, rfl⟩ := hkof n' e' eye' hq
        have h1 := hnew m hm
        have h2 := g2.numlt p _ _ _ ((hk1 p _ _ _ hpo).1 hp) m hm'
        omega
      · subst hpo
        obtain ⟨rfl, rfl, rfl⟩ := hkof _ _ _ hp
        have h1 := hnew m hm'
        have h2 := g2.numlt q _ _ _ ((hk1 q _ _ _ hqo).1 hq) m hm
        omega
      · exact g2.uniq.disj q trivial p trivial _ _ _ _ _ _ ((hk1 q _ _ _ hqo).1 hq) ((hk1 p _ _ _ hpo).1 hp) m hm hm'
    · intro q n' e' eye' hq m hm
      show m < k + 1
      by_cases hqo : q = o
      · subst hqo
        obtain ⟨rfl, rfl, rfl⟩ := hkof _ _ _ hq
        simp only [MEnv.item, MNode.nums, List.append_nil, List.mem_cons] at hm
        rcases hm with rfl | hm
        · omega
        · have := n2 m hm; omega
      · have := g2.numlt q _ _ _ ((hk1 q _ _ _ hqo).1 hq) m hm
        omega
    · intro q n' e' eye' hq r hr
      show r < b1.nobj
      by_cases hqo : q = o
      · subst hqo
        obtain ⟨rfl, rfl, rfl⟩ := hkof _ _ _ hq
        simp only [MEnv.item, MNode.objs, List.mem_append, List.mem_singleton] at hr
        rcases hr with hr | rfl
        · have := hobj r (hcobj ▸ hr); omega
        · exact y1
      · exact g2.objlt q _ _ _ ((hk1 q _ _ _ hqo).1 hq) r hr
    · intro q hq
      have hq : b1.nobj ≤ q := hq
      show Function.update b1.E.kind o _ q = _
      rw [Function.update_of_ne (by omega)]
      exact g2.new q hq
    · have hv : ∀ q, E2.kind q = .var → q ≠ o ∧ b1.E.kind q = .var := by
        intro q hq
        have hqo : q ≠ o := by
          rintro rfl
          rw [hko] at hq; cases hq
        exact ⟨hqo, by have hq : Function.update b1.E.kind o _ q = .var := hq
                       rw [Function.update_of_ne hqo] at hq; exact hq⟩
      intro q p hq hp l m i j hl hm hi hj hvid
      obtain ⟨hqo, hq⟩ := hv q hq
      obtain ⟨hpo, hp⟩ := hv p hp
      have hl : l < E2.rows q := hl
      have hm : m < E2.cols q := hm
      have hi : i < E2.rows p := hi
      have hj : j < E2.cols p := hj
      rw [(hdo q hqo).1] at hl
      rw [(hdo q hqo).2] at hm
      rw [(hdo p hpo).1] at hi
      rw [(hdo p hpo).2] at hj
      exact g2.vars q p hq hp l m i j hl hm hi hj hvid
    · intro q hq i j hi hj
      have hq : E2.kind q = .var := hq
      have hqo : q ≠ o := by
        rintro rfl
        rw [hko] at hq; cases hq
      have hq : Function.update b1.E.kind o _ q = .var := hq
      rw [Function.update_of_ne hqo] at hq
      have hi : i < E2.rows q := hi
      have hj : j < E2.cols q := hj
      rw [(hdo q hqo).1] at hi
      rw [(hdo q hqo).2] at hj
      exact g2.varlt q hq i j hi hj
    · intro n' q hq
      obtain ⟨f1, f2, f3, f4, f5⟩ := g2.eyes n' q hq
      have hqo : q ≠ o := fun hh => hoe1 n' (hh ▸ hq)
      exact ⟨f1, (Function.update_of_ne hqo _ _).trans f2, (hdo q hqo).1.trans f3, (hdo q hqo).2.trans f4, f5⟩
    · intro q n' e' eye' hq
      by_cases hqo : q = o
      · subst hqo
        obtain ⟨rfl, rfl, rfl⟩ := hkof _ _ _ hq
        exact ⟨_, g3⟩
      · exact g2.eye q _ _ _ ((hk1 q _ _ _ hqo).1 hq)
    · intro q t' hq
      by_cases hqo : q = o
      · subst hqo
        rw [Function.update_self] at hq
        simp only [Option.some.injEq] at hq
        subst hq
        exact ⟨k, c, eye, hko, hcs⟩
      · rw [Function.update_of_ne hqo] at hq
        obtain ⟨n', e', eye', f1, f2⟩ := g2.defs q t' hq
        exact ⟨n', e', eye', (hk1 q _ _ _ hqo).2 f1, f2⟩
    · intro q n' e' eye' hq
      by_cases hqo : q = o
      · subst hqo
        obtain ⟨rfl, rfl, rfl⟩ := hkof _ _ _ hq
        exact ⟨t, Function.update_self _ _ _, hcs⟩
      · obtain ⟨t', f1, f2⟩ := g2.form q _ _ _ ((hk1 q _ _ _ hqo).1 hq)
        exact ⟨t', by rw [Function.update_of_ne hqo]; exact f1, f2⟩
  simp only [hcl]
  exact hE2

/-! ## Programs -/

/-- The expression is just a `Matrix<Expression>` (then C++ selects the copy constructor or copy assignment). -/
def MTerm.IsCopy (E : MEnv K) : MTerm K → Prop
  | .mat q => E.kind q = .exp ∨ E.isForm q
  | _ => False

/-- A program that builds matrices has reached the state `b`; `d o` is the expression that defines the matrix `o`.
Matrices mentioned must exist and the dimensions of operands must fit.  A redefinition changes a `Matrix<Expression>`
which the new expression does not use, directly or indirectly, and keeps its dimensions unless no other matrix mentions
it. -/
inductive Built : MBld K → (ℕ → Option (MTerm K)) → Prop
  | init : Built .init fun _ => none
  | new {b d b' o} (t : MNew K) (r c : ℕ) : Built b d → b.newMat t r c = some (o, b') → Built b' d
  | eye {b d b' o} (n : ℕ) : Built b d → b.eye n = some (o, b') → Built b' d
  | define {b d b' o} (t : MTerm K) : Built b d → (∀ q ∈ t.objs, q < b.nobj) → t.Fits b.E → ¬t.IsCopy b.E →
      b.defNew t = some (o, b') → Built b' (Function.update d o (some t))
  | redefine {b d b'} (o : ℕ) (t : MTerm K) : Built b d → o < b.nobj → (b.E.kind o = .exp ∨ b.E.isForm o) →
      (∀ q ∈ t.objs, q < b.nobj) → t.Fits b.E → ¬t.IsCopy b.E → (∀ q ∈ t.objs, ¬Depends d q o) →
      ((b.E.rows o = (t.node.dims b.E).1 ∧ b.E.cols o = (t.node.dims b.E).2) ∨
        ∀ p t', p ≠ o → d p = some t' → o ∉ t'.objs) →
      b.redef o t = some b' → Built b' (Function.update d o (some t))

theorem BInv.next {b : MBld K} {d : ℕ → Option (MTerm K)} (h : BInv b d) {k m : ℕ} (hk : b.next ≤ k) (hm : b.nobj ≤ m) :
    BInv { b with nobj := m, next := k } d :=
  ⟨h.wf, h.uniq, fun o n e eye ho x hx => lt_of_lt_of_le (h.numlt o n e eye ho x hx) hk,
    fun o n e eye ho x hx => lt_of_lt_of_le (h.objlt o n e eye ho x hx) hm,
    fun o ho => h.new o (le_trans hm ho), h.vid, h.vars, h.varlt,
    fun n o ho => ⟨lt_of_lt_of_le (h.eyes n o ho).1 hm, (h.eyes n o ho).2⟩, h.eye, h.defs, h.form⟩

/-- Defining a matrix never fails if the operands exist and fit. -/
theorem BInv.defNew {b : MBld K} {d : ℕ → Option (MTerm K)} (h : BInv b d) {t : MTerm K} (hobj : ∀ q ∈ t.objs, q < b.nobj)
    (hfit : t.Fits b.E) :
    ∃ b', b.defNew t = some (b.nobj, b') ∧ BInv b' (Function.update d b.nobj (some t)) := by
  have hno : ∀ p t', d p = some t' → b.nobj ∉ t'.objs := by
    intro p t' hp hh
    obtain ⟨n, e, eye, h1, h2⟩ := h.defs p t' hp
    have := h.objlt p n e eye h1 b.nobj (by
      simp only [MEnv.item, MNode.objs, List.mem_append]
      exact Or.inl (by rw [← objs_strip, h2, objs_node]; exact hh))
    omega
  obtain ⟨b', h1, h2⟩ := (h.next (k := (t.build b.next).2 + 1) (m := b.nobj + 1)
    (by have := build_next t b.next; omega) (by omega)).bind (o := b.nobj) (e := (t.build b.next).1) (t := t)
    (strip_build t b.next) (by show b.nobj < b.nobj + 1; omega)
    (fun k hk => by have := (h.eyes k _ hk).1; omega)
    (fun q hq => by have := hobj q hq; show q < b.nobj + 1; omega) hfit
    (fun q hq hd => by
      have : ∀ r, Depends d q r → r < b.nobj := by
        intro r hr
        induction hr with
        | refl => exact hobj q hq
        | @step r r' t' _ h1 h2 _ =>
            obtain ⟨n, e, eye, h3, h4⟩ := h.defs r t' h1
            refine h.objlt r n e eye h3 r' ?_
            simp only [MEnv.item, MNode.objs, List.mem_append]
            exact Or.inl (by rw [← objs_strip, h4, objs_node]; exact h2)
      have := this _ hd
      omega)
    (Or.inr fun p t' _ hp => hno p t' hp)
  exact ⟨b', by rw [MBld.defNew, h1]; rfl, h2⟩

/-- Redefining a matrix never fails under the same conditions. -/
theorem BInv.redef {b : MBld K} {d : ℕ → Option (MTerm K)} (h : BInv b d) {o : ℕ} {t : MTerm K}
    (ho : o < b.nobj) (hk : b.E.kind o = .exp ∨ b.E.isForm o) (hobj : ∀ q ∈ t.objs, q < b.nobj) (hfit : t.Fits b.E)
    (hac : ∀ q ∈ t.objs, ¬Depends d q o)
    (hdim : (b.E.rows o = (t.node.dims b.E).1 ∧ b.E.cols o = (t.node.dims b.E).2) ∨
      ∀ p t', p ≠ o → d p = some t' → o ∉ t'.objs) :
    ∃ b', b.redef o t = some b' ∧ BInv b' (Function.update d o (some t)) := by
  obtain ⟨b', h1, h2⟩ := (h.next (k := (t.build b.next).2) (m := b.nobj) (build_next t b.next) (le_refl _)).bind
    (o := o) (e := (t.build b.next).1) (t := t) (strip_build t b.next) ho
    (fun k hk' => by
      have h1 := (h.eyes k o hk').2.1
      rcases hk with hk | ⟨_, _, _, hk⟩ <;> rw [h1] at hk <;> cases hk)
    hobj hfit hac hdim
  exact ⟨b', h1, h2⟩

theorem Built.inv {b : MBld K} {d : ℕ → Option (MTerm K)} (h : Built b d) : BInv b d := by
  induction h with
  | init => exact BInv.init
  | new t r c _ he ih => exact (ih.newMat he).1
  | @eye b d b' o n _ he ih =>
      have hn : 0 < n := by
        rcases Nat.eq_zero_or_pos n with rfl | hn
        · exfalso
          rw [MBld.eye] at he
          cases hb : b.eyes 0 with
          | some p =>
              obtain ⟨_, _, e3, _⟩ := ih.eyes 0 p hb
              obtain ⟨rank, hwf⟩ := ih.wf
              have := hwf.rpos p
              omega
          | none => rw [hb] at he; simp [MBld.newMat] at he
        · exact hn
      obtain ⟨o', b'', h1, h2, _⟩ := ih.regEye hn
      rw [he] at h1
      cases h1
      exact h2
  | @define b d b' o t _ h1 h2 _ he ih =>
      obtain ⟨b'', h3, h4⟩ := ih.defNew h1 h2
      rw [he] at h3
      cases h3
      exact h4
  | @redefine b d b' o t _ h1 h2 h3 h4 _ h5 h6 he ih =>
      obtain ⟨b'', h7, h8⟩ := ih.redef h1 h2 h3 h4 h5 h6
      rw [he] at h7
      cases h7
      exact h8

/-- Derivative paddings are not part of a program. -/
theorem Built.dpads {b : MBld K} {d : ℕ → Option (MTerm K)} (h : Built b d) : b.E.dpads = ∅ := by
  have hnew : ∀ {b b' : MBld K} {t r c o}, b.newMat t r c = some (o, b') → b'.E.dpads = b.E.dpads := by
    intro b b' t r c o he
    unfold MBld.newMat at he
    split at he <;> simp only [Option.some.injEq, Prod.mk.injEq, reduceCtorEq] at he
    obtain ⟨rfl, rfl⟩ := he
    rfl
  have heye : ∀ {b b' : MBld K} {n o}, b.eye n = some (o, b') → b'.E.dpads = b.E.dpads := by
    intro b b' n o he
    unfold MBld.eye at he
    split at he
    · simp only [Option.some.injEq, Prod.mk.injEq] at he
      obtain ⟨rfl, rfl⟩ := he
      rfl
    · simp only [Option.map_eq_some_iff, Prod.mk.injEq] at he
      obtain ⟨⟨p, b1⟩, h1, rfl, rfl⟩ := he
      have := hnew h1
      exact this
  have hbind : ∀ {b b' : MBld K} {o e}, b.bind o e = some b' → b'.E.dpads = b.E.dpads := by
    intro b b' o e he
    unfold MBld.bind at he
    simp only [Option.map_eq_some_iff] at he
    obtain ⟨⟨p, b1⟩, h1, rfl⟩ := he
    have := heye h1
    exact this
  induction h with
  | init => rfl
  | new t r c _ he ih => exact (hnew he).trans ih
  | eye n _ he ih => exact (heye he).trans ih
  | define t _ _ _ _ he ih =>
      unfold MBld.defNew at he
      simp only [Option.map_eq_some_iff, Prod.mk.injEq] at he
      obtain ⟨b1, h1, _, rfl⟩ := he
      exact (hbind h1).trans ih
  | redefine o t _ _ _ _ _ _ _ _ he ih => exact (hbind he).trans ih

end CoolDiff
