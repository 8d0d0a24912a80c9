import Verif.Scalar.SymReset

/-!
# Queries and `SymDiff` on the heap with temporaries
-/

set_option linter.unusedSectionVars false

namespace CoolDiff

variable {K : Type} [Field K] [DecidableEq K]
variable (P : Prim K)

/-! ## After the reset -/

section
variable {D : Defs K} {y : ℕ} {m : Mem K}

/-- The objects `y` depends on are unvisited Expressions or Variables holding their number. -/
structure Clean (D : Defs K) (y : ℕ) (m : Mem K) : Prop where
  clean : ∀ q, Reach D y q → D.items q ≠ [] → m.visited q = false
  plain : ∀ q < D.size, D.items q = [] →
    m.value q = D.base q ∧ m.dvalue q = 0 ∧ m.cache q = fun _ => 0

theorem evalO_clean (hD : D.WF) (hy : y < D.size) (hwd : WellDefined D y) (hc : Clean D y m)
    {ρ : ℕ → K} (hρ : Solves P D y ρ) :
    ∃ m', evalO P D D.fuel y m = some (ρ y, m') ∧ (∀ q, Reach D y q → m'.visited q = true) ∧
      (∀ q < D.size, D.items q = [] →
        m'.value q = D.base q ∧ m'.dvalue q = 0 ∧ m'.cache q = fun _ => 0) ∧
      (∀ q, ¬ Reach D y q → m'.visited q = m.visited q) := by
  obtain ⟨rank, hR⟩ := hwd.ranked
  obtain ⟨v, m', hev, -⟩ := evalO_total P D hD.closed D.fuel y m hy
    ((unv_le _ _).trans_lt (by simp [Defs.fuel]))
  have inv : EInv P D {q | Reach D y q} rank ρ (rank y + 1) m := by
    refine ⟨fun q hq _ hv => ?_, fun q hq _ _ => ⟨hR.at hq, hρ q hq⟩⟩
    by_cases he : D.items q = []
    · rw [(hc.plain q (Reach.lt hD.closed hy hq) he).1, hρ q hq, he]; rfl
    · rw [hc.clean q hq he] at hv; simp at hv
  obtain ⟨rfl, inv', fr, hv', hn⟩ := evalO_spec P D {q | Reach D y q} rank ρ
    D.fuel (rank y + 1) y Reach.refl (by omega) m v m' inv hev
  have hall := visited_all hv' hc.clean hn
  have hd : m'.dvalue = m.dvalue := evalO_keep P D (fun m => m.dvalue) (fun _ _ _ => rfl)
    (fun _ _ _ => rfl) _ _ _ _ _ hev
  have hca : m'.cache = m.cache := evalO_keep P D (fun m => m.cache) (fun _ _ _ => rfl)
    (fun _ _ _ => rfl) _ _ _ _ _ hev
  refine ⟨m', hev, hall, fun q hq he => ?_, fun q hq => fr.vis q (Or.inl hq)⟩
  have hpl := hc.plain q hq he
  refine ⟨?_, by rw [hd]; exact hpl.2.1, by rw [hca]; exact hpl.2.2⟩
  by_cases hr : Reach D y q
  · by_cases hlt : rank q < rank y + 1
    · rw [inv'.vis q hr hlt (hall q hr), hρ q hr, he]; rfl
    · rw [fr.val q (Or.inr (not_lt.1 hlt))]; exact hpl.1
  · rw [fr.val q (Or.inl hr)]; exact hpl.1

theorem fwdO_clean (hD : D.WF) {x : ℕ} (hy : y < D.size) (hx : x < D.size) (hwd : WellDefined D y)
    (hc : Clean D y m) {ρ δ : ℕ → K} (hρ : Solves P D y ρ) (hδ : Tangent P D y x ρ δ) :
    ∃ m', fwdO P D (D.nidx x) D.fuel y m = some (δ y, m') ∧
      (∀ q, Reach D y q → m'.visited q = true) ∧
      (∀ q < D.size, D.items q = [] →
        m'.value q = D.base q ∧ m'.dvalue q = 0 ∧ m'.cache q = fun _ => 0) ∧
      (∀ q, ¬ Reach D y q → m'.visited q = m.visited q) := by
  obtain ⟨rank, hR⟩ := hwd.ranked
  obtain ⟨v, m', hev, -⟩ := fwdO_total P D hD.closed (D.nidx x) D.fuel y m hy
    ((unv_le _ _).trans_lt (by simp [Defs.fuel]))
  have hk : ∀ q, Reach D y q → (D.nidx q = D.nidx x ↔ q = x) := fun q hq =>
    ⟨fun h => hD.inj q (Reach.lt hD.closed hy hq) x hx h, fun h => by rw [h]⟩
  have hlt := fun q (hq : Reach D y q) => Reach.lt hD.closed hy hq
  obtain ⟨rfl, inv', fr, hv', hn⟩ := fwdO_spec P D {q | Reach D y q} rank ρ δ x hk
    (fun h => by rw [hδ x h, if_pos rfl]) D.fuel (rank y + 1) y Reach.refl (by omega) m v m' (by
      refine ⟨fun q hq _ hv => ?_, fun q hq _ he => ?_, fun q hq _ _ => ⟨hR.at hq, hρ q hq, fun hqx => by
        rw [hδ q hq, if_neg hqx]⟩⟩
      · by_cases he : D.items q = []
        · have := hc.plain q (hlt q hq) he
          refine ⟨by rw [this.1, hρ q hq, he]; rfl, fun hqx => ?_⟩
          rw [this.2.1, hδ q hq, if_neg hqx, he]; rfl
        · rw [hc.clean q hq he] at hv; simp at hv
      · have := hc.plain q (hlt q hq) he
        exact ⟨this.1, this.2.1⟩) hev
  have hall := visited_all hv' hc.clean hn
  have hca : m'.cache = m.cache := fwdO_keep P D (fun m => m.cache) (fun _ _ _ => rfl)
    (fun _ _ _ => rfl) (fun _ _ _ => rfl) _ _ _ _ _ _ hev
  refine ⟨m', hev, hall, fun q hq he => ?_, fun q hq => fr.vis q (Or.inl hq)⟩
  have h0 := hc.plain q hq he
  have : m'.value q = D.base q ∧ m'.dvalue q = 0 := by
    by_cases hr : Reach D y q
    · by_cases hlt : rank q < rank y + 1
      · exact inv'.plain q hr hlt he
      · rw [fr.val q (Or.inr (not_lt.1 hlt)), fr.dval q (Or.inr (not_lt.1 hlt))]
        exact ⟨h0.1, h0.2.1⟩
    · rw [fr.val q (Or.inl hr), fr.dval q (Or.inl hr)]; exact ⟨h0.1, h0.2.1⟩
  exact ⟨this.1, this.2, by rw [hca]; exact h0.2.2⟩

theorem revO_clean (hD : D.WF) {x kx : ℕ} (hy : y < D.size) (hwd : WellDefined D y)
    (hc : Clean D y m) (hkey : KeyHyp D {q | Reach D y q} x kx)
    {ρ δ : ℕ → K} (hρ : Solves P D y ρ) (hδ : Tangent P D y x ρ δ) :
    ∃ m', revO P D D.fuel y m = some m' ∧ (∀ q, Reach D y q → m'.visited q = true) ∧
      (∀ q < D.size, D.items q = [] →
        m'.value q = D.base q ∧ m'.dvalue q = 0 ∧ m'.cache q = fun _ => 0) ∧
      (m'.cache y kx = if y = x then 0 else δ y) ∧
      (∀ q, ¬ Reach D y q → m'.visited q = m.visited q) := by
  obtain ⟨rank, hR⟩ := hwd.ranked
  obtain ⟨m', hev, -⟩ := revO_total P D hD.closed D.fuel y m hy
    ((unv_le _ _).trans_lt (by simp [Defs.fuel]))
  have hlt : ∀ q ∈ {q | Reach D y q}, q < D.size := fun q hq => Reach.lt hD.closed hy hq
  obtain ⟨inv', fr, hv', hn⟩ := revO_spec P D {q | Reach D y q} rank ρ δ x kx
    (Involves D) (fun _ => True)
    (fun q hq _ => hkey.at _ hq (fun i hi p hp => (hR.closed q hq i hi p hp).1) fun _ _ _ _ => trivial) (fun h => by rw [hδ x h, if_pos rfl])
    (fun h i hi p hp hpx => by
      obtain ⟨hpS, hl⟩ := hR.closed x h i hi p hp
      exact tangent_below P D {q | Reach D y q} rank ρ δ x hR hδ _ p hpS le_rfl hpx (hl.resolve_left hpx).le)
    D.fuel (rank y + 1) y Reach.refl (by omega) m m' (by
      constructor
      · intro q hq _ hv
        by_cases he : D.items q = []
        · rw [(hc.plain q (hlt q hq) he).1, hρ q hq, he]; rfl
        · rw [hc.clean q hq he] at hv; simp at hv
      · intro q hq _ hv _
        by_cases he : D.items q = []
        · rw [(hc.plain q (hlt q hq) he).2.2]
          by_cases hqx : q = x
          · simp [hqx]
          · rw [if_neg hqx, hδ q hq, if_neg hqx, he]; rfl
        · rw [hc.clean q hq he] at hv; simp at hv
      · intro q hq _ hv n _
        by_cases he : D.items q = []
        · rw [(hc.plain q (hlt q hq) he).2.2]
        · rw [hc.clean q hq he] at hv; simp at hv
      · intro q hq _ he
        have := hc.plain q (hlt q hq) he
        exact ⟨this.1, this.2.2⟩
      · intro q hq _ _
        exact ⟨⟨hR.at hq, (hD.ids hlt).at hR hq⟩, hρ q hq, fun hqx => by rw [hδ q hq, if_neg hqx]⟩) hev
  have hall := visited_all hv' hc.clean hn
  have hd : m'.dvalue = m.dvalue := revO_keep P D (fun m => m.dvalue) (fun _ _ _ => rfl)
    (fun _ _ _ => rfl) (fun _ _ _ => rfl) _ _ _ _ hev
  refine ⟨m', hev, hall, fun q hq he => ?_, inv'.key y Reach.refl (by omega) hv' trivial,
    fun q hq => fr.vis q (Or.inl hq)⟩
  have h0 := hc.plain q hq he
  have : m'.value q = D.base q ∧ m'.cache q = fun _ => 0 := by
    by_cases hr : Reach D y q
    · by_cases hlt : rank q < rank y + 1
      · exact inv'.plain q hr hlt he
      · rw [fr.val q (Or.inr (not_lt.1 hlt)), fr.cache q (Or.inr (not_lt.1 hlt))]
        exact ⟨h0.1, h0.2.2⟩
    · rw [fr.val q (Or.inl hr), fr.cache q (Or.inl hr)]; exact ⟨h0.1, h0.2.2⟩
  exact ⟨this.1, by rw [hd]; exact h0.2.1, this.2⟩

theorem revKey (hD : D.WF) {x : ℕ} (hy : y < D.size) (hx : x < D.size) (hrev : RevOK D y x) :
    KeyHyp D {q | Reach D y q} x (D.nidx x) := by
  have hlt : ∀ q ∈ {q | Reach D y q}, q < D.size := fun q hq => Reach.lt hD.closed hy hq
  refine ⟨fun q hq => ⟨fun h => hD.inj q (hlt q hq) x hx h, fun h => by rw [h]⟩,
    fun q hq i hi => hD.leaf x hx q (hlt q hq) i hi, ?_, hrev.2, fun _ => hrev.1⟩
  rintro p ⟨q, hq, i, hi, hp⟩
  exact hD.parleaf p (hD.parsOK q (hlt q hq) i hi p hp) x hx

/-- A number that belongs to nothing below `y`. -/
theorem freshKey (hD : D.WF) (hy : y < D.size) : KeyHyp D {q | Reach D y q} D.size D.next := by
  have hlt : ∀ q ∈ {q | Reach D y q}, q < D.size := fun q hq => Reach.lt hD.closed hy hq
  refine ⟨fun q hq => ⟨fun h => ?_, fun h => ?_⟩, fun q hq i hi h => ?_, ?_, fun q hq h => ?_,
    fun h => ?_⟩
  · have := hD.nidx_lt q (hlt q hq); omega
  · have := hlt q hq; omega
  · have := hD.op_lt q (hlt q hq) i hi _ h; omega
  · rintro p ⟨q, hq, i, hi, hp⟩
    have := hD.pnidx_lt p (hD.parsOK q (hlt q hq) i hi p hp); omega
  · have := hD.closed q (hlt q hq) _ h D.size (by simp [Node.leaves]); omega
  · have := hlt _ h; omega

end

/-! ## The invariant between API calls -/

variable (H : ℕ → Prop)

/-- The invariant between API calls: nothing is under construction. -/
def Full (g : GS K) : Prop := ∀ r, Good P H g r

variable {P H}

theorem Full.good {g : GS K} (h : Full P H g) : Good P H g 0 := h 0

theorem Good.full {g : GS K} {r : ℚ} (h : Good P H g r) (hr : ∀ q < g.D.size, g.ord q < r) :
    Full P H g := fun _ => ⟨h.d, ⟨h.t.tmp, fun q v hv _ => h.t.tmpVal q v hv
      (hr q (h.d.lt q (h.t.tmp q v hv).1)), h.t.dtmp, h.t.dtmpVal, h.t.otmpAt, h.t.odtmpAt, h.t.otmp,
      h.t.odtmp⟩, h.plain⟩

/-- Replace the memory. -/
def GS.withMem (g : GS K) (m : Mem K) : GS K := { g with s := { g.s with st := ⟨g.s.st.defs, m⟩ } }

theorem Full.withMem {g : GS K} (h : Full P H g) {m : Mem K} (hp : PlainOk ⟨g.s.st.defs, m⟩) :
    Full P H (g.withMem m) := fun r =>
  ⟨⟨h.good.d.wf, h.good.d.user, h.good.d.zero, h.good.d.one, h.good.d.lt, h.good.d.closed, h.good.d.edge,
    h.good.d.first, h.good.d.low, h.good.d.bare⟩,
    ⟨(h r).t.tmp, (h r).t.tmpVal, (h r).t.dtmp, (h r).t.dtmpVal, (h r).t.otmpAt, (h r).t.odtmpAt,
      (h r).t.otmp, (h r).t.odtmp⟩, hp⟩

theorem Full.wellDefined {g : GS K} (h : Full P H g) {y : ℕ} (hy : y < g.D.size) :
    WellDefined g.D y := by
  have hd := h.good.d
  have hl := fun q (hq : Reach g.D y q) => Reach.lt hd.wf.closed hy hq
  refine ⟨⟨g.rk, fun q hq i hi p hp => ?_⟩, fun q hq i is he => hd.first q (hl q hq) i is he⟩
  exact h.good.descends.edge q (hl q hq) i hi p hp

/-- A value for every object. -/
theorem Full.exists_sol {g : GS K} (h : Full P H g) :
    ∃ ρ : ℕ → K, ∀ q < g.D.size, ρ q = seqVal P g.D.par ρ q (g.D.items q) (g.D.base q) := by
  have hd := h.good.descends
  exact exists_fixpoint (fun ρ q => seqVal P g.D.par ρ q (g.D.items q) (g.D.base q))
    {q | q < g.D.size} g.rk (fun _ => 0) fun q hq f f' hff => by
      apply seqVal_congr
      intro i hi p hp hpq
      rcases hd.edge q hq i hi p hp with e | e
      · exact absurd e hpq
      · exact hff p (hd.closed q hq i hi p hp) e

/-- A derivative for every object. -/
theorem Full.exists_tan {g : GS K} (h : Full P H g) (x : ℕ) (ρ : ℕ → K) :
    ∃ δ : ℕ → K, ∀ q < g.D.size,
      δ q = if q = x then 1 else seqDer P g.D.par ρ δ q (g.D.items q) (g.D.base q) 0 := by
  have hd := h.good.descends
  exact exists_fixpoint
    (fun δ q => if q = x then 1 else seqDer P g.D.par ρ δ q (g.D.items q) (g.D.base q) 0)
    {q | q < g.D.size} g.rk (fun _ => 0) fun q hq f f' hff => by
      split
      · rfl
      · apply seqDer_congr
        intro i hi p hp hpq
        rcases hd.edge q hq i hi p hp with e | e
        · exact absurd e hpq
        · exact ⟨rfl, hff p (hd.closed q hq i hi p hp) e⟩

/-- The reset that starts every call succeeds and cleans up. -/
theorem Full.reset {g : GS K} (h : Full P H g) {y : ℕ} (hy : y < g.D.size)
    (hs : SafeS g.D g.tm (fun q => g.vis q = true) y) :
    ∃ m, resetImplS g.s.st.defs g.s.tm g.s.st.defs.fuelS y g.s.st.mem = some m ∧ Clean g.D y m ∧
      ∀ q, m.visited q = true → g.vis q = true ∧
        ∀ b ∈ itemTargets g.tm (g.D.items y), ¬ Touch g.D g.tm (fun q => g.vis q = true) b q := by
  obtain ⟨m, hm⟩ := resetImplS_total h.good.descends (fun q hq => g.rk_size hq) hy g.s.st.mem
  obtain ⟨h1, -, h3⟩ := resetS_clean g.D g.tm hs h.good.plain hm
  refine ⟨m, hm, ⟨h1, h3⟩, fun q hq => ⟨(resetImplS_spec g.D g.tm _ y g.s.st.mem m hm).2.2.1 q hq,
    fun b hb ht => ?_⟩⟩
  rw [resetImplS_touch hm hb ht] at hq
  simp at hq

theorem Full.evalS {g : GS K} (h : Full P H g) {y : ℕ} (hy : y < g.D.size)
    (hs : SafeS g.D g.tm (fun q => g.vis q = true) y) {ρ : ℕ → K} (hρ : Solves P g.D y ρ) :
    ∃ m, EvalS P y g.s = some (ρ y, (g.withMem m).s) ∧ Full P H (g.withMem m) ∧
      (∀ q, Reach g.D y q → m.visited q = true) ∧
      ∀ q, ¬ Reach g.D y q → m.visited q = true → g.vis q = true ∧
        ∀ b ∈ itemTargets g.tm (g.D.items y), ¬ Touch g.D g.tm (fun q => g.vis q = true) b q := by
  obtain ⟨m, hm, hc, ha⟩ := h.reset hy hs
  obtain ⟨m', h1, h2, h3, h5⟩ := evalO_clean P h.good.d.wf hy (h.wellDefined hy) hc hρ
  have h1 : evalO P g.s.st.defs g.s.st.defs.fuel y m = some (ρ y, m') := h1
  exact ⟨m', by simp only [EvalS, hm, Option.bind_some, h1, Option.map_some]; rfl, h.withMem h3, h2,
    fun q hq hv => ha q (by rw [← h5 q hq]; exact hv)⟩

theorem Full.devalFS {g : GS K} (h : Full P H g) {y x : ℕ} (hy : y < g.D.size) (hx : x < g.D.size)
    (hs : SafeS g.D g.tm (fun q => g.vis q = true) y) {ρ δ : ℕ → K} (hρ : Solves P g.D y ρ)
    (hδ : Tangent P g.D y x ρ δ) :
    ∃ m, DevalFS P y x g.s = some (δ y, (g.withMem m).s) ∧ Full P H (g.withMem m) ∧
      (∀ q, Reach g.D y q → m.visited q = true) ∧
      ∀ q, ¬ Reach g.D y q → m.visited q = true → g.vis q = true ∧
        ∀ b ∈ itemTargets g.tm (g.D.items y), ¬ Touch g.D g.tm (fun q => g.vis q = true) b q := by
  obtain ⟨m, hm, hc, ha⟩ := h.reset hy hs
  obtain ⟨m', h1, h2, h3, h5⟩ := fwdO_clean P h.good.d.wf hy hx (h.wellDefined hy) hc hρ hδ
  have h1 : fwdO P g.s.st.defs (g.s.st.defs.nidx x) g.s.st.defs.fuel y m = some (δ y, m') := h1
  exact ⟨m', by simp only [DevalFS, hm, Option.bind_some, h1, Option.map_some]; rfl, h.withMem h3, h2,
    fun q hq hv => ha q (by rw [← h5 q hq]; exact hv)⟩

theorem Full.preCompS {g : GS K} (h : Full P H g) {y : ℕ} (hy : y < g.D.size)
    (hs : SafeS g.D g.tm (fun q => g.vis q = true) y) :
    ∃ m, PreCompS P y g.s = some (g.withMem m).s ∧ Full P H (g.withMem m) ∧
      (∀ q, Reach g.D y q → m.visited q = true) ∧
      ∀ q, ¬ Reach g.D y q → m.visited q = true → g.vis q = true ∧
        ∀ b ∈ itemTargets g.tm (g.D.items y), ¬ Touch g.D g.tm (fun q => g.vis q = true) b q := by
  obtain ⟨m, hm, hc, ha⟩ := h.reset hy hs
  obtain ⟨ρ, hρ⟩ := (h.wellDefined hy).exists_solves (P := P)
  obtain ⟨δ, hδ⟩ := (h.wellDefined hy).exists_tangent (P := P) g.D.size ρ
  obtain ⟨m', h1, h2, h3, -, h5⟩ := revO_clean P h.good.d.wf hy (h.wellDefined hy) hc
    (freshKey h.good.d.wf hy) hρ hδ
  have h1 : revO P g.s.st.defs g.s.st.defs.fuel y m = some m' := h1
  exact ⟨m', by simp only [PreCompS, hm, Option.bind_some, h1, Option.map_some]; rfl, h.withMem h3, h2,
    fun q hq hv => ha q (by rw [← h5 q hq]; exact hv)⟩

theorem Full.preCompS_key {g : GS K} (h : Full P H g) {y x : ℕ} (hy : y < g.D.size)
    (hx : x < g.D.size) (hs : SafeS g.D g.tm (fun q => g.vis q = true) y) (hrev : RevOK g.D y x)
    {ρ δ : ℕ → K} (hρ : Solves P g.D y ρ) (hδ : Tangent P g.D y x ρ δ) {s : SSt K}
    (he : PreCompS P y g.s = some s) : DevalR y x s.st = if y = x then 0 else δ y := by
  obtain ⟨m, hm, hc, ha⟩ := h.reset hy hs
  obtain ⟨m', h1, h2, h3, h4, -⟩ := revO_clean P h.good.d.wf hy (h.wellDefined hy) hc
    (revKey h.good.d.wf hy hx hrev) hρ hδ
  have h1 : revO P g.s.st.defs g.s.st.defs.fuel y m = some m' := h1
  simp only [PreCompS, hm, Option.bind_some, h1, Option.map_some, Option.some.injEq] at he
  rw [← he]
  exact h4

/-! ## `SymDiff` -/

/-- Let the objects of `B` take part in symbolic differentiation. -/
theorem Full.addT {g : GS K} (h : Full P H g) {B : Set ℕ} (hB : ∀ q ∈ B, q < g.D.size)
    (hc : ∀ q ∈ B, ∀ i ∈ g.D.items q, ∀ p ∈ i.leaves, p ∈ B) :
    Full P H { g with T := g.T ∪ B } := by
  intro r
  obtain ⟨hd, ht, hp⟩ := h r
  have hsol : ∀ π ρ, SolT P H g.D (g.T ∪ B) π ρ → SolT P H g.D g.T π ρ :=
    fun π ρ hs q hq => hs q (Or.inl hq)
  have htan : ∀ x π ρ δ, TanT P x g.D (g.T ∪ B) π ρ δ → TanT P x g.D g.T π ρ δ :=
    fun x π ρ δ hs q hq => hs q (Or.inl hq)
  refine ⟨⟨hd.wf, hd.user, ⟨hd.zero.1, hd.zero.2.1, hd.zero.2.2.1, hd.zero.2.2.2.1,
    Or.inl hd.zero.2.2.2.2⟩, ⟨hd.one.1, hd.one.2.1, hd.one.2.2.1, hd.one.2.2.2.1,
    Or.inl hd.one.2.2.2.2⟩, fun q hq => hq.elim (hd.lt q) (hB q), fun q hq i hi p hp => ?_, hd.edge,
    hd.first, hd.low, hd.bare⟩, ⟨fun q v hv => ?_, fun q v hv hr π ρ hs => ?_, fun q e he => ?_, ht.dtmpVal,
      fun n e he => ?_, fun n k e he => ?_, fun q hq pre t n e ha htop he => ?_,
      fun q hq pre t n k e ha htop he => ?_⟩, hp⟩
  · exact hq.elim (fun hq => Or.inl (hd.closed q hq i hi p hp)) fun hq => Or.inr (hc q hq i hi p hp)
  · obtain ⟨h1, h2⟩ := ht.tmp q v hv
    refine ⟨Or.inl h1, ?_⟩
    cases v with
    | obj o => exact ⟨Or.inl h2.1, h2.2⟩
    | par p => exact h2
  · exact ht.tmpVal q v hv hr π ρ (hsol π ρ hs)
  · obtain ⟨h1, h2, h3⟩ := ht.dtmp q e he
    exact ⟨Or.inl h1, Or.inl h2, h3⟩
  · obtain ⟨q, hq, h1⟩ := ht.otmpAt n e he
    exact ⟨q, Or.inl hq, h1⟩
  · obtain ⟨hx, q, hq, h1⟩ := ht.odtmpAt n k e he
    exact ⟨hx, q, Or.inl hq, h1⟩
  · obtain ⟨q', hq', pre', t', ha', ht'⟩ := ht.otmpAt n e he
    have hql : q < g.D.size := hq.elim (hd.lt q) (hB q)
    obtain ⟨rfl, -, -⟩ := ha'.unique hd.wf (hd.lt q' hq') hql ha ht' htop
    obtain ⟨h1, h2, h3⟩ := ht.otmp q' hq' pre t n e ha htop he
    exact ⟨Or.inl h1, h2, fun π ρ hs => h3 π ρ (hsol π ρ hs)⟩
  · obtain ⟨-, q', hq', pre', t', ha', ht'⟩ := ht.odtmpAt n k e he
    have hql : q < g.D.size := hq.elim (hd.lt q) (hB q)
    obtain ⟨rfl, -, -⟩ := ha'.unique hd.wf (hd.lt q' hq') hql ha ht' htop
    obtain ⟨h1, h2, h3⟩ := ht.odtmp q' hq' pre t n k e ha htop he
    exact ⟨Or.inl h1, h2, fun x hx hk π ρ δ hs hδ => h3 x hx hk π ρ δ (hsol π ρ hs) (htan x π ρ δ hδ)⟩

variable {rf : ℕ → Bool → List Bool → Bool}

/-- `SymDiff` succeeds, keeps the invariant and returns an object whose value is the derivative,
whatever the Variables and Parameters hold. -/
theorem Full.symDiff_clean {g : GS K} (h : Full P H g) {y x : ℕ} (hy : y < g.D.size) (hx : H x)
    (hs : SafeS g.D g.tm (fun q => g.vis q = true) y)
    (hok : ∀ q, Reach g.D y q → ∀ i ∈ g.D.items q, i.SymOk) :
    ∃ d g', CoolDiff.symDiff P rf y x g.s = some (d, GS.s g') ∧ Full P H g' ∧
      DExt ({ g with T := g.T ∪ {q | Reach g.D y q} }.withMem g'.s.st.mem) g' ∧ g.D.size ≤ d ∧ d ∈ g'.T ∧
      (∀ q < g.D.size, g'.vis q = true → g.vis q = true) ∧
      (∀ q, Reach g.D y q → g.D.items q ≠ [] → g'.vis q = false) ∧
      ∀ π ρ δ, SolT P H g'.D g'.T π ρ → TanT P x g'.D g'.T π ρ δ →
        ρ d = δ y ∧ Ob P g'.D π ρ y d := by
  obtain ⟨m, hm, hc, ha⟩ := h.reset hy hs
  have hanti := (resetImplS_spec g.D g.tm _ y g.s.st.mem m hm).2.2.1
  set B : Set ℕ := {q | Reach g.D y q} with hB
  have hBl : ∀ q ∈ B, q < g.D.size := fun q hq => Reach.lt h.good.d.wf.closed hy hq
  have h1 := (h.addT hBl (fun q hq i hi p hp => Reach.step hq hi hp)).withMem (m := m) hc.plain
  set g1 : GS K := GS.withMem { g with T := g.T ∪ B } m with hg1
  obtain ⟨r, hr⟩ := exists_over g.ord g.D.size
  obtain ⟨e, g2, a1, a2, a3, a4, a5, a6⟩ := symDevalO_spec (rf := rf) (B := B) (n0 := g.D.size)
    (x := x) (k := g.D.nidx x) g.D.fuel g1 y r (h1 r)
    ⟨le_refl _, fun p hp => ⟨Or.inr hp, hBl p hp⟩, fun p hp i hi o ho => Reach.step hp hi ho, hok, hx,
      rfl⟩ Reach.refl (hr y hy) (hr _ h.good.d.one.1) (fun q hq hi _ => hc.clean q hq hi)
    ((unv_le _ _).trans_lt (by simp [Defs.fuel]))
  have h0 : g2.ord 0 < r := by
    have := a3.ext.ord 0 h.good.d.zero.1
    rw [this]; exact hr 0 h.good.d.zero.1
  have h1' : g2.ord g2.s.one < r := by
    rw [a3.ext.one, a3.ext.ord _ h1.good.d.one.1]; exact hr _ h.good.d.one.1
  obtain ⟨g3, b1, b2, b3, b4, b5, b6⟩ := a2.mkExpr (.var e)
    (by intro p hp; simp [Exp.leaves] at hp; subst hp; exact ⟨a4, a5⟩) (by simp [Exp.pars]) h0 h1'
  have hst := a3.trans (step_mk b1 b3 b5)
  have hfull : Full P H g3 := b2.full fun q hq => by
    rcases Nat.lt_or_ge q g1.D.size with hq' | hq'
    · rw [hst.ext.ord q hq']; exact hr q hq'
    · exact hst.ordNew q hq' hq
  have hx3 : DExt g1 g3 := hst.ext
  refine ⟨_, g3, ?_, hfull, ?_, ?_, b4, fun q hq hv => ?_, fun q hq hi => ?_, fun π ρ δ hs' hd => ?_⟩
  · have a1 : symDevalO P rf (g.s.st.defs.nidx x) g.s.st.defs.fuel y
        { g.s with st := ⟨g.s.st.defs, m⟩ } = some (e, g2.s) := a1
    simp only [CoolDiff.symDiff, hm, Option.bind_some, a1, Option.map_some, b1]
  · exact ⟨hx3.size, hx3.items, hx3.base, hx3.nidx, hx3.par, hx3.psize, hx3.next, hx3.T, hx3.ord,
      hx3.newops, hx3.one, fun _ _ => rfl, hx3.visNew⟩
  · exact a3.ext.size
  · rw [hx3.vis q hq] at hv; exact hanti q hv
  · rw [hx3.vis q (hBl q hq)]; exact hc.clean q hq hi
  · obtain ⟨x1, x2⟩ := b6 π ρ hs'
    obtain ⟨y1, y2⟩ := a6 π ρ δ (b3.solT a2.d.lt hs') (b3.tanT a2.d.lt hd)
    refine ⟨x1.trans y1, fun C C' hC ha => x2 C' (fun _ => trivial) hC.one fun p hp => ?_⟩
    simp only [Exp.leaves, List.mem_singleton] at hp
    subst hp
    refine y2 C C' hC ((allBelow_congr a2.d.closed (fun p hp => b3.items p (a2.d.lt p hp))
      (fun p hp => Or.inr (b3.base p (a2.d.lt p hp))) ?_).1 ha)
    exact a3.ext.mem (Or.inr Reach.refl)

theorem Full.symDiff {g : GS K} (h : Full P H g) {y x : ℕ} (hy : y < g.D.size) (hx : H x)
    (hs : SafeS g.D g.tm (fun q => g.vis q = true) y)
    (hok : ∀ q, Reach g.D y q → ∀ i ∈ g.D.items q, i.SymOk) :
    ∃ d g', CoolDiff.symDiff P rf y x g.s = some (d, GS.s g') ∧ Full P H g' ∧
      DExt ({ g with T := g.T ∪ {q | Reach g.D y q} }.withMem g'.s.st.mem) g' ∧ g.D.size ≤ d ∧ d ∈ g'.T ∧
      (∀ q < g.D.size, g'.vis q = true → g.vis q = true) ∧
      ∀ π ρ δ, SolT P H g'.D g'.T π ρ → TanT P x g'.D g'.T π ρ δ →
        ρ d = δ y ∧ Ob P g'.D π ρ y d := by
  obtain ⟨d, g', h1, h2, h3, h4, h5, h6, -, h7⟩ := h.symDiff_clean (rf := rf) hy hx hs hok
  exact ⟨d, g', h1, h2, h3, h4, h5, h6, h7⟩

end CoolDiff
