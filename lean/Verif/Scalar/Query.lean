import Verif.Scalar.RevObj
import Verif.Scalar.Termination
import Verif.Scalar.Reset
import Verif.Scalar.Keeps
import Verif.Scalar.Solution

/-!
# Queries on a well-formed heap
-/

set_option linter.unusedSectionVars false

namespace CoolDiff

variable {K : Type} [Field K] [DecidableEq K]

/-- Well-formed definitions: what the constructors and assignments guarantee. -/
structure Defs.WF (D : Defs K) : Prop where
  /-- definitions mention allocated objects and Parameters only -/
  closed : D.Closed
  parsOK : ∀ o < D.size, ∀ i ∈ D.items o, ∀ p ∈ i.pars, p < D.psize
  /-- numbers handed out by the counter are below it, and used once -/
  nidx_lt : ∀ o < D.size, D.nidx o < D.next
  pnidx_lt : ∀ p < D.psize, D.pnidx p < D.next
  op_lt : ∀ o < D.size, ∀ i ∈ D.items o, ∀ n ∈ i.opIds, n < D.next
  inj : ∀ o < D.size, ∀ q < D.size, D.nidx o = D.nidx q → o = q
  nodup : ∀ q < D.size, ∀ i ∈ D.items q, i.opIds.Nodup
  sep : ∀ q < D.size, (D.items q).Pairwise fun i j => ∀ n ∈ i.opIds, n ∉ j.opIds
  sep' : ∀ p < D.size, ∀ q < D.size, p ≠ q → ∀ i ∈ D.items p, ∀ j ∈ D.items q,
    ∀ n ∈ i.opIds, n ∉ j.opIds
  leaf : ∀ p < D.size, ∀ q < D.size, ∀ i ∈ D.items q, D.nidx p ∉ i.opIds
  par : ∀ p < D.psize, ∀ q < D.size, ∀ i ∈ D.items q, D.pnidx p ∉ i.opIds
  parleaf : ∀ p < D.psize, ∀ q < D.size, D.pnidx p ≠ D.nidx q

/-- Well-formed heap: in addition, objects without equations (Variables) hold their number, with
derivative 0 and an empty cache. -/
structure St.WF (σ : St K) : Prop where
  defs : σ.defs.WF
  plain : ∀ q < σ.defs.size, σ.defs.items q = [] →
    σ.mem.value q = σ.defs.base q ∧ σ.mem.dvalue q = 0 ∧ σ.mem.cache q = fun _ => 0

/-- `y` can be queried safely: every Expression below `y` that is not marked visited has no
Expression marked visited directly below it. -/
def Safe (D : Defs K) (visited : ℕ → Prop) (y : ℕ) : Prop :=
  ∀ q, Reach D y q → q ≠ y → ¬ visited q → ∀ i ∈ D.items q, ∀ p ∈ i.leaves,
    D.items p ≠ [] → ¬ visited p

theorem Reach.lt {D : Defs K} (hD : D.Closed) {y : ℕ} (hy : y < D.size) {q : ℕ}
    (h : Reach D y q) : q < D.size := by
  induction h with
  | refl => exact hy
  | step h hi hp ih => exact hD _ ih _ hi _ hp

theorem Defs.WF.ids {D : Defs K} (h : D.WF) {S : Set ℕ} (hS : ∀ q ∈ S, q < D.size) : Ids D S := by
  have hpar : ∀ p, ParIn D S p → p < D.psize := by
    rintro p ⟨q, hq, i, hi, hp⟩; exact h.parsOK q (hS q hq) i hi p hp
  exact ⟨fun q hq => h.nodup q (hS q hq), fun q hq => h.sep q (hS q hq),
    fun p hp q hq => h.sep' p (hS p hp) q (hS q hq),
    fun p hp q hq => h.leaf p (hS p hp) q (hS q hq),
    fun p hp q hq => h.par p (hpar p hp) q (hS q hq)⟩

/-- Queries without side effects visible outside the objects `y` depends on. -/
structure Queried (y : ℕ) (σ σ' : St K) : Prop where
  defs : σ'.defs = σ.defs
  vis : ∀ q, Reach σ.defs y q → σ'.mem.visited q = true
  out : ∀ q, ¬ Reach σ.defs y q → σ'.mem.visited q = σ.mem.visited q ∧
    σ'.mem.value q = σ.mem.value q ∧ σ'.mem.dvalue q = σ.mem.dvalue q ∧
    σ'.mem.cache q = σ.mem.cache q
  plain : ∀ q < σ.defs.size, σ.defs.items q = [] →
    σ'.mem.value q = σ.defs.base q ∧ σ'.mem.dvalue q = 0 ∧ σ'.mem.cache q = fun _ => 0

theorem Queried.wf {y : ℕ} {σ σ' : St K} (h : Queried y σ σ') (hw : σ.WF) : σ'.WF := by
  constructor
  · rw [h.defs]; exact hw.defs
  · rw [h.defs]; exact h.plain

/-- After the reset that starts every query, no Expression below `y` is marked visited. -/
theorem reset_clean {σ : St K} (hw : σ.WF) {y : ℕ} (hy : y < σ.defs.size)
    (hwd : WellDefined σ.defs y) (hs : Safe σ.defs (fun q => σ.mem.visited q = true) y)
    {m : Mem K} (h : resetImpl σ.defs σ.defs.fuel y σ.mem = some m) :
    (∀ q, Reach σ.defs y q → σ.defs.items q ≠ [] → m.visited q = false) ∧ m.visited y = false ∧
    (∀ q < σ.defs.size, σ.defs.items q = [] →
      m.value q = σ.defs.base q ∧ m.dvalue q = 0 ∧ m.cache q = fun _ => 0) ∧
    (∀ q, ¬ Reach σ.defs y q → m.visited q = σ.mem.visited q ∧
      m.value q = σ.mem.value q ∧ m.dvalue q = σ.mem.dvalue q ∧ m.cache q = σ.mem.cache q) := by
  obtain ⟨h1, h2, h3, h4, h5, h6, h7⟩ := resetImpl_spec σ.defs (S := {q | Reach σ.defs y q})
    (fun q hq i hi p hp => Reach.step hq hi hp) _ y Reach.refl _ m h
  refine ⟨?_, h1, ?_, fun q hq => ⟨h5 q hq, h7 q hq⟩⟩
  · intro q hq
    induction hq with
    | refl => intro _; exact h1
    | @step q p i hq hi hp ih =>
        intro hpe
        by_cases hqy : q = y
        · subst hqy; exact h2 i hi p hp
        · have hqe : σ.defs.items q ≠ [] := by
            intro he; rw [he] at hi; simp at hi
          cases hv : σ.mem.visited q with
          | true => exact h4 q hqy hv (ih hqe) i hi p hp
          | false =>
              have := hs q hq hqy (by simp [hv]) i hi p hp hpe
              cases hv' : m.visited p with
              | false => rfl
              | true => exact absurd (h3 p hv') this
  · intro q hq he
    rcases h6 q with h | h
    · have := hw.plain q hq he
      exact ⟨h.1.trans this.1, h.2.1.trans this.2.1, h.2.2.trans this.2.2⟩
    · exact h

theorem visited_all {D : Defs K} {y : ℕ} {m m' : Mem K} (hy : m'.visited y = true)
    (hc : ∀ q, Reach D y q → D.items q ≠ [] → m.visited q = false) (hn : NewClosed D m m') :
    ∀ q, Reach D y q → m'.visited q = true := by
  intro q hq
  induction hq with
  | refl => exact hy
  | @step q p i hq hi hp ih =>
      have hqe : D.items q ≠ [] := by
        intro he; rw [he] at hi; simp at hi
      exact hn q (hc q hq hqe) ih i hi p hp

variable (P : Prim K)

theorem Eval_spec {σ : St K} (hw : σ.WF) {y : ℕ} (hy : y < σ.defs.size)
    (hwd : WellDefined σ.defs y) (hs : Safe σ.defs (fun q => σ.mem.visited q = true) y)
    {ρ : ℕ → K} (hρ : Solves P σ.defs y ρ) :
    ∃ σ', Eval P y σ = some (ρ y, σ') ∧ Queried y σ σ' := by
  obtain ⟨rank, hR⟩ := hwd.ranked
  obtain ⟨m, hm⟩ := resetImpl_total σ.defs hw.defs.closed y hy σ.mem
  obtain ⟨hclean, hyv, hpl, hout⟩ := reset_clean hw hy hwd hs hm
  obtain ⟨v, m', hev, -⟩ := evalO_total P σ.defs hw.defs.closed σ.defs.fuel y m hy
    ((unv_le _ _).trans_lt (by simp [Defs.fuel]))
  have inv : EInv P σ.defs {q | Reach σ.defs y q} rank ρ (rank y + 1) m := by
    refine ⟨fun q hq _ hv => ?_, fun q hq _ _ => ⟨hR.at hq, hρ q hq⟩⟩
    by_cases he : σ.defs.items q = []
    · rw [(hpl q (Reach.lt hw.defs.closed hy hq) he).1, hρ q hq, he]; rfl
    · rw [hclean q hq he] at hv; simp at hv
  obtain ⟨rfl, inv', fr, hv', hn⟩ := evalO_spec P σ.defs {q | Reach σ.defs y q} rank ρ
    σ.defs.fuel (rank y + 1) y Reach.refl (by omega) m v m' inv hev
  have hall := visited_all hv' hclean hn
  have hd : m'.dvalue = m.dvalue := evalO_keep P σ.defs (fun m => m.dvalue) (fun _ _ _ => rfl)
    (fun _ _ _ => rfl) _ _ _ _ _ hev
  have hc : m'.cache = m.cache := evalO_keep P σ.defs (fun m => m.cache) (fun _ _ _ => rfl)
    (fun _ _ _ => rfl) _ _ _ _ _ hev
  refine ⟨⟨σ.defs, m'⟩, by simp [Eval, hm, hev], rfl, hall, fun q hq => ?_, fun q hq he => ?_⟩
  · have h0 := hout q hq
    exact ⟨(fr.vis q (Or.inl hq)).trans h0.1, (fr.val q (Or.inl hq)).trans h0.2.1,
      (fr.dval q (Or.inl hq)).trans h0.2.2.1, (fr.cache q (Or.inl hq)).trans h0.2.2.2⟩
  · refine ⟨?_, by rw [hd]; exact (hpl q hq he).2.1, by rw [hc]; exact (hpl q hq he).2.2⟩
    by_cases hr : Reach σ.defs y q
    · by_cases hlt : rank q < rank y + 1
      · rw [inv'.vis q hr hlt (hall q hr), hρ q hr, he]; rfl
      · rw [fr.val q (Or.inr (not_lt.1 hlt))]; exact (hpl q hq he).1
    · rw [fr.val q (Or.inl hr)]; exact (hpl q hq he).1

theorem DevalF_spec {σ : St K} (hw : σ.WF) {y x : ℕ} (hy : y < σ.defs.size) (hx : x < σ.defs.size)
    (hwd : WellDefined σ.defs y) (hs : Safe σ.defs (fun q => σ.mem.visited q = true) y)
    {ρ δ : ℕ → K} (hρ : Solves P σ.defs y ρ) (hδ : Tangent P σ.defs y x ρ δ) :
    ∃ σ', DevalF P y x σ = some (δ y, σ') ∧ Queried y σ σ' := by
  obtain ⟨rank, hR⟩ := hwd.ranked
  obtain ⟨m, hm⟩ := resetImpl_total σ.defs hw.defs.closed y hy σ.mem
  obtain ⟨hclean, hyv, hpl, hout⟩ := reset_clean hw hy hwd hs hm
  obtain ⟨v, m', hev, -⟩ := fwdO_total P σ.defs hw.defs.closed (σ.defs.nidx x) σ.defs.fuel y m hy
    ((unv_le _ _).trans_lt (by simp [Defs.fuel]))
  have hk : ∀ q, Reach σ.defs y q → (σ.defs.nidx q = σ.defs.nidx x ↔ q = x) := fun q hq =>
    ⟨fun h => hw.defs.inj q (Reach.lt hw.defs.closed hy hq) x hx h, fun h => by rw [h]⟩
  obtain ⟨rfl, inv', fr, hv', hn⟩ := fwdO_spec P σ.defs {q | Reach σ.defs y q} rank ρ δ x hk
    (fun h => by rw [hδ x h, if_pos rfl]) σ.defs.fuel (rank y + 1) y Reach.refl (by omega) m v m' (by
      refine ⟨fun q hq _ hv => ?_, fun q hq _ he => ?_, fun q hq _ _ => ⟨hR.at hq, hρ q hq, fun hqx => by
        rw [hδ q hq, if_neg hqx]⟩⟩
      · by_cases he : σ.defs.items q = []
        · have := hpl q (Reach.lt hw.defs.closed hy hq) he
          refine ⟨by rw [this.1, hρ q hq, he]; rfl, fun hqx => ?_⟩
          rw [this.2.1, hδ q hq, if_neg hqx, he]; rfl
        · rw [hclean q hq he] at hv; simp at hv
      · have := hpl q (Reach.lt hw.defs.closed hy hq) he
        exact ⟨this.1, this.2.1⟩) hev
  have hall := visited_all hv' hclean hn
  have hc : m'.cache = m.cache := fwdO_keep P σ.defs (fun m => m.cache) (fun _ _ _ => rfl)
    (fun _ _ _ => rfl) (fun _ _ _ => rfl) _ _ _ _ _ _ hev
  refine ⟨⟨σ.defs, m'⟩, by simp [DevalF, hm, hev], rfl, hall, fun q hq => ?_, fun q hq he => ?_⟩
  · have h0 := hout q hq
    exact ⟨(fr.vis q (Or.inl hq)).trans h0.1, (fr.val q (Or.inl hq)).trans h0.2.1,
      (fr.dval q (Or.inl hq)).trans h0.2.2.1, (fr.cache q (Or.inl hq)).trans h0.2.2.2⟩
  · have h0 := hpl q hq he
    have : m'.value q = σ.defs.base q ∧ m'.dvalue q = 0 := by
      by_cases hr : Reach σ.defs y q
      · by_cases hlt : rank q < rank y + 1
        · exact inv'.plain q hr hlt he
        · rw [fr.val q (Or.inr (not_lt.1 hlt)), fr.dval q (Or.inr (not_lt.1 hlt))]
          exact ⟨h0.1, h0.2.1⟩
      · rw [fr.val q (Or.inl hr), fr.dval q (Or.inl hr)]; exact ⟨h0.1, h0.2.1⟩
    exact ⟨this.1, this.2, by rw [hc]; exact h0.2.2⟩

/-- The variables of differentiation for which the reverse mode answers: not defined through their
own previous value, and not the whole right-hand side of a definition by bare reference. -/
def RevOK (D : Defs K) (y x : ℕ) : Prop :=
  (∀ i ∈ D.items x, x ∉ i.leaves) ∧ ∀ q, Reach D y q → Node.leaf x ∉ D.items q

/-- Core of the reverse-mode theorem: `kx` is the number under which `x` is looked up. -/
theorem PreComp_core {σ : St K} (hw : σ.WF) {y x kx : ℕ} (hy : y < σ.defs.size)
    (hwd : WellDefined σ.defs y) (hs : Safe σ.defs (fun q => σ.mem.visited q = true) y)
    (hkey : KeyHyp σ.defs {q | Reach σ.defs y q} x kx)
    {ρ δ : ℕ → K} (hρ : Solves P σ.defs y ρ) (hδ : Tangent P σ.defs y x ρ δ) :
    ∃ σ', PreComp P y σ = some σ' ∧ Queried y σ σ' ∧
      σ'.mem.cache y kx = if y = x then 0 else δ y := by
  obtain ⟨rank, hR⟩ := hwd.ranked
  obtain ⟨m, hm⟩ := resetImpl_total σ.defs hw.defs.closed y hy σ.mem
  obtain ⟨hclean, hyv, hpl, hout⟩ := reset_clean hw hy hwd hs hm
  obtain ⟨m', hev, -⟩ := revO_total P σ.defs hw.defs.closed σ.defs.fuel y m hy
    ((unv_le _ _).trans_lt (by simp [Defs.fuel]))
  have hlt : ∀ q ∈ {q | Reach σ.defs y q}, q < σ.defs.size :=
    fun q hq => Reach.lt hw.defs.closed hy hq
  obtain ⟨inv', fr, hv', hn⟩ := revO_spec P σ.defs {q | Reach σ.defs y q} rank ρ δ x kx
    (Involves σ.defs) (fun _ => True)
    (fun q hq _ => hkey.at _ hq (fun i hi p hp => (hR.closed q hq i hi p hp).1) fun _ _ _ _ => trivial) (fun h => by rw [hδ x h, if_pos rfl])
    (fun h i hi p hp hpx => by
      obtain ⟨hpS, hl⟩ := hR.closed x h i hi p hp
      exact tangent_below P σ.defs {q | Reach σ.defs y q} rank ρ δ x hR hδ _ p hpS le_rfl hpx (hl.resolve_left hpx).le)
    σ.defs.fuel (rank y + 1) y Reach.refl (by omega) m m' (by
      constructor
      · intro q hq _ hv
        by_cases he : σ.defs.items q = []
        · rw [(hpl q (hlt q hq) he).1, hρ q hq, he]; rfl
        · rw [hclean q hq he] at hv; simp at hv
      · intro q hq _ hv _
        by_cases he : σ.defs.items q = []
        · rw [(hpl q (hlt q hq) he).2.2]
          by_cases hqx : q = x
          · simp [hqx]
          · rw [if_neg hqx, hδ q hq, if_neg hqx, he]; rfl
        · rw [hclean q hq he] at hv; simp at hv
      · intro q hq _ hv n _
        by_cases he : σ.defs.items q = []
        · rw [(hpl q (hlt q hq) he).2.2]
        · rw [hclean q hq he] at hv; simp at hv
      · intro q hq _ he
        have := hpl q (hlt q hq) he
        exact ⟨this.1, this.2.2⟩
      · intro q hq _ _
        exact ⟨⟨hR.at hq, (hw.defs.ids hlt).at hR hq⟩, hρ q hq, fun hqx => by rw [hδ q hq, if_neg hqx]⟩) hev
  have hall := visited_all hv' hclean hn
  have hd : m'.dvalue = m.dvalue := revO_keep P σ.defs (fun m => m.dvalue) (fun _ _ _ => rfl)
    (fun _ _ _ => rfl) (fun _ _ _ => rfl) _ _ _ _ hev
  refine ⟨⟨σ.defs, m'⟩, by simp [PreComp, hm, hev], ⟨rfl, hall, fun q hq => ?_, fun q hq he => ?_⟩,
    inv'.key y Reach.refl (by omega) hv' trivial⟩
  · have h0 := hout q hq
    exact ⟨(fr.vis q (Or.inl hq)).trans h0.1, (fr.val q (Or.inl hq)).trans h0.2.1,
      (fr.dval q (Or.inl hq)).trans h0.2.2.1, (fr.cache q (Or.inl hq)).trans h0.2.2.2⟩
  · have h0 := hpl q hq he
    have : m'.value q = σ.defs.base q ∧ m'.cache q = fun _ => 0 := by
      by_cases hr : Reach σ.defs y q
      · by_cases hlt : rank q < rank y + 1
        · exact inv'.plain q hr hlt he
        · rw [fr.val q (Or.inr (not_lt.1 hlt)), fr.cache q (Or.inr (not_lt.1 hlt))]
          exact ⟨h0.1, h0.2.2⟩
      · rw [fr.val q (Or.inl hr), fr.cache q (Or.inl hr)]; exact ⟨h0.1, h0.2.2⟩
    exact ⟨this.1, by rw [hd]; exact h0.2.1, this.2⟩

theorem PreComp_spec {σ : St K} (hw : σ.WF) {y x : ℕ} (hy : y < σ.defs.size) (hx : x < σ.defs.size)
    (hwd : WellDefined σ.defs y) (hs : Safe σ.defs (fun q => σ.mem.visited q = true) y)
    (hrev : RevOK σ.defs y x)
    {ρ δ : ℕ → K} (hρ : Solves P σ.defs y ρ) (hδ : Tangent P σ.defs y x ρ δ) :
    ∃ σ', PreComp P y σ = some σ' ∧ Queried y σ σ' ∧
      DevalR y x σ' = if y = x then 0 else δ y := by
  have hlt : ∀ q ∈ {q | Reach σ.defs y q}, q < σ.defs.size :=
    fun q hq => Reach.lt hw.defs.closed hy hq
  have hkey : KeyHyp σ.defs {q | Reach σ.defs y q} x (σ.defs.nidx x) := by
    refine ⟨fun q hq => ⟨fun h => hw.defs.inj q (hlt q hq) x hx h, fun h => by rw [h]⟩,
      fun q hq i hi => hw.defs.leaf x hx q (hlt q hq) i hi, ?_, hrev.2, fun _ => hrev.1⟩
    rintro p ⟨q, hq, i, hi, hp⟩
    exact hw.defs.parleaf p (hw.defs.parsOK q (hlt q hq) i hi p hp) x hx
  obtain ⟨σ', h1, h2, h3⟩ := PreComp_core P hw hy hwd hs hkey hρ hδ
  refine ⟨σ', h1, h2, ?_⟩
  rw [DevalR, h2.defs]; exact h3

/-- `PreComp`, without reference to a variable of differentiation. -/
theorem PreComp_queried {σ : St K} (hw : σ.WF) {y : ℕ} (hy : y < σ.defs.size)
    (hwd : WellDefined σ.defs y) (hs : Safe σ.defs (fun q => σ.mem.visited q = true) y) :
    ∃ σ', PreComp P y σ = some σ' ∧ Queried y σ σ' := by
  obtain ⟨ρ, hρ⟩ := hwd.exists_solves (P := P)
  obtain ⟨δ, hδ⟩ := hwd.exists_tangent (P := P) σ.defs.size ρ
  have hlt : ∀ q ∈ {q | Reach σ.defs y q}, q < σ.defs.size :=
    fun q hq => Reach.lt hw.defs.closed hy hq
  obtain ⟨σ', h1, h2, -⟩ := PreComp_core P (x := σ.defs.size) (kx := σ.defs.next) hw hy hwd hs (by
    refine ⟨fun q hq => ⟨fun h => ?_, fun h => ?_⟩, fun q hq i hi h => ?_, ?_, fun q hq h => ?_,
      fun h => ?_⟩
    · have := hw.defs.nidx_lt q (hlt q hq); omega
    · have := hlt q hq; omega
    · have := hw.defs.op_lt q (hlt q hq) i hi _ h; omega
    · rintro p ⟨q, hq, i, hi, hp⟩
      have := hw.defs.pnidx_lt p (hw.defs.parsOK q (hlt q hq) i hi p hp); omega
    · have := hw.defs.closed q (hlt q hq) _ h σ.defs.size (by simp [Node.leaves]); omega
    · have := hlt _ h; omega) hρ hδ
  exact ⟨σ', h1, h2⟩

end CoolDiff
