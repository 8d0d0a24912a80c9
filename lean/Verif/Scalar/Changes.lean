import Verif.Scalar.Rounds

/-!
# What changes of definitions and values leave current
-/

set_option linter.unusedSectionVars false

namespace CoolDiff

variable {K : Type} [Field K] [DecidableEq K] {P : Prim K}

/-- `D` and `D'` agree on everything `y` depends on. -/
structure SameBelow (D D' : Defs K) (y : ℕ) : Prop where
  items : ∀ q, Reach D y q → D'.items q = D.items q
  base : ∀ q, Reach D y q → D'.base q = D.base q
  par : ∀ q, Reach D y q → ∀ i ∈ D.items q, ∀ p ∈ i.pars, D'.par p = D.par p
  nidx : ∀ q, Reach D y q → D'.nidx q = D.nidx q
  pnidx : ∀ q, Reach D y q → ∀ i ∈ D.items q, ∀ p ∈ i.pars, D'.pnidx p = D.pnidx p

section
variable {D D' : Defs K} {y : ℕ}

theorem SameBelow.reach (h : SameBelow D D' y) {q : ℕ} : Reach D' y q ↔ Reach D y q := by
  constructor
  · intro hq
    induction hq with
    | refl => exact .refl
    | step _ hi hp ih => exact ih.step (by rw [← h.items _ ih]; exact hi) hp
  · intro hq
    induction hq with
    | refl => exact .refl
    | step hr hi hp ih => exact ih.step (by rw [h.items _ hr]; exact hi) hp

theorem SameBelow.down (h : SameBelow D D' y) {q : ℕ} (hq : Reach D y q) : SameBelow D D' q :=
  ⟨fun p hp => h.items p (hq.trans hp), fun p hp => h.base p (hq.trans hp), fun p hp => h.par p (hq.trans hp),
    fun p hp => h.nidx p (hq.trans hp), fun p hp => h.pnidx p (hq.trans hp)⟩

theorem SameBelow.symm (h : SameBelow D D' y) : SameBelow D' D y := by
  refine ⟨fun q hq => ?_, fun q hq => ?_, fun q hq i hi p hp => ?_, fun q hq => ?_, fun q hq i hi p hp => ?_⟩ <;>
    have hq' := h.reach.1 hq
  · exact (h.items q hq').symm
  · exact (h.base q hq').symm
  · exact (h.par q hq' i (by rwa [h.items q hq'] at hi) p hp).symm
  · exact (h.nidx q hq').symm
  · exact (h.pnidx q hq' i (by rwa [h.items q hq'] at hi) p hp).symm

theorem Node.val_par {π π' ρ : ℕ → K} (t : Node K) (h : ∀ p ∈ t.pars, π p = π' p) :
    t.val P π ρ = t.val P π' ρ := by
  induction t with
  | leaf o => rfl
  | par p => exact h p (by simp [Node.pars])
  | op1 n f a ih => simp only [Node.val]; rw [ih h]
  | op2 n f a b iha ihb =>
      simp only [Node.val]
      rw [iha fun p hp => h p (by simp [Node.pars, hp]), ihb fun p hp => h p (by simp [Node.pars, hp])]

theorem Node.der_par {π π' ρ δ : ℕ → K} (t : Node K) (h : ∀ p ∈ t.pars, π p = π' p) :
    t.der P π ρ δ = t.der P π' ρ δ := by
  induction t with
  | leaf o => rfl
  | par p => rfl
  | op1 n f a ih => simp only [Node.der]; rw [ih h, a.val_par h]
  | op2 n f a b iha ihb =>
      have ha : ∀ p ∈ a.pars, π p = π' p := fun p hp => h p (by simp [Node.pars, hp])
      have hb : ∀ p ∈ b.pars, π p = π' p := fun p hp => h p (by simp [Node.pars, hp])
      simp only [Node.der]
      rw [iha ha, ihb hb, a.val_par ha, b.val_par hb]

theorem seqVal_par {π π' ρ : ℕ → K} (o : ℕ) (is : List (Node K)) :
    ∀ v, (∀ i ∈ is, ∀ p ∈ i.pars, π p = π' p) → seqVal P π ρ o is v = seqVal P π' ρ o is v := by
  induction is with
  | nil => intro v _; rfl
  | cons i is ih =>
      intro v h
      simp only [seqVal]
      rw [i.val_par (h i (by simp)), ih _ fun j hj => h j (by simp [hj])]

theorem seqDer_par {π π' ρ δ : ℕ → K} (o : ℕ) (is : List (Node K)) :
    ∀ v d, (∀ i ∈ is, ∀ p ∈ i.pars, π p = π' p) → seqDer P π ρ δ o is v d = seqDer P π' ρ δ o is v d := by
  induction is with
  | nil => intro v d _; rfl
  | cons i is ih =>
      intro v d h
      simp only [seqDer]
      rw [i.val_par (h i (by simp)), i.der_par (h i (by simp)), ih _ _ fun j hj => h j (by simp [hj])]

theorem SameBelow.solves (h : SameBelow D D' y) {ρ : ℕ → K} (hs : Solves P D y ρ) : Solves P D' y ρ := by
  intro q hq
  have hq := h.reach.1 hq
  rw [hs q hq, h.items q hq, h.base q hq]
  exact seqVal_par _ _ _ fun i hi p hp => (h.par q hq i hi p hp).symm

theorem SameBelow.tangent (h : SameBelow D D' y) {x : ℕ} {ρ δ : ℕ → K} (hs : Tangent P D y x ρ δ) :
    Tangent P D' y x ρ δ := by
  intro q hq
  have hq := h.reach.1 hq
  rw [hs q hq, h.items q hq, h.base q hq]
  split
  · rfl
  · exact seqDer_par _ _ _ _ fun i hi p hp => (h.par q hq i hi p hp).symm

theorem SameBelow.value (h : SameBelow D D' y) {v : K} (hv : ValueOf P D y v) : ValueOf P D' y v := by
  obtain ⟨ρ, h1, rfl⟩ := hv
  exact ⟨ρ, h.solves h1, rfl⟩

theorem SameBelow.deriv (h : SameBelow D D' y) {x : ℕ} {v : K} (hv : DerivOf P D y x v) :
    DerivOf P D' y x v := by
  obtain ⟨ρ, δ, h1, h2, rfl⟩ := hv
  exact ⟨ρ, δ, h.solves h1, h.tangent h2, rfl⟩

theorem SameBelow.key (h : SameBelow D D' y) {x kx : ℕ} (hk : KeyHyp D' {p | Reach D' y p} x kx) :
    KeyHyp D {p | Reach D y p} x kx := by
  refine ⟨fun q hq => ?_, fun q hq i hi => ?_, fun p hp => ?_, fun q hq => ?_, fun hx i hi => ?_⟩
  · rw [← h.nidx q hq]; exact hk.inj q (h.reach.2 hq)
  · exact hk.op q (h.reach.2 hq) i (by rw [h.items q hq]; exact hi)
  · obtain ⟨q, hq, i, hi, hp⟩ := hp
    rw [← h.pnidx q hq i hi p hp]
    exact hk.par p ⟨q, h.reach.2 hq, i, by rw [h.items q hq]; exact hi, hp⟩
  · rw [← h.items q hq]; exact hk.bare q (h.reach.2 hq)
  · exact hk.notself (h.reach.2 hx) i (by rw [h.items x hx]; exact hi)

theorem SameBelow.involves (h : SameBelow D D' y) {n : ℕ} (hn : Involves D y n) : Involves D' y n := by
  obtain ⟨r, hr, hn⟩ := hn
  refine ⟨r, h.reach.2 hr, ?_⟩
  rcases hn with hn | ⟨i, hi, hn⟩
  · left; rw [h.nidx r hr]; exact hn
  · right
    refine ⟨i, by rw [h.items r hr]; exact hi, ?_⟩
    rcases hn with hn | ⟨p, hp, hn⟩
    · exact Or.inl hn
    · exact Or.inr ⟨p, hp, by rw [h.pnidx r hr i hi p hp]; exact hn⟩

end

/-- Kinds of results that only depend on what is below the object. -/
def Local (Good : Defs K → Mem K → ℕ → Prop) : Prop :=
  ∀ D D' m m' q, SameBelow D D' q → m'.value q = m.value q → m'.dvalue q = m.dvalue q →
    m'.cache q = m.cache q → Good D m q → Good D' m' q

theorem goodV_local : Local (GoodV P) := by
  intro D D' m m' q h hv _ _ hg
  unfold GoodV; rw [hv]; exact h.value hg

theorem goodF_local (x : ℕ) : Local (GoodF P x) := by
  intro D D' m m' q h hv hd _ hg
  unfold GoodF; rw [hv, hd]; exact ⟨h.value hg.1, fun hx => h.deriv (hg.2 hx)⟩

theorem goodR_local : Local (GoodR P) := by
  intro D D' m m' q h hv _ hc hg
  unfold GoodR; rw [hv, hc]
  exact ⟨h.value hg.1, fun x kx hk => ⟨fun hx => h.deriv ((hg.2.1 x kx (h.key hk)).1 hx),
    (hg.2.1 x kx (h.key hk)).2⟩, fun n hn => hg.2.2 n fun hi => hn (h.involves hi)⟩

theorem Cur.of_same {Good : Defs K → Mem K → ℕ → Prop} (hG : Local Good) {σ σ' : St K} {q : ℕ}
    (h : Cur Good σ q) (hs : SameBelow σ.defs σ'.defs q)
    (hv : ∀ p, Reach σ.defs q p → σ.defs.items p ≠ [] → σ'.mem.visited p = σ.mem.visited p ∧
      σ'.mem.value p = σ.mem.value p ∧
      σ'.mem.dvalue p = σ.mem.dvalue p ∧ σ'.mem.cache p = σ.mem.cache p) : Cur Good σ' q := by
  intro p hp he
  have hp' := hs.reach.1 hp
  rw [hs.items p hp'] at he
  obtain ⟨a, b, c, d⟩ := hv p hp' he
  exact ⟨by rw [a]; exact (h p hp' he).1, hG _ _ _ _ p (hs.down hp') b c d (h p hp' he).2⟩

section
variable {Good : Defs K → Mem K → ℕ → Prop} (hG : Local Good) {σ : St K} (hw : σ.WF) {q : ℕ}
  (hq : q < σ.defs.size) (h : Cur Good σ q)
include hG hw hq h

/-- A new Variable. -/
theorem Cur.newVar (v : K) : Cur Good (newVar v σ).2 q := by
  have hlt : ∀ p, Reach σ.defs q p → p ≠ σ.defs.size := fun p hp =>
    (Reach.lt hw.defs.closed hq hp).ne
  refine h.of_same hG ⟨fun p hp => ?_, fun p hp => ?_, fun p hp i hi r hr => ?_, fun p hp => ?_,
    fun p hp i hi r hr => ?_⟩ fun p hp _ => ?_ <;> simp [CoolDiff.newVar, hlt p hp]

/-- A new Parameter. -/
theorem Cur.newPar (v : K) : Cur Good (newPar v σ).2 q := by
  have hlt : ∀ p, Reach σ.defs q p → ∀ i ∈ σ.defs.items p, ∀ r ∈ i.pars, r ≠ σ.defs.psize := fun p hp i hi r hr =>
    (hw.defs.parsOK p (Reach.lt hw.defs.closed hq hp) i hi r hr).ne
  refine h.of_same hG ⟨fun p hp => ?_, fun p hp => ?_, fun p hp i hi r hr => ?_, fun p hp => ?_,
    fun p hp i hi r hr => ?_⟩ fun p hp _ => ?_ <;> simp [CoolDiff.newPar]
  · simp [hlt p hp i hi r hr]
  · simp [hlt p hp i hi r hr]

/-- A new Expression. -/
theorem Cur.newExpr : Cur Good (newExpr σ).2 q := by
  have hlt : ∀ p, Reach σ.defs q p → p ≠ σ.defs.size := fun p hp =>
    (Reach.lt hw.defs.closed hq hp).ne
  refine h.of_same hG ⟨fun p hp => ?_, fun p hp => ?_, fun p hp i hi r hr => ?_, fun p hp => ?_,
    fun p hp i hi r hr => ?_⟩ fun p hp _ => ?_ <;> simp [CoolDiff.newExpr, hlt p hp]

omit hw hq in
/-- Assigning a number to something `q` does not depend on. -/
theorem Cur.assignNum {x : ℕ} (hx : ¬ Reach σ.defs q x) (v : K) : Cur Good (assignNum x v σ) q := by
  have hlt : ∀ p, Reach σ.defs q p → p ≠ x := fun p hp e => hx (e ▸ hp)
  refine h.of_same hG ⟨fun p hp => ?_, fun p hp => ?_, fun p hp i hi r hr => ?_, fun p hp => ?_,
    fun p hp i hi r hr => ?_⟩ fun p hp _ => ?_ <;> simp [CoolDiff.assignNum, hlt p hp]

omit hw hq in
/-- Assigning a number to a Parameter `q` does not depend on. -/
theorem Cur.assignPar {x : ℕ} (hx : ¬ ParIn σ.defs {p | Reach σ.defs q p} x) (v : K) :
    Cur Good (assignPar x v σ) q := by
  have hlt : ∀ p, Reach σ.defs q p → ∀ i ∈ σ.defs.items p, ∀ r ∈ i.pars, r ≠ x := fun p hp i hi r hr e =>
    hx ⟨p, hp, i, hi, e ▸ hr⟩
  refine h.of_same hG ⟨fun p hp => ?_, fun p hp => ?_, fun p hp i hi r hr => ?_, fun p hp => ?_,
    fun p hp i hi r hr => ?_⟩ fun p hp _ => ?_ <;> simp [CoolDiff.assignPar]
  simp [hlt p hp i hi r hr]

omit hw hq in
/-- Redefining something `q` does not depend on. -/
theorem Cur.define {y : ℕ} (hy : ¬ Reach σ.defs q y) (e : Exp K) : Cur Good (define y e σ) q := by
  have hlt : ∀ p, Reach σ.defs q p → p ≠ y := fun p hp e => hy (e ▸ hp)
  refine h.of_same hG ⟨fun p hp => ?_, fun p hp => ?_, fun p hp i hi r hr => ?_, fun p hp => ?_,
    fun p hp i hi r hr => ?_⟩ fun p hp _ => ?_ <;> simp [CoolDiff.define, assignExp, hlt p hp]

omit hw hq in
/-- Making something `q` does not depend on a reference. -/
theorem Cur.assignRef {y : ℕ} (hy : ¬ Reach σ.defs q y) (z : ℕ) : Cur Good (assignRef y z σ) q := by
  have hlt : ∀ p, Reach σ.defs q p → p ≠ y := fun p hp e => hy (e ▸ hp)
  refine h.of_same hG ⟨fun p hp => ?_, fun p hp => ?_, fun p hp i hi r hr => ?_, fun p hp => ?_,
    fun p hp i hi r hr => ?_⟩ fun p hp _ => ?_ <;> simp [CoolDiff.assignRef, hlt p hp]

end

/-- A query leaves alone what it has no Expression in common with. -/
theorem Cur.apart {Good : Defs K → Mem K → ℕ → Prop} (hG : Local Good) {σ σ' : St K} {q y : ℕ}
    (h : Cur Good σ q) {ρ : ℕ → K} (st : Stored y ρ σ σ')
    (hd : ∀ p, ¬ Reach σ.defs y p → σ'.mem.dvalue p = σ.mem.dvalue p)
    (hc : ∀ p, ¬ Reach σ.defs y p → σ'.mem.cache p = σ.mem.cache p)
    (ha : ∀ p, Reach σ.defs q p → σ.defs.items p ≠ [] → ¬ Reach σ.defs y p) : Cur Good σ' q := by
  refine h.of_same hG (by rw [st.defs]; exact ⟨fun _ _ => rfl, fun _ _ => rfl, fun _ _ _ _ _ _ => rfl,
    fun _ _ => rfl, fun _ _ _ _ _ _ => rfl⟩) fun p hp he => ?_
  have hn := ha p hp he
  have hl : ¬ σ.looks y p := fun hl => hn (Uses.reach hl)
  refine ⟨?_, st.valOut p hl, hd p hn, hc p hn⟩
  rw [Bool.eq_iff_iff, st.vis p]
  simp [hl]

end CoolDiff
