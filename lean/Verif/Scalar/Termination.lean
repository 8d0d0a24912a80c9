import Verif.Scalar.Model
import Mathlib.Data.Finset.Card
import Mathlib.Data.Finset.Range
import Mathlib.Data.Finset.Basic
import Mathlib.Order.Interval.Finset.Nat

/-!
# Every query terminates

On any heap whose definitions mention allocated objects only, acyclic or not, the recursion depth of
`eval`, `devalF`, `traverse` and `reset` is bounded by the number of objects.
-/

set_option linter.unusedSectionVars false

namespace CoolDiff

variable {K : Type} [Field K] [DecidableEq K]

/-- Definitions mention allocated objects only. -/
def Defs.Closed (D : Defs K) : Prop :=
  ∀ o < D.size, ∀ i ∈ D.items o, ∀ p ∈ i.leaves, p < D.size

section
variable (N : ℕ)

/-- number of unvisited objects -/
def unv (m : Mem K) : ℕ := ((Finset.range N).filter fun q => m.visited q = false).card
/-- number of visited objects -/
def vis (m : Mem K) : ℕ := ((Finset.range N).filter fun q => m.visited q = true).card

/-- flags only go up -/
def Mono (m m' : Mem K) : Prop := ∀ q, m.visited q = true → m'.visited q = true
/-- flags only go down -/
def Anti (m m' : Mem K) : Prop := ∀ q, m'.visited q = true → m.visited q = true

theorem Mono.unv_le {N : ℕ} {m m' : Mem K} (h : Mono m m') : unv N m' ≤ unv N m := by
  refine Finset.card_le_card fun q hq => ?_
  simp only [Finset.mem_filter] at hq ⊢
  refine ⟨hq.1, ?_⟩
  cases hv : m.visited q with
  | false => rfl
  | true => exact absurd (h q hv) (by simp [hq.2])

theorem Anti.vis_le {N : ℕ} {m m' : Mem K} (h : Anti m m') : vis N m' ≤ vis N m := by
  refine Finset.card_le_card fun q hq => ?_
  simp only [Finset.mem_filter] at hq ⊢
  exact ⟨hq.1, h q hq.2⟩

theorem unv_le (m : Mem K) : unv N m ≤ N := by
  simpa [unv] using
    Finset.card_le_card (Finset.filter_subset (fun q => m.visited q = false) (Finset.range N))

theorem vis_le (m : Mem K) : vis N m ≤ N := by
  simpa [vis] using
    Finset.card_le_card (Finset.filter_subset (fun q => m.visited q = true) (Finset.range N))

theorem unv_lt {N : ℕ} {m m' : Mem K} {o : ℕ} (ho : o < N) (hv : m.visited o = false)
    (hv' : m'.visited o = true) (h : Mono m m') : unv N m' < unv N m := by
  refine Finset.card_lt_card ⟨fun q hq => ?_, fun hs => ?_⟩
  · simp only [Finset.mem_filter] at hq ⊢
    refine ⟨hq.1, ?_⟩
    cases hv : m.visited q with
    | false => rfl
    | true => exact absurd (h q hv) (by simp [hq.2])
  · have := hs (show o ∈ (Finset.range N).filter fun q => m.visited q = false by simp [ho, hv])
    simp [hv'] at this

theorem vis_lt {N : ℕ} {m m' : Mem K} {o : ℕ} (ho : o < N) (hv : m.visited o = true)
    (hv' : m'.visited o = false) (h : Anti m m') : vis N m' < vis N m := by
  refine Finset.card_lt_card ⟨fun q hq => ?_, fun hs => ?_⟩
  · simp only [Finset.mem_filter] at hq ⊢
    exact ⟨hq.1, h q hq.2⟩
  · have := hs (show o ∈ (Finset.range N).filter fun q => m.visited q = true by simp [ho, hv])
    simp [hv'] at this

theorem Mono.refl (m : Mem K) : Mono m m := fun _ h => h
theorem Mono.trans {m m' m'' : Mem K} (h : Mono m m') (h' : Mono m' m'') : Mono m m'' :=
  fun q hq => h' q (h q hq)
theorem Anti.refl (m : Mem K) : Anti m m := fun _ h => h
theorem Anti.trans {m m' m'' : Mem K} (h : Anti m m') (h' : Anti m' m'') : Anti m m'' :=
  fun q hq => h q (h' q hq)

end

section
variable (P : Prim K) (D : Defs K)

/-- A recursive call on an object succeeds when few enough objects are unvisited. -/
def TotE (n : ℕ) (rec : ℕ → Mem K → Option (K × Mem K)) : Prop :=
  ∀ o m, o < D.size → unv D.size m < n → ∃ v m', rec o m = some (v, m') ∧ Mono m m'

def TotT (n : ℕ) (rec : ℕ → Mem K → Option (Mem K)) : Prop :=
  ∀ o m, o < D.size → unv D.size m < n → ∃ m', rec o m = some m' ∧ Mono m m'

def TotR (n : ℕ) (rec : ℕ → Mem K → Option (Mem K)) : Prop :=
  ∀ o m, o < D.size → vis D.size m < n → ∃ m', rec o m = some m' ∧ Anti m m'

variable {n : ℕ} {recE recD : ℕ → Mem K → Option (K × Mem K)} {recT : ℕ → Mem K → Option (Mem K)}

theorem evalN_total (hE : TotE D n recE) (t : Node K) : ∀ m, (∀ p ∈ t.leaves, p < D.size) →
    unv D.size m < n → ∃ v m', evalN P D recE t m = some (v, m') ∧ Mono m m' := by
  induction t with
  | leaf o => intro m hl hm; exact hE o m (hl o (by simp [Node.leaves])) hm
  | par p => intro m hl hm; exact ⟨_, m, rfl, Mono.refl m⟩
  | op1 n f a ih =>
      intro m hl hm
      obtain ⟨u, m1, h1, mo⟩ := ih m hl hm
      exact ⟨_, m1, by simp only [evalN, h1]; rfl, mo⟩
  | op2 n f a b iha ihb =>
      intro m hl hm
      have hla : ∀ p ∈ a.leaves, p < D.size := fun p hp => hl p (by simp [Node.leaves, hp])
      have hlb : ∀ p ∈ b.leaves, p < D.size := fun p hp => hl p (by simp [Node.leaves, hp])
      simp only [evalN]
      split
      · obtain ⟨v, m1, h1, mo1⟩ := ihb m hlb hm
        obtain ⟨u, m2, h2, mo2⟩ := iha m1 hla (mo1.unv_le.trans_lt hm)
        exact ⟨_, m2, by rw [h1]; simp only [Option.bind_eq_bind, Option.bind_some]; rw [h2]; rfl,
          mo1.trans mo2⟩
      · obtain ⟨v, m1, h1, mo1⟩ := iha m hla hm
        obtain ⟨u, m2, h2, mo2⟩ := ihb m1 hlb (mo1.unv_le.trans_lt hm)
        exact ⟨_, m2, by rw [h1]; simp only [Option.bind_eq_bind, Option.bind_some]; rw [h2]; rfl,
          mo1.trans mo2⟩

theorem evalItems_total (hE : TotE D n recE) (o : ℕ) (is : List (Node K)) :
    ∀ m, (∀ i ∈ is, ∀ p ∈ i.leaves, p < D.size) → unv D.size m < n →
      ∃ m', evalItems P D recE o is m = some m' ∧ Mono m m' := by
  induction is with
  | nil => intro m _ _; exact ⟨m, rfl, Mono.refl m⟩
  | cons i is ih =>
      intro m hl hm
      obtain ⟨v, m1, h1, mo1⟩ := evalN_total P D hE i m (hl i (by simp)) hm
      obtain ⟨m2, h2, mo2⟩ := ih (m1.setValue o v) (fun j hj => hl j (by simp [hj]))
        (mo1.unv_le.trans_lt hm)
      refine ⟨m2, ?_, Mono.trans (m' := m1.setValue o v) mo1 mo2⟩
      simp only [evalItems, h1, Option.bind_eq_bind, Option.bind_some]
      exact h2

theorem mono_setVisited (m : Mem K) (o : ℕ) : Mono m (m.setVisited o true) := by
  intro q hq
  by_cases h : q = o
  · subst h; simp [Mem.setVisited]
  · simpa [Mem.setVisited, h] using hq

theorem anti_setVisited (m : Mem K) (o : ℕ) : Anti m (m.setVisited o false) := by
  intro q hq
  by_cases h : q = o
  · subst h; simp [Mem.setVisited] at hq
  · simpa [Mem.setVisited, h] using hq

theorem evalO_total (hD : D.Closed) (fuel : ℕ) : TotE D fuel (evalO P D fuel) := by
  induction fuel with
  | zero => intro o m _ h; exact absurd h (by omega)
  | succ f ih =>
      intro o m ho hm
      cases hv : m.visited o with
      | true => exact ⟨_, m, by simp only [evalO, hv]; rfl, Mono.refl m⟩
      | false =>
          have hmo : Mono m ((m.setValue o (D.base o)).setVisited o true) :=
            mono_setVisited (m.setValue o (D.base o)) o
          have hlt := unv_lt ho hv (by simp [Mem.setVisited]) hmo
          obtain ⟨m1, h1, mo1⟩ := evalItems_total P D ih o (D.items o)
            ((m.setValue o (D.base o)).setVisited o true) (hD o ho)
            (show _ < f by omega)
          exact ⟨_, m1, by simp only [evalO, hv, if_true, h1]; rfl, hmo.trans mo1⟩

theorem fwdN_total (hE : TotE D n recE) (hF : TotE D n recD) (t : Node K) :
    ∀ m, (∀ p ∈ t.leaves, p < D.size) → unv D.size m < n →
      ∃ v m', fwdN P D recE recD t m = some (v, m') ∧ Mono m m' := by
  induction t with
  | leaf o => intro m hl hm; exact hF o m (hl o (by simp [Node.leaves])) hm
  | par p => intro m hl hm; exact ⟨_, m, rfl, Mono.refl m⟩
  | op1 n f a ih =>
      intro m hl hm
      obtain ⟨du, m1, h1, mo1⟩ := ih m hl hm
      simp only [fwdN, h1, Option.bind_eq_bind, Option.bind_some]
      split
      · obtain ⟨u, m2, h2, mo2⟩ := evalN_total P D hE a m1 hl (mo1.unv_le.trans_lt hm)
        exact ⟨_, m2, by rw [h2]; rfl, mo1.trans mo2⟩
      · exact ⟨_, m1, rfl, mo1⟩
  | op2 n f a b iha ihb =>
      intro m hl hm
      have hla : ∀ p ∈ a.leaves, p < D.size := fun p hp => hl p (by simp [Node.leaves, hp])
      have hlb : ∀ p ∈ b.leaves, p < D.size := fun p hp => hl p (by simp [Node.leaves, hp])
      obtain ⟨du, m1, h1, mo1⟩ := iha m hla hm
      have hm1 := mo1.unv_le.trans_lt hm
      obtain ⟨dv, m2, h2, mo2⟩ := ihb m1 hlb hm1
      have hm2 := mo2.unv_le.trans_lt hm1
      simp only [fwdN, h1, Option.bind_eq_bind, Option.bind_some, h2]
      split
      · split
        · obtain ⟨v, m3, h3, mo3⟩ := evalN_total P D hE b m2 hlb hm2
          obtain ⟨u, m4, h4, mo4⟩ := evalN_total P D hE a m3 hla (mo3.unv_le.trans_lt hm2)
          exact ⟨_, m4, by rw [h3]; simp only [Option.bind_some]; rw [h4]; rfl,
            ((mo1.trans mo2).trans mo3).trans mo4⟩
        · obtain ⟨v, m3, h3, mo3⟩ := evalN_total P D hE a m2 hla hm2
          obtain ⟨u, m4, h4, mo4⟩ := evalN_total P D hE b m3 hlb (mo3.unv_le.trans_lt hm2)
          exact ⟨_, m4, by rw [h3]; simp only [Option.bind_some]; rw [h4]; rfl,
            ((mo1.trans mo2).trans mo3).trans mo4⟩
      · exact ⟨_, m2, rfl, mo1.trans mo2⟩

theorem fwdItems_total (hE : TotE D n recE) (hF : TotE D n recD) (o : ℕ) (is : List (Node K)) :
    ∀ m, (∀ i ∈ is, ∀ p ∈ i.leaves, p < D.size) → unv D.size m < n →
      ∃ m', fwdItems P D recE recD o is m = some m' ∧ Mono m m' := by
  induction is with
  | nil => intro m _ _; exact ⟨m, rfl, Mono.refl m⟩
  | cons i is ih =>
      intro m hl hm
      obtain ⟨d, m1, h1, mo1⟩ := fwdN_total P D hE hF i m (hl i (by simp)) hm
      obtain ⟨v, m2, h2, mo2⟩ := evalN_total P D hE i (m1.setDValue o d) (hl i (by simp))
        (mo1.unv_le.trans_lt hm)
      have mo2' : Mono m1 m2 := mo2
      obtain ⟨m3, h3, mo3⟩ := ih (m2.setValue o v) (fun j hj => hl j (by simp [hj]))
        ((mo1.trans mo2').unv_le.trans_lt hm)
      refine ⟨m3, ?_, Mono.trans (m' := m2.setValue o v) (mo1.trans mo2') mo3⟩
      simp only [fwdItems, h1, Option.bind_eq_bind, Option.bind_some, h2]
      exact h3

theorem fwdO_total (hD : D.Closed) (k : ℕ) (fuel : ℕ) : TotE D fuel (fwdO P D k fuel) := by
  induction fuel with
  | zero => intro o m _ h; exact absurd h (by omega)
  | succ f ih =>
      intro o m ho hm
      cases hv : m.visited o with
      | true => exact ⟨_, m, by simp only [fwdO, hv]; rfl, Mono.refl m⟩
      | false =>
          have hmo := mono_setVisited m o
          have hlt := unv_lt ho hv (by simp [Mem.setVisited]) hmo
          obtain ⟨m1, h1, mo1⟩ := fwdItems_total P D (evalO_total P D hD f) ih o (D.items o)
            (m.setVisited o true) (hD o ho) (show _ < f by omega)
          exact ⟨_, m1, by simp only [fwdO, hv, if_true, h1]; rfl, hmo.trans mo1⟩

theorem val1_total (hE : TotE D n recE) (f : Op1 K) (a : Node K) (m : Mem K)
    (hl : ∀ p ∈ a.leaves, p < D.size) (hm : unv D.size m < n) :
    ∃ u m', val1 P D recE f a m = some (u, m') ∧ Mono m m' := by
  unfold val1
  split
  · exact evalN_total P D hE a m hl hm
  · exact ⟨_, m, rfl, Mono.refl m⟩

theorem val2_total (hE : TotE D n recE) (f : Op2 K) (a b : Node K) (m : Mem K)
    (hla : ∀ p ∈ a.leaves, p < D.size) (hlb : ∀ p ∈ b.leaves, p < D.size)
    (hm : unv D.size m < n) :
    ∃ u v m', val2 P D recE f a b m = some (u, v, m') ∧ Mono m m' := by
  unfold val2
  split
  · split
    · obtain ⟨v, m3, h3, mo3⟩ := evalN_total P D hE b m hlb hm
      obtain ⟨u, m4, h4, mo4⟩ := evalN_total P D hE a m3 hla (mo3.unv_le.trans_lt hm)
      exact ⟨_, _, m4, by rw [h3]; simp only [Option.bind_eq_bind, Option.bind_some]; rw [h4]; rfl,
        mo3.trans mo4⟩
    · obtain ⟨v, m3, h3, mo3⟩ := evalN_total P D hE a m hla hm
      obtain ⟨u, m4, h4, mo4⟩ := evalN_total P D hE b m3 hlb (mo3.unv_le.trans_lt hm)
      exact ⟨_, _, m4, by rw [h3]; simp only [Option.bind_eq_bind, Option.bind_some]; rw [h4]; rfl,
        mo3.trans mo4⟩
  · exact ⟨_, _, m, rfl, Mono.refl m⟩

theorem unless_total {a : Node K} {c : Cache K} {m : Mem K} {r : Option (Cache K × Mem K)}
    (h : ∃ c' m', r = some (c', m') ∧ Mono m m') :
    ∃ c' m', unlessVisited a c m r = some (c', m') ∧ Mono m m' := by
  unfold unlessVisited
  split
  · exact ⟨c, m, rfl, Mono.refl m⟩
  · exact h

theorem revN_total (hE : TotE D n recE) (hT : TotT D n recT) (t : Node K) :
    ∀ c m, (∀ p ∈ t.leaves, p < D.size) → unv D.size m < n →
      ∃ c' m', revN P D recE recT t c m = some (c', m') ∧ Mono m m' := by
  induction t with
  | leaf o =>
      intro c m hl hm
      obtain ⟨m1, h1, mo1⟩ := hT o m (hl o (by simp [Node.leaves])) hm
      exact ⟨c, m1, by simp only [revN, h1]; rfl, mo1⟩
  | par p => intro c m hl hm; exact ⟨_, m, rfl, Mono.refl m⟩
  | op1 n' f a ih =>
      intro c m hl hm
      obtain ⟨c1, m1, h1, mo1⟩ := unless_total (a := a) (c := c) (ih c m hl hm)
      have hm1 := mo1.unv_le.trans_lt hm
      obtain ⟨u, m2, h2, mo2⟩ := val1_total P D hE f a m1 hl hm1
      have hm2 := mo2.unv_le.trans_lt hm1
      simp only [revN, Option.bind_eq_bind, h1, Option.bind_some, h2]
      obtain ⟨c3, m3, h3, mo3⟩ := unless_total (a := a)
        (c := Cache.mergeIf true (f.rev P u (c n')) (c1.addAt (nodeIdx D a) (f.rev P u (c n')))
          (nodeCache m2 a) (f.rev P u (c n'))) (ih _ m2 hl hm2)
      exact ⟨c3, m3, h3, (mo1.trans mo2).trans mo3⟩
  | op2 n' f a b iha ihb =>
      intro c m hl hm
      have hla : ∀ p ∈ a.leaves, p < D.size := fun p hp => hl p (by simp [Node.leaves, hp])
      have hlb : ∀ p ∈ b.leaves, p < D.size := fun p hp => hl p (by simp [Node.leaves, hp])
      obtain ⟨c1, m1, h1, mo1⟩ := unless_total (a := a) (c := c) (iha c m hla hm)
      have hm1 := mo1.unv_le.trans_lt hm
      obtain ⟨c2, m2, h2, mo2⟩ := unless_total (a := b) (c := c1) (ihb c1 m1 hlb hm1)
      have hm2 := mo2.unv_le.trans_lt hm1
      obtain ⟨u, v, m3, h3, mo3⟩ := val2_total P D hE f a b m2 hla hlb hm2
      have hm3 := mo3.unv_le.trans_lt hm2
      simp only [revN, Option.bind_eq_bind, h1, Option.bind_some, h2, h3]
      obtain ⟨c4, m4, h4, mo4⟩ := unless_total (a := a) (c := _) (iha _ m3 hla hm3)
      have hm4 := mo4.unv_le.trans_lt hm3
      rw [h4]
      simp only [Option.bind_some]
      obtain ⟨c5, m5, h5, mo5⟩ := unless_total (a := b) (c := c4) (ihb c4 m4 hlb hm4)
      exact ⟨c5, m5, h5, (((mo1.trans mo2).trans mo3).trans mo4).trans mo5⟩

theorem revRoot_total (hE : TotE D n recE) (hT : TotT D n recT) (t : Node K) (m : Mem K)
    (hl : ∀ p ∈ t.leaves, p < D.size) (hm : unv D.size m < n) :
    ∃ c' m', revRoot P D recE recT t m = some (c', m') ∧ Mono m m' := by
  cases t with
  | leaf o =>
      obtain ⟨m1, h1, mo1⟩ := hT o m (hl o (by simp [Node.leaves])) hm
      exact ⟨_, m1, by simp only [revRoot, h1]; rfl, mo1⟩
  | par p => exact ⟨_, m, rfl, Mono.refl m⟩
  | op1 n' f a =>
      obtain ⟨c1, m1, h1, mo1⟩ := unless_total (a := a) (c := fun _ => 0)
        (revN_total P D hE hT a (fun _ => 0) m hl hm)
      have hm1 := mo1.unv_le.trans_lt hm
      obtain ⟨u, m2, h2, mo2⟩ := val1_total P D hE f a m1 hl hm1
      have hm2 := mo2.unv_le.trans_lt hm1
      simp only [revRoot, Option.bind_eq_bind, h1, Option.bind_some, h2]
      obtain ⟨c3, m3, h3, mo3⟩ := unless_total (a := a) (c := _) (revN_total P D hE hT a _ m2 hl hm2)
      exact ⟨c3, m3, h3, (mo1.trans mo2).trans mo3⟩
  | op2 n' f a b =>
      have hla : ∀ p ∈ a.leaves, p < D.size := fun p hp => hl p (by simp [Node.leaves, hp])
      have hlb : ∀ p ∈ b.leaves, p < D.size := fun p hp => hl p (by simp [Node.leaves, hp])
      obtain ⟨c1, m1, h1, mo1⟩ := unless_total (a := a) (c := fun _ => 0)
        (revN_total P D hE hT a (fun _ => 0) m hla hm)
      have hm1 := mo1.unv_le.trans_lt hm
      obtain ⟨c2, m2, h2, mo2⟩ := unless_total (a := b) (c := c1)
        (revN_total P D hE hT b c1 m1 hlb hm1)
      have hm2 := mo2.unv_le.trans_lt hm1
      obtain ⟨u, v, m3, h3, mo3⟩ := val2_total P D hE f a b m2 hla hlb hm2
      have hm3 := mo3.unv_le.trans_lt hm2
      simp only [revRoot, Option.bind_eq_bind, h1, Option.bind_some, h2, h3]
      obtain ⟨c4, m4, h4, mo4⟩ := unless_total (a := a) (c := _)
        (revN_total P D hE hT a _ m3 hla hm3)
      have hm4 := mo4.unv_le.trans_lt hm3
      rw [h4]
      simp only [Option.bind_some]
      obtain ⟨c5, m5, h5, mo5⟩ := unless_total (a := b) (c := c4)
        (revN_total P D hE hT b c4 m4 hlb hm4)
      exact ⟨c5, m5, h5, (((mo1.trans mo2).trans mo3).trans mo4).trans mo5⟩

theorem revItems_total (hE : TotE D n recE) (hT : TotT D n recT) (o : ℕ) (is : List (Node K)) :
    ∀ m, (∀ i ∈ is, ∀ p ∈ i.leaves, p < D.size) → unv D.size m < n →
      ∃ m', revItems P D recE recT o is m = some m' ∧ Mono m m' := by
  induction is with
  | nil => intro m _ _; exact ⟨m, rfl, Mono.refl m⟩
  | cons i is ih =>
      intro m hl hm
      obtain ⟨c, m1, h1, mo1⟩ := revRoot_total P D hE hT i m (hl i (by simp)) hm
      have hm1 := mo1.unv_le.trans_lt hm
      obtain ⟨v, m2, h2, mo2⟩ := evalN_total P D hE i m1 (hl i (by simp)) hm1
      have hm2 := mo2.unv_le.trans_lt hm1
      obtain ⟨m3, h3, mo3⟩ := ih ((m2.setValue o v).setCache o c) (fun j hj => hl j (by simp [hj]))
        hm2
      refine ⟨m3, ?_, (mo1.trans mo2).trans (fun q hq => mo3 q hq)⟩
      simp only [revItems, h1, Option.bind_eq_bind, Option.bind_some, h2]
      exact h3

theorem revO_total (hD : D.Closed) (fuel : ℕ) : TotT D fuel (revO P D fuel) := by
  induction fuel with
  | zero => intro o m _ h; exact absurd h (by omega)
  | succ f ih =>
      intro o m ho hm
      cases hv : m.visited o with
      | true => exact ⟨m, by simp only [revO, hv]; rfl, Mono.refl m⟩
      | false =>
          have hmo := mono_setVisited m o
          have hlt := unv_lt ho hv (by simp [Mem.setVisited]) hmo
          obtain ⟨m1, h1, mo1⟩ := revItems_total P D (evalO_total P D hD f) ih o (D.items o)
            (m.setVisited o true) (hD o ho) (show _ < f by omega)
          exact ⟨m1, by simp only [revO, hv, if_true, h1], hmo.trans mo1⟩

theorem resetN_total (hR : TotR D n recT) (t : Node K) : ∀ m, (∀ p ∈ t.leaves, p < D.size) →
    vis D.size m < n → ∃ m', resetN recT t m = some m' ∧ Anti m m' := by
  induction t with
  | leaf o => intro m hl hm; exact hR o m (hl o (by simp [Node.leaves])) hm
  | par p => intro m hl hm; exact ⟨m, rfl, Anti.refl m⟩
  | op1 n f a ih => intro m hl hm; exact ih m hl hm
  | op2 n f a b iha ihb =>
      intro m hl hm
      obtain ⟨m1, h1, mo1⟩ := iha m (fun p hp => hl p (by simp [Node.leaves, hp])) hm
      obtain ⟨m2, h2, mo2⟩ := ihb m1 (fun p hp => hl p (by simp [Node.leaves, hp]))
        (mo1.vis_le.trans_lt hm)
      exact ⟨m2, by simp only [resetN, h1, Option.bind_eq_bind, Option.bind_some, h2],
        mo1.trans mo2⟩

theorem resetItems_total (hR : TotR D n recT) (is : List (Node K)) : ∀ m,
    (∀ i ∈ is, ∀ p ∈ i.leaves, p < D.size) → vis D.size m < n →
    ∃ m', resetItems recT is m = some m' ∧ Anti m m' := by
  induction is with
  | nil => intro m _ _; exact ⟨m, rfl, Anti.refl m⟩
  | cons i is ih =>
      intro m hl hm
      obtain ⟨m1, h1, mo1⟩ := resetN_total D hR i m (hl i (by simp)) hm
      obtain ⟨m2, h2, mo2⟩ := ih m1 (fun j hj => hl j (by simp [hj])) (mo1.vis_le.trans_lt hm)
      exact ⟨m2, by simp only [resetItems, h1, Option.bind_eq_bind, Option.bind_some, h2],
        mo1.trans mo2⟩

theorem resetO_total (hD : D.Closed) (fuel : ℕ) : TotR D fuel (resetO D fuel) := by
  induction fuel with
  | zero => intro o m _ h; exact absurd h (by omega)
  | succ f ih =>
      intro o m ho hm
      cases hv : m.visited o with
      | false =>
          exact ⟨m.clearObj D o, by simp only [resetO, hv]; rfl, anti_setVisited m o⟩
      | true =>
          have hmo := anti_setVisited m o
          have hlt := vis_lt ho hv (by simp [Mem.setVisited]) hmo
          obtain ⟨m1, h1, mo1⟩ := resetItems_total D ih (D.items o) (m.setVisited o false) (hD o ho)
            (show _ < f by omega)
          refine ⟨m1.clearObj D o, by simp only [resetO, hv, if_true, h1]; rfl, ?_⟩
          exact (hmo.trans mo1).trans (anti_setVisited m1 o)

theorem resetImpl_total (hD : D.Closed) (y : ℕ) (hy : y < D.size) (m : Mem K) :
    ∃ m', resetImpl D D.fuel y m = some m' := by
  obtain ⟨m1, h1, -⟩ := resetItems_total D (resetO_total D hD D.fuel) (D.items y)
    (m.setVisited y true) (hD y hy) ((vis_le _ _).trans_lt (by simp [Defs.fuel]))
  exact ⟨m1.setVisited y false, by simp only [resetImpl, h1]; rfl⟩

end

end CoolDiff
