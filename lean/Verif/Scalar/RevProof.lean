import Verif.Scalar.FwdProof
import Mathlib.Data.List.Nodup

/-!
# `traverse` computes all derivatives
-/

set_option linter.unusedSectionVars false

namespace CoolDiff

variable {K : Type} [Field K] [DecidableEq K]

/-! ## Local rules of reverse mode -/

theorem Op1.rev_eq (P : Prim K) (f : Op1 K) (u c : K) : f.rev P u c = c * f.der P u := by
  cases f with
  | fn f =>
      cases f <;> simp [Op1.rev, Fn.rev, Op1.der, pow_two, neg_div, mul_comm]
      rw [← mul_neg, ← inv_neg, neg_sub]
  | divC c => simp only [Op1.rev, Op1.der]; field_simp
  | _ => simp [Op1.rev, Op1.der] <;> ring

theorem Op1.rev_unused (P : Prim K) (f : Op1 K) (h : f.usesVal = false) (u c : K) :
    f.rev P 0 c = c * f.der P u := by
  cases f <;> simp [Op1.usesVal] at h <;> simp [Op1.rev, Op1.der]

theorem Op1.revRoot_eq (P : Prim K) (f : Op1 K) (u : K) : f.revRoot P u = f.der P u := by
  cases f with
  | fn f =>
      cases f <;> simp [Op1.revRoot, Fn.revRoot, Op1.der, pow_two, neg_div]
      rw [← inv_neg, neg_sub]
  | divC c => simp only [Op1.revRoot, Op1.der]; field_simp
  | _ => simp [Op1.revRoot, Op1.der]

theorem Op1.revRoot_unused (P : Prim K) (f : Op1 K) (h : f.usesVal = false) (u : K) :
    f.revRoot P 0 = f.der P u := by
  cases f <;> simp [Op1.usesVal] at h <;> simp [Op1.revRoot, Op1.der]

theorem Op2.revL_eq (P : Prim K) (f : Op2 K) (u v c : K) : f.revL P u v c = c * f.derL P u v := by
  cases f <;> simp [Op2.revL, Op2.derL] <;> ring

theorem Op2.revR_eq (P : Prim K) (f : Op2 K) (u v c : K) : f.revR P u v c = c * f.derR P u v := by
  cases f with
  | div =>
      simp only [Op2.revR, Op2.derR]
      by_cases hv : v = 0
      · simp [hv]
      · field_simp
  | _ => simp only [Op2.revR, Op2.derR]; ring

theorem Op2.rev_unused (P : Prim K) (f : Op2 K) (h : f.usesVal = false) (u v c : K) :
    f.revL P 0 0 c = c * f.derL P u v ∧ f.revR P 0 0 c = c * f.derR P u v := by
  cases f <;> simp [Op2.usesVal] at h <;> simp [Op2.revL, Op2.derL, Op2.revR, Op2.derR]

theorem Op2.revRootL_eq (P : Prim K) (f : Op2 K) (u v : K) : f.revRootL P u v = f.derL P u v := by
  cases f <;> simp [Op2.revRootL, Op2.derL]

theorem Op2.revRootR_eq (P : Prim K) (f : Op2 K) (u v : K) : f.revRootR P u v = f.derR P u v := by
  cases f with
  | div =>
      simp only [Op2.revRootR, Op2.derR]
      by_cases hv : v = 0
      · simp [hv]
      · field_simp
  | _ => simp only [Op2.revRootR, Op2.derR]

theorem Op2.revRoot_unused (P : Prim K) (f : Op2 K) (h : f.usesVal = false) (u v : K) :
    f.revRootL P 0 0 = f.derL P u v ∧ f.revRootR P 0 0 = f.derR P u v := by
  cases f <;> simp [Op2.usesVal] at h <;> simp [Op2.revRootL, Op2.derL, Op2.revRootR, Op2.derR]

theorem Node.der_zero (P : Prim K) (π ρ δ : ℕ → K) (t : Node K) (h : ∀ p ∈ t.leaves, δ p = 0) :
    t.der P π ρ δ = 0 := by
  induction t with
  | leaf o => exact h o (by simp [Node.leaves])
  | par p => rfl
  | op1 n f a ih => simp only [Node.der]; rw [ih h, mul_zero]
  | op2 n f a b iha ihb =>
      simp only [Node.der]
      rw [iha fun p hp => h p (by simp [Node.leaves, hp]),
        ihb fun p hp => h p (by simp [Node.leaves, hp])]; simp

/-! ## Caches -/

theorem Cache.mergeIf_eq {g : Bool} {s' s : K} (c child : Cache K) (h : g = true → s' = 0 → s = 0)
    (k : ℕ) : Cache.mergeIf g s' c child s k = c k + child k * s := by
  unfold Cache.mergeIf
  split
  · next hh => simp [h hh.1 hh.2]
  · rfl

theorem Cache.mergeIf_zero (g : Bool) (s' : K) (c child : Cache K) :
    Cache.mergeIf g s' c child 0 = c := by
  funext k
  rw [Cache.mergeIf_eq c child (fun _ _ => rfl)]; simp

theorem Cache.addAt_zero (c : Cache K) (i : ℕ) : c.addAt i 0 = c := by
  simp [Cache.addAt]

theorem Cache.addAt_apply (c : Cache K) (i k : ℕ) (s : K) :
    c.addAt i s k = c k + if i = k then s else 0 := by
  unfold Cache.addAt
  by_cases h : i = k
  · subst h; simp
  · simp [h, Function.update_of_ne (Ne.symm h)]

section
variable (P : Prim K) (D : Defs K)

/-- What key `k` receives per unit of adjoint flowing into leaf `p`. -/
def gamma (m : Mem K) (k p : ℕ) : K := (if D.nidx p = k then 1 else 0) + m.cache p k

/-- Identity hygiene of a tree in a memory. -/
structure IdOK (m : Mem K) (t : Node K) : Prop where
  nodup : t.opIds.Nodup
  leaf : ∀ p ∈ t.leaves, D.nidx p ∉ t.opIds
  par : ∀ p ∈ t.pars, D.pnidx p ∉ t.opIds
  cache : ∀ p ∈ t.leaves, ∀ n ∈ t.opIds, m.cache p n = 0

theorem IdOK.op1 {D : Defs K} {m : Mem K} {n : ℕ} {f : Op1 K} {a : Node K}
    (h : IdOK D m (.op1 n f a)) : IdOK D m a :=
  ⟨(List.nodup_cons.1 h.nodup).2, fun p hp hn => h.leaf p hp (List.mem_cons_of_mem _ hn),
    fun p hp hn => h.par p hp (List.mem_cons_of_mem _ hn),
    fun p hp n hn => h.cache p hp n (List.mem_cons_of_mem _ hn)⟩

theorem IdOK.op2l {D : Defs K} {m : Mem K} {n : ℕ} {f : Op2 K} {a b : Node K}
    (h : IdOK D m (.op2 n f a b)) : IdOK D m a := by
  have := List.nodup_append.1 (List.nodup_cons.1 h.nodup).2
  refine ⟨this.1, fun p hp hn => h.leaf p ?_ ?_, fun p hp hn => h.par p ?_ ?_,
    fun p hp n hn => h.cache p ?_ n ?_⟩ <;> simp [Node.leaves, Node.pars, Node.opIds, hp, hn]

theorem IdOK.op2r {D : Defs K} {m : Mem K} {n : ℕ} {f : Op2 K} {a b : Node K}
    (h : IdOK D m (.op2 n f a b)) : IdOK D m b := by
  have := List.nodup_append.1 (List.nodup_cons.1 h.nodup).2
  refine ⟨this.2.1, fun p hp hn => h.leaf p ?_ ?_, fun p hp hn => h.par p ?_ ?_,
    fun p hp n hn => h.cache p ?_ n ?_⟩ <;> simp [Node.leaves, Node.pars, Node.opIds, hp, hn]

/-- Identities of the operator nodes strictly below the root of a tree. -/
def Node.subIds : Node K → List ℕ
  | .leaf _ => []
  | .par _ => []
  | .op1 _ _ a => a.opIds
  | .op2 _ _ a b => a.opIds ++ b.opIds

/-- Part of the derivative contributed when the parent touches the operand directly. -/
def direct (m : Mem K) (k : ℕ) : Node K → K
  | .leaf p => gamma D m k p
  | _ => 0

/-- Part of the derivative contributed by traversing the operand. -/
def through (m : Mem K) (k : ℕ) : Node K → K
  | .leaf _ => 0
  | .par _ => 0
  | t => t.der P D.par m.value (gamma D m k)

theorem direct_add_through (m : Mem K) (k : ℕ) (t : Node K) :
    direct D m k t + through P D m k t = t.der P D.par m.value (gamma D m k) := by
  cases t <;> simp [direct, through, Node.der]

/-- An object traversal leaves the memory alone when the object is visited. -/
def TVisSpec (rec : ℕ → Mem K → Option (Mem K)) : Prop :=
  ∀ q m m', m.visited q = true → rec q m = some m' → m' = m

theorem revO_vis (fuel : ℕ) : TVisSpec (revO P D fuel) := by
  intro q m m' hv h
  cases fuel with
  | zero => simp [revO] at h
  | succ f => simpa [revO, hv, eq_comm] using h

variable {recE : ℕ → Mem K → Option (K × Mem K)} {recT : ℕ → Mem K → Option (Mem K)}

/-- Reading operand values: nothing changes when all leaves are visited. -/
theorem val1_vis (hE : VisSpec recE) (f : Op1 K) (a : Node K) (m : Mem K) (u : K) (m' : Mem K)
    (hl : ∀ p ∈ a.leaves, m.visited p = true) (h : val1 P D recE f a m = some (u, m')) :
    m' = m ∧ (∀ c, f.rev P u c = c * f.der P (a.val P D.par m.value)) ∧
      f.revRoot P u = f.der P (a.val P D.par m.value) := by
  unfold val1 at h
  cases hu : f.usesVal with
  | false =>
      simp [hu] at h
      obtain ⟨rfl, rfl⟩ := h
      exact ⟨rfl, fun c => Op1.rev_unused P f hu _ c, Op1.revRoot_unused P f hu _⟩
  | true =>
      simp only [hu, if_true] at h
      obtain ⟨rfl, rfl⟩ := evalN_vis P D hE a m u m' hl h
      exact ⟨rfl, fun c => Op1.rev_eq P f _ c, Op1.revRoot_eq P f _⟩

theorem val2_vis (hE : VisSpec recE) (f : Op2 K) (a b : Node K) (m : Mem K) (u v : K)
    (m' : Mem K) (hla : ∀ p ∈ a.leaves, m.visited p = true)
    (hlb : ∀ p ∈ b.leaves, m.visited p = true) (h : val2 P D recE f a b m = some (u, v, m')) :
    m' = m ∧
      (∀ c, f.revL P u v c = c * f.derL P (a.val P D.par m.value) (b.val P D.par m.value)) ∧
      (∀ c, f.revR P u v c = c * f.derR P (a.val P D.par m.value) (b.val P D.par m.value)) ∧
      f.revRootL P u v = f.derL P (a.val P D.par m.value) (b.val P D.par m.value) ∧
      f.revRootR P u v = f.derR P (a.val P D.par m.value) (b.val P D.par m.value) := by
  unfold val2 at h
  cases hu : f.usesVal with
  | false =>
      simp [hu] at h
      obtain ⟨rfl, rfl, rfl⟩ := h
      exact ⟨rfl, fun c => (Op2.rev_unused P f hu _ _ c).1, fun c => (Op2.rev_unused P f hu _ _ c).2,
        (Op2.revRoot_unused P f hu _ _).1, (Op2.revRoot_unused P f hu _ _).2⟩
  | true =>
      simp only [hu, if_true] at h
      split at h
      · simp only [Option.bind_eq_bind, Option.bind_eq_some_iff, Prod.exists, Option.some.injEq,
          Prod.mk.injEq] at h
        obtain ⟨w, m1, h1, z, m2, h2, rfl, rfl, rfl⟩ := h
        obtain ⟨rfl, rfl⟩ := evalN_vis P D hE b m w m1 hlb h1
        obtain ⟨rfl, rfl⟩ := evalN_vis P D hE a _ z m2 hla h2
        exact ⟨rfl, fun c => Op2.revL_eq P f _ _ c, fun c => Op2.revR_eq P f _ _ c,
          Op2.revRootL_eq P f _ _, Op2.revRootR_eq P f _ _⟩
      · simp only [Option.bind_eq_bind, Option.bind_eq_some_iff, Prod.exists, Option.some.injEq,
          Prod.mk.injEq] at h
        obtain ⟨w, m1, h1, z, m2, h2, rfl, rfl, rfl⟩ := h
        obtain ⟨rfl, rfl⟩ := evalN_vis P D hE a m w m1 hla h1
        obtain ⟨rfl, rfl⟩ := evalN_vis P D hE b _ z m2 hlb h2
        exact ⟨rfl, fun c => Op2.revL_eq P f _ _ c, fun c => Op2.revR_eq P f _ _ c,
          Op2.revRootL_eq P f _ _, Op2.revRootR_eq P f _ _⟩

/-- The first pass of `traverse` over an operand, and more generally a traversal with zero adjoint,
changes nothing when all leaves are visited. -/
theorem revN_zero (hE : VisSpec recE) (hT : TVisSpec recT) (t : Node K) :
    ∀ c m c' m', (∀ p ∈ t.leaves, m.visited p = true) → (∀ n ∈ t.opIds, c n = 0) →
      revN P D recE recT t c m = some (c', m') → c' = c ∧ m' = m := by
  have wrap : ∀ a : Node K, (∀ c m c' m', (∀ p ∈ a.leaves, m.visited p = true) →
      (∀ n ∈ a.opIds, c n = 0) → revN P D recE recT a c m = some (c', m') → c' = c ∧ m' = m) →
      ∀ c m c' m', (∀ p ∈ a.leaves, m.visited p = true) → (∀ n ∈ a.opIds, c n = 0) →
      unlessVisited a c m (revN P D recE recT a c m) = some (c', m') → c' = c ∧ m' = m := by
    intro a ih c m c' m' hl hc h
    unfold unlessVisited at h
    split at h
    · simp at h; exact ⟨h.1.symm, h.2.symm⟩
    · exact ih c m c' m' hl hc h
  induction t with
  | leaf o =>
      intro c m c' m' hl hc h
      simp only [revN, Option.bind_eq_bind, Option.bind_eq_some_iff, Option.some.injEq,
        Prod.mk.injEq] at h
      obtain ⟨m1, h1, rfl, rfl⟩ := h
      exact ⟨rfl, hT o m m1 (hl o (by simp [Node.leaves])) h1⟩
  | par p =>
      intro c m c' m' hl hc h
      simp [revN] at h
      exact ⟨h.1.symm, h.2.symm⟩
  | op1 n f a ih =>
      intro c m c' m' hl hc h
      have hca : ∀ n ∈ a.opIds, c n = 0 := fun n hn => hc n (List.mem_cons_of_mem _ hn)
      simp only [revN, Option.bind_eq_bind, Option.bind_eq_some_iff, Prod.exists] at h
      obtain ⟨c1, m1, h1, u, m2, h2, h3⟩ := h
      obtain ⟨rfl, rfl⟩ := wrap a ih c m c1 m1 hl hca h1
      obtain ⟨rfl, hr, -⟩ := val1_vis P D hE f a _ u m2 hl h2
      rw [hr, hc n (by simp [Node.opIds]), zero_mul, Cache.addAt_zero, Cache.mergeIf_zero] at h3
      exact wrap a ih _ _ c' m' hl hca h3
  | op2 n f a b iha ihb =>
      intro c m c' m' hl hc h
      have hca : ∀ n ∈ a.opIds, c n = 0 := fun n hn => hc n (by simp [Node.opIds, hn])
      have hcb : ∀ n ∈ b.opIds, c n = 0 := fun n hn => hc n (by simp [Node.opIds, hn])
      have hla : ∀ p ∈ a.leaves, m.visited p = true := fun p hp => hl p (by simp [Node.leaves, hp])
      have hlb : ∀ p ∈ b.leaves, m.visited p = true := fun p hp => hl p (by simp [Node.leaves, hp])
      simp only [revN, Option.bind_eq_bind, Option.bind_eq_some_iff, Prod.exists] at h
      obtain ⟨c1, m1, h1, c2, m2, h2, u, v, m3, h3, c4, m4, h4, h5⟩ := h
      obtain ⟨rfl, rfl⟩ := wrap a iha c m c1 m1 hla hca h1
      obtain ⟨rfl, rfl⟩ := wrap b ihb _ _ c2 m2 hlb hcb h2
      obtain ⟨rfl, hL, hR, -, -⟩ := val2_vis P D hE f a b _ u v m3 hla hlb h3
      rw [hL, hR, hc n (by simp [Node.opIds]), zero_mul, zero_mul, Cache.addAt_zero,
        Cache.addAt_zero, Cache.mergeIf_zero, Cache.mergeIf_zero] at h4
      obtain ⟨rfl, rfl⟩ := wrap a iha _ _ c4 m4 hla hca h4
      exact wrap b ihb _ _ c' m' hlb hcb h5

/-- Keys whose entry a tree's traversal changes only through derivatives. -/
def KeyOK (t : Node K) (k : ℕ) : Prop := k ∉ t.opIds ∧ ∀ p ∈ t.pars, D.pnidx p ≠ k

/-- A traversal of `t` with adjoint `c (id of t)` adds adjoint times derivative to every key. -/
def PostOK (recE : ℕ → Mem K → Option (K × Mem K)) (recT : ℕ → Mem K → Option (Mem K))
    (t : Node K) : Prop :=
  ∀ c m c' m', (∀ p ∈ t.leaves, m.visited p = true) → IdOK D m t → (∀ n ∈ t.subIds, c n = 0) →
    unlessVisited t c m (revN P D recE recT t c m) = some (c', m') →
    m' = m ∧ ∀ k, KeyOK D t k → c' k = c k + c (nodeIdx D t) * through P D m k t

/-- Pushing `s` into operand `a` (entry, merged cache, traversal). -/
theorem combine1 {n : ℕ} {f : Op1 K} {a : Node K} (ha : PostOK P D recE recT a) {g : Bool}
    {s' s : K} (hg : g = true → s' = 0 → s = 0) {c c' : Cache K} {m m' : Mem K}
    (hl : ∀ p ∈ a.leaves, m.visited p = true) (hid : IdOK D m (.op1 n f a))
    (hc : ∀ n ∈ a.opIds, c n = 0)
    (h : unlessVisited a ((c.addAt (nodeIdx D a) s).mergeIf g s' (nodeCache m a) s) m
      (revN P D recE recT a ((c.addAt (nodeIdx D a) s).mergeIf g s' (nodeCache m a) s) m) =
      some (c', m')) :
    m' = m ∧ ∀ k, KeyOK D a k → c' k = c k + s * a.der P D.par m.value (gamma D m k) := by
  have hida := hid.op1
  have hc1 : ∀ k, ((c.addAt (nodeIdx D a) s).mergeIf g s' (nodeCache m a) s) k =
      c k + (if nodeIdx D a = k then s else 0) + nodeCache m a k * s := by
    intro k
    rw [Cache.mergeIf_eq _ _ hg, Cache.addAt_apply]
  obtain ⟨rfl, hk⟩ := ha _ m c' m' hl hida (by
    intro k hk
    have hk' : k ∈ a.opIds := by
      cases a <;> simp_all [Node.subIds, Node.opIds]
    rw [hc1, hc k hk']
    cases a with
    | leaf p => simp [Node.subIds] at hk
    | par p => simp [Node.subIds] at hk
    | op1 n' f' a' =>
        have : n' ≠ k := by
          rintro rfl
          exact (List.nodup_cons.1 hida.nodup).1 hk
        simp [nodeIdx, nodeCache, this]
    | op2 n' f' a' b' =>
        have : n' ≠ k := by
          rintro rfl
          exact (List.nodup_cons.1 hida.nodup).1 hk
        simp [nodeIdx, nodeCache, this]) h
  refine ⟨rfl, fun k hkk => ?_⟩
  rw [hk k hkk, hc1, hc1, ← direct_add_through]
  cases a with
  | leaf p => simp [nodeIdx, nodeCache, direct, through, gamma]; by_cases hpk : D.nidx p = k <;> simp [hpk] <;> ring
  | par p =>
      have : D.pnidx p ≠ k := hkk.2 p (by simp [Node.pars])
      simp [nodeIdx, nodeCache, direct, through, this]
  | op1 n' f' a' =>
      have h1 : n' ≠ k := by rintro rfl; exact hkk.1 (by simp [Node.opIds])
      have h2 : c n' = 0 := hc n' (by simp [Node.opIds])
      simp [nodeIdx, nodeCache, direct, h1, h2]
  | op2 n' f' a' b' =>
      have h1 : n' ≠ k := by rintro rfl; exact hkk.1 (by simp [Node.opIds])
      have h2 : c n' = 0 := hc n' (by simp [Node.opIds])
      simp [nodeIdx, nodeCache, direct, h1, h2]

/-- Is the node an operator node? -/
def Node.isOp : Node K → Bool
  | .leaf _ => false
  | .par _ => false
  | _ => true

theorem nodeIdx_mem_opIds {t : Node K} (h : t.isOp = true) : nodeIdx D t ∈ t.opIds := by
  cases t <;> simp_all [Node.isOp, nodeIdx, Node.opIds]

theorem through_of_not_op {m : Mem K} {k : ℕ} {t : Node K} (h : t.isOp = false) :
    through P D m k t = 0 := by
  cases t <;> simp_all [Node.isOp, through]

theorem nodeCache_of_op {m : Mem K} {t : Node K} (h : t.isOp = true) (k : ℕ) :
    nodeCache m t k = 0 := by
  cases t <;> simp_all [Node.isOp, nodeCache]

theorem nodeIdx_not_subIds {m : Mem K} {t : Node K} (h : IdOK D m t) :
    nodeIdx D t ∉ t.subIds := by
  cases t with
  | leaf => simp [Node.subIds]
  | par => simp [Node.subIds]
  | op1 n f a => exact (List.nodup_cons.1 h.nodup).1
  | op2 n f a b => exact (List.nodup_cons.1 h.nodup).1

theorem subIds_subset (t : Node K) : ∀ n ∈ t.subIds, n ∈ t.opIds := by
  cases t <;> simp_all [Node.subIds, Node.opIds]

/-- What the parent adds directly at key `k`. -/
theorem direct_eq {m : Mem K} {k : ℕ} {t : Node K} (hk : KeyOK D t k) (s : K) :
    (if nodeIdx D t = k then s else 0) + nodeCache m t k * s = s * direct D m k t := by
  cases t with
  | leaf p => simp [nodeIdx, nodeCache, direct, gamma]; by_cases hpk : D.nidx p = k <;> simp [hpk] <;> ring
  | par p =>
      have : D.pnidx p ≠ k := hk.2 p (by simp [Node.pars])
      simp [nodeIdx, nodeCache, direct, this]
  | op1 n' f' a' =>
      have h1 : n' ≠ k := by rintro rfl; exact hk.1 (by simp [Node.opIds])
      simp [nodeIdx, nodeCache, direct, h1]
  | op2 n' f' a' b' =>
      have h1 : n' ≠ k := by rintro rfl; exact hk.1 (by simp [Node.opIds])
      simp [nodeIdx, nodeCache, direct, h1]

/-- A node's direct entries vanish at the operator identities of its sibling and its own. -/
theorem direct_id {m : Mem K} {n : ℕ} {t : Node K} (h1 : ∀ p ∈ t.leaves, D.nidx p ≠ n)
    (h3 : ∀ p ∈ t.leaves, m.cache p n = 0) : direct D m n t = 0 := by
  cases t with
  | leaf p => simp [direct, gamma, h1 p (by simp [Node.leaves]), h3 p (by simp [Node.leaves])]
  | _ => rfl

/-- Pushing `sl` into the left and `sr` into the right operand. -/
theorem combine2 {n : ℕ} {f : Op2 K} {a b : Node K} (ha : PostOK P D recE recT a)
    (hb : PostOK P D recE recT b) {g : Bool} {sl' sl sr' sr : K}
    (hgl : g = true → sl' = 0 → sl = 0) (hgr : g = true → sr' = 0 → sr = 0)
    {c c' c'' : Cache K} {m m' m'' : Mem K}
    (hl : ∀ p ∈ (Node.op2 n f a b).leaves, m.visited p = true) (hid : IdOK D m (.op2 n f a b))
    (hc : ∀ k ∈ a.opIds ++ b.opIds, c k = 0)
    (h : unlessVisited a (Cache.mergeIf g sr' (Cache.mergeIf g sl'
        ((c.addAt (nodeIdx D a) sl).addAt (nodeIdx D b) sr) (nodeCache m a) sl) (nodeCache m b) sr) m
      (revN P D recE recT a (Cache.mergeIf g sr' (Cache.mergeIf g sl'
        ((c.addAt (nodeIdx D a) sl).addAt (nodeIdx D b) sr) (nodeCache m a) sl) (nodeCache m b) sr) m)
      = some (c', m'))
    (h' : unlessVisited b c' m' (revN P D recE recT b c' m') = some (c'', m'')) :
    m'' = m ∧ ∀ k, KeyOK D a k → KeyOK D b k → c'' k = c k +
      (sl * a.der P D.par m.value (gamma D m k) + sr * b.der P D.par m.value (gamma D m k)) := by
  have hida := hid.op2l
  have hidb := hid.op2r
  have hnd := List.nodup_append.1 (List.nodup_cons.1 hid.nodup).2
  have hdisj : ∀ n' ∈ a.opIds, n' ∉ b.opIds := fun n' h1 h2 => hnd.2.2 n' h1 n' h2 rfl
  have hla : ∀ p ∈ a.leaves, m.visited p = true := fun p hp => hl p (by simp [Node.leaves, hp])
  have hlb : ∀ p ∈ b.leaves, m.visited p = true := fun p hp => hl p (by simp [Node.leaves, hp])
  -- an operator identity of one operand is a proper key for the other one
  have keyA : ∀ k ∈ b.opIds, KeyOK D a k := fun k hk =>
    ⟨fun h => hdisj k h hk, fun p hp e => hid.par p (by simp [Node.pars, hp])
      (by rw [e]; simp [Node.opIds, hk])⟩
  have keyB : ∀ k ∈ a.opIds, KeyOK D b k := fun k hk =>
    ⟨fun h => hdisj k hk h, fun p hp e => hid.par p (by simp [Node.pars, hp])
      (by rw [e]; simp [Node.opIds, hk])⟩
  have gam : ∀ k ∈ a.opIds ++ b.opIds, ∀ p ∈ (Node.op2 n f a b).leaves, gamma D m k p = 0 := by
    intro k hk p hp
    have h1 : D.nidx p ≠ k := by
      rintro rfl; exact hid.leaf p hp (List.mem_cons_of_mem _ hk)
    simp [gamma, h1, hid.cache p hp k (List.mem_cons_of_mem _ hk)]
  have dirA : ∀ k ∈ a.opIds ++ b.opIds, direct D m k a = 0 := by
    intro k hk
    cases a with
    | leaf p => exact gam k hk p (by simp [Node.leaves])
    | _ => rfl
  have dirB : ∀ k ∈ a.opIds ++ b.opIds, direct D m k b = 0 := by
    intro k hk
    cases b with
    | leaf p => exact gam k hk p (by simp [Node.leaves])
    | _ => rfl
  set c1 := Cache.mergeIf g sr' (Cache.mergeIf g sl'
    ((c.addAt (nodeIdx D a) sl).addAt (nodeIdx D b) sr) (nodeCache m a) sl) (nodeCache m b) sr
    with hc1def
  have hc1 : ∀ k, c1 k = c k + ((if nodeIdx D a = k then sl else 0) + nodeCache m a k * sl) +
      ((if nodeIdx D b = k then sr else 0) + nodeCache m b k * sr) := by
    intro k
    rw [hc1def, Cache.mergeIf_eq _ _ hgr, Cache.mergeIf_eq _ _ hgl, Cache.addAt_apply,
      Cache.addAt_apply]
    ring
  -- entries of c1 at operator identities
  have selfA : ∀ k ∈ a.opIds, ((if nodeIdx D a = k then sl else 0) + nodeCache m a k * sl) =
      if nodeIdx D a = k then sl else 0 := by
    intro k hk
    have : nodeCache m a k = 0 := by
      cases a with
      | leaf p => simp [Node.opIds] at hk
      | _ => rfl
    simp [this]
  have selfB : ∀ k ∈ b.opIds, ((if nodeIdx D b = k then sr else 0) + nodeCache m b k * sr) =
      if nodeIdx D b = k then sr else 0 := by
    intro k hk
    have : nodeCache m b k = 0 := by
      cases b with
      | leaf p => simp [Node.opIds] at hk
      | _ => rfl
    simp [this]
  have c1A : ∀ k ∈ a.opIds, c1 k = if nodeIdx D a = k then sl else 0 := by
    intro k hk
    rw [hc1, hc k (by simp [hk]), selfA k hk, direct_eq D (keyB k hk), dirB k (by simp [hk])]
    simp
  have c1B : ∀ k ∈ b.opIds, c1 k = if nodeIdx D b = k then sr else 0 := by
    intro k hk
    rw [hc1, hc k (by simp [hk]), selfB k hk, direct_eq D (keyA k hk), dirA k (by simp [hk])]
    simp
  obtain ⟨rfl, hka⟩ := ha c1 m c' m' hla hida (by
    intro k hk
    rw [c1A k (subIds_subset a k hk), if_neg]
    rintro rfl
    exact nodeIdx_not_subIds D hida hk) h
  have thrA : ∀ k ∈ b.opIds, through P D m' k a = 0 := by
    intro k hk
    have : a.der P D.par m'.value (gamma D m' k) = 0 :=
      Node.der_zero P _ _ _ a fun p hp => gam k (by simp [hk]) p (by simp [Node.leaves, hp])
    rw [← direct_add_through, dirA k (by simp [hk]), zero_add] at this
    exact this
  have c'B : ∀ k ∈ b.opIds, c' k = if nodeIdx D b = k then sr else 0 := by
    intro k hk
    rw [hka k (keyA k hk), thrA k hk, mul_zero, add_zero, c1B k hk]
  obtain ⟨rfl, hkb⟩ := hb c' m' c'' m'' hlb hidb (by
    intro k hk
    rw [c'B k (subIds_subset b k hk), if_neg]
    rintro rfl
    exact nodeIdx_not_subIds D hidb hk) h'
  refine ⟨rfl, fun k kA kB => ?_⟩
  have eA : c1 (nodeIdx D a) * through P D m'' k a = sl * through P D m'' k a := by
    cases hop : a.isOp with
    | true => rw [c1A _ (nodeIdx_mem_opIds D hop)]; simp
    | false => rw [through_of_not_op P D hop]; simp
  have eB : c' (nodeIdx D b) * through P D m'' k b = sr * through P D m'' k b := by
    cases hop : b.isOp with
    | true => rw [c'B _ (nodeIdx_mem_opIds D hop)]; simp
    | false => rw [through_of_not_op P D hop]; simp
  rw [hkb k kB, hka k kA, eA, eB, hc1, direct_eq D kA, direct_eq D kB, ← direct_add_through,
    ← direct_add_through]
  ring

theorem KeyOK.op1 {D : Defs K} {n k : ℕ} {f : Op1 K} {a : Node K} (h : KeyOK D (.op1 n f a) k) :
    KeyOK D a k := ⟨fun hk => h.1 (List.mem_cons_of_mem _ hk), h.2⟩

theorem KeyOK.op2l {D : Defs K} {n k : ℕ} {f : Op2 K} {a b : Node K}
    (h : KeyOK D (.op2 n f a b) k) : KeyOK D a k :=
  ⟨fun hk => h.1 (by simp [Node.opIds, hk]), fun p hp => h.2 p (by simp [Node.pars, hp])⟩

theorem KeyOK.op2r {D : Defs K} {n k : ℕ} {f : Op2 K} {a b : Node K}
    (h : KeyOK D (.op2 n f a b) k) : KeyOK D b k :=
  ⟨fun hk => h.1 (by simp [Node.opIds, hk]), fun p hp => h.2 p (by simp [Node.pars, hp])⟩

theorem unless_zero (hE : VisSpec recE) (hT : TVisSpec recT) (a : Node K) (c : Cache K) (m : Mem K)
    (c' : Cache K) (m' : Mem K) (hl : ∀ p ∈ a.leaves, m.visited p = true)
    (hc : ∀ n ∈ a.opIds, c n = 0)
    (h : unlessVisited a c m (revN P D recE recT a c m) = some (c', m')) : c' = c ∧ m' = m := by
  unfold unlessVisited at h
  split at h
  · simp at h; exact ⟨h.1.symm, h.2.symm⟩
  · exact revN_zero P D hE hT a c m c' m' hl hc h

theorem revN_post (hE : VisSpec recE) (hT : TVisSpec recT) (t : Node K) :
    PostOK P D recE recT t := by
  induction t with
  | leaf o =>
      intro c m c' m' hl hid hc h
      have : nodeVisited m (Node.leaf (K := K) o) = true := hl o (by simp [Node.leaves])
      simp [unlessVisited, this] at h
      obtain ⟨rfl, rfl⟩ := h
      exact ⟨rfl, fun k _ => by simp [through]⟩
  | par p =>
      intro c m c' m' hl hid hc h
      simp [unlessVisited, nodeVisited, revN] at h
      obtain ⟨rfl, rfl⟩ := h
      exact ⟨rfl, fun k _ => by simp [through]⟩
  | op1 n f a ih =>
      intro c m c' m' hl hid hc h
      simp only [unlessVisited, nodeVisited, Bool.false_eq_true, if_false, revN,
        Option.bind_eq_bind, Option.bind_eq_some_iff, Prod.exists] at h
      obtain ⟨c1, m1, h1, u, m2, h2, h3⟩ := h
      obtain ⟨rfl, rfl⟩ := unless_zero P D hE hT a c m c1 m1 hl hc h1
      obtain ⟨rfl, hr, -⟩ := val1_vis P D hE f a _ u m2 hl h2
      obtain ⟨rfl, hk⟩ := combine1 P D (n := n) (f := f) ih (fun _ h => h) hl hid hc h3
      refine ⟨rfl, fun k hkk => ?_⟩
      rw [hk k hkk.op1, hr]
      simp only [through, Node.der, nodeIdx]
      ring
  | op2 n f a b iha ihb =>
      intro c m c' m' hl hid hc h
      have hla : ∀ p ∈ a.leaves, m.visited p = true := fun p hp => hl p (by simp [Node.leaves, hp])
      have hlb : ∀ p ∈ b.leaves, m.visited p = true := fun p hp => hl p (by simp [Node.leaves, hp])
      simp only [unlessVisited, nodeVisited, Bool.false_eq_true, if_false, revN,
        Option.bind_eq_bind, Option.bind_eq_some_iff, Prod.exists] at h
      obtain ⟨c1, m1, h1, c2, m2, h2, u, v, m3, h3, c4, m4, h4, h5⟩ := h
      obtain ⟨rfl, rfl⟩ := unless_zero P D hE hT a c m c1 m1 hla
        (fun n hn => hc n (by simp [Node.subIds, hn])) h1
      obtain ⟨rfl, rfl⟩ := unless_zero P D hE hT b _ _ c2 m2 hlb
        (fun n hn => hc n (by simp [Node.subIds, hn])) h2
      obtain ⟨rfl, hL, hR, -, -⟩ := val2_vis P D hE f a b _ u v m3 hla hlb h3
      rw [hL, hR] at h4
      obtain ⟨rfl, hk⟩ := combine2 P D (n := n) (f := f) iha ihb
        (fun _ h => by split at h <;> simp_all) (fun _ h => by split at h <;> simp_all)
        hl hid hc h4 h5
      refine ⟨rfl, fun k hkk => ?_⟩
      rw [hk k hkk.op2l hkk.op2r]
      simp only [through, Node.der, nodeIdx]
      ring

end

end CoolDiff
