import Mathlib.Algebra.Group.Nat.Even
import Mathlib.Data.List.Nodup
import Mathlib.Algebra.Field.Rat
import Mathlib.Algebra.BigOperators.Group.List.Basic

/-!
# Threads in reverse mode (model): the parallel merge of a cache

In a build with `ENABLE_STL_PARALLEL_EXECUTION` the loop

    std::for_each(EXECUTION_PAR mp_left->m_cache.begin(), mp_left->m_cache.end(),
                  [&cache](const auto &item) { (*cache)[item.first] += item.second; });

(GenericSum.hpp:118-131, and the same loop in GenericPow.hpp:126-142, GenericDiv.hpp:127-143,
GenericScalarBinary.hpp:79-92) runs one task per entry of the operand's cache, all on one map.

Modelled: one bucket of the map (`std::unordered_map`, CommonHeader.hpp:221) as a chain of nodes that hold a
key and a number.  `(*cache)[k]` looks the key up; if it is missing it links a new node, holding zero, before
the chain it saw; then `+=` reads the number and writes the sum.  Each of these accesses is one step; a run
interleaves the steps of the tasks in any order.
Simplified: the look-up is one step; no rehashing (`reserve` is called before, line GenericSum.hpp:98).
-/

namespace CoolDiff

/-- One bucket: all nodes ever made (address = position), and the addresses linked in the chain. -/
structure Bucket (K : Type) where
  nodes : List (ℕ × K)
  chain : List ℕ

/-- Where a task is. -/
inductive MergePC (K : Type) where
  /-- before the look-up -/
  | start
  /-- the key was missing from the chain `snap` -/
  | insert (snap : List ℕ)
  /-- `operator[]` returned the node `a` -/
  | load (a : ℕ)
  /-- `+=` has read `w` -/
  | store (a : ℕ) (w : K)
  | done

section
variable {K : Type} [Add K] [Zero K]

/-- The key of the node `a`. -/
def Bucket.key (s : Bucket K) (a : ℕ) : Option ℕ := (s.nodes[a]?).map Prod.fst

/-- The look-up. -/
def Bucket.find (s : Bucket K) (k : ℕ) : Option ℕ := s.chain.find? fun a => s.key a == some k

/-- What a later `m_cache[k]` reports. -/
def Bucket.lookup (s : Bucket K) (k : ℕ) : Option K := (s.find k).bind fun a => (s.nodes[a]?).map Prod.snd

/-- One access of the task for the entry `(k, v)`. -/
def mergeTaskStep (k : ℕ) (v : K) : MergePC K → Bucket K → Option (MergePC K × Bucket K)
  | .start, s =>
      match s.find k with
      | some a => some (.load a, s)
      | none => some (.insert s.chain, s)
  | .insert snap, s => some (.load s.nodes.length, ⟨s.nodes ++ [(k, 0)], s.nodes.length :: snap⟩)
  | .load a, s => (s.nodes[a]?).map fun n => (.store a n.2, s)
  | .store a w, s => (s.nodes[a]?).map fun n => (.done, ⟨s.nodes.set a (n.1, w + v), s.chain⟩)
  | .done, _ => none

/-- The loop over the entries `items`. -/
structure MergePool (K : Type) where
  pcs : List (MergePC K)
  bucket : Bucket K

/-- One step of the loop: some task does its next access. -/
inductive MergePool.Step (items : List (ℕ × K)) : MergePool K → MergePool K → Prop
  | task {pcs : List (MergePC K)} {s s' : Bucket K} {pc pc' : MergePC K} (i : ℕ) {k : ℕ} {v : K} :
      items[i]? = some (k, v) → pcs[i]? = some pc → mergeTaskStep k v pc s = some (pc', s') →
      Step items ⟨pcs, s⟩ ⟨pcs.set i pc', s'⟩

/-- The runs of the loop. -/
inductive MergePool.Steps (items : List (ℕ × K)) : MergePool K → MergePool K → Prop
  | refl (c : MergePool K) : Steps items c c
  | step {a b c : MergePool K} : Step items a b → Steps items b c → Steps items a c

/-- The loop at its beginning. -/
def mergePool (items : List (ℕ × K)) (s : Bucket K) : MergePool K := ⟨items.map fun _ => .start, s⟩

/-! ## All keys present -/

theorem Bucket.key_set {s : Bucket K} {a : ℕ} {n : ℕ × K} (h : s.nodes[a]? = some n) (w : K) (b : ℕ) :
    (⟨s.nodes.set a (n.1, w), s.chain⟩ : Bucket K).key b = s.key b := by
  unfold Bucket.key
  simp only [List.getElem?_set]
  by_cases hab : a = b
  · subst hab
    obtain ⟨hl, he⟩ := List.getElem?_eq_some_iff.1 h
    simp [hl, he]
  · simp [hab]

theorem Bucket.find_set {s : Bucket K} {a : ℕ} {n : ℕ × K} (h : s.nodes[a]? = some n) (w : K) (k : ℕ) :
    (⟨s.nodes.set a (n.1, w), s.chain⟩ : Bucket K).find k = s.find k := by
  simp only [Bucket.find, Bucket.key_set h w]

theorem Bucket.key_find {s : Bucket K} {k a : ℕ} (h : s.find k = some a) : s.key a = some k := by
  have := List.find?_some h
  simpa using this

/-- Where a task may be, when the node of its key is `a` and held `u` before the loop. -/
def MergePC.Ok (s : Bucket K) (a : ℕ) (u v : K) : MergePC K → Prop
  | .start => (s.nodes[a]?).map Prod.snd = some u
  | .insert _ => False
  | .load b => b = a ∧ (s.nodes[a]?).map Prod.snd = some u
  | .store b w => b = a ∧ w = u ∧ (s.nodes[a]?).map Prod.snd = some u
  | .done => (s.nodes[a]?).map Prod.snd = some (u + v)

theorem MergePC.Ok.congr {s s' : Bucket K} {a : ℕ} {u v : K} (h : s'.nodes[a]? = s.nodes[a]?) {pc : MergePC K}
    (hp : pc.Ok s a u v) : pc.Ok s' a u v := by
  cases pc <;> simp only [MergePC.Ok, h] at hp ⊢ <;> exact hp

/-- The invariant. -/
structure MergeInv (items : List (ℕ × K)) (s₀ : Bucket K) (c : MergePool K) : Prop where
  len : c.pcs.length = items.length
  find : ∀ k, c.bucket.find k = s₀.find k
  ok : ∀ (i k : ℕ) (v : K) (pc : MergePC K) (a : ℕ) (u : K), items[i]? = some (k, v) → c.pcs[i]? = some pc →
    s₀.find k = some a → s₀.lookup k = some u → pc.Ok c.bucket a u v
  out : ∀ a, (∀ k ∈ items.map Prod.fst, s₀.find k ≠ some a) → c.bucket.nodes[a]? = s₀.nodes[a]?

theorem MergeInv.step {items : List (ℕ × K)} {s₀ : Bucket K} (hn : (items.map Prod.fst).Nodup)
    (hk : ∀ k ∈ items.map Prod.fst, ∃ u, s₀.lookup k = some u) {c c' : MergePool K} (h : MergeInv items s₀ c)
    (hs : MergePool.Step items c c') : MergeInv items s₀ c' := by
  cases hs with
  | @task pcs s s' pc pc' i k v hi hpc hst =>
    have hki : k ∈ items.map Prod.fst := List.mem_map.2 ⟨(k, v), List.mem_of_getElem? hi, rfl⟩
    obtain ⟨u, hu⟩ := hk k hki
    obtain ⟨a, ha, -⟩ := Option.bind_eq_some_iff.1 hu
    have hok := h.ok i k v pc a u hi hpc ha hu
    -- other tasks own other nodes
    have hother : ∀ (j k' : ℕ) (v' : K) (a' : ℕ), items[j]? = some (k', v') → j ≠ i → s₀.find k' = some a' → a' ≠ a := by
      rintro j k' v' a' hj hji ha' rfl
      have e1 := Bucket.key_find ha
      have e2 := Bucket.key_find ha'
      have : k' = k := by rw [e1] at e2; simpa using e2.symm
      subst this
      obtain ⟨l1, g1⟩ := List.getElem?_eq_some_iff.1 hi
      obtain ⟨l2, g2⟩ := List.getElem?_eq_some_iff.1 hj
      have := (List.Nodup.getElem_inj_iff hn (i := j) (j := i) (hi := by simpa using l2) (hj := by simpa using l1)).1
        (by simp [g1, g2])
      exact hji this
    have hl : i < pcs.length := (List.getElem?_eq_some_iff.1 hpc).1
    -- it is enough to follow the node `a`
    have fin : (∀ q, s'.find q = s.find q) → pc'.Ok s' a u v → (∀ b, b ≠ a → s'.nodes[b]? = s.nodes[b]?) →
        MergeInv items s₀ ⟨pcs.set i pc', s'⟩ := by
      intro f1 f2 f3
      refine ⟨by simpa using h.len, fun q => (f1 q).trans (h.find q), fun j k' v' p a' u' h1 h2 h3 h4 => ?_,
        fun b hb => ?_⟩
      · by_cases hji : j = i
        · subst hji
          rw [hi, Option.some.injEq, Prod.mk.injEq] at h1
          obtain ⟨rfl, rfl⟩ := h1
          have : (pcs.set j pc')[j]? = some p := h2
          rw [List.getElem?_set_self hl, Option.some.injEq] at this
          rw [ha, Option.some.injEq] at h3
          rw [hu, Option.some.injEq] at h4
          subst this h3 h4
          exact f2
        · have : (pcs.set i pc')[j]? = some p := h2
          rw [List.getElem?_set_ne (Ne.symm hji)] at this
          exact (h.ok j k' v' p a' u' h1 this h3 h4).congr (f3 a' (hother j k' v' a' h1 hji h3))
      · exact (f3 b fun he => hb k hki (by rw [he]; exact ha)).trans (h.out b hb)
    cases pc with
    | start =>
        have hf : s.find k = some a := (h.find k).trans ha
        simp only [mergeTaskStep, hf, Option.some.injEq, Prod.mk.injEq] at hst
        obtain ⟨rfl, rfl⟩ := hst
        exact fin (fun _ => rfl) ⟨rfl, hok⟩ fun _ _ => rfl
    | insert snap => exact hok.elim
    | load b =>
        obtain ⟨rfl, hv⟩ := hok
        obtain ⟨n, hn1, hn2⟩ := Option.map_eq_some_iff.1 hv
        simp only [mergeTaskStep, hn1, Option.map_some, Option.some.injEq, Prod.mk.injEq] at hst
        obtain ⟨rfl, rfl⟩ := hst
        exact fin (fun _ => rfl) ⟨rfl, hn2, hv⟩ fun _ _ => rfl
    | store b w =>
        obtain ⟨rfl, rfl, hv⟩ := hok
        obtain ⟨n, hn1, hn2⟩ := Option.map_eq_some_iff.1 hv
        simp only [mergeTaskStep, hn1, Option.map_some, Option.some.injEq, Prod.mk.injEq] at hst
        obtain ⟨rfl, rfl⟩ := hst
        refine fin (fun q => Bucket.find_set hn1 _ q) ?_ fun c hc => ?_
        · simp [MergePC.Ok, List.getElem?_set_self (List.getElem?_eq_some_iff.1 hn1).1]
        · simp [List.getElem?_set_ne (Ne.symm hc)]
    | done => simp [mergeTaskStep] at hst

/-- How many steps a task may still do. -/
def MergePC.rank : MergePC K → ℕ
  | .start => 4
  | .insert _ => 3
  | .load _ => 2
  | .store _ _ => 1
  | .done => 0

omit [Add K] [Zero K] in
theorem sum_rank_set {pcs : List (MergePC K)} {pc pc' : MergePC K} (h : pc'.rank < pc.rank) :
    ∀ {i : ℕ}, pcs[i]? = some pc → ((pcs.set i pc').map MergePC.rank).sum < (pcs.map MergePC.rank).sum := by
  induction pcs with
  | nil => intro i hi; simp at hi
  | cons p ps ih =>
      intro i hi
      cases i with
      | zero =>
          simp only [List.getElem?_cons_zero, Option.some.injEq] at hi
          subst hi
          simpa using h
      | succ i =>
          simp only [List.getElem?_cons_succ] at hi
          simpa using ih hi

theorem MergePool.Step.lt {items : List (ℕ × K)} {c c' : MergePool K} (h : MergePool.Step items c c') :
    (c'.pcs.map MergePC.rank).sum < (c.pcs.map MergePC.rank).sum := by
  cases h with
  | @task pcs s s' pc pc' i k v hi hpc hst =>
    refine sum_rank_set ?_ hpc
    cases pc with
    | start =>
        simp only [mergeTaskStep] at hst
        split at hst <;> simp only [Option.some.injEq, Prod.mk.injEq] at hst <;> rw [← hst.1] <;> simp [MergePC.rank]
    | insert snap =>
        simp only [mergeTaskStep, Option.some.injEq, Prod.mk.injEq] at hst
        rw [← hst.1]; simp [MergePC.rank]
    | load a =>
        obtain ⟨n, -, hn⟩ := Option.map_eq_some_iff.1 hst
        simp only [Prod.mk.injEq] at hn
        rw [← hn.1]; simp [MergePC.rank]
    | store a w =>
        obtain ⟨n, -, hn⟩ := Option.map_eq_some_iff.1 hst
        simp only [Prod.mk.injEq] at hn
        rw [← hn.1]; simp [MergePC.rank]
    | done => simp [mergeTaskStep] at hst

/-- Every run of the loop ends. -/
theorem MergePool.acc (items : List (ℕ × K)) (c : MergePool K) :
    Acc (fun b a : MergePool K => MergePool.Step items a b) c := by
  have : WellFounded (fun b a : MergePool K =>
      (b.pcs.map MergePC.rank).sum < (a.pcs.map MergePC.rank).sum) :=
    InvImage.wf (fun c : MergePool K => (c.pcs.map MergePC.rank).sum) Nat.lt_wfRel.wf
  exact Subrelation.accessible (fun h => h.lt) (this.apply c)

/-- C55, reverse mode.  The parallel merge of a cache whose keys are distinct (they are the keys of a map) into a
cache that already holds all of them: whatever the interleaving, the run ends and every key holds the sum; the
other keys are as before. -/
theorem C55_merge {items : List (ℕ × K)} {s₀ : Bucket K} (hn : (items.map Prod.fst).Nodup)
    (hk : ∀ k ∈ items.map Prod.fst, ∃ u, s₀.lookup k = some u) :
    Acc (fun b a : MergePool K => MergePool.Step items a b) (mergePool items s₀) ∧
    ∀ c, MergePool.Steps items (mergePool items s₀) c → (∀ b, ¬ MergePool.Step items c b) →
      (∀ k v u, (k, v) ∈ items → s₀.lookup k = some u → c.bucket.lookup k = some (u + v)) ∧
      ∀ k, k ∉ items.map Prod.fst → c.bucket.lookup k = s₀.lookup k := by
  refine ⟨MergePool.acc _ _, fun c hc hstop => ?_⟩
  have hinv : MergeInv items s₀ c := by
    have h0 : MergeInv items s₀ (mergePool items s₀) := by
      refine ⟨by simp [mergePool], fun _ => rfl, fun i k v pc a u h1 h2 h3 h4 => ?_, fun _ _ => rfl⟩
      have hp : (items.map fun _ => (MergePC.start : MergePC K))[i]? = some pc := h2
      rw [List.getElem?_map, h1, Option.map_some, Option.some.injEq] at hp
      subst hp
      have h4' : (s₀.nodes[a]?).map Prod.snd = some u := by
        unfold Bucket.lookup at h4; rw [h3] at h4; exact h4
      exact h4'
    clear hstop
    generalize mergePool items s₀ = a at hc h0
    induction hc with
    | refl => exact h0
    | step s _ ih => exact ih (h0.step hn hk s)
  refine ⟨fun k v u hkv hu => ?_, fun k hkn => ?_⟩
  · obtain ⟨a, ha, -⟩ := Option.bind_eq_some_iff.1 hu
    obtain ⟨i, hi, he⟩ := List.getElem_of_mem hkv
    have hi? : items[i]? = some (k, v) := by rw [List.getElem?_eq_getElem hi, he]
    have hpl : i < c.pcs.length := by rw [hinv.len]; exact hi
    have hok := hinv.ok i k v _ a u hi? (List.getElem?_eq_getElem hpl) ha hu
    have hdone : c.pcs[i] = .done := by
      have hno : mergeTaskStep k v c.pcs[i] c.bucket = none := by
        cases hm : mergeTaskStep k v c.pcs[i] c.bucket with
        | none => rfl
        | some r =>
            have hs := MergePool.Step.task i hi? (List.getElem?_eq_getElem hpl) (pc' := r.1) (s' := r.2) hm
            exact absurd hs (hstop _)
      cases hp : c.pcs[i] with
      | done => rfl
      | start =>
          rw [hp] at hno; simp only [mergeTaskStep] at hno
          split at hno <;> simp at hno
      | insert snap => rw [hp] at hno; simp [mergeTaskStep] at hno
      | load b =>
          rw [hp] at hno hok
          obtain ⟨rfl, hv⟩ := hok
          obtain ⟨n, hn1, -⟩ := Option.map_eq_some_iff.1 hv
          simp [mergeTaskStep, hn1] at hno
      | store b w =>
          rw [hp] at hno hok
          obtain ⟨rfl, -, hv⟩ := hok
          obtain ⟨n, hn1, -⟩ := Option.map_eq_some_iff.1 hv
          simp [mergeTaskStep, hn1] at hno
    rw [hdone] at hok
    unfold Bucket.lookup
    rw [hinv.find k, ha]
    exact hok
  · unfold Bucket.lookup
    rw [hinv.find k]
    cases hf : s₀.find k with
    | none => rfl
    | some a =>
      simp only [Option.bind_some]
      rw [hinv.out a fun k' hk' he => ?_]
      have e1 := Bucket.key_find hf
      have e2 := Bucket.key_find he
      rw [e1, Option.some.injEq] at e2
      exact hkn (e2 ▸ hk')

/-- C55, the race.  If two of the keys are missing from the cache, there is a run of the parallel merge that ends
with one of them missing: its derivative is lost (`m_cache[k]` then reports zero). -/
theorem C55_merge_counterexample {k₁ k₂ : ℕ} (hne : k₁ ≠ k₂) (v₁ v₂ : K) {s₀ : Bucket K}
    (h1 : s₀.find k₁ = none) (h2 : s₀.find k₂ = none) (hch : ∀ a ∈ s₀.chain, a < s₀.nodes.length) :
    ∃ c, MergePool.Steps [(k₁, v₁), (k₂, v₂)] (mergePool [(k₁, v₁), (k₂, v₂)] s₀) c ∧
      c.pcs = [.done, .done] ∧ c.bucket.lookup k₁ = none := by
  obtain ⟨nodes, chain⟩ := s₀
  simp only at hch
  let n := nodes.length
  refine ⟨⟨[.done, .done], ⟨((nodes ++ [(k₁, 0)] ++ [(k₂, 0)]).set n (k₁, 0 + v₁)).set (n + 1) (k₂, 0 + v₂),
    (n + 1) :: chain⟩⟩, ?_, rfl, ?_⟩
  · refine .step (.task 0 rfl rfl (pc' := .insert chain) (s' := ⟨nodes, chain⟩) ?_) ?_
    · simp only [mergeTaskStep, h1]
    refine .step (.task 1 rfl rfl (pc' := .insert chain) (s' := ⟨nodes, chain⟩) ?_) ?_
    · simp only [mergeTaskStep, h2]
    refine .step (.task 0 rfl rfl (pc' := .load n) (s' := ⟨nodes ++ [(k₁, 0)], n :: chain⟩) rfl) ?_
    refine .step (.task 1 rfl rfl (pc' := .load (n + 1))
      (s' := ⟨nodes ++ [(k₁, 0)] ++ [(k₂, 0)], (n + 1) :: chain⟩) ?_) ?_
    · simp [mergeTaskStep, n]
    refine .step (.task 0 rfl rfl (pc' := .store n 0)
      (s' := ⟨nodes ++ [(k₁, 0)] ++ [(k₂, 0)], (n + 1) :: chain⟩) ?_) ?_
    · simp [mergeTaskStep, n]
    refine .step (.task 0 rfl rfl (pc' := .done)
      (s' := ⟨(nodes ++ [(k₁, 0)] ++ [(k₂, 0)]).set n (k₁, 0 + v₁), (n + 1) :: chain⟩) ?_) ?_
    · simp [mergeTaskStep, n]
    refine .step (.task 1 rfl rfl (pc' := .store (n + 1) 0)
      (s' := ⟨(nodes ++ [(k₁, 0)] ++ [(k₂, 0)]).set n (k₁, 0 + v₁), (n + 1) :: chain⟩) ?_) ?_
    · simp [mergeTaskStep, n]
    refine .step (.task 1 rfl rfl (pc' := .done)
      (s' := ⟨((nodes ++ [(k₁, 0)] ++ [(k₂, 0)]).set n (k₁, 0 + v₁)).set (n + 1) (k₂, 0 + v₂), (n + 1) :: chain⟩) ?_)
      (.refl _)
    simp [mergeTaskStep, n]
  · have hf : (⟨((nodes ++ [(k₁, 0)] ++ [(k₂, 0)]).set n (k₁, 0 + v₁)).set (n + 1) (k₂, 0 + v₂),
        (n + 1) :: chain⟩ : Bucket K).find k₁ = none := by
      simp only [Bucket.find, List.find?_eq_none, List.mem_cons] at h1 ⊢
      rintro a (rfl | ha)
      · simp [Bucket.key, n, hne.symm]
      · have hlt := hch a ha
        have := h1 a ha
        simpa [Bucket.key, List.getElem?_set, List.getElem?_append, hlt, n, show n ≠ a by omega,
          show n + 1 ≠ a by omega, show nodes.length ≠ a by omega, show nodes.length + 1 ≠ a by omega,
          show a < nodes.length + 1 by omega] using this
    unfold Bucket.lookup
    rw [hf]; rfl

end

/-- `C55_merge` on a cache that holds both keys. -/
example : ∀ c, MergePool.Steps [(7, (2 : ℚ)), (9, 3)] (mergePool [(7, 2), (9, 3)] ⟨[(9, 1), (7, 5)], [0, 1]⟩) c →
    (∀ b, ¬ MergePool.Step [(7, 2), (9, 3)] c b) → c.bucket.lookup 7 = some 7 ∧ c.bucket.lookup 9 = some 4 := by
  intro c hc hs
  have h := (C55_merge (items := [(7, (2 : ℚ)), (9, 3)]) (s₀ := ⟨[(9, 1), (7, 5)], [0, 1]⟩) (by decide) (fun k hk => by
      simp only [List.map_cons, List.map_nil, List.mem_cons, List.not_mem_nil, or_false] at hk
      rcases hk with rfl | rfl
      · exact ⟨5, rfl⟩
      · exact ⟨1, rfl⟩)).2 c hc hs
  exact ⟨(h.1 7 2 5 (by simp) rfl).trans (by decide +kernel), (h.1 9 3 1 (by simp) rfl).trans (by decide +kernel)⟩

/-- `C55_merge_counterexample` on an empty cache. -/
example : ∃ c, MergePool.Steps [(7, (2 : ℚ)), (9, 3)] (mergePool [(7, 2), (9, 3)] ⟨[], []⟩) c ∧
    c.pcs = [.done, .done] ∧ c.bucket.lookup 7 = none :=
  C55_merge_counterexample (by decide) 2 3 rfl rfl (by simp)

end CoolDiff
