import Mathlib.Data.List.Basic
import Mathlib.Logic.Function.Basic
import Mathlib.Data.Rat.Defs
import Mathlib.Algebra.Field.Rat

/-!
# Threads in matrix reverse mode (model): `m_cloned[incFunc()]`

In a build with `ENABLE_STL_PARALLEL_EXECUTION` the loop of GenericMatProduct.hpp:211-225 (and the same loop of
the other matrix operators) runs one task per entry `(idx, val)` of the operand's cache:

    MatType*& ptr = this->m_cloned[this->incFunc()];
    MATRIX_SCALAR_MUL(mp_arr6_val, val, ptr);
    if (auto it2 = cache->find(idx); it2 != cache->end()) { ... } else { (*cache)[idx] = ptr; }

`incFunc` (MetaMatrix.cpp:51-57) is `m_clone_counter += 1; return m_clone_counter;` on a plain `long long`: a read,
a write, and another read.

Modelled: entries whose key is missing from the cache, with a buffer for every slot of `m_cloned` (no resize), the
product as one write of the buffer and the store in the cache as one step on a map that tolerates it.  Every
simplification is in favour of the code.
-/

namespace CoolDiff

/-- Shared state: the counter, the buffers of `m_cloned`, the cache (key to slot). -/
structure CloneSt (M : Type) where
  counter : ℤ
  buf : ℤ → M
  cache : ℕ → Option ℤ

/-- Where a task is. -/
inductive ClonePC where
  /-- before `m_clone_counter += 1` -/
  | start
  /-- `+=` has read the counter -/
  | inc (c : ℤ)
  /-- before the read of `return m_clone_counter` -/
  | ret
  /-- `incFunc` returned this slot -/
  | mul (slot : ℤ)
  /-- the product is in the buffer -/
  | put (slot : ℤ)
  | done

section
variable {M : Type}

/-- One access of the task for the key `k`, whose product is `p` (`MATRIX_SCALAR_MUL(mp_arr6_val, val, ptr)`). -/
def cloneStep (k : ℕ) (p : M) : ClonePC → CloneSt M → Option (ClonePC × CloneSt M)
  | .start, s => some (.inc s.counter, s)
  | .inc c, s => some (.ret, { s with counter := c + 1 })
  | .ret, s => some (.mul s.counter, s)
  | .mul i, s => some (.put i, { s with buf := Function.update s.buf i p })
  | .put i, s => some (.done, { s with cache := Function.update s.cache k (some i) })
  | .done, _ => none

/-- The loop. -/
structure ClonePool (M : Type) where
  pcs : List ClonePC
  st : CloneSt M

/-- Some task does its next access. -/
inductive ClonePool.Step (items : List (ℕ × M)) : ClonePool M → ClonePool M → Prop
  | task {pcs : List ClonePC} {s s' : CloneSt M} {pc pc' : ClonePC} (i : ℕ) {k : ℕ} {p : M} :
      items[i]? = some (k, p) → pcs[i]? = some pc → cloneStep k p pc s = some (pc', s') →
      Step items ⟨pcs, s⟩ ⟨pcs.set i pc', s'⟩

/-- The runs of the loop. -/
inductive ClonePool.Steps (items : List (ℕ × M)) : ClonePool M → ClonePool M → Prop
  | refl (c : ClonePool M) : Steps items c c
  | step {a b c : ClonePool M} : Step items a b → Steps items b c → Steps items a c

/-- What the cache holds under `k`. -/
def CloneSt.lookup (s : CloneSt M) (k : ℕ) : Option M := (s.cache k).map s.buf

theorem ClonePool.Steps.trans {items : List (ℕ × M)} {a b c : ClonePool M} (h : ClonePool.Steps items a b)
    (h' : ClonePool.Steps items b c) : ClonePool.Steps items a c := by
  induction h with
  | refl => exact h'
  | step s _ ih => exact .step s (ih h')

/-- One task, from beginning to end. -/
theorem ClonePool.whole {items : List (ℕ × M)} {i k : ℕ} {p : M} (hi : items[i]? = some (k, p))
    (pcs : List ClonePC) (hp : pcs[i]? = some .start) (s : CloneSt M) :
    ClonePool.Steps items ⟨pcs, s⟩ ⟨pcs.set i .done, ⟨s.counter + 1, Function.update s.buf (s.counter + 1) p,
      Function.update s.cache k (some (s.counter + 1))⟩⟩ := by
  have hl : i < pcs.length := (List.getElem?_eq_some_iff.1 hp).1
  refine .step (.task i hi hp (pc' := .inc s.counter) (s' := s) rfl) ?_
  refine .step (.task i hi (by simp [hl]) (pc := .inc s.counter) (pc' := .ret)
    (s' := { s with counter := s.counter + 1 }) rfl) ?_
  refine .step (.task i hi (by simp [hl]) (pc := .ret) (pc' := .mul (s.counter + 1))
    (s' := { s with counter := s.counter + 1 }) rfl) ?_
  refine .step (.task i hi (by simp [hl]) (pc := .mul (s.counter + 1)) (pc' := .put (s.counter + 1))
    (s' := ⟨s.counter + 1, Function.update s.buf (s.counter + 1) p, s.cache⟩) rfl) ?_
  have h := ClonePool.Step.task (items := items)
    (pcs := (((pcs.set i (.inc s.counter)).set i .ret).set i (.mul (s.counter + 1))).set i (.put (s.counter + 1)))
    (s := ⟨s.counter + 1, Function.update s.buf (s.counter + 1) p, s.cache⟩)
    i hi (by simp [hl]) (pc := .put (s.counter + 1)) (pc' := .done)
    (s' := ⟨s.counter + 1, Function.update s.buf (s.counter + 1) p, Function.update s.cache k (some (s.counter + 1))⟩) rfl
  have h' := ClonePool.Steps.step h (.refl _)
  simpa only [List.set_set] using h'

/-- C55, matrix reverse mode: two entries with new keys, one task after the other: each key gets its own product. -/
theorem C55_clone_sequential {k₁ k₂ : ℕ} (hk : k₁ ≠ k₂) (p₁ p₂ : M) (s : CloneSt M) :
    ∃ c, ClonePool.Steps [(k₁, p₁), (k₂, p₂)] ⟨[.start, .start], s⟩ c ∧ c.pcs = [.done, .done] ∧
      c.st.lookup k₁ = some p₁ ∧ c.st.lookup k₂ = some p₂ := by
  have h1 := ClonePool.whole (items := [(k₁, p₁), (k₂, p₂)]) (i := 0) rfl [.start, .start] rfl s
  have h2 := ClonePool.whole (items := [(k₁, p₁), (k₂, p₂)]) (i := 1) rfl [.done, .start] rfl
    ⟨s.counter + 1, Function.update s.buf (s.counter + 1) p₁, Function.update s.cache k₁ (some (s.counter + 1))⟩
  refine ⟨_, h1.trans h2, rfl, ?_, ?_⟩
  · simp [CloneSt.lookup, Function.update_of_ne hk]
  · simp [CloneSt.lookup]

/-- C55, matrix reverse mode, the race: there is a run in which both tasks get the same slot, and both keys end with
the second product: the derivative with respect to the first matrix is wrong. -/
theorem C55_clone_counterexample {k₁ k₂ : ℕ} (hk : k₁ ≠ k₂) (p₁ p₂ : M) (s : CloneSt M) :
    ∃ c, ClonePool.Steps [(k₁, p₁), (k₂, p₂)] ⟨[.start, .start], s⟩ c ∧ c.pcs = [.done, .done] ∧
      c.st.lookup k₁ = some p₂ ∧ c.st.lookup k₂ = some p₂ := by
  let n := s.counter
  let b₁ := Function.update s.buf (n + 1) p₁
  let b₂ := Function.update b₁ (n + 1) p₂
  let c₁ := Function.update s.cache k₁ (some (n + 1))
  let c₂ := Function.update c₁ k₂ (some (n + 1))
  refine ⟨⟨[.done, .done], ⟨n + 1, b₂, c₂⟩⟩, ?_, rfl, ?_, ?_⟩
  · refine .step (.task 0 rfl rfl (pc' := .inc n) (s' := s) rfl) ?_
    refine .step (.task 1 rfl rfl (pc' := .inc n) (s' := s) rfl) ?_
    refine .step (.task 0 rfl rfl (pc' := .ret) (s' := { s with counter := n + 1 }) rfl) ?_
    refine .step (.task 1 rfl rfl (pc' := .ret) (s' := { s with counter := n + 1 }) rfl) ?_
    refine .step (.task 0 rfl rfl (pc' := .mul (n + 1)) (s' := { s with counter := n + 1 }) rfl) ?_
    refine .step (.task 1 rfl rfl (pc' := .mul (n + 1)) (s' := { s with counter := n + 1 }) rfl) ?_
    refine .step (.task 0 rfl rfl (pc' := .put (n + 1)) (s' := ⟨n + 1, b₁, s.cache⟩) rfl) ?_
    refine .step (.task 1 rfl rfl (pc' := .put (n + 1)) (s' := ⟨n + 1, b₂, s.cache⟩) rfl) ?_
    refine .step (.task 0 rfl rfl (pc' := .done) (s' := ⟨n + 1, b₂, c₁⟩) rfl) ?_
    exact .step (.task 1 rfl rfl (pc' := .done) (s' := ⟨n + 1, b₂, c₂⟩) rfl) (.refl _)
  · simp [CloneSt.lookup, b₂, c₂, c₁, Function.update_of_ne hk]
  · simp [CloneSt.lookup, b₂, c₂]

end

/-- A concrete instance: keys 7 and 9, products 2 and 3. -/
example : ∃ c, ClonePool.Steps [(7, (2 : ℚ)), (9, 3)] ⟨[.start, .start], ⟨-1, fun _ => 0, fun _ => none⟩⟩ c ∧
    c.pcs = [.done, .done] ∧ c.st.lookup 7 = some 3 ∧ c.st.lookup 9 = some 3 :=
  C55_clone_counterexample (by decide) 2 3 _

end CoolDiff
