import Verif.Scalar.Model
import Mathlib.Tactic.Ring

/-!
# The reverse-mode cache as the C++ map it is

`OMPair` (CommonHeader.hpp:214,221) is an unordered map.  Here it is a list of entries with distinct
keys; `operator[]` inserts a zero entry for a missing key.  The `Cache` of the model is its
abstraction, and the three things the code does with a cache are shown to commute with it.
-/

set_option linter.unusedSectionVars false

namespace CoolDiff

variable {K : Type} [Field K] [DecidableEq K]

/-- `OMPair`: entries of the map, in iteration order. -/
abbrev OMap (K : Type) := List (ℕ × K)

namespace OMap

/-- The number an entry lookup sees. -/
def toCache : OMap K → Cache K
  | [], _ => 0
  | (k, v) :: c, i => if k = i then v else toCache c i

/-- distinct keys -/
def Ok (c : OMap K) : Prop := (c.map Prod.fst).Nodup

/-- `m_cache[i]`: the value read, and the map afterwards (a missing key is inserted with value 0). -/
def getIns (i : ℕ) : OMap K → K × OMap K
  | [] => (0, [(i, 0)])
  | (k, v) :: c => if k = i then (v, (k, v) :: c) else
      let r := getIns i c
      (r.1, (k, v) :: r.2)

/-- `(*cache)[i] += s` -/
def addAt (i : ℕ) (s : K) : OMap K → OMap K
  | [] => [(i, s)]
  | (k, v) :: c => if k = i then (k, v + s) :: c else (k, v) :: addAt i s c

/-- `for (idx,val) in child: (*cache)[idx] += val*s` (e.g. GenericProduct.hpp:122-127) -/
def mergeLoop (s : K) : OMap K → OMap K → OMap K
  | [], c => c
  | (k, v) :: ch, c => mergeLoop s ch (addAt k (v * s) c)

theorem getIns_fst (i : ℕ) (c : OMap K) : (getIns i c).1 = c.toCache i := by
  induction c with
  | nil => rfl
  | cons p c ih =>
      obtain ⟨k, v⟩ := p
      simp only [getIns, toCache]
      split
      · rfl
      · exact ih

theorem getIns_snd (i : ℕ) (c : OMap K) : (getIns i c).2.toCache = c.toCache := by
  induction c with
  | nil => funext j; simp [getIns, toCache]
  | cons p c ih =>
      obtain ⟨k, v⟩ := p
      funext j
      simp only [getIns]
      split
      · rfl
      · simp only [toCache, ih]

theorem addAt_toCache (i : ℕ) (s : K) (c : OMap K) :
    (addAt i s c).toCache = Cache.addAt c.toCache i s := by
  induction c with
  | nil =>
      funext j
      by_cases h : i = j
      · subst h; simp [addAt, toCache, Cache.addAt]
      · simp [addAt, toCache, Cache.addAt, h, Ne.symm h]
  | cons p c ih =>
      obtain ⟨k, v⟩ := p
      funext j
      simp only [addAt]
      split
      · next e =>
        subst e
        by_cases h : k = j
        · subst h; simp [toCache, Cache.addAt]
        · simp [toCache, Cache.addAt, h, Ne.symm h]
      · next e =>
        by_cases h : k = j
        · subst h; simp [toCache, Cache.addAt, e]
        · simp only [toCache, h, if_false, ih, Cache.addAt, Function.update_apply, e]

theorem toCache_of_not_mem {i : ℕ} {c : OMap K} (h : i ∉ c.map Prod.fst) : c.toCache i = 0 := by
  induction c with
  | nil => rfl
  | cons p c ih =>
      obtain ⟨k, v⟩ := p
      simp only [List.map_cons, List.mem_cons, not_or] at h
      rw [toCache, if_neg (Ne.symm h.1), ih h.2]

/-- Merging entry by entry is adding the scaled child cache. -/
theorem mergeLoop_toCache (s : K) (ch : OMap K) (h : ch.Ok) :
    ∀ c : OMap K, (mergeLoop s ch c).toCache = Cache.merge c.toCache ch.toCache s := by
  induction ch with
  | nil => intro c; funext i; simp [mergeLoop, Cache.merge, toCache]
  | cons p ch ih =>
      obtain ⟨k, v⟩ := p
      intro c
      have hn : k ∉ ch.map Prod.fst ∧ (ch.map Prod.fst).Nodup := List.nodup_cons.1 h
      rw [mergeLoop, ih hn.2, addAt_toCache]
      funext i
      by_cases e : k = i
      · subst e
        simp [Cache.merge, Cache.addAt, toCache, toCache_of_not_mem hn.1]
      · simp [Cache.merge, Cache.addAt, toCache, e, Ne.symm e]

theorem addAt_keys (i : ℕ) (s : K) (c : OMap K) :
    (addAt i s c).map Prod.fst = if i ∈ c.map Prod.fst then c.map Prod.fst
      else c.map Prod.fst ++ [i] := by
  induction c with
  | nil => simp [addAt]
  | cons p c ih =>
      obtain ⟨k, v⟩ := p
      simp only [addAt]
      split
      · next e => subst e; simp
      · next e =>
        rw [List.map_cons, ih]
        simp only [List.map_cons, List.mem_cons, Ne.symm e, false_or]
        split <;> simp

/-- Keys stay distinct. -/
theorem addAt_ok {i : ℕ} {s : K} {c : OMap K} (h : c.Ok) : (addAt i s c).Ok := by
  unfold Ok
  rw [addAt_keys]
  split
  · exact h
  · next hi =>
    rw [List.nodup_append]
    refine ⟨h, by simp, ?_⟩
    rintro a ha b hb rfl
    simp at hb; subst hb; exact hi ha

theorem mergeLoop_ok {s : K} (ch : OMap K) : ∀ {c : OMap K}, c.Ok → (mergeLoop s ch c).Ok := by
  induction ch with
  | nil => intro c h; exact h
  | cons p ch ih => intro c h; exact ih (addAt_ok h)

/-- `DevalR(y,x₁); DevalR(y,x₂); ...`: the answers and the map of `y` afterwards
(`m_cache[x.m_nidx]`, Variable.cpp:179-181). -/
def devalRs : List ℕ → OMap K → List K × OMap K
  | [], c => ([], c)
  | i :: is, c =>
      let r := getIns i c
      let q := devalRs is r.2
      (r.1 :: q.1, q.2)

theorem devalRs_spec (is : List ℕ) : ∀ c : OMap K,
    (devalRs is c).1 = is.map c.toCache ∧ (devalRs is c).2.toCache = c.toCache := by
  induction is with
  | nil => intro c; exact ⟨rfl, rfl⟩
  | cons i is ih =>
      intro c
      obtain ⟨h1, h2⟩ := ih (getIns i c).2
      rw [getIns_snd] at h1 h2
      exact ⟨by simp [devalRs, h1, getIns_fst], by simp [devalRs, h2]⟩

end OMap
end CoolDiff
