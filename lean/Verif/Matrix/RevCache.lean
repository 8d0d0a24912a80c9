import Verif.Matrix.RevOps

/-!
# The reverse-mode cache

Adding to an entry and merging a child's cache, in terms of the elements of the entries.
-/

set_option linter.unusedSectionVars false

namespace CoolDiff

open Finset

variable {K : Type} [Field K] [DecidableEq K]

namespace MCache

/-- The cache has an entry for `k`. -/
def has (κ : MCache K) (k : MKey) : Prop := ∃ m, κ.find k = some m

/-- Element `(i,j)` of the entry for `k`, zero if there is none. -/
noncomputable def ent (κ : MCache K) (k : MKey) (i j : ℕ) : K :=
  match κ.find k with
  | some m => m.val i j
  | none => 0

theorem find_put (κ : MCache K) (k k' : MKey) (m : Mat K) :
    (κ.put k m).find k' = if k' = k then some m else κ.find k' := by
  induction κ with
  | nil =>
    by_cases h : k' = k
    · subst h; simp [put, find]
    · simp [put, find, h, Ne.symm h]
  | cons p l ih =>
    obtain ⟨k0, m0⟩ := p
    by_cases h0 : k0 = k
    · subst h0
      by_cases h : k' = k0
      · subst h; simp [put, find]
      · simp [put, find, h, Ne.symm h]
    · simp only [put, if_neg h0, find]
      by_cases h1 : k0 = k'
      · subst h1; simp [h0]
      · simp [h1, ih]

theorem put_keys (κ : MCache K) (k : MKey) (m : Mat K) (k' : MKey) :
    k' ∈ (κ.put k m).map Prod.fst ↔ k' ∈ κ.map Prod.fst ∨ k' = k := by
  induction κ with
  | nil => simp [put]
  | cons p l ih =>
    obtain ⟨k0, m0⟩ := p
    by_cases h0 : k0 = k
    · subst h0
      simp only [put, if_true, List.map_cons, List.mem_cons]
      tauto
    · simp only [put, if_neg h0, List.map_cons, List.mem_cons, ih]
      tauto

theorem put_nodup (κ : MCache K) (k : MKey) (m : Mat K) (h : (κ.map Prod.fst).Nodup) :
    ((κ.put k m).map Prod.fst).Nodup := by
  induction κ with
  | nil => simp [put]
  | cons p l ih =>
    obtain ⟨k0, m0⟩ := p
    simp only [List.map_cons, List.nodup_cons] at h
    by_cases h0 : k0 = k
    · subst h0
      simpa [put] using h
    · simp only [put, if_neg h0, List.map_cons, List.nodup_cons, put_keys]
      exact ⟨fun h' => h'.elim h.1 h0, ih h.2⟩

theorem find_none_iff (κ : MCache K) (k : MKey) : κ.find k = none ↔ k ∉ κ.map Prod.fst := by
  induction κ with
  | nil => simp [find]
  | cons p l ih =>
    obtain ⟨k0, m0⟩ := p
    by_cases h : k0 = k
    · subst h; simp [find]
    · simp only [find, if_neg h, ih, List.map_cons, List.mem_cons]
      exact ⟨fun h1 h2 => h2.elim (fun h3 => h h3.symm) h1, fun h1 h2 => h1 (Or.inr h2)⟩

theorem not_has (κ : MCache K) (k : MKey) : ¬κ.has k ↔ κ.find k = none := by
  simp only [has]
  cases κ.find k <;> simp

theorem ent_of_not_has {κ : MCache K} {k : MKey} (h : ¬κ.has k) (i j : ℕ) : κ.ent k i j = 0 := by
  rw [not_has] at h; simp [ent, h]

theorem ent_congr {κ κ' : MCache K} {k : MKey} (h : κ'.find k = κ.find k) (i j : ℕ) :
    κ'.ent k i j = κ.ent k i j := by
  simp only [ent, h]

theorem has_congr {κ κ' : MCache K} {k : MKey} (h : κ'.find k = κ.find k) :
    κ'.has k ↔ κ.has k := by
  simp only [has, h]

theorem find_mem {κ : MCache K} {k : MKey} {m : Mat K} (h : κ.find k = some m) : (k, m) ∈ κ := by
  induction κ with
  | nil => simp [find] at h
  | cons p l ih =>
    obtain ⟨k0, m0⟩ := p
    by_cases h0 : k0 = k
    · subst h0; simp only [find, if_true, Option.some.injEq] at h; subst h; simp
    · simp only [find, if_neg h0] at h
      exact List.mem_cons_of_mem _ (ih h)

theorem mem_find {κ : MCache K} (hn : (κ.map Prod.fst).Nodup) {k : MKey} {m : Mat K}
    (h : (k, m) ∈ κ) : κ.find k = some m := by
  induction κ with
  | nil => simp at h
  | cons p l ih =>
    obtain ⟨k0, m0⟩ := p
    simp only [List.map_cons, List.nodup_cons] at hn
    rcases List.mem_cons.1 h with h | h
    · cases h; simp [find]
    · have : k0 ≠ k := by
        rintro rfl; exact hn.1 (List.mem_map.2 ⟨_, h, rfl⟩)
      simp only [find, if_neg this]
      exact ih hn.2 h

end MCache

/-- Every key at most once; every entry live with the dimensions of the object or node it belongs
to. -/
structure CWF (kd : MKey → ℕ × ℕ) (κ : MCache K) : Prop where
  nodup : (κ.map Prod.fst).Nodup
  ok : ∀ k m, κ.find k = some m → m.WF ∧ m.rows = (kd k).1 ∧ m.cols = (kd k).2

theorem CWF.nil (kd : MKey → ℕ × ℕ) : CWF kd ([] : MCache K) :=
  ⟨by simp, fun k m h => by simp [MCache.find] at h⟩

variable {kd : MKey → ℕ × ℕ}

theorem CWF.rep {κ : MCache K} (h : CWF kd κ) {k : MKey} {m : Mat K} (hm : κ.find k = some m) :
    Rep m (kd k).1 (kd k).2 (κ.ent k) := by
  obtain ⟨h1, h2, h3⟩ := h.ok k m hm
  have := h1.rep
  rw [h2, h3] at this
  exact this.congr fun i j _ _ => by simp [MCache.ent, hm]

theorem Rep.val_eq {m : Mat K} {r c : ℕ} {A : ℕ → ℕ → K} (h : Rep m r c A) {i j : ℕ} (hi : i < r)
    (hj : j < c) : m.val i j = A i j := by
  simp [Mat.val, h.elem i j hi hj]

theorem CWF.put {κ : MCache K} (h : CWF kd κ) {k : MKey} {m : Mat K} {A : ℕ → ℕ → K}
    (hm : Rep m (kd k).1 (kd k).2 A) : CWF kd (κ.put k m) := by
  refine ⟨MCache.put_nodup _ _ _ h.nodup, ?_⟩
  intro k' m' h'
  rw [MCache.find_put] at h'
  by_cases hk : k' = k
  · subst hk; rw [if_pos rfl] at h'; cases h'
    exact ⟨hm.wf, hm.rows, hm.cols⟩
  · rw [if_neg hk] at h'; exact h.ok k' m' h'

theorem kadd_spec {c : MCtx K} (hB : c.B.Sound c.E.P) {κ : MCache K} (hκ : CWF kd κ) {k : MKey}
    {m : Mat K} {A : ℕ → ℕ → K} (hm : Rep m (kd k).1 (kd k).2 A) :
    ∃ κ', kadd c κ k m = some κ' ∧ CWF kd κ' ∧ (∀ k', k' ≠ k → κ'.find k' = κ.find k') ∧
      κ'.has k ∧ ∀ i j, i < (kd k).1 → j < (kd k).2 → κ'.ent k i j = κ.ent k i j + A i j := by
  cases hf : κ.find k with
  | none =>
    refine ⟨κ.put k m, by simp [kadd, hf], hκ.put hm, ?_, ?_, ?_⟩
    · intro k' hk'; rw [MCache.find_put, if_neg hk']
    · exact ⟨m, by rw [MCache.find_put, if_pos rfl]⟩
    · intro i j hi hj
      simp only [MCache.ent, MCache.find_put, if_true, hf, zero_add]
      exact hm.val_eq hi hj
  | some cur =>
    obtain ⟨M, hM1, hM2⟩ := hB.add (l := .self) (r := .ext m) (b := some cur)
      (Live.some (hκ.ok k cur hf).1) rfl (hκ.rep hf) rfl hm
    refine ⟨κ.put k M, by simp [kadd, hf, hM1], hκ.put hM2, ?_, ?_, ?_⟩
    · intro k' hk'; rw [MCache.find_put, if_neg hk']
    · exact ⟨M, by rw [MCache.find_put, if_pos rfl]⟩
    · intro i j hi hj
      have : (κ.put k M).ent k i j = M.val i j := by
        simp only [MCache.ent, MCache.find_put, if_true]
      rw [this, hM2.val_eq hi hj]

/-- Merging entries of a child's cache, scaled by its 1 × 1 adjoint. -/
theorem mergeFold_spec {c : MCtx K} (hB : c.B.Sound c.E.P) {adj : Mat K} {A : ℕ → ℕ → K}
    (hadj : Rep adj 1 1 A) {child : MCache K} (hch : CWF kd child) : ∀ (ks : List MKey), ks.Nodup →
    (∀ k ∈ ks, child.has k) → ∀ κ : MCache K, CWF kd κ →
    ∃ κ', ks.foldlM (fun κ k => (child.find k).bind fun m => mergeStep c adj κ (k, m)) κ = some κ' ∧
      CWF kd κ' ∧
      (∀ k, k ∉ ks → κ'.find k = κ.find k) ∧ (∀ k ∈ ks, κ'.has k) ∧
      ∀ k ∈ ks, ∀ i j, i < (kd k).1 → j < (kd k).2 →
        κ'.ent k i j = κ.ent k i j + A 0 0 * child.ent k i j := by
  intro ks
  induction ks with
  | nil => intro _ _ κ hκ; exact ⟨κ, rfl, hκ, fun _ _ => rfl, by simp, by simp⟩
  | cons k0 l ih =>
    intro hnd hks κ hκ
    rw [List.nodup_cons] at hnd
    obtain ⟨m0, hf0⟩ := hks k0 (by simp)
    obtain ⟨m1, e1, r1⟩ := hB.scalarMul (A 0 0) (r := .ext m0) (b := none)
      (fun m h => by cases h) rfl (hch.rep hf0)
    obtain ⟨κ1, e2, w2, o2, h2, v2⟩ := kadd_spec hB hκ r1
    obtain ⟨κ2, e3, w3, o3, h3, v3⟩ := ih hnd.2 (fun k hk => hks k (by simp [hk])) κ1 w2
    refine ⟨κ2, ?_, w3, ?_, ?_, ?_⟩
    · have hstep : (child.find k0).bind (fun m => mergeStep c adj κ (k0, m)) = some κ1 := by
        simp only [hf0, Option.bind_some, mergeStep, hadj.rows, hadj.cols, hadj.raw0, e1, e2]
        simp
      simp only [List.foldlM_cons, hstep, Option.bind_eq_bind, Option.bind_some]
      exact e3
    · intro k hk
      simp only [List.mem_cons, not_or] at hk
      rw [o3 k hk.2, o2 k hk.1]
    · intro k hk
      by_cases hkk : k = k0
      · subst hkk; rw [MCache.has_congr (o3 k hnd.1)]; exact h2
      · exact h3 k ((List.mem_cons.1 hk).resolve_left hkk)
    · intro k hk i j hi hj
      by_cases hkk : k = k0
      · subst hkk
        rw [MCache.ent_congr (o3 k hnd.1), v2 i j hi hj]
      · rw [v3 k ((List.mem_cons.1 hk).resolve_left hkk) i j hi hj, MCache.ent_congr (o2 k hkk)]

theorem MCache.mem_keys (κ : MCache K) (k : MKey) : k ∈ κ.map Prod.fst ↔ κ.has k := by
  have := MCache.find_none_iff κ k
  rw [← MCache.not_has] at this
  constructor
  · intro h; by_contra hh; exact this.1 hh h
  · intro h; by_contra hh; exact this.2 hh h

/-- Merging a child's cache, scaled by its 1 × 1 adjoint. -/
theorem mergeC_spec {c : MCtx K} (hB : c.B.Sound c.E.P) {adj : Mat K} {A : ℕ → ℕ → K}
    (hadj : Rep adj 1 1 A) (child : MCache K) (hch : CWF kd child) (κ : MCache K) (hκ : CWF kd κ) :
    ∃ κ', mergeC c κ adj child = some κ' ∧ CWF kd κ' ∧
      (∀ k, ¬child.has k → κ'.find k = κ.find k) ∧ (∀ k, child.has k → κ'.has k) ∧
      ∀ k i j, i < (kd k).1 → j < (kd k).2 →
        κ'.ent k i j = κ.ent k i j + A 0 0 * child.ent k i j := by
  have hmem : ∀ k, k ∈ c.π.run _ (child.map Prod.fst) ↔ child.has k := fun k => by
    rw [c.π.mem, MCache.mem_keys]
  obtain ⟨κ', e1, w1, k1, p1, v1⟩ := mergeFold_spec hB hadj hch _ (c.π.nodup hch.nodup)
    (fun k hk => (hmem k).1 hk) κ hκ
  refine ⟨κ', e1, w1, fun k hk => k1 k (fun h => hk ((hmem k).1 h)),
    fun k hk => p1 k ((hmem k).2 hk), fun k i j hi hj => ?_⟩
  by_cases hk : child.has k
  · exact v1 k ((hmem k).2 hk) i j hi hj
  · rw [MCache.ent_congr (k1 k (fun h => hk ((hmem k).1 h))), MCache.ent_of_not_has hk]; ring

end CoolDiff
