import Verif.Scalar.Termination

/-!
# The depth bound is not observable

Raising the depth bound never changes an answer, so the bounded recursion of the model computes what
the unbounded C++ recursion computes.
-/

set_option linter.unusedSectionVars false

namespace CoolDiff

variable {K : Type} [Field K] [DecidableEq K]

/-- `g` answers whatever `f` answers. -/
def Ext {α β γ : Type} (f g : α → β → Option γ) : Prop := ∀ a b r, f a b = some r → g a b = some r

section
variable (P : Prim K) (D : Defs K)
variable {recE recE' recD recD' : ℕ → Mem K → Option (K × Mem K)}
variable {recT recT' : ℕ → Mem K → Option (Mem K)}

theorem evalN_ext (h : Ext recE recE') (t : Node K) :
    ∀ m r, evalN P D recE t m = some r → evalN P D recE' t m = some r := by
  induction t with
  | leaf o => intro m r; exact h o m r
  | par p => intro m r; exact id
  | op1 n f a ih =>
      intro m r he
      simp only [evalN, Option.bind_eq_bind, Option.bind_eq_some_iff] at he ⊢
      obtain ⟨u, h1, h2⟩ := he
      exact ⟨u, ih _ _ h1, h2⟩
  | op2 n f a b iha ihb =>
      intro m r he
      simp only [evalN] at he ⊢
      split at he
      · next hf =>
        simp only [hf, if_true, Option.bind_eq_bind, Option.bind_eq_some_iff] at he ⊢
        obtain ⟨u, h1, v, h2, h3⟩ := he
        exact ⟨u, ihb _ _ h1, v, iha _ _ h2, h3⟩
      · next hf =>
        rw [if_neg hf]
        simp only [Option.bind_eq_bind, Option.bind_eq_some_iff] at he ⊢
        obtain ⟨u, h1, v, h2, h3⟩ := he
        exact ⟨u, iha _ _ h1, v, ihb _ _ h2, h3⟩

theorem evalItems_ext (h : Ext recE recE') (o : ℕ) (is : List (Node K)) :
    ∀ m r, evalItems P D recE o is m = some r → evalItems P D recE' o is m = some r := by
  induction is with
  | nil => intro m r; exact id
  | cons i is ih =>
      intro m r he
      simp only [evalItems, Option.bind_eq_bind, Option.bind_eq_some_iff] at he ⊢
      obtain ⟨u, h1, h2⟩ := he
      exact ⟨u, evalN_ext P D h i _ _ h1, ih _ _ h2⟩

theorem evalO_ext (f : ℕ) : Ext (evalO P D f) (evalO P D (f + 1)) := by
  induction f with
  | zero => intro o m r h; simp [evalO] at h
  | succ f ih =>
      intro o m r h
      rw [evalO] at h ⊢
      split at h
      · next hv =>
        rw [if_pos hv]
        simp only [Option.bind_eq_bind, Option.bind_eq_some_iff] at h ⊢
        obtain ⟨u, h1, h2⟩ := h
        exact ⟨u, evalItems_ext P D ih _ _ _ _ h1, h2⟩
      · next hv => rw [if_neg hv]; exact h

theorem fwdN_ext (h : Ext recE recE') (h' : Ext recD recD') (t : Node K) :
    ∀ m r, fwdN P D recE recD t m = some r → fwdN P D recE' recD' t m = some r := by
  induction t with
  | leaf o => intro m r; exact h' o m r
  | par p => intro m r; exact id
  | op1 n f a ih =>
      intro m r he
      simp only [fwdN, Option.bind_eq_bind, Option.bind_eq_some_iff] at he ⊢
      obtain ⟨u, h1, h2⟩ := he
      refine ⟨u, ih _ _ h1, ?_⟩
      split at h2
      · next hf =>
        simp only [hf, if_true, Option.bind_eq_some_iff] at h2 ⊢
        obtain ⟨v, h3, h4⟩ := h2
        exact ⟨v, evalN_ext P D h _ _ _ h3, h4⟩
      · next hf => simp only [hf]; exact h2
  | op2 n f a b iha ihb =>
      intro m r he
      simp only [fwdN, Option.bind_eq_bind, Option.bind_eq_some_iff] at he ⊢
      obtain ⟨u, h1, w, h2, h3⟩ := he
      refine ⟨u, iha _ _ h1, w, ihb _ _ h2, ?_⟩
      split at h3
      · next hf =>
        simp only [hf, if_true] at h3 ⊢
        split at h3
        · next hg =>
          simp only [hg, if_true, Option.bind_eq_some_iff] at h3 ⊢
          obtain ⟨v, h4, v', h5, h6⟩ := h3
          exact ⟨v, evalN_ext P D h _ _ _ h4, v', evalN_ext P D h _ _ _ h5, h6⟩
        · next hg =>
          rw [if_neg hg]
          simp only [Option.bind_eq_some_iff] at h3 ⊢
          obtain ⟨v, h4, v', h5, h6⟩ := h3
          exact ⟨v, evalN_ext P D h _ _ _ h4, v', evalN_ext P D h _ _ _ h5, h6⟩
      · next hf => simp only [hf]; exact h3

theorem fwdItems_ext (h : Ext recE recE') (h' : Ext recD recD') (o : ℕ) (is : List (Node K)) :
    ∀ m r, fwdItems P D recE recD o is m = some r → fwdItems P D recE' recD' o is m = some r := by
  induction is with
  | nil => intro m r; exact id
  | cons i is ih =>
      intro m r he
      simp only [fwdItems, Option.bind_eq_bind, Option.bind_eq_some_iff] at he ⊢
      obtain ⟨u, h1, v, h2, h3⟩ := he
      exact ⟨u, fwdN_ext P D h h' i _ _ h1, v, evalN_ext P D h _ _ _ h2, ih _ _ h3⟩

theorem fwdO_ext (k f : ℕ) : Ext (fwdO P D k f) (fwdO P D k (f + 1)) := by
  induction f with
  | zero => intro o m r h; simp [fwdO] at h
  | succ f ih =>
      intro o m r h
      rw [fwdO] at h ⊢
      split at h
      · next hv =>
        rw [if_pos hv]
        simp only [Option.bind_eq_bind, Option.bind_eq_some_iff] at h ⊢
        obtain ⟨u, h1, h2⟩ := h
        exact ⟨u, fwdItems_ext P D (evalO_ext P D f) ih _ _ _ _ h1, h2⟩
      · next hv => rw [if_neg hv]; exact h

theorem val1_ext (h : Ext recE recE') (f : Op1 K) (a : Node K) (m : Mem K) (r : K × Mem K)
    (he : val1 P D recE f a m = some r) : val1 P D recE' f a m = some r := by
  unfold val1 at he ⊢
  split at he
  · next hf => rw [if_pos hf]; exact evalN_ext P D h _ _ _ he
  · next hf => rw [if_neg hf]; exact he

theorem val2_ext (h : Ext recE recE') (f : Op2 K) (a b : Node K) (m : Mem K) (r : K × K × Mem K)
    (he : val2 P D recE f a b m = some r) : val2 P D recE' f a b m = some r := by
  unfold val2 at he ⊢
  split at he
  · next hf =>
    rw [if_pos hf]
    split at he
    · next hg =>
      simp only [hg, if_true, Option.bind_eq_bind, Option.bind_eq_some_iff] at he ⊢
      obtain ⟨v, h4, v', h5, h6⟩ := he
      exact ⟨v, evalN_ext P D h _ _ _ h4, v', evalN_ext P D h _ _ _ h5, h6⟩
    · next hg =>
      rw [if_neg hg]
      simp only [Option.bind_eq_bind, Option.bind_eq_some_iff] at he ⊢
      obtain ⟨v, h4, v', h5, h6⟩ := he
      exact ⟨v, evalN_ext P D h _ _ _ h4, v', evalN_ext P D h _ _ _ h5, h6⟩
  · next hf => rw [if_neg hf]; exact he

theorem unless_ext {a : Node K} {c : Cache K} {m : Mem K} {s s' : Option (Cache K × Mem K)}
    {r : Cache K × Mem K} (hs : s = some r → s' = some r) (h : unlessVisited a c m s = some r) :
    unlessVisited a c m s' = some r := by
  unfold unlessVisited at h ⊢
  split at h
  · next hf => rw [if_pos hf]; exact h
  · next hf => rw [if_neg hf]; exact hs h

theorem revN_ext (h : Ext recE recE') (h' : Ext recT recT') (t : Node K) :
    ∀ c m r, revN P D recE recT t c m = some r → revN P D recE' recT' t c m = some r := by
  induction t with
  | leaf o =>
      intro c m r he
      simp only [revN, Option.bind_eq_bind, Option.bind_eq_some_iff] at he ⊢
      obtain ⟨u, h1, h2⟩ := he
      exact ⟨u, h' _ _ _ h1, h2⟩
  | par p => intro c m r; exact id
  | op1 n f a ih =>
      intro c m r he
      simp only [revN, Option.bind_eq_bind, Option.bind_eq_some_iff] at he ⊢
      obtain ⟨u, h1, v, h2, h3⟩ := he
      exact ⟨u, unless_ext (ih _ _ _) h1, v, val1_ext P D h _ _ _ _ h2, unless_ext (ih _ _ _) h3⟩
  | op2 n f a b iha ihb =>
      intro c m r he
      simp only [revN, Option.bind_eq_bind, Option.bind_eq_some_iff] at he ⊢
      obtain ⟨u, h1, v, h2, w, h3, z, h4, h5⟩ := he
      exact ⟨u, unless_ext (iha _ _ _) h1, v, unless_ext (ihb _ _ _) h2, w,
        val2_ext P D h _ _ _ _ _ h3, z, unless_ext (iha _ _ _) h4, unless_ext (ihb _ _ _) h5⟩

theorem revRoot_ext (h : Ext recE recE') (h' : Ext recT recT') (t : Node K) (m : Mem K)
    (r : Cache K × Mem K) (he : revRoot P D recE recT t m = some r) :
    revRoot P D recE' recT' t m = some r := by
  cases t with
  | leaf o =>
      simp only [revRoot, Option.bind_eq_bind, Option.bind_eq_some_iff] at he ⊢
      obtain ⟨u, h1, h2⟩ := he
      exact ⟨u, h' _ _ _ h1, h2⟩
  | par p => exact he
  | op1 n f a =>
      simp only [revRoot, Option.bind_eq_bind, Option.bind_eq_some_iff] at he ⊢
      obtain ⟨u, h1, v, h2, h3⟩ := he
      exact ⟨u, unless_ext (revN_ext P D h h' _ _ _ _) h1, v, val1_ext P D h _ _ _ _ h2,
        unless_ext (revN_ext P D h h' _ _ _ _) h3⟩
  | op2 n f a b =>
      simp only [revRoot, Option.bind_eq_bind, Option.bind_eq_some_iff] at he ⊢
      obtain ⟨u, h1, v, h2, w, h3, z, h4, h5⟩ := he
      exact ⟨u, unless_ext (revN_ext P D h h' _ _ _ _) h1, v,
        unless_ext (revN_ext P D h h' _ _ _ _) h2, w, val2_ext P D h _ _ _ _ _ h3, z,
        unless_ext (revN_ext P D h h' _ _ _ _) h4, unless_ext (revN_ext P D h h' _ _ _ _) h5⟩

theorem revItems_ext (h : Ext recE recE') (h' : Ext recT recT') (o : ℕ) (is : List (Node K)) :
    ∀ m r, revItems P D recE recT o is m = some r → revItems P D recE' recT' o is m = some r := by
  induction is with
  | nil => intro m r; exact id
  | cons i is ih =>
      intro m r he
      simp only [revItems, Option.bind_eq_bind, Option.bind_eq_some_iff] at he ⊢
      obtain ⟨u, h1, v, h2, h3⟩ := he
      exact ⟨u, revRoot_ext P D h h' i _ _ h1, v, evalN_ext P D h _ _ _ h2, ih _ _ h3⟩

theorem revO_ext (f : ℕ) : Ext (revO P D f) (revO P D (f + 1)) := by
  induction f with
  | zero => intro o m r h; simp [revO] at h
  | succ f ih =>
      intro o m r h
      rw [revO] at h ⊢
      split at h
      · next hv => rw [if_pos hv]; exact revItems_ext P D (evalO_ext P D f) ih _ _ _ _ h
      · next hv => rw [if_neg hv]; exact h

theorem resetN_ext (h : Ext recT recT') (t : Node K) :
    ∀ m r, resetN recT t m = some r → resetN recT' t m = some r := by
  induction t with
  | leaf o => intro m r; exact h o m r
  | par p => intro m r; exact id
  | op1 n f a ih => intro m r; exact ih m r
  | op2 n f a b iha ihb =>
      intro m r he
      simp only [resetN, Option.bind_eq_bind, Option.bind_eq_some_iff] at he ⊢
      obtain ⟨u, h1, h2⟩ := he
      exact ⟨u, iha _ _ h1, ihb _ _ h2⟩

theorem resetItems_ext (h : Ext recT recT') (is : List (Node K)) :
    ∀ m r, resetItems recT is m = some r → resetItems recT' is m = some r := by
  induction is with
  | nil => intro m r; exact id
  | cons i is ih =>
      intro m r he
      simp only [resetItems, Option.bind_eq_bind, Option.bind_eq_some_iff] at he ⊢
      obtain ⟨u, h1, h2⟩ := he
      exact ⟨u, resetN_ext h i _ _ h1, ih _ _ h2⟩

theorem resetO_ext (f : ℕ) : Ext (resetO D f) (resetO D (f + 1)) := by
  induction f with
  | zero => intro o m r h; simp [resetO] at h
  | succ f ih =>
      intro o m r h
      rw [resetO] at h ⊢
      split at h
      · next hv =>
        rw [if_pos hv]
        simp only [Option.bind_eq_bind, Option.bind_eq_some_iff] at h ⊢
        obtain ⟨u, h1, h2⟩ := h
        exact ⟨u, resetItems_ext ih _ _ _ h1, h2⟩
      · next hv => rw [if_neg hv]; exact h

theorem ext_le {α β γ : Type} {F : ℕ → α → β → Option γ} (h : ∀ f, Ext (F f) (F (f + 1)))
    {f g : ℕ} (hfg : f ≤ g) : Ext (F f) (F g) := by
  induction hfg with
  | refl => intro a b r; exact id
  | step _ ih => intro a b r hr; exact h _ _ _ _ (ih a b r hr)

end
end CoolDiff
