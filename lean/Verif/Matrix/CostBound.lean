import Verif.Matrix.Cost
import Verif.Matrix.Runs
import Mathlib.Tactic.Linarith
import Mathlib.Algebra.Order.BigOperators.Group.Finset

/-!
# Matrix queries: bounds on the number of calls
-/

set_option linter.unusedSectionVars false

namespace CoolDiff

variable {K : Type} [Field K] [DecidableEq K]

/-! ## Weights of expressions -/

namespace MNode

/-- The number of operator nodes and mentions of named matrices in an expression. -/
def size : MNode K → ℕ
  | .obj _ => 1
  | .bin _ _ a b => a.size + b.size + 1
  | .un _ _ a => a.size + 1

/-- How deep operators are nested. -/
def depth : MNode K → ℕ
  | .obj _ => 0
  | .bin _ _ a b => max a.depth b.depth + 1
  | .un _ _ a => a.depth + 1

/-- The calls of `devalF` on an expression, apart from those made by the named matrices. -/
def fwdSize : MNode K → ℕ
  | .obj _ => 1
  | .bin _ _ a b => a.fwdSize + b.fwdSize + (a.size + b.size) + 1
  | .un _ _ a => a.fwdSize + a.size + 1

/-- The calls of `traverse` on an expression that has an adjoint, apart from those made by the named matrices. -/
def revSize : MNode K → ℕ
  | .obj _ => 1
  | .bin _ _ a b => 2 * (a.size + b.size) + a.revSize + b.revSize + 1
  | .un _ _ a => 2 * a.size + a.revSize + 1

theorem size_pos (e : MNode K) : 0 < e.size := by cases e <;> simp [size]

theorem fwdSize_le (e : MNode K) : e.fwdSize ≤ (e.depth + 1) * e.size := by
  induction e with
  | obj => simp [fwdSize, size]
  | un n f a ih => simp only [fwdSize, size, depth]; nlinarith
  | bin n f a b iha ihb =>
      simp only [fwdSize, size, depth]
      have h1 := Nat.mul_le_mul_right a.size (Nat.succ_le_succ (le_max_left a.depth b.depth))
      have h2 := Nat.mul_le_mul_right b.size (Nat.succ_le_succ (le_max_right a.depth b.depth))
      simp only [Nat.succ_eq_add_one] at h1 h2
      generalize max a.depth b.depth = d at *
      nlinarith

theorem size_le_revSize (e : MNode K) : e.size ≤ e.revSize := by
  induction e with
  | obj => simp [revSize, size]
  | un n f a ih => simp only [revSize, size]; omega
  | bin n f a b iha ihb => simp only [revSize, size]; omega

theorem revSize_le (e : MNode K) : e.revSize ≤ (2 * e.depth + 1) * e.size := by
  induction e with
  | obj => simp [revSize, size]
  | un n f a ih => simp only [revSize, size, depth]; nlinarith
  | bin n f a b iha ihb =>
      simp only [revSize, size, depth]
      have h1 := Nat.mul_le_mul_right a.size
        (Nat.succ_le_succ (Nat.mul_le_mul_left 2 (le_max_left a.depth b.depth)))
      have h2 := Nat.mul_le_mul_right b.size
        (Nat.succ_le_succ (Nat.mul_le_mul_left 2 (le_max_right a.depth b.depth)))
      simp only [Nat.succ_eq_add_one] at h1 h2
      generalize max a.depth b.depth = d at *
      nlinarith

end MNode

/-! ## Potentials -/

/-- Weight of the formula of a named matrix. -/
def MEnv.weight (E : MEnv K) (f : MNode K → ℕ) (o : ℕ) : ℕ :=
  match E.kind o with
  | .form n e eye => f (MEnv.item n e eye)
  | _ => 0

/-- Total weight of the named matrices whose flag is `b`. -/
def mpot (b : Bool) (S : Finset ℕ) (w : ℕ → ℕ) (s : MSt K) : ℕ :=
  ∑ q ∈ S, if (s.obj q).visited = b then w q else 0

theorem mpot_le (b : Bool) (S : Finset ℕ) (w : ℕ → ℕ) (s : MSt K) : mpot b S w s ≤ ∑ q ∈ S, w q :=
  Finset.sum_le_sum fun q _ => by split <;> omega

theorem mpot_congr {b : Bool} {S : Finset ℕ} {w : ℕ → ℕ} {s s' : MSt K}
    (h : ∀ q, (s'.obj q).visited = (s.obj q).visited) : mpot b S w s' = mpot b S w s := by
  simp only [mpot, h]

theorem mpot_setO_same {b : Bool} {S : Finset ℕ} {w : ℕ → ℕ} {s : MSt K} {o : ℕ} {v : MObj K}
    (h : v.visited = (s.obj o).visited) : mpot b S w (s.setO o v) = mpot b S w s := by
  refine mpot_congr fun q => ?_
  simp only [MSt.setO, Function.update_apply]
  split
  · subst_vars; exact h
  · rfl

theorem mpot_setN {b : Bool} {S : Finset ℕ} {w : ℕ → ℕ} {s : MSt K} {n : ℕ} {a : Slots K} :
    mpot b S w (s.setN n a) = mpot b S w s := rfl

/-- Marking a matrix pays for its weight. -/
theorem mpot_mark {b : Bool} {S : Finset ℕ} {w : ℕ → ℕ} {s : MSt K} {o : ℕ} {v : MObj K} (ho : o ∈ S)
    (hs : (s.obj o).visited = b) (hv : v.visited = !b) : mpot b S w (s.setO o v) + w o = mpot b S w s := by
  rw [mpot, mpot, ← Finset.add_sum_erase S _ ho,
    ← Finset.add_sum_erase S (fun q => if (s.obj q).visited = b then w q else 0) ho]
  have : ∑ q ∈ S.erase o, (if ((s.setO o v).obj q).visited = b then w q else 0) =
      ∑ q ∈ S.erase o, if (s.obj q).visited = b then w q else 0 :=
    Finset.sum_congr rfl fun q hq => by
      simp only [MSt.setO, Function.update_of_ne (Finset.ne_of_mem_erase hq)]
  rw [this, hs]
  simp [MSt.setO, hv, add_comm]

/-- Setting the flag to the other value never costs. -/
theorem mpot_drop {b : Bool} {S : Finset ℕ} {w : ℕ → ℕ} {s : MSt K} {o : ℕ} {v : MObj K}
    (hv : v.visited = !b) : mpot b S w (s.setO o v) ≤ mpot b S w s := by
  refine Finset.sum_le_sum fun q _ => ?_
  simp only [MSt.setO, Function.update_apply]
  split
  · simp [hv]
  · exact le_refl _

/-- The set contains the matrices mentioned in the formulas of its members. -/
def MClosed (E : MEnv K) (S : Finset ℕ) : Prop :=
  ∀ o ∈ S, ∀ n e eye, E.kind o = .form n e eye → ∀ p ∈ (MEnv.item n e eye).objs, p ∈ S

/-- A call on a named matrix costs 1, apart from the weight of the matrices it marks, and leaves all caches alone. -/
def MCostE (S : Finset ℕ) (w : ℕ → ℕ) (ev : ℕ → MSt K → Option (ℕ × MSt K × Mat K)) : Prop :=
  ∀ o ∈ S, ∀ s r, ev o s = some r →
    r.1 + mpot false S w r.2.1 ≤ 1 + mpot false S w s ∧ ∀ p, (r.2.1.obj p).cache = (s.obj p).cache

variable {c : MCtx K} {S : Finset ℕ} {w : ℕ → ℕ}

/-! ## `eval` -/

theorem evalEC_le {ev : ℕ → MSt K → Option (ℕ × MSt K × Mat K)} (hr : MCostE S w ev) (e : MNode K) :
    (∀ p ∈ e.objs, p ∈ S) → ∀ s r, evalEC c ev e s = some r →
      r.1 + mpot false S w r.2.1 ≤ e.size + mpot false S w s ∧ ∀ p, (r.2.1.obj p).cache = (s.obj p).cache := by
  induction e with
  | obj o => intro hl s r h; exact hr o (hl o (by simp [MNode.objs])) s r h
  | bin n op a b iha ihb =>
      intro hl s r h
      simp only [evalEC] at h
      split at h
      · simp only [Option.bind_eq_some_iff, Option.some.injEq] at h
        obtain ⟨x, hx, y, hy, z, -, rfl⟩ := h
        obtain ⟨h1, h2⟩ := iha (fun p hp => hl p (by simp [MNode.objs, hp])) s x hx
        obtain ⟨h3, h4⟩ := ihb (fun p hp => hl p (by simp [MNode.objs, hp])) _ y hy
        refine ⟨?_, fun p => (h4 p).trans (h2 p)⟩
        simp only [MNode.size, mpot_setN]
        omega
      · simp at h
  | un n op a ih =>
      intro hl s r h
      simp only [evalEC] at h
      split at h
      · simp only [Option.bind_eq_some_iff, Option.some.injEq] at h
        obtain ⟨x, hx, z, -, rfl⟩ := h
        obtain ⟨h1, h2⟩ := ih hl s x hx
        refine ⟨?_, h2⟩
        simp only [MNode.size, mpot_setN]
        omega
      · simp at h

theorem setO_cache {s : MSt K} {o : ℕ} {v : MObj K} (h : v.cache = (s.obj o).cache) (p : ℕ) :
    ((s.setO o v).obj p).cache = (s.obj p).cache := by
  simp only [MSt.setO, Function.update_apply]
  split
  · subst_vars; exact h
  · rfl

theorem mevalOC_le (hS : MClosed c.E S) (hw : ∀ o ∈ S, c.E.weight MNode.size o ≤ w o) (f : ℕ) :
    MCostE S w (mevalOC c f) := by
  induction f with
  | zero => intro o _ s r h; simp [mevalOC] at h
  | succ f ih =>
      intro o ho s r h
      have hwo := hw o ho
      cases hk : c.E.kind o with
      | form n e eye =>
          simp only [mevalOC, hk] at h
          simp only [MEnv.weight, hk] at hwo
          split at h
          · simp only [Option.map_eq_some_iff] at h
            obtain ⟨m, -, rfl⟩ := h
            refine ⟨?_, fun p => setO_cache (by rfl) p⟩
            simp only
            rw [mpot_setO_same (by rfl)]
          · rename_i hv
            simp only [Option.bind_eq_some_iff, Option.some.injEq] at h
            obtain ⟨x, hx, rfl⟩ := h
            obtain ⟨h1, h2⟩ := evalEC_le ih _ (fun p hp => hS o ho n e eye hk p hp) _ x hx
            have hv' : ((s.setO o { s.obj o with evald := true }).obj o).visited = false := by simpa using hv
            have hm := mpot_mark (w := w) (v := { (s.setO o { s.obj o with evald := true }).obj o with visited := true })
              ho hv' rfl
            rw [mpot_setO_same (s := s) (by rfl)] at hm
            have h1' : x.1 + mpot false S w x.2.1 + w o ≤ (MEnv.item n e eye).size + mpot false S w s := by
              rw [← hm, ← Nat.add_assoc]; exact Nat.add_le_add_right h1 _
            refine ⟨?_, fun p => ?_⟩
            · simp only
              rw [mpot_setO_same (by rfl)]
              omega
            · rw [setO_cache (by rfl) p, h2 p, setO_cache (by rfl) p, setO_cache (by rfl) p]
      | _ =>
          simp only [mevalOC, hk, Option.bind_eq_some_iff, Option.some.injEq] at h
          obtain ⟨x, -, rfl⟩ := h
          exact ⟨Nat.add_le_add_left (mpot_drop rfl) 1, fun p => setO_cache (by rfl) p⟩

/-! ## `devalF` -/

theorem fwdEC_le {X : ℕ} {ev fw : ℕ → MSt K → Option (ℕ × MSt K × Mat K)} (hr : MCostE S w ev) (hf : MCostE S w fw)
    (e : MNode K) : (∀ p ∈ e.objs, p ∈ S) → ∀ s r, fwdEC c X ev fw e s = some r →
      r.1 + mpot false S w r.2.1 ≤ e.fwdSize + mpot false S w s ∧ ∀ p, (r.2.1.obj p).cache = (s.obj p).cache := by
  induction e with
  | obj o => intro hl s r h; exact hf o (hl o (by simp [MNode.objs])) s r h
  | bin n op a b iha ihb =>
      intro hl s r h
      have hla : ∀ p ∈ a.objs, p ∈ S := fun p hp => hl p (by simp [MNode.objs, hp])
      have hlb : ∀ p ∈ b.objs, p ∈ S := fun p hp => hl p (by simp [MNode.objs, hp])
      simp only [fwdEC] at h
      split at h
      · simp only [Option.bind_eq_some_iff] at h
        obtain ⟨x, hx, y, hy, h⟩ := h
        obtain ⟨h1, h2⟩ := iha hla s x hx
        obtain ⟨h3, h4⟩ := ihb hlb _ y hy
        split at h
        · simp only [Option.bind_eq_some_iff, Option.some.injEq] at h
          obtain ⟨u, hu, v, hv, z, -, rfl⟩ := h
          obtain ⟨h5, h6⟩ := evalEC_le hr a hla _ u hu
          obtain ⟨h7, h8⟩ := evalEC_le hr b hlb _ v hv
          refine ⟨?_, fun p => (h8 p).trans ((h6 p).trans ((h4 p).trans (h2 p)))⟩
          simp only [MNode.fwdSize, mpot_setN]
          omega
        · simp only [Option.bind_eq_some_iff, Option.some.injEq] at h
          obtain ⟨z, -, rfl⟩ := h
          refine ⟨?_, fun p => (h4 p).trans (h2 p)⟩
          simp only [MNode.fwdSize, mpot_setN]
          omega
      · simp at h
  | un n op a ih =>
      intro hl s r h
      simp only [fwdEC] at h
      split at h
      · simp only [Option.bind_eq_some_iff] at h
        obtain ⟨x, hx, h⟩ := h
        obtain ⟨h1, h2⟩ := ih hl s x hx
        split at h
        · simp only [Option.bind_eq_some_iff, Option.some.injEq] at h
          obtain ⟨u, hu, z, -, rfl⟩ := h
          obtain ⟨h5, h6⟩ := evalEC_le hr a hl _ u hu
          refine ⟨?_, fun p => (h6 p).trans (h2 p)⟩
          simp only [MNode.fwdSize, mpot_setN]
          omega
        · simp only [Option.bind_eq_some_iff, Option.some.injEq] at h
          obtain ⟨z, -, rfl⟩ := h
          refine ⟨?_, h2⟩
          simp only [MNode.fwdSize, mpot_setN]
          omega
      · simp at h

theorem MEnv.weight_mono {E : MEnv K} {f g : MNode K → ℕ} (h : ∀ e, f e ≤ g e) (o : ℕ) : E.weight f o ≤ E.weight g o := by
  simp only [MEnv.weight]
  split
  · exact h _
  · exact le_refl _

theorem mfwdOC_le {X : ℕ} (hS : MClosed c.E S) (hw : ∀ o ∈ S, c.E.weight (fun e => e.fwdSize + e.size) o ≤ w o) (f : ℕ) :
    MCostE S w (mfwdOC c X f) := by
  have he := mevalOC_le (w := w) hS fun o ho =>
    (MEnv.weight_mono (fun e => Nat.le_add_left e.size e.fwdSize) o).trans (hw o ho)
  induction f with
  | zero => intro o _ s r h; simp [mfwdOC] at h
  | succ f ih =>
      intro o ho s r h
      have hwo := hw o ho
      cases hk : c.E.kind o with
      | form n e eye =>
          simp only [mfwdOC, hk] at h
          simp only [MEnv.weight, hk] at hwo
          split at h
          · simp only [Option.map_eq_some_iff] at h
            obtain ⟨m, -, rfl⟩ := h
            refine ⟨?_, fun p => setO_cache (by rfl) p⟩
            simp only
            rw [mpot_setO_same (by rfl)]
          · rename_i hv
            simp only [Option.bind_eq_some_iff, Option.some.injEq] at h
            obtain ⟨x, hx, y, hy, rfl⟩ := h
            obtain ⟨h1, h2⟩ := fwdEC_le (he f) ih _ (fun p hp => hS o ho n e eye hk p hp) _ x hx
            obtain ⟨h3, h4⟩ := evalEC_le (he f) _ (fun p hp => hS o ho n e eye hk p hp) _ y hy
            rw [mpot_setO_same (by rfl)] at h3
            have hv' : ((s.setO o { s.obj o with devald := true }).obj o).visited = false := by simpa using hv
            have hm := mpot_mark (w := w) (v := { (s.setO o { s.obj o with devald := true }).obj o with visited := true })
              ho hv' rfl
            rw [mpot_setO_same (s := s) (by rfl)] at hm
            have h1' : x.1 + mpot false S w x.2.1 + w o ≤ (MEnv.item n e eye).fwdSize + mpot false S w s := by
              rw [← hm, ← Nat.add_assoc]; exact Nat.add_le_add_right h1 _
            refine ⟨?_, fun p => ?_⟩
            · simp only
              rw [mpot_setO_same (by rfl)]
              omega
            · rw [setO_cache (by rfl) p, h4 p, setO_cache (by rfl) p, h2 p, setO_cache (by rfl) p, setO_cache (by rfl) p]
      | _ =>
          simp only [mfwdOC, hk, Option.bind_eq_some_iff, Option.some.injEq] at h
          obtain ⟨x, -, rfl⟩ := h
          exact ⟨Nat.add_le_add_left (mpot_drop rfl) 1, fun p => setO_cache (by rfl) p⟩

/-! ## `reset` -/

/-- A reset of a named matrix costs 1, apart from the weight of the matrices it unmarks; caches are left alone or
emptied. -/
def MCostR (S : Finset ℕ) (w : ℕ → ℕ) (rs : ℕ → MSt K → Option (ℕ × MSt K)) : Prop :=
  ∀ o ∈ S, ∀ s r, rs o s = some r →
    r.1 + mpot true S w r.2 ≤ 1 + mpot true S w s ∧ ∀ p, (r.2.obj p).cache = (s.obj p).cache ∨ (r.2.obj p).cache = []

theorem cache_or_trans {x y z : MCache K} (h : x = y ∨ x = []) (h' : y = z ∨ y = []) : x = z ∨ x = [] := by
  rcases h with rfl | rfl
  · exact h'
  · exact .inr rfl

theorem mresetEC_le {rs : ℕ → MSt K → Option (ℕ × MSt K)} (hr : MCostR S w rs) (e : MNode K) :
    (∀ p ∈ e.objs, p ∈ S) → ∀ s r, mresetEC rs e s = some r →
      r.1 + mpot true S w r.2 ≤ e.size + mpot true S w s ∧
      ∀ p, (r.2.obj p).cache = (s.obj p).cache ∨ (r.2.obj p).cache = [] := by
  induction e with
  | obj o => intro hl s r h; exact hr o (hl o (by simp [MNode.objs])) s r h
  | bin n op a b iha ihb =>
      intro hl s r h
      simp only [mresetEC, Option.bind_eq_some_iff, Option.some.injEq] at h
      obtain ⟨x, hx, y, hy, rfl⟩ := h
      obtain ⟨h1, h2⟩ := iha (fun p hp => hl p (by simp [MNode.objs, hp])) s x hx
      obtain ⟨h3, h4⟩ := ihb (fun p hp => hl p (by simp [MNode.objs, hp])) _ y hy
      refine ⟨?_, fun p => cache_or_trans (h4 p) (h2 p)⟩
      simp only [MNode.size]
      omega
  | un n op a ih =>
      intro hl s r h
      simp only [mresetEC, Option.bind_eq_some_iff, Option.some.injEq] at h
      obtain ⟨x, hx, rfl⟩ := h
      obtain ⟨h1, h2⟩ := ih hl s x hx
      refine ⟨?_, h2⟩
      simp only [MNode.size]
      omega

theorem mresetItemC_le {E : MEnv K} {rs : ℕ → MSt K → Option (ℕ × MSt K)} (hS : MClosed E S) (hr : MCostR S w rs)
    {o : ℕ} (ho : o ∈ S) {s : MSt K} {r : ℕ × MSt K} (h : mresetItemC E rs o s = some r) :
    r.1 + mpot true S w r.2 ≤ E.weight MNode.size o + mpot true S w s ∧
      ∀ p, (r.2.obj p).cache = (s.obj p).cache ∨ (r.2.obj p).cache = [] := by
  cases hk : E.kind o with
  | form n e eye =>
      simp only [mresetItemC, hk] at h
      simp only [MEnv.weight, hk]
      exact mresetEC_le hr _ (fun p hp => hS o ho n e eye hk p hp) _ _ h
  | _ =>
      simp only [mresetItemC, hk, Option.some.injEq] at h
      subst h
      simp [MEnv.weight, hk]

theorem setO_cache_or {s : MSt K} {o : ℕ} {v : MObj K} (h : v.cache = (s.obj o).cache ∨ v.cache = []) (p : ℕ) :
    ((s.setO o v).obj p).cache = (s.obj p).cache ∨ ((s.setO o v).obj p).cache = [] := by
  simp only [MSt.setO, Function.update_apply]
  split
  · subst_vars; exact h
  · exact .inl rfl

theorem mresetOC_le {E : MEnv K} (hS : MClosed E S) (hw : ∀ o ∈ S, E.weight MNode.size o ≤ w o) (f : ℕ) :
    MCostR S w (mresetOC E f) := by
  induction f with
  | zero => intro o _ s r h; simp [mresetOC] at h
  | succ f ih =>
      intro o ho s r h
      have hwo := hw o ho
      simp only [mresetOC, Option.bind_eq_some_iff, Option.some.injEq] at h
      obtain ⟨x, hx, rfl⟩ := h
      have hd := mpot_drop (b := true) (S := S) (w := w) (s := x.2) (o := o)
        (v := { x.2.obj o with visited := false, cache := [] }) rfl
      split at hx
      · rename_i hv
        obtain ⟨h1, h2⟩ := mresetItemC_le hS ih ho hx
        have hm := mpot_mark (w := w) (v := { s.obj o with visited := false, evald := false, devald := false })
          ho hv rfl
        have h1' : x.1 + mpot true S w x.2 + w o ≤ E.weight MNode.size o + mpot true S w s := by
          rw [← hm, ← Nat.add_assoc]; exact Nat.add_le_add_right h1 _
        refine ⟨(Nat.add_le_add_left hd _).trans ?_, fun p => cache_or_trans (setO_cache_or (.inr (by rfl)) p)
          (cache_or_trans (h2 p) (setO_cache_or (.inl (by rfl)) p))⟩
        omega
      · simp only [Option.some.injEq] at hx
        subst hx
        exact ⟨(Nat.add_le_add_left hd _).trans (by simp), fun p => setO_cache_or (.inr (by rfl)) p⟩

theorem mresetImplC_le {E : MEnv K} (hS : MClosed E S) {f o : ℕ} (ho : o ∈ S) {s : MSt K} {r : ℕ × MSt K}
    (h : mresetImplC E f o s = some r) :
    r.1 ≤ 2 * (∑ q ∈ S, E.weight MNode.size q) + 1 ∧
      ∀ p, (r.2.obj p).cache = (s.obj p).cache ∨ (r.2.obj p).cache = [] := by
  simp only [mresetImplC, Option.bind_eq_some_iff, Option.some.injEq] at h
  obtain ⟨x, hx, rfl⟩ := h
  obtain ⟨h1, h2⟩ := mresetItemC_le hS (mresetOC_le hS (fun _ _ => le_refl _) f) ho hx
  have h3 := mpot_le true S (E.weight MNode.size)
    (s.setO o { s.obj o with visited := true, evald := false, devald := false, cache := [] })
  have h4 : E.weight MNode.size o ≤ ∑ q ∈ S, E.weight MNode.size q :=
    Finset.single_le_sum (f := fun q => E.weight MNode.size q) (fun _ _ => Nat.zero_le _) ho
  refine ⟨?_, fun p => cache_or_trans (setO_cache_or (.inl (by rfl)) p)
    (cache_or_trans (h2 p) (setO_cache_or (.inr (by rfl)) p))⟩
  have h1 := h1.trans (Nat.add_le_add_left h3 _)
  simp only
  omega

end CoolDiff
