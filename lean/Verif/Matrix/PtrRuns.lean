import Verif.Matrix.RevStatic
import Verif.Matrix.ExactPre

/-!
# Evaluation and the gradient caches

`Eval` and `DevalF` touch no gradient cache, so with pointers they do what they do with matrices, in every state.
-/

set_option linter.unusedSectionVars false

namespace CoolDiff

variable {K : Type} [Field K] [DecidableEq K]

/-! ## Evaluation leaves the gradient caches alone -/

/-- No gradient cache changes. -/
def KStep (s s' : MSt K) : Prop := ∀ q, (s'.obj q).cache = (s.obj q).cache

theorem KStep.refl (s : MSt K) : KStep s s := fun _ => rfl

theorem KStep.trans {s s' s'' : MSt K} (h : KStep s s') (h' : KStep s' s'') : KStep s s'' :=
  fun q => (h' q).trans (h q)

theorem KStep.setN (s : MSt K) (n : ℕ) (a : Slots K) : KStep s (s.setN n a) := fun _ => rfl

theorem KStep.setO {s : MSt K} {o : ℕ} {v : MObj K} (h : v.cache = (s.obj o).cache) : KStep s (s.setO o v) := by
  intro q
  by_cases hq : q = o
  · subst hq; simp [h]
  · rw [setO_ne _ _ hq]

theorem evalE_kstep {c : MCtx K} {ev : ℕ → MSt K → Option (MSt K × Mat K)}
    (hev : ∀ o s r, ev o s = some r → KStep s r.1) : ∀ (e : MNode K) s r, evalE c ev e s = some r → KStep s r.1
  | .obj o, s, r, h => hev o s r h
  | .bin n op x y, s, r, h => by
    simp only [evalE] at h
    split at h
    · simp only [Option.bind_eq_bind, Option.bind_eq_some_iff] at h
      obtain ⟨l, h1, r', h2, a, _, h4⟩ := h
      cases h4
      exact ((evalE_kstep hev x s l h1).trans (evalE_kstep hev y l.1 r' h2)).trans (.setN _ _ _)
    · cases h
  | .un n op x, s, r, h => by
    simp only [evalE] at h
    split at h
    · simp only [Option.bind_eq_bind, Option.bind_eq_some_iff] at h
      obtain ⟨l, h1, a, _, h4⟩ := h
      cases h4
      exact (evalE_kstep hev x s l h1).trans (.setN _ _ _)
    · cases h

theorem mevalO_kstep (c : MCtx K) : ∀ f o s r, mevalO c f o s = some r → KStep s r.1
  | 0, o, s, r, h => by simp [mevalO] at h
  | f + 1, o, s, r, h => by
    rcases hk : c.E.kind o with _ | _ | _ | _ | ⟨n, e, eye⟩
    case form =>
      simp only [mevalO, hk] at h
      split at h
      · simp only [Option.map_eq_some_iff] at h
        obtain ⟨m, _, rfl⟩ := h
        exact KStep.setO rfl
      · simp only [Option.bind_eq_bind, Option.bind_eq_some_iff] at h
        obtain ⟨t, h1, h2⟩ := h
        cases h2
        have s1 := evalE_kstep (mevalO_kstep c f) _ _ _ h1
        have s0 : KStep s (s.setO o { s.obj o with evald := true }) := KStep.setO rfl
        have s3 := KStep.setO (s := s.setO o { s.obj o with evald := true }) (o := o)
          (v := { (s.setO o { s.obj o with evald := true }).obj o with visited := true }) rfl
        have s4 : KStep t.1 (t.1.setO o { t.1.obj o with result := some t.2, evald := true }) := KStep.setO rfl
        exact s0.trans (s3.trans (s1.trans s4))
    all_goals
      simp only [mevalO, hk, Option.bind_eq_bind, Option.bind_eq_some_iff] at h
      obtain ⟨m, _, h⟩ := h
      cases h
      exact KStep.setO rfl

theorem fwdE_kstep {c : MCtx K} {X : ℕ} {ev fw : ℕ → MSt K → Option (MSt K × Mat K)}
    (hev : ∀ o s r, ev o s = some r → KStep s r.1)
    (hfw : ∀ o s r, fw o s = some r → KStep s r.1) : ∀ (e : MNode K) s r,
    fwdE c X ev fw e s = some r → KStep s r.1
  | .obj o, s, r, h => hfw o s r h
  | .bin n op x y, s, r, h => by
    simp only [fwdE] at h
    split at h
    · simp only [Option.bind_eq_bind, Option.bind_eq_some_iff] at h
      obtain ⟨dl, h1, dr, h2, h⟩ := h
      have s1 := (fwdE_kstep hev hfw x s dl h1).trans (fwdE_kstep hev hfw y dl.1 dr h2)
      split at h
      · simp only [Option.bind_eq_some_iff] at h
        obtain ⟨l, h3, r', h4, a, _, h5⟩ := h
        cases h5
        exact ((s1.trans (evalE_kstep hev x _ _ h3)).trans (evalE_kstep hev y _ _ h4)).trans (.setN _ _ _)
      · simp only [Option.bind_eq_some_iff] at h
        obtain ⟨a, _, h5⟩ := h
        cases h5
        exact s1.trans (.setN _ _ _)
    · cases h
  | .un n op x, s, r, h => by
    simp only [fwdE] at h
    split at h
    · simp only [Option.bind_eq_bind, Option.bind_eq_some_iff] at h
      obtain ⟨d, h1, h⟩ := h
      have s1 := fwdE_kstep hev hfw x s d h1
      split at h
      · simp only [Option.bind_eq_some_iff] at h
        obtain ⟨l, h3, a, _, h5⟩ := h
        cases h5
        exact (s1.trans (evalE_kstep hev x _ _ h3)).trans (.setN _ _ _)
      · simp only [Option.bind_eq_some_iff] at h
        obtain ⟨a, _, h5⟩ := h
        cases h5
        exact s1.trans (.setN _ _ _)
    · cases h

theorem mfwdO_kstep (c : MCtx K) (X : ℕ) : ∀ f o s r, mfwdO c X f o s = some r → KStep s r.1
  | 0, o, s, r, h => by simp [mfwdO] at h
  | f + 1, o, s, r, h => by
    rcases hk : c.E.kind o with _ | _ | _ | _ | ⟨n, e, eye⟩
    case form =>
      simp only [mfwdO, hk] at h
      split at h
      · simp only [Option.map_eq_some_iff] at h
        obtain ⟨m, _, rfl⟩ := h
        exact KStep.setO rfl
      · simp only [Option.bind_eq_bind, Option.bind_eq_some_iff] at h
        obtain ⟨d, h1, r', h2, h3⟩ := h
        cases h3
        have s1 := fwdE_kstep (mevalO_kstep c f) (mfwdO_kstep c X f) _ _ _ h1
        have s2 := evalE_kstep (mevalO_kstep c f) _ _ _ h2
        have s0 : KStep s (s.setO o { s.obj o with devald := true }) := KStep.setO rfl
        have s3 := KStep.setO (s := s.setO o { s.obj o with devald := true }) (o := o)
          (v := { (s.setO o { s.obj o with devald := true }).obj o with visited := true }) rfl
        have s4 : KStep d.1 (d.1.setO o { d.1.obj o with dresult := some d.2, devald := true }) := KStep.setO rfl
        have s5 : KStep r'.1 (r'.1.setO o { r'.1.obj o with result := some r'.2, evald := true }) := KStep.setO rfl
        exact s0.trans (s3.trans (s1.trans (s4.trans (s2.trans s5))))
    all_goals
      simp only [mfwdO, hk, Option.bind_eq_bind, Option.bind_eq_some_iff] at h
      obtain ⟨m, _, h⟩ := h
      cases h
      exact KStep.setO rfl

end CoolDiff
