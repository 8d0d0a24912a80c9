import Verif.Matrix.RevSimMain

/-!
# Reset with pointers
-/

set_option linter.unusedSectionVars false

namespace CoolDiff

variable {K : Type} [Field K] [DecidableEq K]

/-- What reset does to the objects: counters and caches are kept or cleared; a formula that was
visited and no longer is has had all its counters cleared. -/
structure PR (E : MEnv K) (p p' : PSt K) : Prop where
  slots : p'.slots = p.slots
  dat : p'.dat = p.dat
  next : p'.next = p.next
  cnt : ∀ m, p'.cnt m = p.cnt m ∨ p'.cnt m = 0
  cache : ∀ q, p'.cache q = p.cache q ∨ p'.cache q = []
  clr : ∀ q n e eye, E.kind q = .form n e eye → (p.base.obj q).visited = true →
    (p'.base.obj q).visited = false → ∀ m ∈ (MEnv.item n e eye).nums, p'.cnt m = 0

theorem PR.refl (E : MEnv K) (p : PSt K) : PR E p p :=
  ⟨rfl, rfl, rfl, fun _ => Or.inl rfl, fun _ => Or.inl rfl,
    fun _ _ _ _ _ h h' => by rw [h] at h'; cases h'⟩

theorem PR.zero {E : MEnv K} {p p' : PSt K} (h : PR E p p') {m : ℕ} (hm : p.cnt m = 0) :
    p'.cnt m = 0 := (h.cnt m).elim (fun h => h.trans hm) id

theorem PR.trans {E : MEnv K} {p p' p'' : PSt K} (h : PR E p p') (h' : PR E p' p'') : PR E p p'' := by
  refine ⟨h'.slots.trans h.slots, h'.dat.trans h.dat, h'.next.trans h.next, ?_, ?_, ?_⟩
  · intro m
    rcases h'.cnt m with a | a
    · rcases h.cnt m with b | b
      · exact Or.inl (a.trans b)
      · exact Or.inr (a.trans b)
    · exact Or.inr a
  · intro q
    rcases h'.cache q with a | a
    · rcases h.cache q with b | b
      · exact Or.inl (a.trans b)
      · exact Or.inr (a.trans b)
    · exact Or.inr a
  · intro q n e eye hk hv hv' m hm
    rcases hq : (p'.base.obj q).visited with _ | _
    · exact h'.zero (h.clr q n e eye hk hv hq m hm)
    · exact h'.clr q n e eye hk hq hv' m hm

theorem PR.clear (E : MEnv K) (p : PSt K) (n : ℕ) : PR E p (p.clear n) := by
  refine ⟨rfl, rfl, rfl, ?_, fun _ => Or.inl rfl, ?_⟩
  · intro m
    by_cases hm : m = n
    · subst hm; right; simp [PSt.clear]
    · left; simp [PSt.clear, hm]
  · intro _ _ _ _ _ h h'
    change (p.base.obj _).visited = false at h'
    rw [h] at h'; cases h'

theorem PR.inv {E : MEnv K} {own : ℕ → ℕ} {mg : ℕ → Prop} {kk bs : ℕ → ℕ} {p p' : PSt K}
    (h : PR E p p') (hp : PInv own mg kk bs p) : PInv own mg kk bs p' := by
  have hh : ∀ g, HOk p g → HOk p' g := fun g hg =>
    ⟨hg.rpos, hg.cpos, by rw [h.dat]; exact hg.len, by rw [h.next]; exact hg.bound⟩
  refine ⟨?_, ?_, ?_⟩
  · intro n σ g hg; rw [h.slots] at hg; exact hh g (hp.slot n σ g hg)
  · intro q e he
    rcases h.cache q with a | a
    · rw [a] at he; exact ⟨hh _ (hp.cache q e he).1, (hp.cache q e he).2⟩
    · rw [a] at he; cases he
  · intro n; rw [h.slots]; exact hp.node n

/-- Reset of named matrices: with pointers and with matrices the same. -/
def PRSpec (E : MEnv K) (rs : ℕ → MSt K → Option (MSt K)) (rp : ℕ → PSt K → Option (PSt K)) : Prop :=
  ∀ o p s', rs o p.val = some s' → ∃ p', rp o p = some p' ∧ p'.val = s' ∧ PR E p p'

theorem presetE_spec {E : MEnv K} {rs : ℕ → MSt K → Option (MSt K)} {rp : ℕ → PSt K → Option (PSt K)}
    (h : PRSpec E rs rp) : ∀ (e : MNode K) (p : PSt K) (s' : MSt K), mresetE rs e p.val = some s' →
    ∃ p', presetE rp e p = some p' ∧ p'.val = s' ∧ PR E p p' ∧ ∀ m ∈ e.nums, p'.cnt m = 0
  | .obj o, p, s', hs => by
    obtain ⟨p', h1, h2, h3⟩ := h o p s' hs
    exact ⟨p', h1, h2, h3, by simp [MNode.nums]⟩
  | .bin n op x y, p, s', hs => by
    simp only [mresetE, Option.bind_eq_bind, Option.bind_eq_some_iff] at hs
    obtain ⟨s1, e1, e2⟩ := hs
    obtain ⟨p1, a1, rfl, a3, a4⟩ := presetE_spec h x (p.clear n) s1 e1
    obtain ⟨p2, b1, rfl, b3, b4⟩ := presetE_spec h y p1 s' e2
    refine ⟨p2, by simp [presetE, a1, b1], rfl, ((PR.clear E p n).trans a3).trans b3, ?_⟩
    intro m hm
    simp only [MNode.nums, List.mem_cons, List.mem_append] at hm
    rcases hm with rfl | hm | hm
    · exact b3.zero (a3.zero (by simp [PSt.clear]))
    · exact b3.zero (a4 m hm)
    · exact b4 m hm
  | .un n op x, p, s', hs => by
    simp only [mresetE] at hs
    obtain ⟨p1, a1, rfl, a3, a4⟩ := presetE_spec h x (p.clear n) s' hs
    refine ⟨p1, by simp [presetE, a1], rfl, (PR.clear E p n).trans a3, ?_⟩
    intro m hm
    simp only [MNode.nums, List.mem_cons] at hm
    rcases hm with rfl | hm
    · exact a3.zero (by simp [PSt.clear])
    · exact a4 m hm

theorem presetItem_spec {E : MEnv K} {rs : ℕ → MSt K → Option (MSt K)}
    {rp : ℕ → PSt K → Option (PSt K)} (h : PRSpec E rs rp) (o : ℕ) (p : PSt K) (s' : MSt K)
    (hs : mresetItem E rs o p.val = some s') :
    ∃ p', presetItem E rp o p = some p' ∧ p'.val = s' ∧ PR E p p' ∧
      ∀ n e eye, E.kind o = .form n e eye → ∀ m ∈ (MEnv.item n e eye).nums, p'.cnt m = 0 := by
  simp only [mresetItem] at hs
  simp only [presetItem]
  rcases hk : E.kind o with _ | _ | _ | _ | ⟨n, e, eye⟩ <;> simp only [hk] at hs ⊢
  · exact ⟨p, rfl, Option.some.inj hs, PR.refl E p, by simp⟩
  · exact ⟨p, rfl, Option.some.inj hs, PR.refl E p, by simp⟩
  · exact ⟨p, rfl, Option.some.inj hs, PR.refl E p, by simp⟩
  · exact ⟨p, rfl, Option.some.inj hs, PR.refl E p, by simp⟩
  · obtain ⟨p', h1, h2, h3, h4⟩ := presetE_spec h _ p s' hs
    refine ⟨p', h1, h2, h3, ?_⟩
    intro n' e' eye' h m hm
    cases h; exact h4 m hm

/-- Changing flags of `o` and emptying its cache. -/
theorem PR.setO (E : MEnv K) {p : PSt K} {o : ℕ} {v : MObj K}
    (hv : (p.base.obj o).visited = true → v.visited = false → ∀ n e eye, E.kind o = .form n e eye →
      ∀ m ∈ (MEnv.item n e eye).nums, p.cnt m = 0) : PR E p (p.setBase (p.base.setO o v)) := by
  refine ⟨rfl, rfl, rfl, fun _ => Or.inl rfl, fun _ => Or.inl rfl, ?_⟩
  intro q n e eye hk h h' m hm
  change ((p.base.setO o v).obj q).visited = false at h'
  by_cases hq : q = o
  · subst hq; rw [setO_same] at h'
    exact hv h h' n e eye hk m hm
  · rw [setO_ne _ _ hq, h] at h'; cases h'

theorem PR.setC (E : MEnv K) (p : PSt K) (o : ℕ) : PR E p (p.setC o []) := by
  refine ⟨rfl, rfl, rfl, fun _ => Or.inl rfl, ?_, ?_⟩
  · intro q
    by_cases hq : q = o
    · subst hq; right; simp [PSt.setC]
    · left; simp [PSt.setC, hq]
  · intro _ _ _ _ _ h h'
    change (p.base.obj _).visited = false at h'
    rw [h] at h'; cases h'

theorem presetO_spec (E : MEnv K) : ∀ f, PRSpec E (mresetO E f) (presetO E f)
  | 0 => by intro o p s' h; simp [mresetO] at h
  | f + 1 => by
    intro o p s' h
    simp only [mresetO, Option.bind_eq_some_iff] at h
    obtain ⟨s1, h1, h2⟩ := h
    obtain rfl := Option.some.inj h2
    by_cases hv : (p.base.obj o).visited = true
    · have hv' : (p.val.obj o).visited = true := hv
      rw [if_pos hv'] at h1
      set p0 := p.setBase (p.base.setO o { p.base.obj o with visited := false, evald := false, devald := false }) with hp0
      have hval : p0.val = p.val.setO o { p.val.obj o with visited := false, evald := false, devald := false } :=
        PSt.setO_val p o _
      rw [← hval] at h1
      obtain ⟨p1, a1, rfl, a3, a4⟩ := presetItem_spec (presetO_spec E f) o p0 s1 h1
      refine ⟨(p1.setBase (p1.base.setO o { p1.base.obj o with visited := false })).setC o [], ?_, ?_, ?_⟩
      · simp only [presetO, hv, if_true]
        rw [← hp0, a1]; rfl
      · rw [PSt.setOC_val]; rfl
      · have r1 : PR E p1 ((p1.setBase (p1.base.setO o { p1.base.obj o with visited := false })).setC o []) :=
          (PR.setO E (fun _ _ n e eye hk => a4 n e eye hk)).trans (PR.setC E _ o)
        have hob : ∀ q, q ≠ o → (p0.base.obj q).visited = (p.base.obj q).visited := by
          intro q hq; show ((p.base.setO o _).obj q).visited = _; rw [setO_ne _ _ hq]
        have r2 := a3.trans r1
        refine ⟨r2.slots, r2.dat, r2.next, r2.cnt, r2.cache, ?_⟩
        intro q n e eye hk h h' m hm
        by_cases hq : q = o
        · subst hq; exact r1.zero (a4 n e eye hk m hm)
        · exact r2.clr q n e eye hk (by rw [hob q hq]; exact h) h' m hm
    · have hv' : ¬(p.val.obj o).visited = true := hv
      rw [if_neg hv'] at h1
      obtain rfl := Option.some.inj h1
      refine ⟨(p.setBase (p.base.setO o { p.base.obj o with visited := false })).setC o [], ?_, ?_, ?_⟩
      · simp only [presetO, hv]; rfl
      · rw [PSt.setOC_val]; rfl
      · exact (PR.setO E (fun h => absurd h hv)).trans (PR.setC E _ o)

/-- Reset before `PreComp`; the counters of the formula itself are cleared in any case. -/
theorem precompResetP_spec {E : MEnv K} {f o : ℕ} (ho : E.isForm o) {p : PSt K} {s' : MSt K}
    (h : precompReset E f o p.val = some s') :
    ∃ p', precompResetP E f o p = some p' ∧ p'.val = s' ∧ PR E p p' ∧
      ∀ n e eye, E.kind o = .form n e eye → ∀ m ∈ (MEnv.item n e eye).nums, p'.cnt m = 0 := by
  obtain ⟨n, e, eye, hk⟩ := ho
  simp only [precompReset, hk, mresetImpl, Option.bind_eq_some_iff] at h
  obtain ⟨s1, h1, h2⟩ := h
  obtain rfl := Option.some.inj h2
  set p0 := (p.setBase (p.base.setO o { p.base.obj o with visited := true, evald := false, devald := false })).setC o []
    with hp0
  have hval : p0.val = p.val.setO o { p.val.obj o with visited := true, evald := false, devald := false, cache := [] } := by
    rw [hp0, PSt.setOC_val]; rfl
  rw [← hval] at h1
  obtain ⟨p1, a1, rfl, a3, a4⟩ := presetItem_spec (presetO_spec E f) o p0 s1 h1
  have r0 : PR E p p0 := (PR.setO E (by simp)).trans (PR.setC E _ o)
  have r1 : PR E p1 (p1.setBase (p1.base.setO o { p1.base.obj o with visited := false })) :=
    PR.setO E (fun _ _ n e eye hk => a4 n e eye hk)
  refine ⟨p1.setBase (p1.base.setO o { p1.base.obj o with visited := false }), ?_, ?_,
    (r0.trans a3).trans r1, ?_⟩
  · simp only [precompResetP, hk, presetImpl]
    show (presetItem E (presetO E f) o p0).bind _ = _
    rw [a1]; rfl
  · rw [PSt.setO_val]; rfl
  · intro n e eye hk m hm; exact r1.zero (a4 n e eye hk m hm)

end CoolDiff
