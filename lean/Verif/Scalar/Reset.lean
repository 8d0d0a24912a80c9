import Verif.Scalar.EvalProof

/-!
# What `reset` does
-/

set_option linter.unusedSectionVars false

namespace CoolDiff

variable {K : Type} [Field K] [DecidableEq K]

section
variable (D : Defs K)

/-- Effect of (part of) a reset: flags only go down, a freshly unvisited object has all its operands
unvisited, objects without equations keep or regain their number, other objects are untouched. -/
structure RFrame (S : Set ℕ) (m m' : Mem K) : Prop where
  anti : ∀ q, m'.visited q = true → m.visited q = true
  closed : ∀ q, m.visited q = true → m'.visited q = false → ∀ i ∈ D.items q, ∀ p ∈ i.leaves,
    m'.visited p = false
  vis : ∀ q, q ∉ S → m'.visited q = m.visited q
  plain : ∀ q, (m'.value q = m.value q ∧ m'.dvalue q = m.dvalue q ∧ m'.cache q = m.cache q) ∨
    (m'.value q = D.base q ∧ m'.dvalue q = 0 ∧ m'.cache q = fun _ => 0)
  out : ∀ q, q ∉ S → m'.value q = m.value q ∧ m'.dvalue q = m.dvalue q ∧ m'.cache q = m.cache q

theorem RFrame.refl (S : Set ℕ) (m : Mem K) : RFrame D S m m :=
  ⟨fun _ h => h, fun q h h' => by simp [h] at h', fun _ _ => rfl, fun _ => Or.inl ⟨rfl, rfl, rfl⟩,
    fun _ _ => ⟨rfl, rfl, rfl⟩⟩

theorem RFrame.trans {D : Defs K} {S : Set ℕ} {m m' m'' : Mem K} (h : RFrame D S m m')
    (h' : RFrame D S m' m'') : RFrame D S m m'' := by
  refine ⟨fun q hq => h.anti q (h'.anti q hq), fun q hq hq' i hi p hp => ?_,
    fun q hq => (h'.vis q hq).trans (h.vis q hq), fun q => ?_, fun q hq => ?_⟩
  · cases hv : m'.visited q with
    | true => exact h'.closed q hv hq' i hi p hp
    | false =>
        have := h.closed q hq hv i hi p hp
        cases hp' : m''.visited p with
        | false => rfl
        | true => rw [h'.anti p hp'] at this; simp at this
  · rcases h'.plain q with h2 | h2
    · rcases h.plain q with h1 | h1
      · exact Or.inl ⟨h2.1.trans h1.1, h2.2.1.trans h1.2.1, h2.2.2.trans h1.2.2⟩
      · exact Or.inr ⟨h2.1.trans h1.1, h2.2.1.trans h1.2.1, h2.2.2.trans h1.2.2⟩
    · exact Or.inr h2
  · have h1 := h.out q hq
    have h2 := h'.out q hq
    exact ⟨h2.1.trans h1.1, h2.2.1.trans h1.2.1, h2.2.2.trans h1.2.2⟩

/-- Specification of a recursive reset. -/
def RSpec (S : Set ℕ) (rec : ℕ → Mem K → Option (Mem K)) : Prop :=
  ∀ q ∈ S, ∀ m m', rec q m = some m' → m'.visited q = false ∧ RFrame D S m m'

theorem resetN_spec {S : Set ℕ} {rec : ℕ → Mem K → Option (Mem K)} (hrec : RSpec D S rec)
    (t : Node K) : ∀ m m', (∀ p ∈ t.leaves, p ∈ S) → resetN rec t m = some m' →
      (∀ p ∈ t.leaves, m'.visited p = false) ∧ RFrame D S m m' := by
  induction t with
  | leaf o =>
      intro m m' hl h
      have := hrec o (hl o (by simp [Node.leaves])) m m' h
      exact ⟨by simpa [Node.leaves] using this.1, this.2⟩
  | par p =>
      intro m m' hl h
      simp [resetN] at h
      subst h
      exact ⟨by simp [Node.leaves], RFrame.refl D S m⟩
  | op1 n f a ih => intro m m' hl h; exact ih m m' hl h
  | op2 n f a b iha ihb =>
      intro m m' hl h
      simp only [resetN, Option.bind_eq_bind, Option.bind_eq_some_iff] at h
      obtain ⟨m1, h1, h2⟩ := h
      obtain ⟨l1, f1⟩ := iha m m1 (fun p hp => hl p (by simp [Node.leaves, hp])) h1
      obtain ⟨l2, f2⟩ := ihb m1 m' (fun p hp => hl p (by simp [Node.leaves, hp])) h2
      refine ⟨fun p hp => ?_, f1.trans f2⟩
      simp only [Node.leaves, List.mem_append] at hp
      rcases hp with hp | hp
      · cases hv : m'.visited p with
        | false => rfl
        | true => have := f2.anti p hv; rw [l1 p hp] at this; simp at this
      · exact l2 p hp

theorem resetItems_spec {S : Set ℕ} {rec : ℕ → Mem K → Option (Mem K)} (hrec : RSpec D S rec)
    (is : List (Node K)) : ∀ m m', (∀ i ∈ is, ∀ p ∈ i.leaves, p ∈ S) →
      resetItems rec is m = some m' →
      (∀ i ∈ is, ∀ p ∈ i.leaves, m'.visited p = false) ∧ RFrame D S m m' := by
  induction is with
  | nil => intro m m' _ h; simp [resetItems] at h; subst h; exact ⟨by simp, RFrame.refl D S m⟩
  | cons i is ih =>
      intro m m' hl h
      simp only [resetItems, Option.bind_eq_bind, Option.bind_eq_some_iff] at h
      obtain ⟨m1, h1, h2⟩ := h
      obtain ⟨l1, f1⟩ := resetN_spec D hrec i m m1 (hl i (by simp)) h1
      obtain ⟨l2, f2⟩ := ih m1 m' (fun j hj => hl j (by simp [hj])) h2
      refine ⟨fun j hj p hp => ?_, f1.trans f2⟩
      rcases List.mem_cons.1 hj with rfl | hj
      · cases hv : m'.visited p with
        | false => rfl
        | true => have := f2.anti p hv; rw [l1 p hp] at this; simp at this
      · exact l2 j hj p hp

theorem clearObj_frame {S : Set ℕ} {m : Mem K} {o : ℕ} (ho : o ∈ S) (hv : m.visited o = false) :
    (m.clearObj D o).visited o = false ∧ RFrame D S m (m.clearObj D o) := by
  have hvis : (m.clearObj D o).visited = m.visited := by
    funext q
    by_cases h : q = o
    · subst h; simp [Mem.clearObj, Mem.setVisited, Mem.setValue, Mem.setDValue, Mem.setCache, hv]
    · simp [Mem.clearObj, Mem.setVisited, Mem.setValue, Mem.setDValue, Mem.setCache, h]
  refine ⟨by rw [hvis, hv], ⟨fun q hq => by rwa [hvis] at hq, fun q h1 h2 => ?_, fun q _ => by
    rw [hvis], fun q => ?_, fun q hq => ?_⟩⟩
  · rw [hvis, h1] at h2; simp at h2
  · by_cases h : q = o
    · subst h
      right; simp [Mem.clearObj, Mem.setVisited, Mem.setValue, Mem.setDValue, Mem.setCache]
    · left; simp [Mem.clearObj, Mem.setVisited, Mem.setValue, Mem.setDValue, Mem.setCache, h]
  · have h : q ≠ o := by rintro rfl; exact hq ho
    simp [Mem.clearObj, Mem.setVisited, Mem.setValue, Mem.setDValue, Mem.setCache, h]

theorem resetO_spec {S : Set ℕ} (hS : ∀ q ∈ S, ∀ i ∈ D.items q, ∀ p ∈ i.leaves, p ∈ S)
    (fuel : ℕ) : RSpec D S (resetO D fuel) := by
  induction fuel with
  | zero => intro q _ m m' h; simp [resetO] at h
  | succ f ih =>
      intro o ho m m' h
      cases hv : m.visited o with
      | false =>
          simp [resetO, hv] at h
          subst h
          exact clearObj_frame D ho hv
      | true =>
          simp only [resetO, hv, if_true, Option.bind_eq_bind, Option.bind_eq_some_iff,
            Option.some.injEq] at h
          obtain ⟨m1, h1, rfl⟩ := h
          obtain ⟨l1, f1⟩ := resetItems_spec D ih (D.items o) _ m1 (hS o ho) h1
          have hv1 : m1.visited o = false := by
            cases hv1 : m1.visited o with
            | false => rfl
            | true => have := f1.anti o hv1; simp [Mem.setVisited] at this
          obtain ⟨h2, f2⟩ := clearObj_frame D ho hv1
          refine ⟨h2, RFrame.trans ⟨fun q hq => ?_, fun q hq hq' i hi p hp => ?_, fun q hq => ?_,
            f1.plain, f1.out⟩ f2⟩
          · have := f1.anti q hq
            by_cases h : q = o
            · subst h; exact hv
            · simpa [Mem.setVisited, h] using this
          · by_cases h : q = o
            · subst h; exact l1 i hi p hp
            · exact f1.closed q (by simpa [Mem.setVisited, h] using hq) hq' i hi p hp
          · have h : q ≠ o := by rintro rfl; exact hq ho
            have := f1.vis q hq
            simpa [Mem.setVisited, h] using this

/-- `resetImpl` on the root `y`: all operands of `y` are unvisited afterwards. -/
theorem resetImpl_spec {S : Set ℕ} (hS : ∀ q ∈ S, ∀ i ∈ D.items q, ∀ p ∈ i.leaves, p ∈ S)
    (fuel y : ℕ) (hy : y ∈ S) (m m' : Mem K) (h : resetImpl D fuel y m = some m') :
    m'.visited y = false ∧ (∀ i ∈ D.items y, ∀ p ∈ i.leaves, m'.visited p = false) ∧
      (∀ q, m'.visited q = true → m.visited q = true) ∧
      (∀ q, q ≠ y → m.visited q = true → m'.visited q = false → ∀ i ∈ D.items q, ∀ p ∈ i.leaves,
        m'.visited p = false) ∧
      (∀ q, q ∉ S → m'.visited q = m.visited q) ∧
      (∀ q, (m'.value q = m.value q ∧ m'.dvalue q = m.dvalue q ∧ m'.cache q = m.cache q) ∨
        (m'.value q = D.base q ∧ m'.dvalue q = 0 ∧ m'.cache q = fun _ => 0)) ∧
      (∀ q, q ∉ S →
        m'.value q = m.value q ∧ m'.dvalue q = m.dvalue q ∧ m'.cache q = m.cache q) := by
  simp only [resetImpl, Option.bind_eq_bind, Option.bind_eq_some_iff, Option.some.injEq] at h
  obtain ⟨m1, h1, rfl⟩ := h
  obtain ⟨l1, f1⟩ := resetItems_spec D (resetO_spec D hS fuel) (D.items y) _ m1 (hS y hy) h1
  have hdown : ∀ q, m1.visited q = false → (m1.setVisited y false).visited q = false := by
    intro q hq
    by_cases h : q = y
    · subst h; simp [Mem.setVisited]
    · simpa [Mem.setVisited, h] using hq
  refine ⟨by simp [Mem.setVisited], fun i hi p hp => hdown p (l1 i hi p hp), fun q hq => ?_,
    fun q hqy hq hq' i hi p hp => hdown p ?_, fun q hq => ?_, f1.plain, f1.out⟩
  · by_cases h : q = y
    · subst h; simp [Mem.setVisited] at hq
    · have := f1.anti q (by simpa [Mem.setVisited, h] using hq)
      simpa [Mem.setVisited, h] using this
  · exact f1.closed q (by simpa [Mem.setVisited, hqy] using hq)
      (by simpa [Mem.setVisited, hqy] using hq') i hi p hp
  · have h : q ≠ y := by rintro rfl; exact hq hy
    have := f1.vis q hq
    simpa [Mem.setVisited, h] using this

end

end CoolDiff
