import Verif.Scalar.SymObj

/-!
# `reset` with symbolic temporaries
-/

set_option linter.unusedSectionVars false

namespace CoolDiff

variable {K : Type} [Field K] [DecidableEq K]

/-! ## Effect -/

section
variable (D : Defs K) (T : Tmps)

theorem resetList_spec {rec : ℕ → Mem K → Option (Mem K)} (hrec : RSpec D Set.univ rec) (l : List ℕ) :
    ∀ m m', resetList rec l m = some m' → RFrame D Set.univ m m' := by
  induction l with
  | nil => intro m m' h; simp [resetList] at h; subst h; exact RFrame.refl D _ m
  | cons o os ih =>
      intro m m' h
      simp only [resetList, Option.bind_eq_some_iff] at h
      obtain ⟨m1, h1, h2⟩ := h
      exact (hrec o trivial m m1 h1).2.trans (ih m1 m' h2)

theorem resetNS_spec {rec : ℕ → Mem K → Option (Mem K)} (hrec : RSpec D Set.univ rec) (t : Node K) :
    ∀ m m', resetNS T rec t m = some m' →
      (∀ p ∈ t.leaves, m'.visited p = false) ∧ RFrame D Set.univ m m' := by
  induction t with
  | leaf o =>
      intro m m' h
      have := hrec o trivial m m' h
      exact ⟨by simpa [Node.leaves] using this.1, this.2⟩
  | par p =>
      intro m m' h
      simp [resetNS] at h
      subst h
      exact ⟨by simp [Node.leaves], RFrame.refl D _ m⟩
  | op1 n f a ih =>
      intro m m' h
      simp only [resetNS, Option.bind_eq_some_iff] at h
      obtain ⟨m1, h1, h2⟩ := h
      obtain ⟨l2, f2⟩ := ih m1 m' h2
      exact ⟨l2, (resetList_spec D hrec _ m m1 h1).trans f2⟩
  | op2 n f a b iha ihb =>
      intro m m' h
      simp only [resetNS, Option.bind_eq_some_iff] at h
      obtain ⟨m0, h0, m1, h1, h2⟩ := h
      obtain ⟨l1, f1⟩ := iha m0 m1 h1
      obtain ⟨l2, f2⟩ := ihb m1 m' h2
      refine ⟨fun p hp => ?_, (resetList_spec D hrec _ m m0 h0).trans (f1.trans f2)⟩
      simp only [Node.leaves, List.mem_append] at hp
      rcases hp with hp | hp
      · cases hv : m'.visited p with
        | false => rfl
        | true => have := f2.anti p hv; rw [l1 p hp] at this; simp at this
      · exact l2 p hp

theorem resetItemsS_spec {rec : ℕ → Mem K → Option (Mem K)} (hrec : RSpec D Set.univ rec)
    (is : List (Node K)) : ∀ m m', resetItemsS T rec is m = some m' →
      (∀ i ∈ is, ∀ p ∈ i.leaves, m'.visited p = false) ∧ RFrame D Set.univ m m' := by
  induction is with
  | nil => intro m m' h; simp [resetItemsS] at h; subst h; exact ⟨by simp, RFrame.refl D _ m⟩
  | cons i is ih =>
      intro m m' h
      simp only [resetItemsS, Option.bind_eq_some_iff] at h
      obtain ⟨m1, h1, h2⟩ := h
      obtain ⟨l1, f1⟩ := resetNS_spec D T hrec i m m1 h1
      obtain ⟨l2, f2⟩ := ih m1 m' h2
      refine ⟨fun j hj p hp => ?_, f1.trans f2⟩
      rcases List.mem_cons.1 hj with rfl | hj
      · cases hv : m'.visited p with
        | false => rfl
        | true => have := f2.anti p hv; rw [l1 p hp] at this; simp at this
      · exact l2 j hj p hp

theorem setVisited_noop {m : Mem K} {o : ℕ} {b : Bool} (h : m.visited o = b) : m.setVisited o b = m := by
  cases m
  simp only [Mem.setVisited, Mem.mk.injEq, and_true]
  funext q
  by_cases e : q = o
  · subst e; simp [Function.update_self]; exact h.symm
  · simp [Function.update_of_ne e]

theorem resetOS_spec (fuel : ℕ) : RSpec D Set.univ (resetOS D T fuel) := by
  induction fuel with
  | zero => intro q _ m m' h; simp [resetOS] at h
  | succ f ih =>
      intro o ho m m' h
      -- after the operands
      have key : ∀ m1 : Mem K, (if m.visited o = true then
          resetItemsS T (resetOS D T f) (D.items o) (m.setVisited o false) else some m) = some m1 →
          m1.visited o = false ∧ RFrame D Set.univ m m1 := by
        intro m1 h1
        cases hv : m.visited o with
        | false => simp [hv] at h1; subst h1; exact ⟨hv, RFrame.refl D _ m⟩
        | true =>
            rw [if_pos hv] at h1
            obtain ⟨l1, f1⟩ := resetItemsS_spec D T ih (D.items o) _ m1 h1
            have hv1 : m1.visited o = false := by
              cases hv1 : m1.visited o with
              | false => rfl
              | true => have := f1.anti o hv1; simp [Mem.setVisited] at this
            refine ⟨hv1, fun q hq => ?_, fun q hq hq' i hi p hp => ?_, fun q hq => absurd trivial hq,
              f1.plain, f1.out⟩
            · have := f1.anti q hq
              by_cases h : q = o
              · subst h; exact hv
              · simpa [Mem.setVisited, h] using this
            · by_cases h : q = o
              · subst h; exact l1 i hi p hp
              · exact f1.closed q (by simpa [Mem.setVisited, h] using hq) hq' i hi p hp
      simp only [resetOS, Option.bind_eq_some_iff, Option.map_eq_some_iff] at h
      obtain ⟨m1, h1, m2, h2, rfl⟩ := h
      obtain ⟨k1, k2⟩ := key m1 h1
      obtain ⟨c1, c2⟩ := clearObj_frame D (S := Set.univ) (m := m1) (o := o) trivial k1
      have f2 := resetList_spec D ih _ _ _ h2
      have hv2 : m2.visited o = false := by
        cases hv2 : m2.visited o with
        | false => rfl
        | true => have := f2.anti o hv2; rw [c1] at this; simp at this
      rw [setVisited_noop hv2]
      exact ⟨hv2, k2.trans (c2.trans f2)⟩

theorem resetImplS_spec (fuel y : ℕ) (m m' : Mem K) (h : resetImplS D T fuel y m = some m') :
    m'.visited y = false ∧ (∀ i ∈ D.items y, ∀ p ∈ i.leaves, m'.visited p = false) ∧
      (∀ q, m'.visited q = true → m.visited q = true) ∧
      (∀ q, q ≠ y → m.visited q = true → m'.visited q = false → ∀ i ∈ D.items q, ∀ p ∈ i.leaves,
        m'.visited p = false) ∧
      (∀ q, (m'.value q = m.value q ∧ m'.dvalue q = m.dvalue q ∧ m'.cache q = m.cache q) ∨
        (m'.value q = D.base q ∧ m'.dvalue q = 0 ∧ m'.cache q = fun _ => 0)) := by
  simp only [resetImplS, Option.map_eq_some_iff] at h
  obtain ⟨m1, h1, rfl⟩ := h
  obtain ⟨l1, f1⟩ := resetItemsS_spec D T (resetOS_spec D T fuel) (D.items y) _ m1 h1
  have hdown : ∀ q, m1.visited q = false → (m1.setVisited y false).visited q = false := by
    intro q hq
    by_cases h : q = y
    · subst h; simp [Mem.setVisited]
    · simpa [Mem.setVisited, h] using hq
  refine ⟨by simp [Mem.setVisited], fun i hi p hp => hdown p (l1 i hi p hp), fun q hq => ?_,
    fun q hqy hq hq' i hi p hp => hdown p ?_, f1.plain⟩
  · by_cases h : q = y
    · subst h; simp [Mem.setVisited] at hq
    · have := f1.anti q (by simpa [Mem.setVisited, h] using hq)
      simpa [Mem.setVisited, h] using this
  · exact f1.closed q (by simpa [Mem.setVisited, hqy] using hq)
      (by simpa [Mem.setVisited, hqy] using hq') i hi p hp

end

/-! ## What a reset reaches -/

section
variable (D : Defs K) (T : Tmps)

/-- The objects whose `reset` is called when the definitions of `q` are reset: the operands, and the
temporaries of the operator nodes. -/
def itemTargets (is : List (Node K)) : List ℕ :=
  is.flatMap fun i => i.leaves ++ i.opIds.flatMap T.opTargets

/-- `Touch D T V o q`: if `V` is the set of flagged Expressions, `o.reset()` leads to `q.reset()`.
A reset goes on to the temporaries of the object, and, if the object is flagged, to its definitions. -/
inductive Touch (V : ℕ → Prop) : ℕ → ℕ → Prop
  | refl {o : ℕ} : Touch V o o
  | obj {o e q : ℕ} : e ∈ T.objTargets o → Touch V e q → Touch V o q
  | item {o e q : ℕ} : V o → e ∈ itemTargets T (D.items o) → Touch V e q → Touch V o q

/-- `y` can be queried safely on the heap with temporaries: the reset that starts the query reaches
every flagged Expression below `y`. -/
def SafeS (V : ℕ → Prop) (y : ℕ) : Prop :=
  ∀ q, Reach D y q → q ≠ y → D.items q ≠ [] → V q →
    ∃ e ∈ itemTargets T (D.items y), Touch D T V e q

variable {D T}

theorem mem_itemTargets {is : List (Node K)} {e : ℕ} : e ∈ itemTargets T is ↔
    ∃ i ∈ is, e ∈ i.leaves ∨ ∃ n ∈ i.opIds, e ∈ T.opTargets n := by
  simp [itemTargets, List.mem_flatMap]

theorem Touch.mono {V V' : ℕ → Prop} (hV : ∀ q, V q → V' q) {o q : ℕ} (h : Touch D T V o q) :
    Touch D T V' o q := by
  induction h with
  | refl => exact .refl
  | obj he _ ih => exact .obj he ih
  | item hv he _ ih => exact .item (hV _ hv) he ih

theorem Touch.trans {V : ℕ → Prop} {o p q : ℕ} (h : Touch D T V o p) (h' : Touch D T V p q) :
    Touch D T V o q := by
  induction h with
  | refl => exact h'
  | obj he _ ih => exact .obj he (ih h')
  | item hv he _ ih => exact .item hv he (ih h')

/-- The condition on definitions alone is enough. -/
theorem Safe.safeS {V : ℕ → Prop} {y : ℕ} (h : Safe D V y) : SafeS D T V y := by
  intro q hq
  induction hq with
  | refl => intro hne; exact absurd rfl hne
  | @step q p i hq hi hp ih =>
      intro _ hpe hv
      have hm : p ∈ itemTargets T (D.items q) := mem_itemTargets.2 ⟨i, hi, Or.inl hp⟩
      by_cases hqy : q = y
      · subst hqy; exact ⟨p, hm, .refl⟩
      · have hqe : D.items q ≠ [] := by intro e; rw [e] at hi; simp at hi
        by_cases hvq : V q
        · obtain ⟨e, he, ht⟩ := ih hqy hqe hvq
          exact ⟨e, he, ht.trans (.item hvq hm .refl)⟩
        · exact absurd hv (h q hq hqy hvq i hi p hp hpe)

theorem Touch.of_items {D' : Defs K} (hi : D'.items = D.items) {V : ℕ → Prop} {o q : ℕ}
    (h : Touch D T V o q) : Touch D' T V o q := by
  induction h with
  | refl => exact .refl
  | obj he _ ih => exact .obj he ih
  | item hv he _ ih => exact .item hv (by rw [hi]; exact he) ih

theorem SafeS.of_items {D' : Defs K} {V : ℕ → Prop} {y : ℕ} (h : SafeS D T V y)
    (hi : D'.items = D.items) : SafeS D' T V y := by
  intro q hq hqy hqe hv
  rw [hi] at hqe
  have hr : ∀ q, Reach D' y q → Reach D y q := by
    intro q hq
    induction hq with
    | refl => exact .refl
    | step _ hm hp ih => exact .step ih (by rw [← hi]; exact hm) hp
  obtain ⟨e, he, ht⟩ := h q (hr q hq) hqy hqe hv
  exact ⟨e, by rw [hi]; exact he, ht.of_items hi⟩

/-- Everything that loses its flag has its definitions reset. -/
structure TF (D : Defs K) (T : Tmps) (m m' : Mem K) : Prop where
  anti : ∀ q, m'.visited q = true → m.visited q = true
  lost : ∀ a, m.visited a = true → m'.visited a = false → ∀ b ∈ itemTargets T (D.items a), ∀ q,
    Touch D T (fun q => m.visited q = true) b q → m'.visited q = false

theorem TF.of_eq {m m' : Mem K} (h : ∀ q, m'.visited q = m.visited q) : TF D T m m' :=
  ⟨fun q hq => by rwa [h] at hq, fun a h1 h2 => by rw [h, h1] at h2; simp at h2⟩

theorem TF.clear {m m' : Mem K} (h : TF D T m m') {q : ℕ} (hq : m.visited q = false) :
    m'.visited q = false := by
  cases hv : m'.visited q with
  | false => rfl
  | true => rw [h.anti q hv] at hq; simp at hq

theorem TF.walk {m m' : Mem K} (h : TF D T m m') {b q : ℕ}
    (ht : Touch D T (fun q => m.visited q = true) b q) :
    Touch D T (fun q => m'.visited q = true) b q ∨ m'.visited q = false := by
  induction ht with
  | refl => exact Or.inl .refl
  | obj he _ ih => exact ih.imp (.obj he) id
  | @item o e q hv he ht ih =>
      cases hv' : m'.visited o with
      | true => exact ih.imp (.item hv' he) id
      | false => exact Or.inr (h.lost o hv hv' e he q ht)

theorem TF.trans {m m' m'' : Mem K} (h : TF D T m m') (h' : TF D T m' m'') : TF D T m m'' := by
  refine ⟨fun q hq => h.anti q (h'.anti q hq), fun a h1 h2 b hb q hq => ?_⟩
  cases hv : m'.visited a with
  | false => exact h'.clear (h.lost a h1 hv b hb q hq)
  | true =>
      rcases h.walk hq with hq' | hq'
      · exact h'.lost a hv h2 b hb q hq'
      · exact h'.clear hq'

/-- A recursive reset reaches what it should. -/
def TouchSpec (D : Defs K) (T : Tmps) (rec : ℕ → Mem K → Option (Mem K)) : Prop :=
  ∀ o m m', rec o m = some m' → TF D T m m' ∧
    ∀ q, Touch D T (fun q => m.visited q = true) o q → m'.visited q = false

variable {rec : ℕ → Mem K → Option (Mem K)}

theorem resetList_touch (hrec : TouchSpec D T rec) (l : List ℕ) : ∀ m m', resetList rec l m = some m' →
    TF D T m m' ∧ ∀ o ∈ l, ∀ q, Touch D T (fun q => m.visited q = true) o q → m'.visited q = false := by
  induction l with
  | nil => intro m m' h; simp [resetList] at h; subst h; exact ⟨.of_eq fun _ => rfl, by simp⟩
  | cons o os ih =>
      intro m m' h
      simp only [resetList, Option.bind_eq_some_iff] at h
      obtain ⟨m1, h1, h2⟩ := h
      obtain ⟨f1, t1⟩ := hrec o m m1 h1
      obtain ⟨f2, t2⟩ := ih m1 m' h2
      refine ⟨f1.trans f2, fun p hp q hq => ?_⟩
      rcases List.mem_cons.1 hp with rfl | hp
      · exact f2.clear (t1 q hq)
      · rcases f1.walk hq with hq | hq
        · exact t2 p hp q hq
        · exact f2.clear hq

theorem resetNS_touch (hrec : TouchSpec D T rec) (t : Node K) : ∀ m m', resetNS T rec t m = some m' →
    TF D T m m' ∧ ∀ o, (o ∈ t.leaves ∨ ∃ n ∈ t.opIds, o ∈ T.opTargets n) → ∀ q,
      Touch D T (fun q => m.visited q = true) o q → m'.visited q = false := by
  induction t with
  | leaf o =>
      intro m m' h
      obtain ⟨f1, t1⟩ := hrec o m m' h
      refine ⟨f1, fun p hp q hq => ?_⟩
      simp only [Node.leaves, Node.opIds, List.mem_singleton, List.not_mem_nil, false_and, exists_false,
        or_false] at hp
      subst hp
      exact t1 q hq
  | par p =>
      intro m m' h
      simp [resetNS] at h
      subst h
      exact ⟨.of_eq fun _ => rfl, by simp [Node.leaves, Node.opIds]⟩
  | op1 n f a ih =>
      intro m m' h
      simp only [resetNS, Option.bind_eq_some_iff] at h
      obtain ⟨m1, h1, h2⟩ := h
      obtain ⟨f1, t1⟩ := resetList_touch hrec _ m m1 h1
      obtain ⟨f2, t2⟩ := ih m1 m' h2
      refine ⟨f1.trans f2, fun p hp q hq => ?_⟩
      have later : (p ∈ a.leaves ∨ ∃ n ∈ a.opIds, p ∈ T.opTargets n) → m'.visited q = false := fun hp =>
        (f1.walk hq).elim (t2 p hp q) f2.clear
      simp only [Node.leaves, Node.opIds, List.mem_cons, exists_eq_or_imp] at hp
      rcases hp with hp | hp | hp
      · exact later (Or.inl hp)
      · exact f2.clear (t1 p hp q hq)
      · exact later (Or.inr hp)
  | op2 n f a b iha ihb =>
      intro m m' h
      simp only [resetNS, Option.bind_eq_some_iff] at h
      obtain ⟨m1, h1, m2, h2, h3⟩ := h
      obtain ⟨f1, t1⟩ := resetList_touch hrec _ m m1 h1
      obtain ⟨f2, t2⟩ := iha m1 m2 h2
      obtain ⟨f3, t3⟩ := ihb m2 m' h3
      refine ⟨f1.trans (f2.trans f3), fun p hp q hq => ?_⟩
      have la : (p ∈ a.leaves ∨ ∃ n ∈ a.opIds, p ∈ T.opTargets n) → m'.visited q = false := fun hp =>
        f3.clear ((f1.walk hq).elim (t2 p hp q) f2.clear)
      have lb : (p ∈ b.leaves ∨ ∃ n ∈ b.opIds, p ∈ T.opTargets n) → m'.visited q = false := fun hp =>
        ((f1.trans f2).walk hq).elim (t3 p hp q) f3.clear
      simp only [Node.leaves, Node.opIds, List.mem_cons, exists_eq_or_imp, List.mem_append] at hp
      rcases hp with (hp | hp) | hp | ⟨k, hk | hk, hp⟩
      · exact la (Or.inl hp)
      · exact lb (Or.inl hp)
      · exact f3.clear (f2.clear (t1 p hp q hq))
      · exact la (Or.inr ⟨k, hk, hp⟩)
      · exact lb (Or.inr ⟨k, hk, hp⟩)

theorem resetItemsS_touch (hrec : TouchSpec D T rec) (is : List (Node K)) : ∀ m m',
    resetItemsS T rec is m = some m' → TF D T m m' ∧ ∀ o ∈ itemTargets T is, ∀ q,
      Touch D T (fun q => m.visited q = true) o q → m'.visited q = false := by
  induction is with
  | nil =>
      intro m m' h
      simp [resetItemsS] at h
      subst h
      exact ⟨.of_eq fun _ => rfl, by simp [itemTargets]⟩
  | cons i is ih =>
      intro m m' h
      simp only [resetItemsS, Option.bind_eq_some_iff] at h
      obtain ⟨m1, h1, h2⟩ := h
      obtain ⟨f1, t1⟩ := resetNS_touch hrec i m m1 h1
      obtain ⟨f2, t2⟩ := ih m1 m' h2
      refine ⟨f1.trans f2, fun p hp q hq => ?_⟩
      obtain ⟨j, hj, hp'⟩ := mem_itemTargets.1 hp
      rcases List.mem_cons.1 hj with rfl | hj
      · exact f2.clear (t1 p hp' q hq)
      · exact (f1.walk hq).elim (t2 p (mem_itemTargets.2 ⟨j, hj, hp'⟩) q) f2.clear

/-- Reaching without the definitions of `o`. -/
theorem Touch.cut {m : Mem K} {o b q : ℕ} (h : Touch D T (fun q => m.visited q = true) b q) :
    Touch D T (fun q => (m.setVisited o false).visited q = true) b q ∨
      ∃ b' ∈ itemTargets T (D.items o),
        Touch D T (fun q => (m.setVisited o false).visited q = true) b' q := by
  induction h with
  | refl => exact Or.inl .refl
  | obj he _ ih => exact ih.imp (.obj he) id
  | @item a e q hv he _ ih =>
      by_cases hao : a = o
      · subst hao
        rcases ih with ih | ih
        · exact Or.inr ⟨e, he, ih⟩
        · exact Or.inr ih
      · refine ih.imp (.item ?_ he) id
        simpa [Mem.setVisited, hao] using hv

theorem resetOS_touch (fuel : ℕ) : TouchSpec D T (resetOS D T fuel) := by
  induction fuel with
  | zero => intro o m m' h; simp [resetOS] at h
  | succ f ih =>
      intro o m m' h
      have key : ∀ m1 : Mem K, (if m.visited o = true then
          resetItemsS T (resetOS D T f) (D.items o) (m.setVisited o false) else some m) = some m1 →
          m1.visited o = false ∧ TF D T m m1 ∧ (m.visited o = true → ∀ e ∈ itemTargets T (D.items o),
            ∀ q, Touch D T (fun q => m.visited q = true) e q → m1.visited q = false) := by
        intro m1 h1
        cases hv : m.visited o with
        | false => simp [hv] at h1; subst h1; exact ⟨hv, .of_eq fun _ => rfl, by simp⟩
        | true =>
            rw [if_pos hv] at h1
            obtain ⟨f1, t1⟩ := resetItemsS_touch ih (D.items o) _ m1 h1
            have hv1 : m1.visited o = false := f1.clear (by simp [Mem.setVisited])
            have hall : ∀ e ∈ itemTargets T (D.items o), ∀ q,
                Touch D T (fun q => m.visited q = true) e q → m1.visited q = false := by
              intro e he q hq
              rcases hq.cut (o := o) with hq | ⟨b, hb, hq⟩
              · exact t1 e he q hq
              · exact t1 b hb q hq
            refine ⟨hv1, ⟨fun q hq => ?_, fun a ha ha' b hb q hq => ?_⟩, fun _ => hall⟩
            · have := f1.anti q hq
              by_cases h : q = o
              · subst h; exact hv
              · simpa [Mem.setVisited, h] using this
            · by_cases hao : a = o
              · subst hao; exact hall b hb q hq
              · rcases hq.cut (o := o) with hq | ⟨b', hb', hq⟩
                · exact f1.lost a (by simpa [Mem.setVisited, hao] using ha) ha' b hb q hq
                · exact t1 b' hb' q hq
      simp only [resetOS, Option.bind_eq_some_iff, Option.map_eq_some_iff] at h
      obtain ⟨m1, h1, m2, h2, rfl⟩ := h
      obtain ⟨k1, k2, k3⟩ := key m1 h1
      have f1 : TF D T m1 (m1.clearObj D o) := .of_eq fun q => by
        by_cases e : q = o
        · subst e; simp [Mem.clearObj, Mem.setVisited, Mem.setValue, Mem.setDValue, Mem.setCache, k1]
        · simp [Mem.clearObj, Mem.setVisited, Mem.setValue, Mem.setDValue, Mem.setCache, e]
      obtain ⟨f2, t2⟩ := resetList_touch ih _ _ _ h2
      have f12 := k2.trans f1
      have hv2 : m2.visited o = false := f2.clear (f1.clear k1)
      rw [setVisited_noop hv2]
      refine ⟨f12.trans f2, fun q hq => ?_⟩
      cases hq with
      | refl => exact hv2
      | obj he hq => exact (f12.walk hq).elim (t2 _ he q) f2.clear
      | item hv he hq => exact f2.clear (f1.clear (k3 hv _ he q hq))

/-- The reset that starts every query clears the flags it reaches. -/
theorem resetImplS_touch {fuel y : ℕ} {m m' : Mem K} (h : resetImplS D T fuel y m = some m') {e q : ℕ}
    (he : e ∈ itemTargets T (D.items y)) (hq : Touch D T (fun q => m.visited q = true) e q) :
    m'.visited q = false := by
  simp only [resetImplS, Option.map_eq_some_iff] at h
  obtain ⟨m1, h1, rfl⟩ := h
  obtain ⟨-, t1⟩ := resetItemsS_touch (resetOS_touch fuel) (D.items y) _ m1 h1
  have := t1 e he q (hq.mono fun p hp => by
    by_cases h : p = y
    · subst h; simp [Mem.setVisited]
    · simpa [Mem.setVisited, h] using hp)
  by_cases h : q = y
  · subst h; simp [Mem.setVisited]
  · simpa [Mem.setVisited, h] using this

end

section
variable (D : Defs K) (T : Tmps)

/-- After the reset that starts every query, no Expression below `y` is marked visited. -/
theorem resetS_clean {y fuel : ℕ} {m m' : Mem K} (hs : SafeS D T (fun q => m.visited q = true) y)
    (hpl : ∀ q < D.size, D.items q = [] →
      m.value q = D.base q ∧ m.dvalue q = 0 ∧ m.cache q = fun _ => 0)
    (h : resetImplS D T fuel y m = some m') :
    (∀ q, Reach D y q → D.items q ≠ [] → m'.visited q = false) ∧ m'.visited y = false ∧
    (∀ q < D.size, D.items q = [] →
      m'.value q = D.base q ∧ m'.dvalue q = 0 ∧ m'.cache q = fun _ => 0) := by
  obtain ⟨h1, h2, h3, h4, h6⟩ := resetImplS_spec D T _ y m m' h
  refine ⟨fun q hq hqe => ?_, h1, fun q hq he => ?_⟩
  · by_cases hqy : q = y
    · subst hqy; exact h1
    · cases hv : m'.visited q with
      | false => rfl
      | true =>
          obtain ⟨e, he, ht⟩ := hs q hq hqy hqe (h3 q hv)
          rw [resetImplS_touch h he ht] at hv
          simp at hv
  · rcases h6 q with h | h
    · have := hpl q hq he
      exact ⟨h.1.trans this.1, h.2.1.trans this.2.1, h.2.2.trans this.2.2⟩
    · exact h

end

/-! ## Termination -/

section
variable (D : Defs K) (T : Tmps) (rk : ℕ → ℕ)

/-- Depth needed to reset an object. -/
def need (m : Mem K) (p : ℕ) : ℕ := 2 * rk p + (m.visited p).toNat

/-- A recursive reset succeeds. -/
def TotS (n : ℕ) (rec : ℕ → Mem K → Option (Mem K)) : Prop :=
  ∀ o m, o < D.size → need rk m o < n → ∃ m', rec o m = some m' ∧ Anti m m'

theorem Anti.need_le {rk : ℕ → ℕ} {m m' : Mem K} (h : Anti m m') (p : ℕ) : need rk m' p ≤ need rk m p := by
  unfold need
  cases h1 : m'.visited p with
  | false => simp
  | true => rw [h p h1]

variable {D T rk} {n : ℕ} {rec : ℕ → Mem K → Option (Mem K)}

theorem resetList_total (hR : TotS D rk n rec) (l : List ℕ) : ∀ m,
    (∀ p ∈ l, p < D.size ∧ need rk m p < n) → ∃ m', resetList rec l m = some m' ∧ Anti m m' := by
  induction l with
  | nil => intro m _; exact ⟨m, rfl, Anti.refl m⟩
  | cons o os ih =>
      intro m hl
      obtain ⟨m1, h1, a1⟩ := hR o m (hl o (by simp)).1 (hl o (by simp)).2
      obtain ⟨m2, h2, a2⟩ := ih m1 fun p hp =>
        ⟨(hl p (by simp [hp])).1, (a1.need_le p).trans_lt (hl p (by simp [hp])).2⟩
      exact ⟨m2, by simp only [resetList, h1, Option.bind_some, h2], a1.trans a2⟩

theorem resetNS_total (hR : TotS D rk n rec) (t : Node K) : ∀ m,
    (∀ p ∈ t.leaves, p < D.size ∧ need rk m p < n) →
    (∀ k ∈ t.opIds, ∀ p ∈ T.opTargets k, p < D.size ∧ need rk m p < n) →
    ∃ m', resetNS T rec t m = some m' ∧ Anti m m' := by
  induction t with
  | leaf o =>
      intro m hl _
      exact hR o m (hl o (by simp [Node.leaves])).1 (hl o (by simp [Node.leaves])).2
  | par p => intro m _ _; exact ⟨m, rfl, Anti.refl m⟩
  | op1 k f a ih =>
      intro m hl ht
      obtain ⟨m1, h1, a1⟩ := resetList_total hR (T.opTargets k) m (ht k (by simp [Node.opIds]))
      obtain ⟨m2, h2, a2⟩ := ih m1
        (fun p hp => ⟨(hl p hp).1, (a1.need_le p).trans_lt (hl p hp).2⟩)
        (fun j hj p hp => by
          have := ht j (by simp [Node.opIds, hj]) p hp
          exact ⟨this.1, (a1.need_le p).trans_lt this.2⟩)
      exact ⟨m2, by simp only [resetNS, h1, Option.bind_some, h2], a1.trans a2⟩
  | op2 k f a b iha ihb =>
      intro m hl ht
      obtain ⟨m1, h1, a1⟩ := resetList_total hR (T.opTargets k) m (ht k (by simp [Node.opIds]))
      have hl1 : ∀ p ∈ (Node.op2 k f a b).leaves, p < D.size ∧ need rk m1 p < n :=
        fun p hp => ⟨(hl p hp).1, (a1.need_le p).trans_lt (hl p hp).2⟩
      have ht1 : ∀ j ∈ (Node.op2 k f a b).opIds, ∀ p ∈ T.opTargets j, p < D.size ∧ need rk m1 p < n :=
        fun j hj p hp => ⟨(ht j hj p hp).1, (a1.need_le p).trans_lt (ht j hj p hp).2⟩
      obtain ⟨m2, h2, a2⟩ := iha m1 (fun p hp => hl1 p (by simp [Node.leaves, hp]))
        (fun j hj => ht1 j (by simp [Node.opIds, hj]))
      obtain ⟨m3, h3, a3⟩ := ihb m2
        (fun p hp => by
          have := hl1 p (by simp [Node.leaves, hp])
          exact ⟨this.1, (a2.need_le p).trans_lt this.2⟩)
        (fun j hj p hp => by
          have := ht1 j (by simp [Node.opIds, hj]) p hp
          exact ⟨this.1, (a2.need_le p).trans_lt this.2⟩)
      exact ⟨m3, by simp only [resetNS, h1, Option.bind_some, h2, h3], a1.trans (a2.trans a3)⟩

theorem resetItemsS_total (hR : TotS D rk n rec) (is : List (Node K)) : ∀ m,
    (∀ i ∈ is, ∀ p ∈ i.leaves, p < D.size ∧ need rk m p < n) →
    (∀ i ∈ is, ∀ k ∈ i.opIds, ∀ p ∈ T.opTargets k, p < D.size ∧ need rk m p < n) →
    ∃ m', resetItemsS T rec is m = some m' ∧ Anti m m' := by
  induction is with
  | nil => intro m _ _; exact ⟨m, rfl, Anti.refl m⟩
  | cons i is ih =>
      intro m hl ht
      obtain ⟨m1, h1, a1⟩ := resetNS_total (T := T) hR i m (hl i (by simp)) (ht i (by simp))
      obtain ⟨m2, h2, a2⟩ := ih m1
        (fun j hj p hp => by
          have := hl j (by simp [hj]) p hp
          exact ⟨this.1, (a1.need_le p).trans_lt this.2⟩)
        (fun j hj k hk p hp => by
          have := ht j (by simp [hj]) k hk p hp
          exact ⟨this.1, (a1.need_le p).trans_lt this.2⟩)
      exact ⟨m2, by simp only [resetItemsS, h1, Option.bind_some, h2], a1.trans a2⟩

/-- `rk` decreases along definitions and temporaries. -/
structure Descends (D : Defs K) (T : Tmps) (rk : ℕ → ℕ) : Prop where
  closed : D.Closed
  edge : ∀ q < D.size, ∀ i ∈ D.items q, ∀ p ∈ i.leaves, p = q ∨ rk p < rk q
  op : ∀ q < D.size, ∀ i ∈ D.items q, ∀ n ∈ i.opIds, ∀ e ∈ T.opTargets n, e < D.size ∧ rk e < rk q
  obj : ∀ q < D.size, ∀ e ∈ T.objTargets q, e < D.size ∧ rk e < rk q

theorem need_lt_of_rk {m : Mem K} {p q : ℕ} (h : rk p < rk q) : need rk m p < 2 * rk q := by
  unfold need
  have : (m.visited p).toNat ≤ 1 := Bool.toNat_le _
  omega

theorem resetOS_total (hd : Descends D T rk) (fuel : ℕ) : TotS D rk fuel (resetOS D T fuel) := by
  induction fuel with
  | zero => intro o m _ h; exact absurd h (by omega)
  | succ f ih =>
      intro o m ho hm
      have hk : ∃ m1, (if m.visited o = true then
          resetItemsS T (resetOS D T f) (D.items o) (m.setVisited o false) else some m) = some m1 ∧
          Anti m m1 := by
        cases hv : m.visited o with
        | false => exact ⟨m, by simp, Anti.refl m⟩
        | true =>
            have hmo := anti_setVisited m o
            have hb : 2 * rk o < f := by
              unfold need at hm
              rw [hv] at hm
              simp at hm
              omega
            obtain ⟨m1, h1, a1⟩ := resetItemsS_total (T := T) ih (D.items o) (m.setVisited o false)
              (fun i hi p hp => ⟨hd.closed o ho i hi p hp, by
                rcases hd.edge o ho i hi p hp with e | e
                · subst e
                  simp only [need, Mem.setVisited, Function.update_self, Bool.toNat_false]
                  omega
                · exact (need_lt_of_rk e).trans hb⟩)
              (fun i hi k hk p hp => ⟨(hd.op o ho i hi k hk p hp).1,
                (need_lt_of_rk (hd.op o ho i hi k hk p hp).2).trans hb⟩)
            exact ⟨m1, by simp [h1], hmo.trans a1⟩
      obtain ⟨m1, h1, a1⟩ := hk
      have hb : 2 * rk o ≤ f := by unfold need at hm; omega
      obtain ⟨m2, h2, a2⟩ := resetList_total ih (T.objTargets o) (m1.clearObj D o)
        (fun p hp => ⟨(hd.obj o ho p hp).1, (need_lt_of_rk (hd.obj o ho p hp).2).trans_le hb⟩)
      refine ⟨m2.setVisited o false, ?_, a1.trans ((anti_setVisited m1 o).trans (a2.trans
        (anti_setVisited m2 o)))⟩
      simp only [resetOS, h1, Option.bind_some, h2, Option.map_some]

theorem resetImplS_total (hd : Descends D T rk) (hrk : ∀ q < D.size, rk q < D.size) {y : ℕ}
    (hy : y < D.size) (m : Mem K) : ∃ m', resetImplS D T D.fuelS y m = some m' := by
  have hn : ∀ p < D.size, ∀ m : Mem K, need rk m p < D.fuelS := by
    intro p hp m
    have h1 := hrk p hp
    have : (m.visited p).toNat ≤ 1 := Bool.toNat_le _
    unfold need Defs.fuelS
    omega
  obtain ⟨m1, h1, -⟩ := resetItemsS_total (T := T) (resetOS_total hd D.fuelS) (D.items y)
    (m.setVisited y true)
    (fun i hi p hp => ⟨hd.closed y hy i hi p hp, hn p (hd.closed y hy i hi p hp) _⟩)
    (fun i hi k hk p hp => ⟨(hd.op y hy i hi k hk p hp).1, hn p (hd.op y hy i hi k hk p hp).1 _⟩)
  exact ⟨m1.setVisited y false, by simp only [resetImplS, h1, Option.map_some]⟩

end

/-- The rank of an object: how many objects are below it. -/
noncomputable def GS.rk (g : GS K) (q : ℕ) : ℕ := by
  classical
  exact ((Finset.range g.D.size).filter fun p => g.ord p < g.ord q).card

theorem GS.rk_lt {g : GS K} {p q : ℕ} (hp : p < g.D.size) (h : g.ord p < g.ord q) : g.rk p < g.rk q := by
  classical
  unfold GS.rk
  apply Finset.card_lt_card
  refine ⟨fun r hr => ?_, fun hh => ?_⟩
  · simp only [Finset.mem_filter] at hr ⊢
    exact ⟨hr.1, hr.2.trans h⟩
  · have := hh (Finset.mem_filter.2 ⟨Finset.mem_range.2 hp, h⟩)
    simp at this

theorem GS.rk_size {g : GS K} {q : ℕ} (hq : q < g.D.size) : g.rk q < g.D.size := by
  classical
  unfold GS.rk
  calc _ < (Finset.range g.D.size).card := by
        apply Finset.card_lt_card
        refine ⟨Finset.filter_subset _ _, fun hh => ?_⟩
        have := hh (Finset.mem_range.2 hq)
        simp at this
    _ = _ := Finset.card_range _

theorem Good.descends {P : Prim K} {H : ℕ → Prop} {g : GS K} {r : ℚ} (h : Good P H g r) :
    Descends g.D g.tm g.rk := by
  have hT := h.d.lt
  refine ⟨h.d.wf.closed, fun q hq i hi p hp => ?_, fun q hq i hi n hn e he => ?_, fun q hq e he => ?_⟩
  · rcases h.d.edge q hq i hi p hp with e | e
    · exact Or.inl e
    · exact Or.inr (g.rk_lt (h.d.wf.closed q hq i hi p hp) e)
  · obtain ⟨t, ht, htop⟩ := Node.mem_top hn
    obtain ⟨pre, post, hpp⟩ := List.append_of_mem hi
    have hat : At g.D q pre t := ⟨i, post, hpp, ht⟩
    simp only [Tmps.opTargets, List.mem_append, Option.mem_toList, List.mem_map] at he
    have : e ∈ g.T ∧ g.ord e < g.ord q := by
      rcases he with he | ⟨⟨k, e'⟩, he, rfl⟩
      · obtain ⟨q', hq', pre', t', ha', ht'⟩ := h.t.otmpAt n e he
        obtain ⟨rfl, -, -⟩ := ha'.unique h.d.wf (hT q' hq') hq hat ht' htop
        have := h.t.otmp q' hq' pre t n e hat htop he
        exact ⟨this.1, this.2.1⟩
      · obtain ⟨-, q', hq', pre', t', ha', ht'⟩ := h.t.odtmpAt n k e' he
        obtain ⟨rfl, -, -⟩ := ha'.unique h.d.wf (hT q' hq') hq hat ht' htop
        have := h.t.odtmp q' hq' pre t n k e' hat htop he
        exact ⟨this.1, this.2.1⟩
    exact ⟨hT e this.1, g.rk_lt (hT e this.1) this.2⟩
  · simp only [Tmps.objTargets, List.mem_append, Option.mem_toList] at he
    have : e ∈ g.T ∧ g.ord e < g.ord q := by
      rcases he with he | he
      · cases hv : g.tm.tmp q with
        | none => rw [hv] at he; simp at he
        | some v =>
            rw [hv] at he
            cases v with
            | par p => simp at he
            | obj o =>
                simp only [List.mem_singleton] at he
                subst he
                exact (h.t.tmp q _ hv).2
      · have := h.t.dtmp q e he
        exact this.2
    exact ⟨hT e this.1, g.rk_lt (hT e this.1) this.2⟩

end CoolDiff
