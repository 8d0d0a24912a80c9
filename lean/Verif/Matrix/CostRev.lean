import Verif.Matrix.CostBound

/-!
# Matrix reverse mode: bound on the number of calls

Every operator traverses its operands twice, but the first time they have no adjoint yet and only walk down; the cost is
therefore quadratic.  This needs that no cache has an entry for an operator below one that is about to receive its
adjoint: the caches of named matrices mention only operators of their own formulas and of formulas below (`CachesOk`).
-/

set_option linter.unusedSectionVars false

namespace CoolDiff

variable {K : Type} [Field K] [DecidableEq K]

namespace MCache

/-- The cache has an entry for `k`. -/
def knows (κ : MCache K) (k : MKey) : Prop := κ.find k ≠ none

theorem knows_put {κ : MCache K} {k k' : MKey} {m : Mat K} (h : (κ.put k m).knows k') : k' = k ∨ κ.knows k' := by
  simp only [knows, find_put] at h ⊢
  by_cases hk : k' = k
  · exact .inl hk
  · rw [if_neg hk] at h; exact .inr h

end MCache

theorem kadd_knows {c : MCtx K} {κ κ' : MCache K} {k k' : MKey} {m : Mat K} (h : kadd c κ k m = some κ')
    (hk : κ'.knows k') : k' = k ∨ κ.knows k' := by
  simp only [kadd] at h
  split at h
  · simp only [Option.map_eq_some_iff] at h
    obtain ⟨m', -, rfl⟩ := h
    exact MCache.knows_put hk
  · simp only [Option.some.injEq] at h
    subst h
    exact MCache.knows_put hk

theorem mergeFold_knows {c : MCtx K} {adj : Mat K} {child : MCache K} {k' : MKey} (ks : List MKey) :
    ∀ {κ κ' : MCache K},
    ks.foldlM (fun κ k => (child.find k).bind fun m => mergeStep c adj κ (k, m)) κ = some κ' → κ'.knows k' →
    child.knows k' ∨ κ.knows k' := by
  induction ks with
  | nil =>
      intro κ κ' h hk
      simp only [List.foldlM_nil] at h
      cases h
      exact .inr hk
  | cons k ks ih =>
      intro κ κ' h hk
      simp only [List.foldlM_cons, Option.bind_eq_bind, Option.bind_eq_some_iff] at h
      obtain ⟨κ1, ⟨m, hm, h1⟩, h2⟩ := h
      rcases ih h2 hk with h3 | h3
      · exact .inl h3
      · simp only [mergeStep] at h1
        split at h1
        · simp only [Option.bind_eq_some_iff] at h1
          obtain ⟨v, -, m', -, h4⟩ := h1
          rcases kadd_knows h4 h3 with rfl | h5
          · exact .inl (by simp [MCache.knows, hm])
          · exact .inr h5
        · simp at h1

theorem mergeC_knows {c : MCtx K} {κ κ' child : MCache K} {adj : Mat K} {k' : MKey}
    (h : mergeC c κ adj child = some κ') (hk : κ'.knows k') : child.knows k' ∨ κ.knows k' :=
  mergeFold_knows _ h hk

theorem push1_knows {c : MCtx K} {x : MNode K} {m : Mat K} {κ κ' : MCache K} {s : MSt K} {k' : MKey}
    (h : push1 c x m κ s = some κ') (hk : κ'.knows k') :
    k' = x.key ∨ (childCache s x).knows k' ∨ κ.knows k' := by
  simp only [push1, Option.bind_eq_bind, Option.bind_eq_some_iff] at h
  obtain ⟨κ1, h1, h2⟩ := h
  rcases mergeC_knows h2 hk with h3 | h3
  · exact .inr (.inl h3)
  · rcases kadd_knows h1 h3 with h4 | h4
    · exact .inl h4
    · exact .inr (.inr h4)

theorem push2_knows {c : MCtx K} {x y : MNode K} {mL mR : Mat K} {κ κ' : MCache K} {s : MSt K} {k' : MKey}
    (h : push2 c x y mL mR κ s = some κ') (hk : κ'.knows k') :
    k' = x.key ∨ k' = y.key ∨ (childCache s x).knows k' ∨ (childCache s y).knows k' ∨ κ.knows k' := by
  simp only [push2, Option.bind_eq_bind, Option.bind_eq_some_iff] at h
  obtain ⟨κ1, h1, κ2, h2, κ3, h3, h4⟩ := h
  rcases mergeC_knows h4 hk with h5 | h5
  · exact .inr (.inr (.inr (.inl h5)))
  rcases mergeC_knows h3 h5 with h6 | h6
  · exact .inr (.inr (.inl h6))
  rcases kadd_knows h2 h6 with h7 | h7
  · exact .inr (.inl h7)
  rcases kadd_knows h1 h7 with h8 | h8
  · exact .inl h8
  · exact .inr (.inr (.inr (.inr h8)))

/-- Operator `m` belongs to the formula of a matrix of rank at most `r`. -/
def OwnedBelow (E : MEnv K) (rank : ℕ → ℕ) (r m : ℕ) : Prop :=
  ∃ q n e eye, E.kind q = .form n e eye ∧ m ∈ (MEnv.item n e eye).nums ∧ rank q ≤ r

/-- The cache of a matrix mentions only operators of its own formula and of formulas below. -/
def CachesOk (E : MEnv K) (rank : ℕ → ℕ) (s : MSt K) : Prop :=
  ∀ p m, (s.obj p).cache.knows (.node m) → OwnedBelow E rank (rank p) m

variable {E : MEnv K} {rank : ℕ → ℕ}

theorem CachesOk.congr {s s' : MSt K} (h : CachesOk E rank s)
    (hs : ∀ p, (s'.obj p).cache = (s.obj p).cache ∨ (s'.obj p).cache = []) : CachesOk E rank s' := by
  intro p m hk
  rcases hs p with h1 | h1
  · rw [h1] at hk; exact h p m hk
  · rw [h1] at hk; simp [MCache.knows, MCache.find] at hk

theorem CachesOk.eq {s s' : MSt K} (h : CachesOk E rank s)
    (hs : ∀ p, (s'.obj p).cache = (s.obj p).cache) : CachesOk E rank s' := h.congr fun p => .inl (hs p)

theorem CachesOk.setO {s : MSt K} (h : CachesOk E rank s) {o : ℕ} {v : MObj K}
    (hv : ∀ m, v.cache.knows (.node m) → OwnedBelow E rank (rank o) m) : CachesOk E rank (s.setO o v) := by
  intro p m hk
  by_cases hp : p = o
  · subst hp
    refine hv m ?_
    simpa [MSt.setO] using hk
  · refine h p m ?_
    simpa [MSt.setO, Function.update_of_ne hp] using hk

theorem CachesOk.fresh : CachesOk E rank (MSt.fresh : MSt K) := by
  intro p m hk
  simp [MSt.fresh, MCache.knows, MCache.find] at hk

variable {c : MCtx K} {S : Finset ℕ} {w : ℕ → ℕ}

/-- A `traverse()` of a named matrix costs 1, apart from the weight of the matrices it marks. -/
def MCostT (c : MCtx K) (rank : ℕ → ℕ) (S : Finset ℕ) (w : ℕ → ℕ) (tr : ℕ → MSt K → Option (ℕ × MSt K)) : Prop :=
  ∀ o ∈ S, ∀ s r, CachesOk c.E rank s → tr o s = some r →
    r.1 + mpot false S w r.2 ≤ 1 + mpot false S w s ∧ CachesOk c.E rank r.2

/-- `unlessSeen` costs at most what it guards. -/
theorem unlessSeenC_le {P : MCache K → MSt K → Prop} {a : MNode K} {κ : MCache K} {s : MSt K} {B : ℕ}
    {x : Option (ℕ × MCache K × MSt K)} {r : ℕ × MCache K × MSt K} (h : unlessSeenC a κ s x = some r)
    (h0 : P κ s) (hx : x = some r → r.1 + mpot false S w r.2.2 ≤ B + mpot false S w s ∧ P r.2.1 r.2.2) :
    r.1 + mpot false S w r.2.2 ≤ B + mpot false S w s ∧ P r.2.1 r.2.2 := by
  simp only [unlessSeenC] at h
  split at h
  · simp only [Option.some.injEq] at h
    subst h
    exact ⟨by simp, h0⟩
  · exact hx h

/-- Below an operator without an adjoint nothing has one: a single walk. -/
theorem travEC_bare {ev : ℕ → MSt K → Option (ℕ × MSt K × Mat K)} {tr : ℕ → MSt K → Option (ℕ × MSt K)}
    (ht : MCostT c rank S w tr) (e : MNode K) : (∀ p ∈ e.objs, p ∈ S) → ∀ κ s r,
      (∀ m ∈ e.nums, κ.find (.node m) = none) → CachesOk c.E rank s → travEC c ev tr e κ s = some r →
      r.1 + mpot false S w r.2.2 ≤ e.size + mpot false S w s ∧ r.2.1 = κ ∧ CachesOk c.E rank r.2.2 := by
  induction e with
  | obj o =>
      intro hl κ s r _ hc h
      simp only [travEC, Option.bind_eq_some_iff, Option.some.injEq] at h
      obtain ⟨x, hx, rfl⟩ := h
      obtain ⟨h1, h2⟩ := ht o (hl o (by simp [MNode.objs])) s x hc hx
      exact ⟨h1, rfl, h2⟩
  | bin n op a b iha ihb =>
      intro hl κ s r hk hc h
      have hla : ∀ p ∈ a.objs, p ∈ S := fun p hp => hl p (by simp [MNode.objs, hp])
      have hlb : ∀ p ∈ b.objs, p ∈ S := fun p hp => hl p (by simp [MNode.objs, hp])
      simp only [travEC, hk n (by simp [MNode.nums]), Option.bind_some, Option.bind_eq_some_iff,
        Option.some.injEq] at h
      obtain ⟨q, hq, t, ht', rfl⟩ := h
      obtain ⟨h1, h2, h3⟩ := unlessSeenC_le (P := fun κ' s' => κ' = κ ∧ CachesOk c.E rank s') hq ⟨rfl, hc⟩
        fun hx => iha hla κ s q (fun m hm => hk m (by simp [MNode.nums, hm])) hc hx
      rw [h2] at ht'
      obtain ⟨h4, h5, h6⟩ := unlessSeenC_le (P := fun κ' s' => κ' = κ ∧ CachesOk c.E rank s') ht' ⟨rfl, h3⟩
        fun hx => ihb hlb κ _ t (fun m hm => hk m (by simp [MNode.nums, hm])) h3 hx
      refine ⟨?_, h5, h6⟩
      simp only [MNode.size]
      omega
  | un n op a ih =>
      intro hl κ s r hk hc h
      simp only [travEC, hk n (by simp [MNode.nums]), Option.bind_some, Option.bind_eq_some_iff,
        Option.some.injEq] at h
      obtain ⟨q, hq, rfl⟩ := h
      obtain ⟨h1, h2, h3⟩ := unlessSeenC_le (P := fun κ' s' => κ' = κ ∧ CachesOk c.E rank s') hq ⟨rfl, hc⟩
        fun hx => ih hl κ s q (fun m hm => hk m (by simp [MNode.nums, hm])) hc hx
      refine ⟨?_, h2, h3⟩
      simp only [MNode.size]
      omega

theorem revVals2C_le {ev : ℕ → MSt K → Option (ℕ × MSt K × Mat K)} (he : MCostE S w ev) {op : MBin} {x y : MNode K}
    (hx : ∀ p ∈ x.objs, p ∈ S) (hy : ∀ p ∈ y.objs, p ∈ S) {C : Mat K} {s : MSt K} {r : ℕ × MSt K × Mat K × Mat K}
    (h : revVals2C c ev op x y C s = some r) :
    r.1 + mpot false S w r.2.1 ≤ x.size + y.size + mpot false S w s ∧
      ∀ p, (r.2.1.obj p).cache = (s.obj p).cache := by
  simp only [revVals2C] at h
  split at h
  · simp only [Option.bind_eq_some_iff, Option.some.injEq] at h
    obtain ⟨l, hl, v, hv, rfl⟩ := h
    obtain ⟨h1, h2⟩ := evalEC_le he x hx _ l hl
    obtain ⟨h3, h4⟩ := evalEC_le he y hy _ v hv
    refine ⟨?_, fun p => (h4 p).trans (h2 p)⟩
    simp only
    omega
  · simp only [Option.some.injEq] at h
    subst h
    exact ⟨by simp, fun _ => rfl⟩

theorem revVals1C_le {ev : ℕ → MSt K → Option (ℕ × MSt K × Mat K)} (he : MCostE S w ev) {op : MUn K} {x : MNode K}
    (hx : ∀ p ∈ x.objs, p ∈ S) {C : Mat K} {s : MSt K} {r : ℕ × MSt K × Mat K}
    (h : revVals1C c ev op x C s = some r) :
    r.1 + mpot false S w r.2.1 ≤ x.size + mpot false S w s ∧ ∀ p, (r.2.1.obj p).cache = (s.obj p).cache := by
  simp only [revVals1C] at h
  split at h
  · exact evalEC_le he x hx _ r h
  · simp only [Option.some.injEq] at h
    subst h
    exact ⟨by simp, fun _ => rfl⟩

/-- What may be in a cache under construction besides `κ`: matrices, operators strictly below the current ones, and
operators of formulas of lower rank. -/
def Extra (E : MEnv K) (rank : ℕ → ℕ) (o : ℕ) (l : List ℕ) (κ κ' : MCache K) : Prop :=
  ∀ m, κ'.knows (.node m) → κ.knows (.node m) ∨ m ∈ l ∨ ∃ p, rank p < rank o ∧ OwnedBelow E rank (rank p) m

theorem Extra.refl {o : ℕ} {l : List ℕ} {κ : MCache K} : Extra E rank o l κ κ := fun _ h => .inl h

theorem Extra.trans {o : ℕ} {l : List ℕ} {κ κ' κ'' : MCache K} (h : Extra E rank o l κ κ')
    (h' : Extra E rank o l κ' κ'') : Extra E rank o l κ κ'' := fun m hm => by
  rcases h' m hm with h1 | h1
  · exact h m h1
  · exact .inr h1

theorem Extra.mono {o : ℕ} {l l' : List ℕ} {κ κ' : MCache K} (h : Extra E rank o l κ κ') (hl : ∀ m ∈ l, m ∈ l') :
    Extra E rank o l' κ κ' := fun m hm => by
  rcases h m hm with h1 | h1 | h1
  · exact .inl h1
  · exact .inr (.inl (hl m h1))
  · exact .inr (.inr h1)

theorem MNode.sub_nums (e : MNode K) {m : ℕ} (h : m ∈ e.sub) : m ∈ e.nums := by
  cases e with
  | obj o => exact h
  | bin n op a b => exact List.mem_cons_of_mem _ h
  | un n op a => exact List.mem_cons_of_mem _ h

theorem MNode.key_nums {e : MNode K} {m : ℕ} (h : e.key = .node m) : m ∈ e.nums := by
  cases e with
  | obj o => simp [MNode.key] at h
  | bin n op a b => simp only [MNode.key, MKey.node.injEq] at h; subst h; simp [MNode.nums]
  | un n op a => simp only [MNode.key, MKey.node.injEq] at h; subst h; simp [MNode.nums]

theorem MNode.key_not_sub {e : MNode K} (hn : e.nums.Nodup) {m : ℕ} (h : e.key = .node m) : m ∉ e.sub := by
  cases e with
  | obj o => simp [MNode.sub]
  | bin n op a b =>
      simp only [MNode.key, MKey.node.injEq] at h; subst h
      simp only [MNode.nums, List.nodup_cons] at hn
      exact hn.1
  | un n op a =>
      simp only [MNode.key, MKey.node.injEq] at h; subst h
      simp only [MNode.nums, List.nodup_cons] at hn
      exact hn.1

theorem childCache_owned {s : MSt K} (hc : CachesOk E rank s) {o : ℕ} {x : MNode K}
    (hr : ∀ p ∈ x.objs, rank p < rank o) {m : ℕ} (h : (childCache s x).knows (.node m)) :
    ∃ p, rank p < rank o ∧ OwnedBelow E rank (rank p) m := by
  cases x with
  | obj p => exact ⟨p, hr p (by simp [MNode.objs]), hc p m h⟩
  | bin n op a b => simp [childCache, MCache.knows, MCache.find] at h
  | un n op a => simp [childCache, MCache.knows, MCache.find] at h

/-- Operators of the formula of `o` do not belong to formulas of lower rank. -/
theorem UniqueNodes.not_below (hu : UniqueNodes E Set.univ) {o n eye : ℕ} {e : MNode K} (hk : E.kind o = .form n e eye)
    {m : ℕ} (hm : m ∈ (MEnv.item n e eye).nums) : ¬∃ p, rank p < rank o ∧ OwnedBelow E rank (rank p) m := by
  rintro ⟨p, hp, q, n', e', eye', hk', hm', hq⟩
  have := hu.disj o trivial q trivial _ _ _ _ _ _ hk hk' m hm hm'
  subst this
  omega

theorem not_knows {κ : MCache K} {k : MKey} : ¬κ.knows k ↔ κ.find k = none := by
  simp [MCache.knows]

/-- The cost of `traverse` of an operator with an adjoint. -/
theorem travEC_le {ev : ℕ → MSt K → Option (ℕ × MSt K × Mat K)} {tr : ℕ → MSt K → Option (ℕ × MSt K)}
    (hu : UniqueNodes c.E Set.univ) (he : MCostE S w ev) (ht : MCostT c rank S w tr) {o n0 eye0 : ℕ} {e0 : MNode K}
    (hk0 : c.E.kind o = .form n0 e0 eye0) (e : MNode K) :
    (∀ p ∈ e.objs, p ∈ S) → (∀ p ∈ e.objs, rank p < rank o) → (∀ m ∈ e.nums, m ∈ (MEnv.item n0 e0 eye0).nums) →
    e.nums.Nodup → ∀ κ s r, (∀ m ∈ e.sub, κ.find (.node m) = none) → CachesOk c.E rank s →
      travEC c ev tr e κ s = some r →
      r.1 + mpot false S w r.2.2 ≤ e.revSize + mpot false S w s ∧ Extra c.E rank o e.sub κ r.2.1 ∧
        CachesOk c.E rank r.2.2 := by
  induction e with
  | obj o' =>
      intro hl hr hm hn κ s r hsub hc h
      simp only [travEC, Option.bind_eq_some_iff, Option.some.injEq] at h
      obtain ⟨x, hx, rfl⟩ := h
      obtain ⟨h1, h2⟩ := ht o' (hl o' (by simp [MNode.objs])) s x hc hx
      exact ⟨h1, Extra.refl, h2⟩
  | bin n op a b iha ihb =>
      intro hl hr hm hn κ s r hsub hc h
      cases hf : κ.find (.node n) with
      | none =>
          obtain ⟨h1, h2, h3⟩ := travEC_bare ht (.bin n op a b) hl κ s r (fun m hm => by
            simp only [MNode.nums, List.mem_cons] at hm
            rcases hm with rfl | hm
            · exact hf
            · exact hsub m hm) hc h
          refine ⟨h1.trans (Nat.add_le_add_right (MNode.size_le_revSize _) _), ?_, h3⟩
          rw [h2]
          exact Extra.refl
      | some C =>
          have hla : ∀ p ∈ a.objs, p ∈ S := fun p hp => hl p (by simp [MNode.objs, hp])
          have hlb : ∀ p ∈ b.objs, p ∈ S := fun p hp => hl p (by simp [MNode.objs, hp])
          have hra : ∀ p ∈ a.objs, rank p < rank o := fun p hp => hr p (by simp [MNode.objs, hp])
          have hrb : ∀ p ∈ b.objs, rank p < rank o := fun p hp => hr p (by simp [MNode.objs, hp])
          have hma : ∀ m ∈ a.nums, m ∈ (MEnv.item n0 e0 eye0).nums := fun m h => hm m (by simp [MNode.nums, h])
          have hmb : ∀ m ∈ b.nums, m ∈ (MEnv.item n0 e0 eye0).nums := fun m h => hm m (by simp [MNode.nums, h])
          have hsa : ∀ m ∈ a.nums, κ.find (.node m) = none := fun m h => hsub m (by simp [MNode.sub, h])
          have hsb : ∀ m ∈ b.nums, κ.find (.node m) = none := fun m h => hsub m (by simp [MNode.sub, h])
          simp only [MNode.nums, List.nodup_cons, List.nodup_append, List.mem_append, not_or] at hn
          obtain ⟨-, hna, hnb, hdis⟩ := hn
          simp only [travEC, hf, Option.bind_eq_some_iff, Option.some.injEq] at h
          obtain ⟨_, ⟨p, hp, q, hq, v, hv, z, -, κ1, hκ, rfl⟩, t, ht1, u, hu1, rfl⟩ := h
          obtain ⟨h1, h2, h3⟩ := unlessSeenC_le (P := fun κ' s' => κ' = κ ∧ CachesOk c.E rank s') hp ⟨rfl, hc⟩
            fun hx => travEC_bare ht a hla κ s p hsa hc hx
          rw [h2] at hq
          obtain ⟨h4, h5, h6⟩ := unlessSeenC_le (P := fun κ' s' => κ' = κ ∧ CachesOk c.E rank s') hq ⟨rfl, h3⟩
            fun hx => travEC_bare ht b hlb κ _ q hsb h3 hx
          rw [h5] at hκ
          obtain ⟨h7, h8⟩ := revVals2C_le he hla hlb hv
          have h9 : CachesOk c.E rank (v.2.1.setN n z.1) := h6.eq h8
          have h10 : ∀ m, κ1.knows (.node m) → (MKey.node m = a.key ∨ .node m = b.key) ∨
              (∃ p, rank p < rank o ∧ OwnedBelow c.E rank (rank p) m) ∨ κ.knows (.node m) := by
            intro m hk
            rcases push2_knows hκ hk with h | h | h | h | h
            · exact .inl (.inl h)
            · exact .inl (.inr h)
            · exact .inr (.inl (childCache_owned h9 hra h))
            · exact .inr (.inl (childCache_owned h9 hrb h))
            · exact .inr (.inr h)
          have hκa : ∀ m ∈ a.sub, κ1.find (.node m) = none := by
            intro m hm
            refine not_knows.1 fun hk => ?_
            rcases h10 m hk with (h | h) | h | h
            · exact MNode.key_not_sub hna h.symm hm
            · exact hdis m (a.sub_nums hm) m (MNode.key_nums h.symm) rfl
            · exact hu.not_below hk0 (hma m (a.sub_nums hm)) h
            · exact not_knows.2 (hsa m (a.sub_nums hm)) h
          obtain ⟨h11, h12, h13⟩ := unlessSeenC_le
            (P := fun κ' s' => Extra c.E rank o a.sub κ1 κ' ∧ CachesOk c.E rank s') ht1 ⟨Extra.refl, h9⟩
            fun hx => iha hla hra hma hna κ1 _ t hκa h9 hx
          have hκb : ∀ m ∈ b.sub, t.2.1.find (.node m) = none := by
            intro m hm
            refine not_knows.1 fun hk => ?_
            rcases h12 m hk with hk | h | h
            · rcases h10 m hk with (h | h) | h | h
              · exact hdis m (MNode.key_nums h.symm) m (b.sub_nums hm) rfl
              · exact MNode.key_not_sub hnb h.symm hm
              · exact hu.not_below hk0 (hmb m (b.sub_nums hm)) h
              · exact not_knows.2 (hsb m (b.sub_nums hm)) h
            · exact hdis m (a.sub_nums h) m (b.sub_nums hm) rfl
            · exact hu.not_below hk0 (hmb m (b.sub_nums hm)) h
          obtain ⟨h14, h15, h16⟩ := unlessSeenC_le
            (P := fun κ' s' => Extra c.E rank o b.sub t.2.1 κ' ∧ CachesOk c.E rank s') hu1 ⟨Extra.refl, h13⟩
            fun hx => ihb hlb hrb hmb hnb t.2.1 _ u hκb h13 hx
          refine ⟨?_, ?_, h16⟩
          · simp only [mpot_setN] at h11
            simp only [MNode.revSize]
            omega
          · have h17 : Extra c.E rank o (MNode.bin n op a b).sub κ κ1 := fun m hk => by
              rcases h10 m hk with (h | h) | h | h
              · exact .inr (.inl (by simp [MNode.sub, MNode.key_nums h.symm]))
              · exact .inr (.inl (by simp [MNode.sub, MNode.key_nums h.symm]))
              · exact .inr (.inr h)
              · exact .inl h
            exact (h17.trans (h12.mono fun m hm => by simp [MNode.sub, a.sub_nums hm])).trans
              (h15.mono fun m hm => by simp [MNode.sub, b.sub_nums hm])
  | un n op a ih =>
      intro hl hr hm hn κ s r hsub hc h
      cases hf : κ.find (.node n) with
      | none =>
          obtain ⟨h1, h2, h3⟩ := travEC_bare ht (.un n op a) hl κ s r (fun m hm => by
            simp only [MNode.nums, List.mem_cons] at hm
            rcases hm with rfl | hm
            · exact hf
            · exact hsub m hm) hc h
          refine ⟨h1.trans (Nat.add_le_add_right (MNode.size_le_revSize _) _), ?_, h3⟩
          rw [h2]
          exact Extra.refl
      | some C =>
          have hma : ∀ m ∈ a.nums, m ∈ (MEnv.item n0 e0 eye0).nums := fun m h => hm m (by simp [MNode.nums, h])
          have hsa : ∀ m ∈ a.nums, κ.find (.node m) = none := fun m h => hsub m (by simp [MNode.sub, h])
          simp only [MNode.nums, List.nodup_cons] at hn
          obtain ⟨-, hna⟩ := hn
          simp only [travEC, hf, Option.bind_eq_some_iff, Option.some.injEq] at h
          obtain ⟨_, ⟨p, hp, v, hv, z, -, κ1, hκ, rfl⟩, t, ht1, rfl⟩ := h
          obtain ⟨h1, h2, h3⟩ := unlessSeenC_le (P := fun κ' s' => κ' = κ ∧ CachesOk c.E rank s') hp ⟨rfl, hc⟩
            fun hx => travEC_bare ht a hl κ s p hsa hc hx
          rw [h2] at hκ
          obtain ⟨h7, h8⟩ := revVals1C_le (x := a) he hl hv
          have h9 : CachesOk c.E rank (v.2.1.setN n z.1) := h3.eq h8
          have h10 : ∀ m, κ1.knows (.node m) → MKey.node m = a.key ∨
              (∃ p, rank p < rank o ∧ OwnedBelow c.E rank (rank p) m) ∨ κ.knows (.node m) := by
            intro m hk
            rcases push1_knows hκ hk with h | h | h
            · exact .inl h
            · exact .inr (.inl (childCache_owned (x := a) h9 hr h))
            · exact .inr (.inr h)
          have hκa : ∀ m ∈ a.sub, κ1.find (.node m) = none := by
            intro m hm
            refine not_knows.1 fun hk => ?_
            rcases h10 m hk with h | h | h
            · exact MNode.key_not_sub hna h.symm hm
            · exact hu.not_below hk0 (hma m (a.sub_nums hm)) h
            · exact not_knows.2 (hsa m (a.sub_nums hm)) h
          obtain ⟨h11, h12, h13⟩ := unlessSeenC_le
            (P := fun κ' s' => Extra c.E rank o a.sub κ1 κ' ∧ CachesOk c.E rank s') ht1 ⟨Extra.refl, h9⟩
            fun hx => ih hl hr hma hna κ1 _ t hκa h9 hx
          refine ⟨?_, ?_, h13⟩
          · simp only [mpot_setN] at h11
            simp only [MNode.revSize]
            omega
          · have h17 : Extra c.E rank o (MNode.un n op a).sub κ κ1 := fun m hk => by
              rcases h10 m hk with h | h | h
              · exact .inr (.inl (by simp [MNode.sub, MNode.key_nums h.symm]))
              · exact .inr (.inr h)
              · exact .inl h
            exact h17.trans (h12.mono fun m hm => by simp [MNode.sub, a.sub_nums hm])

/-- The cost of `traverse()` of the product node of a formula. -/
theorem travRootC_le {ev : ℕ → MSt K → Option (ℕ × MSt K × Mat K)} {tr : ℕ → MSt K → Option (ℕ × MSt K)}
    (hu : UniqueNodes c.E Set.univ) (he : MCostE S w ev) (ht : MCostT c rank S w tr) {o n eye : ℕ} {a : MNode K}
    (hk0 : c.E.kind o = .form n a eye) (hS : MClosed c.E S) (ho : o ∈ S)
    (hrk : ∀ p ∈ (MEnv.item n a eye).objs, rank p < rank o) {s : MSt K} {r : ℕ × MCache K × MSt K}
    (hc : CachesOk c.E rank s) (h : travRootC c ev tr n a (.obj eye) s = some r) :
    r.1 + mpot false S w r.2.2 ≤ (MEnv.item n a eye).revSize + mpot false S w s ∧
      (∀ m, r.2.1.knows (.node m) → OwnedBelow c.E rank (rank o) m) ∧ CachesOk c.E rank r.2.2 := by
  set b : MNode K := .obj eye with hb
  have hl := fun p hp => hS o ho n a eye hk0 p hp
  have hla : ∀ p ∈ a.objs, p ∈ S := fun p hp => hl p (by simp [MEnv.item, MNode.objs, hp])
  have hlb : ∀ p ∈ b.objs, p ∈ S := fun p hp => hl p (by rw [hb, MNode.objs, List.mem_singleton] at hp; simp [MEnv.item, MNode.objs, hp])
  have hra : ∀ p ∈ a.objs, rank p < rank o := fun p hp => hrk p (by simp [MEnv.item, MNode.objs, hp])
  have hrb : ∀ p ∈ b.objs, rank p < rank o := fun p hp => hrk p (by rw [hb, MNode.objs, List.mem_singleton] at hp; simp [MEnv.item, MNode.objs, hp])
  have hma : ∀ m ∈ a.nums, m ∈ (MEnv.item n a eye).nums := fun m h => by simp [MEnv.item, MNode.nums, h]
  have hn := hu.nodup o trivial n a eye hk0
  simp only [MEnv.item, MNode.nums, List.nodup_cons, List.append_nil] at hn
  have hna := hn.2
  simp only [travRootC, Option.bind_eq_some_iff, Option.some.injEq] at h
  obtain ⟨p, hp, q, hq, l, hlv, v, hv, z, -, z', -, κ1, hκ, t, ht1, u, hu1, rfl⟩ := h
  obtain ⟨h1, h2, h3⟩ := unlessSeenC_le (P := fun κ' s' => κ' = [] ∧ CachesOk c.E rank s') hp ⟨rfl, hc⟩
    fun hx => travEC_bare ht a hla [] s p (fun _ _ => rfl) hc hx
  rw [h2] at hq
  obtain ⟨h4, h5, h6⟩ := unlessSeenC_le (P := fun κ' s' => κ' = [] ∧ CachesOk c.E rank s') hq ⟨rfl, h3⟩
    fun hx => travEC_bare ht b hlb [] _ q (fun _ _ => rfl) h3 hx
  rw [h5] at hκ
  obtain ⟨h7, h8⟩ := evalEC_le he a hla _ l hlv
  obtain ⟨h7', h8'⟩ := evalEC_le he b hlb _ v hv
  have h9 : CachesOk c.E rank (v.2.1.setN n z'.1) := h6.eq fun p => (h8' p).trans (h8 p)
  have h10 : ∀ m, κ1.knows (.node m) → MKey.node m = a.key ∨
      (∃ p, rank p < rank o ∧ OwnedBelow c.E rank (rank p) m) := by
    intro m hk
    rcases push2_knows hκ hk with h | h | h | h | h
    · exact .inl h
    · simp [hb, MNode.key] at h
    · exact .inr (childCache_owned h9 hra h)
    · exact .inr (childCache_owned h9 hrb h)
    · exact absurd rfl h
  have hκa : ∀ m ∈ a.sub, κ1.find (.node m) = none := by
    intro m hm
    refine not_knows.1 fun hk => ?_
    rcases h10 m hk with h | h
    · exact MNode.key_not_sub hna h.symm hm
    · exact hu.not_below hk0 (hma m (a.sub_nums hm)) h
  obtain ⟨h11, h12, h13⟩ := unlessSeenC_le
    (P := fun κ' s' => Extra c.E rank o a.sub κ1 κ' ∧ CachesOk c.E rank s') ht1 ⟨Extra.refl, h9⟩
    fun hx => travEC_le hu he ht hk0 a hla hra hma hna κ1 _ t hκa h9 hx
  obtain ⟨h14, h15, h16⟩ := unlessSeenC_le
    (P := fun κ' s' => Extra c.E rank o b.sub t.2.1 κ' ∧ CachesOk c.E rank s') hu1 ⟨Extra.refl, h13⟩
    fun hx => travEC_le hu he ht hk0 b hlb hrb (by simp [hb, MNode.nums]) (by simp [hb, MNode.nums]) t.2.1 _ u
      (by simp [hb, MNode.sub]) h13 hx
  refine ⟨?_, ?_, h16⟩
  · simp only [mpot_setN] at h11
    simp only [MEnv.item, MNode.revSize]
    simp only [hb, MNode.revSize, MNode.size] at *
    omega
  · intro m hm
    rcases h15 m hm with hm | hm | ⟨p, hp, q, n', e', eye', h1, h2, h3⟩
    · rcases h12 m hm with hm | hm | ⟨p, hp, q, n', e', eye', h1, h2, h3⟩
      · rcases h10 m hm with hm | ⟨p, hp, q, n', e', eye', h1, h2, h3⟩
        · exact ⟨o, n, a, eye, hk0, hma m (MNode.key_nums hm.symm), le_refl _⟩
        · exact ⟨q, n', e', eye', h1, h2, by omega⟩
      · exact ⟨o, n, a, eye, hk0, hma m (a.sub_nums hm), le_refl _⟩
      · exact ⟨q, n', e', eye', h1, h2, by omega⟩
    · simp [hb, MNode.sub] at hm
    · exact ⟨q, n', e', eye', h1, h2, by omega⟩

theorem mtravOC_le (hu : UniqueNodes c.E Set.univ) (hwf : c.E.WF rank) (hS : MClosed c.E S)
    (hw : ∀ o ∈ S, c.E.weight (fun e => e.revSize + e.size) o ≤ w o) (f : ℕ) : MCostT c rank S w (mtravOC c f) := by
  have he := mevalOC_le (w := w) hS fun o ho =>
    (MEnv.weight_mono (fun e => Nat.le_add_left e.size e.revSize) o).trans (hw o ho)
  induction f with
  | zero => intro o _ s r _ h; simp [mtravOC] at h
  | succ f ih =>
      intro o ho s r hc h
      have hwo := hw o ho
      simp only [mtravOC] at h
      split at h
      · simp only [Option.some.injEq] at h
        subst h
        exact ⟨le_refl _, hc⟩
      · rename_i hv
        have hv' : (s.obj o).visited = false := by simpa using hv
        cases hk : c.E.kind o with
        | form n e eye =>
            simp only [hk, Option.bind_eq_some_iff, Option.some.injEq] at h
            simp only [MEnv.weight, hk] at hwo
            obtain ⟨x, hx, y, hy, rfl⟩ := h
            have hrk := (hwf.form o n e eye hk).2.2.2.2.2.2
            have hc' : CachesOk c.E rank (s.setO o { s.obj o with visited := true }) := hc.setO fun m hm => hc o m hm
            obtain ⟨h1, h2, h3⟩ := travRootC_le hu (he f) ih hk hS ho hrk hc' hx
            obtain ⟨h4, h5⟩ := evalEC_le (he f) _ (fun p hp => hS o ho n e eye hk p hp) _ y hy
            have hm := mpot_mark (w := w) (v := { s.obj o with visited := true }) ho hv' rfl
            have h1' : x.1 + mpot false S w x.2.2 + w o ≤ (MEnv.item n e eye).revSize + mpot false S w s := by
              rw [← hm, ← Nat.add_assoc]; exact Nat.add_le_add_right h1 _
            refine ⟨?_, (h3.eq h5).setO fun m hm => h2 m hm⟩
            simp only
            rw [mpot_setO_same (by rfl)]
            omega
        | _ =>
            simp only [hk, Option.some.injEq] at h
            subst h
            exact ⟨Nat.add_le_add_left (mpot_drop rfl) 1, hc.setO fun m hm => hc o m hm⟩

end CoolDiff
