import Verif.Matrix.RevReset
import Verif.Matrix.Runs

/-!
# Owners of nodes, keys of caches, numbers of clones

Every program with distinct operator objects has them (`Static`).
-/

set_option linter.unusedSectionVars false

namespace CoolDiff

variable {K : Type} [Field K] [DecidableEq K]

/-- Formulas whose expression mentions a named formula. -/
def Nested (E : MEnv K) (q : ℕ) : Prop :=
  ∃ n e eye, E.kind q = .form n e eye ∧ ∃ q' ∈ (MEnv.item n e eye).objs, E.isForm q'

theorem ckOf_congr {ck ck' : ℕ → Finset MKey} {e : MNode K} (h : ∀ q ∈ e.objs, ck q = ck' q) :
    ckOf ck e = ckOf ck' e := by
  cases e with
  | obj q => exact h q (by simp [MNode.objs])
  | bin _ _ _ _ => rfl
  | un _ _ _ => rfl

theorem tKeys_congr {ck ck' : ℕ → Finset MKey} : ∀ (e : MNode K), (∀ q ∈ e.objs, ck q = ck' q) →
    ∀ s, tKeys ck e s = tKeys ck' e s
  | .obj _, _, _ => rfl
  | .bin _ _ x y, h, s => by
    have hx : ∀ q ∈ x.objs, ck q = ck' q := fun q hq => h q (by simp [MNode.objs, hq])
    have hy : ∀ q ∈ y.objs, ck q = ck' q := fun q hq => h q (by simp [MNode.objs, hq])
    simp only [tKeys]
    rw [ckOf_congr hx, ckOf_congr hy, tKeys_congr x hx, tKeys_congr y hy]
  | .un _ _ x, h, s => by
    have hx : ∀ q ∈ x.objs, ck q = ck' q := fun q hq => h q (by simpa [MNode.objs] using hq)
    simp only [tKeys]
    rw [ckOf_congr hx, tKeys_congr x hx]

/-- Keys of the cache of a named matrix, by depth. -/
def ckF (E : MEnv K) : ℕ → ℕ → Finset MKey
  | 0, _ => ∅
  | f + 1, q => match E.kind q with
    | .form n e eye => tKeys (ckF E f) (MEnv.item n e eye) ∅
    | _ => ∅

theorem ckF_stable {E : MEnv K} {rank : ℕ → ℕ} (hwf : E.WF rank) : ∀ f g q, rank q < f → rank q < g →
    ckF E f q = ckF E g q
  | 0, _, _, h, _ => by omega
  | _ + 1, 0, _, _, h => by omega
  | f + 1, g + 1, q, hf, hg => by
    simp only [ckF]
    rcases hk : E.kind q with _ | _ | _ | _ | ⟨n, e, eye⟩ <;> simp only
    refine tKeys_congr _ (fun q' hq' => ?_) _
    have := (hwf.form _ _ _ _ hk).2.2.2.2.2.2 q' hq'
    exact ckF_stable hwf f g q' (by omega) (by omega)

/-- Number of clones of node `m` in `e`. -/
def kAt (ck : ℕ → Finset MKey) (m : ℕ) : MNode K → Finset MKey → ℕ
  | .obj _, _ => 0
  | .bin n _ x y, s =>
    if n = m then (insert y.key (insert x.key s)).card
    else if m ∈ x.nums then kAt ck m x (insert y.key (insert x.key s) ∪ ckOf ck x ∪ ckOf ck y)
    else kAt ck m y (tKeys ck x (insert y.key (insert x.key s) ∪ ckOf ck x ∪ ckOf ck y))
  | .un n _ x, s => if n = m then (insert x.key s).card else kAt ck m x (insert x.key s ∪ ckOf ck x)

theorem kok_kAt {ck : ℕ → Finset MKey} {kk : ℕ → ℕ} : ∀ (e : MNode K) (s : Finset MKey), e.nums.Nodup →
    (∀ m ∈ e.nums, kk m = kAt ck m e s) → KOk ck kk e s
  | .obj _, _, _, _ => trivial
  | .bin n op a b, s, hn, h => by
    simp only [MNode.nums, List.nodup_cons, List.nodup_append, List.mem_append, not_or] at hn
    obtain ⟨⟨h1, h2⟩, h3, h4, h5⟩ := hn
    refine ⟨?_, kok_kAt a _ h3 fun m hm => ?_, kok_kAt b _ h4 fun m hm => ?_⟩
    · rw [h n (by simp [MNode.nums])]; simp [kAt]
    · have : n ≠ m := by rintro rfl; exact h1 hm
      rw [h m (by simp [MNode.nums, hm])]
      simp [kAt, this, hm]
    · have : n ≠ m := by rintro rfl; exact h2 hm
      have h6 : m ∉ a.nums := fun hh => h5 m hh m hm rfl
      rw [h m (by simp [MNode.nums, hm])]
      simp [kAt, this, h6]
  | .un n op a, s, hn, h => by
    simp only [MNode.nums, List.nodup_cons] at hn
    refine ⟨?_, kok_kAt a _ hn.2 fun m hm => ?_⟩
    · rw [h n (by simp [MNode.nums])]; simp [kAt]
    · have : n ≠ m := by rintro rfl; exact hn.1 hm
      rw [h m (by simp [MNode.nums, hm])]
      simp [kAt, this]

theorem Static.exists {E : MEnv K} {rank : ℕ → ℕ} (hwf : E.WF rank) (hu : UniqueNodes E Set.univ) :
    ∃ own nd kk ck, Static E own (Nested E) kk ck ∧ ∀ q, ∀ n e eye,
      E.kind q = .form n e eye → (MEnv.item n e eye).nums.Nodup ∧
      (∀ m ∈ (MEnv.item n e eye).nums, own m = q) ∧ NdOk E nd (MEnv.item n e eye) := by
  obtain ⟨own, nd, h⟩ := hu.choose
  let ck : ℕ → Finset MKey := fun q => ckF E (rank q + 1) q
  let kk : ℕ → ℕ := fun m => match E.kind (own m) with
    | .form n e eye => kAt ck m (MEnv.item n e eye) ∅
    | _ => 0
  have h' := fun q n e eye hk => h q trivial n e eye hk
  refine ⟨own, nd, kk, ck, ⟨fun q n e eye hk => (h' q n e eye hk).2.1,
    fun q n e eye hk => (h' q n e eye hk).1, ?_, ?_, ?_, ?_⟩, h'⟩
  · intro q n e eye hk
    show ckF E (rank q + 1) q = _
    simp only [ckF, hk]
    refine tKeys_congr _ (fun q' hq' => ?_) _
    have := (hwf.form _ _ _ _ hk).2.2.2.2.2.2 q' hq'
    exact ckF_stable hwf _ _ q' (by omega) (by omega)
  · intro q hq
    show ckF E (rank q + 1) q = _
    simp only [ckF]
    rcases hk : E.kind q with _ | _ | _ | _ | ⟨n, e, eye⟩ <;> simp only
    exact absurd ⟨n, e, eye, hk⟩ hq
  · intro q n e eye hk
    refine kok_kAt _ _ (h' q n e eye hk).1 fun m hm => ?_
    show (match E.kind (own m) with
      | .form n e eye => kAt ck m (MEnv.item n e eye) ∅
      | _ => 0) = _
    rw [(h' q n e eye hk).2.1 m hm, hk]
  · intro q n e eye hk q' hq' hf
    exact ⟨n, e, eye, hk, q', hq', hf⟩

end CoolDiff
