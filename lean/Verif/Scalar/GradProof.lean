import Verif.Scalar.SymFrame
import Verif.Scalar.Gradients
import Verif.Props.Second

/-!
# Loops over the elements of a vector or matrix of Variables
-/

set_option linter.unusedSectionVars false

namespace CoolDiff

variable {K : Type} [Field K] [DecidableEq K]
variable {P : Prim K} {rf : ℕ → Bool → List Bool → Bool}

/-! ## The buffer of the result -/

theorem transformTo_spec {α σ : Type} (I : σ → Prop) (val : α → K) {f : α → σ → Option (K × σ)} :
    ∀ (vs : List α), (∀ v ∈ vs, ∀ s, I s → ∃ s', f v s = some (val v, s') ∧ I s') →
    ∀ (l : ℕ) (m : Mat K) (s : σ), I s → l + vs.length ≤ m.data.length →
      ∃ m' s', transformTo f vs l m s = some (m', s') ∧ I s' ∧ m'.rows = m.rows ∧ m'.cols = m.cols ∧
        m'.data.length = m.data.length ∧
        ∀ k, m'.data[k]? = if l ≤ k ∧ k < l + vs.length then (vs[k - l]?).map val else m.data[k]? := by
  intro vs
  induction vs with
  | nil =>
      intro _ l m s hs _
      refine ⟨m, s, rfl, hs, rfl, rfl, rfl, fun k => ?_⟩
      rw [if_neg (by simp only [List.length_nil]; omega)]
  | cons v vs ih =>
      intro hf l m s hs hl
      obtain ⟨s1, h1, h2⟩ := hf v (by simp) s hs
      simp only [List.length_cons] at hl
      obtain ⟨m', s', e1, e2, e3, e4, e5, e6⟩ := ih (fun w hw => hf w (List.mem_cons_of_mem _ hw)) (l + 1)
        { m with data := m.data.set l (val v) } s1 h2 (by simp only [List.length_set]; omega)
      refine ⟨m', s', ?_, e2, e3, e4, by rw [e5]; simp, fun k => ?_⟩
      · simp only [transformTo, h1, Option.bind_some, Mat.rawPut?, if_pos (show l < m.data.length by omega), e1]
      · rw [e6 k]
        simp only [List.length_cons]
        by_cases hk : k = l
        · subst hk
          rw [if_neg (by omega), if_pos (by omega)]
          simp only [Nat.sub_self, List.getElem?_cons_zero, Option.map_some]
          rw [List.getElem?_set_self (by omega)]
        · by_cases hk' : l + 1 ≤ k ∧ k < l + 1 + vs.length
          · rw [if_pos hk', if_pos (by omega), show k - l = (k - (l + 1)) + 1 by omega,
              List.getElem?_cons_succ]
          · rw [if_neg hk', if_neg (by omega), List.getElem?_set_ne (by omega)]

/-- The whole buffer of a new matrix is filled. -/
theorem transformTo_new {α σ : Type} (I : σ → Prop) (val : α → K) {f : α → σ → Option (K × σ)}
    {vs : List α} (hf : ∀ v ∈ vs, ∀ s, I s → ∃ s', f v s = some (val v, s') ∧ I s') {r c : ℕ}
    (hr : 0 < r) (hc : 0 < c) (hl : vs.length = r * c) {s : σ} (hs : I s) :
    ∃ m₀ m s', Mat.new r c = some m₀ ∧ transformTo f vs 0 m₀ s = some (m, s') ∧ I s' ∧
      ∃ A, Rep m r c A ∧ ∀ i j, i < r → j < c → vs[i * c + j]?.map val = some (A i j) := by
  have hd : (List.replicate (r * c) (0 : K)).length = r * c := List.length_replicate
  obtain ⟨m, s', e1, e2, e3, e4, e5, e6⟩ := transformTo_spec I val vs hf 0
    (⟨r, c, List.replicate (r * c) 0⟩ : Mat K) s hs (by rw [hd, hl]; omega)
  have key : ∀ i j, i < r → j < c → m.data[i * c + j]? = vs[i * c + j]?.map val := by
    intro i j hi hj
    have := flat_lt hi hj
    rw [e6, if_pos ⟨by omega, by rw [hl]; omega⟩]
    simp
  refine ⟨_, m, s', by rw [Mat.new, if_pos ⟨hr, hc⟩], e1, e2, fun i j => (m.get? i j).getD 0,
    ⟨hr, hc, e3, e4, by rw [e5, hd], fun i j hi hj => ?_⟩, fun i j hi hj => ?_⟩
  · obtain ⟨v, hv⟩ := Mat.get?_isSome (m := m) ⟨by rw [e3]; exact hr, by rw [e4]; exact hc,
      by rw [e5, hd, e3, e4]⟩ (i := i) (j := j) (by rw [e3]; exact hi) (by rw [e4]; exact hj)
    rw [hv]; rfl
  · have h1 : m.get? i j = m.data[i * c + j]? := by
      rw [Mat.get?, if_pos ⟨by rw [e3]; exact hi, by rw [e4]; exact hj⟩, e4]
    have := flat_lt hi hj
    have h2 : i * c + j < vs.length := by rw [hl]; exact this
    simp only [h1, key i j hi hj, List.getElem?_eq_getElem h2, Option.map_some, Option.getD_some]

/-! ## Values through references and unrelated changes -/

theorem Reach.congr {D D' : Defs K} {y : ℕ} (h : ∀ q, Reach D y q → D'.items q = D.items q) {q : ℕ} :
    Reach D' y q ↔ Reach D y q := by
  constructor
  · intro hq
    induction hq with
    | refl => exact .refl
    | step _ hi hp ih => exact ih.step (by rw [← h _ ih]; exact hi) hp
  · intro hq
    induction hq with
    | refl => exact .refl
    | step hr hi hp ih => exact ih.step (by rw [h _ hr]; exact hi) hp

theorem Solves.congr {D D' : Defs K} {y : ℕ} (hi : ∀ q, Reach D y q → D'.items q = D.items q)
    (hb : ∀ q, Reach D y q → D'.base q = D.base q) (hp : D'.par = D.par) {ρ : ℕ → K} :
    Solves P D' y ρ ↔ Solves P D y ρ := by
  unfold Solves
  constructor
  · intro h q hq
    rw [h q ((Reach.congr hi).2 hq), hi q hq, hb q hq, hp]
  · intro h q hq
    have hq := (Reach.congr hi).1 hq
    rw [h q hq, hi q hq, hb q hq, hp]

theorem ValueOf.congr {D D' : Defs K} {y : ℕ} (hi : ∀ q, Reach D y q → D'.items q = D.items q)
    (hb : ∀ q, Reach D y q → D'.base q = D.base q) (hp : D'.par = D.par) {v : K} :
    ValueOf P D' y v ↔ ValueOf P D y v := by
  unfold ValueOf
  constructor <;> rintro ⟨ρ, h, e⟩
  · exact ⟨ρ, (Solves.congr hi hb hp).1 h, e⟩
  · exact ⟨ρ, (Solves.congr hi hb hp).2 h, e⟩

theorem DerivOf.congr {D D' : Defs K} {y x : ℕ} (hi : ∀ q, Reach D y q → D'.items q = D.items q)
    (hb : ∀ q, Reach D y q → D'.base q = D.base q) (hp : D'.par = D.par) {v : K} :
    DerivOf P D' y x v ↔ DerivOf P D y x v := by
  unfold DerivOf
  constructor <;> rintro ⟨ρ, δ, h, ht, e⟩
  · refine ⟨ρ, δ, (Solves.congr hi hb hp).1 h, fun q hq => ?_, e⟩
    rw [ht q ((Reach.congr hi).2 hq), hi q hq, hb q hq, hp]
  · refine ⟨ρ, δ, (Solves.congr hi hb hp).2 h, fun q hq => ?_, e⟩
    have hq := (Reach.congr hi).1 hq
    rw [ht q hq, hi q hq, hb q hq, hp]

/-- A reference has the value of what it refers to. -/
theorem ValueOf.of_ref {D : Defs K} {f d : ℕ} (hf : D.items f = [.leaf d]) (hfd : f ≠ d) {v : K}
    (h : ValueOf P D f v) : ValueOf P D d v := by
  obtain ⟨ρ, hs, rfl⟩ := h
  have hr : Reach D f d := Reach.of_leaf (i := .leaf d) (by rw [hf]; simp) (by simp [Node.leaves])
  refine ⟨ρ, fun q hq => hs q (hr.trans hq), ?_⟩
  have := hs f .refl
  rw [hf] at this
  simp only [seqVal, Node.val] at this
  rw [this, Function.update_of_ne (Ne.symm hfd)]

/-- A reference has the derivative of what it refers to. -/
theorem DerivOf.of_ref {D : Defs K} {f d x : ℕ} (hf : D.items f = [.leaf d]) (hfd : f ≠ d) (hfx : f ≠ x)
    {v : K} (h : DerivOf P D f x v) : DerivOf P D d x v := by
  obtain ⟨ρ, δ, hs, ht, rfl⟩ := h
  have hr : Reach D f d := Reach.of_leaf (i := .leaf d) (by rw [hf]; simp) (by simp [Node.leaves])
  refine ⟨ρ, δ, fun q hq => hs q (hr.trans hq), fun q hq => ht q (hr.trans hq), ?_⟩
  have := ht f .refl
  rw [if_neg hfx, hf] at this
  simp only [seqDer, Node.der] at this
  rw [this, Function.update_of_ne (Ne.symm hfd)]

/-! ## What a reset reaches, after unrelated changes -/

theorem Touch.grow {D D' : Defs K} {T : Tmps} {rk : ℕ → ℕ} (hd : Descends D T rk)
    (hi : ∀ q < D.size, D'.items q = D.items q) {V V' : ℕ → Prop} (hV : ∀ q < D.size, V q → V' q)
    {o q : ℕ} (h : Touch D T V o q) : o < D.size → Touch D' T V' o q := by
  induction h with
  | refl => intro _; exact .refl
  | @obj o e q he _ ih => intro ho; exact .obj he (ih (hd.obj o ho e he).1)
  | @item o e q hv he _ ih =>
      intro ho
      refine .item (hV o ho hv) (by rw [hi o ho]; exact he) (ih ?_)
      obtain ⟨i, hi', h'⟩ := mem_itemTargets.1 he
      rcases h' with h' | ⟨n, hn, h'⟩
      · exact hd.closed o ho i hi' e h'
      · exact (hd.op o ho i hi' n hn e h').1

/-- Reaching along definitions, if everything is flagged. -/
theorem Touch.of_reach {D : Defs K} {T : Tmps} {V : ℕ → Prop} {y q : ℕ} (h : Reach D y q)
    (hV : ∀ p, Reach D y p → V p) : Touch D T V y q := by
  induction h with
  | refl => exact .refl
  | step hq hi hp ih => exact ih.trans (.item (hV _ hq) (mem_itemTargets.2 ⟨_, hi, Or.inl hp⟩) .refl)

/-- The first step of reaching along definitions. -/
theorem Touch.of_reach' {D : Defs K} {T : Tmps} {V : ℕ → Prop} {y q : ℕ} (h : Reach D y q)
    (hV : ∀ p, Reach D y p → V p) (hne : q ≠ y) : ∃ b ∈ itemTargets T (D.items y), Touch D T V b q := by
  induction h with
  | refl => exact absurd rfl hne
  | @step q p i hq hi hp ih =>
      have hm : p ∈ itemTargets T (D.items q) := mem_itemTargets.2 ⟨i, hi, Or.inl hp⟩
      by_cases hqy : q = y
      · subst hqy; exact ⟨p, hm, .refl⟩
      · obtain ⟨b, hb, ht⟩ := ih hqy
        exact ⟨b, hb, ht.trans (.item (hV q hq) hm .refl)⟩

theorem SInv.descends {a : Sess K} (h : SInv P a) : ∃ rk, Descends a.s.st.defs a.s.tm rk := by
  obtain ⟨ord, hf⟩ := h
  exact ⟨_, hf.good.descends⟩

theorem itemTargets_lt {D : Defs K} {T : Tmps} {rk : ℕ → ℕ} (hd : Descends D T rk) {y b : ℕ}
    (hy : y < D.size) (hb : b ∈ itemTargets T (D.items y)) : b < D.size := by
  obtain ⟨i, hi', h'⟩ := mem_itemTargets.1 hb
  rcases h' with h' | ⟨n, hn, h'⟩
  · exact hd.closed y hy i hi' b h'
  · exact (hd.op y hy i hi' n hn b h').1

/-- A change that leaves the old objects alone and flags nothing old that was not flagged. -/
theorem Calm.grow {a b : Sess K} {S : Set ℕ} {y : ℕ} (h : Calm P a S y)
    (hinv : SInv P (⟨b.s, b.H, S⟩ : Sess K))
    (hi : ∀ q < a.s.st.defs.size, b.s.st.defs.items q = a.s.st.defs.items q) (htm : b.s.tm = a.s.tm)
    (hv : ∀ q < a.s.st.defs.size, b.s.st.mem.visited q = a.s.st.mem.visited q) : Calm P b S y := by
  obtain ⟨rk, hd⟩ := h.inv.descends
  have hd : Descends a.s.st.defs a.s.tm rk := hd
  have hlt : ∀ q ∈ S, q < a.s.st.defs.size := by
    obtain ⟨ord, hf⟩ := h.inv
    exact hf.good.d.lt
  have hy := hlt y (h.below y .refl)
  refine ⟨hinv, fun q hq => h.below q ((Reach.congr fun q hq => hi q (hlt q (h.below q hq))).1 hq),
    fun q hq hqi hqy hqv => ?_⟩
  rw [hi q (hlt q hq)] at hqi
  rw [hv q (hlt q hq)] at hqv
  obtain ⟨t, ht, htt⟩ := h.flags q hq hqi hqy hqv
  rw [htm, hi y hy]
  exact ⟨t, ht, htt.grow hd hi (fun q hq h => by rw [hv q hq]; exact h) (itemTargets_lt hd hy ht)⟩

end CoolDiff
