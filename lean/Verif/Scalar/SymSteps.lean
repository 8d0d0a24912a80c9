import Verif.Scalar.SymInv
import Mathlib.Tactic.Linarith

/-!
# The elementary steps of symbolic differentiation keep the invariant
-/

set_option linter.unusedSectionVars false

namespace CoolDiff

variable {K : Type} [Field K] [DecidableEq K]
variable {P : Prim K} {H : ℕ → Prop}

theorem exists_above (l : List ℚ) (w : ℚ) (h : ∀ a ∈ l, a < w) : ∃ v < w, ∀ a ∈ l, a < v := by
  induction l with
  | nil => exact ⟨w - 1, by linarith, by simp⟩
  | cons a l ih =>
      obtain ⟨v, hv, hl⟩ := ih fun b hb => h b (by simp [hb])
      obtain ⟨u, hu1, hu2⟩ := exists_between (max_lt (h a (by simp)) hv)
      refine ⟨u, hu2, fun b hb => ?_⟩
      rcases List.mem_cons.1 hb with rfl | hb
      · exact (le_max_left _ _).trans_lt hu1
      · exact ((hl b hb).trans_le (le_max_right _ _)).trans hu1

theorem exists_below (f : ℕ → ℚ) (n : ℕ) : ∃ v, ∀ q < n, v < f q := by
  induction n with
  | zero => exact ⟨0, by simp⟩
  | succ n ih =>
      obtain ⟨v, hv⟩ := ih
      refine ⟨min v (f n) - 1, fun q hq => ?_⟩
      by_cases e : q = n
      · subst e; have := min_le_right v (f q); linarith
      · have := hv q (by omega); have := min_le_left v (f n); linarith

theorem exists_over (f : ℕ → ℚ) (n : ℕ) : ∃ v, ∀ q < n, f q < v := by
  obtain ⟨v, hv⟩ := exists_below (fun q => - f q) n
  exact ⟨-v, fun q hq => by have := hv q hq; linarith⟩

theorem stored_ops (e : Exp K) (n : ℕ) : ∀ k ∈ (stored e n).opIds, n ≤ k := by
  intro k hk
  have h1 := (e.build_ok n).le
  obtain ⟨h2, h3, -⟩ := cloneN_ids (e.build n).1 (e.build n).2
  simp only [stored, Node.opIds, List.mem_cons] at hk
  rcases hk with rfl | hk
  · omega
  · have := h3 k hk; omega

section mk
variable (e : Exp K) (s : SSt K)

theorem mkExpr_fst : (mkExpr e s).1 = s.st.defs.size := rfl
theorem mkExpr_size : (mkExpr e s).2.st.defs.size = s.st.defs.size + 1 := rfl
theorem mkExpr_psize : (mkExpr e s).2.st.defs.psize = s.st.defs.psize := rfl
theorem mkExpr_par : (mkExpr e s).2.st.defs.par = s.st.defs.par := rfl
theorem mkExpr_base : (mkExpr e s).2.st.defs.base = Function.update s.st.defs.base s.st.defs.size 0 :=
  rfl
theorem mkExpr_nidx : (mkExpr e s).2.st.defs.nidx =
    Function.update s.st.defs.nidx s.st.defs.size (s.st.defs.next + 1) := rfl
theorem mkExpr_next : s.st.defs.next ≤ (mkExpr e s).2.st.defs.next := by
  have h1 := (e.build_ok (s.st.defs.next + 2)).le
  have h2 := (cloneN_ids (e.build (s.st.defs.next + 2)).1 (e.build (s.st.defs.next + 2)).2).1
  show s.st.defs.next ≤ (cloneN (e.build (s.st.defs.next + 2)).1 (e.build (s.st.defs.next + 2)).2).2 + 1
  omega
theorem mkExpr_items_ne {q : ℕ} (h : q ≠ s.st.defs.size) :
    (mkExpr e s).2.st.defs.items q = s.st.defs.items q := by
  show (define s.st.defs.size e (newExpr s.st).2).defs.items q = _
  rw [define_items_ne h]
  simp [newExpr, h]
theorem mkExpr_items (h : s.st.defs.size ∉ e.leaves) :
    (mkExpr e s).2.st.defs.items s.st.defs.size = [stored e (s.st.defs.next + 2)] := by
  show (define s.st.defs.size e (newExpr s.st).2).defs.items s.st.defs.size = _
  rw [define_items, if_neg h]
  rfl
theorem mkExpr_mem : (mkExpr e s).2.st.mem = (newExpr s.st).2.mem := rfl
theorem mkExpr_tm : (mkExpr e s).2.tm = s.tm := rfl
theorem mkExpr_one : (mkExpr e s).2.one = s.one := rfl

end mk

theorem Good.mkExpr {g : GS K} {r w : ℚ} (h : Good P H g r) (e : Exp K)
    (hl : ∀ p ∈ e.leaves, p ∈ g.T ∧ g.ord p < w) (hp : ∀ p ∈ e.pars, p < g.D.psize)
    (h0 : g.ord 0 < w) (h1 : g.ord g.s.one < w) :
    ∃ g' : GS K, g'.s = (mkExpr e g.s).2 ∧ Good P H g' r ∧ DExt g g' ∧
      (mkExpr e g.s).1 ∈ g'.T ∧ g'.ord (mkExpr e g.s).1 < w ∧
      ∀ π ρ, SolT P H g'.D g'.T π ρ → ρ (mkExpr e g.s).1 = e.val P π ρ ∧
        ∀ C : OpClass K, (∀ n, (e.build n).1.All C P π ρ) → (∀ u, C.p1 (.mulC 1) u) →
          (∀ p ∈ e.leaves, AllBelow C P π ρ g.D p) → AllBelow C P π ρ g'.D (mkExpr e g.s).1 := by
  obtain ⟨v, hv, hvl⟩ := exists_above (g.ord 0 :: g.ord g.s.one :: e.leaves.map g.ord) w (by
    intro a ha
    simp only [List.mem_cons, List.mem_map] at ha
    rcases ha with rfl | rfl | ⟨p, hp, rfl⟩
    · exact h0
    · exact h1
    · exact (hl p hp).2)
  have hnew : g.D.size ∉ e.leaves := fun hh => lt_irrefl _ (h.d.lt _ (hl _ hh).1)
  set g' : GS K := ⟨(CoolDiff.mkExpr e g.s).2, g.T ∪ {g.D.size}, Function.update g.ord g.D.size v⟩
    with hg'
  have hD : ∀ q < g.D.size, g'.D.items q = g.D.items q := fun q hq =>
    mkExpr_items_ne e g.s (Nat.ne_of_lt hq)
  have hDn : g'.D.items g.D.size = [stored e (g.D.next + 2)] := mkExpr_items e g.s hnew
  have hsz : g'.D.size = g.D.size + 1 := rfl
  have hB : ∀ q < g.D.size, g'.D.base q = g.D.base q := fun q hq => by
    show Function.update g.D.base g.D.size 0 q = _
    rw [Function.update_of_ne (by omega)]
  have hO : ∀ q < g.D.size, g'.ord q = g.ord q := fun q hq => by
    show Function.update g.ord g.D.size v q = _
    rw [Function.update_of_ne (by omega)]
  have hOn : g'.ord g.D.size = v := Function.update_self _ _ _
  have hext : DExt g g' := by
    refine ⟨by omega, hD, hB, fun q hq => ?_, rfl, rfl, mkExpr_next e g.s, fun q => ?_, hO,
      fun q h1 h2 i hi n hn => ?_, rfl, fun q hq => ?_, fun q h1 h2 => ?_⟩
    · show Function.update g.D.nidx g.D.size _ q = _
      rw [Function.update_of_ne (by omega)]
    · show q ∈ g.T ∪ {g.D.size} ↔ _
      simp only [Set.mem_union, Set.mem_singleton_iff, hsz]
      constructor
      · rintro (h | h)
        · exact Or.inl h
        · exact Or.inr ⟨by omega, by omega⟩
      · rintro (h | h)
        · exact Or.inl h
        · exact Or.inr (by omega)
    · obtain rfl : q = g.D.size := by omega
      rw [hDn, List.mem_singleton] at hi
      subst hi
      have := stored_ops e (g.D.next + 2) n hn
      omega
    · show Function.update g.vis g.D.size false q = _
      rw [Function.update_of_ne (by omega)]
    · obtain rfl : q = g.D.size := by omega
      exact Function.update_self _ _ _
  have hwf : g'.s.st.WF := by
    have h2 := newExpr_wf (σ := g.s.st) ⟨h.d.wf, h.plain⟩ h.d.zero.1
    exact define_wf h2 (by simp [newExpr]) (fun p hp => by
      have := h.d.lt p (hl p hp).1
      show p < g.D.size + 1
      omega) hp
  have hz := h.d.zero
  have ho := h.d.one
  have hd : DInv H g' := by
    refine ⟨hwf.defs, fun q hq => ?_, ?_, ?_, fun q hq => ?_, fun q hq i hi p hp => ?_,
      fun q hq i hi p hp => ?_, fun q hq i is he => ?_, fun q hq he => ?_, fun q hq p hp => ?_⟩
    · have := h.d.user q hq
      exact ⟨by omega, by rw [hD q this.1]; exact this.2⟩
    · exact ⟨by omega, by rw [hD 0 hz.1]; exact hz.2.1, by rw [hB 0 hz.1]; exact hz.2.2.1, hz.2.2.2.1,
        hext.mem hz.2.2.2.2⟩
    · exact ⟨by have := ho.1; show g.s.one < _; omega, by
        show g'.D.items g.s.one = []; rw [hD _ ho.1]; exact ho.2.1, by
        show g'.D.base g.s.one = 1; rw [hB _ ho.1]; exact ho.2.2.1, ho.2.2.2.1,
        hext.mem ho.2.2.2.2⟩
    · rcases (hext.T q).1 hq with h | h'
      · have := ‹Good P H g r›.d.lt q h; omega
      · omega
    · rcases (hext.T q).1 hq with h' | h'
      · rw [hD q (h.d.lt q h')] at hi
        exact hext.mem (h.d.closed q h' i hi p hp)
      · obtain rfl : q = g.D.size := by omega
        rw [hDn, List.mem_singleton] at hi
        subst hi
        rw [stored_leaves] at hp
        exact hext.mem (hl p hp).1
    · by_cases e' : q = g.D.size
      · subst e'
        rw [hDn, List.mem_singleton] at hi
        subst hi
        rw [stored_leaves] at hp
        right
        rw [hOn, hO p (h.d.lt p (hl p hp).1)]
        exact hvl _ (by simp only [List.mem_cons, List.mem_map]; exact Or.inr (Or.inr ⟨p, hp, rfl⟩))
      · have hq' : q < g.D.size := by omega
        rw [hD q hq'] at hi
        rcases h.d.edge q hq' i hi p hp with h3 | h3
        · exact Or.inl h3
        · right
          rw [hO q hq', hO p (h.d.wf.closed q hq' i hi p hp)]; exact h3
    · by_cases e' : q = g.D.size
      · subst e'
        rw [hDn, List.cons.injEq] at he
        rw [← he.1, stored_leaves]
        exact hnew
      · have hq' : q < g.D.size := by omega
        rw [hD q hq'] at he
        exact h.d.first q hq' i is he
    · show g'.ord 0 < g'.ord q ∧ g'.ord g.s.one < g'.ord q
      rw [hO 0 hz.1, hO _ ho.1]
      by_cases e' : q = g.D.size
      · subst e'
        rw [hOn]
        exact ⟨hvl _ (by simp), hvl _ (by simp)⟩
      · have hq' : q < g.D.size := by omega
        rw [hO q hq']
        rw [hD q hq'] at he
        exact h.d.low q hq' he
    · by_cases e' : q = g.D.size
      · subst e'
        rw [hDn, List.mem_singleton] at hp
        simp [stored] at hp
      · have hq' : q < g.D.size := by omega
        rw [hD q hq'] at hp
        exact h.d.bare q hq' p hp
  refine ⟨g', rfl, ⟨hd, h.t.ext h.d hext rfl, hwf.plain⟩, hext, ?_, ?_, ?_⟩
  · exact Or.inr rfl
  · rw [mkExpr_fst]
    show g'.ord g.D.size < w
    rw [hOn]; exact hv
  · intro π ρ hs
    rw [mkExpr_fst]
    have := hs g.D.size (Or.inr rfl) (fun hh => by have := (h.d.user _ hh).1; omega)
    refine ⟨?_, fun C hC1 hC2 hC3 o ho => ?_⟩
    · show ρ g.D.size = _
      rw [this, hDn]
      simp only [seqVal, stored_val]
      apply Exp.val_congr
      intro p hp
      rw [Function.update_of_ne]
      rintro rfl; exact hnew hp
    · have key : ∀ o, Reach g'.D g.D.size o → o = g.D.size ∨ ∃ p ∈ e.leaves, Reach g.D p o := by
        intro o ho
        induction ho with
        | refl => exact Or.inl rfl
        | step _ hm hp ih =>
            rcases ih with rfl | ⟨z, hz, hr⟩
            · rw [hDn, List.mem_singleton] at hm
              subst hm
              rw [stored_leaves] at hp
              exact Or.inr ⟨_, hp, .refl⟩
            · have hlt := Reach.lt h.d.wf.closed (h.d.lt z (hl z hz).1) hr
              rw [hD _ hlt] at hm
              exact Or.inr ⟨z, hz, .step hr hm hp⟩
      rcases key o ho with rfl | ⟨z, hz, hr⟩
      · rw [hDn]
        refine ⟨(stored_all hC1 hC2 _).congr fun p hp => ?_, trivial⟩
        rw [stored_leaves] at hp
        rw [Function.update_of_ne]
        rintro rfl; exact hnew hp
      · have hlt := Reach.lt h.d.wf.closed (h.d.lt z (hl z hz).1) hr
        rw [hD o hlt, hB o hlt]
        exact hC3 z hz o hr

/-- A new constant Variable. -/
theorem Good.newConst {g : GS K} {r : ℚ} (h : Good P H g r) (c : K) :
    ∃ g' : GS K, g'.s = { g.s with st := (newVar c g.s.st).2 } ∧ Good P H g' r ∧ DExt g g' ∧
      (newVar c g.s.st).1 ∈ g'.T ∧ (∀ q < g.D.size, g'.ord (newVar c g.s.st).1 < g'.ord q) ∧
      g'.D.items (newVar c g.s.st).1 = [] ∧ ¬ H (newVar c g.s.st).1 ∧
      g'.D.base (newVar c g.s.st).1 = c := by
  obtain ⟨v, hv⟩ := exists_below g.ord g.D.size
  set g' : GS K := ⟨{ g.s with st := (newVar c g.s.st).2 }, g.T ∪ {g.D.size},
    Function.update g.ord g.D.size v⟩ with hg'
  have hsz : g'.D.size = g.D.size + 1 := rfl
  have hD : ∀ q < g.D.size, g'.D.items q = g.D.items q := fun q hq => by
    show Function.update g.D.items g.D.size _ q = _
    rw [Function.update_of_ne (by omega)]
  have hDn : g'.D.items g.D.size = [] := Function.update_self _ _ _
  have hB : ∀ q < g.D.size, g'.D.base q = g.D.base q := fun q hq => by
    show Function.update g.D.base g.D.size _ q = _
    rw [Function.update_of_ne (by omega)]
  have hO : ∀ q < g.D.size, g'.ord q = g.ord q := fun q hq => by
    show Function.update g.ord g.D.size v q = _
    rw [Function.update_of_ne (by omega)]
  have hOn : g'.ord g.D.size = v := Function.update_self _ _ _
  have hext : DExt g g' := by
    refine ⟨by omega, hD, hB, fun q hq => ?_, rfl, rfl, Nat.le_succ _, fun q => ?_, hO,
      fun q h1 h2 i hi n hn => ?_, rfl, fun q hq => ?_, fun q h1 h2 => ?_⟩
    · show Function.update g.D.nidx g.D.size _ q = _
      rw [Function.update_of_ne (by omega)]
    · show q ∈ g.T ∪ {g.D.size} ↔ _
      simp only [Set.mem_union, Set.mem_singleton_iff, hsz]
      constructor
      · rintro (h | h)
        · exact Or.inl h
        · exact Or.inr ⟨by omega, by omega⟩
      · rintro (h | h)
        · exact Or.inl h
        · exact Or.inr (by omega)
    · obtain rfl : q = g.D.size := by omega
      rw [hDn] at hi; simp at hi
    · show Function.update g.vis g.D.size false q = _
      rw [Function.update_of_ne (by omega)]
    · obtain rfl : q = g.D.size := by omega
      exact Function.update_self _ _ _
  have hwf : g'.s.st.WF := newVar_wf (σ := g.s.st) ⟨h.d.wf, h.plain⟩ c
  have hz := h.d.zero
  have ho := h.d.one
  have hd : DInv H g' := by
    refine ⟨hwf.defs, fun q hq => ?_, ?_, ?_, fun q hq => ?_, fun q hq i hi p hp => ?_,
      fun q hq i hi p hp => ?_, fun q hq i is he => ?_, fun q hq he => ?_, fun q hq p hp => ?_⟩
    · have := h.d.user q hq
      exact ⟨by omega, by rw [hD q this.1]; exact this.2⟩
    · exact ⟨by omega, by rw [hD 0 hz.1]; exact hz.2.1, by rw [hB 0 hz.1]; exact hz.2.2.1, hz.2.2.2.1,
        hext.mem hz.2.2.2.2⟩
    · exact ⟨by have := ho.1; show g.s.one < _; omega, by
        show g'.D.items g.s.one = []; rw [hD _ ho.1]; exact ho.2.1, by
        show g'.D.base g.s.one = 1; rw [hB _ ho.1]; exact ho.2.2.1, ho.2.2.2.1,
        hext.mem ho.2.2.2.2⟩
    · rcases (hext.T q).1 hq with h | h'
      · have := ‹Good P H g r›.d.lt q h; omega
      · omega
    · rcases (hext.T q).1 hq with h' | h'
      · rw [hD q (h.d.lt q h')] at hi
        exact hext.mem (h.d.closed q h' i hi p hp)
      · obtain rfl : q = g.D.size := by omega
        rw [hDn] at hi; simp at hi
    · by_cases e' : q = g.D.size
      · subst e'
        rw [hDn] at hi; simp at hi
      · have hq' : q < g.D.size := by omega
        rw [hD q hq'] at hi
        rcases h.d.edge q hq' i hi p hp with h3 | h3
        · exact Or.inl h3
        · right
          rw [hO q hq', hO p (h.d.wf.closed q hq' i hi p hp)]; exact h3
    · by_cases e' : q = g.D.size
      · subst e'
        rw [hDn] at he; simp at he
      · have hq' : q < g.D.size := by omega
        rw [hD q hq'] at he
        exact h.d.first q hq' i is he
    · show g'.ord 0 < g'.ord q ∧ g'.ord g.s.one < g'.ord q
      rw [hO 0 hz.1, hO _ ho.1]
      by_cases e' : q = g.D.size
      · subst e'
        rw [hDn] at he; simp at he
      · have hq' : q < g.D.size := by omega
        rw [hO q hq']
        rw [hD q hq'] at he
        exact h.d.low q hq' he
    · by_cases e' : q = g.D.size
      · subst e'
        rw [hDn] at hp; simp at hp
      · have hq' : q < g.D.size := by omega
        rw [hD q hq'] at hp
        exact h.d.bare q hq' p hp
  refine ⟨g', rfl, ⟨hd, h.t.ext h.d hext rfl, hwf.plain⟩, hext, Or.inr rfl, fun q hq => ?_, hDn,
    fun hh => ?_, Function.update_self _ _ _⟩
  · show g'.ord g.D.size < _
    rw [hOn, hO q hq]; exact hv q hq
  · have := (h.d.user _ hh).1
    simp [newVar] at this

/-! ## Setting temporaries and flags -/

/-- Replace the temporaries. -/
def GS.withTm (g : GS K) (tm : Tmps) : GS K := { g with s := { g.s with tm := tm } }

theorem DExt.withTm (g : GS K) (tm : Tmps) : DExt g (g.withTm tm) :=
  ⟨le_refl _, fun _ _ => rfl, fun _ _ => rfl, fun _ _ => rfl, rfl, rfl, le_refl _,
    fun q => ⟨Or.inl, fun h => h.elim id fun h => by
      have : (g.withTm tm).D.size = g.D.size := rfl
      omega⟩, fun _ _ => rfl,
    fun q h h' => by have : (g.withTm tm).D.size = g.D.size := rfl; omega, rfl, fun _ _ => rfl,
    fun q h h' => by have : (g.withTm tm).D.size = g.D.size := rfl; omega⟩

theorem DInv.withTm {g : GS K} (h : DInv H g) (tm : Tmps) : DInv H (g.withTm tm) :=
  ⟨h.wf, h.user, h.zero, h.one, h.lt, h.closed, h.edge, h.first, h.low, h.bare⟩

theorem Good.setOTmp {g : GS K} {r : ℚ} (h : Good P H g r) {q : ℕ} (hq : q ∈ g.T)
    {pre : List (Node K)} {t : Node K} {n e : ℕ} (ha : At g.D q pre t) (ht : t.top = some n)
    (he : e ∈ g.T) (hlt : g.ord e < g.ord q)
    (hv : ∀ π ρ, SolT P H g.D g.T π ρ → ρ e = t.val P π (env P π ρ q (g.D.base q) pre) ∧
      Ob P g.D π ρ q e) :
    ∃ g' : GS K, g'.s = g.s.setOTmp n e ∧ Good P H g' r ∧ DExt g g' ∧ g'.T = g.T ∧
      g'.ord = g.ord ∧ g'.D = g.D ∧ g'.tm.tmp = g.tm.tmp ∧ g'.tm.dtmp = g.tm.dtmp := by
  refine ⟨g.withTm (g.s.setOTmp n e).tm, rfl, ⟨h.d.withTm _, ?_, h.plain⟩, DExt.withTm g _, rfl, rfl,
    rfl, rfl, rfl⟩
  refine ⟨h.t.tmp, h.t.tmpVal, h.t.dtmp, h.t.dtmpVal, ?_, h.t.odtmpAt, ?_, h.t.odtmp⟩
  · intro n' e' hn'
    have hn' : Function.update g.tm.otmp n (some e) n' = some e' := hn'
    by_cases en : n' = n
    · subst en; exact ⟨q, hq, pre, t, ha, ht⟩
    · rw [Function.update_of_ne en] at hn'
      exact h.t.otmpAt n' e' hn'
  · intro q' hq' pre' t' n' e' ha' ht' hn'
    have hn' : Function.update g.tm.otmp n (some e) n' = some e' := hn'
    by_cases en : n' = n
    · subst en
      rw [Function.update_self, Option.some.injEq] at hn'
      subst hn'
      obtain ⟨rfl, rfl, rfl⟩ := ha'.unique h.d.wf (h.d.lt q' hq') (h.d.lt q hq) ha ht' ht
      exact ⟨he, hlt, hv⟩
    · rw [Function.update_of_ne en] at hn'
      exact h.t.otmp q' hq' pre' t' n' e' ha' ht' hn'

theorem Good.setODTmp {g : GS K} {r : ℚ} (h : Good P H g r) {q : ℕ} (hq : q ∈ g.T)
    {pre : List (Node K)} {t : Node K} {n k e : ℕ} (ha : At g.D q pre t) (ht : t.top = some n)
    (he : e ∈ g.T) (hlt : g.ord e < g.ord q) (hx : ∃ x, H x ∧ g.D.nidx x = k)
    (hv : ∀ x, H x → g.D.nidx x = k → ∀ π ρ δ, SolT P H g.D g.T π ρ → TanT P x g.D g.T π ρ δ →
      ρ e = t.der P π (env P π ρ q (g.D.base q) pre) (denv P π ρ δ q (g.D.base q) pre) ∧
        Ob P g.D π ρ q e) :
    ∃ g' : GS K, g'.s = g.s.setODTmp n k e ∧ Good P H g' r ∧ DExt g g' ∧ g'.T = g.T ∧
      g'.ord = g.ord ∧ g'.D = g.D ∧ g'.tm.tmp = g.tm.tmp ∧ g'.tm.dtmp = g.tm.dtmp := by
  refine ⟨g.withTm (g.s.setODTmp n k e).tm, rfl, ⟨h.d.withTm _, ?_, h.plain⟩, DExt.withTm g _, rfl,
    rfl, rfl, rfl, rfl⟩
  refine ⟨h.t.tmp, h.t.tmpVal, h.t.dtmp, h.t.dtmpVal, h.t.otmpAt, ?_, h.t.otmp, ?_⟩
  · intro n' k' e' hn'
    have hn' : (k', e') ∈ Function.update g.tm.odtmp n ((k, e) :: g.tm.odtmp n) n' := hn'
    by_cases en : n' = n
    · subst en
      rw [Function.update_self, List.mem_cons, Prod.mk.injEq] at hn'
      rcases hn' with ⟨rfl, -⟩ | hn'
      · exact ⟨hx, q, hq, pre, t, ha, ht⟩
      · exact h.t.odtmpAt n' k' e' hn'
    · rw [Function.update_of_ne en] at hn'
      exact h.t.odtmpAt n' k' e' hn'
  · intro q' hq' pre' t' n' k' e' ha' ht' hn'
    have hn' : (k', e') ∈ Function.update g.tm.odtmp n ((k, e) :: g.tm.odtmp n) n' := hn'
    by_cases en : n' = n
    · subst en
      rw [Function.update_self, List.mem_cons] at hn'
      rcases hn' with hn' | hn'
      · simp only [Prod.mk.injEq] at hn'
        obtain ⟨rfl, rfl⟩ := hn'
        obtain ⟨rfl, rfl, rfl⟩ := ha'.unique h.d.wf (h.d.lt q' hq') (h.d.lt q hq) ha ht' ht
        exact ⟨he, hlt, hv⟩
      · exact h.t.odtmp q' hq' pre' t' n' k' e' ha' ht' hn'
    · rw [Function.update_of_ne en] at hn'
      exact h.t.odtmp q' hq' pre' t' n' k' e' ha' ht' hn'

theorem Good.setTmp {g : GS K} {r : ℚ} (h : Good P H g r) {q : ℕ} (hq : q ∈ g.T) {v : Ref}
    (hv : v.Ok g (g.ord q)) (hr : r ≤ g.ord q) :
    ∃ g' : GS K, g'.s = g.s.setTmp q v ∧ Good P H g' r ∧ DExt g g' ∧ g'.T = g.T ∧
      g'.ord = g.ord ∧ g'.D = g.D ∧ g'.tm.tmp q = some v ∧
      (∀ p, p ≠ q → g'.tm.tmp p = g.tm.tmp p) ∧ g'.tm.dtmp = g.tm.dtmp := by
  refine ⟨g.withTm (g.s.setTmp q v).tm, rfl, ⟨h.d.withTm _, ?_, h.plain⟩, DExt.withTm g _, rfl,
    rfl, rfl, Function.update_self _ _ _, fun p hp => Function.update_of_ne hp _ _, rfl⟩
  refine ⟨?_, ?_, h.t.dtmp, h.t.dtmpVal, h.t.otmpAt, h.t.odtmpAt, h.t.otmp, h.t.odtmp⟩
  · intro q' v' hv'
    have hv' : Function.update g.tm.tmp q (some v) q' = some v' := hv'
    by_cases e : q' = q
    · subst e
      rw [Function.update_self, Option.some.injEq] at hv'
      subst hv'
      exact ⟨hq, hv⟩
    · rw [Function.update_of_ne e] at hv'
      exact h.t.tmp q' v' hv'
  · intro q' v' hv' hlt
    have hv' : Function.update g.tm.tmp q (some v) q' = some v' := hv'
    by_cases e : q' = q
    · subst e
      exact absurd hlt (not_lt.2 hr)
    · rw [Function.update_of_ne e] at hv'
      exact h.t.tmpVal q' v' hv' hlt

theorem Good.setDTmp {g : GS K} {r : ℚ} (h : Good P H g r) {q : ℕ} (hq : q ∈ g.T) {e : ℕ}
    (he : e ∈ g.T) (hlt : g.ord e < g.ord q)
    (hv : g.D.items q = [] → g.D.items e = [] ∧ ¬ H e ∧ g.D.base e = 0) :
    ∃ g' : GS K, g'.s = g.s.setDTmp q e ∧ Good P H g' r ∧ DExt g g' ∧ g'.T = g.T ∧
      g'.ord = g.ord ∧ g'.D = g.D ∧ g'.tm.tmp = g.tm.tmp ∧ g'.tm.dtmp q = some e ∧
      (∀ p, p ≠ q → g'.tm.dtmp p = g.tm.dtmp p) := by
  refine ⟨g.withTm (g.s.setDTmp q e).tm, rfl, ⟨h.d.withTm _, ?_, h.plain⟩, DExt.withTm g _, rfl,
    rfl, rfl, rfl, Function.update_self _ _ _, fun p hp => Function.update_of_ne hp _ _⟩
  refine ⟨h.t.tmp, h.t.tmpVal, ?_, ?_, h.t.otmpAt, h.t.odtmpAt, h.t.otmp, h.t.odtmp⟩
  · intro q' e' hv'
    have hv' : Function.update g.tm.dtmp q (some e) q' = some e' := hv'
    by_cases ee : q' = q
    · subst ee
      rw [Function.update_self, Option.some.injEq] at hv'
      subst hv'
      exact ⟨hq, he, hlt⟩
    · rw [Function.update_of_ne ee] at hv'
      exact h.t.dtmp q' e' hv'
  · intro q' e' hv' hi
    have hv' : Function.update g.tm.dtmp q (some e) q' = some e' := hv'
    by_cases ee : q' = q
    · subst ee
      rw [Function.update_self, Option.some.injEq] at hv'
      subst hv'
      exact hv hi
    · rw [Function.update_of_ne ee] at hv'
      exact h.t.dtmpVal q' e' hv' hi

/-- Change a flag. -/
def GS.setVis (g : GS K) (q : ℕ) (b : Bool) : GS K := { g with s := g.s.setVis q b }

theorem Good.setVis {g : GS K} {r : ℚ} (h : Good P H g r) (q : ℕ) (b : Bool) :
    Good P H (g.setVis q b) r :=
  ⟨⟨h.d.wf, h.d.user, h.d.zero, h.d.one, h.d.lt, h.d.closed, h.d.edge, h.d.first, h.d.low, h.d.bare⟩,
    ⟨h.t.tmp, h.t.tmpVal, h.t.dtmp, h.t.dtmpVal, h.t.otmpAt, h.t.odtmpAt, h.t.otmp, h.t.odtmp⟩,
    h.plain⟩

end CoolDiff
