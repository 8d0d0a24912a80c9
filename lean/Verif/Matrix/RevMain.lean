import Verif.Matrix.RevTrav

/-!
# `PreComp` and `DevalR` on named matrices
-/

set_option linter.unusedSectionVars false

namespace CoolDiff

open Finset

variable {K : Type} [Field K] [DecidableEq K]

section
variable {c : MCtx K} {X : ℕ} {rank : ℕ → ℕ} {V : ℕ → ℕ → ℕ → K} {D : ℕ → ℕ → ℕ → ℕ → ℕ → K}
  {S : Set ℕ} {own : ℕ → ℕ} {nd : ℕ → ℕ × ℕ}

theorem travRoot_spec (h : RevOk c X rank V D S own nd) {o n : ℕ} {e : MNode K} {eye : ℕ}
    (hS : o ∈ S) (hk : c.E.kind o = .form n e eye)
    {ev : ℕ → MSt K → Option (MSt K × Mat K)} (hev : ESpecO c rank V S (rank o) ev)
    {tr : ℕ → MSt K → Option (MSt K)} (htr : TSpecO c X rank V D S own nd (rank o) tr)
    {s : MSt K} (hs : TInv c X rank V D S own nd (rank o) s) :
    ∃ κ s', travRoot c ev tr n e (.obj eye) s = some (κ, s') ∧
      TInv c X rank V D S own nd (rank o) s' ∧ TFrame rank S (rank o) s s' ∧
      (∀ q ∈ (MEnv.item n e eye).objs, (s'.obj q).visited = true) ∧
      CInv c X rank D own nd o κ := by
  obtain ⟨hkeye, hre, hce, _, her, hec, hrk⟩ := h.wf.form o n e eye hk
  obtain ⟨⟨hid, _, _, _⟩, hiI, ⟨hiinv, _⟩, hidim⟩ := itemOk h.wf h.F hS hk
  obtain ⟨hnod, hnown, hnnd⟩ := h.nums o hS n e eye hk
  have hnod' : e.nums.Nodup := by
    simp only [MEnv.item, MNode.nums, List.append_nil, List.nodup_cons] at hnod; exact hnod.2
  have hnown' : ∀ m ∈ e.nums, own m = o := fun m hm =>
    hnown m (by simp [MEnv.item, MNode.nums, hm])
  have hnnd' : NdOk c.E nd e := hnnd.1
  obtain ⟨ho1, ho2⟩ := h.one o hS ⟨n, e, eye, hk⟩
  have hd1 : (e.dims c.E).1 = 1 := her.symm.trans ho1
  have hd2 : (e.dims c.E).2 = 1 := hec.symm.trans ho2
  rw [hd2] at hre hce
  have hoe : ∀ q ∈ e.objs, q ∈ S ∧ rank q < rank o := fun q hq =>
    have : q ∈ (MEnv.item n e eye).objs := by simp [MEnv.item, MNode.objs, hq]
    ⟨h.cl o hS n e eye hk q this, hrk q this⟩
  have hoy : ∀ q ∈ (MNode.obj (K := K) eye).objs, q ∈ S ∧ rank q < rank o := fun q hq =>
    have : q ∈ (MEnv.item n e eye).objs := by
      simp only [MNode.objs, List.mem_singleton] at hq; simp [MEnv.item, MNode.objs, hq]
    ⟨h.cl o hS n e eye hk q this, hrk q this⟩
  have nil_has : ∀ k, ¬MCache.has ([] : MCache K) k := by
    rintro k ⟨m, hm⟩; simp [MCache.find] at hm
  obtain ⟨s1, e1, i1, f1, v1⟩ := trav_first (ev := ev) htr e hoe [] (fun m _ => nil_has _) s hs
  obtain ⟨s2, e2, i2, f2, v2⟩ := trav_first (ev := ev) htr (.obj eye) hoy [] (fun m _ => nil_has _)
    s1 i1
  have vx2 : ∀ q ∈ e.objs, (s2.obj q).visited = true := fun q hq => f2.mono q (v1 q hq)
  obtain ⟨s3, L, e3, i3, f3, _, w3, r3⟩ := evalE_spec h.B hev e hid
    (fun hu => hiI (Or.inl hu)) hiinv.weaken hoe s2 i2.me
  have w3' := w3 vx2
  obtain ⟨s4, R, e4, i4, f4, _, w4, r4⟩ := evalE_spec h.B hev (.obj eye) trivial
    (fun hu => hu.elim) trivial hoy s3 i3
  have w4' := w4 (fun q hq => by rw [w3']; exact v2 q hq)
  have hw : ∀ q, (s4.obj q).visited = (s2.obj q).visited := fun q => (w4' q).trans (w3' q)
  have t4 : TInv c X rank V D S own nd (rank o) s4 := i2.eval i4 (f3.trans f4) hw
  obtain ⟨a7, m7, e7, l7, r7⟩ := kern_spec (k := 7) (i4.live n) (h.B.transpose (i4.live n 7) r3)
  obtain ⟨a6, m6, e6, l6, r6⟩ := kern_spec (k := 6) l7 (h.B.transpose (l7 6) r4)
  simp only [hd1, hd2] at r7
  simp only [MNode.dims, hre, hce] at r6
  have t5 := t4.setN n l6
  have hw5 : ∀ q, ((s4.setN n a6).obj q).visited = (s2.obj q).visited := hw
  obtain ⟨κ1, e8, g1, ex, _⟩ := push2_spec (x := e) (y := .obj eye) (o := o) h le_rfl t5
    (fun q hq => ⟨(hoe q hq).1, (hoe q hq).2, by rw [hw5]; exact vx2 q hq⟩)
    (fun q hq => ⟨(hoy q hq).1, (hoy q hq).2, by rw [hw5]; exact v2 q hq⟩)
    hnnd' trivial hnown' (fun m hm => by simp [MNode.nums] at hm) (fun m _ => by simp [MNode.nums])
    (CWF.nil _) (fun m _ => nil_has _) (fun m _ => nil_has _)
    (mL := m6) (mR := m7) (by rw [hd1, hd2]; exact r6)
    (by simp only [MNode.dims, hre, hce]; exact r7)
  have hxs := sub_spec hnod'
  obtain ⟨κ2, s6, e9, i6, f6, w6, g2⟩ := trav_second (o := o) (tr := tr) h le_rfl hev e hid
    (fun hu => hiI (Or.inl hu)) hiinv hnnd' (h.coeff o hS n e eye hk) (h.conv o hS n e eye hk) hnod' hnown' κ1 _ g1.wf ex
    (by
      intro m hm
      obtain ⟨h1, h2⟩ := hxs m hm
      rw [MCache.has, g1.keep m (hnown' m h1)]
      · exact nil_has _
      · rintro (h3 | h3)
        · exact h2 h3
        · simp [MNode.key] at h3) _ t5
    (fun q hq => ⟨(hoe q hq).1, (hoe q hq).2, by rw [hw5]; exact vx2 q hq⟩)
  have hw6 : ∀ q, (s6.obj q).visited = (s2.obj q).visited := fun q => (w6 q).trans (hw5 q)
  have e10 : unlessSeen (.obj eye) κ2 s6 (travE c ev tr (.obj eye) κ2 s6) = some (κ2, s6) :=
    unlessSeen_obj (by rw [hw6]; exact v2 eye (by simp [MNode.objs]))
  have g := g1.trans g2
  refine ⟨κ2, s6, ?_, i6, (((f1.trans f2).trans (f3.trans f4).toT).trans
    ((EFrame.refl (rank := rank) (S := S) (rank o) s4).setN n a6).toT).trans f6.toT, ?_, g.wf, ?_, ?_, ?_⟩
  · simp only [travRoot, Option.bind_eq_bind]
    rw [e1]; simp only [Option.bind_some]
    rw [e2]; simp only [Option.bind_some]
    rw [e3]; simp only [Option.bind_some]
    rw [e4]; simp only [Option.bind_some]
    rw [e7]; simp only [Option.bind_some]
    rw [e6]; simp only [Option.bind_some]
    rw [e8]; simp only [Option.bind_some]
    rw [e9]; simp only [Option.bind_some]
    rw [e10]
  · intro q hq
    rw [hw6]
    simp only [MEnv.item, MNode.objs, List.mem_append] at hq
    rcases hq with hq | hq
    · exact vx2 q hq
    · exact v2 q hq
  · intro m hm
    exact (g.nodes m hm).resolve_left (nil_has _)
  · rw [g.hasX]
    have hP : (((addP X e ∨ mergeP c X e) ∨ (addP X (MNode.obj (K := K) eye) ∨
        mergeP c X (MNode.obj (K := K) eye))) ∨ travP c X e) ↔
        ∃ q ∈ e.objs ++ (MNode.obj (K := K) eye).objs, MReach c.E q X := by
      rw [← allP2]
      have hf : travP c X (MNode.obj (K := K) eye) ↔ False := Iff.rfl
      rw [hf, or_false]
    rw [hP]
    constructor
    · rintro (hh | ⟨q, hq, hh⟩)
      · exact absurd hh (nil_has _)
      · exact ⟨n, e, eye, hk, q, by simpa [MEnv.item, MNode.objs] using hq, hh⟩
    · rintro ⟨n', e', eye', hk', q, hq, hh⟩
      rw [hk] at hk'; cases hk'
      exact Or.inr ⟨q, by simpa [MEnv.item, MNode.objs] using hq, hh⟩
  · intro i j hi hj
    rw [g.entX i j hi hj, MCache.ent_of_not_has (nil_has _), zero_add]
    have gx := h.gain e (fun q hq => (hoe q hq).1)
      (fun i j => den c.E c.sc.val V (MNode.obj eye) j i) hi hj
    have gy := h.gain (.obj eye) (fun q hq => (hoy q hq).1)
      (fun i j => den c.E c.sc.val V e j i) hi hj
    have hDo := h.hD.form o hS n e eye hk 0 0 i j (by omega) (by omega) hi hj
    have hVeye := (h.hV.form o hS n e eye hk).2 0 0 (by omega) (by omega)
    have hDeye : D eye 0 0 i j = 0 :=
      h.hD.num eye (hoy eye (by simp [MNode.objs])).1 (Or.inl hkeye) 0 0 i j (by omega) (by omega)
        hi hj
    simp only [hd1, hd2, pair2_one] at gx
    simp only [MNode.dims, hre, hce, pair2_one, tan, hDeye, mul_zero] at gy
    have ht : travGain c X V D (MNode.obj eye) (fun i j => den c.E c.sc.val V e j i) i j = 0 := rfl
    rw [ht, add_zero] at gy
    simp only [if_true] at hVeye
    have hVe : den c.E c.sc.val V (MNode.obj eye) 0 0 = 1 := hVeye
    rw [hVe, one_mul] at gx
    simp only [pushGain]
    rw [gy, add_zero, gx, hDo]

/-- `Matrix<T>::traverse`. -/
theorem mtravO_spec (h : RevOk c X rank V D S own nd) :
    ∀ f r, r ≤ f → TSpecO c X rank V D S own nd r (mtravO c f) := by
  intro f
  induction f with
  | zero => intro r hrf o _ hr; omega
  | succ f ih =>
    intro r hrf o hS hr s hs
    by_cases hv : (s.obj o).visited = true
    · exact ⟨s, by simp [mtravO, hv], hs, TFrame.refl r s, hv⟩
    have hvf : (s.obj o).visited = false := by simpa using hv
    by_cases hform : c.E.isForm o
    swap
    · have hunf : mtravO c (f + 1) o s = some (s.setO o { s.obj o with visited := true }) := by
        rcases hk : c.E.kind o with _ | _ | _ | _ | ⟨n, e, eye⟩
        · simp [mtravO, hvf, hk]
        · simp [mtravO, hvf, hk]
        · simp [mtravO, hvf, hk]
        · simp [mtravO, hvf, hk]
        · exact absurd ⟨n, e, eye, hk⟩ hform
      refine ⟨s.setO o { s.obj o with visited := true }, hunf,
        ⟨⟨hs.me.live, ?_, ?_, ?_, ?_⟩, ?_, ?_⟩, ⟨?_, ?_, ?_⟩, by simp⟩
      · intro q hq
        by_cases hqo : q = o
        · subst hqo; simpa using hs.me.rlive q hq
        · rw [setO_ne _ _ hqo]; exact hs.me.rlive q hq
      · intro q hqS hq
        by_cases hqo : q = o
        · subst hqo; simpa using hs.me.leaf q hqS hq
        · rw [setO_ne _ _ hqo]; exact hs.me.leaf q hqS hq
      · intro q hqS hqr hq
        have hqo : q ≠ o := by rintro rfl; exact hform hq
        rw [setO_ne _ _ hqo]; exact hs.me.form q hqS hqr hq
      · intro q hqS hqr n e eye hk
        have hqo : q ≠ o := by rintro rfl; exact hform ⟨n, e, eye, hk⟩
        rw [setO_ne _ _ hqo]
        intro hv q' hq'
        by_cases h : q' = o
        · subst h; simp
        · rw [setO_ne _ _ h]; exact hs.me.vc q hqS hqr n e eye hk hv q' hq'
      · intro q hqS hq
        by_cases hqo : q = o
        · subst hqo; simpa using hs.leafC q hqS hq
        · rw [setO_ne _ _ hqo]; exact hs.leafC q hqS hq
      · intro q hqS hqr hq
        have hqo : q ≠ o := by rintro rfl; exact hform hq
        rw [setO_ne _ _ hqo]; exact hs.formC q hqS hqr hq
      · intro q hq
        have hqo : q ≠ o := by rintro rfl; exact hq ⟨hS, hr⟩
        rw [setO_ne _ _ hqo]
      · intro q hq
        by_cases hqo : q = o
        · subst hqo; simp
        · rw [setO_ne _ _ hqo]; exact hq
      · intro q
        by_cases hqo : q = o
        · subst hqo; simp
        · rw [setO_ne _ _ hqo]
    obtain ⟨n, e, eye, hk⟩ := hform
    obtain ⟨_, hre, hce, _, her, hec, hrk⟩ := h.wf.form o n e eye hk
    set s0 : MSt K := s.setO o { s.obj o with visited := true } with hs0def
    have hs0 : ∀ q, q ≠ o → s0.obj q = s.obj q := fun q hq => setO_ne _ _ hq
    have hs0o : s0.obj o = { s.obj o with visited := true } := by simp [hs0def]
    have hnf : ∀ q, ¬c.E.isForm q → q ≠ o := by rintro q hq rfl; exact hq ⟨n, e, eye, hk⟩
    have i0 : TInv c X rank V D S own nd (rank o) s0 := by
      refine ⟨⟨hs.me.live, ?_, ?_, ?_, ?_⟩, ?_, ?_⟩
      · intro q hq; rw [hs0 q (hnf q hq)]; exact hs.me.rlive q hq
      · intro q hqS hq; rw [hs0 q (hnf q hq)]; exact hs.me.leaf q hqS hq
      · intro q hqS hqr
        have hqo : q ≠ o := by rintro rfl; omega
        rw [hs0 q hqo]; exact hs.me.form q hqS (by omega)
      · intro q hqS hqr n' e' eye' hk' hv' q' hq'
        have hqo : q ≠ o := by rintro rfl; omega
        rw [hs0 q hqo] at hv'
        have h2 := hs.me.vc q hqS (by omega) n' e' eye' hk' hv' q' hq'
        by_cases hqo' : q' = o
        · subst hqo'; rw [hs0o]
        · rwa [hs0 q' hqo']
      · intro q hqS hq; rw [hs0 q (hnf q hq)]; exact hs.leafC q hqS hq
      · intro q hqS hqr
        have hqo : q ≠ o := by rintro rfl; omega
        rw [hs0 q hqo]; exact hs.formC q hqS (by omega)
    have hev := mevalO_spec h.wf h.B h.cl h.F h.hV f (rank o) (by omega)
    obtain ⟨κ, s1, e1, i1, f1, v1, hC⟩ := travRoot_spec h hS hk hev (ih (rank o) (by omega)) i0
    obtain ⟨hid, hiI, hiinv, hidim⟩ := itemOk h.wf h.F hS hk
    obtain ⟨s2, m, e2, i2, f2, _, w2, r2⟩ := evalE_spec h.B hev (MEnv.item n e eye) hid hiI
      hiinv.weaken (fun q hq => ⟨h.cl o hS n e eye hk q hq, hrk q hq⟩) s1 i1.me
    have w2' := w2 v1
    have t2 : TInv c X rank V D S own nd (rank o) s2 := i1.eval i2 f2 w2'
    have v2 : ∀ q ∈ (MEnv.item n e eye).objs, (s2.obj q).visited = true := fun q hq => by
      rw [w2']; exact v1 q hq
    have f12 : TFrame rank S (rank o) s0 s2 := f1.trans f2.toT
    have hso : s2.obj o = s0.obj o := f12.out o (fun h => by omega)
    have hrep : Rep m (c.E.rows o) (c.E.cols o) (V o) := by
      rw [hidim] at r2
      refine r2.congr fun i j hi hj => ?_
      obtain ⟨h1, h2⟩ := h.hV.form o hS n e eye hk
      rw [den_item hre hce h2 (by rw [← hec]; exact hj), h1 i j hi hj]
    refine ⟨s2.setO o { s2.obj o with result := some m, evald := true, cache := κ }, ?_,
      ⟨⟨i2.live, ?_, ?_, ?_, ?_⟩, ?_, ?_⟩, ⟨?_, ?_, ?_⟩, ?_⟩
    · have hk' := hk
      simp only [mtravO, hvf, hk, Bool.false_eq_true, if_false]
      rw [← hs0def, e1]
      simp only [Option.bind_eq_bind, Option.bind_some]
      rw [e2]; rfl
    · intro q hq; rw [setO_ne _ _ (hnf q hq)]; exact i2.rlive q hq
    · intro q hqS hq; rw [setO_ne _ _ (hnf q hq)]; exact i2.leaf q hqS hq
    · intro q hqS hqr hq
      by_cases hqo : q = o
      · subst hqo; simp only [setO_same]; intro _; exact ⟨m, rfl, hrep⟩
      · rw [setO_ne _ _ hqo]
        by_cases hlt : rank q < rank o
        · exact i2.form q hqS hlt hq
        · rw [f12.out q (fun h => hlt h.2), hs0 q hqo]; exact hs.me.form q hqS hqr hq
    · intro q hqS hqr n' e' eye' hk' hv' q' hq'
      have key : (s2.obj q').visited = true := by
        by_cases hqo : q = o
        · subst hqo
          rw [hk] at hk'; cases hk'
          exact v2 q' hq'
        · rw [setO_ne _ _ hqo] at hv'
          by_cases hlt : rank q < rank o
          · exact i2.vc q hqS hlt n' e' eye' hk' hv' q' hq'
          · rw [f12.out q (fun h => hlt h.2), hs0 q hqo] at hv'
            have h2 := hs.me.vc q hqS hqr n' e' eye' hk' hv' q' hq'
            apply f12.mono
            by_cases hqo' : q' = o
            · subst hqo'; rw [hs0o]
            · rwa [hs0 q' hqo']
      by_cases hqo : q' = o
      · subst hqo; simpa using key
      · rwa [setO_ne _ _ hqo]
    · intro q hqS hq; rw [setO_ne _ _ (hnf q hq)]; exact t2.leafC q hqS hq
    · intro q hqS hqr hq
      by_cases hqo : q = o
      · subst hqo; simp only [setO_same]; intro _; exact hC
      · rw [setO_ne _ _ hqo]
        by_cases hlt : rank q < rank o
        · exact t2.formC q hqS hlt hq
        · rw [f12.out q (fun h => hlt h.2), hs0 q hqo]; exact hs.formC q hqS hqr hq
    · intro q hq
      have hqo : q ≠ o := by rintro rfl; exact hq ⟨hS, hr⟩
      rw [setO_ne _ _ hqo, f12.out q (fun h => hq ⟨h.1, by omega⟩), hs0 q hqo]
    · intro q hq; by_cases hqo : q = o
      · subst hqo; simp [hso, hs0o]
      · rw [setO_ne _ _ hqo]; apply f12.mono; rwa [hs0 q hqo]
    · intro q; by_cases hqo : q = o
      · subst hqo; simp [hso, hs0o]
      · rw [setO_ne _ _ hqo, f12.dres, hs0 q hqo]
    · simp [hso, hs0o]

end

end CoolDiff
