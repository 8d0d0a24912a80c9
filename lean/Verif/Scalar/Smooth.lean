import Verif.Scalar.SymDomain
import Verif.Scalar.Solution
import Mathlib.Analysis.Calculus.FDeriv.Symmetric

/-!
# Smoothness of values, and symmetry of mixed derivatives
-/

namespace CoolDiff

open Filter Topology

variable {E : Type} [NormedAddCommGroup E] [NormedSpace ℝ E]

theorem contDiffAt_tanh {n : WithTop ℕ∞} (u : ℝ) : ContDiffAt ℝ n Real.tanh u := by
  have e : Real.tanh = fun x => Real.sinh x / Real.cosh x := by
    funext x; rw [Real.tanh_eq_sinh_div_cosh]
  rw [e]
  exact Real.contDiff_sinh.contDiffAt.div Real.contDiff_cosh.contDiffAt (Real.cosh_pos u).ne'

theorem contDiffAt_artanh {n : WithTop ℕ∞} {u : ℝ} (h1 : -1 < u) (h2 : u < 1) :
    ContDiffAt ℝ n Real.artanh u := by
  have hd : ContDiffAt ℝ n (fun x : ℝ => 1 / 2 * Real.log ((1 + x) / (1 - x))) u := by
    refine contDiffAt_const.mul (ContDiffAt.log ?_ ?_)
    · exact (contDiffAt_const.add contDiffAt_id).div (contDiffAt_const.sub contDiffAt_id)
        (by show (1:ℝ) - u ≠ 0; linarith)
    · have : (0 : ℝ) < (1 + u) / (1 - u) := div_pos (by linarith) (by linarith)
      exact this.ne'
  refine hd.congr_of_eventuallyEq ?_
  filter_upwards [isOpen_Ioo.mem_nhds (show u ∈ Set.Ioo (-1 : ℝ) 1 from ⟨h1, h2⟩)] with x hx
  rw [Real.artanh_eq_half_log ⟨hx.1.le, hx.2.le⟩]

/-- Inside their domains the built-in operators are smooth. -/
theorem Op1.contDiffAt (f : Op1 ℝ) {m : ℕ} {u : ℝ} (hf : f.SymOk) (h : f.DomN m u) :
    ContDiffAt ℝ (m + 1 : ℕ) (f.sem realPrim) u := by
  cases f
  case custom f df => exact hf.elim
  case fn f =>
    have h : f.Dom u := h
    cases f
    case sin => exact Real.contDiff_sin.contDiffAt
    case cos => exact Real.contDiff_cos.contDiffAt
    case tan => exact Real.contDiffAt_tan.2 h
    case sinh => exact Real.contDiff_sinh.contDiffAt
    case cosh => exact Real.contDiff_cosh.contDiffAt
    case tanh => exact contDiffAt_tanh u
    case asin => exact Real.contDiffAt_arcsin h.1.ne' h.2.ne
    case acos => exact Real.contDiffAt_arccos h.1.ne' h.2.ne
    case atan => exact Real.contDiff_arctan.contDiffAt
    case asinh => exact Real.contDiff_arsinh.contDiffAt
    case acosh => exact Real.contDiffAt_arcosh h
    case atanh => exact contDiffAt_artanh h.1 h.2
    case sqrt => exact Real.contDiffAt_sqrt (ne_of_gt h)
    case exp => exact Real.contDiff_exp.contDiffAt
    case log => exact Real.contDiffAt_log.2 (ne_of_gt h)
  case addC c => exact contDiffAt_const.add contDiffAt_id
  case mulC c => exact contDiffAt_const.mul contDiffAt_id
  case divC c => exact contDiffAt_const.div contDiffAt_id h
  case cPow c =>
    have h : 0 < c := h
    show ContDiffAt ℝ _ (fun x => c ^ x) u
    exact contDiffAt_const.rpow contDiffAt_id h.ne'
  case powC c =>
    show ContDiffAt ℝ _ (fun x => x ^ c) u
    apply Real.contDiffAt_rpow_const
    rcases h with h | ⟨-, h | h⟩
    · exact Or.inl h.ne'
    · exact Or.inl h
    · right; push_cast; exact h

theorem Op2.contDiffAt (f : Op2 ℝ) {m : WithTop ℕ∞} {u v : ℝ} (hf : f.SymOk) (h : f.Dom u v) :
    ContDiffAt ℝ m (fun p : ℝ × ℝ => f.sem realPrim p.1 p.2) (u, v) := by
  cases f
  case custom f fu fv => exact hf.elim
  case add => exact contDiffAt_fst.add contDiffAt_snd
  case sub => exact contDiffAt_fst.sub contDiffAt_snd
  case mul => exact contDiffAt_fst.mul contDiffAt_snd
  case div => exact contDiffAt_fst.div contDiffAt_snd h
  case pow => exact contDiffAt_fst.rpow contDiffAt_snd (ne_of_gt h)

/-- The domains are open. -/
theorem Op1.domN_eventually (f : Op1 ℝ) {m : ℕ} {u : ℝ} (hf : f.SymOk) (h : f.DomN m u) :
    ∀ᶠ x in 𝓝 u, f.DomN m x := by
  cases f
  case custom f df => exact hf.elim
  case fn f =>
    have h : f.Dom u := h
    show ∀ᶠ x in 𝓝 u, f.Dom x
    cases f
    case tan => exact (Real.continuous_cos.continuousAt.eventually_ne h)
    case asin => exact isOpen_Ioo.mem_nhds (show u ∈ Set.Ioo (-1 : ℝ) 1 from h)
    case acos => exact isOpen_Ioo.mem_nhds (show u ∈ Set.Ioo (-1 : ℝ) 1 from h)
    case atanh => exact isOpen_Ioo.mem_nhds (show u ∈ Set.Ioo (-1 : ℝ) 1 from h)
    case acosh => exact isOpen_Ioi.mem_nhds (show u ∈ Set.Ioi (1 : ℝ) from h)
    case sqrt => exact isOpen_Ioi.mem_nhds (show u ∈ Set.Ioi (0 : ℝ) from h)
    case log => exact isOpen_Ioi.mem_nhds (show u ∈ Set.Ioi (0 : ℝ) from h)
    all_goals exact Eventually.of_forall fun _ => trivial
  case addC c => exact Eventually.of_forall fun _ => trivial
  case mulC c => exact Eventually.of_forall fun _ => trivial
  case divC c => exact continuousAt_id.eventually_ne h
  case cPow c => exact Eventually.of_forall fun _ => h
  case powC c =>
    rcases h with h | ⟨h1, h2 | h2⟩
    · filter_upwards [isOpen_Ioi.mem_nhds (show u ∈ Set.Ioi (0 : ℝ) from h)] with x hx
      exact Or.inl hx
    · filter_upwards [continuousAt_id.eventually_ne h2] with x hx
      exact Or.inr ⟨h1, Or.inl hx⟩
    · exact Eventually.of_forall fun _ => Or.inr ⟨h1, Or.inr h2⟩

theorem Op2.dom_eventually (f : Op2 ℝ) {u v : ℝ} (hf : f.SymOk) (h : f.Dom u v) :
    ∀ᶠ p in 𝓝 (u, v), f.Dom p.1 p.2 := by
  cases f
  case custom f fu fv => exact hf.elim
  case div => exact continuousAt_snd.eventually_ne (x := (u, v)) h
  case pow => exact continuousAt_fst.eventually (isOpen_Ioi.mem_nhds (show u ∈ Set.Ioi (0 : ℝ) from h))
  all_goals exact Eventually.of_forall fun _ => trivial

/-- A formula inside its domain is smooth, and stays inside nearby. -/
theorem Node.contDiffAt {m : ℕ} {π : ℕ → ℝ} {r : E → ℕ → ℝ} {p : E} (t : Node ℝ) (ho : t.SymOk)
    (hl : ∀ o ∈ t.leaves, ContDiffAt ℝ (m + 1 : ℕ) (fun e => r e o) p)
    (h : t.All (domN m) realPrim π (r p)) :
    ContDiffAt ℝ (m + 1 : ℕ) (fun e => t.val realPrim π (r e)) p ∧
      ∀ᶠ e in 𝓝 p, t.All (domN m) realPrim π (r e) := by
  induction t with
  | leaf o => exact ⟨hl o (by simp [Node.leaves]), Eventually.of_forall fun _ => trivial⟩
  | par q => exact ⟨contDiffAt_const, Eventually.of_forall fun _ => trivial⟩
  | op1 n f a ih =>
      obtain ⟨h1, h2⟩ := ih ho.2 hl h.1
      refine ⟨(f.contDiffAt ho.1 h.2).comp p h1, ?_⟩
      filter_upwards [h2, h1.continuousAt.eventually (f.domN_eventually ho.1 h.2)] with e a1 a2
      exact ⟨a1, a2⟩
  | op2 n f a b iha ihb =>
      obtain ⟨h1, h2⟩ := iha ho.2.1 (fun o hh => hl o (by simp [Node.leaves, hh])) h.1
      obtain ⟨h3, h4⟩ := ihb ho.2.2 (fun o hh => hl o (by simp [Node.leaves, hh])) h.2.1
      have h5 := h1.prodMk h3
      have h6 : ContDiffAt ℝ (m + 1 : ℕ) ((fun q : ℝ × ℝ => f.sem realPrim q.1 q.2) ∘
          fun x => (a.val realPrim π (r x), b.val realPrim π (r x))) p :=
        ContDiffAt.comp p (f.contDiffAt ho.1 h.2.2) h5
      refine ⟨h6, ?_⟩
      filter_upwards [h2, h4, h5.continuousAt.eventually (f.dom_eventually ho.1 h.2.2)] with e a1 a2 a3
      exact ⟨a1, a2, a3⟩

theorem seq_contDiffAt {m : ℕ} {π : ℕ → ℝ} {r : E → ℕ → ℝ} {p : E} {o : ℕ} (is : List (Node ℝ))
    (ho : ∀ i ∈ is, i.SymOk) :
    ∀ {v : E → ℝ}, ContDiffAt ℝ (m + 1 : ℕ) v p →
      (∀ i ∈ is, ∀ q ∈ i.leaves, q ≠ o → ContDiffAt ℝ (m + 1 : ℕ) (fun e => r e q) p) →
      SeqAll (domN m) realPrim π (r p) o is (v p) →
      ContDiffAt ℝ (m + 1 : ℕ) (fun e => seqVal realPrim π (r e) o is (v e)) p ∧
        ∀ᶠ e in 𝓝 p, SeqAll (domN m) realPrim π (r e) o is (v e) := by
  induction is with
  | nil => intro v hv _ _; exact ⟨hv, Eventually.of_forall fun _ => trivial⟩
  | cons i is ih =>
      intro v hv h hd
      obtain ⟨h1, h2⟩ := i.contDiffAt (m := m) (π := π) (r := fun e => Function.update (r e) o (v e))
        (p := p) (ho i (by simp)) (fun q hq => by
          by_cases hqo : q = o
          · subst hqo; simpa using hv
          · simpa [hqo] using h i (by simp) q hq hqo) hd.1
      · obtain ⟨h3, h4⟩ := ih (fun j hj => ho j (List.mem_cons_of_mem _ hj)) h1
          (fun j hj => h j (List.mem_cons_of_mem _ hj)) hd.2
        refine ⟨h3, ?_⟩
        filter_upwards [h2, h4] with e a1 a2
        exact ⟨a1, a2⟩

/-- A family of solutions of the same definitions, whose Variables move smoothly, is smooth; and the
operators stay inside their domains nearby. -/
theorem solves_contDiffAt {m : ℕ} {D : E → Defs ℝ} {D₀ : Defs ℝ} {y : ℕ} {r : E → ℕ → ℝ} {p : E}
    (hi : ∀ e, (D e).items = D₀.items) (hp : ∀ e, (D e).par = D₀.par)
    (hb : ∀ q, ContDiffAt ℝ (m + 1 : ℕ) (fun e => (D e).base q) p)
    (hwd : WellDefined D₀ y) (hok : ∀ q, Reach D₀ y q → ∀ i ∈ D₀.items q, i.SymOk)
    (hr : ∀ e, Solves realPrim (D e) y (r e))
    (hdom : AllBelow (domN m) realPrim (D p).par (r p) (D p) y) :
    ∀ q, Reach D₀ y q → ContDiffAt ℝ (m + 1 : ℕ) (fun e => r e q) p ∧
      ∀ᶠ e in 𝓝 p, SeqAll (domN m) realPrim D₀.par (r e) q (D₀.items q) ((D e).base q) := by
  obtain ⟨⟨rank, hrank⟩, -⟩ := hwd
  have hre : ∀ e q, Reach D₀ y q → Reach (D e) y q := by
    intro e q hq
    induction hq with
    | refl => exact .refl
    | step _ hm hp ih => exact .step ih (by rw [hi]; exact hm) hp
  have key : ∀ n q, Reach D₀ y q → rank q < n → ContDiffAt ℝ (m + 1 : ℕ) (fun e => r e q) p ∧
      ∀ᶠ e in 𝓝 p, SeqAll (domN m) realPrim D₀.par (r e) q (D₀.items q) ((D e).base q) := by
    intro n
    induction n with
    | zero => intro q _ h; omega
    | succ n ih =>
        intro q hq hn
        have e1 : (fun e => r e q) = fun e =>
            seqVal realPrim D₀.par (r e) q (D₀.items q) ((D e).base q) := by
          funext e
          have := hr e q (hre e q hq)
          rwa [hi, hp] at this
        rw [e1]
        have hd := hdom q (hre p q hq)
        rw [hi, hp] at hd
        refine seq_contDiffAt (D₀.items q) (hok q hq) (hb q) (fun i hii o ho hoq => ?_) hd
        rcases hrank q hq i hii o ho with h | h
        · exact absurd h hoq
        · exact (ih o (.step hq hii ho) (by omega)).1
  exact fun q hq => key _ q hq (Nat.lt_succ_self _)

/-- Symmetry of mixed partial derivatives. -/
theorem mixed_symmetric {G F₁ F₂ : ℝ × ℝ → ℝ} {p : ℝ × ℝ} {w w' : ℝ} (hG : ContDiffAt ℝ 2 G p)
    (h1 : ∀ᶠ q in 𝓝 p, HasDerivAt (fun t => G (t, q.2)) (F₁ q) q.1)
    (h2 : ∀ᶠ q in 𝓝 p, HasDerivAt (fun t => G (q.1, t)) (F₂ q) q.2)
    (hw : HasDerivAt (fun t => F₁ (p.1, t)) w p.2)
    (hw' : HasDerivAt (fun t => F₂ (t, p.2)) w' p.1) : w = w' := by
  have hsym : IsSymmSndFDerivAt ℝ G p := hG.isSymmSndFDerivAt (by simp)
  have hdiff : ∀ᶠ q in 𝓝 p, DifferentiableAt ℝ G q := by
    have := hG.eventually (by simp)
    filter_upwards [this] with q hq
    exact hq.differentiableAt (by simp)
  have hG' : DifferentiableAt ℝ (fderiv ℝ G) p :=
    (hG.fderiv_right (m := 1) (by norm_num)).differentiableAt (by simp)
  have l1 : ∀ q : ℝ × ℝ, HasDerivAt (fun t : ℝ => (t, q.2)) ((1, 0) : ℝ × ℝ) q.1 := fun q =>
    (hasDerivAt_id _).prodMk (hasDerivAt_const _ _)
  have l2 : ∀ q : ℝ × ℝ, HasDerivAt (fun t : ℝ => (q.1, t)) ((0, 1) : ℝ × ℝ) q.2 := fun q =>
    (hasDerivAt_const _ _).prodMk (hasDerivAt_id _)
  have f1 : F₁ =ᶠ[𝓝 p] fun q => fderiv ℝ G q (1, 0) := by
    filter_upwards [h1, hdiff] with q a1 a2
    have : HasDerivAt (fun t => G (t, q.2)) (fderiv ℝ G q (1, 0)) q.1 :=
      a2.hasFDerivAt.comp_hasDerivAt (f := fun t : ℝ => (t, q.2)) q.1 (l1 q)
    exact a1.unique this
  have f2 : F₂ =ᶠ[𝓝 p] fun q => fderiv ℝ G q (0, 1) := by
    filter_upwards [h2, hdiff] with q a1 a2
    have : HasDerivAt (fun t => G (q.1, t)) (fderiv ℝ G q (0, 1)) q.2 :=
      a2.hasFDerivAt.comp_hasDerivAt (f := fun t : ℝ => (q.1, t)) q.2 (l2 q)
    exact a1.unique this
  have ap : ∀ v : ℝ × ℝ, HasFDerivAt (fun q => fderiv ℝ G q v)
      ((ContinuousLinearMap.apply ℝ ℝ v).comp (fderiv ℝ (fderiv ℝ G) p)) p := fun v =>
    (ContinuousLinearMap.apply ℝ ℝ v).hasFDerivAt.comp p hG'.hasFDerivAt
  have t1 : Tendsto (fun t : ℝ => (p.1, t)) (𝓝 p.2) (𝓝 p) := (l2 p).continuousAt
  have t2 : Tendsto (fun t : ℝ => (t, p.2)) (𝓝 p.1) (𝓝 p) := (l1 p).continuousAt
  have g1 : HasDerivAt (fun t => F₁ (p.1, t)) (fderiv ℝ (fderiv ℝ G) p (0, 1) (1, 0)) p.2 := by
    have := (ap (1, 0)).comp_hasDerivAt (f := fun t : ℝ => (p.1, t)) p.2 (l2 p)
    exact this.congr_of_eventuallyEq (f1.comp_tendsto t1)
  have g2 : HasDerivAt (fun t => F₂ (t, p.2)) (fderiv ℝ (fderiv ℝ G) p (1, 0) (0, 1)) p.1 := by
    have := (ap (0, 1)).comp_hasDerivAt (f := fun t : ℝ => (t, p.2)) p.1 (l1 p)
    exact this.congr_of_eventuallyEq (f2.comp_tendsto t2)
  rw [hw.unique g1, hw'.unique g2]
  exact hsym.eq _ _

end CoolDiff
