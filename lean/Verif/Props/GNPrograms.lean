import Verif.Props.GNMatrix
import Verif.Apps.GNPrograms
import Verif.Apps.GNFit

/-!
# C59: the programs of example/GaussNewton/main.cpp
-/

set_option linter.unusedSectionVars false

namespace CoolDiff

/-! ## Loading data -/

/-- A file of `r` lines, all ending with a newline, of which the first holds `c` numbers. -/
structure DataFile.Table (f : DataFile ℝ) (r c : ℕ) : Prop where
  rows : f.lines.length = r
  cols : (f.lines.headD []).length = c
  newline : f.newline = true

/-- Number `j` of line `i`, 0 if the line is shorter. -/
noncomputable def DataFile.at (f : DataFile ℝ) (i j : ℕ) : ℝ := (f.lines.getD i []).getD j 0

theorem readInto_spec {f : DataFile ℝ} {r c : ℕ} (h : f.Table r c) {m : Mat ℝ} {A : ℕ → ℕ → ℝ} (hm : Rep m r c A) :
    ∃ m', readInto (some f) c m = some m' ∧ Rep m' r c f.at := by
  have hr : m.rows = r := hm.rows
  have hc : m.cols = c := hm.cols
  obtain ⟨m', e, h'⟩ := forEach_rep (fun ij : ℕ × ℕ => ij.1) (fun ij => ij.2)
    (fun ij => (f.lines.getD ij.1 []).getD ij.2 0)
    (fun ij m => m.put? ij.1 ij.2 ((f.lines.getD ij.1 []).getD ij.2 0)) f.at (pairs f.lines.length c) m hm.wf
    (fun _ _ _ _ _ => rfl) (fun n hn => by rw [hr, ← h.rows]; exact (mem_pairs.1 hn).1)
    (fun n hn => by rw [hc]; exact (mem_pairs.1 hn).2) (fun _ _ => rfl)
    (fun i j hi hj => Or.inl ⟨(i, j), mem_pairs.2 ⟨by rw [h.rows, ← hr]; exact hi, by rw [← hc]; exact hj⟩, rfl, rfl⟩)
  rw [hr, hc] at h'
  exact ⟨m', e, h'⟩

namespace Rot

variable {θ tx ty : ℝ} {B : Backend ℝ} {π : Sched}

/-- The start of the program. -/
local notation "σR" => rotStart θ tx ty

/-- Its matrices. -/
local notation "ER" => rotEnv (rotStart θ tx ty)

/-- Matrices and heap. -/
local notation "jR" => rotCtx B π θ tx ty

def rank : ℕ → ℕ | 5 => 1 | _ => 0

def H (y : ℕ) : Prop := y = 4 ∨ y = 5 ∨ y = 6 ∨ y = 7

theorem s_items : ∃ a b c d e f g i k, (σR).defs.items 4 = [.op1 a (.mulC 1) (.op1 b (.fn .cos) (.leaf 1))] ∧
    (σR).defs.items 5 = [.op1 c (.mulC 1) (.op1 d (.fn .sin) (.leaf 1))] ∧
    (σR).defs.items 6 = [.op1 e (.mulC 1) (.op1 f (.mulC (-1)) (.op1 g (.fn .sin) (.leaf 1)))] ∧
    (σR).defs.items 7 = [.op1 i (.mulC 1) (.op1 k (.fn .cos) (.leaf 1))] :=
  ⟨_, _, _, _, _, _, _, _, _, rfl, rfl, rfl, rfl⟩

theorem one_leaf {f : Fn} {n : ℕ} (hn : 1 < n) : ∀ p ∈ (Exp.fn f (.var 1) : Exp ℝ).leaves, p < n := by
  intro p hp
  simp only [Exp.leaves, List.mem_singleton] at hp
  omega

theorem s_hist : Hist realPrim (σR) (fun _ => False) := by
  refine .newPar 0 (.newPar 0 (.newPar 0 (.newPar 0 ?_)))
  refine .define 7 _ (.define 6 _ (.define 5 _ (.define 4 _ (.newExpr (.newExpr (.newExpr (.newExpr ?_))))
    ?_ ?_ ?_ ?_) ?_ ?_ ?_ ?_) ?_ ?_ ?_ ?_) ?_ ?_ ?_ ?_
  · refine .setVar 3 _ (.setVar 2 _ (.setVar 1 _ (.newVar _ (.newVar _ (.newVar _ .init))) ?_ rfl) ?_ rfl) ?_ rfl
    · show 1 < 4; omega
    · show 2 < 4; omega
    · show 3 < 4; omega
  · show 4 < 8; omega
  · show [Node.leaf 0] ≠ []; simp
  · exact one_leaf (n := 8) (by omega)
  · simp [Exp.pars]
  · show 5 < 8; omega
  · show [Node.leaf 0] ≠ []; simp
  · exact one_leaf (n := 8) (by omega)
  · simp [Exp.pars]
  · show 6 < 8; omega
  · show [Node.leaf 0] ≠ []; simp
  · exact one_leaf (f := .sin) (n := 8) (by omega)
  · simp [Exp.pars]
  · show 7 < 8; omega
  · show [Node.leaf 0] ≠ []; simp
  · exact one_leaf (n := 8) (by omega)
  · simp [Exp.pars]

theorem s_leaf {q : ℕ} (hq : q < 8) {i : Node ℝ} (hi : i ∈ (σR).defs.items q) {p : ℕ} (hp : p ∈ i.leaves) : p = 1 ∧ 4 ≤ q := by
  obtain ⟨a, b, c, d, e, f, g, i', k, i4, i5, i6, i7⟩ := s_items (θ := θ) (tx := tx) (ty := ty)
  obtain rfl | rfl | rfl | rfl | rfl | rfl | rfl | rfl :
    q = 0 ∨ q = 1 ∨ q = 2 ∨ q = 3 ∨ q = 4 ∨ q = 5 ∨ q = 6 ∨ q = 7 := by omega
  · rw [show (σR).defs.items 0 = [] from rfl] at hi; simp at hi
  · rw [show (σR).defs.items 1 = [] from rfl] at hi; simp at hi
  · rw [show (σR).defs.items 2 = [] from rfl] at hi; simp at hi
  · rw [show (σR).defs.items 3 = [] from rfl] at hi; simp at hi
  · rw [i4] at hi; simp only [List.mem_singleton] at hi; subst hi; simp [Node.leaves] at hp; omega
  · rw [i5] at hi; simp only [List.mem_singleton] at hi; subst hi; simp [Node.leaves] at hp; omega
  · rw [i6] at hi; simp only [List.mem_singleton] at hi; subst hi; simp [Node.leaves] at hp; omega
  · rw [i7] at hi; simp only [List.mem_singleton] at hi; subst hi; simp [Node.leaves] at hp; omega

theorem s_wd {y : ℕ} (hy : y < 8) : WellDefined (σR).defs y := by
  refine (Acyclic.of_ordered (fun q hq i hi p hp => ?_) (fun q hq i hi hp => ?_)).wellDefined
    s_hist.inv.wf.defs.closed hy
  · have := s_leaf hq hi hp; omega
  · have := s_leaf hq (List.mem_of_mem_head? hi) hp; omega

theorem kindf {o n e eye} (hk : (ER).kind o = .form n e eye) : o = 5 ∧ n = 50 ∧
    e = .bin 51 .sub (.obj 4) (.bin 52 .add (.bin 53 .mul (.obj 2) (.obj 3)) (.obj 1)) ∧ eye = 6 := by
  match o with
  | 0 => simp [rotEnv] at hk
  | 1 => simp [rotEnv] at hk
  | 2 => simp [rotEnv] at hk
  | 3 => simp [rotEnv] at hk
  | 4 => simp [rotEnv] at hk
  | 5 => simp only [rotEnv, MKind.form.injEq] at hk; exact ⟨rfl, hk.1.symm, hk.2.1.symm, hk.2.2.symm⟩
  | (k + 6) => simp [rotEnv] at hk

theorem kindv {o} (hk : (ER).kind o = .var) : o = 0 ∨ o = 1 := by
  match o with
  | 0 => simp
  | 1 => simp
  | 2 => simp [rotEnv] at hk
  | 3 => simp [rotEnv] at hk
  | 4 => simp [rotEnv] at hk
  | 5 => simp [rotEnv] at hk
  | (k + 6) => simp [rotEnv] at hk

theorem kinde {o} (hk : (ER).kind o = .exp) : o = 2 := by
  match o with
  | 0 => simp [rotEnv] at hk
  | 1 => simp [rotEnv] at hk
  | 2 => rfl
  | 3 => simp [rotEnv] at hk
  | 4 => simp [rotEnv] at hk
  | 5 => simp [rotEnv] at hk
  | (k + 6) => simp [rotEnv] at hk

theorem wf : (ER).WF rank := by
  refine ⟨fun o => by simp only [rotEnv]; split <;> omega, fun o => by simp only [rotEnv]; split <;> omega, fun o n e eye hk => ?_⟩
  obtain ⟨rfl, rfl, rfl, rfl⟩ := kindf hk
  refine ⟨rfl, rfl, rfl, ?_, rfl, rfl, ?_⟩
  · simp [DimOk, MNode.dims, MBin.dimOk, MBin.padOk, MBin.odims, rotEnv]
  · intro q hq
    simp only [MEnv.item, MNode.objs, List.mem_append, List.mem_singleton] at hq
    rcases hq with (rfl | (rfl | rfl) | rfl) | rfl <;> decide

theorem isVar {x : ℕ} (h1 : 0 < x) (h2 : x < 4) : IsVar (σR).defs x := by
  obtain rfl | rfl | rfl : x = 1 ∨ x = 2 ∨ x = 3 := by omega
  · exact ⟨(by decide : 1 < 8), by decide, rfl⟩
  · exact ⟨(by decide : 2 < 8), by decide, rfl⟩
  · exact ⟨(by decide : 3 < 8), by decide, rfl⟩

theorem h_obj {a : ℕ} (h1 : 0 < a) (h2 : a < 8) : rotEnt a = .obj a := by
  rw [rotEnt, if_neg (by omega), if_pos h2]

theorem elems (S : Set ℕ) : ElemsOk (jR) (σR).defs S H := by
  refine ⟨fun o _ hk r c hr hc => ?_, fun o _ hk r c hr hc => ?_, fun o _ hk r c hr hc y => ?_,
    fun o _ n e eye hk a ha => ?_, fun y hy => ?_⟩
  · rcases kindv hk with rfl | rfl
    · have hc' : c < 3 := hc
      exact ⟨1 + c, h_obj (a := 1 + c) (by omega) (by omega), isVar (by omega) (by omega), rfl⟩
    · have hr' : r < 2 := hr
      exact ⟨2 + r, h_obj (a := 2 + r) (by omega) (by omega), isVar (by omega) (by omega), rfl⟩
  · obtain rfl := kinde hk
    have hr' : r < 2 := hr
    have hc' : c < 2 := hc
    exact ⟨4 + 2 * r + c, h_obj (a := 4 + 2 * r + c) (by omega) (by omega), by simp only [H]; omega⟩
  · have key : 8 ≤ (ER).el o r c := by
      match o with
      | 0 => rcases hk with hk | hk <;> cases hk
      | 1 => rcases hk with hk | hk <;> cases hk
      | 2 => rcases hk with hk | hk <;> cases hk
      | 3 => exact Nat.le_add_right _ _
      | 4 => exact (by omega : 8 ≤ 10).trans (Nat.le_add_right 10 r)
      | 5 => rcases hk with hk | hk <;> cases hk
      | (k + 6) => exact (by omega : 8 ≤ 12)
    show rotEnt ((ER).el o r c) ≠ _
    rw [rotEnt, if_neg (by omega), if_neg (by omega)]
    split <;> nofun
  · obtain ⟨rfl, rfl, rfl, rfl⟩ := kindf hk
    simp [MNode.scals] at ha
  · rcases hy with rfl | rfl | rfl | rfl
    · exact ⟨(by decide : 4 < 8), (by show [_] ≠ []; simp), s_wd (by decide)⟩
    · exact ⟨(by decide : 5 < 8), (by show [_] ≠ []; simp), s_wd (by decide)⟩
    · exact ⟨(by decide : 6 < 8), (by show [_] ≠ []; simp), s_wd (by decide)⟩
    · exact ⟨(by decide : 7 < 8), (by show [_] ≠ []; simp), s_wd (by decide)⟩

theorem s_reach {y q : ℕ} (hy : H y) (h : Reach (σR).defs y q) : q = y ∨ q = 1 := by
  obtain ⟨a, b, c, d, e, f, g, i, k, i4, i5, i6, i7⟩ := s_items (θ := θ) (tx := tx) (ty := ty)
  have h1 : (σR).defs.items 1 = [] := rfl
  induction h with
  | refl => simp
  | step _ hm hp ih =>
      rcases ih with rfl | rfl
      · rcases hy with rfl | rfl | rfl | rfl
        · rw [i4] at hm; simp only [List.mem_singleton] at hm; subst hm; simp [Node.leaves] at hp; omega
        · rw [i5] at hm; simp only [List.mem_singleton] at hm; subst hm; simp [Node.leaves] at hp; omega
        · rw [i6] at hm; simp only [List.mem_singleton] at hm; subst hm; simp [Node.leaves] at hp; omega
        · rw [i7] at hm; simp only [List.mem_singleton] at hm; subst hm; simp [Node.leaves] at hp; omega
      · rw [h1] at hm; simp at hm

theorem orderly (V : ℕ → Prop) : Orderly (σR).defs V H := by
  refine Orderly.of_shallow fun o ho q hq hqo i hi p hp => ?_
  have h1 : (σR).defs.items 1 = [] := rfl
  rcases s_reach ho hq with rfl | rfl
  · exact absurd rfl hqo
  · rw [h1] at hi; simp at hi

theorem dom {b p : ℕ → ℝ} {y : ℕ} (hy : H y) : InDomain ((σR).defs.withValues b p) y := by
  intro ρ _ q hq
  obtain ⟨a, b', c, d, e, f, g, i, k, i4, i5, i6, i7⟩ := s_items (θ := θ) (tx := tx) (ty := ty)
  have hi : ((σR).defs.withValues b p).items = (σR).defs.items := rfl
  have hr : Reach (σR).defs y q := hq.of_items hi.symm
  rw [hi]
  rcases s_reach hy hr with rfl | rfl
  · rcases hy with rfl | rfl | rfl | rfl
    · rw [i4]; simp [SeqInDom, Node.InDom, Op1.Dom, Fn.Dom]
    · rw [i5]; simp [SeqInDom, Node.InDom, Op1.Dom, Fn.Dom]
    · rw [i6]; simp [SeqInDom, Node.InDom, Op1.Dom, Fn.Dom]
    · rw [i7]; simp [SeqInDom, Node.InDom, Op1.Dom, Fn.Dom]
  · rw [show (σR).defs.items 1 = [] from rfl]; trivial

theorem eye : ∀ p n e eye, (ER).kind p = .form n e eye → ∀ r c, r < (ER).rows eye → c < (ER).cols eye →
    rotEnt ((ER).el eye r c) = .num (if r = c then 1 else 0) := by
  intro p n e eye hk r c hr hc
  obtain ⟨rfl, rfl, rfl, rfl⟩ := kindf hk
  have hr' : r < 1 := hr
  have hc' : c < 1 := hc
  rw [if_pos (by omega)]
  rfl

theorem queryOk (hB : B.Sound Pads.none) (D : Defs ℝ) (d : Prop) (o : ℕ) : QueryOk ((jR).at ((jR).scal D)) rank d o := by
  refine ⟨wf, hB, fun p n e eye' hk r c hr hc => ?_,
    ⟨fun p _ n e eye hk hu => ?_, ?_⟩⟩
  · have : (jR).h ((ER).el eye' r c) = .num (if r = c then 1 else 0) := eye p n e eye' hk r c hr hc
    show ((jR).scal D).val ((ER).el eye' r c) = _
    simp only [JCtx.scal, this]
  · obtain ⟨rfl, rfl, rfl, rfl⟩ := kindf hk
    simp [UsesInv] at hu
  · intro p _ n e eye hk
    obtain ⟨rfl, rfl, rfl, rfl⟩ := kindf hk
    exact ⟨trivial, ⟨trivial, trivial⟩, trivial⟩

theorem nidx_inj {x y : ℕ} (hx : x < 4) (hy : y < 4) (h : (σR).defs.nidx x = (σR).defs.nidx y) : x = y := by
  have key : ∀ x < 4, (σR).defs.nidx x = GNMEx.s.defs.nidx x := by
    intro x hx
    obtain rfl | rfl | rfl | rfl : x = 0 ∨ x = 1 ∨ x = 2 ∨ x = 3 := by omega
    · rfl
    · rfl
    · rfl
    · rfl
  exact GNMEx.nidx_inj hx hy ((key x hx).symm.trans (h.trans (key y hy)))

/-- `t` shares its elements with `V` but has another number of elements. -/
theorem vars : VarsOk (ER) := by
  intro o p ho hp hs l k i j hl hk hi hj h
  rcases kindv ho with rfl | rfl <;> rcases kindv hp with rfl | rfl
  · have h1 : l < 1 := hl
    have h2 : i < 1 := hi
    have h3 : k < 3 := hk
    have h4 : j < 3 := hj
    have h' : (σR).defs.nidx (1 + k) = (σR).defs.nidx (1 + j) := h
    have := nidx_inj (by omega) (by omega) h'
    exact ⟨rfl, by omega, by omega⟩
  · exact absurd hs (by show ¬ (1 * 3 = 2 * 1); decide)
  · exact absurd hs (by show ¬ (2 * 1 = 1 * 3); decide)
  · have h1 : l < 2 := hl
    have h2 : i < 2 := hi
    have h3 : k < 1 := hk
    have h4 : j < 1 := hj
    have h' : (σR).defs.nidx (2 + l) = (σR).defs.nidx (2 + i) := h
    have := nidx_inj (by omega) (by omega) h'
    exact ⟨rfl, by omega, by omega⟩

theorem wd_at (b p : ℕ → ℝ) {y : ℕ} (hy : y < 8) : WellDefined ((σR).defs.withValues b p) y := by
  have h : WellDefined (σR).defs y := s_wd hy
  have hi : ((σR).defs.withValues b p).items = (σR).defs.items := rfl
  exact h.of_items hi

theorem val_of (b p : ℕ → ℝ) {y : ℕ} (h0 : 0 < y) (hy : y < 8) {e : Exp ℝ}
    (hf : IsFormula ((σR).defs.withValues b p) y e) (h1 : 1 ∈ e.leaves) :
    ∃ ρ : ℕ → ℝ, ρ 1 = b 1 ∧ ((jR).scal ((σR).defs.withValues b p)).val y = e.val realPrim p ρ := by
  have hT := (jR).scal_truth (St.atPoint_wf (s_hist (θ := θ) (tx := tx) (ty := ty)).inv.wf.defs b p).defs
  have hh : (jR).h y = .obj y := h_obj h0 hy
  obtain ⟨ρ, hρ, e'⟩ := hT.obj y y hh (wd_at b p hy)
  refine ⟨ρ, hρ.variable (hf.reach h1) rfl, ?_⟩
  exact e'.symm.trans (hf.val .refl hρ)

theorem isFormula (b p : ℕ → ℝ) : IsFormula ((σR).defs.withValues b p) 4 (.fn .cos (.var 1)) ∧
    IsFormula ((σR).defs.withValues b p) 5 (.fn .sin (.var 1)) ∧
    IsFormula ((σR).defs.withValues b p) 6 (.neg (.fn .sin (.var 1))) ∧
    IsFormula ((σR).defs.withValues b p) 7 (.fn .cos (.var 1)) :=
  ⟨⟨⟨_, rfl⟩, by decide⟩, ⟨⟨_, rfl⟩, by decide⟩, ⟨⟨_, rfl⟩, by decide⟩, ⟨⟨_, rfl⟩, by decide⟩⟩

theorem val_exp (b p : ℕ → ℝ) :
    ((jR).scal ((σR).defs.withValues b p)).val 4 = Real.cos (b 1) ∧ ((jR).scal ((σR).defs.withValues b p)).val 5 = Real.sin (b 1) ∧
    ((jR).scal ((σR).defs.withValues b p)).val 6 = -Real.sin (b 1) ∧ ((jR).scal ((σR).defs.withValues b p)).val 7 = Real.cos (b 1) := by
  obtain ⟨f4, f5, f6, f7⟩ := isFormula (θ := θ) (tx := tx) (ty := ty) b p
  refine ⟨?_, ?_, ?_, ?_⟩
  · obtain ⟨ρ, h1, h2⟩ := val_of (B := B) (π := π) b p (by decide) (by decide) f4 (by simp [Exp.leaves])
    rw [h2]; simp [Exp.val, h1, Op1.sem, realPrim]
  · obtain ⟨ρ, h1, h2⟩ := val_of (B := B) (π := π) b p (by decide) (by decide) f5 (by simp [Exp.leaves])
    rw [h2]; simp [Exp.val, h1, Op1.sem, realPrim]
  · obtain ⟨ρ, h1, h2⟩ := val_of (B := B) (π := π) b p (by decide) (by decide) f6 (by simp [Exp.leaves])
    rw [h2]; simp [Exp.val, h1, Op1.sem, realPrim]
  · obtain ⟨ρ, h1, h2⟩ := val_of (B := B) (π := π) b p (by decide) (by decide) f7 (by simp [Exp.leaves])
    rw [h2]; simp [Exp.val, h1, Op1.sem, realPrim]

theorem val_var (b p : ℕ → ℝ) {x : ℕ} (h0 : 0 < x) (hx : x < 4) : ((jR).scal ((σR).defs.withValues b p)).val x = b x := by
  have hT := (jR).scal_truth (St.atPoint_wf (s_hist (θ := θ) (tx := tx) (ty := ty)).inv.wf.defs b p).defs
  have hh : (jR).h x = .obj x := h_obj h0 (by omega)
  obtain ⟨ρ, hρ, e⟩ := hT.obj x x hh (wd_at b p (by omega))
  have hv : IsVar (σR).defs x := isVar h0 hx
  exact e.symm.trans (hρ.variable .refl hv.2.2)

theorem val_par (b p : ℕ → ℝ) {k : ℕ} (h : k < 4) : ((jR).scal ((σR).defs.withValues b p)).val (8 + k) = p k := by
  have e : (jR).h (8 + k) = .par k := by
    show rotEnt (8 + k) = _
    rw [rotEnt, if_neg (by omega), if_neg (by omega), if_pos (by omega), Nat.add_sub_cancel_left]
  simp only [JCtx.scal, e]
  rfl

theorem oracle (hK : B.KronSound) : GNMOK (jR) (σR).defs H rank 5 0 [1, 2, 3] := by
  refine ⟨elems _, rfl, rfl, rfl, ?_, PadsOk.of_empty rfl rfl, vars, rfl, ?_, by decide⟩
  · exact hK
  · intro c hc
    have hc' : c < 3 := hc
    obtain rfl | rfl | rfl : c = 0 ∨ c = 1 ∨ c = 2 := by omega
    · exact ⟨rfl, isVar (x := 1) (by decide) (by decide), rfl⟩
    · exact ⟨rfl, isVar (x := 2) (by decide) (by decide), rfl⟩
    · exact ⟨rfl, isVar (x := 3) (by decide) (by decide), rfl⟩


/-- The data after `setData`, `setDataParameters`. -/
noncomputable def data (m : ℕ) (X Y : Mat ℝ) : GNData ℝ :=
  { dx := some [0, 1], x := some X, dy := some [2, 3], y := some Y, size := m }

theorem data_ok {m : ℕ} {X Y : Mat ℝ} {x y : ℕ → ℕ → ℝ} (hX : Rep X m 2 x) (hY : Rep Y m 2 y) :
    (data m X Y).OK (σR).defs := by
  refine ⟨by simp [GNData.pars, data], ?_, fun qs e => by cases e; exact ⟨X, x, rfl, hX⟩,
    fun qs e => by cases e; exact ⟨Y, y, rfl, hY⟩⟩
  intro q hq
  show q < 4
  simp [GNData.pars, data] at hq
  omega

theorem value (hB : B.Sound Pads.none) {m : ℕ} {X Y : Mat ℝ} {x y : ℕ → ℕ → ℝ} (hX : Rep X m 2 x) (hY : Rep Y m 2 y) :
    ∀ i < m, ∀ b p, (data m X Y).Row i (σR).defs.par p →
      ∀ a < 2, MVal ((jR).point (σR).defs b p) rank 5 a 0 = rotRes x y (i * 2 + a) b := by
  intro i hi b p hp a ha
  have hx : ∀ k (hk : k < 2), p k = x i k := by
    intro k hk
    have hX2 : k < X.cols := by rw [hX.cols]; exact hk
    obtain rfl | rfl : k = 0 ∨ k = 1 := by omega
    · exact hp.dx [0, 1] X rfl rfl 0 hX2 _ (hX.elem i 0 hi (by omega)) 0 rfl
    · exact hp.dx [0, 1] X rfl rfl 1 hX2 _ (hX.elem i 1 hi (by omega)) 1 rfl
  have hy : ∀ k (hk : k < 2), p (2 + k) = y i k := by
    intro k hk
    have hY2 : k < Y.cols := by rw [hY.cols]; exact hk
    obtain rfl | rfl : k = 0 ∨ k = 1 := by omega
    · exact hp.dy [2, 3] Y rfl rfl 0 hY2 _ (hY.elem i 0 hi (by omega)) 2 rfl
    · exact hp.dy [2, 3] Y rfl rfl 1 hY2 _ (hY.elem i 1 hi (by omega)) 3 rfl
  obtain ⟨e4, e5, e6, e7⟩ := val_exp (B := B) (π := π) (θ := θ) (tx := tx) (ty := ty) b p
  have e2 := val_var (B := B) (π := π) (θ := θ) (tx := tx) (ty := ty) b p (x := 2) (by decide) (by decide)
  have e3 := val_var (B := B) (π := π) (θ := θ) (tx := tx) (ty := ty) b p (x := 3) (by decide) (by decide)
  have pk := fun k hk => val_par (B := B) (π := π) (θ := θ) (tx := tx) (ty := ty) b p (k := k) hk
  have q := queryOk (θ := θ) (tx := tx) (ty := ty) (π := π) hB ((σR).defs.withValues b p) True 5
  have hl : ∀ o, o < 5 → ∀ r c, r < (ER).rows o → c < (ER).cols o → MVal ((jR).point (σR).defs b p) rank o r c =
      ((jR).scal ((σR).defs.withValues b p)).val ((ER).el o r c) := fun o ho r c hr hc =>
    mval_leaf ((jR).point (σR).defs b p) q.wf q.eyes
      (fun ⟨n, e, eye, hk⟩ => by
        have hk' : (ER).kind o = .form n e eye := hk
        have := (kindf hk').1; omega) hr hc
  rw [mval_form ((jR).point (σR).defs b p) q.wf q.eyes (o := 5) rfl ha one_pos]
  have d2 : ((MNode.obj 2 : MNode ℝ).dims ((jR).point (σR).defs b p).E).2 = 2 := rfl
  simp only [den, d2, Finset.sum_range_succ, Finset.sum_range_zero, zero_add]
  have m40 := (hl 4 (by decide) 0 0 (by show 0 < 2; decide) (by show 0 < 1; decide)).trans (pk 2 (by decide))
  have m41 := (hl 4 (by decide) 1 0 (by show 1 < 2; decide) (by show 0 < 1; decide)).trans (pk 3 (by decide))
  have m30 := (hl 3 (by decide) 0 0 (by show 0 < 2; decide) (by show 0 < 1; decide)).trans (pk 0 (by decide))
  have m31 := (hl 3 (by decide) 1 0 (by show 1 < 2; decide) (by show 0 < 1; decide)).trans (pk 1 (by decide))
  have m200 := (hl 2 (by decide) 0 0 (by show 0 < 2; decide) (by show 0 < 2; decide)).trans e4
  have m201 := (hl 2 (by decide) 0 1 (by show 0 < 2; decide) (by show 1 < 2; decide)).trans e5
  have m210 := (hl 2 (by decide) 1 0 (by show 1 < 2; decide) (by show 0 < 2; decide)).trans e6
  have m211 := (hl 2 (by decide) 1 1 (by show 1 < 2; decide) (by show 1 < 2; decide)).trans e7
  have m10 := (hl 1 (by decide) 0 0 (by show 0 < 2; decide) (by show 0 < 1; decide)).trans e2
  have m11 := (hl 1 (by decide) 1 0 (by show 1 < 2; decide) (by show 0 < 1; decide)).trans e3
  obtain rfl | rfl : a = 0 ∨ a = 1 := by omega
  · rw [m40, m200, m201, m30, m31, m10, Nat.add_zero, rotRes_even, hx 0 (by omega), hx 1 (by omega)]
    rw [show p 2 = y i 0 from hy 0 (by omega)]
  · rw [m41, m210, m211, m30, m31, m11, rotRes_odd, hx 0 (by omega), hx 1 (by omega)]
    rw [show p 3 = y i 1 from hy 1 (by omega)]

theorem all_obj : ∀ a y, (jR).h a = .obj y → IsVar (σR).defs y ∨ H y := by
  intro a y hy
  have hy' : rotEnt a = .obj y := hy
  rw [rotEnt] at hy'
  split at hy'
  · cases hy'
  · split at hy'
    · cases hy'
      by_cases h4 : a < 4
      · exact Or.inl (isVar (by omega) h4)
      · exact Or.inr (by simp only [H]; omega)
    · split at hy' <;> cases hy'

theorem solve (hB : B.Sound Pads.none) (hK : B.KronSound) {llt : Mat ℝ → Mat ℝ → Option (Mat ℝ)}
    (hL : SolvesOn llt fun n A => (toMatrix n A).PosDef) {m : ℕ} {X Y : Mat ℝ} {x y : ℕ → ℕ → ℝ}
    (hX : Rep X m 2 x) (hY : Rep Y m 2 y) (h2 : TwoPoints m x) (n : ℕ) :
    ∃ buf' s' σ', gnmSolve (jR) llt 2 5 0 (data m X Y) n ({}, (MSt.fresh, σR)) = some (buf', (s', σ')) ∧
      GNSteps (m * 2) [1, 2, 3] (rotRes x y) (partials (rotRes x y)) n (σR).defs.base σ'.defs.base ∧
      ∀ k < 4, σ'.mem.value k = σ'.defs.base k := by
  obtain ⟨buf', s', σ', U', V', e, h1, -, h3, -, -, h6, -⟩ := C51_newton_partial (j := jR) (f := 2) rfl hL
    (MHist.fresh (E := ER) (rank := rank)) s_hist (orderly _) (Or.inr fun _ _ h => h) (oracle hK)
    (by show 0 < 3; decide) (by show 0 < 2; decide) all_obj eye (by show 1 < 2; decide) (data_ok hX hY)
    (r := rotRes x y) (value hB hX hY) (GNBuf.fits_new 3) n (fun k _ b _ => ⟨rotRes_rank h2 y b,
      fun i _ p _ => ⟨queryOk hB _ _ _, fun y hy => dom hy, fun p n e eye _ hk => by
        have hk' : (ER).kind p = .form n e eye := hk
        obtain ⟨rfl, rfl, rfl, rfl⟩ := kindf hk'
        exact ⟨trivial, ⟨trivial, trivial⟩, trivial⟩⟩⟩)
  refine ⟨buf', s', σ', e, h1, fun k hk => (h6.inv.wf.plain k ?_ ?_).1⟩
  · rw [h3]; show k < 8; omega
  · rw [h3]
    obtain rfl | rfl | rfl | rfl : k = 0 ∨ k = 1 ∨ k = 2 ∨ k = 3 := by omega
    · rfl
    · rfl
    · rfl
    · rfl

end Rot

/-! ## `LoadData` -/

/-- A file whose lines number `r`, all ended by newlines, and whose first line holds `c` numbers, is read completely:
element `(i, j)` is number `j` of line `i`. -/
theorem C59_load {fin fout : DataFile ℝ} {r c : ℕ} (h1 : fin.Table r c) (h2 : fout.Table r c) (hr : 0 < r) (hc : 0 < c) :
    ∃ X Y, loadData (some fin) (some fout) = some (X, Y) ∧ Rep X r c fin.at ∧ Rep Y r c fout.at := by
  have e1 : countRows (some fin) = r := by simp only [countRows, h1.newline, if_true, h1.rows]
  have e2 : countRows (some fout) = r := by simp only [countRows, h2.newline, if_true, h2.rows]
  have e3 : countCols (some fin) = c := h1.cols
  have e4 : countCols (some fout) = c := h2.cols
  obtain ⟨z, hz, rz⟩ := Mat.new_spec (K := ℝ) hr hc
  obtain ⟨X, hX, rX⟩ := readInto_spec h1 rz
  obtain ⟨Y, hY, rY⟩ := readInto_spec h2 rz
  refine ⟨X, Y, ?_, rX, rY⟩
  rw [loadData, e1, e2, e3, e4, if_pos ⟨rfl, rfl⟩, hz]
  simp only [Option.bind_some]
  rw [hX, Option.bind_some, hY, Option.map_some]

theorem forEach_inv_none {α : Type} {f : α → Mat ℝ → Option (Mat ℝ)} (I : Mat ℝ → Prop) {n : α}
    (hI : ∀ a s s', I s → f a s = some s' → I s') (hn : ∀ s, I s → f n s = none) :
    ∀ {l : List α}, n ∈ l → ∀ {s}, I s → forEach l f s = none := by
  intro l
  induction l with
  | nil => intro h; simp at h
  | cons a l ih =>
      intro h s hs
      rw [forEach, List.foldlM_cons]
      rcases List.mem_cons.1 h with rfl | h
      · rw [hn s hs]; rfl
      · cases e : f a s with
        | none => rfl
        | some s' => exact ih h (hI a s s' hs e)

/-- A file whose last line does not end with a newline is refused by an assertion: the matrix has one row fewer than the
file has lines. -/
theorem C59_newline_counterexample {fin : DataFile ℝ} (h : fin.newline = false) (hl : fin.lines ≠ [])
    (hc : fin.lines.headD [] ≠ []) (fout : Option (DataFile ℝ)) : loadData (some fin) fout = none := by
  have hpos : 0 < fin.lines.length := List.length_pos_iff.2 hl
  have hcpos : 0 < (fin.lines.headD []).length := List.length_pos_iff.2 hc
  rw [loadData]
  split
  · have e1 : countRows (some fin) = fin.lines.length - 1 := by simp [countRows, h]
    have e3 : countCols (some fin) = (fin.lines.headD []).length := rfl
    rw [e1, e3]
    by_cases h0 : 0 < fin.lines.length - 1
    · obtain ⟨z, hz, rz⟩ := Mat.new_spec (K := ℝ) h0 hcpos
      have key : readInto (some fin) (fin.lines.headD []).length z = none := by
        have hrz : z.rows = fin.lines.length - 1 := rz.rows
        refine forEach_inv_none (fun m : Mat ℝ => m.rows = fin.lines.length - 1)
          (n := (fin.lines.length - 1, 0)) ?_ ?_ (mem_pairs.2 ⟨by simp only; omega, hcpos⟩) hrz
        · intro ij m m' hm e
          rw [Mat.put?] at e
          split at e
          · cases e; exact hm
          · cases e
        · intro m hm
          rw [Mat.put?, if_neg]
          intro hx
          have := hx.1
          simp only [hm] at this
          omega
      rw [hz, Option.bind_some]
      cases Mat.new (K := ℝ) (countRows fout) (countCols fout) with
      | none => rfl
      | some Y => rw [Option.bind_some, key, Option.bind_none]
    · rw [Mat.new, if_neg (fun hx => h0 hx.1)]; rfl
  · rfl

/-! ## `GNMatrix` -/

section GNMatrix

variable {B : Backend ℝ} {llt : Mat ℝ → Mat ℝ → Option (Mat ℝ)} {fin fout : DataFile ℝ} {m : ℕ}

/-- `GNMatrix` runs to its end for every pair of tables of two columns in which the input names at least two different
points, and the values it prints are those of exactly `n` Gauss–Newton steps for the residuals
`y_i - (R(θ) x_i + t)`: no assumption about ranks, since two different points make the Jacobian regular. -/
theorem C59_rotation (hB : B.Sound Pads.none) (hK : B.KronSound) (hL : SolvesOn llt fun n A => (toMatrix n A).PosDef)
    (π : Sched) (h1 : fin.Table m 2) (h2 : fout.Table m 2) (hp : TwoPoints m fin.at) (n : ℕ) (θ tx ty : ℝ) :
    ∃ b₀ b, b₀ 1 = θ ∧ b₀ 2 = tx ∧ b₀ 3 = ty ∧
      GNSteps (m * 2) [1, 2, 3] (rotRes fin.at fout.at) (partials (rotRes fin.at fout.at)) n b₀ b ∧
      gnMatrixMain B llt π (some fin) (some fout) n θ tx ty = some (b 1, b 2, b 3) := by
  have hm : 0 < m := by obtain ⟨i, hi, -⟩ := hp; omega
  obtain ⟨X, Y, e, rX, rY⟩ := C59_load h1 h2 hm two_pos
  obtain ⟨buf', s', σ', e', hs, hv⟩ := Rot.solve (π := π) (θ := θ) (tx := tx) (ty := ty) hB hK hL rX rY hp n
  refine ⟨(rotStart θ tx ty).defs.base, σ'.defs.base, rfl, rfl, rfl, hs, ?_⟩
  have ed : setData X Y [0, 1] [2, 3] = some (Rot.data m X Y) := by
    rw [setData, if_pos ⟨by rw [rX.rows, rY.rows], by rw [rX.cols, rY.cols]⟩, rX.rows]; rfl
  simp only [gnMatrixMain, e, Option.bind_some, ed, e', Option.map_some]
  rw [hv 1 (by decide), hv 2 (by decide), hv 3 (by decide)]

/-- If every output point is the image of its input point under one rotation and translation `(φ, sx, sy)`, the error of
the angle after `n` iterations is the `n`-fold iterate of `e ↦ e - sin e` at the error of the starting value, and the error
of the translation is of second order in the error of the angle before the last iteration. -/
theorem C59_rotation_exact (hB : B.Sound Pads.none) (hK : B.KronSound)
    (hL : SolvesOn llt fun n A => (toMatrix n A).PosDef) (π : Sched) (h1 : fin.Table m 2) (h2 : fout.Table m 2)
    (hp : TwoPoints m fin.at) {φ sx sy : ℝ} (hmv : Moved m fin.at fout.at φ sx sy) (n : ℕ) (θ tx ty : ℝ) :
    ∃ a c d, gnMatrixMain B llt π (some fin) (some fout) (n + 1) θ tx ty = some (a, c, d) ∧
      a - φ = (fun e => e - Real.sin e)^[n + 1] (θ - φ) ∧
      ∃ a', a' - φ = (fun e => e - Real.sin e)^[n] (θ - φ) ∧
        c - sx = -(1 - Real.cos (a' - φ)) * (Real.cos a' * mean m fin.at 0 + Real.sin a' * mean m fin.at 1) ∧
        d - sy = -(1 - Real.cos (a' - φ)) * (-Real.sin a' * mean m fin.at 0 + Real.cos a' * mean m fin.at 1) := by
  obtain ⟨b₀, b, e1, e2, e3, hs, e⟩ := C59_rotation hB hK hL π h1 h2 hp (n + 1) θ tx ty
  refine ⟨b 1, b 2, b 3, e, by rw [← e1]; exact hmv.steps hp hs, ?_⟩
  cases hs with
  | @succ _ _ b' _ hs hlast =>
      refine ⟨b' 1, by rw [← e1]; exact hmv.steps hp hs, ?_⟩
      exact (hmv.step hp hlast).2

/-- Convergence: from a starting angle within a quarter turn of the true one the error of the angle shrinks at least by the
factor `1 - 2/π < 0.37` per iteration. -/
theorem C59_rotation_converges (hB : B.Sound Pads.none) (hK : B.KronSound)
    (hL : SolvesOn llt fun n A => (toMatrix n A).PosDef) (π : Sched) (h1 : fin.Table m 2) (h2 : fout.Table m 2)
    (hp : TwoPoints m fin.at) {φ sx sy : ℝ} (hmv : Moved m fin.at fout.at φ sx sy) (n : ℕ) {θ : ℝ} (tx ty : ℝ)
    (hθ : |θ - φ| ≤ Real.pi / 2) :
    ∃ a c d, gnMatrixMain B llt π (some fin) (some fout) n θ tx ty = some (a, c, d) ∧
      |a - φ| ≤ (1 - 2 / Real.pi) ^ n * |θ - φ| := by
  obtain ⟨b₀, b, e1, e2, e3, hs, e⟩ := C59_rotation hB hK hL π h1 h2 hp n θ tx ty
  refine ⟨b 1, b 2, b 3, e, ?_⟩
  rw [hmv.steps hp hs, e1]
  exact iterate_sub_sin n hθ

/-- Any data, for instance measured points.  There is an angle `φ` such that `(φ, fitX φ, fitY φ)` has the least sum of
squared distances of all rotations and translations; if the best fit that may also scale would scale by a factor `κ`
with `0 < κ < 2` (1 for exact data), then from every starting angle within a quarter turn of `φ` and every starting
translation the three values printed converge to that optimum, geometrically, with rate `fitRate κ < 1`. -/
theorem C59_rotation_fit (hB : B.Sound Pads.none) (hK : B.KronSound)
    (hL : SolvesOn llt fun n A => (toMatrix n A).PosDef) (π : Sched) (h1 : fin.Table m 2) (h2 : fout.Table m 2)
    (hp : TwoPoints m fin.at) :
    ∃ φ κ, 0 ≤ κ ∧
      (∀ b, b 1 = φ → b 2 = fitX m fin.at fout.at φ → b 3 = fitY m fin.at fout.at φ →
        ∀ b', sumSq (m * 2) (rotRes fin.at fout.at) b ≤ sumSq (m * 2) (rotRes fin.at fout.at) b') ∧
      ((κ * spread m fin.at) ^ 2 = covSame m fin.at fout.at ^ 2 + covCross m fin.at fout.at ^ 2) ∧
      (0 < κ → κ < 2 → fitRate κ < 1 ∧ ∀ n θ tx ty, |θ - φ| ≤ Real.pi / 2 →
        ∃ a c d, gnMatrixMain B llt π (some fin) (some fout) (n + 1) θ tx ty = some (a, c, d) ∧
          |a - φ| ≤ fitRate κ ^ (n + 1) * |θ - φ| ∧
          |c - fitX m fin.at fout.at φ| ≤ 3 * fitRate κ ^ n * |θ - φ| * (|mean m fin.at 0| + |mean m fin.at 1|) ∧
          |d - fitY m fin.at fout.at φ| ≤ 3 * fitRate κ ^ n * |θ - φ| * (|mean m fin.at 0| + |mean m fin.at 1|)) := by
  obtain ⟨φ, κ, hb⟩ := exists_best hp fout.at
  refine ⟨φ, κ, hb.scale, fun b e1 e2 e3 b' => hb.least hp e1 e2 e3 b', ?_, fun k1 k2 => ⟨fitRate_lt k1 k2, ?_⟩⟩
  · rw [hb.same, hb.cross]
    linear_combination (-(κ * spread m fin.at) ^ 2) * Real.sin_sq_add_cos_sq φ
  · intro n θ tx ty h0
    obtain ⟨b₀, b, e1, e2, e3, hs, e⟩ := C59_rotation hB hK hL π h1 h2 hp (n + 1) θ tx ty
    rw [← e1] at h0 ⊢
    exact ⟨b 1, b 2, b 3, by rw [← e]; rw [e1], hb.converges hp k1 k2 hs h0⟩

end GNMatrix

namespace RotEx

/-- Two points. -/
noncomputable def fin : DataFile ℝ := ⟨[[0, 0], [1, 0]], true⟩

/-- The points turned by a quarter and moved by (3, 4). -/
noncomputable def fout : DataFile ℝ := ⟨[[3, 4], [3, 3]], true⟩

theorem tables : fin.Table 2 2 ∧ fout.Table 2 2 := ⟨⟨rfl, rfl, rfl⟩, ⟨rfl, rfl, rfl⟩⟩

theorem twoPoints : TwoPoints 2 fin.at :=
  ⟨0, by omega, 1, by omega, Or.inl (by simp [fin, DataFile.at])⟩

theorem moved : Moved 2 fin.at fout.at (Real.pi / 2) 3 4 := by
  intro i hi
  obtain rfl | rfl : i = 0 ∨ i = 1 := by omega
  · simp [fin, fout, DataFile.at]
  · simp [fin, fout, DataFile.at]; norm_num

/-- The hypotheses of the theorems of this file hold for these files. -/
example : ∃ llt : Mat ℝ → Mat ℝ → Option (Mat ℝ), ∀ n, ∃ a c d,
    gnMatrixMain (backend ⟨.eigen, false, .cpu⟩ .seq) llt .seq (some fin) (some fout) n 0.5142 20 (-20) = some (a, c, d) ∧
      |a - Real.pi / 2| ≤ (1 - 2 / Real.pi) ^ n * |0.5142 - Real.pi / 2| := by
  obtain ⟨llt, hL⟩ := exists_llt
  refine ⟨llt, fun n => C59_rotation_converges (backend_sound0 (show _ = _ from rfl) _)
    (backend_kronSound (show _ = _ from rfl) rfl _) hL _ tables.1 tables.2 twoPoints moved n 20 (-20) ?_⟩
  have := Real.two_le_pi
  rw [abs_le]
  constructor <;> norm_num <;> linarith

end RotEx

end CoolDiff
