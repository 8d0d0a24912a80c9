import Verif.Props.Kernels
import Verif.Props.MatReverse

/-!
# C44: derivatives of convolutions

The kernel of the forward derivative (`MatDervConvNaiveHandler`, the only one in every build), its
use in a program with other convolutions, and the reverse rule of `conv`.
-/

set_option linter.unusedSectionVars false

namespace CoolDiff
open Finset

variable {K : Type} [Field K] [DecidableEq K]

/-! ## The kernel -/

/-- One request to the convolution handlers: a convolution, or the derivative of a convolution with
respect to an `xr × xc` matrix, given the derivatives `dL`, `dR` of the two operands. -/
inductive ConvReq (K : Type)
  | eval (q : ConvCall K)
  | derv (q : ConvCall K) (xr xc : ℕ) (dL dR : Mat K)

namespace ConvReq

/-- A request the API accepts. -/
def Ok : ConvReq K → Prop
  | .eval q => q.Ok
  | .derv q xr xc dL dR => q.Ok ∧ 0 < xr ∧ 0 < xc ∧
      dL.WF ∧ dL.rows = q.L.rows * xr ∧ dL.cols = q.L.cols * xc ∧
      dR.WF ∧ dR.rows = q.R.rows * xr ∧ dR.cols = q.R.cols * xc

/-- The answer is right: the convolution; for a derivative, entry `(l*xr+i, k*xc+j)` is, by the product
rule, the derivative of entry `(l,k)` of the convolution with respect to element `(i,j)`, entry
`(p*xr+i, q*xc+j)` of `dL`, `dR` being that of entry `(p,q)` of the operand. -/
def Right : ConvReq K → Mat K → Prop
  | .eval q, M => q.Right M
  | .derv q xr xc dL dR, M =>
      M.rows = ((q.L.rows + 2 * q.px - q.R.rows) / q.sx + 1) * xr ∧
      M.cols = ((q.L.cols + 2 * q.py - q.R.cols) / q.sy + 1) * xc ∧
      ∀ l k i j, l < (q.L.rows + 2 * q.px - q.R.rows) / q.sx + 1 →
        k < (q.L.cols + 2 * q.py - q.R.cols) / q.sy + 1 → i < xr → j < xc →
        M.get? (l * xr + i) (k * xc + j) = some (∑ u ∈ range q.R.rows, ∑ v ∈ range q.R.cols,
          (padded q.px q.py q.L.rows q.L.cols q.L.val (l * q.sx + u) (k * q.sy + v) *
              dR.val (u * xr + i) (v * xc + j) +
            padded q.px q.py q.L.rows q.L.cols (fun p q => dL.val (p * xr + i) (q * xc + j))
                (l * q.sx + u) (k * q.sy + v) * q.R.val u v))

/-- Perform a request. -/
def answer (B : Backend K) (a : Slots K) : ConvReq K → Option (Slots K × Mat K)
  | .eval q => B.conv q.sx q.sy q.px q.py q.L q.R q.k a
  | .derv q xr xc dL dR => B.dervConv xr xc q.sx q.sy q.px q.py q.L dL q.R dR q.k a

/-- Perform requests one after the other. -/
def run (B : Backend K) : List (ConvReq K) → Slots K → Option (Slots K × List (Mat K))
  | [], a => some (a, [])
  | q :: qs, a => do
    let (a, M) ← q.answer B a
    let (a, Ms) ← run B qs a
    some (a, M :: Ms)

/-- The matrices a request pads (in the order: by the convolution handler; the operand and its
derivative by the derivative handler). -/
def padsE : ConvReq K → Set PadReq
  | .eval q => {q.pad}
  | .derv .. => ∅
def padsL : ConvReq K → Set PadReq
  | .eval _ => ∅
  | .derv q .. => {q.pad}
def padsD : ConvReq K → Set PadReq
  | .eval _ => ∅
  | .derv q xr xc .. => {⟨q.L.rows * xr, q.L.cols * xc, q.px * xr, q.py * xc⟩}

end ConvReq

/-- **C44, the forward kernel (partial).**  Starting from a new process, every sequence of convolutions
and convolution derivatives (with respect to matrices of any shapes) is answered right, provided any
two derivative requests that pad to the same number of elements, one of them really padding, pad the
same shape by the same amounts (for the operand and for its derivative; with the naive handler also
for the convolutions).  Convolutions and derivatives do not disturb each other.
Missing: other sequences, where the claim is false in every build (`C44_stale_counterexample`). -/
theorem C44_kernel_history_partial {g : Cfg} (hg : g.CPU) (π : Sched) (qs : List (ConvReq K))
    (hok : ∀ q ∈ qs, q.Ok)
    (hE : g.cpu = .eigen ∨ Compat {p | ∃ q ∈ qs, p ∈ q.padsE})
    (hL : Compat {p | ∃ q ∈ qs, p ∈ q.padsL}) (hD : Compat {p | ∃ q ∈ qs, p ∈ q.padsD}) :
    ∃ a Ms, ConvReq.run (backend g π) qs (fun _ => none) = some (a, Ms) ∧
      List.Forall₂ ConvReq.Right qs Ms := by
  set P : Pads := ⟨{p | ∃ q ∈ qs, p ∈ q.padsE}, {p | ∃ q ∈ qs, p ∈ q.padsD},
    {p | ∃ q ∈ qs, p ∈ q.padsL}⟩ with hP
  have B := backend_sound (K := K) (P := P) hg π hE
  have key : ∀ (l : List (ConvReq K)), (∀ q ∈ l, q ∈ qs) → ∀ a : Slots K, SlotsOk P a →
      ∃ a' Ms, ConvReq.run (backend g π) l a = some (a', Ms) ∧ List.Forall₂ ConvReq.Right l Ms := by
    intro l
    induction l with
    | nil => intro _ a _; exact ⟨a, [], rfl, .nil⟩
    | cons q l ih =>
      intro hl a ha
      have hq := hl q (by simp)
      have o := hok q hq
      have step : ∃ a1 M, q.answer (backend g π) a = some (a1, M) ∧ SlotsOk P a1 ∧ q.Right M := by
        cases q with
        | eval q => exact B.conv o.L.rep o.R.rep o.sx o.sy o.rows o.cols ⟨_, hq, rfl⟩ o.k ha
        | derv q xr xc dL dR =>
          obtain ⟨o, hxr, hxc, wL, rL, cL, wR, rR, cR⟩ := o
          have hlay : ∀ (M : Mat K) (r c : ℕ), M.WF → M.rows = r * xr → M.cols = c * xc →
              Rep M (r * xr) (c * xc)
                (lay xr xc fun p q i j => M.val (p * xr + i) (q * xc + j)) := by
            intro M r c w h1 h2
            have := w.rep
            rw [h1, h2] at this
            refine this.congr fun p q _ _ => ?_
            simp only [lay, Nat.div_add_mod']
          obtain ⟨a1, M, e1, s1, r1⟩ := B.dervConv hL hD o.L.rep o.R.rep hxr hxc
            (hlay _ _ _ wL rL cL) (hlay _ _ _ wR rR cR) o.sx o.sy o.rows o.cols ⟨_, hq, rfl⟩
            ⟨_, hq, rfl⟩ o.k ha
          refine ⟨a1, M, e1, s1, r1.rows, r1.cols, fun l k i j hl hk hi hj => ?_⟩
          rw [r1.elem _ _ (flat_lt hl hi) (flat_lt hk hj), lay_at _ hi hj]
          rfl
      obtain ⟨a1, M, e1, s1, r1⟩ := step
      obtain ⟨a2, Ms, e2, r2⟩ := ih (fun q hq => hl q (by simp [hq])) a1 s1
      exact ⟨a2, M :: Ms, by simp only [ConvReq.run, e1, e2, Option.bind_eq_bind, Option.bind_some],
        .cons r1 r2⟩
  exact key qs (fun _ h => h) _ (SlotsOk.fresh P)

/-- No padding at all: every sequence is answered right, in every build. -/
theorem C44_kernel_no_padding {g : Cfg} (hg : g.CPU) (π : Sched) (qs : List (ConvReq K))
    (hok : ∀ q ∈ qs, q.Ok)
    (hpad : ∀ q ∈ qs, match q with
      | .eval q => q.px = 0 ∧ q.py = 0
      | .derv q .. => q.px = 0 ∧ q.py = 0) :
    ∃ a Ms, ConvReq.run (backend g π) qs (fun _ => none) = some (a, Ms) ∧
      List.Forall₂ ConvReq.Right qs Ms := by
  refine C44_kernel_history_partial hg π qs hok (Or.inr ?_) ?_ ?_
  all_goals
    rintro p ⟨q, hq, hp⟩ _ _ hpr _
    have := hpad q hq
    cases q <;>
      simp only [ConvReq.padsE, ConvReq.padsL, ConvReq.padsD, Set.mem_singleton_iff,
        Set.mem_empty_iff_false] at hp <;>
      (subst hp; simp [PadReq.proper, ConvCall.pad, this.1, this.2] at hpr)

/-- **C44 over the reals.**  Let the operands of a convolution depend on a real parameter `u`, with
derivatives `A'`, `B'` at `t`.  The product rule entry of `ConvReq.Right` is the derivative of the
convolution's entry. -/
theorem C44_product_rule (sx sy px py r c kr kc : ℕ) (A B : ℝ → ℕ → ℕ → ℝ) (A' B' : ℕ → ℕ → ℝ) (t : ℝ)
    (hA : ∀ p q, p < r → q < c → HasDerivAt (fun u => A u p q) (A' p q) t)
    (hB : ∀ p q, p < kr → q < kc → HasDerivAt (fun u => B u p q) (B' p q) t) (l k : ℕ) :
    HasDerivAt (fun u => convSpec sx sy px py r c kr kc (A u) (B u) l k)
      (∑ u ∈ range kr, ∑ v ∈ range kc,
        (padded px py r c (A t) (l * sx + u) (k * sy + v) * B' u v +
          padded px py r c A' (l * sx + u) (k * sy + v) * B t u v)) t := by
  simp only [convSpec]
  refine HasDerivAt.fun_sum fun p hp => HasDerivAt.fun_sum fun q hq => ?_
  have hb := hB p q (mem_range.1 hp) (mem_range.1 hq)
  have ha : HasDerivAt (fun u => padded px py r c (A u) (l * sx + p) (k * sy + q))
      (padded px py r c A' (l * sx + p) (k * sy + q)) t := by
    simp only [padded]
    split
    · exact hA _ _ (by omega) (by omega)
    · exact hasDerivAt_const _ _
  exact (ha.mul hb).congr_deriv (by ring)

/-- The hypotheses are met by a derivative with padding between convolutions and a derivative of
another size. -/
example : ∃ qs : List (ConvReq ℚ), qs.length = 3 ∧ (∀ q ∈ qs, q.Ok) ∧
    Compat {p | ∃ q ∈ qs, p ∈ q.padsE} ∧ Compat {p | ∃ q ∈ qs, p ∈ q.padsL} ∧
    Compat {p | ∃ q ∈ qs, p ∈ q.padsD} := by
  refine ⟨[.derv ⟨1, 1, 0, 1, ⟨1, 2, [1, 2]⟩, ⟨1, 3, [1, 2, 3]⟩, 0⟩ 2 1 ⟨2, 2, [1, 0, 0, 1]⟩
      ⟨2, 3, [0, 0, 0, 0, 0, 0]⟩,
    .eval ⟨1, 1, 1, 1, ⟨1, 1, [7]⟩, ⟨1, 1, [1]⟩, 0⟩,
    .derv ⟨2, 1, 0, 0, ⟨1, 5, [1, 2, 3, 4, 5]⟩, ⟨1, 1, [1]⟩, 0⟩ 1 1 ⟨1, 5, [1, 0, 0, 0, 0]⟩
      ⟨1, 1, [0]⟩], rfl, ?_, ?_⟩
  · intro q hq
    simp only [List.mem_cons, List.not_mem_nil, or_false] at hq
    rcases hq with rfl | rfl | rfl
    · exact ⟨⟨⟨by decide, by decide, rfl⟩, ⟨by decide, by decide, rfl⟩, by decide, by decide,
        by decide, by decide, by decide⟩, by decide, by decide, ⟨by decide, by decide, rfl⟩, rfl, rfl,
        ⟨by decide, by decide, rfl⟩, rfl, rfl⟩
    · exact ⟨⟨by decide, by decide, rfl⟩, ⟨by decide, by decide, rfl⟩, by decide, by decide,
        by decide, by decide, by decide⟩
    · exact ⟨⟨⟨by decide, by decide, rfl⟩, ⟨by decide, by decide, rfl⟩, by decide, by decide,
        by decide, by decide, by decide⟩, by decide, by decide, ⟨by decide, by decide, rfl⟩, rfl, rfl,
        ⟨by decide, by decide, rfl⟩, rfl, rfl⟩
  · simp [Compat, ConvReq.padsE, ConvReq.padsL, ConvReq.padsD, ConvCall.pad, PadReq.proper,
      PadReq.size]

/-- **C44 fails with a kept pad buffer, in every build**: in a new process, the derivative of the
unpadded convolution of a `3 × 3` matrix of ones with a `1 × 1` matrix `W = [2]` with respect to `W`,
then the derivative of the convolution of the constant `[5]`, padded by one, with `W`.  The second
answer should be `5` in the middle and `0` around; it is `1` around. -/
theorem C44_stale_counterexample (g : Cfg) (hg : g.CPU) :
    (ConvReq.run (K := ℚ) (backend g Sched.seq)
      [.derv ⟨1, 1, 0, 0, ⟨3, 3, List.replicate 9 1⟩, ⟨1, 1, [2]⟩, 0⟩ 1 1
        ⟨3, 3, List.replicate 9 0⟩ ⟨1, 1, [1]⟩,
       .derv ⟨1, 1, 1, 1, ⟨1, 1, [5]⟩, ⟨1, 1, [2]⟩, 1⟩ 1 1 ⟨1, 1, [0]⟩ ⟨1, 1, [1]⟩]
      (fun _ => none)).map Prod.snd =
        some [⟨3, 3, List.replicate 9 1⟩, ⟨3, 3, [1, 1, 1, 1, 5, 1, 1, 1, 1]⟩] ∧
    ¬ConvReq.Right (K := ℚ)
      (.derv ⟨1, 1, 1, 1, ⟨1, 1, [5]⟩, ⟨1, 1, [2]⟩, 1⟩ 1 1 ⟨1, 1, [0]⟩ ⟨1, 1, [1]⟩)
      ⟨3, 3, [1, 1, 1, 1, 5, 1, 1, 1, 1]⟩ := by
  constructor
  · obtain ⟨cpu, cb, sp⟩ := g
    obtain rfl : sp = .cpu := hg
    cases cpu <;> cases cb <;> decide +kernel
  · rintro ⟨_, _, h⟩
    have := h 0 0 0 0 (by decide) (by decide) (by decide) (by decide)
    simp [padded, Mat.get?] at this

/-! ## Programs -/

/-- A program none of whose convolutions pads: `PadsOk` holds. -/
theorem PadsOk.of_unpadded {E : MEnv K} {X : ℕ} (h : ∀ q ∈ E.pads, q.px = 0 ∧ q.py = 0)
    (h' : ∀ q ∈ E.dpads, q.px = 0 ∧ q.py = 0)
    (hm : ∀ q ∈ E.pads, q.scale (E.rows X) (E.cols X) ∈ E.dpads) : PadsOk E X := by
  refine ⟨fun q hq _ _ hp _ => ?_, fun q hq _ _ hp _ => ?_, hm⟩
  · simp [PadReq.proper, h q hq] at hp
  · simp [PadReq.proper, h' q hq] at hp

namespace CExample

/-- `X` (object 0) and `W` (8): 1×3 variables; identities 1×1 (1) and 3×3 (6); `K` (4): the numbers
`[1,2,1]`; `B` (5): 3×1 numbers; `F = conv(X, W)` (2, 1×3), `Y = conv(X, K) * B` (3, 1×1) and
`H = conv(K, W) * B` (7, 1×1), with strides 1 and column padding 1. -/
def E (K : Type) [Field K] : MEnv K where
  kind := fun o => match o with
    | 0 => .var
    | 8 => .var
    | 2 => .form 20 (.bin 21 (.conv 1 1 0 1) (.obj 0) (.obj 8)) 6
    | 3 => .form 30 (.bin 31 .mul (.bin 32 (.conv 1 1 0 1) (.obj 0) (.obj 4)) (.obj 5)) 1
    | 7 => .form 70 (.bin 71 .mul (.bin 72 (.conv 1 1 0 1) (.obj 4) (.obj 8)) (.obj 5)) 1
    | _ => .num
  rows := fun o => if o = 5 ∨ o = 6 then 3 else 1
  cols := fun o => if o = 5 ∨ o = 1 ∨ o = 3 ∨ o = 7 then 1 else 3
  el := fun o i j => if o = 0 then j else if o = 8 then 3 + j else if o = 4 then 10 + j else
    if o = 5 then 20 + i else if o = 6 then (if i = j then 30 else 31) else 30
  vid := id
  pads := {⟨1, 3, 0, 1⟩}
  dpads := {⟨1, 9, 0, 3⟩}

def rank : ℕ → ℕ | 2 => 1 | 3 => 1 | 7 => 1 | _ => 0

theorem kinds {K : Type} [Field K] {o n e eye} (hk : (E K).kind o = .form n e eye) :
    (o = 2 ∧ n = 20 ∧ e = .bin 21 (.conv 1 1 0 1) (.obj 0) (.obj 8) ∧ eye = 6) ∨
    (o = 3 ∧ n = 30 ∧ e = .bin 31 .mul (.bin 32 (.conv 1 1 0 1) (.obj 0) (.obj 4)) (.obj 5) ∧
      eye = 1) ∨
    (o = 7 ∧ n = 70 ∧ e = .bin 71 .mul (.bin 72 (.conv 1 1 0 1) (.obj 4) (.obj 8)) (.obj 5) ∧
      eye = 1) := by
  match o with
  | 0 => simp [E] at hk
  | 1 => simp [E] at hk
  | 2 =>
    simp only [E, MKind.form.injEq] at hk
    exact Or.inl ⟨rfl, hk.1.symm, hk.2.1.symm, hk.2.2.symm⟩
  | 3 =>
    simp only [E, MKind.form.injEq] at hk
    exact Or.inr (Or.inl ⟨rfl, hk.1.symm, hk.2.1.symm, hk.2.2.symm⟩)
  | 4 => simp [E] at hk
  | 5 => simp [E] at hk
  | 6 => simp [E] at hk
  | 7 =>
    simp only [E, MKind.form.injEq] at hk
    exact Or.inr (Or.inr ⟨rfl, hk.1.symm, hk.2.1.symm, hk.2.2.symm⟩)
  | 8 => simp [E] at hk
  | (k + 9) => simp [E] at hk

theorem vars {K : Type} [Field K] {o} (hk : (E K).kind o = .var) : o = 0 ∨ o = 8 := by
  match o with
  | 0 => simp
  | 1 => simp [E] at hk
  | 2 => simp [E] at hk
  | 3 => simp [E] at hk
  | 4 => simp [E] at hk
  | 5 => simp [E] at hk
  | 6 => simp [E] at hk
  | 7 => simp [E] at hk
  | 8 => simp
  | (k + 9) => simp [E] at hk

theorem noExp {K : Type} [Field K] (o : ℕ) : (E K).kind o ≠ .exp := by
  match o with
  | 0 => simp [E]
  | 1 => simp [E]
  | 2 => simp [E]
  | 3 => simp [E]
  | 4 => simp [E]
  | 5 => simp [E]
  | 6 => simp [E]
  | 7 => simp [E]
  | 8 => simp [E]
  | (k + 9) => simp [E]

theorem wf (K : Type) [Field K] : (E K).WF rank := by
  refine ⟨fun o => ?_, fun o => ?_, ?_⟩
  · simp only [E]; split <;> omega
  · simp only [E]; split <;> omega
  · intro o n e eye hk
    rcases kinds hk with ⟨rfl, rfl, rfl, rfl⟩ | ⟨rfl, rfl, rfl, rfl⟩ | ⟨rfl, rfl, rfl, rfl⟩
    · refine ⟨rfl, by simp [MNode.dims, MBin.odims, convDim, E], by simp [MNode.dims, MBin.odims, convDim, E], ?_,
        by simp [MNode.dims, MBin.odims, convDim, E], by simp [MNode.dims, MBin.odims, convDim, E], ?_⟩
      · simp [DimOk, MNode.dims, MBin.dimOk, MBin.padOk, E]
      · intro q hq
        simp only [MEnv.item, MNode.objs, List.mem_append, List.mem_singleton] at hq
        rcases hq with (rfl | rfl) | rfl <;> decide
    · refine ⟨rfl, by simp [MNode.dims, MBin.odims, E], by simp [MNode.dims, MBin.odims, E], ?_,
        by simp [MNode.dims, MBin.odims, convDim, E], by simp [MNode.dims, MBin.odims, E], ?_⟩
      · simp [DimOk, MNode.dims, MBin.dimOk, MBin.odims, MBin.padOk, convDim, E]
      · intro q hq
        simp only [MEnv.item, MNode.objs, List.mem_append, List.mem_singleton] at hq
        rcases hq with ((rfl | rfl) | rfl) | rfl <;> decide
    · refine ⟨rfl, by simp [MNode.dims, MBin.odims, E], by simp [MNode.dims, MBin.odims, E], ?_,
        by simp [MNode.dims, MBin.odims, convDim, E], by simp [MNode.dims, MBin.odims, E], ?_⟩
      · simp [DimOk, MNode.dims, MBin.dimOk, MBin.odims, MBin.padOk, convDim, E]
      · intro q hq
        simp only [MEnv.item, MNode.objs, List.mem_append, List.mem_singleton] at hq
        rcases hq with ((rfl | rfl) | rfl) | rfl <;> decide

/-- `X = [u,2,3]`, `W = [5,6,7]`, `K = [1,2,1]`, `B = [1,4,2]`. -/
def sv {K : Type} [Field K] (u : K) (a : ℕ) : K :=
  match a with
  | 0 => u | 1 => 2 | 2 => 3 | 3 => 5 | 4 => 6 | 5 => 7 | 10 => 1 | 11 => 2 | 12 => 1
  | 20 => 1 | 21 => 4 | 22 => 2 | 30 => 1 | _ => 0

def der {K : Type} [Field K] (a v : ℕ) : K := if a = v ∧ a < 6 then 1 else 0

theorem eyes {K : Type} [Field K] (u : K) : EyesOk (E K) (sv u) := by
  intro o n e eye hk i j hi hj
  rcases kinds hk with ⟨_, _, _, rfl⟩ | ⟨_, _, _, rfl⟩ | ⟨_, _, _, rfl⟩
  · by_cases h : i = j <;> simp [E, sv, h]
  · have h1 : i < 1 := hi
    have h2 : j < 1 := hj
    obtain rfl : i = 0 := by omega
    obtain rfl : j = 0 := by omega
    simp [E, sv]
  · have h1 : i < 1 := hi
    have h2 : j < 1 := hj
    obtain rfl : i = 0 := by omega
    obtain rfl : j = 0 := by omega
    simp [E, sv]

noncomputable def ctx (K : Type) [Field K] [DecidableEq K] : MCtx K :=
  ⟨backend ⟨.eigen, false, .cpu⟩ Sched.seq, Sched.seq, E K, ⟨sv 1, der⟩⟩

theorem padsOk (K : Type) [Field K] : PadsOk (E K) 0 := by
  refine ⟨?_, ?_, ?_⟩
  · intro q hq q' hq' _ _; rw [Set.mem_singleton_iff.1 hq, Set.mem_singleton_iff.1 hq']
  · intro q hq q' hq' _ _; rw [Set.mem_singleton_iff.1 hq, Set.mem_singleton_iff.1 hq']
  · intro q hq; rw [Set.mem_singleton_iff.1 hq]; simp [PadReq.scale, E]

theorem queryOk (K : Type) [Field K] [DecidableEq K] (o : ℕ) : QueryOk (ctx K) rank True o := by
  have hg : Cfg.CPU ⟨.eigen, false, .cpu⟩ := rfl
  refine ⟨wf K, backend_sound hg _ (Or.inl rfl), eyes 1,
    ⟨fun _ _ _ _ _ _ _ => backend_invSound hg rfl _, ?_⟩⟩
  intro p _ n e eye hk
  rcases kinds hk with ⟨_, _, rfl, _⟩ | ⟨_, _, rfl, _⟩ | ⟨_, _, rfl, _⟩
  · exact ⟨trivial, trivial⟩
  · exact ⟨⟨trivial, trivial⟩, trivial⟩
  · exact ⟨⟨trivial, trivial⟩, trivial⟩

theorem varsOk (K : Type) [Field K] : VarsApart (E K) := by
  intro o p ho hp l k i j hl hk hi hj h
  rcases vars ho with rfl | rfl <;> rcases vars hp with rfl | rfl <;>
    simp [E] at hl hk hi hj h ⊢ <;> omega

/-- The hypotheses of `C29_forward_real_partial` are met by `F = conv(X, W)` with padding, `X(0,0)`
moving. -/
example : ∃ s' m, matDevalF (ctx ℝ) 2 0 (.obj 2) MSt.fresh = some (s', m) ∧ m.rows = 1 * 1 ∧
      m.cols = 3 * 3 ∧ ∀ l k, l < 1 → k < 3 → ∃ d, m.get? (l * 1 + 0) (k * 3 + 0) = some d ∧
          HasDerivAt (fun u => valOf (E ℝ) (sv u) rank 2 l k) d 1 := by
  refine C29_forward_real_partial (E := E ℝ) (rank := rank) MHist.fresh ⟨.eigen, false, .cpu⟩ rfl rfl
    Sched.seq sv der 1 (queryOk ℝ 2) (padsOk ℝ) (varsOk ℝ).ok rfl (by decide)
    (Or.inr fun _ _ h => h) (i := 0) (j := 0) (by decide) (by decide) ?_ ?_ ?_ eyes ?_
  · intro a
    by_cases h0 : a = 0
    · subst h0; simpa [sv, der, E] using hasDerivAt_id' (1 : ℝ)
    · have hc : (fun u : ℝ => sv u a) = fun _ => sv 0 a := by
        funext u
        unfold sv
        split <;> simp_all
      rw [hc]
      simpa [der, E, h0] using hasDerivAt_const (1 : ℝ) (sv 0 a)
  · intro o ho l k _ _
    have h0 : o ≠ 0 := by rintro rfl; rcases ho with h | h <;> simp [E] at h
    simp only [E, h0, if_false, der, id]
    rw [if_neg]
    rintro ⟨h, _⟩
    simp only [if_true] at h
    have h8 : o ≠ 8 := by rintro rfl; rcases ho with h | h <;> simp [E] at h
    rw [if_neg h8] at h
    split_ifs at h <;> omega
  · intro o ho l k hl hk
    have h2 : k < 3 := by
      rcases vars ho with rfl | rfl <;> simpa [E] using hk
    rcases vars ho with rfl | rfl
    · simp only [der, E, if_true, id]
      by_cases h : k = 0
      · rw [if_pos ⟨h, by omega⟩, if_pos h]
      · rw [if_neg (fun hh => h hh.1), if_neg h]
    · simp [der, E]
  · intro p n e eye _ hk
    rcases kinds hk with ⟨_, _, rfl, _⟩ | ⟨_, _, rfl, _⟩ | ⟨_, _, rfl, _⟩
    · exact ⟨trivial, trivial⟩
    · exact ⟨⟨trivial, trivial⟩, trivial⟩
    · exact ⟨⟨trivial, trivial⟩, trivial⟩

theorem reach {o q : ℕ} (h : MReach (E ℚ) o q) (ho : o = 3 ∨ o = 7) :
    q = o ∨ q = 0 ∨ q = 4 ∨ q = 5 ∨ q = 1 ∨ q = 8 := by
  induction h with
  | refl => simp
  | step _ hk hq ih =>
    rcases kinds hk with ⟨rfl, rfl, rfl, rfl⟩ | ⟨rfl, rfl, rfl, rfl⟩ | ⟨rfl, rfl, rfl, rfl⟩
    · omega
    · simp [MEnv.item, MNode.objs] at hq ⊢; omega
    · simp [MEnv.item, MNode.objs] at hq ⊢; omega

theorem padsOk8 (K : Type) [Field K] : PadsOk (E K) 8 := by
  refine ⟨(padsOk K).q, (padsOk K).d, ?_⟩
  intro q hq; rw [Set.mem_singleton_iff.1 hq]; simp [PadReq.scale, E]

theorem revQueryOk {o X : ℕ} (hoX : o = 3 ∧ X = 0 ∨ o = 7 ∧ X = 8) :
    RevQueryOk (ctx ℚ) rank o X := by
  have ho : o = 3 ∨ o = 7 := by omega
  refine ⟨queryOk ℚ o, ?_, ?_, varsOk ℚ, ?_, ⟨?_, ?_⟩, ?_, ?_, ?_⟩
  · rcases ho with rfl | rfl <;> exact ⟨_, _, _, rfl⟩
  · rintro q hr ⟨n, e, eye, hk⟩
    rcases kinds hk with ⟨rfl, _⟩ | ⟨rfl, _⟩ | ⟨rfl, _⟩
    · have := reach hr ho; omega
    · exact ⟨rfl, rfl⟩
    · exact ⟨rfl, rfl⟩
  · rcases hoX with ⟨_, rfl⟩ | ⟨_, rfl⟩ <;> rfl
  · intro q _ n e eye hk
    rcases kinds hk with ⟨rfl, rfl, rfl, rfl⟩ | ⟨rfl, rfl, rfl, rfl⟩ | ⟨rfl, rfl, rfl, rfl⟩ <;>
      simp [MEnv.item, MNode.nums]
  · intro q _ p _ n e eye n' e' eye' hk hk' m hm hm'
    rcases kinds hk with ⟨rfl, rfl, rfl, rfl⟩ | ⟨rfl, rfl, rfl, rfl⟩ | ⟨rfl, rfl, rfl, rfl⟩ <;>
      rcases kinds hk' with ⟨rfl, rfl, rfl, rfl⟩ | ⟨rfl, rfl, rfl, rfl⟩ | ⟨rfl, rfl, rfl, rfl⟩ <;>
      simp [MEnv.item, MNode.nums] at hm hm' ⊢ <;> omega
  · intro q _ hk; exact absurd hk (noExp q)
  · intro q n e eye _ hk
    rcases kinds hk with ⟨rfl, rfl, rfl, rfl⟩ | ⟨rfl, rfl, rfl, rfl⟩ | ⟨rfl, rfl, rfl, rfl⟩ <;>
      simp [CoeffConst]
  · intro q n e eye hr hk
    rcases kinds hk with ⟨rfl, _⟩ | ⟨rfl, rfl, rfl, rfl⟩ | ⟨rfl, rfl, rfl, rfl⟩
    · have := reach hr ho; omega
    · refine ⟨⟨trivial, trivial, rfl, rfl, rfl, rfl, Or.inr ?_⟩, trivial, trivial⟩
      intro u v hu hv
      obtain rfl : u = 0 := by omega
      have h3 : v = 0 ∨ v = 1 ∨ v = 2 := by omega
      rcases h3 with rfl | rfl | rfl <;> simp [den, MVal, valOf, valO, rank, E, ctx, sv]
    · refine ⟨⟨trivial, trivial, rfl, rfl, rfl, rfl, Or.inl ?_⟩, trivial, trivial⟩
      intro l k i j hl hk' hi hj
      exact (derOf_solves (E ℚ) (sv 1) ((ctx ℚ).sd X) (MVal (ctx ℚ) rank) X (wf ℚ)
        Set.univ).num 4 trivial (Or.inl rfl) l k i j hl hk'
        hi hj

/-- The hypotheses of `C30_reverse_eq_forward_partial` are met by `Y = conv(X, [1,2,1]) * B`. -/
example : ∃ s' m s'' m', matPreComp (ctx ℚ) 3 3 MSt.fresh = some s' ∧
      matDevalR (E ℚ) 3 0 s' = some m ∧
      matDevalF (ctx ℚ) 3 0 (.obj 3) MSt.fresh = some (s'', m') ∧ m.rows = m'.rows ∧
      m.cols = m'.cols ∧ ∀ i j, i < m.rows → j < m.cols → m.get? i j = m'.get? i j :=
  C30_reverse_eq_forward_partial (E := E ℚ) (rank := rank) MHist.fresh (ctx ℚ) rfl
    (backend_kronSound (g := ⟨.eigen, false, .cpu⟩) rfl rfl _) (padsOk ℚ)
    (revQueryOk (Or.inl ⟨rfl, rfl⟩)) (by decide) (Or.inr fun _ _ h => h)
    (MReach.refl.step (n := 30) rfl (by simp [MEnv.item, MNode.objs]))

/-- The answers themselves: the transposed convolution of `B`. -/
example : ((matPreComp (ctx ℚ) 3 3 MSt.fresh).bind fun s =>
      (matDevalR (E ℚ) 3 0 s).map Mat.data) = some [6, 11, 8] ∧
    (matDevalF (ctx ℚ) 3 0 (.obj 3) MSt.fresh).map (fun p => p.2.data) = some [6, 11, 8] := by
  decide +kernel

/-- The hypotheses of `C30_reverse_eq_forward_partial` are met by the derivative of
`H = conv(K, W) * B` with respect to the kernel `W = [5,6,7]`, which is not symmetric. -/
example : ∃ s' m s'' m', matPreComp (ctx ℚ) 3 7 MSt.fresh = some s' ∧
      matDevalR (E ℚ) 7 8 s' = some m ∧
      matDevalF (ctx ℚ) 3 8 (.obj 7) MSt.fresh = some (s'', m') ∧ m.rows = m'.rows ∧
      m.cols = m'.cols ∧ ∀ i j, i < m.rows → j < m.cols → m.get? i j = m'.get? i j :=
  C30_reverse_eq_forward_partial (E := E ℚ) (rank := rank) MHist.fresh (ctx ℚ) rfl
    (backend_kronSound (g := ⟨.eigen, false, .cpu⟩) rfl rfl _) (padsOk8 ℚ)
    (revQueryOk (Or.inr ⟨rfl, rfl⟩)) (by decide) (Or.inr fun _ _ h => h)
    (MReach.refl.step (n := 70) rfl (by simp [MEnv.item, MNode.objs]))

end CExample

/-! ## Where the reverse rule fails -/

namespace CBad

/-- Variables `X` (object 0, 1×3), `Z` (10, 1×4), `W` (13, 1×2), `V` (16, 1×5); identity 1×1 (1);
numbers `K = [1,2,3]` (4), `H = [1,1]` (11), `N = [1,2,3,4]` (18), `B = [1,4,2]ᵀ` (5),
`J = [1,1]ᵀ` (15); formulas `Y = conv(X, K) * B` with column padding 1 (3), `S = conv(Z, H) * B` (12),
`T = conv(N, W) * J` with column stride 2 (14), `U = conv(V, H) * J` with column stride 2 (17). -/
def E : MEnv ℚ where
  kind := fun o => match o with
    | 0 => .var
    | 10 => .var
    | 13 => .var
    | 16 => .var
    | 3 => .form 30 (.bin 31 .mul (.bin 32 (.conv 1 1 0 1) (.obj 0) (.obj 4)) (.obj 5)) 1
    | 12 => .form 120 (.bin 121 .mul (.bin 122 (.conv 1 1 0 0) (.obj 10) (.obj 11)) (.obj 5)) 1
    | 14 => .form 140 (.bin 141 .mul (.bin 142 (.conv 1 2 0 0) (.obj 18) (.obj 13)) (.obj 15)) 1
    | 17 => .form 170 (.bin 171 .mul (.bin 172 (.conv 1 2 0 0) (.obj 16) (.obj 11)) (.obj 15)) 1
    | _ => .num
  rows := fun o => match o with | 5 => 3 | 15 => 2 | _ => 1
  cols := fun o => match o with
    | 0 => 3 | 4 => 3 | 10 => 4 | 18 => 4 | 11 => 2 | 13 => 2 | 16 => 5 | _ => 1
  el := fun o i j => match o with
    | 0 => j | 10 => 10 + j | 13 => 20 + j | 16 => 30 + j | 4 => 40 + j | 18 => 45 + j
    | 5 => 50 + i | _ => 60
  vid := id

/-- `X = [1,2,3]`, `Z = [1,2,3,4]`, `W = [5,6]`, `V = [1,2,3,4,5]`. -/
def sc : Scal ℚ :=
  ⟨fun a => match a with
     | 0 => 1 | 1 => 2 | 2 => 3 | 10 => 1 | 11 => 2 | 12 => 3 | 13 => 4 | 20 => 5 | 21 => 6
     | 30 => 1 | 31 => 2 | 32 => 3 | 33 => 4 | 34 => 5 | 40 => 1 | 41 => 2 | 42 => 3
     | 45 => 1 | 46 => 2 | 47 => 3 | 48 => 4 | 50 => 1 | 51 => 4 | 52 => 2 | 60 => 1 | _ => 0,
   fun a v => if a = v then 1 else 0⟩

/-- The vector-library build. -/
noncomputable def ctx : MCtx ℚ := ⟨backend ⟨.eigen, false, .cpu⟩ Sched.seq, Sched.seq, E, sc⟩

/-- **C44 fails in reverse for a kernel that is not symmetric**: `Y = conv(X, [1,2,3]) * B` with padding
that keeps the shape.  `DevalF(Y, X)` is the convolution of `B` with the rotated kernel,
`DevalR(Y, X)` that with the kernel itself. -/
theorem C44_asymmetric_kernel_counterexample :
    (matDevalF ctx 2 0 (.obj 3) MSt.fresh).map (fun p => p.2.data) = some [6, 13, 16] ∧
    ((matPreComp ctx 2 3 MSt.fresh).bind fun s => (matDevalR E 3 0 s).map Mat.data)
      = some [14, 15, 8] := by decide +kernel

/-- **C44 fails in reverse without padding**: `DevalR(S, Z)` is 1×2, but `Z` is 1×4. -/
theorem C44_reverse_shape_counterexample :
    (matDevalF ctx 2 10 (.obj 12) MSt.fresh).map (fun p => (p.2.rows, p.2.cols, p.2.data))
      = some (1, 4, [1, 5, 6, 2]) ∧
    ((matPreComp ctx 2 12 MSt.fresh).bind fun s =>
      (matDevalR E 12 10 s).map fun m => (m.rows, m.cols, m.data)) = some (1, 2, [5, 6]) := by
  decide +kernel

/-- **C44 fails in reverse for the kernel with a stride**: `T = conv(N, W) * J` with column stride 2;
`DevalF(T, W) = [4, 6]`, `DevalR(T, W) = [3, 7]`. -/
theorem C44_stride_counterexample :
    (matDevalF ctx 2 13 (.obj 14) MSt.fresh).map (fun p => p.2.data) = some [4, 6] ∧
    ((matPreComp ctx 2 14 MSt.fresh).bind fun s => (matDevalR E 14 13 s).map Mat.data)
      = some [3, 7] := by decide +kernel

/-- **C44: `PreComp` aborts** when a stride leaves columns of the input unused: the pad computed for the
kernel's derivative is negative.  `DevalF` works. -/
theorem C44_precomp_aborts_counterexample :
    (matDevalF ctx 2 16 (.obj 17) MSt.fresh).map (fun p => p.2.data) = some [1, 1, 1, 1, 0] ∧
    (matPreComp ctx 2 17 MSt.fresh).isNone := by decide +kernel

/-- `A` (object 0): 3×3 ones; `P` (1) and `W` (2): 1×1 variables; `C = [5]` (3); identities 3×3 (4, 5);
`G = conv(A, P)` (6, no padding), `F = conv(C, W)` (7, padding 1).  `F` and `G` have no part in common. -/
def E2 : MEnv ℚ where
  kind := fun o => match o with
    | 1 => .var
    | 2 => .var
    | 6 => .form 60 (.bin 61 (.conv 1 1 0 0) (.obj 0) (.obj 1)) 4
    | 7 => .form 70 (.bin 71 (.conv 1 1 1 1) (.obj 3) (.obj 2)) 5
    | _ => .num
  rows := fun o => match o with | 1 => 1 | 2 => 1 | 3 => 1 | _ => 3
  cols := fun o => match o with | 1 => 1 | 2 => 1 | 3 => 1 | _ => 3
  el := fun o i j => match o with | 1 => 1 | 2 => 2 | 3 => 3 | 0 => 4 | _ => if i = j then 4 else 0
  vid := id

/-- Any CPU build. -/
noncomputable def ctx2 (g : Cfg) : MCtx ℚ :=
  ⟨backend g Sched.seq, Sched.seq, E2,
    ⟨fun a => match a with | 1 => 2 | 2 => 2 | 3 => 5 | 4 => 1 | _ => 0,
     fun a v => if a = v then 1 else 0⟩⟩

/-- **C44 and C29 fail after an unrelated derivative** (so `PadsOk` is needed): in every CPU build,
`DevalF(F, W)` in a new process has the border zero, as it should (`F` is `0` there for every `W`);
after `DevalF(G, P)`, which shares nothing with `F`, it has the border `1`. -/
theorem C44_unrelated_query_counterexample (g : Cfg) (hg : g.CPU) :
    (matDevalF (ctx2 g) 2 2 (.obj 7) MSt.fresh).map (fun p => p.2.data)
      = some [0, 0, 0, 0, 5, 0, 0, 0, 0] ∧
    (do let (s, _) ← matDevalF (ctx2 g) 2 1 (.obj 6) MSt.fresh
        let (_, m) ← matDevalF (ctx2 g) 2 2 (.obj 7) s
        some m.data) = some [1, 1, 1, 1, 5, 1, 1, 1, 1] := by
  obtain ⟨cpu, cb, sp⟩ := g
  obtain rfl : sp = .cpu := hg
  cases cpu <;> cases cb <;> decide +kernel

end CBad

end CoolDiff
