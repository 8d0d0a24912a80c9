import Verif.Matrix.Locality
import Verif.Matrix.BuildProof
import Verif.Props.MatBuild

/-!
# C62 for matrices: A query reads and writes only what its formula reaches

The same statements as in `Props/Locality.lean`, for the queries of `CommonMatFunctions.hpp` on named matrices: the answers
and everything a query leaves behind are determined by the matrices and operator nodes that the definition reaches, and
nothing else is changed (except the buffers that all convolutions of the process share).
-/

set_option linter.unusedSectionVars false

namespace CoolDiff

variable {K : Type} [Field K] [DecidableEq K]

/-- Operator node `n` belongs to the formula of `y` or to one that it reaches.  Specification. -/
def MReachN (E : MEnv K) (y n : ℕ) : Prop :=
  ∃ p k e eye, MReach E y p ∧ E.kind p = .form k e eye ∧ n ∈ (MEnv.item k e eye).nums

/-- The programs `E` and `E'` define `y`, and every matrix that the definition of `y` reaches, in the same way.
Specification. -/
structure SameProg (E E' : MEnv K) (y : ℕ) : Prop where
  kind : ∀ o, MReach E y o → E.kind o = E'.kind o
  rows : ∀ o, MReach E y o → E.rows o = E'.rows o
  cols : ∀ o, MReach E y o → E.cols o = E'.cols o
  el : ∀ o, MReach E y o → E.el o = E'.el o
  vid : E.vid = E'.vid

/-- The memory contents `s` and `s'` agree on `y`, on every matrix and operator node that the definition of `y` reaches, and
on the buffers that all convolutions share.  Specification. -/
structure SameMem (E : MEnv K) (y : ℕ) (s s' : MSt K) : Prop where
  obj : ∀ o, MReach E y o → s.obj o = s'.obj o
  slot : ∀ n, MReachN E y n → s.slot n = s'.slot n
  shared : ∀ n k, 20 ≤ k → s.slot n k = s'.slot n k

/-- `t` is `s` with changes only in matrices and operator nodes that `y` reaches, and in the buffers that all convolutions
share.  Specification. -/
structure MUntouched (E : MEnv K) (y : ℕ) (s t : MSt K) : Prop where
  obj : ∀ o, ¬MReach E y o → t.obj o = s.obj o
  slot : ∀ n, ¬MReachN E y n → ∀ k < 20, t.slot n k = s.slot n k

/-- The queries of the matrix API on a named matrix. -/
inductive MQuery
  | eval (y : ℕ)
  | devalF (y X : ℕ)
  | preComp (y : ℕ)
  | devalR (y X : ℕ)

/-- The matrix a query is about. -/
def MQuery.on : MQuery → ℕ
  | .eval y => y
  | .devalF y _ => y
  | .preComp y => y
  | .devalR y _ => y

/-- The matrix a forward derivative is taken with respect to: its dimensions and elements are read.  (`DevalR` reads the
cache of `y` only.) -/
def MQuery.wrt : MQuery → Option ℕ
  | .devalF _ X => some X
  | _ => none

/-- The answer of a query (`none` for `PreComp`) and the state after it; no result if it does not return.
include/Matrix/CommonMatFunctions.hpp:43-116. -/
def MQuery.run (c : MCtx K) (f : ℕ) : MQuery → MSt K → Option (Option (Mat K) × MSt K)
  | .eval y, s => (matEval c f (.obj y) s).bind fun r => some (some r.2, r.1)
  | .devalF y X, s => (matDevalF c f X (.obj y) s).bind fun r => some (some r.2, r.1)
  | .preComp y, s => (matPreComp c f y s).bind fun t => some (none, t)
  | .devalR y X, s => (matDevalR c.E y X s).bind fun m => some (some m, s)

/-- The answers of several queries in a row. -/
def runMQueries (c : MCtx K) (f : ℕ) : List MQuery → MSt K → Option (List (Option (Mat K)) × MSt K)
  | [], s => some ([], s)
  | q :: qs, s => (q.run c f s).bind fun r => (runMQueries c f qs r.2).bind fun t => some (r.1 :: t.1, t.2)

section
variable {c : MCtx K} {E' : MEnv K} {y : ℕ} {s s' : MSt K}

/-- What `y` reaches. -/
def foot (E : MEnv K) (y : ℕ) : Foot := ⟨{o | MReach E y o}, {n | MReachN E y n}⟩

theorem SameProg.env {E E' : MEnv K} (h : SameProg E E' y) : SameEnv E E' (foot E y) :=
  ⟨fun _ ho _ _ _ hk => ⟨fun _ hp => MReach.step ho hk hp, fun _ hn => ⟨_, _, _, _, ho, hk, hn⟩⟩, h.kind, h.rows, h.cols, h.el,
    h.vid⟩

theorem SameMem.same {E : MEnv K} (h : SameMem E y s s') : MSame (foot E y) s s' := ⟨h.obj, h.slot, h.shared⟩
theorem MSame.mem {E : MEnv K} (h : MSame (foot E y) s s') : SameMem E y s s' := ⟨h.obj, h.slot, h.shared⟩
theorem MOff.untouched {E : MEnv K} {t : MSt K} (h : MOff (foot E y) s t) : MUntouched E y s t :=
  ⟨fun o ho => (h.obj o ho).symm, fun n hn k hk => (h.slot n hn k hk).symm⟩

theorem MQuery.lock (hE : SameProg c.E E' y) {f : ℕ} {q : MQuery} (hq : MReach c.E y q.on)
    (hX : ∀ X ∈ q.wrt, SameVar c.E E' X) (h : MSame (foot c.E y) s s') :
    MLk (foot c.E y) mkL s s' (q.run c f s) (q.run (c.withEnv E') f s') := by
  have ho : (foot c.E y).Has (.obj q.on : MNode K) := ⟨fun p hp => by
    simp only [MNode.objs, List.mem_singleton] at hp
    exact hp ▸ hq, fun n hn => by simp [MNode.nums] at hn⟩
  cases q with
  | eval z =>
      simp only [MQuery.run]
      exact (matEval_mlock hE.env f ho h).bind fun m t t' ht => .pure (mk := mkL) (some m) ht
  | devalF z X =>
      simp only [MQuery.run]
      exact (matDevalF_mlock hE.env (hX X rfl) f ho h).bind fun m t t' ht => .pure (mk := mkL) (some m) ht
  | preComp z =>
      simp only [MQuery.run]
      exact (matPreComp_mlock hE.env f hq h).bind fun _ t t' ht => .pure (mk := mkL) none ht
  | devalR z X =>
      have e : matDevalR (c.withEnv E').E z X s' = matDevalR c.E z X s := by
        simp only [matDevalR, MCtx.withEnv, h.obj z hq, hE.rows z hq, hE.cols z hq]
      simp only [MQuery.run, e]
      exact .bindP _ fun m => .pure (mk := mkL) (some m) h

theorem runM_lock (hE : SameProg c.E E' y) {f : ℕ} : ∀ (qs : List MQuery) {s s' : MSt K}, MSame (foot c.E y) s s' →
    (∀ q ∈ qs, MReach c.E y q.on) → (∀ q ∈ qs, ∀ X ∈ q.wrt, SameVar c.E E' X) →
    MLk (foot c.E y) mkL s s' (runMQueries c f qs s) (runMQueries (c.withEnv E') f qs s')
  | [], _, _, h, _, _ => .pure (mk := mkL) [] h
  | q :: qs, _, _, h, hq, hX =>
      (MQuery.lock hE (hq q (by simp)) (hX q (by simp)) h).bind fun a t t' ht =>
        (runM_lock hE qs ht (fun r hr => hq r (by simp [hr])) fun r hr => hX r (by simp [hr])).bind fun as u u' hu =>
          .pure (mk := mkL) (a :: as) hu

/-- **C62 for matrices.**  Take two programs that define `y` and everything its definition reaches in the same way, and two
states that agree there.  Then any sequence of queries on `y` and on matrices it reaches either returns in both, with the
same answers, or in neither; afterwards the states still agree there, and each run changed only what `y` reaches. -/
theorem C62_matrix_same_answers (hE : SameProg c.E E' y) (hs : SameMem c.E y s s') (f : ℕ) (qs : List MQuery)
    (hq : ∀ q ∈ qs, MReach c.E y q.on) (hX : ∀ q ∈ qs, ∀ X ∈ q.wrt, SameVar c.E E' X) :
    (runMQueries c f qs s).map Prod.fst = (runMQueries (c.withEnv E') f qs s').map Prod.fst ∧
    ∀ as t as' t', runMQueries c f qs s = some (as, t) → runMQueries (c.withEnv E') f qs s' = some (as', t') →
      SameMem c.E y t t' ∧ MUntouched c.E y s t ∧ MUntouched c.E y s' t' := by
  have h := runM_lock hE (f := f) qs hs.same hq hX
  revert h
  generalize runMQueries c f qs s = r
  generalize runMQueries (c.withEnv E') f qs s' = r'
  intro h
  cases h with
  | none => exact ⟨rfl, fun _ _ _ _ h => by cases h⟩
  | some h g g' =>
      refine ⟨rfl, fun _ _ _ _ e e' => ?_⟩
      cases e
      cases e'
      exact ⟨h.mem, g.untouched, g'.untouched⟩

theorem SameProg.refl (E : MEnv K) (y : ℕ) : SameProg E E y := ⟨fun _ _ => rfl, fun _ _ => rfl, fun _ _ => rfl, fun _ _ => rfl, rfl⟩

/-- **C62 for matrices (nothing else is changed).** -/
theorem C62_matrix_others_untouched {f : ℕ} (qs : List MQuery) (hq : ∀ q ∈ qs, MReach c.E y q.on)
    {as : List (Option (Mat K))} {t : MSt K} (he : runMQueries c f qs s = some (as, t)) : MUntouched c.E y s t :=
  ((C62_matrix_same_answers (SameProg.refl c.E y) ⟨fun _ _ => rfl, fun _ _ => rfl, fun _ _ _ => rfl⟩ f qs hq
    fun _ _ _ _ => ⟨rfl, rfl, rfl⟩).2 as t as t he he).2.1

theorem SameProg.of_ne {E E' : MEnv K} {T : Set ℕ} (hT : ∀ o ∈ T, ¬MReach E y o)
    (h : ∀ o, o ∉ T → E.kind o = E'.kind o ∧ E.rows o = E'.rows o ∧ E.cols o = E'.cols o ∧ E.el o = E'.el o)
    (hv : E.vid = E'.vid) : SameProg E E' y :=
  ⟨fun o ho => (h o fun ht => hT o ht ho).1, fun o ho => (h o fun ht => hT o ht ho).2.1,
    fun o ho => (h o fun ht => hT o ht ho).2.2.1, fun o ho => (h o fun ht => hT o ht ho).2.2.2, hv⟩

theorem newMat_ne {b b' : MBld K} {t : MNew K} {r k o : ℕ} (h : b.newMat t r k = some (o, b')) :
    (∀ p, p ∉ ({b.nobj} : Set ℕ) → b.E.kind p = b'.E.kind p ∧ b.E.rows p = b'.E.rows p ∧ b.E.cols p = b'.E.cols p ∧
      b.E.el p = b'.E.el p) ∧ b.E.vid = b'.E.vid := by
  simp only [MBld.newMat] at h
  split at h
  · simp only [Option.some.injEq, Prod.mk.injEq] at h
    obtain ⟨_, rfl⟩ := h
    exact ⟨fun p hp => ⟨(Function.update_of_ne hp _ _).symm, (Function.update_of_ne hp _ _).symm,
      (Function.update_of_ne hp _ _).symm, (Function.update_of_ne hp _ _).symm⟩, rfl⟩
  · cases h

theorem eye_ne {b b' : MBld K} {n o : ℕ} (h : b.eye n = some (o, b')) :
    (∀ p, p ∉ ({b.nobj} : Set ℕ) → b.E.kind p = b'.E.kind p ∧ b.E.rows p = b'.E.rows p ∧ b.E.cols p = b'.E.cols p ∧
      b.E.el p = b'.E.el p) ∧ b.E.vid = b'.E.vid := by
  simp only [MBld.eye] at h
  split at h
  · cases h
    exact ⟨fun p _ => ⟨rfl, rfl, rfl, rfl⟩, rfl⟩
  · simp only [Option.map_eq_some_iff, Prod.mk.injEq] at h
    obtain ⟨⟨o', b1⟩, h1, _, rfl⟩ := h
    exact ⟨(newMat_ne h1).1, (newMat_ne h1).2⟩

theorem bind_ne {b b' : MBld K} {o : ℕ} {e : MNode K} (h : b.bind o e = some b') :
    (∀ p, p ∉ ({o, b.nobj} : Set ℕ) → b.E.kind p = b'.E.kind p ∧ b.E.rows p = b'.E.rows p ∧ b.E.cols p = b'.E.cols p ∧
      b.E.el p = b'.E.el p) ∧ b.E.vid = b'.E.vid := by
  simp only [MBld.bind, Option.map_eq_some_iff] at h
  obtain ⟨⟨i, b1⟩, h1, rfl⟩ := h
  obtain ⟨h2, h3⟩ := eye_ne h1
  refine ⟨fun p hp => ?_, h3⟩
  simp only [Set.mem_insert_iff, Set.mem_singleton_iff, not_or] at hp
  obtain ⟨a, b, c, d⟩ := h2 p hp.2
  exact ⟨a.trans (Function.update_of_ne hp.1 _ _).symm, b.trans (Function.update_of_ne hp.1 _ _).symm,
    c.trans (Function.update_of_ne hp.1 _ _).symm, d⟩

theorem Built.reach_lt {b : MBld K} {d : ℕ → Option (MTerm K)} (h : Built b d) (hy : y < b.nobj) {o : ℕ}
    (ho : MReach b.E y o) : o < b.nobj := by
  induction ho with
  | refl => exact hy
  | step _ hk hq _ => exact h.inv.objlt _ _ _ _ hk _ hq

/-- **C62 for matrices (other definitions).**  In a program that was built in any way, making a new matrix, defining a new
matrix by any expression, and redefining a matrix `z` that `y` does not depend on, leave the definition of everything `y`
reaches as it was, as `C62_matrix_same_answers` requires. -/
theorem C62_matrix_other_definitions {b : MBld K} {d : ℕ → Option (MTerm K)} (h : Built b d) (hy : y < b.nobj) :
    (∀ t r k o b', b.newMat t r k = some (o, b') → SameProg b.E b'.E y) ∧
    (∀ n o b', b.eye n = some (o, b') → SameProg b.E b'.E y) ∧
    (∀ t o b', b.defNew t = some (o, b') → SameProg b.E b'.E y) ∧
    (∀ z t b', ¬Depends d y z → (b.E.kind z = .exp ∨ b.E.isForm z) → b.redef z t = some b' → SameProg b.E b'.E y) := by
  have fresh : ∀ o, b.nobj ≤ o → ¬MReach b.E y o := fun o ho hr => absurd (h.reach_lt hy hr) (by omega)
  refine ⟨fun t r k o b' e => ?_, fun n o b' e => ?_, fun t o b' e => ?_, fun z t b' hz hk e => ?_⟩
  · obtain ⟨h1, h2⟩ := newMat_ne e
    exact .of_ne (T := {b.nobj}) (fun o ho => fresh o (le_of_eq ho.symm)) h1 h2
  · obtain ⟨h1, h2⟩ := eye_ne e
    exact .of_ne (T := {b.nobj}) (fun o ho => fresh o (le_of_eq ho.symm)) h1 h2
  · simp only [MBld.defNew, Option.map_eq_some_iff, Prod.mk.injEq] at e
    obtain ⟨b1, e1, _, rfl⟩ := e
    obtain ⟨h1, h2⟩ := bind_ne e1
    refine .of_ne (T := {b.nobj, b.nobj + 1}) (fun o ho => fresh o ?_) h1 h2
    rcases ho with rfl | rfl <;> omega
  · obtain ⟨h1, h2⟩ := bind_ne e
    refine .of_ne (T := {z, b.nobj}) (fun o ho => ?_) h1 h2
    rcases ho with rfl | rfl
    · intro hr
      rcases h.inv.reach hr with hd | ⟨k, hk'⟩
      · exact hz hd
      · obtain ⟨_, e2, _⟩ := h.inv.eyes k o hk'
        rcases hk with hk | ⟨_, _, _, hk⟩
        · rw [e2] at hk; cases hk
        · rw [e2] at hk; cases hk
    · exact fresh _ le_rfl

end

namespace LocEx

open BldEx

/-- The program `Matrix<Variable> X(2,2); Matrix<Type> A(1,2); Matrix<Expression> Y = A*X*transpose(A);` -/
def ctx : MCtx ℚ := ⟨naiveB Sched.seq, Sched.seq, (b3 : MBld ℚ).E,
  ⟨BldEx.sv fun k => (k : ℚ), fun a v => if a = v ∧ a < 4 then 1 else 0⟩⟩

/-- Memory with nonsense in the matrices from number 4 on. -/
def junk : MSt ℚ := { (MSt.fresh : MSt ℚ) with
  obj := fun o => if o < 4 then (MSt.fresh : MSt ℚ).obj o else { (MSt.fresh : MSt ℚ).obj o with visited := true, evald := true } }

/-- The queries on `Y` -/
def qs : List MQuery := [.eval 2, .devalF 2 0, .preComp 2, .devalR 2 0]

theorem answers : (runMQueries ctx 5 qs MSt.fresh).map (fun r => r.1.map (Option.map Mat.data)) =
    some [some [18], some [1, 2, 2, 4], none, some [1, 2, 2, 4]] := by decide +kernel

end LocEx

theorem LocEx.junk_same : SameMem LocEx.ctx.E 2 MSt.fresh LocEx.junk where
  obj o ho := by
    have : o < 4 := BldEx.built3.reach_lt (show 2 < 4 by omega) ho
    show _ = if o < 4 then _ else _
    rw [if_pos this]
  slot _ _ := rfl
  shared _ _ _ := rfl

theorem LocEx.prog_same : SameProg LocEx.ctx.E (BldEx.b4 : MBld ℚ).E 2 :=
  (C62_matrix_other_definitions BldEx.built3 (show 2 < 4 by omega)).2.2.1 BldEx.tZ 4 BldEx.b4 rfl

theorem LocEx.on : ∀ q ∈ LocEx.qs, q.on = 2 ∧ ∀ X ∈ q.wrt, X = 0 := by
  intro q hq
  simp only [LocEx.qs, List.mem_cons, List.not_mem_nil, or_false] at hq
  rcases hq with rfl | rfl | rfl | rfl <;> refine ⟨rfl, fun X hX => ?_⟩ <;> cases hX
  rfl

theorem LocEx.var_same : SameVar LocEx.ctx.E (BldEx.b4 : MBld ℚ).E 0 := ⟨rfl, rfl, rfl⟩

/-- The queries on `Y` answer the same after `Matrix<Expression> Z = Y*Y + 3*Y` has been added, from memory with nonsense in
everything that `Y` does not reach. -/
example : (runMQueries LocEx.ctx 5 LocEx.qs MSt.fresh).map Prod.fst =
    (runMQueries (LocEx.ctx.withEnv (BldEx.b4 : MBld ℚ).E) 5 LocEx.qs LocEx.junk).map Prod.fst :=
  (C62_matrix_same_answers (c := LocEx.ctx) (E' := (BldEx.b4 : MBld ℚ).E) (y := 2) (s := MSt.fresh) (s' := LocEx.junk)
    LocEx.prog_same LocEx.junk_same 5 LocEx.qs (fun q hq => by rw [(LocEx.on q hq).1]; exact MReach.refl)
    (fun q hq X hX => by rw [(LocEx.on q hq).2 X hX]; exact LocEx.var_same)).1

end CoolDiff
