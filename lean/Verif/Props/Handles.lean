import Verif.Scalar.RevObj
import Verif.Scalar.Termination

/-!
# Copies of Variables (C19)

`Variable` objects seen as handles: copying a Variable copies `m_nidx` and shares the value cells
(`m_var`, `m_value_var` are shared pointers).  The queries on formulas are the tree functions of
`Scalar/Model.lean` (`evalN`, `fwdN`, `revRoot`), run on handles instead of single-owner objects.
-/

set_option linter.unusedSectionVars false

namespace CoolDiff

variable {K : Type} [Field K] [DecidableEq K]

/-- The Variable objects of a program.  Variable.hpp:42-60: `m_nidx`, the shared cell behind `m_var`
and `m_value_var` (they are always created, copied and assigned together, so one cell number stands
for both). -/
structure VHeap (K : Type) where
  /-- number of Variable objects -/
  nh : ℕ
  /-- number of cells -/
  nc : ℕ
  /-- `m_idx_count` -/
  next : ℕ
  nidx : ℕ → ℕ
  cell : ℕ → ℕ
  /-- `*m_value_var` -/
  base : ℕ → K
  /-- `m_var->m_value` -/
  val : ℕ → K
  /-- `m_var->m_dvalue` -/
  dval : ℕ → K

/-- The program start. -/
def VHeap.empty : VHeap K := ⟨0, 0, 0, fun _ => 0, fun _ => 0, fun _ => 0, fun _ => 0, fun _ => 0⟩

/-- What a program can do with Variables (besides using them in formulas). -/
inductive VOp (K : Type)
  | new (v : K)
  | copy (q : ℕ)
  | setNum (h : ℕ) (v : K)
  | assign (h q : ℕ)
  /-- an expression or parameter elsewhere takes numbers from the global counter -/
  | tick

/-- `Variable(value)` (Variable.cpp:44-53), the copy constructor (:70-77), assignment of a number
(:56-67, VarWrap.cpp `setConstructor`), copy assignment `Variable{exp}.swap(*this)` (:90-94, 27-34). -/
def VOp.run (H : VHeap K) : VOp K → VHeap K
  | .new v => { nh := H.nh + 1, nc := H.nc + 1, next := H.next + 1
                nidx := Function.update H.nidx H.nh H.next
                cell := Function.update H.cell H.nh H.nc
                base := Function.update H.base H.nc v
                val := Function.update H.val H.nc v
                dval := Function.update H.dval H.nc 0 }
  | .copy q => { H with nh := H.nh + 1
                        nidx := Function.update H.nidx H.nh (H.nidx q)
                        cell := Function.update H.cell H.nh (H.cell q) }
  | .setNum h v => { H with base := Function.update H.base (H.cell h) v
                            val := Function.update H.val (H.cell h) v
                            dval := Function.update H.dval (H.cell h) 0 }
  | .assign h q => { H with nidx := Function.update H.nidx h (H.nidx q)
                            cell := Function.update H.cell h (H.cell q) }
  | .tick => { H with next := H.next + 1 }

/-- The operation names existing objects only. -/
def VOp.Ok (H : VHeap K) : VOp K → Prop
  | .new _ => True
  | .copy q => q < H.nh
  | .setNum h _ => h < H.nh
  | .assign h q => h < H.nh ∧ q < H.nh
  | .tick => True

/-- The heaps a program can reach. -/
inductive VReach : VHeap K → Prop
  | empty : VReach VHeap.empty
  | step {H : VHeap K} {op : VOp K} : VReach H → op.Ok H → VReach (op.run H)

/-- Invariant of the reachable heaps. -/
structure VHeap.Inv (H : VHeap K) : Prop where
  cell_lt : ∀ h, h < H.nh → H.cell h < H.nc
  nidx_lt : ∀ h, h < H.nh → H.nidx h < H.next
  same : ∀ h h', h < H.nh → h' < H.nh → (H.nidx h = H.nidx h' ↔ H.cell h = H.cell h')
  val : ∀ h, h < H.nh → H.val (H.cell h) = H.base (H.cell h)
  dval : ∀ h, h < H.nh → H.dval (H.cell h) = 0

theorem VReach.inv {H : VHeap K} (h : VReach H) : H.Inv := by
  induction h with
  | empty => exact ⟨by simp [VHeap.empty], by simp [VHeap.empty], by simp [VHeap.empty],
      by simp [VHeap.empty], by simp [VHeap.empty]⟩
  | @step H op _ hok ih =>
    cases op with
    | new v =>
      have hlt : ∀ h, h < H.nh + 1 → h = H.nh ∨ h < H.nh := fun h hh => by omega
      have hc : ∀ h, h < H.nh → H.cell h ≠ H.nc := fun h hh => (ih.cell_lt h hh).ne
      refine ⟨fun h hh => ?_, fun h hh => ?_, fun h h' hh hh' => ?_, fun h hh => ?_, fun h hh => ?_⟩
      · rcases hlt h hh with rfl | hh
        · simp [VOp.run]
        · have := ih.cell_lt h hh
          simp only [VOp.run, Function.update_of_ne hh.ne]; omega
      · rcases hlt h hh with rfl | hh
        · simp [VOp.run]
        · have := ih.nidx_lt h hh
          simp only [VOp.run, Function.update_of_ne hh.ne]; omega
      · rcases hlt h hh with rfl | hh <;> rcases hlt h' hh' with rfl | hh'
        · simp [VOp.run]
        · have h1 := ih.cell_lt h' hh'
          have h2 := ih.nidx_lt h' hh'
          simp only [VOp.run, Function.update_of_ne hh'.ne, Function.update_self]; omega
        · have h1 := ih.cell_lt h hh
          have h2 := ih.nidx_lt h hh
          simp only [VOp.run, Function.update_of_ne hh.ne, Function.update_self]; omega
        · simp only [VOp.run, Function.update_of_ne hh.ne, Function.update_of_ne hh'.ne]
          exact ih.same h h' hh hh'
      · rcases hlt h hh with rfl | hh
        · simp [VOp.run]
        · simp only [VOp.run, Function.update_of_ne hh.ne, Function.update_of_ne (hc h hh)]
          exact ih.val h hh
      · rcases hlt h hh with rfl | hh
        · simp [VOp.run]
        · simp only [VOp.run, Function.update_of_ne hh.ne, Function.update_of_ne (hc h hh)]
          exact ih.dval h hh
    | copy q =>
      have hq : q < H.nh := hok
      have hlt : ∀ h, h < H.nh + 1 → h = H.nh ∨ h < H.nh := fun h hh => by omega
      -- every handle has the number and cell of an old handle
      have key : ∀ h, h < H.nh + 1 → ∃ g, g < H.nh ∧ ((VOp.copy q).run H).nidx h = H.nidx g ∧
          ((VOp.copy q).run H).cell h = H.cell g := by
        intro h hh
        rcases hlt h hh with rfl | hh
        · exact ⟨q, hq, by simp [VOp.run], by simp [VOp.run]⟩
        · exact ⟨h, hh, by simp [VOp.run, Function.update_of_ne hh.ne],
            by simp [VOp.run, Function.update_of_ne hh.ne]⟩
      refine ⟨fun h hh => ?_, fun h hh => ?_, fun h h' hh hh' => ?_, fun h hh => ?_, fun h hh => ?_⟩
      all_goals obtain ⟨g, hg, e1, e2⟩ := key h hh
      · rw [e2]; exact ih.cell_lt g hg
      · rw [e1]; exact ih.nidx_lt g hg
      · obtain ⟨g', hg', e1', e2'⟩ := key h' hh'
        rw [e1, e2, e1', e2']; exact ih.same g g' hg hg'
      · rw [e2]; exact ih.val g hg
      · rw [e2]; exact ih.dval g hg
    | setNum h v =>
      refine ⟨ih.cell_lt, ih.nidx_lt, ih.same, fun h' hh' => ?_, fun h' hh' => ?_⟩
      · by_cases e : H.cell h' = H.cell h
        · simp [VOp.run, e]
        · simp only [VOp.run, Function.update_of_ne e]; exact ih.val h' hh'
      · by_cases e : H.cell h' = H.cell h
        · simp [VOp.run, e]
        · simp only [VOp.run, Function.update_of_ne e]; exact ih.dval h' hh'
    | assign p q =>
      have hq : q < H.nh := hok.2
      have key : ∀ h, h < H.nh → ∃ g, g < H.nh ∧ ((VOp.assign p q).run H).nidx h = H.nidx g ∧
          ((VOp.assign p q).run H).cell h = H.cell g := by
        intro h hh
        by_cases e : h = p
        · subst e; exact ⟨q, hq, by simp [VOp.run], by simp [VOp.run]⟩
        · exact ⟨h, hh, by simp [VOp.run, Function.update_of_ne e],
            by simp [VOp.run, Function.update_of_ne e]⟩
      refine ⟨fun h hh => ?_, fun h hh => ?_, fun h h' hh hh' => ?_, fun h hh => ?_, fun h hh => ?_⟩
      all_goals obtain ⟨g, hg, e1, e2⟩ := key h hh
      · rw [e2]; exact ih.cell_lt g hg
      · rw [e1]; exact ih.nidx_lt g hg
      · obtain ⟨g', hg', e1', e2'⟩ := key h' hh'
        rw [e1, e2, e1', e2']; exact ih.same g g' hg hg'
      · rw [e2]; exact ih.val g hg
      · rw [e2]; exact ih.dval g hg
    | tick => exact ⟨ih.cell_lt, fun h hh => Nat.lt_succ_of_lt (ih.nidx_lt h hh), ih.same, ih.val,
        ih.dval⟩

/-! ## Queries on formulas over handles -/

/-- The definitions part seen by the tree functions: a Variable has no equations
(`m_gh_vec` is empty). -/
def VHeap.defs (H : VHeap K) (par : ℕ → K) (pnidx : ℕ → ℕ) : Defs K where
  size := H.nh
  psize := 0
  next := H.next
  nidx := H.nidx
  base := fun h => H.base (H.cell h)
  items := fun _ => []
  par := par
  pnidx := pnidx

/-- The memory seen through the handles; `vis` are the `m_visited` flags, one per handle. -/
def VHeap.mem (H : VHeap K) (vis : ℕ → Bool) : Mem K where
  visited := vis
  value := fun h => H.val (H.cell h)
  dvalue := fun h => H.dval (H.cell h)
  cache := fun _ _ => 0

/-- `setValue` through a handle: every handle of the same cell sees it. -/
def setCell (H : VHeap K) (h : ℕ) (v : K) (m : Mem K) : Mem K :=
  { m with value := fun h' => if H.cell h' = H.cell h then v else m.value h' }

/-- `Variable::eval` of a Variable (no equations).  Variable.cpp:130-151. -/
def hEvalO (H : VHeap K) (h : ℕ) (m : Mem K) : Option (K × Mem K) :=
  if m.visited h = false then
    let m := (setCell H h (H.base (H.cell h)) m).setVisited h true
    some (m.value h, m)
  else some (m.value h, m)

/-- `Variable::devalF` of a Variable.  Variable.cpp:154-176; `k` is the number of the variable
differentiated against. -/
def hFwdO (H : VHeap K) (k h : ℕ) (m : Mem K) : Option (K × Mem K) :=
  let m := if m.visited h = false then m.setVisited h true else m
  some (if H.nidx h = k then 1 else m.dvalue h, m)

/-- `Variable::traverse` of a Variable.  Variable.cpp:227-243. -/
def hTravO (_H : VHeap K) (h : ℕ) (m : Mem K) : Option (Mem K) :=
  if m.visited h = false then some (m.setVisited h true) else some m

/-- Evaluate a formula. -/
def HEval (P : Prim K) (H : VHeap K) (par : ℕ → K) (vis : ℕ → Bool) (t : Node K) : Option K :=
  (evalN P (H.defs par fun p => p) (hEvalO H) t (H.mem vis)).map (·.1)

/-- Forward derivative of a formula with respect to Variable `x`. -/
def HDevalF (P : Prim K) (H : VHeap K) (par : ℕ → K) (vis : ℕ → Bool) (t : Node K) (x : ℕ) :
    Option K :=
  (fwdN P (H.defs par fun p => p) (hEvalO H) (hFwdO H (H.nidx x)) t (H.mem vis)).map (·.1)

/-- Reverse derivative of a formula with respect to Variable `x`; object `H.nh` stands for the
Expression holding the formula, whose flag is set before its item is traversed
(Variable.cpp:229-232). -/
def HDevalR (P : Prim K) (H : VHeap K) (par : ℕ → K) (pnidx : ℕ → ℕ) (vis : ℕ → Bool) (t : Node K)
    (x : ℕ) : Option K :=
  (revRoot P (H.defs par pnidx) (hEvalO H) (hTravO H) t
    (H.mem (Function.update vis H.nh true))).map fun r => r.1 (H.nidx x)

/-- The value a Variable currently denotes. -/
def VHeap.value (H : VHeap K) (h : ℕ) : K := H.base (H.cell h)

section proofs
variable (P : Prim K) {H : VHeap K}

/-- Memory invariant during a query. -/
structure HInv (H : VHeap K) (m : Mem K) : Prop where
  val : ∀ h, h < H.nh → m.value h = H.value h
  dval : ∀ h, h < H.nh → m.dvalue h = 0
  cache : ∀ h, m.cache h = fun _ => 0

theorem HInv.start (hI : H.Inv) (vis : ℕ → Bool) : HInv H (H.mem vis) :=
  ⟨hI.val, hI.dval, fun _ => rfl⟩

theorem HInv.setVisited {m : Mem K} (h : HInv H m) (q : ℕ) (b : Bool) : HInv H (m.setVisited q b) :=
  ⟨h.val, h.dval, h.cache⟩

theorem hEvalO_spec {m : Mem K} (h : HInv H m) {q : ℕ} (hq : q < H.nh) :
    ∃ m', hEvalO H q m = some (H.value q, m') ∧ HInv H m' := by
  unfold hEvalO
  split
  · refine ⟨(setCell H q (H.base (H.cell q)) m).setVisited q true, ?_, ?_⟩
    · simp [setCell, Mem.setVisited, VHeap.value]
    · refine ⟨fun h' hh' => ?_, h.dval, h.cache⟩
      simp only [Mem.setVisited, setCell]
      split
      · rename_i e; simp [VHeap.value, e]
      · exact h.val h' hh'
  · exact ⟨m, by rw [h.val q hq], h⟩

theorem hevalN_spec (D : Defs K) (t : Node K) (ht : ∀ q ∈ t.leaves, q < H.nh) :
    ∀ m, HInv H m → ∃ m', evalN P D (hEvalO H) t m = some (t.val P D.par H.value, m') ∧
      HInv H m' := by
  induction t with
  | leaf o => intro m hm; exact hEvalO_spec hm (ht o (by simp [Node.leaves]))
  | par p => intro m hm; exact ⟨m, rfl, hm⟩
  | op1 n f a ih =>
    intro m hm
    obtain ⟨m1, h1, h2⟩ := ih ht m hm
    exact ⟨m1, by simp [evalN, h1, Node.val, Op1.val_eq_sem], h2⟩
  | op2 n f a b iha ihb =>
    intro m hm
    have hta : ∀ q ∈ a.leaves, q < H.nh := fun q hq => ht q (by simp [Node.leaves, hq])
    have htb : ∀ q ∈ b.leaves, q < H.nh := fun q hq => ht q (by simp [Node.leaves, hq])
    cases hr : f.rightFirst with
    | true =>
      obtain ⟨m1, h1, h2⟩ := ihb htb m hm
      obtain ⟨m2, h3, h4⟩ := iha hta m1 h2
      exact ⟨m2, by simp [evalN, hr, h1, h3, Node.val, Op2.val_eq_sem], h4⟩
    | false =>
      obtain ⟨m1, h1, h2⟩ := iha hta m hm
      obtain ⟨m2, h3, h4⟩ := ihb htb m1 h2
      exact ⟨m2, by simp [evalN, hr, h1, h3, Node.val, Op2.val_eq_sem], h4⟩

/-- The seed: `1` for every handle that is the same variable as `x`. -/
def seed (H : VHeap K) (x h : ℕ) : K := if H.nidx h = H.nidx x then 1 else 0

theorem hFwdO_spec {m : Mem K} (h : HInv H m) {q : ℕ} (hq : q < H.nh) (x : ℕ) :
    ∃ m', hFwdO H (H.nidx x) q m = some (seed H x q, m') ∧ HInv H m' := by
  refine ⟨if m.visited q = false then m.setVisited q true else m, ?_, ?_⟩
  · simp only [hFwdO, seed]
    congr 2
    split
    · rfl
    · split
      · exact h.dval q hq
      · exact h.dval q hq
  · split
    · exact h.setVisited q true
    · exact h

theorem hfwdN_spec (D : Defs K) (x : ℕ) (t : Node K) (ht : ∀ q ∈ t.leaves, q < H.nh) :
    ∀ m, HInv H m → ∃ m', fwdN P D (hEvalO H) (hFwdO H (H.nidx x)) t m =
      some (t.der P D.par H.value (seed H x), m') ∧ HInv H m' := by
  induction t with
  | leaf o => intro m hm; exact hFwdO_spec hm (ht o (by simp [Node.leaves])) x
  | par p => intro m hm; exact ⟨m, rfl, hm⟩
  | op1 n f a ih =>
    intro m hm
    obtain ⟨m1, h1, h2⟩ := ih ht m hm
    cases hu : f.usesVal with
    | true =>
      obtain ⟨m2, h3, h4⟩ := hevalN_spec P D a ht m1 h2
      exact ⟨m2, by simp [fwdN, h1, hu, h3, Node.der, Op1.fwd_eq], h4⟩
    | false =>
      refine ⟨m1, ?_, h2⟩
      simp [fwdN, h1, hu, Node.der, Op1.fwd_unused P f hu (a.val P D.par H.value)]
  | op2 n f a b iha ihb =>
    intro m hm
    have hta : ∀ q ∈ a.leaves, q < H.nh := fun q hq => ht q (by simp [Node.leaves, hq])
    have htb : ∀ q ∈ b.leaves, q < H.nh := fun q hq => ht q (by simp [Node.leaves, hq])
    obtain ⟨m1, h1, h2⟩ := iha hta m hm
    obtain ⟨m2, h3, h4⟩ := ihb htb m1 h2
    cases hu : f.usesVal with
    | true =>
      cases hr : f.rightFirstD with
      | true =>
        obtain ⟨m3, h5, h6⟩ := hevalN_spec P D b htb m2 h4
        obtain ⟨m4, h7, h8⟩ := hevalN_spec P D a hta m3 h6
        exact ⟨m4, by simp [fwdN, h1, h3, hu, hr, h5, h7, Node.der, Op2.fwd_eq], h8⟩
      | false =>
        obtain ⟨m3, h5, h6⟩ := hevalN_spec P D a hta m2 h4
        obtain ⟨m4, h7, h8⟩ := hevalN_spec P D b htb m3 h6
        exact ⟨m4, by simp [fwdN, h1, h3, hu, hr, h5, h7, Node.der, Op2.fwd_eq], h8⟩
    | false =>
      refine ⟨m2, ?_, h4⟩
      simp [fwdN, h1, h3, hu, Node.der,
        Op2.fwd_unused P f hu (a.val P D.par H.value) (b.val P D.par H.value)]

/-! ### Reverse mode -/

theorem hEvalO_vis : VisSpec (hEvalO H) := by
  intro q m v m' hv h
  simp [hEvalO, hv] at h
  exact ⟨h.1.symm, h.2.symm⟩

theorem hTravO_vis : TVisSpec (hTravO H) := by
  intro q m m' hv h
  simp [hTravO, hv] at h
  exact h.symm

theorem hEvalO_tot (D : Defs K) (n : ℕ) : TotE D n (hEvalO H) := by
  intro q m _ _
  unfold hEvalO
  split
  · refine ⟨_, _, rfl, ?_⟩
    exact (mono_setVisited (setCell H q (H.base (H.cell q)) m) q)
  · exact ⟨_, _, rfl, Mono.refl m⟩

theorem hTravO_tot (D : Defs K) (n : ℕ) : TotT D n (hTravO H) := by
  intro q m _ _
  unfold hTravO
  split
  · exact ⟨_, rfl, mono_setVisited m q⟩
  · exact ⟨_, rfl, Mono.refl m⟩

/-- rank: the handles below the formula -/
def hrank (H : VHeap K) (q : ℕ) : ℕ := if q < H.nh then 0 else 1

theorem hTravO_spec (D : Defs K) (hD : D.items = fun _ => []) (hbase : ∀ h, D.base h = H.value h)
    (x kx : ℕ) :
    TSpec P D {h | h < H.nh} (hrank H) H.value (fun _ => 0) x kx (fun _ _ => False) (fun _ => True) 1 (hTravO H) := by
  intro q hq hr m m' hi h
  unfold hTravO at h
  have hq' : q < H.nh := hq
  split at h
  · simp only [Option.some.injEq] at h
    subst h
    refine ⟨⟨?_, ?_, ?_, ?_, ?_⟩, ⟨?_, ?_, ?_, ?_, ?_⟩, ?_, ?_⟩
    · intro p hp hpr _
      have := (hi.plain p hp hpr (by simp [hD])).1
      simpa [Mem.setVisited, hbase] using this
    · intro p hp hpr _
      have := (hi.plain p hp hpr (by simp [hD])).2
      simp [Mem.setVisited, this]
    · intro p hp hpr _ n _
      have := (hi.plain p hp hpr (by simp [hD])).2
      simp [Mem.setVisited, this]
    · intro p hp hpr hit
      exact hi.plain p hp hpr hit
    · intro p hp hpr hv
      exact hi.eqn p hp hpr (not_visited_of_mono (mono_setVisited m q) hv)
    · exact mono_setVisited m q
    · intro p hp
      have hpq : p ≠ q := by
        rintro rfl
        rcases hp with hp | hp
        · exact hp hq
        · simp [hrank, hq'] at hp
      simp [Mem.setVisited, Function.update, hpq]
    · intro p _; rfl
    · intro p _; rfl
    · intro p _; rfl
    · simp [Mem.setVisited]
    · intro p _ _ i hi'; simp [hD] at hi'
  · rename_i hv
    simp only [Option.some.injEq] at h
    subst h
    refine ⟨hi, Frame.refl .., by simpa using hv, NewClosed.refl _ _⟩

end proofs

/-! ## The properties -/

/-- A formula as the operators build it: its leaves are existing Variables, every operation took its
own number from the global counter, so these numbers are distinct, already given out, and not the
number of a Variable or Parameter. -/
structure VHeap.Formula (H : VHeap K) (pnidx : ℕ → ℕ) (t : Node K) : Prop where
  leaves : ∀ q ∈ t.leaves, q < H.nh
  nodup : t.opIds.Nodup
  drawn : ∀ n ∈ t.opIds, n < H.next
  vars : ∀ q, q < H.nh → H.nidx q ∉ t.opIds
  pars : ∀ p ∈ t.pars, pnidx p ∉ t.opIds
  parvars : ∀ p ∈ t.pars, ∀ q, q < H.nh → pnidx p ≠ H.nidx q
  pardrawn : ∀ p ∈ t.pars, pnidx p < H.next

/-- A formula stays a formula whatever the program does next. -/
theorem VHeap.Formula.step {H : VHeap K} {pnidx : ℕ → ℕ} {t : Node K} (h : H.Formula pnidx t)
    {op : VOp K} (hok : op.Ok H) : (op.run H).Formula pnidx t := by
  cases op with
  | new v =>
    have hlt : ∀ q, q < H.nh + 1 → q = H.nh ∨ q < H.nh := fun h hh => by omega
    refine ⟨fun q hq => ?_, h.nodup, fun n hn => ?_, fun q hq => ?_, h.pars, fun p hp q hq => ?_,
      fun p hp => ?_⟩
    · have := h.leaves q hq; simp only [VOp.run]; omega
    · have := h.drawn n hn; simp only [VOp.run]; omega
    · rcases hlt q hq with rfl | hq
      · intro hn
        simp only [VOp.run, Function.update_self] at hn
        exact absurd (h.drawn _ hn) (lt_irrefl _)
      · simpa only [VOp.run, Function.update_of_ne hq.ne] using h.vars q hq
    · rcases hlt q hq with rfl | hq
      · simp only [VOp.run, Function.update_self]
        exact (h.pardrawn p hp).ne
      · simpa only [VOp.run, Function.update_of_ne hq.ne] using h.parvars p hp q hq
    · have := h.pardrawn p hp; simp only [VOp.run]; omega
  | copy q =>
    have hq : q < H.nh := hok
    have hlt : ∀ q, q < H.nh + 1 → q = H.nh ∨ q < H.nh := fun h hh => by omega
    refine ⟨fun q hq => ?_, h.nodup, h.drawn, fun q' hq' => ?_, h.pars, fun p hp q' hq' => ?_,
      h.pardrawn⟩
    · have := h.leaves q hq; simp only [VOp.run]; omega
    · rcases hlt q' hq' with rfl | hq'
      · simpa only [VOp.run, Function.update_self] using h.vars q hq
      · simpa only [VOp.run, Function.update_of_ne hq'.ne] using h.vars q' hq'
    · rcases hlt q' hq' with rfl | hq'
      · simpa only [VOp.run, Function.update_self] using h.parvars p hp q hq
      · simpa only [VOp.run, Function.update_of_ne hq'.ne] using h.parvars p hp q' hq'
  | setNum g v => exact ⟨h.leaves, h.nodup, h.drawn, h.vars, h.pars, h.parvars, h.pardrawn⟩
  | assign g q =>
    refine ⟨h.leaves, h.nodup, h.drawn, fun q' hq' => ?_, h.pars, fun p hp q' hq' => ?_, h.pardrawn⟩
    · by_cases e : q' = g
      · subst e
        simpa only [VOp.run, Function.update_self] using h.vars q hok.2
      · simpa only [VOp.run, Function.update_of_ne e] using h.vars q' hq'
    · by_cases e : q' = g
      · subst e
        simpa only [VOp.run, Function.update_self] using h.parvars p hp q hok.2
      · simpa only [VOp.run, Function.update_of_ne e] using h.parvars p hp q' hq'
  | tick => exact ⟨h.leaves, h.nodup, fun n hn => Nat.lt_succ_of_lt (h.drawn n hn), h.vars, h.pars,
      h.parvars, fun p hp => Nat.lt_succ_of_lt (h.pardrawn p hp)⟩

/-- Which mathematical variable each Variable object is, read off the history alone: number of
objects, number of constructions, and for every object the construction its content traces back to. -/
def origins : List (VOp K) → ℕ × ℕ × (ℕ → ℕ)
  | [] => (0, 0, fun _ => 0)
  | .new _ :: ops => let (n, c, f) := origins ops; (n + 1, c + 1, Function.update f n c)
  | .copy q :: ops => let (n, c, f) := origins ops; (n + 1, c, Function.update f n (f q))
  | .assign h q :: ops => let (n, c, f) := origins ops; (n, c, Function.update f h (f q))
  | .setNum _ _ :: ops => origins ops
  | .tick :: ops => origins ops

/-- Run a history (latest operation first). -/
def runOps : List (VOp K) → VHeap K
  | [] => VHeap.empty
  | op :: ops => op.run (runOps ops)

/-- Every operation of the history names existing objects. -/
def OpsOk : List (VOp K) → Prop
  | [] => True
  | op :: ops => OpsOk ops ∧ op.Ok (runOps ops)

theorem runOps_reach : ∀ (ops : List (VOp K)), OpsOk ops → VReach (runOps ops)
  | [], _ => .empty
  | _ :: ops, h => .step (runOps_reach ops h.1) h.2

theorem runOps_origins : ∀ (ops : List (VOp K)),
    ((runOps ops).nh, (runOps ops).nc, (runOps ops).cell) = origins ops
  | [] => rfl
  | op :: ops => by
    have ih := runOps_origins ops
    cases op <;> simp only [runOps, VOp.run, origins, ← ih]

/-- C19, identity: after every history, two Variable objects are the same variable for the library
(same number: one may be used for the other in every derivative) exactly when they trace back to the
same construction. -/
theorem C19_same {ops : List (VOp K)} (hops : OpsOk ops) {h h' : ℕ} (hh : h < (runOps ops).nh)
    (hh' : h' < (runOps ops).nh) :
    (runOps ops).nidx h = (runOps ops).nidx h' ↔ (origins ops).2.2 h = (origins ops).2.2 h' := by
  rw [← runOps_origins]
  exact (runOps_reach ops hops).inv.same h h' hh hh'

/-- The formula with other Variable objects at its leaves. -/
def Node.rename (r : ℕ → ℕ) : Node K → Node K
  | .leaf q => .leaf (r q)
  | .par p => .par p
  | .op1 n f a => .op1 n f (a.rename r)
  | .op2 n f a b => .op2 n f (a.rename r) (b.rename r)

theorem Node.mem_rename_leaves (r : ℕ → ℕ) {t : Node K} {q : ℕ} (h : q ∈ t.leaves) :
    r q ∈ (t.rename r).leaves := by
  induction t with
  | leaf o => simp [Node.leaves, Node.rename] at h ⊢; rw [h]
  | par p => simp [Node.leaves] at h
  | op1 n f a ih => exact ih h
  | op2 n f a b iha ihb =>
    simp only [Node.leaves, Node.rename, List.mem_append] at h ⊢
    exact h.imp iha ihb

theorem Node.val_rename (P : Prim K) (π ρ : ℕ → K) (r : ℕ → ℕ) (t : Node K) :
    (t.rename r).val P π ρ = t.val P π fun q => ρ (r q) := by
  induction t with
  | leaf o => rfl
  | par p => rfl
  | op1 n f a ih => simp only [Node.rename, Node.val, ih]
  | op2 n f a b iha ihb => simp only [Node.rename, Node.val, iha, ihb]

theorem Node.der_rename (P : Prim K) (π ρ δ : ℕ → K) (r : ℕ → ℕ) (t : Node K) :
    (t.rename r).der P π ρ δ = t.der P π (fun q => ρ (r q)) fun q => δ (r q) := by
  induction t with
  | leaf o => rfl
  | par p => rfl
  | op1 n f a ih => simp only [Node.rename, Node.der, ih, Node.val_rename]
  | op2 n f a b iha ihb => simp only [Node.rename, Node.der, iha, ihb, Node.val_rename]

section C19
variable (P : Prim K) {H : VHeap K} (hH : VReach H) (par : ℕ → K) (pnidx : ℕ → ℕ) (vis : ℕ → Bool)
include hH

/-- C19, values: a copy shows the same value, and keeps showing it. -/
theorem C19_copy {q : ℕ} (hq : q < H.nh) :
    let H' := (VOp.copy q).run H
    H'.nidx H.nh = H'.nidx q ∧ H'.value H.nh = H'.value q ∧
      ∀ h, h < H.nh → H'.value h = H.value h ∧ H'.nidx h = H.nidx h := by
  refine ⟨?_, ?_, fun h hh => ⟨?_, ?_⟩⟩ <;>
    simp [VOp.run, VHeap.value, Function.update_of_ne (Nat.ne_of_lt ‹_›)]

/-- C19, values: assigning a number through one Variable is seen through exactly the Variables that
are the same variable. -/
theorem C19_setNum {h h' : ℕ} (hh : h < H.nh) (hh' : h' < H.nh) (v : K) :
    ((VOp.setNum h v).run H).value h' = if H.nidx h' = H.nidx h then v else H.value h' := by
  have := hH.inv.same h' h hh' hh
  by_cases e : H.nidx h' = H.nidx h
  · simp [VOp.run, VHeap.value, e, this.1 e]
  · simp [VOp.run, VHeap.value, e, Function.update_of_ne (fun hc => e (this.2 hc))]

/-- C19, independence: a newly constructed Variable is no existing variable, and nobody's value
changes. -/
theorem C19_new (v : K) :
    let H' := (VOp.new v).run H
    H'.value H.nh = v ∧ ∀ h, h < H.nh → H'.nidx h ≠ H'.nidx H.nh ∧ H'.value h = H.value h ∧
      H'.nidx h = H.nidx h := by
  refine ⟨by simp [VOp.run, VHeap.value], fun h hh => ⟨?_, ?_, ?_⟩⟩
  · have := hH.inv.nidx_lt h hh
    simp only [VOp.run, Function.update_of_ne hh.ne, Function.update_self]
    omega
  · have := hH.inv.cell_lt h hh
    simp [VOp.run, VHeap.value, Function.update_of_ne hh.ne, Function.update_of_ne this.ne]
  · simp [VOp.run, Function.update_of_ne hh.ne]

/-- C19, queries: the value of a formula and both derivatives depend only on which variables its
Variables are: the value is the formula at the variables' values, and the derivative counts every
copy of `x` as `x`. -/
theorem C19_queries {t : Node K} (ht : H.Formula pnidx t) {x : ℕ} (hx : x < H.nh)
    (hbare : ∀ z, t ≠ .leaf z) :
    HEval P H par vis t = some (t.val P par H.value) ∧
    HDevalF P H par vis t x = some (t.der P par H.value fun h => if H.nidx h = H.nidx x then 1 else 0) ∧
    HDevalR P H par pnidx vis t x =
      some (t.der P par H.value fun h => if H.nidx h = H.nidx x then 1 else 0) := by
  have hI := hH.inv
  refine ⟨?_, ?_, ?_⟩
  · obtain ⟨m', h, -⟩ := hevalN_spec P (H.defs par fun p => p) t ht.leaves _ (HInv.start hI vis)
    simp only [HEval, h, Option.map_some]
    rfl
  · obtain ⟨m', h, -⟩ := hfwdN_spec P (H.defs par fun p => p) x t ht.leaves _ (HInv.start hI vis)
    simp only [HDevalF, h, Option.map_some]
    rfl
  · set D := H.defs par pnidx with hD
    set m₀ := H.mem (Function.update vis H.nh true) with hm₀
    obtain ⟨c, m', h, -⟩ := revRoot_total P D (n := H.nh + 1) (hEvalO_tot (H := H) D _)
      (hTravO_tot (H := H) D _) t m₀ ht.leaves (Nat.lt_succ_of_le (unv_le _ _))
    have hro : hrank H H.nh = 1 := by simp [hrank]
    have hT := hTravO_spec (H := H) P D (by simp [hD, VHeap.defs])
      (fun h => by simp [hD, VHeap.defs, VHeap.value]) H.nh (H.nidx x)
    have hi0 : RInv P D {h | h < H.nh} (hrank H) H.value (fun _ => 0) H.nh (H.nidx x) (fun _ _ => False) (fun _ => True)
        (hrank H H.nh) m₀ := by
      refine ⟨fun q hq _ _ => hI.val q hq, fun q _ _ _ => by simp [hm₀, VHeap.mem],
        fun q _ _ _ n _ => by simp [hm₀, VHeap.mem], fun q hq _ _ => ⟨hI.val q hq, rfl⟩, fun q _ _ _ => ?_⟩
      refine ⟨⟨⟨?_, ?_⟩, ?_⟩, rfl, fun _ => rfl⟩
      · simp [hD, VHeap.defs]
      · simp [hD, VHeap.defs]
      · constructor <;> simp [hD, VHeap.defs]
    obtain ⟨h1, h2, h3, h4, h5⟩ := revRoot_spec P D {h | h < H.nh} (hrank H) H.value (fun _ => 0)
      H.nh (H.nidx x) (fun _ _ => False) (fun _ => True) (o := H.nh) (hEvalO_vis (H := H)) (hTravO_vis (H := H)) (by rw [hro]; exact hT)
      t m₀ c m' (fun p hp => ⟨ht.leaves p hp, Or.inr (by simp [hrank, ht.leaves p hp])⟩)
      (by simp [hm₀, VHeap.mem]) hi0
      (fun m₁ hi _ hl => ⟨ht.nodup, fun p hp => ht.vars p (ht.leaves p hp), ht.pars,
        fun p hp n _ => by
          have := (hi.plain p (ht.leaves p hp) (by simp [hrank, ht.leaves p hp])
            (by simp [hD, VHeap.defs])).2
          simp [this]⟩) h
    have hk := h5 (H.nidx x) ⟨ht.vars x hx, fun p hp => ht.parvars p hp x hx⟩
      (fun z hz => absurd hz (hbare z))
    have hval : ∀ q ∈ t.leaves, m'.value q = H.value q := fun q hq =>
      h1.val q (ht.leaves q hq) (by simp [hrank, ht.leaves q hq]) (h3 q hq)
    have hcache : ∀ q ∈ t.leaves, m'.cache q (H.nidx x) = 0 := fun q hq => by
      have := (h1.plain q (ht.leaves q hq) (by simp [hrank, ht.leaves q hq])
        (by simp [hD, VHeap.defs])).2
      simp [this]
    simp only [HDevalR, ← hD, ← hm₀, h, Option.map_some, hk, Option.some.injEq]
    have : t.der P D.par m'.value (gamma D m' (H.nidx x)) =
        t.der P D.par H.value fun h => if H.nidx h = H.nidx x then 1 else 0 := by
      apply Node.der_congr
      · exact hval
      · intro q hq
        simp [gamma, hcache q hq, hD, VHeap.defs]
    rw [this]
    rfl

omit hH in
/-- C19, queries do not change what a Variable is: they do not touch numbers, cells or the stored
value (`*m_value_var`), so `H` is the heap after the query as well; after the query every Variable
still shows the value it denotes and a zero derivative cell. -/
theorem C19_query_keeps (hH : VReach H) {t : Node K} (ht : ∀ q ∈ t.leaves, q < H.nh) {v : K}
    {m' : Mem K} (h : evalN P (H.defs par pnidx) (hEvalO H) t (H.mem vis) = some (v, m')) :
    ∀ q, q < H.nh → m'.value q = H.value q ∧ m'.dvalue q = 0 := by
  obtain ⟨m1, h1, h2⟩ := hevalN_spec P (H.defs par pnidx) t ht _ (HInv.start hH.inv vis)
  rw [h1] at h
  simp only [Option.some.injEq, Prod.mk.injEq] at h
  obtain ⟨-, rfl⟩ := h
  exact fun q hq => ⟨h2.val q hq, h2.dval q hq⟩

/-- C19, substitution: differentiating against a copy, or having copies in the formula, changes
nothing. -/
theorem C19_interchange {t t' : Node K} (ht : H.Formula pnidx t) (ht' : H.Formula pnidx t')
    (ren : ℕ → ℕ) (hren : t' = t.rename ren) (hsame : ∀ q ∈ t.leaves, H.nidx (ren q) = H.nidx q)
    {x x' : ℕ} (hx : x < H.nh) (hx' : x' < H.nh) (hxx : H.nidx x' = H.nidx x)
    (hbare : ∀ z, t ≠ .leaf z) (hbare' : ∀ z, t' ≠ .leaf z) :
    HEval P H par vis t' = HEval P H par vis t ∧
    HDevalF P H par vis t' x' = HDevalF P H par vis t x ∧
    HDevalR P H par pnidx vis t' x' = HDevalR P H par pnidx vis t x := by
  obtain ⟨h1, h2, h3⟩ := C19_queries P hH par pnidx vis ht hx hbare
  obtain ⟨h1', h2', h3'⟩ := C19_queries P hH par pnidx vis ht' hx' hbare'
  have hv : ∀ q ∈ t.leaves, H.value (ren q) = H.value q := fun q hq => by
    have hl : ren q < H.nh := ht'.leaves _ (by rw [hren]; exact Node.mem_rename_leaves ren hq)
    have := (hH.inv.same _ _ hl (ht.leaves q hq)).1 (hsame q hq)
    simp [VHeap.value, this]
  have e1 : t'.val P par H.value = t.val P par H.value := by
    rw [hren, Node.val_rename]
    exact Node.val_congr P par t hv
  have e2 : (t'.der P par H.value fun h => if H.nidx h = H.nidx x' then 1 else 0) =
      t.der P par H.value fun h => if H.nidx h = H.nidx x then 1 else 0 := by
    rw [hren, Node.der_rename, hxx]
    exact Node.der_congr P par t hv fun q hq => by simp [hsame q hq]
  rw [h1, h2, h3, h1', h2', h3', e1, e2]
  exact ⟨rfl, rfl, rfl⟩

end C19

/-- Non-vacuity: `x = 3`, `y` a copy of `x`, `z = 5` independent, then `y = 4`; formula `x*y + z`
(operations numbered 2 and 3).  Value 21, derivative with respect to `x` (= with respect to `y`) 8. -/
def exOps : List (VOp ℚ) := [.tick, .tick, .setNum 1 4, .new 5, .copy 0, .new 3]

def exForm : Node ℚ := .op2 3 .add (.op2 2 .mul (.leaf 0) (.leaf 1)) (.leaf 2)

theorem exOps_ok : OpsOk exOps := by simp [exOps, OpsOk, VOp.Ok, runOps, VOp.run, VHeap.empty]

theorem exForm_ok : (runOps exOps).Formula (fun _ => 0) exForm := by
  refine ⟨?_, ?_, ?_, ?_, ?_, ?_, ?_⟩
  · simp [exForm, Node.leaves, runOps, exOps, VOp.run, VHeap.empty]
  · simp [exForm, Node.opIds]
  · simp [exForm, Node.opIds, runOps, exOps, VOp.run, VHeap.empty]
  · intro q hq
    have : q = 0 ∨ q = 1 ∨ q = 2 := by
      simp [runOps, exOps, VOp.run, VHeap.empty] at hq
      omega
    rcases this with rfl | rfl | rfl <;>
      simp [exForm, Node.opIds, runOps, exOps, VOp.run, VHeap.empty, Function.update]
  all_goals simp [exForm, Node.pars]

example (P : Prim ℚ) :
    HEval P (runOps exOps) (fun _ => 0) (fun _ => true) exForm = some 21 ∧
    HDevalF P (runOps exOps) (fun _ => 0) (fun _ => false) exForm 0 = some 8 ∧
    HDevalR P (runOps exOps) (fun _ => 0) (fun _ => 0) (fun _ => false) exForm 1 = some 8 := by
  have hr := runOps_reach exOps exOps_ok
  have q0 := C19_queries P hr (fun _ => 0) (fun _ => 0) (fun _ => true) exForm_ok (x := 0)
    (by simp [runOps, exOps, VOp.run, VHeap.empty]) (by simp [exForm])
  have q1 := C19_queries P hr (fun _ => 0) (fun _ => 0) (fun _ => false) exForm_ok (x := 0)
    (by simp [runOps, exOps, VOp.run, VHeap.empty]) (by simp [exForm])
  have q2 := C19_queries P hr (fun _ => 0) (fun _ => 0) (fun _ => false) exForm_ok (x := 1)
    (by simp [runOps, exOps, VOp.run, VHeap.empty]) (by simp [exForm])
  rw [q0.1, q1.2.1, q2.2.2]
  refine ⟨?_, ?_, ?_⟩ <;>
    norm_num [exForm, Node.val, Node.der, Op2.sem, Op2.derL, Op2.derR, runOps, exOps, VOp.run, VHeap.empty,
      VHeap.value, Function.update]

end CoolDiff
