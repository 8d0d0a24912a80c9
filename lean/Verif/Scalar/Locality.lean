import Verif.Scalar.Model
import Verif.Scalar.Spec
import Verif.Scalar.Fuel

/-!
# What a query reads and writes

Two runs of the same query from states that agree on a set `R` of objects closed under "is mentioned by": the runs stop
together or answer the same, agree on `R` afterwards, and neither changes an object outside `R`.
-/

set_option linter.unusedSectionVars false

namespace CoolDiff

variable {K : Type} [Field K] [DecidableEq K]

/-- The evaluation memory of the objects in `R` is the same.  Specification. -/
def SameOn (R : Set ℕ) (m n : Mem K) : Prop :=
  ∀ o ∈ R, m.visited o = n.visited o ∧ m.value o = n.value o ∧ m.dvalue o = n.dvalue o ∧ m.cache o = n.cache o

theorem SameOn.refl (R : Set ℕ) (m : Mem K) : SameOn R m m := fun _ _ => ⟨rfl, rfl, rfl, rfl⟩

theorem SameOn.symm {R : Set ℕ} {m n : Mem K} (h : SameOn R m n) : SameOn R n m := fun o ho =>
  ⟨(h o ho).1.symm, (h o ho).2.1.symm, (h o ho).2.2.1.symm, (h o ho).2.2.2.symm⟩

theorem SameOn.trans {R : Set ℕ} {m n k : Mem K} (h : SameOn R m n) (h' : SameOn R n k) : SameOn R m k := fun o ho =>
  ⟨(h o ho).1.trans (h' o ho).1, (h o ho).2.1.trans (h' o ho).2.1, (h o ho).2.2.1.trans (h' o ho).2.2.1,
    (h o ho).2.2.2.trans (h' o ho).2.2.2⟩

section
variable {R : Set ℕ}

theorem SameOn.setVisited {m n : Mem K} (h : SameOn R m n) (o : ℕ) (b : Bool) :
    SameOn R (m.setVisited o b) (n.setVisited o b) := fun q hq => by
  obtain ⟨h1, h2, h3, h4⟩ := h q hq
  refine ⟨?_, h2, h3, h4⟩
  by_cases e : q = o
  · subst e; simp [Mem.setVisited]
  · simp [Mem.setVisited, Function.update_of_ne e, h1]

theorem SameOn.setValue {m n : Mem K} (h : SameOn R m n) (o : ℕ) (v : K) :
    SameOn R (m.setValue o v) (n.setValue o v) := fun q hq => by
  obtain ⟨h1, h2, h3, h4⟩ := h q hq
  refine ⟨h1, ?_, h3, h4⟩
  by_cases e : q = o
  · subst e; simp [Mem.setValue]
  · simp [Mem.setValue, Function.update_of_ne e, h2]

theorem SameOn.setDValue {m n : Mem K} (h : SameOn R m n) (o : ℕ) (v : K) :
    SameOn R (m.setDValue o v) (n.setDValue o v) := fun q hq => by
  obtain ⟨h1, h2, h3, h4⟩ := h q hq
  refine ⟨h1, h2, ?_, h4⟩
  by_cases e : q = o
  · subst e; simp [Mem.setDValue]
  · simp [Mem.setDValue, Function.update_of_ne e, h3]

theorem SameOn.setCache {m n : Mem K} (h : SameOn R m n) (o : ℕ) (v : Cache K) :
    SameOn R (m.setCache o v) (n.setCache o v) := fun q hq => by
  obtain ⟨h1, h2, h3, h4⟩ := h q hq
  refine ⟨h1, h2, h3, ?_⟩
  by_cases e : q = o
  · subst e; simp [Mem.setCache]
  · simp [Mem.setCache, Function.update_of_ne e, h4]

theorem off_ne {o q : ℕ} (ho : o ∈ R) (hq : q ∈ Rᶜ) : q ≠ o := fun e => hq (e ▸ ho)

theorem off_setVisited (m : Mem K) {o : ℕ} (ho : o ∈ R) (b : Bool) : SameOn Rᶜ m (m.setVisited o b) := fun q hq =>
  ⟨by simp [Mem.setVisited, Function.update_of_ne (off_ne ho hq)], rfl, rfl, rfl⟩
theorem off_setValue (m : Mem K) {o : ℕ} (ho : o ∈ R) (v : K) : SameOn Rᶜ m (m.setValue o v) := fun q hq =>
  ⟨rfl, by simp [Mem.setValue, Function.update_of_ne (off_ne ho hq)], rfl, rfl⟩
theorem off_setDValue (m : Mem K) {o : ℕ} (ho : o ∈ R) (v : K) : SameOn Rᶜ m (m.setDValue o v) := fun q hq =>
  ⟨rfl, rfl, by simp [Mem.setDValue, Function.update_of_ne (off_ne ho hq)], rfl⟩
theorem off_setCache (m : Mem K) {o : ℕ} (ho : o ∈ R) (v : Cache K) : SameOn Rᶜ m (m.setCache o v) := fun q hq =>
  ⟨rfl, rfl, rfl, by simp [Mem.setCache, Function.update_of_ne (off_ne ho hq)]⟩

end

/-- Two runs with results, from memories `m` and `m'`: both stop, or both give the same result, agree on `R` and keep
everything outside `R`. -/
inductive Lock (R : Set ℕ) {α : Type} (m m' : Mem K) : Option (α × Mem K) → Option (α × Mem K) → Prop
  | none : Lock R m m' none none
  | some {a : α} {n n' : Mem K} (h : SameOn R n n') (f : SameOn Rᶜ m n) (f' : SameOn Rᶜ m' n') :
      Lock R m m' (some (a, n)) (some (a, n'))

/-- The same for runs without a result. -/
inductive LockT (R : Set ℕ) (m m' : Mem K) : Option (Mem K) → Option (Mem K) → Prop
  | none : LockT R m m' none none
  | some {n n' : Mem K} (h : SameOn R n n') (f : SameOn Rᶜ m n) (f' : SameOn Rᶜ m' n') :
      LockT R m m' (some n) (some n')

section
variable {R : Set ℕ} {α β : Type} {m m' : Mem K}

theorem Lock.pure (a : α) (h : SameOn R m m') : Lock R m m' (Option.some (a, m)) (Option.some (a, m')) :=
  .some h (.refl _ _) (.refl _ _)

theorem LockT.pure (h : SameOn R m m') : LockT R m m' (Option.some m) (Option.some m') :=
  .some h (.refl _ _) (.refl _ _)

theorem Lock.after {n n' : Mem K} (f : SameOn Rᶜ m n) (f' : SameOn Rᶜ m' n') {r r' : Option (α × Mem K)}
    (h : Lock R n n' r r') : Lock R m m' r r' := by
  cases h with
  | none => exact .none
  | some h g g' => exact .some h (f.trans g) (f'.trans g')

theorem LockT.after {n n' : Mem K} (f : SameOn Rᶜ m n) (f' : SameOn Rᶜ m' n') {r r' : Option (Mem K)}
    (h : LockT R n n' r r') : LockT R m m' r r' := by
  cases h with
  | none => exact .none
  | some h g g' => exact .some h (f.trans g) (f'.trans g')

theorem Lock.bind {r r' : Option (α × Mem K)} {f f' : α × Mem K → Option (β × Mem K)} (h : Lock R m m' r r')
    (hf : ∀ a n n', SameOn R n n' → Lock R n n' (f (a, n)) (f' (a, n'))) : Lock R m m' (r >>= f) (r' >>= f') := by
  cases h with
  | none => exact .none
  | some h g g' => exact (hf _ _ _ h).after g g'

theorem Lock.bindT {r r' : Option (α × Mem K)} {f f' : α × Mem K → Option (Mem K)} (h : Lock R m m' r r')
    (hf : ∀ a n n', SameOn R n n' → LockT R n n' (f (a, n)) (f' (a, n'))) : LockT R m m' (r >>= f) (r' >>= f') := by
  cases h with
  | none => exact .none
  | some h g g' => exact (hf _ _ _ h).after g g'

theorem LockT.bind {r r' : Option (Mem K)} {f f' : Mem K → Option (β × Mem K)} (h : LockT R m m' r r')
    (hf : ∀ n n', SameOn R n n' → Lock R n n' (f n) (f' n')) : Lock R m m' (r >>= f) (r' >>= f') := by
  cases h with
  | none => exact .none
  | some h g g' => exact (hf _ _ h).after g g'

theorem LockT.bindT {r r' : Option (Mem K)} {f f' : Mem K → Option (Mem K)} (h : LockT R m m' r r')
    (hf : ∀ n n', SameOn R n n' → LockT R n n' (f n) (f' n')) : LockT R m m' (r >>= f) (r' >>= f') := by
  cases h with
  | none => exact .none
  | some h g g' => exact (hf _ _ h).after g g'

end

/-- `D` and `D'` define the objects in `R` in the same way, with the same values of the Parameters mentioned, and `R`
contains everything its objects mention. -/
structure AgreeDefs (D D' : Defs K) (R : Set ℕ) : Prop where
  closed : ∀ o ∈ R, ∀ i ∈ D.items o, ∀ p ∈ i.leaves, p ∈ R
  nidx : ∀ o ∈ R, D.nidx o = D'.nidx o
  base : ∀ o ∈ R, D.base o = D'.base o
  items : ∀ o ∈ R, D.items o = D'.items o
  par : ∀ o ∈ R, ∀ i ∈ D.items o, ∀ p ∈ i.pars, D.par p = D'.par p ∧ D.pnidx p = D'.pnidx p

section
variable (P : Prim K) {D D' : Defs K} {R : Set ℕ}

/-- A formula is inside `R` and its Parameters agree. -/
structure NodeIn (D D' : Defs K) (R : Set ℕ) (t : Node K) : Prop where
  leaves : ∀ p ∈ t.leaves, p ∈ R
  par : ∀ p ∈ t.pars, D.par p = D'.par p ∧ D.pnidx p = D'.pnidx p

theorem AgreeDefs.nodeIn (h : AgreeDefs D D' R) {o : ℕ} (ho : o ∈ R) : ∀ i ∈ D.items o, NodeIn D D' R i :=
  fun i hi => ⟨h.closed o ho i hi, h.par o ho i hi⟩

theorem NodeIn.op1 {n : ℕ} {f : Op1 K} {a : Node K} (h : NodeIn D D' R (.op1 n f a)) : NodeIn D D' R a :=
  ⟨fun p hp => h.leaves p (by simpa [Node.leaves] using hp), fun p hp => h.par p (by simpa [Node.pars] using hp)⟩

theorem NodeIn.left {n : ℕ} {f : Op2 K} {a b : Node K} (h : NodeIn D D' R (.op2 n f a b)) : NodeIn D D' R a :=
  ⟨fun p hp => h.leaves p (by simp [Node.leaves, hp]), fun p hp => h.par p (by simp [Node.pars, hp])⟩

theorem NodeIn.right {n : ℕ} {f : Op2 K} {a b : Node K} (h : NodeIn D D' R (.op2 n f a b)) : NodeIn D D' R b :=
  ⟨fun p hp => h.leaves p (by simp [Node.leaves, hp]), fun p hp => h.par p (by simp [Node.pars, hp])⟩

theorem NodeIn.nodeIdx (h : AgreeDefs D D' R) {t : Node K} (ht : NodeIn D D' R t) : nodeIdx D t = nodeIdx D' t := by
  cases t with
  | leaf o => exact h.nidx o (ht.leaves o (by simp [Node.leaves]))
  | par p => exact (ht.par p (by simp [Node.pars])).2
  | op1 => rfl
  | op2 => rfl

/-- Object calls with a result keep pace. -/
def LockE (R : Set ℕ) (rec rec' : ℕ → Mem K → Option (K × Mem K)) : Prop :=
  ∀ o ∈ R, ∀ m m', SameOn R m m' → Lock R m m' (rec o m) (rec' o m')
/-- Object calls without a result keep pace. -/
def LockO (R : Set ℕ) (rec rec' : ℕ → Mem K → Option (Mem K)) : Prop :=
  ∀ o ∈ R, ∀ m m', SameOn R m m' → LockT R m m' (rec o m) (rec' o m')

variable {recE recE' recD recD' : ℕ → Mem K → Option (K × Mem K)} {recT recT' : ℕ → Mem K → Option (Mem K)}

theorem evalN_lock (hE : LockE R recE recE') : ∀ (t : Node K), NodeIn D D' R t → ∀ m m', SameOn R m m' →
    Lock R m m' (evalN P D recE t m) (evalN P D' recE' t m')
  | .leaf o, ht, m, m', h => hE o (ht.leaves o (by simp [Node.leaves])) m m' h
  | .par p, ht, m, m', h => by
      simp only [evalN]
      rw [(ht.par p (by simp [Node.pars])).1]
      exact .pure _ h
  | .op1 n f a, ht, m, m', h =>
      (evalN_lock hE a ht.op1 m m' h).bind fun u k k' hk => .pure _ hk
  | .op2 n f a b, ht, m, m', h => by
      simp only [evalN]
      split
      · exact (evalN_lock hE b ht.right m m' h).bind fun v k k' hk =>
          (evalN_lock hE a ht.left k k' hk).bind fun u l l' hl => .pure _ hl
      · exact (evalN_lock hE a ht.left m m' h).bind fun v k k' hk =>
          (evalN_lock hE b ht.right k k' hk).bind fun u l l' hl => .pure _ hl

theorem evalItems_lock (hE : LockE R recE recE') {o : ℕ} (ho : o ∈ R) : ∀ (is : List (Node K)),
    (∀ i ∈ is, NodeIn D D' R i) → ∀ m m', SameOn R m m' →
    LockT R m m' (evalItems P D recE o is m) (evalItems P D' recE' o is m')
  | [], _, m, m', h => .pure h
  | i :: is, hi, m, m', h =>
      (evalN_lock P hE i (hi i (by simp)) m m' h).bindT fun v k k' hk =>
        (evalItems_lock hE ho is (fun j hj => hi j (by simp [hj])) _ _ (hk.setValue o v)).after
          (off_setValue k ho v) (off_setValue k' ho v)

theorem evalO_lock (hD : AgreeDefs D D' R) : ∀ f, LockE R (evalO P D f) (evalO P D' f)
  | 0 => fun _ _ _ _ _ => .none
  | f + 1 => fun o ho m m' h => by
      simp only [evalO]
      rw [← (h o ho).1, ← hD.base o ho, ← hD.items o ho]
      split
      · refine LockT.bind ((evalItems_lock P (evalO_lock hD f) ho _ (hD.nodeIn ho) _ _
          ((h.setValue o _).setVisited o true)).after ((off_setValue m ho _).trans (off_setVisited _ ho _))
          ((off_setValue m' ho _).trans (off_setVisited _ ho _))) fun n n' hn => ?_
        rw [(hn o ho).2.1]
        exact .pure _ hn
      · rw [(h o ho).2.1]
        exact .pure _ h

theorem fwdN_lock (hE : LockE R recE recE') (hF : LockE R recD recD') : ∀ (t : Node K), NodeIn D D' R t → ∀ m m',
    SameOn R m m' → Lock R m m' (fwdN P D recE recD t m) (fwdN P D' recE' recD' t m')
  | .leaf o, ht, m, m', h => hF o (ht.leaves o (by simp [Node.leaves])) m m' h
  | .par p, ht, m, m', h => .pure _ h
  | .op1 n f a, ht, m, m', h => by
      simp only [fwdN]
      refine (fwdN_lock hE hF a ht.op1 m m' h).bind fun u k k' hk => ?_
      split
      · exact (evalN_lock P hE a ht.op1 k k' hk).bind fun v l l' hl => .pure _ hl
      · exact .pure _ hk
  | .op2 n f a b, ht, m, m', h => by
      simp only [fwdN]
      refine (fwdN_lock hE hF a ht.left m m' h).bind fun u k k' hk => ?_
      refine (fwdN_lock hE hF b ht.right k k' hk).bind fun u l l' hl => ?_
      split
      · split
        · exact (evalN_lock P hE b ht.right l l' hl).bind fun v i i' hi =>
            (evalN_lock P hE a ht.left i i' hi).bind fun u j j' hj => .pure _ hj
        · exact (evalN_lock P hE a ht.left l l' hl).bind fun v i i' hi =>
            (evalN_lock P hE b ht.right i i' hi).bind fun u j j' hj => .pure _ hj
      · exact .pure _ hl

theorem fwdItems_lock (hE : LockE R recE recE') (hF : LockE R recD recD') {o : ℕ} (ho : o ∈ R) :
    ∀ (is : List (Node K)), (∀ i ∈ is, NodeIn D D' R i) → ∀ m m', SameOn R m m' →
    LockT R m m' (fwdItems P D recE recD o is m) (fwdItems P D' recE' recD' o is m')
  | [], _, m, m', h => .pure h
  | i :: is, hi, m, m', h =>
      (fwdN_lock P hE hF i (hi i (by simp)) m m' h).bindT fun d k k' hk =>
        LockT.after (off_setDValue k ho d) (off_setDValue k' ho d)
          ((evalN_lock P hE i (hi i (by simp)) _ _ (hk.setDValue o d)).bindT fun v l l' hl =>
            (fwdItems_lock hE hF ho is (fun j hj => hi j (by simp [hj])) _ _ (hl.setValue o v)).after
              (off_setValue l ho v) (off_setValue l' ho v))

theorem fwdO_lock (hD : AgreeDefs D D' R) (k : ℕ) : ∀ f, LockE R (fwdO P D k f) (fwdO P D' k f)
  | 0 => fun _ _ _ _ _ => .none
  | f + 1 => fun o ho m m' h => by
      simp only [fwdO]
      rw [← (h o ho).1, ← hD.nidx o ho, ← hD.items o ho]
      split
      · refine LockT.bind ((fwdItems_lock P (evalO_lock P hD f) (fwdO_lock hD k f) ho _ (hD.nodeIn ho) _ _
          (h.setVisited o true)).after (off_setVisited m ho _) (off_setVisited m' ho _)) fun n n' hn => ?_
        rw [(hn o ho).2.2.1]
        exact .pure _ hn
      · rw [(h o ho).2.2.1]
        exact .pure _ h

theorem val1_lock (hE : LockE R recE recE') (f : Op1 K) {a : Node K} (ha : NodeIn D D' R a) {m m' : Mem K}
    (h : SameOn R m m') : Lock R m m' (val1 P D recE f a m) (val1 P D' recE' f a m') := by
  simp only [val1]
  split
  · exact evalN_lock P hE a ha m m' h
  · exact .pure _ h

/-- Two results. -/
inductive Lock2 (R : Set ℕ) (m m' : Mem K) : Option (K × K × Mem K) → Option (K × K × Mem K) → Prop
  | none : Lock2 R m m' none none
  | some {a b : K} {n n' : Mem K} (h : SameOn R n n') (f : SameOn Rᶜ m n) (f' : SameOn Rᶜ m' n') :
      Lock2 R m m' (some (a, b, n)) (some (a, b, n'))

theorem Lock2.bind {β : Type} {m m' : Mem K} {r r' : Option (K × K × Mem K)} {f f' : K × K × Mem K → Option (β × Mem K)}
    (h : Lock2 R m m' r r') (hf : ∀ a b n n', SameOn R n n' → Lock R n n' (f (a, b, n)) (f' (a, b, n'))) :
    Lock R m m' (r >>= f) (r' >>= f') := by
  cases h with
  | none => exact .none
  | some h g g' => exact (hf _ _ _ _ h).after g g'

theorem Lock2.after {m m' n n' : Mem K} (f : SameOn Rᶜ m n) (f' : SameOn Rᶜ m' n') {r r' : Option (K × K × Mem K)}
    (h : Lock2 R n n' r r') : Lock2 R m m' r r' := by
  cases h with
  | none => exact .none
  | some h g g' => exact .some h (f.trans g) (f'.trans g')

theorem Lock.bind2 {m m' : Mem K} {r r' : Option (K × Mem K)} {f f' : K × Mem K → Option (K × K × Mem K)}
    (h : Lock R m m' r r') (hf : ∀ a n n', SameOn R n n' → Lock2 R n n' (f (a, n)) (f' (a, n'))) :
    Lock2 R m m' (r >>= f) (r' >>= f') := by
  cases h with
  | none => exact .none
  | some h g g' => exact (hf _ _ _ h).after g g'

theorem val2_lock (hE : LockE R recE recE') (f : Op2 K) {a b : Node K} (ha : NodeIn D D' R a) (hb : NodeIn D D' R b)
    {m m' : Mem K} (h : SameOn R m m') : Lock2 R m m' (val2 P D recE f a b m) (val2 P D' recE' f a b m') := by
  simp only [val2]
  split
  · split
    · exact (evalN_lock P hE b hb m m' h).bind2 fun v k k' hk =>
        (evalN_lock P hE a ha k k' hk).bind2 fun u l l' hl => .some hl (.refl _ _) (.refl _ _)
    · exact (evalN_lock P hE a ha m m' h).bind2 fun v k k' hk =>
        (evalN_lock P hE b hb k k' hk).bind2 fun u l l' hl => .some hl (.refl _ _) (.refl _ _)
  · exact .some h (.refl _ _) (.refl _ _)

theorem nodeVisited_same {m m' : Mem K} (h : SameOn R m m') {a : Node K} (ha : NodeIn D D' R a) :
    nodeVisited m a = nodeVisited m' a := by
  cases a with
  | leaf o => exact (h o (ha.leaves o (by simp [Node.leaves]))).1
  | par => rfl
  | op1 => rfl
  | op2 => rfl

theorem nodeCache_same {m m' : Mem K} (h : SameOn R m m') {a : Node K} (ha : NodeIn D D' R a) :
    nodeCache m a = nodeCache m' a := by
  cases a with
  | leaf o => exact (h o (ha.leaves o (by simp [Node.leaves]))).2.2.2
  | par => rfl
  | op1 => rfl
  | op2 => rfl

theorem unless_lock {a : Node K} (ha : NodeIn D D' R a) {c : Cache K} {m m' : Mem K} (h : SameOn R m m')
    {r r' : Option (Cache K × Mem K)} (hr : Lock R m m' r r') :
    Lock R m m' (unlessVisited a c m r) (unlessVisited a c m' r') := by
  simp only [unlessVisited]
  rw [← nodeVisited_same h ha]
  split
  · exact .pure _ h
  · exact hr

theorem revN_lock (hD : AgreeDefs D D' R) (hE : LockE R recE recE') (hT : LockO R recT recT') : ∀ (t : Node K),
    NodeIn D D' R t → ∀ c m m', SameOn R m m' → Lock R m m' (revN P D recE recT t c m) (revN P D' recE' recT' t c m')
  | .leaf o, ht, c, m, m', h =>
      (hT o (ht.leaves o (by simp [Node.leaves])) m m' h).bind fun n n' hn => .pure _ hn
  | .par p, ht, c, m, m', h => .pure _ h
  | .op1 n f a, ht, c, m, m', h => by
      simp only [revN]
      refine (unless_lock ht.op1 h (revN_lock hD hE hT a ht.op1 c m m' h)).bind fun c1 k k' hk => ?_
      refine (val1_lock P hE f ht.op1 hk).bind fun u l l' hl => ?_
      simp only [← ht.op1.nodeIdx hD, nodeCache_same hl ht.op1]
      exact unless_lock ht.op1 hl (revN_lock hD hE hT a ht.op1 _ l l' hl)
  | .op2 n f a b, ht, c, m, m', h => by
      simp only [revN]
      refine (unless_lock ht.left h (revN_lock hD hE hT a ht.left c m m' h)).bind fun c1 k k' hk => ?_
      refine (unless_lock ht.right hk (revN_lock hD hE hT b ht.right c1 k k' hk)).bind fun c2 i i' hi => ?_
      refine (val2_lock P hE f ht.left ht.right hi).bind fun u v l l' hl => ?_
      simp only [← ht.left.nodeIdx hD, ← ht.right.nodeIdx hD, nodeCache_same hl ht.left, nodeCache_same hl ht.right]
      exact (unless_lock ht.left hl (revN_lock hD hE hT a ht.left _ l l' hl)).bind fun c3 j j' hj =>
        unless_lock ht.right hj (revN_lock hD hE hT b ht.right c3 j j' hj)

theorem revRoot_lock (hD : AgreeDefs D D' R) (hE : LockE R recE recE') (hT : LockO R recT recT') (t : Node K)
    (ht : NodeIn D D' R t) (m m' : Mem K) (h : SameOn R m m') :
    Lock R m m' (revRoot P D recE recT t m) (revRoot P D' recE' recT' t m') := by
  cases t with
  | leaf o =>
      have ho : o ∈ R := ht.leaves o (by simp [Node.leaves])
      simp only [revRoot]
      refine (hT o ho m m' h).bind fun n n' hn => ?_
      rw [(hn o ho).2.2.2]
      exact .pure _ hn
  | par p => exact .pure _ h
  | op1 n f a =>
      simp only [revRoot]
      refine (unless_lock ht.op1 h (revN_lock P hD hE hT a ht.op1 _ m m' h)).bind fun c1 k k' hk => ?_
      refine (val1_lock P hE f ht.op1 hk).bind fun u l l' hl => ?_
      simp only [← ht.op1.nodeIdx hD, nodeCache_same hl ht.op1]
      exact unless_lock ht.op1 hl (revN_lock P hD hE hT a ht.op1 _ l l' hl)
  | op2 n f a b =>
      simp only [revRoot]
      refine (unless_lock ht.left h (revN_lock P hD hE hT a ht.left _ m m' h)).bind fun c1 k k' hk => ?_
      refine (unless_lock ht.right hk (revN_lock P hD hE hT b ht.right c1 k k' hk)).bind fun c2 i i' hi => ?_
      refine (val2_lock P hE f ht.left ht.right hi).bind fun u v l l' hl => ?_
      simp only [← ht.left.nodeIdx hD, ← ht.right.nodeIdx hD, nodeCache_same hl ht.left, nodeCache_same hl ht.right]
      exact (unless_lock ht.left hl (revN_lock P hD hE hT a ht.left _ l l' hl)).bind fun c3 j j' hj =>
        unless_lock ht.right hj (revN_lock P hD hE hT b ht.right c3 j j' hj)

theorem revItems_lock (hD : AgreeDefs D D' R) (hE : LockE R recE recE') (hT : LockO R recT recT') {o : ℕ} (ho : o ∈ R) :
    ∀ (is : List (Node K)), (∀ i ∈ is, NodeIn D D' R i) → ∀ m m', SameOn R m m' →
    LockT R m m' (revItems P D recE recT o is m) (revItems P D' recE' recT' o is m')
  | [], _, m, m', h => .pure h
  | i :: is, hi, m, m', h =>
      (revRoot_lock P hD hE hT i (hi i (by simp)) m m' h).bindT fun c k k' hk =>
        (evalN_lock P hE i (hi i (by simp)) _ _ hk).bindT fun v l l' hl =>
          (revItems_lock hD hE hT ho is (fun j hj => hi j (by simp [hj])) _ _ ((hl.setValue o v).setCache o c)).after
            ((off_setValue l ho v).trans (off_setCache _ ho c)) ((off_setValue l' ho v).trans (off_setCache _ ho c))

theorem revO_lock (hD : AgreeDefs D D' R) : ∀ f, LockO R (revO P D f) (revO P D' f)
  | 0 => fun _ _ _ _ _ => .none
  | f + 1 => fun o ho m m' h => by
      simp only [revO]
      rw [← (h o ho).1, ← hD.items o ho]
      split
      · exact (revItems_lock P hD (evalO_lock P hD f) (revO_lock hD f) ho _ (hD.nodeIn ho) _ _
          (h.setVisited o true)).after (off_setVisited m ho _) (off_setVisited m' ho _)
      · exact .pure h

theorem resetN_lock (hT : LockO R recT recT') : ∀ (t : Node K), NodeIn D D' R t → ∀ m m', SameOn R m m' →
    LockT R m m' (resetN recT t m) (resetN recT' t m')
  | .leaf o, ht, m, m', h => hT o (ht.leaves o (by simp [Node.leaves])) m m' h
  | .par p, _, m, m', h => .pure h
  | .op1 _ _ a, ht, m, m', h => resetN_lock hT a ht.op1 m m' h
  | .op2 _ _ a b, ht, m, m', h =>
      (resetN_lock hT a ht.left m m' h).bindT fun k k' hk => resetN_lock hT b ht.right k k' hk

theorem resetItems_lock (hT : LockO R recT recT') : ∀ (is : List (Node K)), (∀ i ∈ is, NodeIn D D' R i) → ∀ m m',
    SameOn R m m' → LockT R m m' (resetItems recT is m) (resetItems recT' is m')
  | [], _, m, m', h => .pure h
  | i :: is, hi, m, m', h =>
      (resetN_lock hT i (hi i (by simp)) m m' h).bindT fun k k' hk =>
        resetItems_lock hT is (fun j hj => hi j (by simp [hj])) k k' hk

theorem clearObj_lock (hD : AgreeDefs D D' R) {o : ℕ} (ho : o ∈ R) {m m' : Mem K} (h : SameOn R m m') :
    SameOn R (m.clearObj D o) (m'.clearObj D' o) := by
  simp only [Mem.clearObj]
  rw [hD.base o ho]
  exact (((h.setVisited o _).setValue o _).setDValue o _).setCache o _

theorem off_clearObj (D : Defs K) {o : ℕ} (ho : o ∈ R) (m : Mem K) : SameOn Rᶜ m (m.clearObj D o) :=
  (((off_setVisited m ho _).trans (off_setValue _ ho _)).trans (off_setDValue _ ho _)).trans (off_setCache _ ho _)

theorem resetO_lock (hD : AgreeDefs D D' R) : ∀ f, LockO R (resetO D f) (resetO D' f)
  | 0 => fun _ _ _ _ _ => .none
  | f + 1 => fun o ho m m' h => by
      simp only [resetO]
      rw [← (h o ho).1, ← hD.items o ho]
      split
      · exact LockT.after (off_setVisited m ho _) (off_setVisited m' ho _)
          ((resetItems_lock (resetO_lock hD f) _ (hD.nodeIn ho) _ _ (h.setVisited o false)).bindT fun k k' hk =>
            .some (clearObj_lock hD ho hk) (off_clearObj D ho k) (off_clearObj D' ho k'))
      · exact .some (clearObj_lock hD ho h) (off_clearObj D ho m) (off_clearObj D' ho m')

theorem resetImpl_lock (hD : AgreeDefs D D' R) (f : ℕ) {o : ℕ} (ho : o ∈ R) {m m' : Mem K} (h : SameOn R m m') :
    LockT R m m' (resetImpl D f o m) (resetImpl D' f o m') := by
  simp only [resetImpl]
  rw [← hD.items o ho]
  exact LockT.after (off_setVisited m ho _) (off_setVisited m' ho _)
    ((resetItems_lock (resetO_lock hD f) _ (hD.nodeIn ho) _ _ (h.setVisited o true)).bindT fun k k' hk =>
      .some (hk.setVisited o false) (off_setVisited k ho _) (off_setVisited k' ho _))

end

end CoolDiff
