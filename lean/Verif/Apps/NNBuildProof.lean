import Verif.Apps.NNBuild
import Verif.Props.MatBuild

/-!
# Building a neural network: proofs
-/

set_option linter.unusedSectionVars false

namespace CoolDiff

variable {K : Type} [Field K] [DecidableEq K]

/-! ## Programs that grow -/

/-- `b'` has all matrices of `b`. -/
structure Grows (b b' : MBld K) : Prop where
  nobj : b.nobj ≤ b'.nobj
  nh : b.nh ≤ b'.nh
  kind : ∀ o < b.nobj, b'.E.kind o = b.E.kind o
  rows : ∀ o < b.nobj, b'.E.rows o = b.E.rows o
  cols : ∀ o < b.nobj, b'.E.cols o = b.E.cols o
  el : ∀ o < b.nobj, b'.E.el o = b.E.el o
  cv : ∀ h < b.nh, b'.cv h = b.cv h

theorem Grows.refl (b : MBld K) : Grows b b :=
  ⟨le_rfl, le_rfl, fun _ _ => rfl, fun _ _ => rfl, fun _ _ => rfl, fun _ _ => rfl, fun _ _ => rfl⟩

theorem Grows.trans {a b c : MBld K} (h : Grows a b) (h' : Grows b c) : Grows a c :=
  ⟨h.nobj.trans h'.nobj, h.nh.trans h'.nh,
    fun o ho => (h'.kind o (ho.trans_le h.nobj)).trans (h.kind o ho),
    fun o ho => (h'.rows o (ho.trans_le h.nobj)).trans (h.rows o ho),
    fun o ho => (h'.cols o (ho.trans_le h.nobj)).trans (h.cols o ho),
    fun o ho => (h'.el o (ho.trans_le h.nobj)).trans (h.el o ho),
    fun x hx => (h'.cv x (hx.trans_le h.nh)).trans (h.cv x hx)⟩

/-- `o` is a `Matrix<Type>` of the program with the dimensions `r × c` and the numbers `A`. -/
structure IsConst (b : MBld K) (o r c : ℕ) (A : ℕ → ℕ → K) : Prop where
  lt : o < b.nobj
  kind : b.E.kind o = .num
  rows : b.E.rows o = r
  cols : b.E.cols o = c
  el : ∀ i j, i < r → j < c → b.E.el o i j < b.nh ∧ b.cv (b.E.el o i j) = some (A i j)

theorem IsConst.ext {b b' : MBld K} {o r c : ℕ} {A : ℕ → ℕ → K} (h : IsConst b o r c A) (e : Grows b b') :
    IsConst b' o r c A := by
  refine ⟨h.lt.trans_le e.nobj, (e.kind o h.lt).trans h.kind, (e.rows o h.lt).trans h.rows, (e.cols o h.lt).trans h.cols,
    fun i j hi hj => ?_⟩
  obtain ⟨h1, h2⟩ := h.el i j hi hj
  rw [e.el o h.lt]
  exact ⟨h1.trans_le e.nh, (e.cv _ h1).trans h2⟩

theorem newMat_const (b : MBld K) (A : ℕ → ℕ → K) {r c : ℕ} (hr : 0 < r) (hc : 0 < c) :
    ∃ b', b.newMat (.num A) r c = some (b.nobj, b') ∧ Grows b b' ∧ IsConst b' b.nobj r c A ∧ b'.eyes = b.eyes ∧
      b'.nobj = b.nobj + 1 ∧ ∀ i j, b.nh ≤ b'.E.el b.nobj i j := by
  have e : b.newMat (.num A) r c = some (b.nobj, _) := if_pos ⟨hr, hc⟩
  refine ⟨_, e, ?_, ?_, rfl, rfl, fun i j => ?_⟩
  rotate_right
  · show b.nh ≤ Function.update b.E.el b.nobj (fun i j => b.nh + (i * c + j)) b.nobj i j
    rw [Function.update_self]; omega
  · refine ⟨Nat.le_succ _, Nat.le_add_right _ _, ?_, ?_, ?_, ?_, ?_⟩
    · intro o ho; exact Function.update_of_ne (Nat.ne_of_lt ho) _ _
    · intro o ho; exact Function.update_of_ne (Nat.ne_of_lt ho) _ _
    · intro o ho; exact Function.update_of_ne (Nat.ne_of_lt ho) _ _
    · intro o ho; exact Function.update_of_ne (Nat.ne_of_lt ho) _ _
    · intro h hh
      show (if b.nh ≤ h ∧ h < b.nh + r * c then _ else b.cv h) = b.cv h
      rw [if_neg (by omega)]
  · refine ⟨Nat.lt_succ_self _, Function.update_self _ _ _, Function.update_self _ _ _, Function.update_self _ _ _, ?_⟩
    intro i j hi hj
    have hlt : i * c + j < r * c := by nlinarith
    obtain ⟨d1, d2⟩ := flat_divmod (i := i) hj
    have hel : Function.update b.E.el b.nobj (fun i j => b.nh + (i * c + j)) b.nobj i j = b.nh + (i * c + j) := by
      rw [Function.update_self]
    have key : ∀ h, h = b.nh + (i * c + j) → h < b.nh + r * c ∧ (if b.nh ≤ h ∧ h < b.nh + r * c then
        some (A ((h - b.nh) / c) ((h - b.nh) % c)) else b.cv h) = some (A i j) := by
      rintro h rfl
      refine ⟨by omega, ?_⟩
      rw [if_pos ⟨by omega, by omega⟩, Nat.add_sub_cancel_left, d1, d2]
    exact key _ hel

/-- A new `Matrix<Type>` changes no kind. -/
theorem newMat_kinds {b b' : MBld K} {A : ℕ → ℕ → K} {r c o : ℕ} (hn : b.E.kind b.nobj = .num)
    (he : b.newMat (.num A) r c = some (o, b')) : b'.E.kind = b.E.kind ∧ b'.E.P = b.E.P := by
  unfold MBld.newMat at he
  split at he <;> simp only [Option.some.injEq, Prod.mk.injEq, reduceCtorEq] at he
  obtain ⟨rfl, rfl⟩ := he
  exact ⟨(congrArg _ hn.symm).trans (Function.update_eq_self _ _), rfl⟩

/-! ## Elements of different matrices -/

/-- Elements of matrices without a formula (other than `x`) are below the counter and different. -/
structure ElApart (b : MBld K) (x : Option ℕ) : Prop where
  lt : ∀ o < b.nobj, some o ≠ x → ¬b.E.isForm o → ∀ i j, i < b.E.rows o → j < b.E.cols o → b.E.el o i j < b.nh
  inj : ∀ o < b.nobj, some o ≠ x → ¬b.E.isForm o → ∀ q < b.nobj, some q ≠ x → ¬b.E.isForm q → ∀ l k i j,
    l < b.E.rows q → k < b.E.cols q → i < b.E.rows o → j < b.E.cols o → b.E.el q l k = b.E.el o i j → q = o ∧ l = i ∧ k = j

theorem ElApart.newMat {b b' : MBld K} {x : Option ℕ} (h : ElApart b x) {t : MNew K} {r c o : ℕ}
    (he : b.newMat t r c = some (o, b')) : ElApart b' x ∧ b'.nobj = b.nobj + 1 := by
  unfold MBld.newMat at he
  split at he <;> simp only [Option.some.injEq, Prod.mk.injEq, reduceCtorEq] at he
  obtain ⟨rfl, rfl⟩ := he
  have hform : ∀ {q}, q ≠ b.nobj → ((∃ n e eye, Function.update b.E.kind b.nobj t.kind q = .form n e eye) ↔ b.E.isForm q) := by
    intro q hq; rw [Function.update_of_ne hq]; rfl
  have flat : ∀ {i j}, i < r → j < c → i * c + j < r * c := by intro i j hi hj; nlinarith
  refine ⟨⟨?_, ?_⟩, rfl⟩
  · intro q hq hx hf i j hi hj
    by_cases hqo : q = b.nobj
    · subst hqo
      simp only [Function.update_self] at hi hj ⊢
      have := flat hi hj
      omega
    · simp only [Function.update_of_ne hqo] at hi hj ⊢
      have : q < b.nobj := by change q < b.nobj + 1 at hq; omega
      have := h.lt q this hx (fun hh => hf ((hform hqo).2 hh)) i j hi hj
      exact this.trans_le (Nat.le_add_right _ _)
  · intro p hp hxp hfp q hq hxq hfq l k i j hl hk hi hj hel
    change p < b.nobj + 1 at hp
    change q < b.nobj + 1 at hq
    by_cases hqo : q = b.nobj
    · by_cases hpo : p = b.nobj
      · subst hqo; subst hpo
        simp only [Function.update_self] at hl hk hi hj hel
        obtain ⟨a1, a2⟩ := flat_divmod (i := l) hk
        obtain ⟨a3, a4⟩ := flat_divmod (i := i) hj
        have : l * c + k = i * c + j := by omega
        rw [this] at a1 a2
        exact ⟨rfl, by omega, by omega⟩
      · subst hqo
        simp only [Function.update_self, Function.update_of_ne hpo] at hl hk hi hj hel
        have := h.lt p (by omega) hxp (fun hh => hfp ((hform hpo).2 hh)) i j hi hj
        omega
    · by_cases hpo : p = b.nobj
      · subst hpo
        simp only [Function.update_self, Function.update_of_ne hqo] at hl hk hi hj hel
        have := h.lt q (by omega) hxq (fun hh => hfq ((hform hqo).2 hh)) l k hl hk
        omega
      · simp only [Function.update_of_ne hqo, Function.update_of_ne hpo] at hl hk hi hj hel
        exact h.inj p (by omega) hxp (fun hh => hfp ((hform hpo).2 hh)) q (by omega) hxq (fun hh => hfq ((hform hqo).2 hh))
          l k i j hl hk hi hj hel

theorem ElApart.eye {b b' : MBld K} {x : Option ℕ} (h : ElApart b x) {n o : ℕ} (he : b.eye n = some (o, b')) :
    ElApart b' x := by
  unfold MBld.eye at he
  split at he
  · simp only [Option.some.injEq, Prod.mk.injEq] at he
    obtain ⟨rfl, rfl⟩ := he
    exact h
  · simp only [Option.map_eq_some_iff, Prod.mk.injEq] at he
    obtain ⟨⟨p, b1⟩, h1, rfl, rfl⟩ := he
    obtain ⟨h2, _⟩ := h.newMat h1
    exact ⟨h2.lt, h2.inj⟩

/-- A definition: `o` becomes a formula. -/
theorem ElApart.bind {b b' : MBld K} {o : ℕ} {e : MNode K} (h : ElApart b (some o)) (he : b.bind o e = some b') :
    ElApart b' none := by
  unfold MBld.bind at he
  simp only [Option.map_eq_some_iff] at he
  obtain ⟨⟨p, b1⟩, h1, rfl⟩ := he
  have h2 := h.eye h1
  refine ⟨?_, ?_⟩
  · intro q hq _ hf i j hi hj
    have hqo : q ≠ o := by rintro rfl; exact hf ⟨_, _, _, Function.update_self _ _ _⟩
    simp only [Function.update_of_ne hqo] at hi hj
    exact h2.lt q hq (by simpa using hqo) (fun hh => hf (by simpa [MEnv.isForm, Function.update_of_ne hqo] using hh)) i j hi hj
  · intro p hp _ hfp q hq _ hfq l k i j hl hk hi hj hel
    have hqo : q ≠ o := by rintro rfl; exact hfq ⟨_, _, _, Function.update_self _ _ _⟩
    have hpo : p ≠ o := by rintro rfl; exact hfp ⟨_, _, _, Function.update_self _ _ _⟩
    simp only [Function.update_of_ne hqo, Function.update_of_ne hpo] at hl hk hi hj
    exact h2.inj p hp (by simpa using hpo) (fun hh => hfp (by simpa [MEnv.isForm, Function.update_of_ne hpo] using hh)) q hq
      (by simpa using hqo) (fun hh => hfq (by simpa [MEnv.isForm, Function.update_of_ne hqo] using hh)) l k i j hl hk hi hj hel

/-- In every program matrices have elements of their own. -/
theorem Built.apart {b : MBld K} {d : ℕ → Option (MTerm K)} (h : Built b d) : ElApart b none := by
  induction h with
  | init => exact ⟨fun o ho => absurd ho (Nat.not_lt_zero _), fun o ho => absurd ho (Nat.not_lt_zero _)⟩
  | new t r c _ he ih => exact (ih.newMat he).1
  | eye n _ he ih => exact ih.eye he
  | @define b d b' o t _ _ _ _ he ih =>
      unfold MBld.defNew at he
      simp only [Option.map_eq_some_iff, Prod.mk.injEq] at he
      obtain ⟨b1, h1, rfl, rfl⟩ := he
      refine ElApart.bind ⟨?_, ?_⟩ h1
      · intro q hq hx
        have : q ≠ b.nobj := by simpa using hx
        exact ih.lt q (by change q < b.nobj + 1 at hq; omega) (by simp)
      · intro p hp hxp hfp q hq hxq
        have h1 : p ≠ b.nobj := by simpa using hxp
        have h2 : q ≠ b.nobj := by simpa using hxq
        exact ih.inj p (by change p < b.nobj + 1 at hp; omega) (by simp) hfp q (by change q < b.nobj + 1 at hq; omega) (by simp)
  | @redefine b d b' o t _ _ _ _ _ _ _ _ he ih =>
      unfold MBld.redef at he
      refine ElApart.bind ⟨?_, ?_⟩ he
      · exact fun q hq _ => ih.lt q hq (by simp)
      · exact fun p hp _ hfp q hq _ => ih.inj p hp (by simp) hfp q hq (by simp)

/-! ## Steps of the program -/

/-- A step of the program keeps matrices and registered ones. -/
structure NStep (s s' : NBld K) : Prop where
  ext : Grows s.b s'.b
  kinds : s'.b.E.kind = s.b.E.kind
  pads : s'.b.E.P = s.b.E.P
  reg : ∀ n m o, s.reg n m = some o → s'.reg n m = some o
  layers : s'.layers = s.layers
  newReg : ∀ n m o, s'.reg n m = some o → s.reg n m = some o ∨ s.b.nobj ≤ o
  newEl : ∀ o, s.b.nobj ≤ o → o < s'.b.nobj → ∀ i j, s.b.nh ≤ s'.b.E.el o i j

theorem NStep.refl (s : NBld K) : NStep s s :=
  ⟨.refl _, rfl, rfl, fun _ _ _ h => h, rfl, fun _ _ _ h => Or.inl h, fun o h1 h2 => absurd h1 (not_le.2 h2)⟩

theorem NStep.trans {a b c : NBld K} (h : NStep a b) (h' : NStep b c) : NStep a c :=
  ⟨h.ext.trans h'.ext, h'.kinds.trans h.kinds, h'.pads.trans h.pads, fun n m o ho => h'.reg n m o (h.reg n m o ho), h'.layers.trans h.layers,
    fun n m o ho => (h'.newReg n m o ho).elim (h.newReg n m o) fun hh => Or.inr (h.ext.nobj.trans hh), fun o h1 h2 i j => by
      by_cases hb : o < b.b.nobj
      · rw [h'.ext.el o hb]; exact h.newEl o h1 hb i j
      · exact h.ext.nh.trans (h'.newEl o (not_lt.1 hb) h2 i j)⟩

/-- Between two steps: the definitions are `d` and the registered identity matrices `Y`; the registered matrices of ones
hold ones, the matrices `O` are different numeric matrices, none of them registered. -/
structure NI (d : ℕ → Option (MTerm K)) (Y : ℕ → Option ℕ) (s : NBld K) (O : List ℕ) : Prop where
  built : Built s.b d
  eyes : s.b.eyes = Y
  reg : ∀ n m o, s.reg n m = some o → IsConst s.b o n m fun _ _ => 1
  nodup : O.Nodup
  own : ∀ o ∈ O, o < s.b.nobj ∧ s.b.E.kind o = .num ∧ (∀ n m, s.reg n m ≠ some o) ∧ ∀ n, Y n ≠ some o

variable {d : ℕ → Option (MTerm K)} {Y : ℕ → Option ℕ}

theorem NI.perm {s : NBld K} {O O' : List ℕ} (h : NI d Y s O) (hp : O.Perm O') : NI d Y s O' :=
  ⟨h.built, h.eyes, h.reg, hp.nodup_iff.1 h.nodup, fun o ho => h.own o (hp.mem_iff.2 ho)⟩

theorem NI.ones {s : NBld K} {O : List ℕ} (h : NI d Y s O) {n m : ℕ} (hn : 0 < n) (hm : 0 < m) :
    ∃ o s', s.ones n m = some (o, s') ∧ NI d Y s' O ∧ NStep s s' ∧ s'.reg n m = some o ∧ s'.drops = s.drops ∧ s'.pool = s.pool := by
  cases hr : s.reg n m with
  | some o => exact ⟨o, s, by rw [NBld.ones, hr], h, .refl s, hr, rfl, rfl⟩
  | none =>
    obtain ⟨b', h1, h2, h3, h4, h5, hel⟩ := newMat_const s.b (fun _ _ => 1) hn hm
    have hk := newMat_kinds (h.built.inv.new _ le_rfl) h1
    have hreg : ∀ p q o, (if p = n ∧ q = m then some s.b.nobj else s.reg p q) = some o →
        (p = n ∧ q = m ∧ o = s.b.nobj) ∨ s.reg p q = some o := by
      intro p q o ho
      split at ho
      · next hh => exact Or.inl ⟨hh.1, hh.2, (Option.some.inj ho).symm⟩
      · exact Or.inr ho
    refine ⟨s.b.nobj, { s with b := b', reg := fun p q => if p = n ∧ q = m then some s.b.nobj else s.reg p q },
      by rw [NBld.ones, hr]; simp only [h1, Option.map_some], ?_, ⟨h2, hk.1, hk.2, ?_, rfl,
        fun p q o ho => (hreg p q o ho).elim (fun hh => Or.inr hh.2.2.ge) Or.inl, fun o h6 h7 i j => ?_⟩, by simp, rfl, rfl⟩
    · refine ⟨.new _ n m h.built h1, h4.trans h.eyes, fun p q o ho => ?_, h.nodup, fun o ho => ?_⟩
      · rcases hreg p q o ho with ⟨rfl, rfl, rfl⟩ | h6
        · exact h3
        · exact (h.reg p q o h6).ext h2
      · obtain ⟨a1, a2, a3, a4⟩ := h.own o ho
        refine ⟨a1.trans_le h2.nobj, (h2.kind o a1).trans a2, fun p q hh => ?_, a4⟩
        rcases hreg p q o hh with ⟨_, _, rfl⟩ | h6
        · exact lt_irrefl _ a1
        · exact a3 p q h6
    · intro p q o ho
      show (if p = n ∧ q = m then _ else _) = _
      rw [if_neg, ho]
      rintro ⟨rfl, rfl⟩
      rw [hr] at ho; cases ho
    · obtain rfl : o = s.b.nobj := by change o < b'.nobj at h7; omega
      exact hel i j

/-- A new matrix of the network. -/
theorem NI.newOwn {s : NBld K} {O : List ℕ} (h : NI d Y s O) (A : ℕ → ℕ → K) {r c : ℕ} (hr : 0 < r) (hc : 0 < c) :
    ∃ b', s.b.newMat (.num A) r c = some (s.b.nobj, b') ∧ NI d Y { s with b := b' } (s.b.nobj :: O) ∧ Grows s.b b' ∧
      IsConst b' s.b.nobj r c A ∧ b'.E.kind = s.b.E.kind ∧ b'.E.P = s.b.E.P ∧
      b'.nobj = s.b.nobj + 1 ∧ ∀ i j, s.b.nh ≤ b'.E.el s.b.nobj i j := by
  obtain ⟨b', h1, h2, h3, h4, h5, hel⟩ := newMat_const s.b A hr hc
  obtain ⟨hk, hp⟩ := newMat_kinds (h.built.inv.new _ le_rfl) h1
  refine ⟨b', h1, ⟨.new _ r c h.built h1, h4.trans h.eyes,
    fun n m o ho => (h.reg n m o ho).ext h2, List.nodup_cons.2 ⟨fun hh => lt_irrefl _ (h.own _ hh).1, h.nodup⟩,
    fun o ho => ?_⟩, h2, h3, hk, hp, h5, hel⟩
  rcases List.mem_cons.1 ho with rfl | ho
  · refine ⟨h3.lt, h3.kind, fun n m hh => lt_irrefl _ (h.reg n m _ hh).lt, fun n hn => ?_⟩
    rw [← h.eyes] at hn
    exact lt_irrefl _ (h.built.inv.eyes n _ hn).1
  · obtain ⟨a1, a2, a3⟩ := h.own o ho
    exact ⟨a1.trans_le h2.nobj, (h2.kind o a1).trans a2, a3⟩

/-- The dimensions of an expression stay the same. -/
theorem Grows.dims {b b' : MBld K} (h : Grows b b') {t : MTerm K} (ht : ∀ q ∈ t.objs, q < b.nobj) :
    t.node.dims b'.E = t.node.dims b.E :=
  dims_congr t.node fun q hq => ⟨h.rows q (ht q (by rwa [objs_node] at hq)), h.cols q (ht q (by rwa [objs_node] at hq))⟩

/-- The matrices of the network: `R`, the dropout matrices in use, the pool. -/
def NBld.owned (s : NBld K) (R : List ℕ) : List ℕ := R ++ (s.drops.map Prod.snd ++ s.pool)

theorem NI.dropout {s : NBld K} {R : List ℕ} (h : NI d Y s (s.owned R)) {t : MTerm K} (p : K) {r c : ℕ}
    (hd : t.node.dims s.b.E = (r, c)) (hr : 0 < r) (hc : 0 < c) :
    ∃ D s', s.dropout t p = some (.bin .had (.mat D) t, s') ∧ NI d Y s' (s'.owned R) ∧ NStep s s' ∧
      s'.drops = s.drops ++ [(1 - p, D)] ∧ D < s'.b.nobj ∧ s'.b.E.rows D = r ∧ s'.b.E.cols D = c := by
  unfold NBld.dropout
  cases hf : s.pool.find? (fun o => s.b.E.rows o == (t.node.dims s.b.E).1 && s.b.E.cols o == (t.node.dims s.b.E).2) with
  | some D =>
    have hm := List.mem_of_find?_eq_some hf
    have hp := List.find?_some hf
    rw [hd] at hp
    simp only [Bool.and_eq_true, beq_iff_eq] at hp
    refine ⟨D, _, rfl, ?_, ⟨.refl _, rfl, rfl, fun _ _ _ h => h, rfl,
      fun _ _ _ h => Or.inl h, fun o h1 h2 => absurd h1 (not_le.2 h2)⟩, rfl, ?_, hp.1, hp.2⟩
    · have h' : NI d Y { s with drops := s.drops ++ [(1 - p, D)], pool := s.pool.erase D } (s.owned R) :=
        ⟨h.built, h.eyes, h.reg, h.nodup, h.own⟩
      refine h'.perm ?_
      simp only [NBld.owned, List.map_append, List.map_cons, List.map_nil, List.append_assoc, List.singleton_append]
      exact List.Perm.append_left _ (List.Perm.append_left _ (List.perm_cons_erase hm))
    · exact (h.own D (by simp [NBld.owned, hm])).1
  | none =>
    obtain ⟨b', h1, h2, h3, h4, h5, h6, h7, h8⟩ := h.newOwn (fun _ _ => 0) hr hc
    refine ⟨s.b.nobj, { s with b := b', drops := s.drops ++ [(1 - p, s.b.nobj)] }, by simp only [hd, h1, Option.map_some], ?_,
      ⟨h3, h5, h6, fun _ _ _ h => h, rfl, fun _ _ _ h => Or.inl h, fun o k1 k2 i j => by
        obtain rfl : o = s.b.nobj := by change o < b'.nobj at k2; omega
        exact h8 i j⟩, rfl, h4.lt, h4.rows, h4.cols⟩
    have h' : NI d Y { s with b := b', drops := s.drops ++ [(1 - p, s.b.nobj)] } (s.b.nobj :: s.owned R) :=
      ⟨h2.built, h2.eyes, h2.reg, h2.nodup, h2.own⟩
    refine h'.perm ?_
    simp only [NBld.owned, List.map_append, List.map_cons, List.map_nil, List.append_assoc, List.singleton_append]
    rw [← List.append_assoc, ← List.append_assoc]
    exact List.perm_middle.symm

/-! ## Layers -/

/-- The matrix `o` exists and has the dimensions `r × c`. -/
structure HasDims (b : MBld K) (o r c : ℕ) : Prop where
  lt : o < b.nobj
  rows : b.E.rows o = r
  cols : b.E.cols o = c

theorem HasDims.ext {b b' : MBld K} {o r c : ℕ} (h : HasDims b o r c) (e : Grows b b') : HasDims b' o r c :=
  ⟨h.lt.trans_le e.nobj, (e.rows o h.lt).trans h.rows, (e.cols o h.lt).trans h.cols⟩

theorem IsConst.hasDims {b : MBld K} {o r c : ℕ} {A : ℕ → ℕ → K} (h : IsConst b o r c A) : HasDims b o r c :=
  ⟨h.lt, h.rows, h.cols⟩

theorem HasDims.dims {b : MBld K} {o r c : ℕ} (h : HasDims b o r c) : (MNode.obj o).dims b.E = (r, c) := by
  rw [MNode.dims, h.rows, h.cols]

/-- The matrices of one layer: weights, biases, dropout, and the ones that broadcast the biases. -/
structure Row where
  w : ℕ
  b : ℕ
  d : ℕ
  o : ℕ

/-- The expression of a layer. -/
def NNConf.layerTerm (C : NNConf K) (t : MTerm K) (r : Row) : MTerm K :=
  .bin .had (.mat r.d) (.un C.actM (.bin .add (.bin .mul t (.un .tr (.mat r.w))) (.un .tr (.bin .mul (.mat r.b) (.mat r.o)))))

/-- The dimensions of the matrices of a layer. -/
structure RowOk (s : NBld K) (batch n m : ℕ) (r : Row) : Prop where
  w : HasDims s.b r.w n m
  b : HasDims s.b r.b n 1
  d : HasDims s.b r.d batch n
  o : s.reg 1 batch = some r.o

theorem RowOk.step {s s' : NBld K} {batch n m : ℕ} {r : Row} (h : RowOk s batch n m r) (e : NStep s s') :
    RowOk s' batch n m r := ⟨h.w.ext e.ext, h.b.ext e.ext, h.d.ext e.ext, e.reg _ _ _ h.o⟩

/-- The outputs of every layer are the inputs of the next one. -/
def LayerChain : ℕ → List (ℕ × ℕ) → ℕ → Prop
  | i, [], o => i = o
  | i, (n, m) :: ls, o => m = i ∧ 0 < n ∧ LayerChain n ls o

/-- An expression of existing matrices with the dimensions `r × c`, in which all dimensions fit. -/
structure TermOk (b : MBld K) (t : MTerm K) (r c : ℕ) : Prop where
  objs : ∀ q ∈ t.objs, q < b.nobj
  dims : t.node.dims b.E = (r, c)
  fits : t.Fits b.E

theorem fits_congr {E F : MEnv K} : ∀ t : MTerm K, (∀ q ∈ t.objs, F.rows q = E.rows q ∧ F.cols q = E.cols q) →
    t.Fits E → t.Fits F
  | .mat _, _, _ => trivial
  | .bin op a b, h, hf => by
      have ha : ∀ q ∈ a.objs, F.rows q = E.rows q ∧ F.cols q = E.cols q := fun q hq => h q (by simp [MTerm.objs, hq])
      have hb : ∀ q ∈ b.objs, F.rows q = E.rows q ∧ F.cols q = E.cols q := fun q hq => h q (by simp [MTerm.objs, hq])
      refine ⟨fits_congr a ha hf.1, fits_congr b hb hf.2.1, ?_⟩
      rw [dims_congr a.node (E := E) (F := F) (by rw [objs_node]; exact ha),
        dims_congr b.node (E := E) (F := F) (by rw [objs_node]; exact hb)]
      exact hf.2.2
  | .un op a, h, hf => by
      have ha : ∀ q ∈ a.objs, F.rows q = E.rows q ∧ F.cols q = E.cols q := fun q hq => h q (by simpa [MTerm.objs] using hq)
      refine ⟨fits_congr a ha hf.1, ?_⟩
      rw [dims_congr a.node (E := E) (F := F) (by rw [objs_node]; exact ha)]
      exact hf.2

theorem TermOk.ext {b b' : MBld K} {t : MTerm K} {r c : ℕ} (h : TermOk b t r c) (e : Grows b b') : TermOk b' t r c :=
  ⟨fun q hq => (h.objs q hq).trans_le e.nobj, (e.dims h.objs).trans h.dims,
    fits_congr t (fun q hq => ⟨e.rows q (h.objs q hq), e.cols q (h.objs q hq)⟩) h.fits⟩

theorem TermOk.mul {b : MBld K} {t u : MTerm K} {r m c : ℕ} (h : TermOk b t r m) (h' : TermOk b u m c) :
    TermOk b (.bin .mul t u) r c :=
  ⟨fun q hq => (List.mem_append.1 hq).elim (h.objs q) (h'.objs q), by rw [MTerm.node, MNode.dims, h.dims, h'.dims]; rfl,
    h.fits, h'.fits, by rw [h.dims, h'.dims]; simp [MBin.dimOk]⟩

theorem TermOk.had {b : MBld K} {t u : MTerm K} {r c : ℕ} (h : TermOk b t r c) (h' : TermOk b u r c) :
    TermOk b (.bin .had t u) r c :=
  ⟨fun q hq => (List.mem_append.1 hq).elim (h.objs q) (h'.objs q), by rw [MTerm.node, MNode.dims, h.dims, h'.dims]; rfl,
    h.fits, h'.fits, by rw [h.dims, h'.dims]; simp [MBin.dimOk]⟩

theorem TermOk.add {b : MBld K} {t u : MTerm K} {r c : ℕ} (h : TermOk b t r c) (h' : TermOk b u r c) :
    TermOk b (.bin .add t u) r c :=
  ⟨fun q hq => (List.mem_append.1 hq).elim (h.objs q) (h'.objs q), by rw [MTerm.node, MNode.dims, h.dims, h'.dims]; rfl,
    h.fits, h'.fits, by rw [h.dims, h'.dims]; simp [MBin.dimOk]⟩

theorem TermOk.sub {b : MBld K} {t u : MTerm K} {r c : ℕ} (h : TermOk b t r c) (h' : TermOk b u r c) :
    TermOk b (.bin .sub t u) r c :=
  ⟨fun q hq => (List.mem_append.1 hq).elim (h.objs q) (h'.objs q), by rw [MTerm.node, MNode.dims, h.dims, h'.dims]; rfl,
    h.fits, h'.fits, by rw [h.dims, h'.dims]; simp [MBin.dimOk]⟩

theorem TermOk.map {b : MBld K} {t : MTerm K} {r c : ℕ} (h : TermOk b t r c) (f df : K → K) :
    TermOk b (.un (.map f df) t) r c := ⟨h.objs, h.dims, h.fits, rfl⟩

theorem TermOk.smul {b : MBld K} {t : MTerm K} {r c : ℕ} (h : TermOk b t r c) (v : K) :
    TermOk b (.un (.smul v) t) r c := ⟨h.objs, h.dims, h.fits, rfl⟩

theorem TermOk.tr {b : MBld K} {t : MTerm K} {r c : ℕ} (h : TermOk b t r c) : TermOk b (.un .tr t) c r :=
  ⟨h.objs, by rw [MTerm.node, MNode.dims, h.dims], h.fits, rfl⟩

theorem HasDims.term {b : MBld K} {o r c : ℕ} (h : HasDims b o r c) : TermOk b (.mat o) r c :=
  ⟨fun q hq => by rw [List.mem_singleton.1 hq]; exact h.lt, h.dims, trivial⟩

theorem NNConf.layer_spec (C : NNConf K) {s : NBld K} {R : List ℕ} (h : NI d Y s (s.owned R)) (hb : 0 < C.batch) {l : ℕ × ℕ}
    {n m : ℕ} (hn : 0 < n) (hw : HasDims s.b l.1 n m) (hbb : HasDims s.b l.2 n 1) {t : MTerm K} (ht : TermOk s.b t C.batch m) :
    ∃ r s', C.layer l (t, s) = some (C.layerTerm t r, s') ∧ NI d Y s' (s'.owned R) ∧ NStep s s' ∧ r.w = l.1 ∧ r.b = l.2 ∧
      s'.drops = s.drops ++ [(1 - C.p, r.d)] ∧ RowOk s' C.batch n m r ∧ TermOk s'.b (C.layerTerm t r) C.batch n := by
  obtain ⟨o, s1, e1, i1, st1, r1, d1, p1⟩ := h.ones (n := 1) one_pos hb
  have i1' : NI d Y s1 (s1.owned R) := by rw [NBld.owned, d1, p1]; exact i1
  have ho := (i1.reg 1 C.batch o r1).hasDims
  have ht1 := ht.ext st1.ext
  have hw1 := hw.ext st1.ext
  have hb1 := hbb.ext st1.ext
  have hT := (((ht1.mul hw1.term.tr).add (hb1.term.mul ho.term).tr).map C.act C.dact)
  obtain ⟨D, s2, e2, i2, st2, d2, lt2, rr2, cc2⟩ := i1'.dropout (t := .un C.actM (.bin .add (.bin .mul t (.un .tr (.mat l.1)))
    (.un .tr (.bin .mul (.mat l.2) (.mat o))))) C.p hT.dims hb hn
  have hD : HasDims s2.b D C.batch n := ⟨lt2, rr2, cc2⟩
  refine ⟨⟨l.1, l.2, D, o⟩, s2, ?_, i2, st1.trans st2, rfl, rfl, by rw [d2, d1],
    ⟨hw1.ext st2.ext, hb1.ext st2.ext, hD, st2.reg _ _ _ r1⟩, hD.term.had (hT.ext st2.ext)⟩
  have hc : ((MTerm.mat l.2 : MTerm K).node.dims s.b.E).2 = 1 ∨ ((MTerm.mat l.2 : MTerm K).node.dims s.b.E).1 = 1 :=
    Or.inl hbb.cols
  simp only [NNConf.layer, NBld.broadcastCol, if_pos hc, e1, Option.map_some, Option.bind_some]
  exact e2

theorem NNConf.layers_spec (C : NNConf K) (hb : 0 < C.batch) {R : List ℕ} : ∀ (ls shapes : List (ℕ × ℕ)) {s : NBld K}
    {t : MTerm K} {inp out : ℕ}, NI d Y s (s.owned R) →
    List.Forall₂ (fun l sh => HasDims s.b l.1 sh.1 sh.2 ∧ HasDims s.b l.2 sh.1 1) ls shapes →
    LayerChain inp shapes out → TermOk s.b t C.batch inp →
    ∃ rows s', ls.foldlM (fun r l => C.layer l r) (t, s) = some (rows.foldl C.layerTerm t, s') ∧ NI d Y s' (s'.owned R) ∧
      NStep s s' ∧ rows.map (fun r => (r.w, r.b)) = ls ∧ s'.drops = s.drops ++ rows.map (fun r => (1 - C.p, r.d)) ∧
      List.Forall₂ (fun r sh => RowOk s' C.batch sh.1 sh.2 r) rows shapes ∧
      TermOk s'.b (rows.foldl C.layerTerm t) C.batch out
  | [], _, s, t, inp, out, h, hf, hc, ht => by
    cases hf
    obtain rfl : inp = out := hc
    exact ⟨[], s, rfl, h, .refl s, rfl, by simp, .nil, ht⟩
  | l :: ls, [], _, _, _, _, _, hf, _, _ => by cases hf
  | l :: ls, (n, m) :: shapes, s, t, inp, out, h, hf, hc, ht => by
    cases hf with
    | cons h1 h2 =>
      obtain ⟨rfl, hn, hc⟩ := hc
      obtain ⟨r, s1, e1, i1, st1, w1, b1, d1, ok1, t1⟩ := C.layer_spec h hb hn h1.1 h1.2 ht
      obtain ⟨rows, s2, e2, i2, st2, w2, d2, ok2, t2⟩ := C.layers_spec hb ls shapes i1
        (h2.imp fun _ _ hh => ⟨hh.1.ext st1.ext, hh.2.ext st1.ext⟩) hc t1
      refine ⟨r :: rows, s2, ?_, i2, st1.trans st2, ?_, ?_, .cons (ok1.step st2) ok2, t2⟩
      · rw [List.foldlM_cons, e1]; exact e2
      · rw [List.map_cons, w2, w1, b1]
      · rw [d2, d1, List.map_cons, List.append_assoc]; rfl

/-! ## The network and the error -/

theorem LayerChain.pos : ∀ {ls : List (ℕ × ℕ)} {i o : ℕ}, 0 < i → LayerChain i ls o → 0 < o
  | [], _, _, hi, h => by obtain rfl := h; exact hi
  | (_, _) :: _, _, _, _, h => h.2.2.pos h.2.1

/-- The expression of the final layer. -/
def NNConf.softTerm (C : NNConf K) (t : MTerm K) (o1 o2 : ℕ) : MTerm K :=
  .un C.expM (.bin .sub t (.bin .mul (.un C.logM (.bin .mul (.un C.expM t) (.mat o1))) (.mat o2)))

/-- The expression of the error. -/
def NNConf.errTerm (C : NNConf K) (y : ℕ) (t : MTerm K) (e1 e2 : ℕ) : MTerm K :=
  .un (.smul (-1)) (.bin .mul (.bin .mul (.mat e1) (.bin .had (.mat y) (.un C.logM t))) (.mat e2))

theorem NNConf.networkLayers_spec (C : NNConf K) (hb : 0 < C.batch) (hi : 0 < C.inp) {s : NBld K} {R : List ℕ}
    (h : NI d Y s (s.owned R)) {shapes : List (ℕ × ℕ)}
    (hf : List.Forall₂ (fun l sh => HasDims s.b l.1 sh.1 sh.2 ∧ HasDims s.b l.2 sh.1 1) s.layers shapes)
    (hc : LayerChain C.inp shapes C.out) :
    ∃ x y rows o1 o2 s', C.networkLayers s = some (x, y, C.softTerm (rows.foldl C.layerTerm (.mat x)) o1 o2, s') ∧
      NI d Y s' (s'.owned (x :: y :: R)) ∧ NStep s s' ∧ rows.map (fun r => (r.w, r.b)) = s.layers ∧
      s'.drops = rows.map (fun r => (1 - C.p, r.d)) ∧ List.Forall₂ (fun r sh => RowOk s' C.batch sh.1 sh.2 r) rows shapes ∧
      HasDims s'.b x C.batch C.inp ∧ HasDims s'.b y C.batch C.out ∧ s'.reg C.out 1 = some o1 ∧ s'.reg 1 C.out = some o2 ∧
      TermOk s'.b (C.softTerm (rows.foldl C.layerTerm (.mat x)) o1 o2) C.batch C.out := by
  have ho := hc.pos hi
  obtain ⟨b1, e1, i1, g1, c1, k1, p1, n1, el1⟩ := h.newOwn (fun _ _ => 0) hb hi
  obtain ⟨b2, e2, i2, g2, c2, k2, p2, n2, el2⟩ := i1.newOwn (fun _ _ => 0) hb ho
  have i3 : NI d Y { s with b := b2, pool := s.pool ++ s.drops.map Prod.snd, drops := [] }
      (NBld.owned { s with b := b2, pool := s.pool ++ s.drops.map Prod.snd, drops := [] } (s.b.nobj :: b1.nobj :: R)) := by
    have h' : NI d Y { s with b := b2, pool := s.pool ++ s.drops.map Prod.snd, drops := [] } (b1.nobj :: s.b.nobj :: s.owned R) :=
      ⟨i2.built, i2.eyes, i2.reg, i2.nodup, i2.own⟩
    refine h'.perm ?_
    simp only [NBld.owned, List.map_nil, List.nil_append, List.cons_append]
    refine (List.Perm.swap _ _ _).trans (List.Perm.cons _ (List.Perm.cons _ (List.Perm.append_left _ ?_)))
    exact List.perm_append_comm
  have g12 : Grows s.b b2 := g1.trans g2
  have hx := c1.hasDims.ext g2
  have hy := c2.hasDims
  obtain ⟨rows, s4, e4, i4, st4, w4, d4, ok4, t4⟩ := C.layers_spec hb s.layers shapes i3
    (hf.imp fun _ _ hh => ⟨hh.1.ext g12, hh.2.ext g12⟩) hc hx.term
  have te := t4.map C.exp C.dexp
  obtain ⟨o1, s5, e5, i5, st5, r5, d5, p5⟩ := i4.ones (n := C.out) (m := 1) ho one_pos
  have h51 := (i5.reg _ _ _ r5).hasDims
  have tl := ((te.ext st5.ext).mul h51.term).map C.log C.dlog
  obtain ⟨o2, s6, e6, i6, st6, r6, d6, p6⟩ := i5.ones (n := 1) (m := C.out) one_pos ho
  have h62 := (i6.reg _ _ _ r6).hasDims
  have tf := (((t4.ext st5.ext).ext st6.ext).sub ((tl.ext st6.ext).mul h62.term)).map C.exp C.dexp
  refine ⟨s.b.nobj, b1.nobj, rows, o1, o2, s6, ?_, ?_, ?_, w4, by rw [d6, d5, d4]; rfl,
    ok4.imp fun _ _ hh => (hh.step st5).step st6, ((hx.ext st4.ext).ext st5.ext).ext st6.ext,
    ((hy.ext st4.ext).ext st5.ext).ext st6.ext, st6.reg _ _ _ r5, r6, tf⟩
  · simp only [NNConf.networkLayers, e1, Option.bind_some]
    rw [e2]
    simp only [Option.bind_some]
    rw [e4]
    have q1 : ((MTerm.un C.expM (rows.foldl C.layerTerm (.mat s.b.nobj))).node.dims s4.b.E).2 = C.out := congrArg Prod.snd te.dims
    have q2 : ((rows.foldl C.layerTerm (.mat s.b.nobj)).node.dims s4.b.E).2 = C.out := by rw [t4.dims]
    simp only [Option.bind_some, NBld.softMaxCol, NBld.sigmaCol, q1, q2, e5, Option.map_some, e6]
    rfl
  · rw [NBld.owned, d6, p6, d5, p5]; exact i6
  · have st : NStep s { s with b := b2, pool := s.pool ++ s.drops.map Prod.snd, drops := [] } := by
      refine ⟨g12, k2.trans k1, p2.trans p1, fun _ _ _ h => h, rfl, fun _ _ _ h => Or.inl h, fun o h1 h2 i j => ?_⟩
      change o < b2.nobj at h2
      change b2.nobj = b1.nobj + 1 at n2
      by_cases hb : o < b1.nobj
      · obtain rfl : o = s.b.nobj := by omega
        show _ ≤ b2.E.el _ i j
        have := g2.el s.b.nobj hb
        change b2.E.el s.b.nobj = b1.E.el s.b.nobj at this
        rw [this]; exact el1 i j
      · obtain rfl : o = b1.nobj := by omega
        exact g1.nh.trans (el2 i j)
    exact ((st.trans st4).trans st5).trans st6

/-- Without definitions there are no convolutions. -/
theorem Built.pads_none {b : MBld K} {d : ℕ → Option (MTerm K)} (h : Built b d) : (∀ o, d o = none) → b.E.pads = ∅ := by
  have hnew : ∀ {b b' : MBld K} {t r c o}, b.newMat t r c = some (o, b') → b'.E.pads = b.E.pads := by
    intro b b' t r c o he
    unfold MBld.newMat at he
    split at he <;> simp only [Option.some.injEq, Prod.mk.injEq, reduceCtorEq] at he
    obtain ⟨rfl, rfl⟩ := he
    rfl
  induction h with
  | init => exact fun _ => rfl
  | new t r c _ he ih => exact fun hd => (hnew he).trans (ih hd)
  | eye n _ he ih =>
    intro hd
    unfold MBld.eye at he
    split at he
    · simp only [Option.some.injEq, Prod.mk.injEq] at he
      obtain ⟨rfl, rfl⟩ := he
      exact ih hd
    · simp only [Option.map_eq_some_iff, Prod.mk.injEq] at he
      obtain ⟨⟨p, b1⟩, h1, rfl, rfl⟩ := he
      have := hnew h1
      exact this.trans (ih hd)
  | @define _ _ _ o t _ _ _ _ _ _ => exact fun hd => by have := hd o; rw [Function.update_self] at this; cases this
  | redefine o t _ _ _ _ _ _ _ _ _ _ => exact fun hd => by have := hd o; rw [Function.update_self] at this; cases this

/-- The first definition of a program. -/
theorem defNew_first {b : MBld K} (h : Built b fun _ => none) (hn : ∀ n, b.eyes n = none) {t : MTerm K} {r c : ℕ}
    (ht : TermOk b t r c) (hc : ¬t.IsCopy b.E) : ∃ b' n e, b.defNew t = some (b.nobj, b') ∧
      Built b' (Function.update (fun _ => none) b.nobj (some t)) ∧ Grows b b' ∧ b'.nobj = b.nobj + 2 ∧
      b'.E.kind b.nobj = .form n e (b.nobj + 1) ∧ e.strip = t.node ∧ b'.E.pads = t.node.reqs b.E ∧
      ∀ n p, b'.eyes n = some p → p = b.nobj + 1 := by
  have hp := h.pads_none fun _ => rfl
  obtain ⟨rank, hwf⟩ := h.inv.wf
  obtain ⟨o, b', h1, h2, h3, h4⟩ := C53_define_succeeds h t ht.objs ht.fits hc
  have h1' := h1
  unfold MBld.defNew MBld.bind MBld.eye at h1
  simp only [hn, Option.map_map, Option.map_eq_some_iff] at h1
  obtain ⟨⟨p, b1⟩, h5, h6⟩ := h1
  unfold MBld.newMat at h5
  split at h5 <;> simp only [Option.some.injEq, Prod.mk.injEq, reduceCtorEq] at h5
  obtain ⟨rfl, rfl⟩ := h5
  simp only [Function.comp, Prod.mk.injEq] at h6
  obtain ⟨rfl, rfl⟩ := h6
  refine ⟨_, _, _, h1', h2, ?_, rfl, Function.update_self _ _ _, by rw [strip_clone, strip_build], ?_, ?_⟩
  rotate_left
  · show b.E.pads ∪ (t.build b.next).1.reqs b.E = _
    rw [hp, Set.empty_union, ← reqs_strip, strip_build]
  · intro n p hh
    change Function.update b.eyes _ _ n = some p at hh
    by_cases hn' : n = ((t.build b.next).1.dims b.E).2
    · subst hn'; rw [Function.update_self] at hh; exact (Option.some.inj hh).symm
    · rw [Function.update_of_ne hn', hn] at hh; cases hh
  have ne : ∀ {o}, o < b.nobj → o ≠ b.nobj ∧ o ≠ b.nobj + 1 := fun h => ⟨by omega, by omega⟩
  refine ⟨by show b.nobj ≤ b.nobj + 1 + 1; omega, Nat.le_add_right _ _, ?_, ?_, ?_, ?_, ?_⟩
  · intro o ho
    exact (Function.update_of_ne (ne ho).1 _ _).trans (Function.update_of_ne (ne ho).2 _ _)
  · intro o ho
    exact (Function.update_of_ne (ne ho).1 _ _).trans (Function.update_of_ne (ne ho).2 _ _)
  · intro o ho
    exact (Function.update_of_ne (ne ho).1 _ _).trans (Function.update_of_ne (ne ho).2 _ _)
  · intro o ho
    exact Function.update_of_ne (ne ho).2 _ _
  · intro x hx
    exact if_neg (fun hh => by have := hh.1; omega)

/-- Weights and biases of the layers. -/
def layerParams (ls : List (ℕ × ℕ)) : List ℕ := ls.flatMap fun l => [l.1, l.2]

theorem addLayers_spec : ∀ (ls : List (LayerDef K)) {s : NBld K}, NI d Y s (layerParams s.layers) → s.drops = [] → s.pool = [] →
    (∀ l ∈ ls, 0 < l.n ∧ 0 < l.m) →
    ∃ s' new, ls.foldlM NBld.addLayer s = some s' ∧ NI d Y s' (layerParams s'.layers) ∧ s'.drops = [] ∧ s'.pool = [] ∧
      s'.layers = s.layers ++ new ∧ Grows s.b s'.b ∧
      List.Forall₂ (fun p l => IsConst s'.b p.1 l.n l.m l.W ∧ IsConst s'.b p.2 l.n 1 l.b) new ls
  | [], s, h, hd, hp, _ => ⟨s, [], rfl, h, hd, hp, by simp, .refl _, .nil⟩
  | l :: ls, s, h, hd, hp, hl => by
    obtain ⟨hn, hm⟩ := hl l (by simp)
    obtain ⟨b1, e1, i1, g1, c1, _⟩ := h.newOwn l.W hn hm
    obtain ⟨b2, e2, i2, g2, c2, _⟩ := i1.newOwn l.b hn one_pos
    have i3 : NI d Y { s with b := b2, layers := s.layers ++ [(s.b.nobj, b1.nobj)] }
        (layerParams (s.layers ++ [(s.b.nobj, b1.nobj)])) := by
      have h' : NI d Y { s with b := b2, layers := s.layers ++ [(s.b.nobj, b1.nobj)] }
          (b1.nobj :: s.b.nobj :: layerParams s.layers) := ⟨i2.built, i2.eyes, i2.reg, i2.nodup, i2.own⟩
      refine h'.perm ?_
      simp only [layerParams, List.flatMap_append, List.flatMap_cons, List.flatMap_nil, List.append_nil]
      exact (List.Perm.swap _ _ _).trans (List.perm_append_comm (l₁ := [s.b.nobj, b1.nobj]))
    obtain ⟨s', new, e4, i4, d4, p4, l4, g4, f4⟩ := addLayers_spec ls i3 hd hp fun x hx => hl x (by simp [hx])
    refine ⟨s', (s.b.nobj, b1.nobj) :: new, ?_, i4, d4, p4, by rw [l4]; simp, (g1.trans g2).trans g4,
      .cons ⟨(c1.ext g2).ext g4, c2.ext g4⟩ f4⟩
    rw [List.foldlM_cons]
    have : s.addLayer l = some { s with b := b2, layers := s.layers ++ [(s.b.nobj, b1.nobj)] } := by
      simp only [NBld.addLayer, e1, Option.bind_some]
      rw [e2]; rfl
    rw [this]
    exact e4

/-- What the program has built when the loop of `train` starts. -/
structure SetupOk (C : NNConf K) (N : NNet K) (s : NBld K) (rows : List Row) (o1 o2 e1 e2 : ℕ) : Prop where
  built : Built s.b (Function.update (fun _ => none) N.err
    (some (C.errTerm N.y (C.softTerm (rows.foldl C.layerTerm (.mat N.x)) o1 o2) e1 e2)))
  soft : TermOk s.b (C.softTerm (rows.foldl C.layerTerm (.mat N.x)) o1 o2) C.batch C.out
  term : TermOk s.b (C.errTerm N.y (C.softTerm (rows.foldl C.layerTerm (.mat N.x)) o1 o2) e1 e2) 1 1
  pads : ∃ E, s.b.E.pads = (C.errTerm N.y (C.softTerm (rows.foldl C.layerTerm (.mat N.x)) o1 o2) e1 e2).node.reqs E
  nobj : s.b.nobj = N.err + 2
  form : ∃ n e, s.b.E.kind N.err = .form n e (N.err + 1) ∧
    e.strip = (C.errTerm N.y (C.softTerm (rows.foldl C.layerTerm (.mat N.x)) o1 o2) e1 e2).node
  nodup : N.mats.Nodup
  own : ∀ o ∈ N.mats, o < N.err ∧ s.b.E.kind o = .num ∧ ∀ n m, s.reg n m ≠ some o
  ni : ∃ R, (layerParams N.layers).Sublist R ∧ NI (Function.update (fun _ => none) N.err
    (some (C.errTerm N.y (C.softTerm (rows.foldl C.layerTerm (.mat N.x)) o1 o2) e1 e2))) s.b.eyes s (s.owned R)
  reg : ∀ n m o, s.reg n m = some o → o < N.err ∧ IsConst s.b o n m fun _ _ => 1
  layers : N.layers = rows.map fun r => (r.w, r.b)
  drops : N.drops = rows.map fun r => (1 - C.p, r.d)
  rows : List.Forall₂ (fun r l => RowOk s C.batch l.n l.m r ∧ IsConst s.b r.w l.n l.m l.W ∧ IsConst s.b r.b l.n 1 l.b)
    rows C.layers
  x : HasDims s.b N.x C.batch C.inp
  y : HasDims s.b N.y C.batch C.out
  ro1 : s.reg C.out 1 = some o1
  ro2 : s.reg 1 C.out = some o2
  re1 : s.reg 1 C.batch = some e1
  re2 : s.reg C.out 1 = some e2
  batch : N.batch = C.batch
  lay : s.layers = N.layers

/-- The dimensions of the layers. -/
def NNConf.shapes (C : NNConf K) : List (ℕ × ℕ) := C.layers.map fun l => (l.n, l.m)

/-- The user's choices fit: positive dimensions, every layer has as many inputs as the one before has outputs. -/
structure NNConf.Ok (C : NNConf K) : Prop where
  batch : 0 < C.batch
  inp : 0 < C.inp
  chain : LayerChain C.inp C.shapes C.out

theorem LayerChain.dims_pos : ∀ {ls : List (LayerDef K)} {i o : ℕ}, 0 < i →
    LayerChain i (ls.map fun l => (l.n, l.m)) o → ∀ l ∈ ls, 0 < l.n ∧ 0 < l.m
  | [], _, _, _, _, _, h => by cases h
  | l :: ls, i, o, hi, h, x, hx => by
    obtain ⟨h1, h2, h3⟩ := h
    rcases List.mem_cons.1 hx with rfl | hx
    · exact ⟨h2, h1 ▸ hi⟩
    · exact dims_pos h2 h3 x hx

theorem forall2_map_right {α β γ : Type} {P : α → γ → Prop} {f : β → γ} : ∀ {l : List α} {l' : List β},
    List.Forall₂ P l (l'.map f) ↔ List.Forall₂ (fun a b => P a (f b)) l l'
  | [], [] => by simp
  | [], _ :: _ => by simp
  | _ :: _, [] => by simp
  | _ :: _, _ :: _ => by simp [forall2_map_right]

theorem forall2_map_left {α β γ : Type} {P : γ → β → Prop} {f : α → γ} : ∀ {l : List α} {l' : List β},
    List.Forall₂ P (l.map f) l' ↔ List.Forall₂ (fun a b => P (f a) b) l l'
  | [], [] => by simp
  | [], _ :: _ => by simp
  | _ :: _, [] => by simp
  | _ :: _, _ :: _ => by simp [forall2_map_left]

theorem forall2_and {α β : Type} {P Q : α → β → Prop} : ∀ {l : List α} {l' : List β}, List.Forall₂ P l l' →
    List.Forall₂ Q l l' → List.Forall₂ (fun a b => P a b ∧ Q a b) l l'
  | [], [], _, _ => .nil
  | _ :: _, _ :: _, .cons h1 h2, .cons h3 h4 => .cons ⟨h1, h3⟩ (forall2_and h2 h4)

theorem NNConf.setupF_spec (C : NNConf K) (h : C.Ok) :
    ∃ N s rows o1 o2 e1 e2, C.setupF = some (N, C.softTerm (rows.foldl C.layerTerm (.mat N.x)) o1 o2, s) ∧
      SetupOk C N s rows o1 o2 e1 e2 := by
  have i0 : NI (fun _ => none) (fun _ => none) (NBld.init : NBld K) (layerParams (NBld.init : NBld K).layers) :=
    ⟨.init, rfl, fun _ _ _ hh => by (cases hh), List.nodup_nil, fun o ho => by (cases ho)⟩
  obtain ⟨s1, new, e1, i1, d1, p1, l1, g1, f1⟩ := addLayers_spec C.layers i0 rfl rfl (h.chain.dims_pos h.inp)
  have l1' : s1.layers = new := l1
  have own1 : NI (fun _ => none) (fun _ => none) s1 (s1.owned (layerParams s1.layers)) := by
    rw [NBld.owned, d1, p1]; simpa using i1
  have dims1 : List.Forall₂ (fun l sh => HasDims s1.b l.1 sh.1 sh.2 ∧ HasDims s1.b l.2 sh.1 1) s1.layers C.shapes := by
    rw [l1', NNConf.shapes, forall2_map_right]
    exact f1.imp fun _ _ hh => ⟨hh.1.hasDims, hh.2.hasDims⟩
  obtain ⟨x2, y2, rows2, o12, o22, s2, e2, i2, st2, -⟩ := C.networkLayers_spec h.batch h.inp own1 dims1 h.chain
  have dims2 : List.Forall₂ (fun l sh => HasDims s2.b l.1 sh.1 sh.2 ∧ HasDims s2.b l.2 sh.1 1) s2.layers C.shapes := by
    rw [st2.layers]; exact dims1.imp fun _ _ hh => ⟨hh.1.ext st2.ext, hh.2.ext st2.ext⟩
  obtain ⟨x, y, rows, o1, o2, s3, e3, i3, st3, w3, d3, ok3, x3, y3, r31, r32, t3⟩ :=
    C.networkLayers_spec h.batch h.inp i2 dims2 h.chain
  have ho := h.chain.pos h.inp
  have tl := y3.term.had (t3.map C.log C.dlog)
  obtain ⟨a1, s4, e4, i4, st4, r4, d4, p4⟩ := i3.ones (n := 1) one_pos h.batch
  obtain ⟨a2, s5, e5, i5, st5, r5, d5, p5⟩ := i4.ones (n := C.out) (m := 1) ho one_pos
  have st45 := st4.trans st5
  have h4 := (i4.reg _ _ _ r4).hasDims
  have h5 := (i5.reg _ _ _ r5).hasDims
  have te := (((h4.ext st5.ext).term.mul (tl.ext st45.ext)).mul h5.term).smul (-1)
  obtain ⟨b6, n, e, e6, bt6, g6, nobj6, k6, hst, pads6, eyes6⟩ := defNew_first i5.built (fun n => by rw [i5.eyes]) te id
  have lay : s5.layers = s1.layers := ((st2.trans st3).trans st45).layers
  have st15 := ((st2.trans st3).trans st45).ext
  have hrows : rows.map (fun r => (r.w, r.b)) = new := by rw [w3, st2.layers, l1']
  refine ⟨⟨s5.b.nobj, s5.layers, x, y, s5.drops, C.batch⟩, { s5 with b := b6 }, rows, o1, o2, a1, a2, ?_, ?_⟩
  · simp only [NNConf.setupF, e1, Option.bind_some, e2, e3, NNConf.error, NBld.sigmaAll]
    have q1 : ((MTerm.bin .had (.mat y) (.un C.logM (C.softTerm (rows.foldl C.layerTerm (.mat x)) o1 o2))).node.dims s3.b.E).1 =
        C.batch := congrArg Prod.fst tl.dims
    have q2 : ((MTerm.bin .had (.mat y) (.un C.logM (C.softTerm (rows.foldl C.layerTerm (.mat x)) o1 o2))).node.dims s3.b.E).2 =
        C.out := congrArg Prod.snd tl.dims
    rw [q1, q2]
    simp only [e4, Option.bind_some, e5, Option.map_some]
    have e6' : s5.b.defNew (.un (.smul (-1)) (.bin .mul (.bin .mul (.mat a1) (.bin .had (.mat y) (.un C.logM
      (C.softTerm (rows.foldl C.layerTerm (.mat x)) o1 o2)))) (.mat a2))) = some (s5.b.nobj, b6) := e6
    rw [e6']
    rfl
  · have own5 : NI (fun _ => none) (fun _ => none) s5 (s5.owned (x :: y :: x2 :: y2 :: layerParams s1.layers)) := by
      rw [NBld.owned, d5, p5, d4, p4]; exact i5
    have hsub : ∀ o, o ∈ (⟨s5.b.nobj, s5.layers, x, y, s5.drops, C.batch⟩ : NNet K).mats →
        o ∈ s5.owned (x :: y :: x2 :: y2 :: layerParams s1.layers) := by
      intro o ho
      simp only [NNet.mats, NNet.params, List.mem_cons, List.mem_append, lay] at ho
      simp only [NBld.owned, List.mem_cons, List.mem_append, layerParams]
      rcases ho with rfl | rfl | h | h
      · simp
      · simp
      · exact Or.inr (Or.inl h)
      · exact Or.inl (Or.inr (Or.inr (Or.inr (Or.inr h))))
    refine { built := bt6, soft := (t3.ext st45.ext).ext g6, term := te.ext g6, nobj := nobj6, form := ⟨n, e, k6, hst⟩, nodup := ?_, own := fun o ho => ?_,
             reg := fun p q o ho => ?_, layers := by show s5.layers = _; rw [lay, l1', hrows],
             drops := by show s5.drops = _; rw [d5, d4, d3], rows := ?_, x := ?_, y := ?_,
             ro1 := st45.reg _ _ _ r31, ro2 := st45.reg _ _ _ r32, re1 := st5.reg _ _ _ r4, re2 := r5, batch := rfl,
             pads := ⟨_, pads6⟩, lay := rfl,
             ni := ⟨x :: y :: x2 :: y2 :: layerParams s1.layers, ?_, bt6, rfl, fun n m o ho => (i5.reg n m o ho).ext g6, own5.nodup,
               fun o ho => ?_⟩ }
    · have hn : (x :: y :: x2 :: y2 :: (layerParams s1.layers ++ (s5.drops.map Prod.snd ++ s5.pool))).Nodup := own5.nodup
      have hs : (x :: y :: (layerParams s1.layers ++ s5.drops.map Prod.snd)).Sublist
          (x :: y :: x2 :: y2 :: (layerParams s1.layers ++ (s5.drops.map Prod.snd ++ s5.pool))) := by
        refine .cons_cons _ (.cons_cons _ (.cons _ (.cons _ ?_)))
        rw [← List.append_assoc]
        exact List.sublist_append_left _ _
      refine ((List.perm_append_comm.cons y).cons x).nodup (hn.sublist hs) |> fun h => ?_
      simpa [NNet.mats, NNet.params, lay, layerParams] using h
    · obtain ⟨a1, a2, a3, _⟩ := own5.own o (hsub o ho)
      exact ⟨a1, (g6.kind o a1).trans a2, a3⟩
    · show (layerParams s5.layers).Sublist _
      rw [lay]
      exact .cons _ (.cons _ (.cons _ (.cons _ (List.Sublist.refl _))))
    · obtain ⟨a1, a2, a3, _⟩ := own5.own o ho
      exact ⟨a1.trans_le g6.nobj, (g6.kind o a1).trans a2, a3, fun n hn => by have := eyes6 n o hn; omega⟩
    · exact ⟨(i5.reg p q o ho).lt, (i5.reg p q o ho).ext g6⟩
    · have g16 := st15.trans g6
      have hc : List.Forall₂ (fun (r : Row) (l : LayerDef K) => IsConst b6 r.w l.n l.m l.W ∧ IsConst b6 r.b l.n 1 l.b) rows C.layers := by
        rw [← hrows, forall2_map_left] at f1
        exact f1.imp fun _ _ hh => ⟨hh.1.ext g16, hh.2.ext g16⟩
      rw [NNConf.shapes, forall2_map_right] at ok3
      refine forall2_and (ok3.imp fun _ _ hh => ?_) hc
      have := hh.step st45
      exact ⟨this.w.ext g6, this.b.ext g6, this.d.ext g6, this.o⟩
    · exact (x3.ext st45.ext).ext g6
    · exact (y3.ext st45.ext).ext g6

theorem NNConf.setup_spec (C : NNConf K) (h : C.Ok) :
    ∃ N s rows o1 o2 e1 e2, C.setup = some (N, s) ∧ SetupOk C N s rows o1 o2 e1 e2 := by
  obtain ⟨N, s, rows, o1, o2, e1, e2, e, hs⟩ := C.setupF_spec h
  exact ⟨N, s, rows, o1, o2, e1, e2, by rw [NNConf.setup, e]; rfl, hs⟩

end CoolDiff
