import Verif.Apps.NNSpec
import Verif.Apps.GNProof
import Verif.Matrix.Kinds
import Verif.Props.MatRepeat

/-!
# Training: proofs
-/

set_option linter.unusedSectionVars false

namespace CoolDiff

variable {K : Type} [Field K] [DecidableEq K]

/-! ## Conditions -/

/-- The `Matrix<Type>` objects that training writes. -/
def NNet.mats (N : NNet K) : List ℕ := N.x :: N.y :: (N.drops.map Prod.snd ++ N.params)

/-- The scalar coefficients of an expression (`s + A`, `s * A` with a scalar expression `s`). -/
def MNode.coeffs : MNode K → List ℕ
  | .obj _ => []
  | .bin _ _ a b => a.coeffs ++ b.coeffs
  | .un _ (.saddE s) a => s :: a.coeffs
  | .un _ (.smulE s) a => s :: a.coeffs
  | .un _ _ a => a.coeffs

/-- The expression has no convolution. -/
def NoConv : MNode K → Prop
  | .obj _ => True
  | .bin _ (.conv _ _ _ _) _ _ => False
  | .bin _ _ a b => NoConv a ∧ NoConv b
  | .un _ _ a => NoConv a

/-- The matrix is one of `T`, a `Matrix<Variable>`, or mentioned by a stored formula (or its identity matrix). -/
def InUse (E : MEnv K) (T : List ℕ) (q : ℕ) : Prop :=
  q ∈ T ∨ E.kind q = .var ∨ ∃ p n e eye, E.kind p = .form n e eye ∧ q ∈ (MEnv.item n e eye).objs

theorem InUse.of_reach {E : MEnv K} {T : List ℕ} {o q : ℕ} (h : MReach E o q) (ho : E.isForm o) (hq : ¬E.isForm q) :
    InUse E T q := by
  cases h with
  | refl => exact absurd ho hq
  | step _ hk hm => exact Or.inr (Or.inr ⟨_, _, _, _, hk, hm⟩)

theorem InUse.eye {E : MEnv K} {T : List ℕ} {p n e eye : _} (hk : E.kind p = .form n e eye) : InUse E T eye :=
  Or.inr (Or.inr ⟨p, n, e, eye, hk, by simp [MEnv.item, MNode.objs]⟩)

/-- What training needs.  The error is a 1×1 formula (as are all named formulas it uses) without convolutions, in which
every weight and bias matrix occurs; the operands of `inv` and `det` are invertible; the matrices that training writes
are distinct `Matrix<Type>` objects with elements of their own, none of them is an identity matrix of the library;
`X` and `Y` have one row per sample of a batch, and the data have at least as many rows and the right columns. -/
structure NNOk (c : MCtx K) (rank : ℕ → ℕ) (N : NNet K) (Xd Yd : Mat K) : Prop where
  wf : c.E.WF rank
  sound : c.B.Sound c.E.P
  root : c.E.isForm N.err
  one : ∀ q, MReach c.E N.err q → c.E.isForm q → c.E.rows q = 1 ∧ c.E.cols q = 1
  nodes : UniqueNodes c.E Set.univ
  vars : VarsApart c.E
  nodup : N.mats.Nodup
  num : ∀ o ∈ N.mats, c.E.kind o = .num
  eyes : ∀ p n e eye, c.E.kind p = .form n e eye → eye ∉ N.mats
  own : ∀ o ∈ N.mats, ∀ q, InUse c.E N.mats q → ¬c.E.isForm q → ∀ l k i j, l < c.E.rows q → k < c.E.cols q → i < c.E.rows o →
    j < c.E.cols o → c.E.el q l k = c.E.el o i j → q = o ∧ l = i ∧ k = j
  coeff : ∀ p n e eye, MReach c.E N.err p → c.E.kind p = .form n e eye → ∀ s ∈ e.coeffs, ∀ θ ∈ N.params,
    ¬IsEl c.E θ s
  uses : ∀ θ ∈ N.params, MReach c.E N.err θ
  inv : ∀ p n e eye, MReach c.E N.err p → c.E.kind p = .form n e eye → UsesInv e → c.B.InvSound
  invertible : ∀ v, EyesOk c.E v → ∀ p n e eye, MReach c.E N.err p → c.E.kind p = .form n e eye →
    Invertible True c.E v (valOf c.E v rank) e
  conv : ∀ p n e eye, MReach c.E N.err p → c.E.kind p = .form n e eye → NoConv e
  bpos : 0 < N.batch
  xrows : c.E.rows N.x = N.batch
  yrows : c.E.rows N.y = N.batch
  xdata : Xd.WF
  ydata : Yd.WF
  xcols : Xd.cols = c.E.cols N.x
  ycols : Yd.cols = c.E.cols N.y
  rows : Xd.rows = Yd.rows
  enough : N.batch ≤ Yd.rows

/-- The derivative of the error with respect to element `(i, k)` of the matrix `θ` at the numbers `w`. -/
noncomputable def nnGrad (c : MCtx K) (rank : ℕ → ℕ) (N : NNet K) (w : ℕ → K) (θ i k : ℕ) : K :=
  MDer ((c.at w).wrt N.params) θ rank N.err 0 0 i k

theorem NoConv.rev {E : MEnv K} {sv : ℕ → K} {sd : ℕ → ℕ → ℕ → K} {V : ℕ → ℕ → ℕ → K}
    {D : ℕ → ℕ → ℕ → ℕ → ℕ → K} {X : ℕ} : ∀ {e : MNode K}, NoConv e → ConvRev E sv sd V D X e
  | .obj _, _ => trivial
  | .bin _ op a b, h => by
    cases op <;> simp only [NoConv] at h <;> exact ⟨h.1.rev, h.2.rev, trivial⟩
  | .un _ _ a, h => NoConv.rev (e := a) h

theorem CoeffConst.of_coeffs {sd : ℕ → ℕ → ℕ → K} {r q : ℕ} : ∀ {e : MNode K},
    (∀ s ∈ e.coeffs, ∀ i j, i < r → j < q → sd s i j = 0) → CoeffConst sd r q e
  | .obj _, _ => trivial
  | .bin _ _ a b, h => ⟨CoeffConst.of_coeffs fun s hs => h s (by simp [MNode.coeffs, hs]),
      CoeffConst.of_coeffs fun s hs => h s (by simp [MNode.coeffs, hs])⟩
  | .un _ op a, h => by
    refine ⟨CoeffConst.of_coeffs fun s hs => h s ?_, fun i j hi hj => ?_⟩
    · cases op <;> simp [MNode.coeffs, hs]
    · cases op <;> simp only [MUn.coeffConst] <;> exact h _ (by simp [MNode.coeffs]) i j hi hj

section
variable {c : MCtx K} {rank : ℕ → ℕ} {N : NNet K} {Xd Yd : Mat K}

theorem NNet.params_sub {θ : ℕ} (h : θ ∈ N.params) : θ ∈ N.mats := by simp [NNet.mats, h]

theorem NNOk.nums (H : NNOk c rank N Xd Yd) : Nums c.E N.params := fun _ h => H.num _ (N.params_sub h)

theorem Nums.not_form {E : MEnv K} {T : List ℕ} (h : Nums E T) {o : ℕ} (ho : o ∈ T) : ¬E.isForm o := by
  rintro ⟨n, e, eye, hk⟩; rw [h o ho] at hk; cases hk

theorem NNOk.notForm (H : NNOk c rank N Xd Yd) {o : ℕ} (ho : o ∈ N.mats) : ¬c.E.isForm o := by
  rintro ⟨n, e, eye, hk⟩; rw [H.num o ho] at hk; cases hk

/-- The query `PreComp(err); DevalR(err, θ)` is fine at all numbers. -/
theorem NNOk.query (H : NNOk c rank N Xd Yd) {w : ℕ → K} (he : EyesOk c.E w) {θ : ℕ} (hθ : θ ∈ N.params) :
    RevQueryOk ((c.at w).wrt N.params) rank N.err θ := by
  have hT := H.nums
  have hf := fun {o n e eye} => (c.E.wrt_form hT (o := o) (n := n) (e := e) (eye := eye))
  have hr := fun {o q} => (MReach.wrt hT (o := o) (q := q))
  have hform : ∀ {o}, (c.E.wrt N.params).isForm o ↔ c.E.isForm o := c.E.wrt_isForm hT
  have hvar : ∀ {o}, (c.E.wrt N.params).kind o = .var → o ∈ N.params ∨ c.E.kind o = .var := by
    intro o ho
    by_cases h : o ∈ N.params
    · exact Or.inl h
    · right; simpa [MEnv.wrt, h] using ho
  have hvarF : ∀ {o}, (c.E.wrt N.params).kind o = .var → ¬c.E.isForm o := by
    intro o ho
    rcases hvar ho with h | h
    · exact hT.not_form h
    · rintro ⟨n, e, eye, hk⟩; rw [h] at hk; cases hk
  refine ⟨⟨H.wf.wrt hT fun o n e eye hk hm => H.eyes o n e eye hk (N.params_sub hm), H.sound, he.wrt hT,
    ⟨fun p hp n e eye hk => ?_, fun p hp n e eye hk => ?_⟩⟩, hform.2 H.root, fun q hq hq' => ?_, ?_, ?_, ⟨?_, ?_⟩, ?_, ?_, ?_⟩
  · exact H.inv p n e eye (hr.1 hp) (hf.1 hk)
  · have := (H.invertible w he p n e eye (hr.1 hp) (hf.1 hk)).wrt (T := N.params)
    rw [← valOf_wrt hT] at this
    exact this
  · exact H.one q (hr.1 hq) (hform.1 hq')
  · intro o p ho hp l k i j hl hk hi hj h
    rcases hvar hp with hp' | hp'
    · exact H.own p (N.params_sub hp') o ((hvar ho).elim (fun h => Or.inl (N.params_sub h)) fun h => Or.inr (Or.inl h)) (hvarF ho) l k i j hl hk hi hj h
    · rcases hvar ho with ho' | ho'
      · obtain ⟨h1, h2, h3⟩ := H.own o (N.params_sub ho') p (Or.inr (Or.inl hp')) (hvarF hp) i j l k hi hj hl hk h.symm
        exact ⟨h1.symm, h2.symm, h3.symm⟩
      · exact H.vars o p ho' hp' l k i j hl hk hi hj (congrArg c.E.vid h)
  · show (c.E.wrt N.params).kind θ = .var
    simp [MEnv.wrt, hθ]
  · exact fun q _ n e eye hk => H.nodes.nodup q trivial n e eye (hf.1 hk)
  · exact fun q _ p _ n e eye n' e' eye' hk hk' => H.nodes.disj q trivial p trivial n e eye n' e' eye' (hf.1 hk) (hf.1 hk')
  · intro q hq hk l k i j hl hk' hi hj
    show (if c.E.el q l k = c.E.el θ i j then (1 : K) else 0) = 0
    have hk2 : c.E.kind q = .exp := by
      by_cases h : q ∈ N.params
      · change (c.E.wrt N.params).kind q = .exp at hk; simp [MEnv.wrt, h] at hk
      · change (c.E.wrt N.params).kind q = .exp at hk; simpa [MEnv.wrt, h] using hk
    rw [if_neg]
    intro h
    have hnf : ¬c.E.isForm q := by rintro ⟨n, e, eye, h'⟩; rw [hk2] at h'; cases h'
    obtain ⟨rfl, _⟩ := H.own θ (N.params_sub hθ) q (.of_reach (hr.1 hq) H.root hnf) hnf l k i j hl hk' hi hj h
    rw [hT _ hθ] at hk2; cases hk2
  · intro q n e eye hq hk
    refine CoeffConst.of_coeffs fun s hs i j hi hj => ?_
    show (if s = c.E.el θ i j then (1 : K) else 0) = 0
    rw [if_neg]
    intro h
    exact H.coeff q n e eye (hr.1 hq) (hf.1 hk) s hs θ hθ ⟨i, j, hi, hj, h⟩
  · exact fun q n e eye hq hk => (H.conv q n e eye (hr.1 hq) (hf.1 hk)).rev

end

/-! ## Filling matrices -/

theorem foldlM_fill (h : ℕ → ℕ) (g : ℕ → Option K) (a : ℕ → K) : ∀ (L : List ℕ) (v : ℕ → K), L.Nodup →
    (∀ m ∈ L, ∀ n ∈ L, h m = h n → m = n) → (∀ n ∈ L, g n = some (a n)) →
    ∃ w, L.foldlM (fun v n => (g n).map (Function.update v (h n))) v = some w ∧
      (∀ n ∈ L, w (h n) = a n) ∧ ∀ x, (∀ n ∈ L, x ≠ h n) → w x = v x
  | [], v, _, _, _ => ⟨v, rfl, by simp, fun _ _ => rfl⟩
  | n :: L, v, hnd, hinj, hg => by
    obtain ⟨hn, hL⟩ := List.nodup_cons.1 hnd
    obtain ⟨w, e, h1, h2⟩ := foldlM_fill h g a L (Function.update v (h n) (a n)) hL
      (fun m hm k hk => hinj m (List.mem_cons_of_mem _ hm) k (List.mem_cons_of_mem _ hk))
      fun m hm => hg m (List.mem_cons_of_mem _ hm)
    refine ⟨w, ?_, fun m hm => ?_, fun x hx => ?_⟩
    · rw [List.foldlM_cons, hg n (by simp)]; exact e
    · rcases List.mem_cons.1 hm with rfl | hm
      · rw [h2 _ fun k hk he => ?_, Function.update_self]
        exact hn (hinj m (by simp) k (List.mem_cons_of_mem _ hk) he ▸ hk)
      · exact h1 m hm
    · rw [h2 x fun k hk => hx k (List.mem_cons_of_mem _ hk), Function.update_of_ne (hx n (by simp))]

theorem fillNums_spec {E : MEnv K} {o : ℕ} (hc : 0 < E.cols o)
    (hown : ∀ l k i j, l < E.rows o → k < E.cols o → i < E.rows o → j < E.cols o → E.el o l k = E.el o i j → l = i ∧ k = j)
    {g : ℕ → Option K} {A : ℕ → ℕ → K} (hg : ∀ i j, i < E.rows o → j < E.cols o → g (i * E.cols o + j) = some (A i j))
    (v : ℕ → K) :
    ∃ w, fillNums E o g v = some w ∧ (∀ i j, i < E.rows o → j < E.cols o → w (E.el o i j) = A i j) ∧
      ∀ a, ¬IsEl E o a → w a = v a := by
  have hdiv : ∀ n, n < E.rows o * E.cols o → n / E.cols o < E.rows o ∧ n % E.cols o < E.cols o := fun n hn =>
    ⟨Nat.div_lt_of_lt_mul (by rwa [Nat.mul_comm] at hn), Nat.mod_lt _ hc⟩
  obtain ⟨w, e, h1, h2⟩ := foldlM_fill (fun n => E.el o (n / E.cols o) (n % E.cols o)) g
    (fun n => A (n / E.cols o) (n % E.cols o)) (List.range (E.rows o * E.cols o)) v List.nodup_range
    (fun m hm n hn he => by
      obtain ⟨a1, a2⟩ := hdiv m (List.mem_range.1 hm)
      obtain ⟨b1, b2⟩ := hdiv n (List.mem_range.1 hn)
      obtain ⟨e1, e2⟩ := hown _ _ _ _ a1 a2 b1 b2 he
      rw [← Nat.div_add_mod m (E.cols o), ← Nat.div_add_mod n (E.cols o), e1, e2])
    (fun n hn => by
      obtain ⟨a1, a2⟩ := hdiv n (List.mem_range.1 hn)
      have := hg _ _ a1 a2
      rwa [Nat.div_add_mod'] at this)
  refine ⟨w, e, fun i j hi hj => ?_, fun a ha => h2 a fun n hn he => ha ?_⟩
  · have := h1 (i * E.cols o + j) (List.mem_range.2 (flat_lt hi hj))
    rwa [Nat.mul_comm, Nat.mul_add_div hc, Nat.mul_add_mod, Nat.div_eq_of_lt hj, Nat.mod_eq_of_lt hj, Nat.add_zero] at this
  · obtain ⟨a1, a2⟩ := hdiv n (List.mem_range.1 hn)
    exact ⟨_, _, a1, a2, he⟩

theorem numsOf_rep {E : MEnv K} {o : ℕ} (hr : 0 < E.rows o) (hc : 0 < E.cols o) (v : ℕ → K) :
    Rep (numsOf E o v) (E.rows o) (E.cols o) fun i j => v (E.el o i j) := by
  refine ⟨hr, hc, rfl, rfl, by simp [numsOf], fun i j hi hj => ?_⟩
  have hlt : i * E.cols o + j < E.rows o * E.cols o := flat_lt hi hj
  have h1 : (i * E.cols o + j) / E.cols o = i := by
    rw [Nat.mul_comm, Nat.mul_add_div hc, Nat.div_eq_of_lt hj, Nat.add_zero]
  have h2 : (i * E.cols o + j) % E.cols o = j := by
    rw [Nat.mul_comm, Nat.mul_add_mod, Nat.mod_eq_of_lt hj]
  simp only [Mat.get?, numsOf, hi, hj, and_self, if_true, List.getElem?_map, List.getElem?_range hlt, Option.map_some, h1, h2]

theorem setRows_spec {E : MEnv K} {o : ℕ} (hr : 0 < E.rows o) (hc : 0 < E.cols o)
    (hown : ∀ l k i j, l < E.rows o → k < E.cols o → i < E.rows o → j < E.cols o → E.el o l k = E.el o i j → l = i ∧ k = j)
    {data : Mat K} (hd : data.WF) (hcol : data.cols = E.cols o) {j : ℕ} (hj : j + E.rows o ≤ data.rows) (v : ℕ → K) :
    ∃ w, setRows E o data j v = some w ∧
      (∀ i k, i < E.rows o → k < E.cols o → data.get? (j + i) k = some (w (E.el o i k))) ∧
      ∀ a, ¬IsEl E o a → w a = v a := by
  obtain ⟨w, e, h1, h2⟩ := fillNums_spec (g := fun n => data.raw? (j * data.cols + n))
    (A := fun i k => data.val (j + i) k) hc hown (fun i k hi hk => by
      have h := hd.rep.raw (i := j + i) (j := k) (by omega) (by omega)
      rw [← h, ← hcol, Nat.add_mul, Nat.add_assoc]) v
  refine ⟨w, by rw [setRows, if_pos (by omega)]; exact e, fun i k hi hk => ?_, h2⟩
  rw [h1 i k hi hk]
  exact hd.rep.elem _ _ (by omega) (by omega)

theorem dropout_spec {E : MEnv K} (draw : ℕ → ℕ → K) : ∀ (D : List (K × ℕ)), (D.map Prod.snd).Nodup →
    (∀ d ∈ D, 0 < E.cols d.2) →
    (∀ d ∈ D, ∀ d' ∈ D, ∀ l k i j, l < E.rows d.2 → k < E.cols d.2 → i < E.rows d'.2 → j < E.cols d'.2 →
      E.el d.2 l k = E.el d'.2 i j → d.2 = d'.2 ∧ l = i ∧ k = j) → ∀ v : ℕ → K,
    ∃ w, dropout E draw D v = some w ∧
      (∀ d ∈ D, ∀ i k, i < E.rows d.2 → k < E.cols d.2 → w (E.el d.2 i k) = 1 / d.1 * draw d.2 (i * E.cols d.2 + k)) ∧
      ∀ a, (∀ d ∈ D, ¬IsEl E d.2 a) → w a = v a
  | [], _, _, _, v => ⟨v, rfl, by simp, fun _ _ => rfl⟩
  | d :: D, hnd, hc, hown, v => by
    rw [List.map_cons, List.nodup_cons] at hnd
    obtain ⟨w1, e1, a1, b1⟩ := fillNums_spec (g := fun n => some (1 / d.1 * draw d.2 n))
      (A := fun i k => 1 / d.1 * draw d.2 (i * E.cols d.2 + k)) (hc d (by simp))
      (fun l k i j hl hk hi hj h => (hown d (by simp) d (by simp) l k i j hl hk hi hj h).2) (fun i j _ _ => rfl) v
    obtain ⟨w2, e2, a2, b2⟩ := dropout_spec draw D hnd.2 (fun d' h => hc d' (List.mem_cons_of_mem _ h))
      (fun d' h d'' h'' => hown d' (List.mem_cons_of_mem _ h) d'' (List.mem_cons_of_mem _ h'')) w1
    refine ⟨w2, ?_, fun d' hd' i k hi hk => ?_, fun a ha => ?_⟩
    · rw [dropout, List.foldlM_cons, e1]; exact e2
    · rcases List.mem_cons.1 hd' with rfl | hd'
      · rw [b2 _ fun d'' h'' hel => ?_, a1 i k hi hk]
        obtain ⟨l, m, hl, hm, he⟩ := hel
        obtain ⟨he', _⟩ := hown d' (by simp) d'' (List.mem_cons_of_mem _ h'') i k l m hi hk hl hm he
        exact hnd.1 (List.mem_map.2 ⟨d'', h'', he'.symm⟩)
      · exact a2 d' hd' i k hi hk
    · rw [b2 a fun d' h => ha d' (List.mem_cons_of_mem _ h), b1 a (ha d (by simp))]

/-! ## The tasks of a phase -/

theorem tasks_spec {α : Type} (π : Sched) (N : NNet K) {task : ℕ → ℕ → α → Option α} {Inv : List ℕ → α → Prop}
    (step : ∀ done t θ s, Inv done s → N.params[t]? = some θ → t ∉ done → ∃ s', task t θ s = some s' ∧ Inv (t :: done) s')
    {s : α} (h : Inv [] s) :
    ∃ s' done, tasks π N task s = some s' ∧ (∀ t < N.params.length, t ∈ done) ∧ Inv done s' := by
  have key : ∀ (L done : List ℕ) (s : α), L.Nodup → (∀ t ∈ L, t < N.params.length ∧ t ∉ done) → Inv done s →
      ∃ s' done', L.foldlM (fun s t => N.params[t]?.bind fun θ => task t θ s) s = some s' ∧
        (∀ t, t ∈ L ∨ t ∈ done → t ∈ done') ∧ Inv done' s' := by
    intro L
    induction L with
    | nil => exact fun done s _ _ h => ⟨s, done, rfl, by simp, h⟩
    | cons t L ih =>
      intro done s hnd hL hs
      obtain ⟨ht, hnd'⟩ := List.nodup_cons.1 hnd
      obtain ⟨htl, htd⟩ := hL t (by simp)
      obtain ⟨s1, e1, h1⟩ := step done t _ s hs (List.getElem?_eq_getElem htl) htd
      obtain ⟨s2, done', e2, h2, h3⟩ := ih (t :: done) s1 hnd' (fun u hu => ⟨(hL u (List.mem_cons_of_mem _ hu)).1, by
        rintro (h | h)
        · exact ht hu
        · rename_i h; exact (hL u (List.mem_cons_of_mem _ hu)).2 h⟩) h1
      refine ⟨s2, done', ?_, fun u hu => h2 u ?_, h3⟩
      · rw [List.foldlM_cons, List.getElem?_eq_getElem htl, Option.bind_some, e1]; exact e2
      · rcases hu with hu | hu
        · rcases List.mem_cons.1 hu with rfl | hu
          · exact Or.inr (by simp)
          · exact Or.inl hu
        · exact Or.inr (List.mem_cons_of_mem _ hu)
  obtain ⟨s', done, e, h1, h2⟩ := key (π.run ℕ (List.range N.params.length)) [] s (π.nodup List.nodup_range)
    (fun t ht => ⟨List.mem_range.1 (π.mem.1 ht), by simp⟩) h
  exact ⟨s', done, e, fun t ht => h1 t (Or.inl (π.mem.2 (List.mem_range.2 ht))), h2⟩

/-! ## One batch -/

theorem NoGaps.wrt {E : MEnv K} {T : List ℕ} (h : Nums E T) {U : ℕ → Prop} {o : ℕ} (hg : NoGaps E U o) :
    NoGaps (E.wrt T) U o :=
  fun p n e eye q h1 h2 h3 h4 h5 => hg p n e eye q ((MReach.wrt h).1 h1) h2 ((E.wrt_form h).1 h3) h4 h5

theorem Warm.wrt {E : MEnv K} {T : List ℕ} (h : Nums E T) {U : ℕ → Prop} {o : ℕ} (hw : Warm E U o) :
    Warm (E.wrt T) U o := by
  rintro q h1 h2 ⟨n, e, eye, hk, q', hq', hf⟩
  exact hw q ((MReach.wrt h).1 h1) h2 ⟨n, e, eye, (E.wrt_form h).1 hk, q', hq', (E.wrt_isForm h).1 hf⟩

/-- The state between batches: the objects are those after a run of queries (on the program in which the weights and
biases are variables, `Matrix/Kinds.lean`) that used the matrices `U`, the identity matrices hold the identity, and the
batch matrices that exist have the dimensions of their matrices. -/
structure NNInv (c : MCtx K) (rank : ℕ → ℕ) (N : NNet K) (s : NNSt K) (U : ℕ → Prop) : Prop where
  hist : PHist (c.E.wrt N.params) rank s.p U
  gaps : NoGaps c.E U N.err
  warm : Warm c.E U N.err
  eyes : EyesOk c.E s.val
  grad : ∀ t θ m, N.params[t]? = some θ → s.grad t = some m → ∃ A, Rep m (c.E.rows θ) (c.E.cols θ) A

section
variable {c : MCtx K} {rank : ℕ → ℕ} {N : NNet K} {Xd Yd : Mat K}

/-- `PreComp(err)`, then `DevalR(err, θ)` for all weights and biases. -/
theorem nn_query (H : NNOk c rank N Xd Yd) {f : ℕ} (hf : rank N.err < f) {p : PSt K} {U : ℕ → Prop}
    (hh : PHist (c.E.wrt N.params) rank p U) (hg : NoGaps c.E U N.err) (hw : Warm c.E U N.err) {w : ℕ → K}
    (he : EyesOk c.E w) (hne : N.params ≠ []) :
    ∃ p', pPreComp (c.at w) f N.err p = some p' ∧
      PHist (c.E.wrt N.params) rank p' (fun q => U q ∨ MReach c.E N.err q) ∧
      ∀ θ ∈ N.params, ∃ m, pDevalR c.E N.err θ p' = some m ∧ Rep m (c.E.rows θ) (c.E.cols θ) (nnGrad c rank N w θ) := by
  have hT := H.nums
  have hu : UniqueNodes (c.E.wrt N.params) Set.univ :=
    ⟨fun q _ n e eye hk => H.nodes.nodup q trivial n e eye ((c.E.wrt_form hT).1 hk),
      fun q _ p _ n e eye n' e' eye' hk hk' => H.nodes.disj q trivial p trivial n e eye n' e' eye'
        ((c.E.wrt_form hT).1 hk) ((c.E.wrt_form hT).1 hk')⟩
  have hpre : pPreComp ((c.at w).wrt N.params) f N.err p = pPreComp (c.at w) f N.err p := pPreComp_wrt (c := c.at w) hT f N.err p
  have one : ∀ θ ∈ N.params, ∃ p' m, pPreComp (c.at w) f N.err p = some p' ∧ pDevalR c.E N.err θ p' = some m ∧
      Rep m (c.E.rows θ) (c.E.cols θ) (nnGrad c rank N w θ) := by
    intro θ hθ
    have hq := H.query he hθ
    obtain ⟨i1, p', a1, a2⟩ := pPreComp_eq hh hu ((c.at w).wrt N.params) rfl hq hf (hg.wrt hT)
    obtain ⟨s', own, nd, e1, hc⟩ := preComp_spec i1 ((c.at w).wrt N.params) rfl hq hf (hg.wrt hT)
    obtain rfl := Option.some.inj (a2.symm.trans e1)
    obtain ⟨m, hfm⟩ := hc.hasX.2 ((strictReach_iff hq.isVar hq.root).2 ((MReach.wrt hT).2 (H.uses θ hθ)))
    refine ⟨p', m, by rw [← hpre]; exact a1, ?_, ?_⟩
    · rw [pDevalR_val]; simp [matDevalR, hfm]
    · have := hc.wf.rep hfm
      exact this.congr fun i j hi hj => hc.entX i j hi hj
  obtain ⟨θ₀, hθ₀⟩ := List.exists_mem_of_ne_nil _ hne
  obtain ⟨p', _, e, _⟩ := one θ₀ hθ₀
  refine ⟨p', e, ?_, fun θ hθ => ?_⟩
  · have := PHist.query hh (.precomp ((c.at w).wrt N.params) θ₀ f rfl (H.query he hθ₀) hf (hg.wrt hT) (hw.wrt hT) (by rw [hpre]; exact e))
    have e2 : (fun q => U q ∨ MReach (c.E.wrt N.params) N.err q) = fun q => U q ∨ MReach c.E N.err q := by
      funext q; rw [MReach.wrt hT]
    rwa [e2] at this
  · obtain ⟨p'', m, e', r⟩ := one θ hθ
    obtain rfl := Option.some.inj (e.symm.trans e')
    exact ⟨m, r⟩

theorem NNOk.load (H : NNOk c rank N Xd Yd) {j : ℕ} (hj : j + N.batch ≤ Yd.rows) (draw : ℕ → ℕ → K) (v : ℕ → K) :
    ∃ v1 v2 w, dropout c.E draw N.drops v = some v1 ∧ setRows c.E N.x Xd j v1 = some v2 ∧
      setRows c.E N.y Yd j v2 = some w ∧ Loaded c.E N Xd Yd draw j v w := by
  have hnd := H.nodup
  simp only [NNet.mats, List.nodup_cons, List.mem_cons, List.mem_append, List.nodup_append, not_or] at hnd
  obtain ⟨⟨hxy, hxd, hxp⟩, ⟨hyd, hyp⟩, hdd, hpp, hdp⟩ := hnd
  have hmx : N.x ∈ N.mats := by simp [NNet.mats]
  have hmy : N.y ∈ N.mats := by simp [NNet.mats]
  have hmd : ∀ d ∈ N.drops, d.2 ∈ N.mats := fun d hd => by
    simp only [NNet.mats, List.mem_cons, List.mem_append, List.mem_map]
    exact Or.inr (Or.inr (Or.inl ⟨d, hd, rfl⟩))
  have own := fun {o q} (ho : o ∈ N.mats) (hq : q ∈ N.mats) => H.own o ho q (Or.inl hq) (H.notForm hq)
  obtain ⟨v1, e1, a1, b1⟩ := dropout_spec (E := c.E) draw N.drops hdd (fun d _ => H.wf.cpos d.2)
    (fun d hd d' hd' l k i j => own (hmd d' hd') (hmd d hd) l k i j) v
  obtain ⟨v2, e2, a2, b2⟩ := setRows_spec (E := c.E) (o := N.x) (H.wf.rpos _) (H.wf.cpos _)
    (fun l k i j h1 h2 h3 h4 h => (own hmx hmx l k i j h1 h2 h3 h4 h).2) H.xdata H.xcols
    (by rw [H.xrows, H.rows]; exact hj) v1
  obtain ⟨w, e3, a3, b3⟩ := setRows_spec (E := c.E) (o := N.y) (H.wf.rpos _) (H.wf.cpos _)
    (fun l k i j h1 h2 h3 h4 h => (own hmy hmy l k i j h1 h2 h3 h4 h).2) H.ydata H.ycols
    (by rw [H.yrows]; exact hj) v2
  have nel : ∀ {o q}, o ∈ N.mats → q ∈ N.mats → q ≠ o → ∀ {l k}, l < c.E.rows q → k < c.E.cols q →
      ¬IsEl c.E o (c.E.el q l k) := by
    rintro o q ho hq hne l k hl hk ⟨i, j, hi, hj, he⟩
    exact hne (own ho hq l k i j hl hk hi hj he).1
  refine ⟨v1, v2, w, e1, e2, e3, ⟨fun i k hi hk => ?_, a3, fun d hd i k hi hk => ?_, fun a h1 h2 h3 => ?_⟩⟩
  · rw [b3 _ (nel hmy hmx hxy hi hk)]; exact a2 i k hi hk
  · have h1 : d.2 ≠ N.x := fun h => hxd (List.mem_map.2 ⟨d, hd, h⟩)
    have h2 : d.2 ≠ N.y := fun h => hyd (List.mem_map.2 ⟨d, hd, h⟩)
    rw [b3 _ (nel hmy (hmd d hd) h2 hi hk), b2 _ (nel hmx (hmd d hd) h1 hi hk)]
    exact a1 d hd i k hi hk
  · rw [b3 a h2, b2 a h1, b1 a h3]

/-- The identity matrices are not written. -/
theorem NNOk.eyes_keep (H : NNOk c rank N Xd Yd) {v w : ℕ → K} (he : EyesOk c.E v)
    (h : ∀ a, (∀ o ∈ N.mats, ¬IsEl c.E o a) → w a = v a) : EyesOk c.E w := by
  intro o n e eye hk i j hi hj
  rw [h, he o n e eye hk i j hi hj]
  rintro q hq ⟨l, k, hl, hk', hel⟩
  have hnf : ¬c.E.isForm eye := by
    rintro ⟨n', e', eye', h'⟩
    rw [(H.wf.form o n e eye hk).1] at h'; cases h'
  obtain ⟨rfl, _⟩ := H.own q hq eye (.eye hk) hnf i j l k hi hj hl hk' hel
  exact H.eyes o n e _ hk hq

theorem Loaded.outside {E : MEnv K} {draw : ℕ → ℕ → K} {j : ℕ} {v w : ℕ → K} (h : Loaded E N Xd Yd draw j v w) :
    ∀ a, (∀ o ∈ N.mats, ¬IsEl E o a) → w a = v a := fun a ha =>
  h.rest a (ha _ (by simp [NNet.mats])) (ha _ (by simp [NNet.mats])) fun d hd => ha _ (by
    simp only [NNet.mats, List.mem_cons, List.mem_append, List.mem_map]
    exact Or.inr (Or.inr (Or.inl ⟨d, hd, rfl⟩)))

theorem Stepped.outside {E : MEnv K} {α : K} {g : ℕ → ℕ → ℕ → K} {v w : ℕ → K} (h : Stepped E N.params α g v w) :
    ∀ a, (∀ o ∈ N.mats, ¬IsEl E o a) → w a = v a := fun a ha =>
  h.rest a fun θ hθ => ha θ (N.params_sub hθ)

theorem resetTasks_spec (H : NNOk c rank N Xd Yd) (s : NNSt K)
    (hgr : ∀ t θ m, N.params[t]? = some θ → s.grad t = some m → ∃ A, Rep m (c.E.rows θ) (c.E.cols θ) A) :
    ∃ s', tasks c.π N (resetTask c.E) s = some s' ∧ s'.p = s.p ∧ s'.val = s.val ∧
      ∀ t θ, N.params[t]? = some θ → ∃ m, s'.grad t = some m ∧ Rep m (c.E.rows θ) (c.E.cols θ) fun _ _ => 0 := by
  obtain ⟨s', done, e, hd, h1, h2, h3, h4⟩ := tasks_spec c.π N (task := resetTask c.E)
    (Inv := fun done s' => s'.p = s.p ∧ s'.val = s.val ∧
      (∀ t θ, N.params[t]? = some θ → t ∈ done → ∃ m, s'.grad t = some m ∧ Rep m (c.E.rows θ) (c.E.cols θ) fun _ _ => 0) ∧
      ∀ t, t ∉ done → s'.grad t = s.grad t)
    (fun done t θ s1 ⟨h1, h2, h3, h4⟩ ht hnd => by
      have hal : ∃ m A, allocOnce (s1.grad t) (c.E.rows θ) (c.E.cols θ) = some m ∧ Rep m (c.E.rows θ) (c.E.cols θ) A := by
        rw [h4 t hnd]
        cases hg : s.grad t with
        | none =>
          obtain ⟨m, e, r⟩ := Mat.new_spec (K := K) (H.wf.rpos θ) (H.wf.cpos θ)
          exact ⟨m, _, e, r⟩
        | some m =>
          obtain ⟨A, r⟩ := hgr t θ m ht hg
          exact ⟨m, A, rfl, r⟩
      obtain ⟨m, A, e, r⟩ := hal
      refine ⟨{ s1 with grad := Function.update s1.grad t (some m.resetZero) }, by rw [resetTask, e]; rfl, h1, h2,
        fun u θ' hu hud => ?_, fun u hu => ?_⟩
      · by_cases hut : u = t
        · subst hut
          obtain rfl := Option.some.inj (ht.symm.trans hu)
          exact ⟨_, Function.update_self .., r.resetZero⟩
        · obtain ⟨m', e', r'⟩ := h3 u θ' hu ((List.mem_cons.1 hud).resolve_left hut)
          exact ⟨m', by rw [← e']; exact Function.update_of_ne hut .., r'⟩
      · have hut : u ≠ t := by rintro rfl; exact hu (by simp)
        rw [← h4 u fun h => hu (List.mem_cons_of_mem _ h)]
        exact Function.update_of_ne hut ..)
    (s := s) ⟨rfl, rfl, by simp, fun _ _ => rfl⟩
  exact ⟨s', e, h1, h2, fun t θ ht => h3 t θ ht (hd t (List.getElem?_eq_some_iff.1 ht).1)⟩

theorem gradTasks_spec (H : NNOk c rank N Xd Yd) (s : NNSt K) {g : ℕ → ℕ → ℕ → K}
    (hq : ∀ θ ∈ N.params, ∃ m, pDevalR c.E N.err θ s.p = some m ∧ Rep m (c.E.rows θ) (c.E.cols θ) (g θ))
    (hgr : ∀ t θ, N.params[t]? = some θ → ∃ m, s.grad t = some m ∧ Rep m (c.E.rows θ) (c.E.cols θ) fun _ _ => 0) :
    ∃ s', tasks c.π N (gradTask c N) s = some s' ∧ s'.p = s.p ∧ s'.val = s.val ∧
      ∀ t θ, N.params[t]? = some θ → ∃ m, s'.grad t = some m ∧ Rep m (c.E.rows θ) (c.E.cols θ) (g θ) := by
  obtain ⟨s', done, e, hd, h1, h2, h3, h4⟩ := tasks_spec c.π N (task := gradTask c N)
    (Inv := fun done s' => s'.p = s.p ∧ s'.val = s.val ∧
      (∀ t θ, N.params[t]? = some θ → t ∈ done → ∃ m, s'.grad t = some m ∧ Rep m (c.E.rows θ) (c.E.cols θ) (g θ)) ∧
      ∀ t, t ∉ done → s'.grad t = s.grad t)
    (fun done t θ s1 ⟨h1, h2, h3, h4⟩ ht hnd => by
      obtain ⟨d, e1, r1⟩ := hq θ (List.mem_of_getElem? ht)
      obtain ⟨m, e2, r2⟩ := hgr t θ ht
      obtain ⟨M, e3, r3⟩ := H.sound.add (l := .self) (r := .ext d) (b := some m) (Live.some r2.wf) rfl r2 rfl r1
      refine ⟨{ s1 with grad := Function.update s1.grad t (some M) }, ?_, h1, h2, fun u θ' hu hud => ?_, fun u hu => ?_⟩
      · rw [gradTask, h1, e1, Option.bind_some, h4 t hnd, e2]
        simp only [allocOnce, Option.bind_some, e3, Option.map_some]
      · by_cases hut : u = t
        · subst hut
          obtain rfl := Option.some.inj (ht.symm.trans hu)
          exact ⟨_, Function.update_self .., r3.congr fun i j _ _ => by simp⟩
        · obtain ⟨m', e', r'⟩ := h3 u θ' hu ((List.mem_cons.1 hud).resolve_left hut)
          exact ⟨m', by rw [← e']; exact Function.update_of_ne hut .., r'⟩
      · have hut : u ≠ t := by rintro rfl; exact hu (by simp)
        rw [← h4 u fun h => hu (List.mem_cons_of_mem _ h)]
        exact Function.update_of_ne hut ..)
    (s := s) ⟨rfl, rfl, by simp, fun _ _ => rfl⟩
  exact ⟨s', e, h1, h2, fun t θ ht => h3 t θ ht (hd t (List.getElem?_eq_some_iff.1 ht).1)⟩

theorem optTasks_spec (H : NNOk c rank N Xd Yd) (alpha : K) (s : NNSt K) {g : ℕ → ℕ → ℕ → K}
    (hgr : ∀ t θ, N.params[t]? = some θ → ∃ m, s.grad t = some m ∧ Rep m (c.E.rows θ) (c.E.cols θ) (g θ)) :
    ∃ s', tasks c.π N (optTask c alpha) s = some s' ∧ s'.p = s.p ∧ Stepped c.E N.params alpha g s.val s'.val ∧
      ∀ t θ m, N.params[t]? = some θ → s'.grad t = some m → ∃ A, Rep m (c.E.rows θ) (c.E.cols θ) A := by
  have hpn : N.params.Nodup := by
    have := H.nodup
    simp only [NNet.mats, List.nodup_cons, List.nodup_append] at this
    exact this.2.2.2.1
  obtain ⟨s', done, e, hd, h1, h2, h3, h4, h5⟩ := tasks_spec c.π N (task := optTask c alpha)
    (Inv := fun done s' => s'.p = s.p ∧
      (∀ t θ, N.params[t]? = some θ → t ∈ done → ∃ m A, s'.grad t = some m ∧ Rep m (c.E.rows θ) (c.E.cols θ) A) ∧
      (∀ t, t ∉ done → s'.grad t = s.grad t) ∧
      (∀ t θ, N.params[t]? = some θ → t ∈ done → ∀ i k, i < c.E.rows θ → k < c.E.cols θ →
        s'.val (c.E.el θ i k) = s.val (c.E.el θ i k) + alpha * g θ i k) ∧
      ∀ a, (∀ t θ, N.params[t]? = some θ → t ∈ done → ¬IsEl c.E θ a) → s'.val a = s.val a)
    (fun done t θ s1 ⟨h1, h3, h4, h5, h6⟩ ht hnd => by
      have hθ : θ ∈ N.params := List.mem_of_getElem? ht
      obtain ⟨m, e2, r2⟩ := hgr t θ ht
      obtain ⟨d, e3, r3⟩ := H.sound.scalarMul alpha (r := .self) (b := some m) (Live.some r2.wf) rfl r2
      have rw' := numsOf_rep (E := c.E) (o := θ) (H.wf.rpos θ) (H.wf.cpos θ) s1.val
      obtain ⟨M, e4, r4⟩ := H.sound.add (l := .self) (r := .ext d) (b := some (numsOf c.E θ s1.val)) (Live.some rw'.wf) rfl rw' rfl r3
      have nel : ∀ u θ', N.params[u]? = some θ' → u ≠ t → ∀ i k, i < c.E.rows θ → k < c.E.cols θ →
          ¬IsEl c.E θ' (c.E.el θ i k) := by
        rintro u θ' hu hne i k hi hk ⟨l, j, hl, hj, he⟩
        obtain ⟨rfl, _⟩ := H.own θ' (N.params_sub (List.mem_of_getElem? hu)) θ (Or.inl (N.params_sub hθ)) (H.notForm (N.params_sub hθ)) i k l j hi hk hl hj he
        obtain ⟨a1, a2⟩ := List.getElem?_eq_some_iff.1 hu
        obtain ⟨b1, b2⟩ := List.getElem?_eq_some_iff.1 ht
        exact hne ((List.Nodup.getElem_inj_iff hpn).1 (a2.trans b2.symm))
      obtain ⟨w, e5, a5, b5⟩ := fillNums_spec (E := c.E) (o := θ) (H.wf.cpos θ)
        (fun l k i j q1 q2 q3 q4 h => (H.own θ (N.params_sub hθ) θ (Or.inl (N.params_sub hθ)) (H.notForm (N.params_sub hθ)) l k i j q1 q2 q3 q4 h).2)
        (g := M.raw?) (A := fun i k => s1.val (c.E.el θ i k) + alpha * g θ i k) (fun i j hi hj => r4.raw hi hj) s1.val
      refine ⟨{ s1 with val := w, grad := Function.update s1.grad t (some d) }, ?_, h1, fun u θ' hu hud => ?_, fun u hu => ?_,
        fun u θ' hu hud i k hi hk => ?_, fun a ha => ?_⟩
      · rw [optTask, h4 t hnd, e2]
        simp only [allocOnce, Option.bind_some, e3, e4, e5, Option.map_some]
      · by_cases hut : u = t
        · subst hut
          obtain rfl := Option.some.inj (ht.symm.trans hu)
          exact ⟨_, _, Function.update_self .., r3⟩
        · obtain ⟨m', A', e', r'⟩ := h3 u θ' hu ((List.mem_cons.1 hud).resolve_left hut)
          exact ⟨m', A', by rw [← e']; exact Function.update_of_ne hut .., r'⟩
      · have hut : u ≠ t := by rintro rfl; exact hu (by simp)
        rw [← h4 u fun h => hu (List.mem_cons_of_mem _ h)]
        exact Function.update_of_ne hut ..
      · by_cases hut : u = t
        · subst hut
          obtain rfl := Option.some.inj (ht.symm.trans hu)
          show w _ = _
          rw [a5 i k hi hk, h6 _ fun u' θ'' hu' hud' => nel u' θ'' hu' (by rintro rfl; exact hnd hud') i k hi hk]
        · show w _ = _
          rw [b5, h5 u θ' hu ((List.mem_cons.1 hud).resolve_left hut) i k hi hk]
          rintro ⟨l, j, hl, hj, he⟩
          exact nel u θ' hu hut l j hl hj ⟨i, k, hi, hk, he.symm⟩
      · show w a = _
        rw [b5 a (ha t θ ht (by simp)), h6 a fun u θ' hu hud => ha u θ' hu (List.mem_cons_of_mem _ hud)])
    (s := s) ⟨rfl, by simp, fun _ _ => rfl, by simp, fun _ _ => rfl⟩
  refine ⟨s', e, h1, ⟨fun θ hθ i k hi hk => ?_, fun a ha => h5 a fun t θ ht _ => ha θ (List.mem_of_getElem? ht)⟩,
    fun t θ m ht hm => ?_⟩
  · obtain ⟨t, ht⟩ := List.mem_iff_getElem?.1 hθ
    exact h4 t θ ht (hd t (List.getElem?_eq_some_iff.1 ht).1) i k hi hk
  · obtain ⟨m', A, e', r⟩ := h2 t θ ht (hd t (List.getElem?_eq_some_iff.1 ht).1)
    obtain rfl := Option.some.inj (hm.symm.trans e')
    exact ⟨A, r⟩

/-- One batch. -/
theorem nnBatch_spec (H : NNOk c rank N Xd Yd) (hne : N.params ≠ []) {f : ℕ} (hf : rank N.err < f) (alpha : K) (draw : ℕ → ℕ → K) {j : ℕ}
    (hj : j + N.batch ≤ Yd.rows) {s : NNSt K} {U : ℕ → Prop} (hs : NNInv c rank N s U) :
    ∃ s' w, nnBatch c f N Xd Yd alpha draw j s = some s' ∧
      NNInv c rank N s' (fun q => U q ∨ MReach c.E N.err q) ∧ EyesOk c.E w ∧
      Loaded c.E N Xd Yd draw j s.val w ∧ Stepped c.E N.params alpha (nnGrad c rank N w) w s'.val := by
  obtain ⟨v1, v2, w, e1, e2, e3, hl⟩ := H.load hj draw s.val
  obtain ⟨s1, e4, p1, vv1, g1⟩ := resetTasks_spec H { s with val := v1 } hs.grad
  have hew := H.eyes_keep hs.eyes hl.outside
  obtain ⟨p', e5, hh, hq⟩ := nn_query H hf hs.hist hs.gaps hs.warm hew hne
  obtain ⟨s2, e6, p2, vv2, g2⟩ := gradTasks_spec H { s1 with p := p', val := w } hq g1
  obtain ⟨s3, e7, p3, hst, g3⟩ := optTasks_spec H alpha s2 g2
  have vv2' : s2.val = w := vv2
  rw [vv2'] at hst
  refine ⟨s3, w, ?_, ⟨?_, ?_, ?_, H.eyes_keep hew hst.outside, g3⟩, hew, hl, hst⟩
  · have p1' : s1.p = s.p := p1
    have vv1' : s1.val = v1 := vv1
    simp only [nnBatch, e1, e4, vv1', e2, e3, p1', e5, e6, e7, Option.bind_eq_bind, Option.bind_some]
  · rw [p3, p2]; exact hh
  · exact fun p n e eye q h1 _ _ _ _ => Or.inr h1
  · exact fun q h1 _ _ => Or.inr h1

end

/-! ## The loop over the batches -/

theorem nnLoop_eq {α : Type} {data batch : ℕ} (hb : 0 < batch) (hd : batch ≤ data) (body : ℕ → α → Option α) :
    ∀ (k fuel : ℕ) (s : α), k ≤ data / batch → data / batch - k + 2 ≤ fuel →
    nnLoop data batch body fuel (k * batch) s =
      ((List.range' k (data / batch - k)).map (· * batch) ++ if data % batch = 0 then [] else [data - batch]).foldlM
        (fun s j => body j s) s := by
  have hdm := Nat.div_add_mod data batch
  intro k
  induction hn : data / batch - k generalizing k with
  | zero =>
    intro fuel s hk hfuel
    have hke : k = data / batch := by omega
    subst hke
    obtain ⟨fuel, rfl⟩ : ∃ n, fuel = n + 1 := ⟨fuel - 1, by omega⟩
    rw [nnLoop, Nat.mul_comm]
    by_cases hm : data % batch = 0
    · rw [if_neg (by omega), if_pos hm]; rfl
    · have hlt := Nat.mod_lt data hb
      obtain ⟨fuel, rfl⟩ : ∃ n, fuel = n + 1 := ⟨fuel - 1, by omega⟩
      rw [if_pos (by omega), if_pos (by omega), if_pos hd, if_neg hm, Nat.sub_add_cancel hd]
      simp only [List.range'_zero, List.map_nil, List.nil_append, List.foldlM_cons, List.foldlM_nil]
      congr 1
      funext s'
      rw [nnLoop, if_neg (by omega)]; rfl
  | succ n ih =>
    intro fuel s hk hfuel
    obtain ⟨fuel, rfl⟩ : ∃ n, fuel = n + 1 := ⟨fuel - 1, by omega⟩
    have hk1 : (k + 1) * batch ≤ data := by
      calc (k + 1) * batch ≤ data / batch * batch := Nat.mul_le_mul_right _ (by omega)
        _ ≤ data := Nat.div_mul_le_self ..
    have e1 : (k + 1) * batch = k * batch + batch := Nat.succ_mul ..
    rw [nnLoop, if_pos (by omega), if_neg (by omega), List.range'_succ, List.map_cons, List.cons_append, List.foldlM_cons]
    show Option.bind _ _ = Option.bind _ _
    congr 1
    funext s'
    rw [← e1]
    exact ih (k + 1) (by omega) fuel s' (by omega) (by omega)

theorem nnLoop_starts {α : Type} {data batch : ℕ} (hb : 0 < batch) (hd : batch ≤ data) (body : ℕ → α → Option α) (s : α) :
    nnLoop data batch body (data + 1) 0 s = (batchStarts data batch).foldlM (fun s j => body j s) s := by
  have h := nnLoop_eq hb hd body 0 (data + 2) s (Nat.zero_le _) (by have := Nat.div_le_self data batch; omega)
  rw [Nat.zero_mul, Nat.sub_zero, ← List.range_eq_range'] at h
  rw [batchStarts, ← h]
  -- more fuel changes nothing once the loop has ended
  have more : ∀ (fuel j : ℕ) (s : α), data < fuel + j ∨ data ≤ j → 0 < fuel → 
      nnLoop data batch body fuel j s = nnLoop data batch body (fuel + 1) j s := by
    intro fuel
    induction fuel with
    | zero => intro j s _ h; omega
    | succ fuel ih =>
      intro j s hj _
      rw [nnLoop, nnLoop]
      by_cases h1 : j < data
      · simp only [if_pos h1, if_pos hd]
        have hf : 0 < fuel := by omega
        by_cases h2 : data < j + batch
        · simp only [if_pos h2]
          congr 1; funext s'
          exact ih _ s' (Or.inr (by omega)) hf
        · simp only [if_neg h2]
          congr 1; funext s'
          exact ih _ s' (by omega) hf
      · simp only [if_neg h1]
  exact more (data + 1) 0 s (by omega) (by omega)

theorem batchStarts_le {d b : ℕ} (hbd : b ≤ d) : ∀ j ∈ batchStarts d b, j + b ≤ d := by
  intro j hj
  rw [batchStarts, List.mem_append] at hj
  rcases hj with hj | hj
  · obtain ⟨k, hk, rfl⟩ := List.mem_map.1 hj
    have hk := List.mem_range.1 hk
    calc k * b + b = (k + 1) * b := (Nat.succ_mul ..).symm
      _ ≤ d / b * b := Nat.mul_le_mul_right _ hk
      _ ≤ d := Nat.div_mul_le_self ..
  · split at hj
    · simp at hj
    · simp only [List.mem_singleton] at hj; omega

section
variable {c : MCtx K} {rank : ℕ → ℕ} {N : NNet K} {Xd Yd : Mat K}

/-- A list of batches. -/
theorem nnBatches_spec (H : NNOk c rank N Xd Yd) (hne : N.params ≠ []) {f : ℕ} (hf : rank N.err < f) (alpha : K) :
    ∀ (bs : List ((ℕ → ℕ → K) × ℕ)), (∀ b ∈ bs, b.2 + N.batch ≤ Yd.rows) → ∀ {s : NNSt K} {U : ℕ → Prop},
    NNInv c rank N s U →
    ∃ s' U', bs.foldlM (fun s b => nnBatch c f N Xd Yd alpha b.1 b.2 s) s = some s' ∧ NNInv c rank N s' U' ∧
      Descent c.E N Xd Yd alpha (nnGrad c rank N) bs s.val s'.val
  | [], _, s, U, hs => ⟨s, U, rfl, hs, .nil _⟩
  | (draw, j) :: bs, hb, s, U, hs => by
    obtain ⟨s1, w, e1, i1, _, l1, d1⟩ := nnBatch_spec H hne hf alpha draw (j := j) (hb (draw, j) (by simp)) hs
    obtain ⟨s2, U2, e2, i2, d2⟩ := nnBatches_spec H hne hf alpha bs (fun b h => hb b (List.mem_cons_of_mem _ h)) i1
    exact ⟨s2, U2, by rw [List.foldlM_cons]; simp only [e1]; exact e2, i2, .cons l1 d1 d2⟩

theorem foldlM_flatMap {α β γ : Type} (f : α → List β) (g : γ → β → Option γ) : ∀ (L : List α) (s : γ),
    (L.flatMap f).foldlM g s = L.foldlM (fun s a => (f a).foldlM g s) s
  | [], s => rfl
  | a :: L, s => by
    rw [List.flatMap_cons, List.foldlM_append, List.foldlM_cons]
    congr 1; funext s'; exact foldlM_flatMap f g L s'

/-- Training. -/
theorem nnTrain_spec (H : NNOk c rank N Xd Yd) (hne : N.params ≠ []) {f : ℕ} (hf : rank N.err < f) (rate : K) (epochs : ℕ)
    (draw : ℕ → ℕ → ℕ → ℕ → K) {s : NNSt K} {U : ℕ → Prop} (hs : NNInv c rank N s U) :
    ∃ s' U', nnTrain c f N Xd Yd rate epochs draw s = some s' ∧ NNInv c rank N s' U' ∧
      Descent c.E N Xd Yd (rate / (N.batch : K)) (nnGrad c rank N) (allBatches Yd.rows N.batch epochs draw) s.val s'.val := by
  obtain ⟨s', U', e, i, d⟩ := nnBatches_spec H hne hf (rate / (N.batch : K)) (allBatches Yd.rows N.batch epochs draw)
    (fun b hb => by
      obtain ⟨i, _, hb⟩ := List.mem_flatMap.1 hb
      obtain ⟨j, hj, rfl⟩ := List.mem_map.1 hb
      exact batchStarts_le H.enough j hj) hs
  refine ⟨s', U', ?_, i, d⟩
  rw [← e, allBatches, foldlM_flatMap, nnTrain]
  congr 1; funext s i
  rw [nnLoop_starts H.bpos H.enough, List.foldlM_map]

end

end CoolDiff
