import Verif.Matrix.RevProof
import Verif.Matrix.ExprReset

/-!
# What a matrix query reads and writes

As `Scalar/Locality.lean`: two runs of a query, in programs and states that agree on a set of named matrices and operator
nodes closed under mentioning, keep pace.
-/

set_option linter.unusedSectionVars false

namespace CoolDiff

variable {K : Type} [Field K] [DecidableEq K]

/-- Named matrices and operator nodes. -/
structure Foot where
  obj : Set ℕ
  num : Set ℕ

/-- An expression lies in the set. -/
def Foot.Has (F : Foot) (e : MNode K) : Prop := (∀ p ∈ e.objs, p ∈ F.obj) ∧ ∀ n ∈ e.nums, n ∈ F.num

/-- The states agree on the set, and on the buffers that all convolutions share. -/
structure MSame (F : Foot) (s t : MSt K) : Prop where
  obj : ∀ o ∈ F.obj, s.obj o = t.obj o
  slot : ∀ n ∈ F.num, s.slot n = t.slot n
  shared : ∀ n k, 20 ≤ k → s.slot n k = t.slot n k

/-- Nothing outside the set is different, except the buffers that all convolutions share. -/
structure MOff (F : Foot) (s t : MSt K) : Prop where
  obj : ∀ o, o ∉ F.obj → s.obj o = t.obj o
  slot : ∀ n, n ∉ F.num → ∀ k < 20, s.slot n k = t.slot n k

section
variable {F : Foot}

theorem MSame.refl (F : Foot) (s : MSt K) : MSame F s s := ⟨fun _ _ => rfl, fun _ _ => rfl, fun _ _ _ => rfl⟩

theorem MOff.refl (F : Foot) (s : MSt K) : MOff F s s := ⟨fun _ _ => rfl, fun _ _ _ _ => rfl⟩

theorem MOff.trans {s t u : MSt K} (h : MOff F s t) (h' : MOff F t u) : MOff F s u :=
  ⟨fun o ho => (h.obj o ho).trans (h'.obj o ho), fun n hn k hk => (h.slot n hn k hk).trans (h'.slot n hn k hk)⟩

theorem MSame.setO {s t : MSt K} (h : MSame F s t) (o : ℕ) (v : MObj K) : MSame F (s.setO o v) (t.setO o v) :=
  ⟨fun p hp => by
    by_cases e : p = o
    · subst e; simp [MSt.setO]
    · simp [MSt.setO, Function.update_of_ne e, h.obj p hp], h.slot, h.shared⟩

theorem MSame.setN {s t : MSt K} (h : MSame F s t) (n : ℕ) (a : Slots K) : MSame F (s.setN n a) (t.setN n a) := by
  refine ⟨h.obj, fun m hm => ?_, fun m k hk => ?_⟩
  · funext k
    simp only [MSt.setN]
    split
    · rfl
    · rw [h.slot m hm]
  · simp [MSt.setN, hk]

theorem off_setO (s : MSt K) {o : ℕ} (ho : o ∈ F.obj) (v : MObj K) : MOff F s (s.setO o v) :=
  ⟨fun p hp => by
    have : p ≠ o := fun e => hp (e ▸ ho)
    simp [MSt.setO, Function.update_of_ne this], fun _ _ _ _ => rfl⟩

theorem off_setN (s : MSt K) {n : ℕ} (hn : n ∈ F.num) (a : Slots K) : MOff F s (s.setN n a) :=
  ⟨fun _ _ => rfl, fun m hm k hk => by
    have : ¬ (m = n ∨ 20 ≤ k) := by
      rintro (e | e)
      · exact hm (e ▸ hn)
      · omega
    simp [MSt.setN, this]⟩

theorem Foot.Has.left {n : ℕ} {op : MBin} {x y : MNode K} (h : F.Has (.bin n op x y)) : F.Has x :=
  ⟨fun p hp => h.1 p (by simp [MNode.objs, hp]), fun p hp => h.2 p (by simp [MNode.nums, hp])⟩
theorem Foot.Has.right {n : ℕ} {op : MBin} {x y : MNode K} (h : F.Has (.bin n op x y)) : F.Has y :=
  ⟨fun p hp => h.1 p (by simp [MNode.objs, hp]), fun p hp => h.2 p (by simp [MNode.nums, hp])⟩
theorem Foot.Has.sub {n : ℕ} {op : MUn K} {x : MNode K} (h : F.Has (.un n op x)) : F.Has x :=
  ⟨fun p hp => h.1 p (by simpa [MNode.objs] using hp), fun p hp => h.2 p (by simp [MNode.nums, hp])⟩
theorem Foot.Has.num1 {n : ℕ} {op : MUn K} {x : MNode K} (h : F.Has (.un n op x)) : n ∈ F.num := h.2 n (by simp [MNode.nums])
theorem Foot.Has.num2 {n : ℕ} {op : MBin} {x y : MNode K} (h : F.Has (.bin n op x y)) : n ∈ F.num :=
  h.2 n (by simp [MNode.nums])
theorem Foot.Has.obj' {o : ℕ} (h : F.Has (.obj o : MNode K)) : o ∈ F.obj := h.1 o (by simp [MNode.objs])

end

/-- Two runs that produce `mk b t` from a result `b` and a state `t`: both stop, or both give the same result, agree on `F`,
and keep everything else. -/
inductive MLk (F : Foot) {α β : Type} (mk : β → MSt K → α) (s s' : MSt K) : Option α → Option α → Prop
  | none : MLk F mk s s' none none
  | some {b : β} {t t' : MSt K} (h : MSame F t t') (f : MOff F s t) (f' : MOff F s' t') :
      MLk F mk s s' (some (mk b t)) (some (mk b t'))

/-- state first -/
def mkS {β : Type} (b : β) (t : MSt K) : MSt K × β := (t, b)
/-- state last -/
def mkL {β : Type} (b : β) (t : MSt K) : β × MSt K := (b, t)
/-- state alone -/
def mkT (_ : Unit) (t : MSt K) : MSt K := t

section
variable {F : Foot} {α β α' β' : Type} {mk : β → MSt K → α} {mk' : β' → MSt K → α'} {s s' : MSt K}

theorem MLk.pure (b : β) (h : MSame F s s') : MLk F mk s s' (Option.some (mk b s)) (Option.some (mk b s')) :=
  .some h (.refl _ _) (.refl _ _)

theorem MLk.after {t t' : MSt K} (f : MOff F s t) (f' : MOff F s' t') {r r' : Option α} (h : MLk F mk t t' r r') :
    MLk F mk s s' r r' := by
  cases h with
  | none => exact .none
  | some h g g' => exact .some h (f.trans g) (f'.trans g')

theorem MLk.bind {r r' : Option α} {f f' : α → Option α'} (h : MLk F mk s s' r r')
    (hf : ∀ b t t', MSame F t t' → MLk F mk' t t' (f (mk b t)) (f' (mk b t'))) :
    MLk F mk' s s' (r.bind f) (r'.bind f') := by
  cases h with
  | none => exact .none
  | some h g g' => exact (hf _ _ _ h).after g g'

theorem MLk.bindP {γ : Type} (r : Option γ) {f f' : γ → Option α'} (hf : ∀ b, MLk F mk' s s' (f b) (f' b)) :
    MLk F mk' s s' (r.bind f) (r.bind f') := by
  cases r with
  | none => exact .none
  | some b => exact hf b

end

/-- The environment of a context replaced. -/
def MCtx.withEnv (c : MCtx K) (E : MEnv K) : MCtx K := { c with E := E }

/-- `E` and `E'` define the matrices in `F` in the same way, and `F` contains everything they mention. -/
structure SameEnv (E E' : MEnv K) (F : Foot) : Prop where
  closed : ∀ o ∈ F.obj, ∀ n e eye, E.kind o = .form n e eye → F.Has (MEnv.item n e eye)
  kind : ∀ o ∈ F.obj, E.kind o = E'.kind o
  rows : ∀ o ∈ F.obj, E.rows o = E'.rows o
  cols : ∀ o ∈ F.obj, E.cols o = E'.cols o
  el : ∀ o ∈ F.obj, E.el o = E'.el o
  vid : E.vid = E'.vid

/-- `E` and `E'` give `X` the same dimensions and elements. -/
structure SameVar (E E' : MEnv K) (X : ℕ) : Prop where
  rows : E.rows X = E'.rows X
  cols : E.cols X = E'.cols X
  el : E.el X = E'.el X

section
variable {c : MCtx K} {E' : MEnv K} {F : Foot}

theorem MBin.eval_env (op : MBin) (L R : Mat K) (a : Slots K) : op.eval (c.withEnv E') L R a = op.eval c L R a := by
  cases op <;> rfl

theorem MUn.eval_env (op : MUn K) (R : Mat K) (a : Slots K) : op.eval (c.withEnv E') R a = op.eval c R a := by
  cases op <;> rfl

theorem MBin.fwd_env (xr xc : ℕ) (op : MBin) (L R dL dR : Mat K) (a : Slots K) :
    op.fwd (c.withEnv E') xr xc L R dL dR a = op.fwd c xr xc L R dL dR a := by
  cases op <;> rfl

theorem scalDer_env (hE : SameEnv c.E E' F) {X : ℕ} (hX : SameVar c.E E' X) (s : ℕ) :
    scalDer (c.withEnv E') X s = scalDer c X s := by
  funext r
  simp only [scalDer, MCtx.withEnv, ← hX.rows, ← hX.cols, ← hX.el, ← hE.vid]

theorem MUn.fwd_env (hE : SameEnv c.E E' F) {X : ℕ} (hX : SameVar c.E E' X) (rf cf : ℕ) (op : MUn K) (R dR : Mat K) (a : Slots K) :
    op.fwd (c.withEnv E') X rf cf R dR a = op.fwd c X rf cf R dR a := by
  simp only [MUn.fwd, scalDer_env hE hX]
  have h1 : (c.withEnv E').E.rows X = c.E.rows X := (hX.rows).symm
  have h2 : (c.withEnv E').E.cols X = c.E.cols X := (hX.cols).symm
  rw [h1, h2]
  rfl

theorem MBin.rev_env (op : MBin) (L R C : Mat K) (a : Slots K) : op.rev (c.withEnv E') L R C a = op.rev c L R C a := by
  cases op <;> rfl

theorem MUn.rev_env (op : MUn K) (R C : Mat K) (a : Slots K) : op.rev (c.withEnv E') R C a = op.rev c R C a := by
  cases op <;> rfl

theorem dims_env (hE : SameEnv c.E E' F) : ∀ {e : MNode K}, F.Has e → e.dims E' = e.dims c.E
  | .obj o, h => by
      simp only [MNode.dims]
      rw [hE.rows o h.obj', hE.cols o h.obj']
  | .bin n op x y, h => by
      simp only [MNode.dims]
      rw [dims_env hE h.left, dims_env hE h.right]
  | .un n op x, h => by
      have := dims_env hE h.sub
      cases op <;> simp only [MNode.dims, this]

theorem leafEval_env (hE : SameEnv c.E E' F) {o : ℕ} (ho : o ∈ F.obj) (v : MObj K) :
    leafEval (c.withEnv E') o v = leafEval c o v := by
  simp only [leafEval, fillEval, MCtx.withEnv, ← hE.rows o ho, ← hE.cols o ho, ← hE.el o ho]

theorem leafFwd_env (hE : SameEnv c.E E' F) {X o : ℕ} (hX : SameVar c.E E' X) (ho : o ∈ F.obj) (v : MObj K) :
    leafFwd (c.withEnv E') X o v = leafFwd c X o v := by
  simp only [leafFwd, fillDer, fillDerExp, fillDerSelf, fillDerVar, MCtx.withEnv, ← hE.rows o ho, ← hE.cols o ho,
    ← hE.el o ho, ← hX.rows, ← hX.cols, ← hX.el, ← hE.vid, ← hE.kind o ho]

theorem kadd_env (κ : MCache K) (k : MKey) (m : Mat K) : kadd (c.withEnv E') κ k m = kadd c κ k m := rfl

theorem mergeC_env (κ : MCache K) (adj : Mat K) (child : MCache K) :
    mergeC (c.withEnv E') κ adj child = mergeC c κ adj child := rfl

theorem SameEnv.item (hE : SameEnv c.E E' F) {o n eye : ℕ} {e : MNode K} (ho : o ∈ F.obj)
    (hk : c.E.kind o = .form n e eye) : F.Has (MEnv.item n e eye) := hE.closed o ho n e eye hk

theorem MLk.afterSet {β' ρ' : Type} {mk : β' → MSt K → ρ'} {s s' : MSt K} (h : MSame F s s') {o : ℕ} (ho : o ∈ F.obj)
    (v : MObj K) {r r' : Option ρ'}
    (H : MSame F (s.setO o v) (s'.setO o v) → MLk F mk (s.setO o v) (s'.setO o v) r r') : MLk F mk s s' r r' :=
  MLk.after (off_setO s ho v) (off_setO s' ho v) (H (h.setO o v))

/-- Calls on named matrices with a result keep pace. -/
def MLkE (F : Foot) (ev ev' : ℕ → MSt K → Option (MSt K × Mat K)) : Prop :=
  ∀ o ∈ F.obj, ∀ s s', MSame F s s' → MLk F mkS s s' (ev o s) (ev' o s')
/-- Calls on named matrices without a result keep pace. -/
def MLkT (F : Foot) (tr tr' : ℕ → MSt K → Option (MSt K)) : Prop :=
  ∀ o ∈ F.obj, ∀ s s', MSame F s s' → MLk F mkT s s' (tr o s) (tr' o s')

variable {ev ev' fw fw' : ℕ → MSt K → Option (MSt K × Mat K)} {tr tr' : ℕ → MSt K → Option (MSt K)}

theorem slot_lock {β : Type} {n : ℕ} (hn : n ∈ F.num) {s s' : MSt K} (h : MSame F s s')
    (r : Slots K → Option (Slots K × β)) :
    MLk F mkS s s' ((r (s.slot n)).bind fun p => some (s.setN n p.1, p.2))
      ((r (s'.slot n)).bind fun p => some (s'.setN n p.1, p.2)) := by
  rw [h.slot n hn]
  exact .bindP _ fun p => .some (h.setN n p.1) (off_setN s hn _) (off_setN s' hn _)

theorem evalE_mlock (hE : SameEnv c.E E' F) (hv : MLkE F ev ev') : ∀ (e : MNode K), F.Has e → ∀ s s', MSame F s s' →
    MLk F mkS s s' (evalE c ev e s) (evalE (c.withEnv E') ev' e s')
  | .obj o, he, s, s', h => hv o he.obj' s s' h
  | .bin n op x y, he, s, s', h => by
      simp only [evalE]
      have hx : x.dims (c.withEnv E').E = x.dims c.E := dims_env hE he.left
      have hy : y.dims (c.withEnv E').E = y.dims c.E := dims_env hE he.right
      rw [hx, hy]
      split
      · refine (evalE_mlock hE hv x he.left s s' h).bind fun L t t' ht => ?_
        refine (evalE_mlock hE hv y he.right t t' ht).bind fun R u u' hu => ?_
        simp only [MBin.eval_env]
        exact slot_lock he.num2 hu _
      · exact .none
  | .un n op x, he, s, s', h => by
      simp only [evalE]
      have hx : x.dims (c.withEnv E').E = x.dims c.E := dims_env hE he.sub
      rw [hx]
      split
      · refine (evalE_mlock hE hv x he.sub s s' h).bind fun L t t' ht => ?_
        simp only [MUn.eval_env]
        exact slot_lock he.num1 ht _
      · exact .none

theorem mevalO_mlock (hE : SameEnv c.E E' F) : ∀ f, MLkE F (mevalO c f) (mevalO (c.withEnv E') f)
  | 0 => fun _ _ _ _ _ => .none
  | f + 1 => fun o ho s s' h => by
      simp only [mevalO]
      have hk : (c.withEnv E').E.kind o = c.E.kind o := (hE.kind o ho).symm
      rw [hk, ← h.obj o ho]
      cases hko : c.E.kind o with
      | form n e eye =>
          dsimp only
          have h1 := h.setO o { s.obj o with evald := true }
          rw [← h1.obj o ho]
          refine MLk.after (off_setO s ho { s.obj o with evald := true }) (off_setO s' ho { s.obj o with evald := true }) ?_
          split
          · rcases hr : (MSt.obj (s.setO o { s.obj o with evald := true }) o).result with _ | m
            · exact .none
            · exact .pure (mk := mkS) m h1
          · refine MLk.afterSet h1 ho { (MSt.obj (s.setO o { s.obj o with evald := true }) o) with visited := true } fun h2 => ?_
            refine (evalE_mlock hE (mevalO_mlock hE f) _ (hE.item ho hko) _ _ h2).bind fun m t t' ht => ?_
            rw [show ((mkS m t : MSt K × Mat K)) = (t, m) from rfl, show ((mkS m t' : MSt K × Mat K)) = (t', m) from rfl]
            dsimp only
            rw [← ht.obj o ho]
            exact .some (mk := mkS) (ht.setO o _) (off_setO t ho _) (off_setO t' ho _)
      | _ =>
          dsimp only
          rw [leafEval_env hE ho]
          exact .bindP _ fun r => .some (mk := mkS) (h.setO o _) (off_setO s ho _) (off_setO s' ho _)

theorem fwdE_mlock (hE : SameEnv c.E E' F) {X : ℕ} (hX : SameVar c.E E' X) (hv : MLkE F ev ev') (hw : MLkE F fw fw') :
    ∀ (e : MNode K), F.Has e → ∀ s s', MSame F s s' →
    MLk F mkS s s' (fwdE c X ev fw e s) (fwdE (c.withEnv E') X ev' fw' e s')
  | .obj o, he, s, s', h => hw o he.obj' s s' h
  | .bin n op x y, he, s, s', h => by
      simp only [fwdE]
      have hx : x.dims (c.withEnv E').E = x.dims c.E := dims_env hE he.left
      have hy : y.dims (c.withEnv E').E = y.dims c.E := dims_env hE he.right
      have h1 : (c.withEnv E').E.rows X = c.E.rows X := (hX.rows).symm
      have h2 : (c.withEnv E').E.cols X = c.E.cols X := (hX.cols).symm
      rw [hx, hy, h1, h2]
      split
      · refine (fwdE_mlock hE hX hv hw x he.left s s' h).bind fun dL t t' ht => ?_
        refine (fwdE_mlock hE hX hv hw y he.right t t' ht).bind fun dR u u' hu => ?_
        simp only [MBin.fwd_env, mkS]
        split
        · refine (evalE_mlock hE hv x he.left u u' hu).bind fun L i i' hi => ?_
          refine (evalE_mlock hE hv y he.right i i' hi).bind fun R j j' hj => ?_
          exact slot_lock he.num2 hj _
        · exact slot_lock he.num2 hu _
      · exact .none
  | .un n op x, he, s, s', h => by
      simp only [fwdE]
      have hx : x.dims (c.withEnv E').E = x.dims c.E := dims_env hE he.sub
      rw [hx]
      split
      · refine (fwdE_mlock hE hX hv hw x he.sub s s' h).bind fun dR t t' ht => ?_
        simp only [MUn.fwd_env hE hX, mkS]
        split
        · refine (evalE_mlock hE hv x he.sub t t' ht).bind fun R i i' hi => ?_
          exact slot_lock he.num1 hi _
        · exact slot_lock he.num1 ht _
      · exact .none

theorem mfwdO_mlock (hE : SameEnv c.E E' F) {X : ℕ} (hX : SameVar c.E E' X) : ∀ f,
    MLkE F (mfwdO c X f) (mfwdO (c.withEnv E') X f)
  | 0 => fun _ _ _ _ _ => .none
  | f + 1 => fun o ho s s' h => by
      simp only [mfwdO]
      have hk : (c.withEnv E').E.kind o = c.E.kind o := (hE.kind o ho).symm
      rw [hk, ← h.obj o ho]
      cases hko : c.E.kind o with
      | form n e eye =>
          dsimp only
          have h1 := h.setO o { s.obj o with devald := true }
          rw [← h1.obj o ho]
          refine MLk.after (off_setO s ho { s.obj o with devald := true }) (off_setO s' ho { s.obj o with devald := true }) ?_
          split
          · rcases hr : (MSt.obj (s.setO o { s.obj o with devald := true }) o).dresult with _ | m
            · exact .none
            · exact .pure (mk := mkS) m h1
          · refine MLk.afterSet h1 ho { (MSt.obj (s.setO o { s.obj o with devald := true }) o) with visited := true } fun h2 => ?_
            refine (fwdE_mlock hE hX (mevalO_mlock hE f) (mfwdO_mlock hE hX f) _ (hE.item ho hko) _ _
              h2).bind fun d t t' ht => ?_
            rw [show ((mkS d t : MSt K × Mat K)) = (t, d) from rfl, show ((mkS d t' : MSt K × Mat K)) = (t', d) from rfl]
            dsimp only
            rw [← ht.obj o ho]
            refine MLk.afterSet ht ho { t.obj o with dresult := some d, devald := true } fun ht2 => ?_
            refine (evalE_mlock hE (mevalO_mlock hE f) _ (hE.item ho hko) _ _ ht2).bind fun m u u' hu => ?_
            rw [show ((mkS m u : MSt K × Mat K)) = (u, m) from rfl, show ((mkS m u' : MSt K × Mat K)) = (u', m) from rfl]
            dsimp only
            rw [← hu.obj o ho]
            exact .some (mk := mkS) (hu.setO o _) (off_setO u ho _) (off_setO u' ho _)
      | _ =>
          dsimp only
          rw [leafFwd_env hE hX ho]
          exact .bindP _ fun r => .some (mk := mkS) (h.setO o _) (off_setO s ho _) (off_setO s' ho _)

theorem mresetE_mlock (ht : MLkT F tr tr') : ∀ (e : MNode K), F.Has e → ∀ s s', MSame F s s' →
    MLk F mkT s s' (mresetE tr e s) (mresetE tr' e s')
  | .obj o, he, s, s', h => ht o he.obj' s s' h
  | .bin _ _ x y, he, s, s', h =>
      (mresetE_mlock ht x he.left s s' h).bind fun _ t t' h' => mresetE_mlock ht y he.right t t' h'
  | .un _ _ x, he, s, s', h => mresetE_mlock ht x he.sub s s' h

theorem mresetItem_mlock (hE : SameEnv c.E E' F) (ht : MLkT F tr tr') {o : ℕ} (ho : o ∈ F.obj) {s s' : MSt K}
    (h : MSame F s s') : MLk F mkT s s' (mresetItem c.E tr o s) (mresetItem E' tr' o s') := by
  simp only [mresetItem]
  rw [← hE.kind o ho]
  cases hk : c.E.kind o with
  | form n e eye => exact mresetE_mlock ht _ (hE.item ho hk) s s' h
  | _ => exact .pure (mk := mkT) () h

theorem mresetO_mlock (hE : SameEnv c.E E' F) : ∀ f, MLkT F (mresetO c.E f) (mresetO E' f)
  | 0 => fun _ _ _ _ _ => .none
  | f + 1 => fun o ho s s' h => by
      simp only [mresetO]
      rw [← h.obj o ho]
      refine MLk.bind (mk := mkT) ?_ fun _ t t' h' => ?_
      · split
        · exact MLk.after (off_setO s ho _) (off_setO s' ho _)
            (mresetItem_mlock hE (mresetO_mlock hE f) ho (h.setO o _))
        · exact .pure (mk := mkT) () h
      · simp only [mkT]
        rw [← h'.obj o ho]
        exact .some (mk := mkT) (b := ()) (h'.setO o _) (off_setO t ho _) (off_setO t' ho _)

theorem mresetImpl_mlock (hE : SameEnv c.E E' F) (f : ℕ) {o : ℕ} (ho : o ∈ F.obj) {s s' : MSt K} (h : MSame F s s') :
    MLk F mkT s s' (mresetImpl c.E f o s) (mresetImpl E' f o s') := by
  simp only [mresetImpl]
  rw [← h.obj o ho]
  refine MLk.bind (mk := mkT) (MLk.after (off_setO s ho _) (off_setO s' ho _)
    (mresetItem_mlock hE (mresetO_mlock hE f) ho (h.setO o _))) fun _ t t' h' => ?_
  simp only [mkT]
  rw [← h'.obj o ho]
  exact .some (mk := mkT) (b := ()) (h'.setO o _) (off_setO t ho _) (off_setO t' ho _)

theorem visitedOf_same {s s' : MSt K} (h : MSame F s s') {x : MNode K} (hx : F.Has x) : visitedOf s x = visitedOf s' x := by
  cases x with
  | obj o => simp only [visitedOf, h.obj o hx.obj']
  | bin => rfl
  | un => rfl

theorem childCache_same {s s' : MSt K} (h : MSame F s s') {x : MNode K} (hx : F.Has x) :
    childCache s x = childCache s' x := by
  cases x with
  | obj o => simp only [childCache, h.obj o hx.obj']
  | bin => rfl
  | un => rfl

theorem unlessSeen_mlock {s s' : MSt K} (h : MSame F s s') {x : MNode K} (hx : F.Has x) (κ : MCache K)
    {r r' : Option (MCache K × MSt K)} (hr : MLk F mkL s s' r r') :
    MLk F mkL s s' (unlessSeen x κ s r) (unlessSeen x κ s' r') := by
  simp only [unlessSeen]
  rw [visitedOf_same h hx]
  split
  · exact .pure (mk := mkL) κ h
  · exact hr

theorem push2_same {s s' : MSt K} (h : MSame F s s') {x y : MNode K} (hx : F.Has x) (hy : F.Has y) (mL mR : Mat K)
    (κ : MCache K) : push2 (c.withEnv E') x y mL mR κ s' = push2 c x y mL mR κ s := by
  simp only [push2, kadd_env, mergeC_env, childCache_same h hx, childCache_same h hy]

theorem push1_same {s s' : MSt K} (h : MSame F s s') {x : MNode K} (hx : F.Has x) (m : Mat K)
    (κ : MCache K) : push1 (c.withEnv E') x m κ s' = push1 c x m κ s := by
  simp only [push1, kadd_env, mergeC_env, childCache_same h hx]

theorem revVals2_mlock (hE : SameEnv c.E E' F) (hv : MLkE F ev ev') (op : MBin) {x y : MNode K} (hx : F.Has x)
    (hy : F.Has y) (C : Mat K) {s s' : MSt K} (h : MSame F s s') :
    MLk F mkS s s' (revVals2 c ev op x y C s) (revVals2 (c.withEnv E') ev' op x y C s') := by
  simp only [revVals2]
  split
  · refine (evalE_mlock hE hv x hx s s' h).bind fun L t t' ht => ?_
    exact (evalE_mlock hE hv y hy t t' ht).bind fun R u u' hu => .pure (mk := mkS) (L, R) hu
  · exact .pure (mk := mkS) (C, C) h

theorem revVals1_mlock (hE : SameEnv c.E E' F) (hv : MLkE F ev ev') (op : MUn K) {x : MNode K} (hx : F.Has x)
    (C : Mat K) {s s' : MSt K} (h : MSame F s s') :
    MLk F mkS s s' (revVals1 c ev op x C s) (revVals1 (c.withEnv E') ev' op x C s') := by
  simp only [revVals1]
  split
  · exact evalE_mlock hE hv x hx s s' h
  · exact .pure (mk := mkS) C h

theorem travE_mlock (hE : SameEnv c.E E' F) (hv : MLkE F ev ev') (ht : MLkT F tr tr') : ∀ (e : MNode K), F.Has e →
    ∀ κ s s', MSame F s s' → MLk F mkL s s' (travE c ev tr e κ s) (travE (c.withEnv E') ev' tr' e κ s')
  | .obj o, he, κ, s, s', h => by
      simp only [travE]
      rw [Option.map_eq_bind, Option.map_eq_bind]
      exact (ht o he.obj' s s' h).bind fun _ t t' h' => .pure (mk := mkL) κ h'
  | .bin n op x y, he, κ, s, s', h => by
      simp only [travE]
      refine MLk.bind (mk := mkL) ?_ fun κ t t' h1 => ?_
      · split
        · exact .pure (mk := mkL) κ h
        · rename_i C _
          refine (unlessSeen_mlock h he.left κ (travE_mlock hE hv ht x he.left κ s s' h)).bind fun κ t t' h1 => ?_
          refine (unlessSeen_mlock h1 he.right κ (travE_mlock hE hv ht y he.right κ t t' h1)).bind fun κ u u' h2 => ?_
          refine (revVals2_mlock hE hv op he.left he.right C h2).bind fun LR i i' h3 => ?_
          obtain ⟨L, R⟩ := LR
          simp only [mkS, MBin.rev_env]
          rw [h3.slot n he.num2]
          refine .bindP _ fun p => ?_
          obtain ⟨a, mL, mR⟩ := p
          have h4 := h3.setN n a
          simp only [push2_same h4 he.left he.right]
          exact .bindP _ fun κ => .some (mk := mkL) h4 (off_setN i he.num2 _) (off_setN i' he.num2 _)
      · refine (unlessSeen_mlock h1 he.left κ (travE_mlock hE hv ht x he.left κ t t' h1)).bind fun κ u u' h2 => ?_
        exact unlessSeen_mlock h2 he.right κ (travE_mlock hE hv ht y he.right κ u u' h2)
  | .un n op x, he, κ, s, s', h => by
      simp only [travE]
      refine MLk.bind (mk := mkL) ?_ fun κ t t' h1 => ?_
      · split
        · exact .pure (mk := mkL) κ h
        · rename_i C _
          refine (unlessSeen_mlock h he.sub κ (travE_mlock hE hv ht x he.sub κ s s' h)).bind fun κ t t' h1 => ?_
          refine (revVals1_mlock hE hv op he.sub C h1).bind fun R i i' h3 => ?_
          simp only [mkS, MUn.rev_env]
          rw [h3.slot n he.num1]
          refine .bindP _ fun p => ?_
          obtain ⟨a, m⟩ := p
          have h4 := h3.setN n a
          simp only [push1_same h4 he.sub]
          exact .bindP _ fun κ => .some (mk := mkL) h4 (off_setN i he.num1 _) (off_setN i' he.num1 _)
      · exact unlessSeen_mlock h1 he.sub κ (travE_mlock hE hv ht x he.sub κ t t' h1)

theorem travRoot_mlock (hE : SameEnv c.E E' F) (hv : MLkE F ev ev') (ht : MLkT F tr tr') {n : ℕ} (hn : n ∈ F.num)
    {x y : MNode K} (hx : F.Has x) (hy : F.Has y) {s s' : MSt K} (h : MSame F s s') :
    MLk F mkL s s' (travRoot c ev tr n x y s) (travRoot (c.withEnv E') ev' tr' n x y s') := by
  simp only [travRoot]
  refine (unlessSeen_mlock h hx [] (travE_mlock hE hv ht x hx [] s s' h)).bind fun κ t t' h1 => ?_
  refine (unlessSeen_mlock h1 hy κ (travE_mlock hE hv ht y hy κ t t' h1)).bind fun κ u u' h2 => ?_
  refine (evalE_mlock hE hv x hx u u' h2).bind fun L i i' h3 => ?_
  refine (evalE_mlock hE hv y hy i i' h3).bind fun R j j' h4 => ?_
  simp only [mkS]
  rw [h4.slot n hn]
  refine .bindP _ fun p => ?_
  refine .bindP _ fun q => ?_
  have h5 := h4.setN n q.1
  simp only [push2_same h5 hx hy]
  refine MLk.after (off_setN j hn q.1) (off_setN j' hn q.1) (.bindP _ fun κ => ?_)
  refine (unlessSeen_mlock h5 hx κ (travE_mlock hE hv ht x hx κ _ _ h5)).bind fun κ u u' h2 => ?_
  exact unlessSeen_mlock h2 hy κ (travE_mlock hE hv ht y hy κ u u' h2)

theorem mtravO_mlock (hE : SameEnv c.E E' F) : ∀ f, MLkT F (mtravO c f) (mtravO (c.withEnv E') f)
  | 0 => fun _ _ _ _ _ => .none
  | f + 1 => fun o ho s s' h => by
      simp only [mtravO]
      have hk : (c.withEnv E').E.kind o = c.E.kind o := (hE.kind o ho).symm
      rw [hk, ← h.obj o ho]
      split
      · exact .pure (mk := mkT) () h
      · cases hko : c.E.kind o with
        | form n e eye =>
            dsimp only
            have hi := hE.item ho hko
            refine MLk.afterSet h ho { s.obj o with visited := true } fun h1 => ?_
            refine (travRoot_mlock hE (mevalO_mlock hE f) (mtravO_mlock hE f) (Foot.Has.num2 hi) (Foot.Has.left hi)
              (Foot.Has.right hi) h1).bind fun κ t t' ht => ?_
            refine (evalE_mlock hE (mevalO_mlock hE f) _ hi _ _ ht).bind fun m u u' hu => ?_
            simp only [mkS, mkL]
            rw [← hu.obj o ho]
            exact .some (mk := mkT) (b := ()) (hu.setO o _) (off_setO u ho _) (off_setO u' ho _)
        | _ =>
            dsimp only
            exact .some (mk := mkT) (b := ()) (h.setO o _) (off_setO s ho _) (off_setO s' ho _)

theorem precompReset_mlock (hE : SameEnv c.E E' F) (f : ℕ) {o : ℕ} (ho : o ∈ F.obj) {s s' : MSt K} (h : MSame F s s') :
    MLk F mkT s s' (precompReset c.E f o s) (precompReset E' f o s') := by
  simp only [precompReset]
  rw [← hE.kind o ho]
  cases hk : c.E.kind o with
  | form n e eye => exact mresetImpl_mlock hE f ho h
  | exp => exact mresetImpl_mlock hE f ho h
  | _ => exact mresetO_mlock hE f o ho s s' h

theorem matEval_mlock (hE : SameEnv c.E E' F) (f : ℕ) {e : MNode K} (he : F.Has e) {s s' : MSt K} (h : MSame F s s') :
    MLk F mkS s s' (matEval c f e s) (matEval (c.withEnv E') f e s') :=
  (mresetE_mlock (mresetO_mlock hE f) e he s s' h).bind fun _ t t' ht => evalE_mlock hE (mevalO_mlock hE f) e he t t' ht

theorem matDevalF_mlock (hE : SameEnv c.E E' F) {X : ℕ} (hX : SameVar c.E E' X) (f : ℕ) {e : MNode K} (he : F.Has e)
    {s s' : MSt K} (h : MSame F s s') :
    MLk F mkS s s' (matDevalF c f X e s) (matDevalF (c.withEnv E') f X e s') :=
  (mresetE_mlock (mresetO_mlock hE f) e he s s' h).bind fun _ t t' ht =>
    fwdE_mlock hE hX (mevalO_mlock hE f) (mfwdO_mlock hE hX f) e he t t' ht

theorem matPreComp_mlock (hE : SameEnv c.E E' F) (f : ℕ) {o : ℕ} (ho : o ∈ F.obj) {s s' : MSt K} (h : MSame F s s') :
    MLk F mkT s s' (matPreComp c f o s) (matPreComp (c.withEnv E') f o s') :=
  (precompReset_mlock hE f ho h).bind fun _ t t' ht => mtravO_mlock hE f o ho t t' ht

end

end CoolDiff
