import Verif.Matrix.RevHist

/-!
# Differentiation with respect to a `Matrix<Type>`

`DevalR(Y, W)` may be asked for any matrix `W`, also for a `Matrix<Type>`: reverse differentiation never looks at the
element type of a matrix.  `E.wrt T` is the program in which the matrices `T` hold variables instead of numbers; `Eval`
and `PreComp` do the same in both.
-/

set_option linter.unusedSectionVars false

namespace CoolDiff

variable {K : Type} [Field K] [DecidableEq K]

/-- The program in which the `Matrix<Type>` objects `T` are `Matrix<Variable>` objects (and every element handle is a
variable of its own). -/
def MEnv.wrt (E : MEnv K) (T : List ℕ) : MEnv K :=
  { E with kind := fun o => if o ∈ T then .var else E.kind o, vid := id }

/-- The same for a context: a number depends on itself only. -/
def MCtx.wrt (c : MCtx K) (T : List ℕ) : MCtx K := { c with E := c.E.wrt T, sc := ⟨c.sc.val, fun a v => if a = v then 1 else 0⟩ }

/-- The matrices `T` are `Matrix<Type>` objects. -/
def Nums (E : MEnv K) (T : List ℕ) : Prop := ∀ o ∈ T, E.kind o = .num

section
variable {E : MEnv K} {T : List ℕ}

theorem MEnv.wrt_form (h : Nums E T) {o n eye : ℕ} {e : MNode K} :
    (E.wrt T).kind o = .form n e eye ↔ E.kind o = .form n e eye := by
  by_cases ho : o ∈ T
  · simp [MEnv.wrt, ho, h o ho]
  · simp [MEnv.wrt, ho]

theorem MEnv.wrt_isForm (h : Nums E T) {o : ℕ} : (E.wrt T).isForm o ↔ E.isForm o := by
  simp only [MEnv.isForm, E.wrt_form h]

theorem MEnv.wrt_dims (e : MNode K) : e.dims (E.wrt T) = e.dims E := by
  induction e with
  | obj o => rfl
  | bin n op a b iha ihb => simp only [MNode.dims, iha, ihb]
  | un n op a ih => cases op <;> simp only [MNode.dims, ih]

end

section
variable {c : MCtx K} {T : List ℕ}

theorem MBin.eval_wrt (op : MBin) (L R : Mat K) (a : Slots K) : op.eval (c.wrt T) L R a = op.eval c L R a := by
  cases op <;> rfl

theorem MUn.eval_wrt (op : MUn K) (R : Mat K) (a : Slots K) : op.eval (c.wrt T) R a = op.eval c R a := by
  cases op <;> rfl

theorem MBin.rev_wrt (op : MBin) (L R C : Mat K) (a : Slots K) : op.rev (c.wrt T) L R C a = op.rev c L R C a := by
  cases op <;> rfl

theorem MUn.rev_wrt (op : MUn K) (R C : Mat K) (a : Slots K) : op.rev (c.wrt T) R C a = op.rev c R C a := by
  cases op <;> rfl

theorem evalE_wrt (ev : ℕ → MSt K → Option (MSt K × Mat K)) : ∀ (e : MNode K) (s : MSt K),
    evalE (c.wrt T) ev e s = evalE c ev e s
  | .obj _, _ => rfl
  | .bin n op x y, s => by
    simp only [evalE, evalE_wrt ev x, evalE_wrt ev y, MBin.eval_wrt]
    simp only [MCtx.wrt, MEnv.wrt_dims]
  | .un n op x, s => by
    simp only [evalE, evalE_wrt ev x, MUn.eval_wrt]
    simp only [MCtx.wrt, MEnv.wrt_dims]

theorem leafEval_wrt (o : ℕ) (v : MObj K) : leafEval (c.wrt T) o v = leafEval c o v := rfl

theorem mevalO_wrt (h : Nums c.E T) : ∀ f, mevalO (c.wrt T) f = mevalO c f
  | 0 => rfl
  | f + 1 => by
    funext o s
    by_cases ho : o ∈ T
    · have h1 : (c.wrt T).E.kind o = .var := by simp [MCtx.wrt, MEnv.wrt, ho]
      simp only [mevalO, h1, h o ho, leafEval_wrt]
    · have h1 : (c.wrt T).E.kind o = c.E.kind o := by simp [MCtx.wrt, MEnv.wrt, ho]
      simp only [mevalO, h1, leafEval_wrt, evalE_wrt, mevalO_wrt h f]

theorem kaddP_wrt : kaddP (c.wrt T) = kaddP c := rfl
theorem cloneP_wrt : cloneP (c.wrt T) = cloneP c := rfl
theorem mergeCP_wrt : mergeCP (c.wrt T) = mergeCP c := rfl
theorem push2P_wrt : push2P (c.wrt T) = push2P c := rfl
theorem push1P_wrt : push1P (c.wrt T) = push1P c := rfl

theorem revVals2_wrt (ev : ℕ → MSt K → Option (MSt K × Mat K)) (op : MBin) (x y : MNode K) (C : Mat K) :
    revVals2 (c.wrt T) ev op x y C = revVals2 c ev op x y C := by
  funext s; simp only [revVals2, evalE_wrt]

theorem revVals1_wrt (ev : ℕ → MSt K → Option (MSt K × Mat K)) (op : MUn K) (x : MNode K) (C : Mat K) :
    revVals1 (c.wrt T) ev op x C = revVals1 c ev op x C := by
  funext s; simp only [revVals1, evalE_wrt]

theorem travEP_wrt (ev : ℕ → MSt K → Option (MSt K × Mat K)) (tr : ℕ → PSt K → Option (PSt K)) :
    ∀ (e : MNode K) (κ : PCache) (p : PSt K), travEP (c.wrt T) ev tr e κ p = travEP c ev tr e κ p
  | .obj _, _, _ => rfl
  | .bin n op x y, κ, p => by
    simp only [travEP, travEP_wrt ev tr x, travEP_wrt ev tr y, revVals2_wrt, MBin.rev_wrt, push2P_wrt]
  | .un n op x, κ, p => by
    simp only [travEP, travEP_wrt ev tr x, revVals1_wrt, MUn.rev_wrt, push1P_wrt]

theorem travRootP_wrt (ev : ℕ → MSt K → Option (MSt K × Mat K)) (tr : ℕ → PSt K → Option (PSt K)) (n : ℕ)
    (x y : MNode K) (p : PSt K) : travRootP (c.wrt T) ev tr n x y p = travRootP c ev tr n x y p := by
  have e : evalE (c.wrt T) ev = evalE c ev := by funext e s; exact evalE_wrt ev e s
  simp only [travRootP, travEP_wrt, e, push2P_wrt]
  rfl

theorem mtravP_wrt (h : Nums c.E T) : ∀ f, mtravP (c.wrt T) f = mtravP c f
  | 0 => rfl
  | f + 1 => by
    funext o p
    have e : ∀ ev, evalE (c.wrt T) ev = evalE c ev := fun ev => by funext e s; exact evalE_wrt ev e s
    by_cases ho : o ∈ T
    · have h1 : (c.wrt T).E.kind o = .var := by simp [MCtx.wrt, MEnv.wrt, ho]
      simp only [mtravP, h1, h o ho]
    · have h1 : (c.wrt T).E.kind o = c.E.kind o := by simp [MCtx.wrt, MEnv.wrt, ho]
      simp only [mtravP, h1, travRootP_wrt, e, mtravP_wrt h f, mevalO_wrt h f]

theorem presetItem_wrt {E : MEnv K} (h : Nums E T) (rs : ℕ → PSt K → Option (PSt K)) (o : ℕ) (p : PSt K) :
    presetItem (E.wrt T) rs o p = presetItem E rs o p := by
  by_cases ho : o ∈ T
  · have h1 : (E.wrt T).kind o = .var := by simp [MEnv.wrt, ho]
    simp only [presetItem, h1, h o ho]
  · have h1 : (E.wrt T).kind o = E.kind o := by simp [MEnv.wrt, ho]
    simp only [presetItem, h1]

theorem presetO_wrt {E : MEnv K} (h : Nums E T) : ∀ f, presetO (E.wrt T) f = presetO E f
  | 0 => rfl
  | f + 1 => by funext o p; simp only [presetO, presetItem_wrt h, presetO_wrt h f]

theorem precompResetP_wrt {E : MEnv K} (h : Nums E T) (f o : ℕ) (p : PSt K) :
    precompResetP (E.wrt T) f o p = precompResetP E f o p := by
  by_cases ho : o ∈ T
  · have h1 : (E.wrt T).kind o = .var := by simp [MEnv.wrt, ho]
    simp only [precompResetP, h1, h o ho, presetO_wrt h]
  · have h1 : (E.wrt T).kind o = E.kind o := by simp [MEnv.wrt, ho]
    simp only [precompResetP, h1, presetO_wrt h, presetImpl, presetItem_wrt h]

/-- `PreComp` does not look at the element types. -/
theorem pPreComp_wrt (h : Nums c.E T) (f o : ℕ) (p : PSt K) : pPreComp (c.wrt T) f o p = pPreComp c f o p := by
  simp only [pPreComp, mtravP_wrt h]
  rw [show (c.wrt T).E = c.E.wrt T from rfl, precompResetP_wrt h]

/-- `Eval` does not look at the element types. -/
theorem pEval_wrt (h : Nums c.E T) (f o : ℕ) (p : PSt K) : pEval (c.wrt T) f o p = pEval c f o p := by
  simp only [pEval, mevalO_wrt h]
  rw [show (c.wrt T).E = c.E.wrt T from rfl, presetO_wrt h]

/-- `Eval` of an expression does not look at the element types. -/
theorem pEvalE_wrt (h : Nums c.E T) (f : ℕ) (e : MNode K) (p : PSt K) : pEvalE (c.wrt T) f e p = pEvalE c f e p := by
  have e1 : evalE (c.wrt T) (mevalO c f) e = evalE c (mevalO c f) e := by funext s; exact evalE_wrt _ e s
  simp only [pEvalE, mevalO_wrt h, e1]
  rw [show (c.wrt T).E = c.E.wrt T from rfl, presetO_wrt h]

theorem pDevalR_wrt (E : MEnv K) (T : List ℕ) (o X : ℕ) (p : PSt K) : pDevalR (E.wrt T) o X p = pDevalR E o X p := rfl

end

/-! ## The specification -/

section
variable {E : MEnv K} {T : List ℕ}

theorem MReach.wrt (h : Nums E T) {o q : ℕ} : MReach (E.wrt T) o q ↔ MReach E o q := by
  constructor
  · intro hr
    induction hr with
    | refl => exact .refl
    | step _ hk hq ih => exact ih.step ((E.wrt_form h).1 hk) hq
  · intro hr
    induction hr with
    | refl => exact .refl
    | step _ hk hq ih => exact ih.step ((E.wrt_form h).2 hk) hq

theorem den_wrt (sv : ℕ → K) (V : ℕ → ℕ → ℕ → K) : ∀ e : MNode K, den (E.wrt T) sv V e = den E sv V e
  | .obj _ => by funext i j; rfl
  | .bin _ op a b => by
    funext i j
    cases op <;> simp only [den, den_wrt sv V a, den_wrt sv V b, MEnv.wrt_dims]
  | .un _ op a => by
    funext i j
    cases op <;> simp only [den, den_wrt sv V a, MEnv.wrt_dims]
    rw [MEnv.wrt_dims]

theorem valO_wrt (h : Nums E T) (sv : ℕ → K) : ∀ f, valO (E.wrt T) sv f = valO E sv f
  | 0 => by funext o i j; rfl
  | f + 1 => by
    funext o i j
    by_cases ho : o ∈ T
    · have h1 : (E.wrt T).kind o = .var := by simp [MEnv.wrt, ho]
      simp only [valO, h1, h o ho]; rfl
    · have h1 : (E.wrt T).kind o = E.kind o := by simp [MEnv.wrt, ho]
      simp only [valO, h1, valO_wrt h sv f, den_wrt]; rfl

/-- Values do not depend on the element types. -/
theorem valOf_wrt (h : Nums E T) (sv : ℕ → K) (rank : ℕ → ℕ) : valOf (E.wrt T) sv rank = valOf E sv rank := by
  funext o i j; simp only [valOf, valO_wrt h]

theorem DimOk.wrt : ∀ {e : MNode K}, DimOk E e → DimOk (E.wrt T) e
  | .obj _, h => h
  | .bin _ op a b, h => by
    obtain ⟨h1, h2, h3, h4⟩ := h
    refine ⟨h1.wrt, h2.wrt, ?_, ?_⟩
    · simpa only [MEnv.wrt_dims] using h3
    · rw [MEnv.wrt_dims]; cases op <;> exact h4
  | .un _ op a, h => ⟨h.1.wrt, by simpa only [MEnv.wrt_dims] using h.2⟩

theorem MEnv.WF.wrt {rank : ℕ → ℕ} (h : E.WF rank) (hT : Nums E T)
    (he : ∀ o n e eye, E.kind o = .form n e eye → eye ∉ T) : (E.wrt T).WF rank := by
  refine ⟨h.rpos, h.cpos, fun o n e eye hk => ?_⟩
  have hk' := (E.wrt_form hT).1 hk
  obtain ⟨h1, h2, h3, h4, h5, h6, h7⟩ := h.form o n e eye hk'
  rw [MEnv.wrt_dims]
  exact ⟨by simp [MEnv.wrt, he o n e eye hk', h1], h2, h3, h4.wrt, h5, h6, h7⟩

theorem EyesOk.wrt (hT : Nums E T) {sv : ℕ → K} (h : EyesOk E sv) : EyesOk (E.wrt T) sv :=
  fun o n e eye hk => h o n e eye ((E.wrt_form hT).1 hk)

theorem Invertible.wrt {d : Prop} {sv : ℕ → K} {V : ℕ → ℕ → ℕ → K} : ∀ {e : MNode K}, Invertible d E sv V e →
    Invertible d (E.wrt T) sv V e
  | .obj _, _ => trivial
  | .bin _ _ a b, h => ⟨Invertible.wrt (e := a) h.1, Invertible.wrt (e := b) h.2⟩
  | .un _ op a, h => by
    cases op <;> simp only [Invertible, den_wrt] at h ⊢
    case inv => rw [MEnv.wrt_dims]; exact ⟨Invertible.wrt h.1, h.2⟩
    case det => rw [MEnv.wrt_dims]; exact ⟨Invertible.wrt h.1, h.2⟩
    all_goals exact Invertible.wrt h

end

/-! ## Runs -/

theorem QueryOk.wrt {c : MCtx K} {T : List ℕ} (hT : Nums c.E T) {rank : ℕ → ℕ} {d : Prop} {o : ℕ} (h : QueryOk c rank d o)
    (he : ∀ o n e eye, c.E.kind o = .form n e eye → eye ∉ T) : QueryOk (c.wrt T) rank d o := by
  have hv : MVal (c.wrt T) rank = MVal c rank := valOf_wrt hT _ _
  refine ⟨h.wf.wrt hT he, h.sound, h.eyes.wrt hT, ⟨fun p hp n e eye hk => ?_, fun p hp n e eye hk => ?_⟩⟩
  · exact h.forms.inv p ((MReach.wrt hT).1 hp) n e eye ((c.E.wrt_form hT).1 hk)
  · rw [hv]
    exact (h.forms.invertible p ((MReach.wrt hT).1 hp) n e eye ((c.E.wrt_form hT).1 hk)).wrt

/-- An `Eval` query of the program belongs to a run of the program in which the matrices `T` hold variables. -/
theorem PHist.eval_wrt {c : MCtx K} {T : List ℕ} (hT : Nums c.E T) {rank : ℕ → ℕ} {p p' : PSt K} {m : Mat K}
    {U : ℕ → Prop} (hh : PHist (c.E.wrt T) rank p U) (he : ∀ o n e eye, c.E.kind o = .form n e eye → eye ∉ T) {o f : ℕ}
    (hq : QueryOk c rank False o) (hf : rank o < f) (hU : U o ∨ Current c.E (MVal c rank) o p.val)
    (h : pEval c f o p = some (p', m)) : PHist (c.E.wrt T) rank p' (fun q => U q ∨ MReach c.E o q) := by
  have e2 : (fun q => U q ∨ MReach (c.E.wrt T) o q) = fun q => U q ∨ MReach c.E o q := by
    funext q; rw [MReach.wrt hT]
  have hv : MVal (c.wrt T) rank = MVal c rank := valOf_wrt hT _ _
  rw [← e2]
  refine .query hh (.eval (c.wrt T) f rfl (hq.wrt hT he) hf (hU.imp id fun hc => ?_) (by rw [pEval_wrt hT]; exact h))
  rw [hv]
  refine ⟨fun q hr hl => hc.leaf q ((MReach.wrt hT).1 hr) (fun hf => hl ((c.E.wrt_isForm hT).2 hf)),
    fun q hr hf => hc.form q ((MReach.wrt hT).1 hr) ((c.E.wrt_isForm hT).1 hf)⟩

theorem EReach.wrt {E : MEnv K} {T : List ℕ} (h : Nums E T) {e : MNode K} {q : ℕ} : EReach (E.wrt T) e q ↔ EReach E e q := by
  simp only [EReach, MReach.wrt h]

theorem QueryOkE.wrt {c : MCtx K} {T : List ℕ} (hT : Nums c.E T) {rank : ℕ → ℕ} {d : Prop} {e : MNode K}
    (h : QueryOkE c rank d e) (he : ∀ o n e eye, c.E.kind o = .form n e eye → eye ∉ T) : QueryOkE (c.wrt T) rank d e := by
  have hv : MVal (c.wrt T) rank = MVal c rank := valOf_wrt hT _ _
  refine ⟨h.wf.wrt hT he, h.sound, h.eyes.wrt hT, ⟨fun p hp n e eye hk => ?_, fun p hp n e eye hk => ?_⟩, h.dims.wrt, h.inv, ?_⟩
  · exact h.forms.inv p ((EReach.wrt hT).1 hp) n e eye ((c.E.wrt_form hT).1 hk)
  · rw [hv]
    exact (h.forms.invertible p ((EReach.wrt hT).1 hp) n e eye ((c.E.wrt_form hT).1 hk)).wrt
  · rw [hv]; exact h.invertible.wrt

theorem NoGapsE.wrt {E : MEnv K} {T : List ℕ} (hT : Nums E T) {U : ℕ → Prop} {e : MNode K} (h : NoGapsE E U e) :
    NoGapsE (E.wrt T) U e :=
  fun p n e' eye q h1 h2 => h p n e' eye q ((EReach.wrt hT).1 h1) ((E.wrt_form hT).1 h2)

/-- `Eval` of an expression in a run of the program in which the matrices `T` hold variables. -/
theorem PHist.evalE_wrt {c : MCtx K} {T : List ℕ} (hT : Nums c.E T) {rank : ℕ → ℕ} {p p' : PSt K} {m : Mat K}
    {U : ℕ → Prop} (hh : PHist (c.E.wrt T) rank p U) (he : ∀ o n e eye, c.E.kind o = .form n e eye → eye ∉ T)
    {e : MNode K} {f : ℕ} (hq : QueryOkE c rank False e) (hf : ∀ q ∈ e.objs, rank q < f) (hg : NoGapsE c.E U e)
    (h : pEvalE c f e p = some (p', m)) : PHist (c.E.wrt T) rank p' (fun q => U q ∨ EReach c.E e q) := by
  have e2 : (fun q => U q ∨ EReach (c.E.wrt T) e q) = fun q => U q ∨ EReach c.E e q := by
    funext q; rw [EReach.wrt hT]
  rw [← e2]
  exact .query hh (.evalE (c.wrt T) e f rfl (hq.wrt hT he) hf (hg.wrt hT) (by rw [pEvalE_wrt hT]; exact h))

end CoolDiff
