import Verif.Scalar.Define
import Mathlib.Algebra.Field.Rat

/-!
# Concrete programs used as witnesses
-/

namespace CoolDiff.Ex

/-- An interpretation of the `<cmath>` functions for witnesses that do not use them. -/
def P0 : Prim ℚ where
  sin _ := 0
  cos _ := 0
  tan _ := 0
  sinh _ := 0
  cosh _ := 0
  tanh _ := 0
  asin _ := 0
  acos _ := 0
  atan _ := 0
  asinh _ := 0
  acosh _ := 0
  atanh _ := 0
  sqrt _ := 0
  exp _ := 0
  log _ := 0
  pow _ _ := 0

/-- `Variable x = 2; Variable z = 3; Expression e = x*z; Expression y = e*e + x;`
(objects: x = 1, z = 2, e = 3, y = 4) -/
def s0 : St ℚ :=
  define 4 (.add (.mul (.var 3) (.var 3)) (.var 1))
    (newExpr (define 3 (.mul (.var 1) (.var 2)) (newExpr (newVar 3 (newVar 2 St.init).2).2).2)).2

example : (Eval P0 4 s0).map Prod.fst = some 38 := by decide +kernel
example : (DevalF P0 4 1 s0).map Prod.fst = some 37 := by decide +kernel
example : (PreComp P0 4 s0).map (DevalR 4 1) = some 37 := by decide +kernel

theorem s0_hist : Hist P0 s0 (fun _ => False) :=
  .define 4 _ (.newExpr (.define 3 _ (.newExpr (.newVar 3 (.newVar 2 .init)))
    (by decide) nofun (by decide) (by decide)))
    (by decide) nofun (by decide) (by decide)

theorem s0_acyclic : Acyclic s0.defs := Acyclic.of_ordered (by decide) (by decide)

theorem s0_wd : WellDefined s0.defs 4 :=
  s0_acyclic.wellDefined s0_hist.inv.wf.defs.closed (by decide)

end CoolDiff.Ex
