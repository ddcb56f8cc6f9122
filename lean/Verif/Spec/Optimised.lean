import Verif.Spec.Peval
import Verif.Spec.CompileRun
/-
What the language defines for a session, form by form.
-/
namespace Spec.Lang
variable {W : Type}

/-- one form after the other; each with its value and the world after it -/
inductive EvalSession (E : Ext W) : World W → List (Core × Val × World W) → Prop where
  | nil (w) : EvalSession E w []
  | cons {w e v w1 r} : Eval E [] w e v w1 → EvalSession E w1 r → EvalSession E w ((e, v, w1) :: r)

end Spec.Lang
