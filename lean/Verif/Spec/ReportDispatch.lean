import Verif.Model.ReportDispatch
import Verif.Spec.ReportMaximin
import Verif.Spec.ReportShares

/-!
# What a call prints at the default verbosity INFO
-/

namespace Abc.Spec

/-- The rules whose winners are described independently of tie-breaking: they remark that only one committee is computed. -/
def optimisationRules : List String :=
  ["av", "sav", "pav", "slav", "cc", "lexcc", "minimaxphragmen", "leximaxphragmen", "monroe", "minimaxav", "lexminimaxav", "trivial", "eph"]

/-- The remark on `resolute`: optimisation rules say if only one committee is computed, sequential rules if all are computed. -/
def remarkFor (ruleId : String) (resolute : Bool) : List Msg :=
  if ruleId = "rsd" then []
  else if ruleId ∈ optimisationRules ∨ "geom".toList <+: ruleId.toList then oneRemark resolute
  else allRemark resolute

/-- The warnings of a call: only Thiele methods (rules with a marginal score function of the same name) computed with an ILP solver can
cause one. -/
def WarnedFor (env : Env) (num : ℚ → Name) (ruleId algorithm : String) (k : ℕ) (ws : List Msg) : Prop :=
  (∃ s, env.scoreId ruleId = .ok s ∧ Warned num ruleId algorithm (marginalFct s) k ws) ∨ ((∀ s, env.scoreId ruleId ≠ .ok s) ∧ ws = [])

end Abc.Spec
