import Verif.Spec.Welfare

/-!
# Which axioms the rules promise for quotas that are smaller than the Hare quota
-/

namespace Abc.Spec

/-- `DroopRule w p k alg ruleId names`: the committees of size `k` returned by rule `ruleId` (algorithm `alg`) have the properties
`names` for every quota above `1/(k+1)` of the voters.  The premises are those under which the code is proved to compute the rule (see
`Elects`). -/
inductive DroopRule (w : World) (p : Profile) (k : ℕ) (alg : String) : String → List String → Prop
  | pav : (alg = "ortools-cp" → IntegerWeights p) → DroopRule w p k alg "pav" ["jr", "pjr", "ejr", "ejr+"]
  | cc : (alg = "ortools-cp" → IntegerWeights p) → DroopRule w p k alg "cc" ["jr"]
  | seqcc : DroopRule w p k alg "seqcc" ["jr"]
  | seqphragmen : ApproversAtLeastOne p → ExactAlg w.env alg → DroopRule w p k alg "seqphragmen" ["jr", "pjr"]
  | maximinSupport : IntegerWeights p → k ≤ 3162 → DroopRule w p k alg "maximin-support" ["jr", "pjr"]
  | equalShares {ruleId : String} : ruleId ∈ ["rule-x", "equal-shares", "equal-shares-with-seqphragmen-completion"] →
      ApproversAtLeastOne p → ExactAlg w.env alg → DroopRule w p k alg ruleId ["jr", "pjr"]

end Abc.Spec
