import Verif.Spec.Droop

/-!
# Rankings: orders in which the members of a committee are elected
-/

namespace Abc.Spec

/-- `RankingRule w p k alg ruleId names`: the members of a committee returned by rule `ruleId` can be ranked such that every top part of the
ranking has the properties `names`.  The premises are those under which the code is proved to compute the rule (see `Elects`). -/
inductive RankingRule (w : World) (p : Profile) (k : ℕ) (alg : String) : String → List String → Prop
  | seqcc : RankingRule w p k alg "seqcc" ["jr"]
  | seqphragmen : ApproversAtLeastOne p → ExactAlg w.env alg → RankingRule w p k alg "seqphragmen" ["jr", "pjr", "priceability"]
  | maximinSupport : IntegerWeights p → k ≤ 3162 → RankingRule w p k alg "maximin-support" ["jr", "pjr", "priceability"]

end Abc.Spec
