import Verif.Spec.Dispatch

/-!
# Which axioms the rules promise
-/

namespace Abc.Spec

/-- `Promises w p k alg ruleId names`: the committees of size `k` returned by rule `ruleId` (algorithm `alg`) have the properties
`names`.  The premises are those under which the code is proved to compute the rule (see `Elects`); the size of the committee has
to divide the number of voters for PJR of the two Monroe rules; the electorate must not be too large for the solver tolerances of
leximax-Phragmén. -/
inductive Promises (w : World) (p : Profile) (k : ℕ) (alg : String) : String → List String → Prop
  | av : Promises w p k alg "av" ["pareto"]
  | sav : Promises w p k alg "sav" ["pareto"]
  | pav : (alg = "ortools-cp" → IntegerWeights p) → Promises w p k alg "pav" ["jr", "pjr", "ejr", "ejr+", "pareto"]
  | slav : (alg = "ortools-cp" → IntegerWeights p) → Promises w p k alg "slav" ["pareto"]
  | cc : (alg = "ortools-cp" → IntegerWeights p) → Promises w p k alg "cc" ["jr"]
  | geom {ruleId : String} {b : ℚ} : w.env.scoreId ruleId = .ok (.geom b) →
      (1 < b ∨ (alg = "branch-and-bound" ∧ 1 ≤ b) ∨ (alg = "brute-force" ∧ 0 < b)) →
      (alg = "ortools-cp" → IntegerWeights p) → Promises w p k alg ruleId ["pareto"]
  | lexcc : (alg = "gurobi" → Granular p) → Promises w p k alg "lexcc" ["jr", "pareto"]
  | seqcc : Promises w p k alg "seqcc" ["jr"]
  | seqphragmen : ApproversAtLeastOne p → ExactAlg w.env alg →
      Promises w p k alg "seqphragmen" ["jr", "pjr", "priceability"]
  | maximinSupport : IntegerWeights p → k ≤ 3162 → Promises w p k alg "maximin-support" ["jr", "pjr", "priceability"]
  | leximaxphragmen : (∀ v ∈ p.voters, 1 ≤ v.weight) → k ≤ (approvedSet p).card → (p.voters.length + 1) * total p < 10 ^ 7 →
      Promises w p k alg "leximaxphragmen" ["jr", "pjr"]
  | monroe : (∀ v ∈ p.voters, v.weight = 1) → Promises w p k alg "monroe" ["jr"]
  | monroePJR : (∀ v ∈ p.voters, v.weight = 1) → k ∣ p.voters.length → Promises w p k alg "monroe" ["jr", "pjr"]
  | greedyMonroe : (∀ v ∈ p.voters, v.weight = 1) → Promises w p k alg "greedy-monroe" ["jr"]
  | greedyMonroePJR : (∀ v ∈ p.voters, v.weight = 1) → k ∣ p.voters.length → Promises w p k alg "greedy-monroe" ["jr", "pjr"]
  | lexminimaxav : (∀ v ∈ p.voters, v.weight = 1) → Promises w p k alg "lexminimaxav" ["pareto"]
  | equalShares {ruleId : String} : ruleId ∈ ["rule-x", "equal-shares", "equal-shares-with-seqphragmen-completion"] →
      ApproversAtLeastOne p → ExactAlg w.env alg →
      Promises w p k alg ruleId ["jr", "pjr", "ejr", "ejr+", "priceability"]
  | equalSharesAv : ExactAlg w.env alg →
      Promises w p k alg "equal-shares-with-av-completion" ["jr", "pjr", "ejr", "ejr+"]
  | equalSharesNone {ruleId : String} : ruleId ∈ ["rule-x-without-phragmen-phase", "equal-shares-without-phragmen-phase",
      "equal-shares-without-completion"] → ExactAlg w.env alg →
      Promises w p k alg ruleId ["jr", "pjr", "ejr", "ejr+", "priceability"]
  | enestroem : ExactAlg w.env alg → Promises w p k alg "phragmen-enestroem" ["jr", "pjr"]

end Abc.Spec
