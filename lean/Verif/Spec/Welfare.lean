import Verif.Spec.Guarantees

/-!
# How many voters a committee represents, and how many approvals its members have
-/

namespace Abc.Spec

/-- The (total weight of the) voters who approve a member of the committee. -/
def representedBy (p : Profile) (W : Finset ℕ) : ℚ := wt p (Finset.univ.filter fun i => 0 < sat p W i)

/-- The (weighted) number of approvals of the committee members. -/
def welfare (p : Profile) (W : Finset ℕ) : ℚ := ∑ i, (p.voters.get i).weight * sat p W i

/-- Rules that represent at least half as many voters as possible, with the conditions under which the code is proved to compute them (see
`Elects`). -/
inductive HalfRule (w : World) (p : Profile) (k : ℕ) (alg : String) : String → Prop
  | cc : (alg = "ortools-cp" → IntegerWeights p) → HalfRule w p k alg "cc"
  | pav : (alg = "ortools-cp" → IntegerWeights p) → HalfRule w p k alg "pav"
  | seqphragmen : ApproversAtLeastOne p → ExactAlg w.env alg → HalfRule w p k alg "seqphragmen"
  | maximinSupport : IntegerWeights p → k ≤ 3162 → HalfRule w p k alg "maximin-support"
  | equalShares {ruleId : String} : ruleId ∈ ["rule-x", "equal-shares", "equal-shares-with-seqphragmen-completion"] →
      ApproversAtLeastOne p → ExactAlg w.env alg → HalfRule w p k alg ruleId

end Abc.Spec
