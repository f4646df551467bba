import Verif.Spec.Rules

/-!
# Specification: one voter casts another ballot
-/

namespace Abc
namespace Spec

/-- `p'` is the profile `p` in which one voter, who approves the candidates in `v`, casts the ballot `v'` instead (with the same
weight); all other voters and the candidates are the same. -/
structure OtherBallot (p p' : Profile) (v v' : Voter) : Prop where
  numCand : p'.numCand = p.numCand
  weight : v'.weight = v.weight
  voters : ∃ l₁ l₂, p.voters = l₁ ++ v :: l₂ ∧ p'.voters = l₁ ++ v' :: l₂

end Spec
end Abc
