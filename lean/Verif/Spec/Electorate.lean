import Verif.Spec.Basic

/-!
# When two profiles describe the same electorate
-/

namespace Abc.Spec

/-- The same candidates, and for every approval set the same total weight of voters with that approval set.  In particular:
reordered voters, a voter of weight 2 instead of two voters with the same approval set, … -/
def SameElectorate (p p' : Profile) : Prop :=
  p.numCand = p'.numCand ∧ ∀ A, electorate p.voters A = electorate p'.voters A

end Abc.Spec
