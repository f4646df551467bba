import Verif.Model.ReportMonroe
import Verif.Spec.Report
import Verif.Spec.Monroe

/-!
# Specification of the output of Greedy Monroe
-/

namespace Abc.Spec

/-- The line for candidate `c` in an assignment `φ` of the voters: the numbers of its voters in ascending order; those that do not approve
`c` are marked. -/
def districtLine (p : Profile) (φ : Fin p.voters.length → ℕ) (c : ℕ) : Name :=
  " candidate ".toList ++ nameOf p c ++ " assigned to: ".toList ++
    ", ".toList.intercalate (((List.finRange p.voters.length).filter (fun i => decide (φ i = c))).map
      (fun i => if c ∈ appr p i then strNat i else strNat i ++ ['*'])) ++ "\n".toList

/-- What is said about an assignment in which `s` voters are represented, if `m` is the best possible number. -/
def assignmentRemarks (s m : ℕ) : List Msg :=
  [detailsMsg "The Monroe assignment computed by Greedy Monroe".toList,
   detailsMsg ("has a Monroe score of ".toList ++ strNat s ++ ".".toList)] ++
  (if s < m then
    [detailsMsg "Monroe assignment found by Greedy Monroe is not optimal for the winning committee,".toList,
     detailsMsg ("i.e., by redistributing voters to candidates a higher satisfaction is possible ".toList ++
       "(without changing the committee).".toList),
     detailsMsg ("Optimal Monroe score of the winning committee is ".toList ++ strNat m ++ ".".toList)]
   else [])

end Abc.Spec
