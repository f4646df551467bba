import Verif.Model.Report

/-!
# Model of the "optional output" of Greedy Monroe (abcrules.py:2568-2617)
-/

namespace Abc

/-- `str(n)` for an integer. -/
def strInt (z : ℤ) : Name := if z < 0 then '-' :: strNat z.natAbs else strNat z.natAbs

/-- One voter of a district (abcrules.py:2608-2611). -/
def gmVoterText (p : Profile) (cand v : ℕ) : Name := strNat v ++ (if cand ∉ (p.voterAt v).approved then "*".toList else []) ++ ", ".toList

/-- The line for one district (abcrules.py:2605-2612). -/
def gmDistrictText (p : Profile) (e : ℕ × List ℕ) : Except Err Name := do
  let n ← pyGet p.candNames e.1
  .ok (" candidate ".toList ++ n ++ " assigned to: ".toList ++ dropLast2 ((sortNat e.2).flatMap (gmVoterText p e.1)) ++ "\n".toList)

/-- The lines about the quality of the assignment (abcrules.py:2576-2589). -/
def gmScoreMsgs (score1 score2 : ℤ) : List Msg :=
  [detailsMsg "The Monroe assignment computed by Greedy Monroe".toList,
   detailsMsg ("has a Monroe score of ".toList ++ strInt score2 ++ ".".toList)] ++
  (if score1 > score2 then
    [detailsMsg ("Monroe assignment found by Greedy Monroe is not ".toList ++ "optimal for the winning committee,".toList),
     detailsMsg ("i.e., by redistributing voters to candidates a higher ".toList ++ "satisfaction is possible ".toList ++
       "(without changing the committee).".toList),
     detailsMsg ("Optimal Monroe score of the winning committee is ".toList ++ strInt score1 ++ ".".toList)]
   else [])

/-- The block of `compute_greedy_monroe` (abcrules.py:2568-2617); `r` are the committees and `detailed_info`. -/
def gmReport (matching : List MEdge → List MEdge) (minCost : FlowNet → Except Err ℕ) (algorithm : String) (p : Profile) (k : ℕ)
    (r : List (List ℕ) × List (ℕ × List ℕ) × List ℕ) : Except Err (List Msg) := do
  let h ← headMsgs "greedy-monroe" .nothing true
  let m ← algorithmMsg algorithm
  let c ← pyGet r.1 0
  let score1 ← monroescore matching minCost p c
  let score2 : ℤ := p.voters.length - r.2.2.length
  let s ← gmComplete p.voters.length k 0 r.2.1 r.2.2
  let ls ← s.1.mapM (gmDistrictText p)
  let w ← committeesMsg p r.1
  .ok (h ++ [m] ++ gmScoreMsgs score1 score2 ++
    [detailsMsg ("Assignment (unsatisfatied voters marked with *):\n\n".toList ++ ls.flatten), w])

/-- `compute_greedy_monroe` (abcrules.py:2505-2619) with everything it prints. -/
def computeGreedyMonroeVerbose (env : Env) (matching : List MEdge → List MEdge) (minCost : FlowNet → Except Err ℕ)
    (iter : List ℕ) (p : Profile) (a : Args) : Except Err (List Msg × List (List ℕ)) := do
  let algorithm ← prologue env "greedy-monroe" p a
  if ¬ p.hasUnitWeights then .error .valueError
  else if algorithm = "standard" then do
    let r ← greedyMonroeAlgorithm p a.k iter
    let msgs ← gmReport matching minCost algorithm p a.k r
    let cs ← sortedCommittees r.1
    .ok (msgs, cs)
  else .error .unknownAlgorithm

end Abc
