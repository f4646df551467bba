import Verif.Model.ReportOptimal

/-!
# Model of the "optional output" of maximin support
-/

namespace Abc

/-- One entry of `detailed_info` (abcrules.py:3838, 3851-3853). -/
structure MaximinInfo where
  nextCand : ℕ
  tiedCands : List ℕ
  supportValue : ℚ

/-- The loop of `_maximin_support_resolute` (abcrules.py:3840-3853) with the recorded details; `support_value` is the maximum over all
candidates, including members of the committee, whose entry is 0. -/
def maximinInfoLoop (solve : Program → SolveResult) (iter : List ℕ → List ℕ) (p : Profile) :
    ℕ → List ℕ → List MaximinInfo → Except Err (List ℕ × List MaximinInfo)
  | 0, committee, infos => .ok (committee, infos)
  | n + 1, committee, infos => do
    let scores ← maximinScores solve p committee
    let tied ← maximinTied solve iter p committee
    let next ← pyGet tied 0
    let value ← pyMax scores
    maximinInfoLoop solve iter p n (committee ++ [next]) (infos ++ [⟨next, tied, value⟩])

/-- The lines printed for one round (abcrules.py:3797-3820). -/
def maximinRoundMsgs (num : ℚ → Name) (p : Profile) (i : ℕ) (r : MaximinInfo) : Except Err (List Msg) := do
  let n ← pyGet p.candNames r.nextCand
  let tie ←
    if r.tiedCands.length > 1 then do
      let s ← strSetOfCandidates r.tiedCands (some p.candNames)
      .ok [detailsMsg ("tie broken in favor of ".toList ++ strNat r.nextCand ++ ",".toList) " ".toList,
        detailsMsg ("candidates ".toList ++ s ++ " are tied".toList) " ".toList,
        detailsMsg ("(all would give the same maximin support value ".toList ++ num r.supportValue ++ ")".toList) " ".toList]
    else .ok []
  .ok ([detailsMsg ("adding candidate number ".toList ++ strNat (i + 1) ++ ": ".toList ++ n),
    detailsMsg ("giving a committee with maximin support value ".toList ++ num r.supportValue) " ".toList] ++ tie ++ [detailsMsg []])

/-- The loop abcrules.py:3796-3820, beginning with round `i`. -/
def maximinRoundsMsgs (num : ℚ → Name) (p : Profile) : ℕ → List MaximinInfo → Except Err (List Msg)
  | _, [] => .ok []
  | i, r :: rs => do
    let m ← maximinRoundMsgs num p i r
    let rest ← maximinRoundsMsgs num p (i + 1) rs
    .ok (m ++ rest)

/-- The block of `compute_maximin_support` (abcrules.py:3787-3824). -/
def maximinReport (num : ℚ → Name) (algorithm : String) (p : Profile) (resolute : Bool) (committees : List (List ℕ))
    (infos : List MaximinInfo) : Except Err (List Msg) := do
  let h ← headMsgs "maximin-support" .all resolute
  let m ← algorithmMsg algorithm
  let d ←
    if resolute then do
      let rounds ← maximinRoundsMsgs num p 0 infos
      .ok (detailsMsg "starting with the empty committee\n".toList :: rounds)
    else .ok []
  let c ← committeesMsg p committees
  .ok (h ++ [m] ++ d ++ [c])

/-- `compute_maximin_support` (abcrules.py:3709-3826) with everything it prints. -/
def computeMaximinSupportVerbose (env : Env) (num : ℚ → Name) (solve : String → Program → SolveResult) (iter : List ℕ → List ℕ)
    (p : Profile) (a : Args) : Except Err (List Msg × List (List ℕ)) := do
  let algorithm ← prologue env "maximin-support" p a
  if algorithm = "gurobi" ∨ algorithm.toList.take 4 = "mip-".toList then
    let r ←
      if a.resolute then (do
        let r ← maximinInfoLoop (solve algorithm) iter p a.k [] []
        let cs ← sortedCommittees [r.1]
        .ok (cs, r.2))
      else (do let cs ← maximinIrresolute (solve algorithm) iter p a.k a.maxNum; .ok (cs, []))
    let msgs ← maximinReport num algorithm p a.resolute r.1 r.2
    let cs ← sortedCommittees r.1
    .ok (msgs, cs)
  else .error .unknownAlgorithm

end Abc
