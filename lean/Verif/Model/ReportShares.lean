import Verif.Model.ReportPhragmen
import Verif.Model.EqualShares

/-!
# Model of the "optional output" of the Method of Equal Shares and of the `detailed_info` it uses (abcrules.py:3034-3482)
-/

namespace Abc

/-- What is recorded per round if `resolute` (abcrules.py:3401-3405). -/
structure MesRound where
  nextCand : ℕ
  tiedCands : List ℕ
  cost : ℚ
  budget : List ℚ
deriving DecidableEq, Repr

/-- `detailed_info` of `_equal_shares_algorithm` without `start_budget` (abcrules.py:3369-3376); `start_load` is
`detailed_info["phragmen_start_load"]`, `phragmen` are the rounds in `detailed_info["phragmen_phase"]` (recorded if `resolute`). -/
structure MesInfo where
  rounds : List MesRound := []
  startLoad : Option (List ℚ) := none
  phragmen : List PhragInfo := []
deriving DecidableEq, Repr

/-- `find_minimum_dict_entries(min_q)` (abcrules.py:3277-3284). -/
def mesTiedCands (minQ : List (ℕ × ℚ)) : List ℕ :=
  (minQ.filter (fun cq => decide (cq.2 = listMin (minQ.map Prod.snd)))).map Prod.fst

/-- The record of the first tied candidate (abcrules.py:3392-3405). -/
def mesRecord (p : Profile) (budget : List ℚ) (minQ : List (ℕ × ℚ)) : List MesRound :=
  ((sortNat (mesTiedCands minQ)).take 1).map (fun c =>
    ⟨c, mesTiedCands minQ, listMin (minQ.map Prod.snd), mesBudget p budget c (listMin (minQ.map Prod.snd))⟩)

/-- `phragmen_phase` with the recorded information (abcrules.py:3286-3313). -/
def phragmenPhaseInfo (p : Profile) (k : ℕ) (resolute : Bool) (committee : List ℕ) (budget : List ℚ) (info : MesInfo) :
    Except Err (List (List ℕ) × MesInfo) := do
  let startLoad := List.zipWith (fun (v : Voter) b => -b / v.weight) p.voters budget
  if resolute then do
    let r ← seqphragmenResolute p k startLoad committee
    .ok (r.1.map sortNat, { info with startLoad := some startLoad, phragmen := r.2 })
  else do
    let cs ← seqphragmenIrresolute p k none startLoad committee
    .ok (cs.map sortNat, { info with startLoad := some startLoad })

/-- The completion with the recorded information (abcrules.py:3426-3435). -/
def mesCompleteInfo (p : Profile) (k : ℕ) (resolute : Bool) (completion : Completion) (committee : List ℕ) (budget : List ℚ)
    (info : MesInfo) : Except Err (List (List ℕ) × MesInfo) :=
  if completion = .seqphragmen then phragmenPhaseInfo p k resolute committee budget info
  else do
    let new ← mesComplete p k resolute completion committee budget
    .ok (new, info)

/-- The main loop with the recorded information (abcrules.py:3378-3441). -/
def mesLoopInfo (p : Profile) (k : ℕ) (resolute : Bool) (completion : Completion) (max : Option ℕ) :
    ℕ → List (List ℕ × List ℚ) → List (List ℕ) → MesInfo → Except Err (List (List ℕ) × MesInfo)
  | _, [], winning, info => .ok (winning, info)
  | 0, _ :: _, _, _ => .error .outOfFuel
  | fuel + 1, n :: rest, winning, info => do
    let minQ ← mesPrices p n.2 (available p n.1)
    if minQ.length > 0 then
      let info' := if resolute then { info with rounds := info.rounds ++ mesRecord p n.2 minQ } else info
      match expandLoop (fun n => decide (n.1.length = k)) (fun n => sortNat n.1) max (mesSuccs p resolute n minQ) [] winning with
      | .inl winning' => .ok (winning', info')
      | .inr (newPairs, winning') =>
        if boundReached max winning'.length then (do let s ← sortedCommittees winning'; .ok (truncate max s, info'))
        else mesLoopInfo p k resolute completion max fuel (newPairs ++ rest) winning' info'
    else
      let r ← mesCompleteInfo p k resolute completion n.1 n.2 info
      if boundReached max (r.1.foldl setAdd winning).length then
        (do let s ← sortedCommittees (r.1.foldl setAdd winning); .ok (truncate max s, r.2))
      else mesLoopInfo p k resolute completion max fuel rest (r.1.foldl setAdd winning) r.2

/-- `detailed_info` as the output block sees it: `too_few_approved_candidates`, `increment_committeesize`, or the phases. -/
inductive MesDetails
  | tooFew
  | increment (n : ℕ)
  | phases (startBudget : List ℚ) (info : MesInfo)

/-- `_equal_shares_algorithm` with `detailed_info` (abcrules.py:3244-3441). -/
def equalSharesInfo (p : Profile) (k : ℕ) (resolute : Bool) (max : Option ℕ) (completion : Completion) :
    Except Err (List (List ℕ) × MesDetails) := do
  let r ← mesLoopInfo p k resolute completion (if resolute then some 1 else max) (dfsFuel p k) [([], startBudget p k none)] [] {}
  let cs ← sortedCommittees r.1
  .ok (cs, .phases (startBudget p k none) r.2)

/-- The loop of `_equal_shares_algorithm_with_increment_completion` with the increment (abcrules.py:3462-3482). -/
def incrementLoopInfo (p : Profile) (k : ℕ) : List ℕ → Except Err (List (List ℕ) × MesDetails)
  | [] => .error .runtimeError
  | inc :: incs => do
    let committees ← equalSharesAlgorithm p k true none .none (some ((inc : ℚ) / p.totalWeight))
    let committees := committees.filter (fun c => decide (c.length = k))
    if committees.any (fun c => decide (c.length > k)) then .error .runtimeError
    else if committees.length ≠ 0 then .ok (committees, .increment inc)
    else incrementLoopInfo p k incs

/-- The choice of the algorithm in `compute_equal_shares` (abcrules.py:3122-3137, 3450-3460). -/
def mesDetails (env : Env) (algorithm : String) (float : Except Err (List (List ℕ) × MesDetails)) (completion : Completion) (p : Profile)
    (a : Args) : Except Err (List (List ℕ) × MesDetails) :=
  if completion = .increment then
    if p.approvedCandidates.length < a.k then (do let cs ← separableAlgorithm .av p a.k true none; .ok (cs, .tooFew))
    else withFractions env algorithm float (incrementLoopInfo p a.k (incrementRange p a.k))
  else withFractions env algorithm float (equalSharesInfo p a.k a.resolute a.maxNum completion)

/-- The lines for one round (abcrules.py:3160-3184). -/
def mesRoundMsgs (num : ℚ → Name) (p : Profile) (i : ℕ) (r : MesRound) : Except Err (List Msg) := do
  let n ← pyGet p.candNames r.nextCand
  let l ← loadsText num p "(".toList r.budget
  let head :=
    [detailsMsg ("adding candidate number ".toList ++ strNat (i + 1) ++ ": ".toList ++ n),
     detailsMsg ("with maxmimum cost per voter q = ".toList ++ num r.cost) " ".toList,
     detailsMsg " remaining budget:".toList,
     detailsMsg l "  ".toList]
  let tie ←
    if r.tiedCands.length > 1 then do
      let s ← strSetOfCandidates r.tiedCands (some p.candNames)
      .ok [detailsMsg ("tie broken in favor of ".toList ++ n ++ ",".toList) " ".toList,
        detailsMsg ("candidates ".toList ++ s ++ " are tied".toList) " ".toList,
        detailsMsg ("(all would impose a maximum cost of ".toList ++ num r.cost ++ ").".toList) " ".toList]
    else .ok []
  .ok (head ++ tie ++ [detailsMsg []])

/-- The loop abcrules.py:3160-3184. -/
def mesRoundsMsgs (num : ℚ → Name) (p : Profile) : ℕ → List MesRound → Except Err (List Msg)
  | _, [] => .ok []
  | i, r :: rs => do
    let m ← mesRoundMsgs num p i r
    let rest ← mesRoundsMsgs num p (i + 1) rs
    .ok (m ++ rest)

/-- The beginning of the last line in the case of ties in the second phase (abcrules.py:3228). -/
def phase2TieText : Name := "(for any of those, the new maximum load would be ".toList

/-- The second phase (abcrules.py:3186-3231); `if detailed_info["phragmen_start_load"]` is false for `None` and `[]`. -/
def phase2Msgs (num : ℚ → Name) (p : Profile) (i : ℕ) (startLoad : Option (List ℚ)) (rounds : List PhragInfo) : Except Err (List Msg) :=
  match startLoad with
  | none => .ok []
  | some [] => .ok []
  | some (x :: xs) => do
    let l ← loadsText num p "(".toList (x :: xs)
    let rs ← phragRoundsMsgs num p phase2TieText i rounds
    .ok ([detailsMsg "Phase 2 (seq-Phragmén):\n".toList, detailsMsg "starting loads (= budget spent):".toList,
      detailsMsg (l ++ "\n".toList) "  ".toList] ++ rs)

/-- The part of the block between the algorithm and the committees (abcrules.py:3139-3231).  The second case of the code tests
`completion == "increment"`; `detailed_info` has the key `increment_committeesize` exactly then. -/
def mesBodyMsgs (num : ℚ → Name) (p : Profile) (resolute : Bool) : MesDetails → Except Err (List Msg)
  | .tooFew => .ok [detailsMsg ("There are fewer candidates approved by at least one voter than".toList ++
      " the desired committee size. Thus Equal Shares returns all approved candidates".toList ++
      " and fills the committee with non-approved candidates.".toList)]
  | .increment n => .ok [detailsMsg "Incrementing starting budget of voters to fill the committee.".toList,
      detailsMsg ("Successful for a (virtual) committee size of ".toList ++ strNat n ++ ".".toList)]
  | .phases start info =>
    if resolute then do
      let s ← loadsText num p "  (".toList start
      let rounds ← mesRoundsMsgs num p 0 info.rounds
      let phase2 ← phase2Msgs num p info.rounds.length info.startLoad info.phragmen
      .ok ([detailsMsg "Phase 1:\n".toList, detailsMsg "starting budget:".toList, detailsMsg (s ++ "\n".toList)] ++ rounds ++ phase2)
    else .ok []

/-- The block of `compute_equal_shares` (abcrules.py:3139-3236). -/
def mesReport (num : ℚ → Name) (ruleId algorithm : String) (p : Profile) (resolute : Bool) (r : List (List ℕ) × MesDetails) :
    Except Err (List Msg) := do
  let h ← headMsgs ruleId .all resolute
  let m ← algorithmMsg algorithm
  let body ← mesBodyMsgs num p resolute r.2
  let c ← committeesMsg p r.1
  .ok (h ++ [m] ++ body ++ [c])

/-- `compute_equal_shares` (abcrules.py:3034-3241) with everything it prints. -/
def computeEqualSharesVerbose (env : Env) (num : ℚ → Name) (float : Except Err (List (List ℕ) × MesDetails)) (completion : Completion)
    (p : Profile) (a : Args) : Except Err (List Msg × List (List ℕ)) := do
  let ruleId ← completion.ruleId
  let algorithm ← prologue env ruleId p a
  let r ← mesDetails env algorithm float completion p a
  let msgs ← mesReport num ruleId algorithm p a.resolute r
  let cs ← sortedCommittees r.1
  .ok (msgs, cs)

end Abc
