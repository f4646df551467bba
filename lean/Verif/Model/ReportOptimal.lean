import Verif.Model.ReportMonroe
import Verif.Model.ILPPhragmen

/-!
# Model of the "optional output" of the optimisation rules

`compute_…` first selects the algorithm and computes the committees, then the texts.  In the functions below the computation is the
function modelled earlier (which selects the algorithm once more).
-/

namespace Abc

/-- The warning of `_gurobi_thiele_methods` (abcrules_gurobi.py:199-204) and `_mip_thiele_methods` (abcrules_mip.py:221-226); `min` of the
positive values raises ValueError if there are none.  No other algorithm issues a warning. -/
def thieleWarnings (num : ℚ → Name) (scorefctId algorithm : String) (f : ℕ → ℚ) (k : ℕ) : Except Err (List Msg) :=
  if algorithm = "gurobi" ∨ algorithm.toList.take 4 = "mip-".toList then do
    let x ← pyMin ((scoreValues f k).filter (fun q => decide (q > 0)))
    .ok (if x < accuracy then
      [{ level := .warning,
         text := "Thiele scoring function ".toList ++ scorefctId.toList ++ " can take smaller values (min=".toList ++ num x ++ ") than ".toList ++
           (if algorithm = "gurobi" then "Gurobi" else "mip").toList ++ " accuracy (1e-08).".toList }] else [])
  else .ok []

/-- `compute_thiele_method` (abcrules.py:604-730) with everything it prints. -/
def computeThieleVerbose (env : Env) (num : ℚ → Name) (scorefctId : String) (solver : Solver) (p : Profile) (a : Args) :
    Except Err (List Msg × List (List ℕ)) := do
  let algorithm ← prologue env scorefctId p a
  let sid ← env.scoreId scorefctId
  let ws ← thieleWarnings num scorefctId algorithm (marginalFct sid) a.k
  let cs ← computeThieleMethod env scorefctId solver p a
  let msgs ← thieleReport num (marginalFct sid) scorefctId algorithm p a.resolute cs
  .ok (ws ++ msgs, cs)

/-- The committees and `detailed_info["opt_score_vector"]` (abcrules.py:1080-1104). -/
def lexccDetailed (solve : String → Program → SolveResult) (algorithm : String) (p : Profile) (a : Args) :
    Except Err (List (List ℕ) × List ℚ) :=
  if algorithm = "brute-force" then lexccBruteforce p a.k a.resolute a.maxNum
  else if algorithm = "gurobi" then gurobiLexcc (solve algorithm) p a.k a.resolute a.maxNum
  else .error .unknownAlgorithm

/-- The block of `compute_lexcc` (abcrules.py:1106-1117). -/
def lexccReport (num : ℚ → Name) (algorithm : String) (p : Profile) (resolute : Bool) (committees : List (List ℕ)) (vec : List ℚ) :
    Except Err (List Msg) := do
  let h ← headMsgs "lexcc" .one resolute
  let m ← algorithmMsg algorithm
  let c ← committeesMsg p committees
  .ok (h ++ [m, detailsMsg "At-least-ell scores:".toList] ++
    vec.zipIdx.map (fun s => detailsMsg ("at-least-".toList ++ strNat (s.2 + 1) ++ ": ".toList ++ num s.1) " ".toList) ++ [c])

/-- `compute_lexcc` (abcrules.py:1010-1119) with everything it prints. -/
def computeLexccVerbose (env : Env) (num : ℚ → Name) (solve : String → Program → SolveResult) (p : Profile) (a : Args) :
    Except Err (List Msg × List (List ℕ)) := do
  let algorithm ← prologue env "lexcc" p a
  let r ← lexccDetailed solve algorithm p a
  let msgs ← lexccReport num algorithm p a.resolute r.1 r.2
  .ok (msgs, r.1)

/-- `str(list_of_integers)`. -/
def strNatList (l : List ℕ) : Name := "[".toList ++ joinText ", ".toList (l.map strNat) ++ "]".toList

/-- `str([misc.hamming(voter.approved, committee) for voter in profile])` (abcrules.py:2202, 2334). -/
def distancesText (p : Profile) (committee : List ℕ) : Name := strNatList (p.voters.map (fun v => hamming v.approved committee))

/-- The block of `compute_minimaxav` (abcrules.py:2189-2204). -/
def minimaxavReport (algorithm : String) (p : Profile) (resolute : Bool) (committees : List (List ℕ)) : Except Err (List Msg) := do
  let h ← headMsgs "minimaxav" .one resolute
  let m ← algorithmMsg algorithm
  let W ← pyGet committees 0
  let c ← committeesMsg p committees
  .ok (h ++ [m, c, detailsMsg ("Minimum maximal distance: ".toList ++ strNat (minimaxavScore p W)),
    detailsMsg ("Corresponding distances to voters:\n".toList ++ committees.flatMap (fun W => distancesText p W ++ "\n".toList))])

/-- `compute_minimaxav` (abcrules.py:2093-2206) with everything it prints. -/
def computeMinimaxavVerbose (env : Env) (solver : Solver) (p : Profile) (a : Args) : Except Err (List Msg × List (List ℕ)) := do
  let algorithm ← prologue env "minimaxav" p a
  let cs ← computeMinimaxav env solver p a
  let msgs ← minimaxavReport algorithm p a.resolute cs
  .ok (msgs, cs)

/-- The committees and `detailed_info["opt_distances"]` (abcrules.py:2305-2318, abcrules_gurobi.py:731-735). -/
def lexminimaxavDetailed (solve : String → Program → SolveResult) (algorithm : String) (p : Profile) (a : Args) :
    Except Err (List (List ℕ) × List ℕ) :=
  if algorithm = "brute-force" then lexminimaxavBruteforce p a.k a.resolute a.maxNum
  else if algorithm = "gurobi" then do
    let cs ← gurobiLexminimaxav (solve algorithm) p a.k a.resolute a.maxNum
    let c ← pyGet cs 0
    .ok (cs, p.voters.map (fun v => hamming v.approved c))
  else .error .unknownAlgorithm

/-- `max(list)`: ValueError if the list is empty. -/
def pyMaxNat : List ℕ → Except Err ℕ
  | [] => .error .valueError
  | x :: xs => .ok (xs.foldl max x)

/-- The block of `compute_lexminimaxav` (abcrules.py:2322-2336): no line break between the lists of different committees. -/
def lexminimaxavReport (algorithm : String) (p : Profile) (resolute : Bool) (committees : List (List ℕ)) (distances : List ℕ) :
    Except Err (List Msg) := do
  let h ← headMsgs "lexminimaxav" .one resolute
  let m ← algorithmMsg algorithm
  let c ← committeesMsg p committees
  let d ← pyMaxNat distances
  .ok (h ++ [m, c, detailsMsg ("Minimum maximal distance: ".toList ++ strNat d),
    detailsMsg ("Corresponding distances to voters:\n".toList ++ committees.flatMap (distancesText p) ++ "\n".toList)])

/-- `compute_lexminimaxav` (abcrules.py:2230-2338) with everything it prints. -/
def computeLexminimaxavVerbose (env : Env) (solve : String → Program → SolveResult) (p : Profile) (a : Args) :
    Except Err (List Msg × List (List ℕ)) := do
  let algorithm ← prologue env "lexminimaxav" p a
  if ¬ p.hasUnitWeights then .error .valueError
  else do
    let r ← lexminimaxavDetailed solve algorithm p a
    let msgs ← lexminimaxavReport algorithm p a.resolute r.1 r.2
    .ok (msgs, r.1)

/-- The block of `compute_monroe` (abcrules.py:2465-2476). -/
def monroeReport (matching : List MEdge → List MEdge) (minCost : FlowNet → Except Err ℕ) (algorithm : String) (p : Profile)
    (resolute : Bool) (committees : List (List ℕ)) : Except Err (List Msg) := do
  let h ← headMsgs "monroe" .one resolute
  let m ← algorithmMsg algorithm
  let W ← pyGet committees 0
  let s ← monroescore matching minCost p W
  let c ← committeesMsg p committees
  .ok (h ++ [m, detailsMsg ("Optimal Monroe score: ".toList ++ strInt s ++ "\n".toList), c])

/-- `compute_monroe` (abcrules.py:2367-2478) with everything it prints. -/
def computeMonroeVerbose (env : Env) (matching : List MEdge → List MEdge) (minCost : FlowNet → Except Err ℕ) (solver : Solver)
    (p : Profile) (a : Args) : Except Err (List Msg × List (List ℕ)) := do
  let algorithm ← prologue env "monroe" p a
  let cs ← computeMonroe env matching minCost solver p a
  let msgs ← monroeReport matching minCost algorithm p a.resolute cs
  .ok (msgs, cs)

/-! ## Rules without further details -/

/-- A `compute_…` function that prints the block without details: `raw` computes the committees printed; `sort` tells whether the function
ends with `return sorted_committees(committees)`; `resolute` is the value of the variable `resolute` when the block is reached. -/
def plainVerbose (env : Env) (ruleId : String) (r : Remark) (raw : String → Except Err (List (List ℕ))) (sort resolute : Bool)
    (p : Profile) (a : Args) : Except Err (List Msg × List (List ℕ)) := do
  let algorithm ← prologue env ruleId p a
  let cs ← raw algorithm
  let msgs ← plainReport ruleId r algorithm p resolute cs
  if sort then do
    let ds ← sortedCommittees cs
    .ok (msgs, ds)
  else .ok (msgs, cs)

/-- `compute_minimaxphragmen` (abcrules.py:3485-3586) with everything it prints. -/
def computeMinimaxphragmenVerbose (env : Env) (solve : String → Program → SolveResult) (p : Profile) (a : Args) :
    Except Err (List Msg × List (List ℕ)) :=
  plainVerbose env "minimaxphragmen" .one (fun _ => computeMinimaxphragmen env solve p a) false a.resolute p a

/-- `compute_leximaxphragmen` (abcrules.py:3589-3706) with everything it prints; `resolute` is overwritten with `False` if
`lexicographic_tiebreaking` (3673). -/
def computeLeximaxphragmenVerbose (env : Env) (solve : String → Program → SolveResult) (p : Profile) (a : Args)
    (lexicographicTiebreaking : Bool := false) : Except Err (List Msg × List (List ℕ)) :=
  plainVerbose env "leximaxphragmen" .one (fun _ => computeLeximaxphragmen env solve p a lexicographicTiebreaking) false
    (if lexicographicTiebreaking then false else a.resolute) p a

/-- `compute_phragmen_enestroem` (abcrules.py:3898-3984) with everything it prints. -/
def computeEnestroemVerbose (env : Env) (float : Except Err (List (List ℕ))) (p : Profile) (a : Args) :
    Except Err (List Msg × List (List ℕ)) :=
  plainVerbose env "phragmen-enestroem" .all (fun _ => computeEnestroem env float p a) false a.resolute p a

/-- `compute_consensus_rule` (abcrules.py:4065-4146) with everything it prints. -/
def computeConsensusVerbose (env : Env) (float : Except Err (List (List ℕ))) (p : Profile) (a : Args) :
    Except Err (List Msg × List (List ℕ)) :=
  plainVerbose env "consensus-rule" .all (fun _ => computeConsensus env float p a) false a.resolute p a

/-- `compute_trivial_rule` (abcrules.py:4224-4305) with everything it prints (the committees are sorted afterwards). -/
def computeTrivialVerbose (env : Env) (p : Profile) (a : Args) : Except Err (List Msg × List (List ℕ)) :=
  plainVerbose env "trivial" .one (fun algorithm =>
    if algorithm = "standard" then
      (if a.resolute then [List.range a.k] else truncate a.maxNum (combinations p.candidates a.k)).mapM mkSet
    else .error .unknownAlgorithm) true a.resolute p a

/-- `compute_rsd` (abcrules.py:4308-4403) with everything it prints; no remark on `resolute`. -/
def computeRsdVerbose (env : Env) (shuffle : List (List ℕ) → List (List ℕ)) (sample : List ℕ → ℕ → List ℕ) (p : Profile) (a : Args) :
    Except Err (List Msg × List (List ℕ)) :=
  plainVerbose env "rsd" .nothing (fun algorithm =>
    if ¬ p.hasUnitWeights then .error .valueError
    else if algorithm = "standard" then
      .ok [rsdLoop p a.k sample (shuffle (p.voters.map (fun v => sortNat v.approved))) []]
    else .error .unknownAlgorithm) true a.resolute p a

/-- `compute_eph` (abcrules.py:4406-4486) with everything it prints. -/
def computeEphVerbose (env : Env) (float : Except Err (List (List ℕ))) (iter : List ℕ) (p : Profile) (a : Args) :
    Except Err (List Msg × List (List ℕ)) :=
  plainVerbose env "eph" .one (fun algorithm => withFractions env algorithm float (ephLoop p a.k a.effMax (p.numCand + 1) iter))
    true a.resolute p a

end Abc
