import Verif.Model.Search
import Verif.Model.Rules

/-!
# Model of the Thiele methods in `abcrules.py`
-/

namespace Abc

/-- One iteration of the loop of `_thiele_methods_bruteforce` (abcrules.py:747-754). -/
def bruteThieleStep (f : ℕ → ℚ) (p : Profile) (resolute : Bool) (st : List (List ℕ) × ℚ) (committee : List ℕ) :
    List (List ℕ) × ℚ :=
  let score := thieleScore f p committee
  if score > st.2 then ([committee], score)
  else if score = st.2 then (if ¬ resolute then (st.1 ++ [committee], st.2) else st)
  else st

/-- `_thiele_methods_bruteforce` (abcrules.py:733-762). -/
def thieleBruteforce (f : ℕ → ℚ) (p : Profile) (k : ℕ) (resolute : Bool) (max : Option ℕ) :
    Except Err (List (List ℕ)) := do
  let st := (combinations p.candidates k).foldl (bruteThieleStep f p resolute) ([], -1)
  let committees ← sortedCommittees st.1
  let committees := truncate max committees
  if resolute then do
    let c ← pyGet committees 0
    .ok [c]
  else .ok committees

/-- What `_seq_thiele_resolute` records per round: `next_cand`, `tied_cands`, `delta_score` (abcrules.py:1295-1297). -/
structure SeqInfo where
  nextCand : ℕ
  tiedCands : List ℕ
  deltaScore : ℚ
deriving DecidableEq, Repr

/-- The candidates whose entry equals `max(scores)` (abcrules.py:1288-1292). -/
def tiedMax (scores : List ℚ) : List ℕ :=
  (List.range scores.length).filter (fun c => decide (scores.getD c 0 = listMax scores))

/-- The loop of `_seq_thiele_resolute` (abcrules.py:1284-1297). -/
def seqThieleLoop (f : ℕ → ℚ) (p : Profile) : ℕ → List ℕ → List SeqInfo → Except Err (List ℕ × List SeqInfo)
  | 0, committee, info => .ok (committee, info)
  | n + 1, committee, info => do
    let additional := marginalAdd f p committee
    let tied := tiedMax additional
    let next ← pyGet tied 0
    seqThieleLoop f p n (committee ++ [next]) (info ++ [⟨next, tied, listMax additional⟩])

/-- `_seq_thiele_resolute` (abcrules.py:1273-1299). -/
def seqThieleResolute (f : ℕ → ℚ) (p : Profile) (k : ℕ) : Except Err (List (List ℕ) × List SeqInfo) := do
  let (committee, info) ← seqThieleLoop f p k [] []
  let cs ← sortedCommittees [committee]
  .ok (cs, info)

/-- The extensions computed in one iteration of `_seq_thiele_irresolute` (abcrules.py:1318-1323). -/
def seqThieleSuccs (f : ℕ → ℚ) (p : Profile) (committee : List ℕ) : List (List ℕ) :=
  let additional := marginalAdd f p committee
  (p.candidates.filter (fun c => decide (additional.getD c 0 ≥ listMax additional))).map (fun c => committee ++ [c])

/-- Fuel that suffices for the depth-first searches (see the theorems on `outOfFuel`). -/
def dfsFuel (p : Profile) (k : ℕ) : ℕ := (p.numCand + 1) ^ k

/-- `_seq_thiele_irresolute` (abcrules.py:1302-1342). -/
def seqThieleIrresolute (f : ℕ → ℚ) (p : Profile) (k : ℕ) (max : Option ℕ) : Except Err (List (List ℕ)) := do
  let winning ← universes (fun c => decide (c.length = k)) sortNat (fun c => .ok (seqThieleSuccs f p c)) max
    (dfsFuel p k) [[]] []
  sortedCommittees winning

/-- The `while` loop of `_thiele_methods_branchandbound` (abcrules.py:782-807); head of the list = index 0 in Python.
`part_coms.insert(0, …)` in ascending order of `cand` puts the largest extension first. -/
def bnbLoop (f : ℕ → ℚ) (p : Profile) (k : ℕ) : ℕ → List (List ℕ) → List (List ℕ) → ℚ → Except Err (List (List ℕ))
  | _, [], best, _ => .ok best
  | 0, _ :: _, _, _ => .error .outOfFuel
  | fuel + 1, partCom :: rest, best, bestScore =>
    if partCom.length = k then
      let score := thieleScore f p partCom
      if score = bestScore then bnbLoop f p k fuel rest (best ++ [partCom]) bestScore
      else if score > bestScore then bnbLoop f p k fuel rest [partCom] score
      else bnbLoop f p k fuel rest best bestScore
    else
      -- `largest_cand + 1` where `largest_cand = part_com[-1]` or -1
      let start := match partCom.getLast? with
        | some c => c + 1
        | none => 0
      let missing := k - partCom.length
      let marg := marginalAdd f p partCom
      let sorted := sortRat (marg.drop start)
      -- `sorted(...)[-missing:]` with `missing ≥ 1`
      let upperBound := (sorted.drop (sorted.length - missing)).sum + thieleScore f p partCom
      if upperBound ≥ bestScore then
        -- `range(largest_cand + 1, num_cand - missing + 1)`
        let cands := (List.range (p.numCand + 1 - missing)).filter (fun c => decide (start ≤ c))
        bnbLoop f p k fuel ((cands.map (fun c => partCom ++ [c])).reverse ++ rest) best bestScore
      else bnbLoop f p k fuel rest best bestScore

/-- `_thiele_methods_branchandbound` (abcrules.py:765-816). -/
def thieleBranchAndBound (f : ℕ → ℚ) (p : Profile) (k : ℕ) (resolute : Bool) (max : Option ℕ) :
    Except Err (List (List ℕ)) := do
  let (initComs, _) ← seqThieleResolute f p k
  let initCom ← pyGet initComs 0
  let best ← bnbLoop f p k (dfsFuel p k) [[]] [] (thieleScore f p initCom)
  let committees ← sortedCommittees best
  let committees := truncate max committees
  if resolute then do
    let c ← pyGet committees 0
    .ok [c]
  else .ok committees

/-- External solvers for the optimisation rules ("gurobi", "mip-…", "ortools-cp"); their programs are modelled in `Model.ILP`. -/
abbrev Solver := String → Except Err (List (List ℕ))

/-- `get_marginal_scorefct(scorefct_id)` in the environment `env` (scores.py:27-61). -/
def Env.scoreId (env : Env) (scorefctId : String) : Except Err ScoreId :=
  getScoreId env.parseFraction env.parseInt scorefctId.toList

/-- `compute_thiele_method` (abcrules.py:604-730).  `get_marginal_scorefct` is called inside the algorithms (scores.py:86,
abcrules.py:775, 1280).  The output block evaluates `committees[0]` (721-724), which raises IndexError on an empty list. -/
def computeThieleMethod (env : Env) (scorefctId : String) (solver : Solver) (p : Profile) (a : Args) :
    Except Err (List (List ℕ)) := do
  let algorithm ← prologue env scorefctId p a
  let sid ← env.scoreId scorefctId
  let committees ←
    if algorithm = "branch-and-bound" then thieleBranchAndBound (marginalFct sid) p a.k a.resolute a.maxNum
    else if algorithm = "brute-force" then thieleBruteforce (marginalFct sid) p a.k a.resolute a.maxNum
    else solver algorithm
  let _ ← pyGet committees 0
  .ok committees

/-- `compute_seq_thiele_method` (abcrules.py:1149-1270). -/
def computeSeqThieleMethod (env : Env) (scorefctId : String) (p : Profile) (a : Args) :
    Except Err (List (List ℕ)) := do
  let sid ← env.scoreId scorefctId
  let algorithm ← prologue env ("seq" ++ scorefctId) p a
  if algorithm = "standard" then
    let committees ←
      if a.resolute then (do let r ← seqThieleResolute (marginalFct sid) p a.k; .ok r.1)
      else seqThieleIrresolute (marginalFct sid) p a.k a.maxNum
    sortedCommittees committees
  else .error .unknownAlgorithm

/-- The candidates whose entry equals `min(scores)` (abcrules.py:1678-1680). -/
def tiedMin (scores : List ℚ) : List ℕ :=
  (List.range scores.length).filter (fun c => decide (scores.getD c 0 = listMin scores))

/-- The loop of `_revseq_thiele_resolute` (abcrules.py:1673-1687).  The Python set `committee` is represented by an ascending
list; `set.remove` raises KeyError if the candidate is not a member; `[-1]` raises IndexError on an empty list. -/
def revseqLoop (f : ℕ → ℚ) (p : Profile) : ℕ → List ℕ → Except Err (List ℕ)
  | 0, committee => .ok committee
  | n + 1, committee => do
    let marg := marginalRemove f p committee
    match (tiedMin marg).getLast? with
    | none => .error .indexError
    | some next => if next ∉ committee then .error .keyError else revseqLoop f p n (committee.erase next)

/-- `_revseq_thiele_resolute` (abcrules.py:1662-1689). -/
def revseqThieleResolute (f : ℕ → ℚ) (p : Profile) (k : ℕ) : Except Err (List (List ℕ)) := do
  let committee ← revseqLoop f p (p.numCand - k) p.candidates
  sortedCommittees [committee]

/-- One level of `_revseq_thiele_irresolute` (abcrules.py:1705-1718): keys of the dictionary `comm_scores_next` in insertion
order.  `tuple(set(committee) - {cand})` is some listing `ord committee cand` of the set. -/
def revseqLevel (f : ℕ → ℚ) (p : Profile) (ord : List ℕ → ℕ → List ℕ) (coms : List (List ℕ)) : List (List ℕ) :=
  coms.foldl (fun next committee =>
    (tiedMin (marginalRemove f p committee)).foldl (fun next cand => setAdd next (ord committee cand)) next) []

/-- `n` levels (abcrules.py:1704). -/
def revseqLevels (f : ℕ → ℚ) (p : Profile) (ord : List ℕ → ℕ → List ℕ) : ℕ → List (List ℕ) → List (List ℕ)
  | 0, coms => coms
  | n + 1, coms => revseqLevels f p ord n (revseqLevel f p ord coms)

/-- `_revseq_thiele_irresolute` (abcrules.py:1692-1724).  The scores stored as dictionary values are never used. -/
def revseqThieleIrresolute (f : ℕ → ℚ) (p : Profile) (ord : List ℕ → ℕ → List ℕ) (k : ℕ) (max : Option ℕ) :
    Except Err (List (List ℕ)) := do
  let committees ← sortedCommittees (revseqLevels f p ord (p.numCand - k) [p.candidates])
  .ok (truncate max committees)

/-- `compute_revseq_thiele_method` (abcrules.py:1530-1659). -/
def computeRevseqThieleMethod (env : Env) (scorefctId : String) (ord : List ℕ → ℕ → List ℕ) (p : Profile)
    (a : Args) : Except Err (List (List ℕ)) := do
  let sid ← env.scoreId scorefctId
  let algorithm ← prologue env ("revseq" ++ scorefctId) p a
  if algorithm = "standard" then
    if a.resolute then revseqThieleResolute (marginalFct sid) p a.k
    else revseqThieleIrresolute (marginalFct sid) p ord a.k a.maxNum
  else .error .unknownAlgorithm

end Abc
