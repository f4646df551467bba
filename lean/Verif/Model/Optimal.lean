import Verif.Model.Thiele

/-!
# Model of the other optimisation-based rules with brute-force algorithms, separable rules, trivial rule
-/

namespace Abc

/-! ## AV, SAV -/

/-- The two separable rules (abcrules.py:1917-1924). -/
inductive SepRule
  | av | sav
deriving DecidableEq, Repr

/-- The rule ids (abcrules.py:2023, 2086). -/
def SepRule.id : SepRule → String
  | .av => "av"
  | .sav => "sav"

/-- What a voter contributes to each approved candidate (abcrules.py:1918-1922).  SAV's `voter.weight / len(voter.approved)`
is Python `/`: exact for weights stored as Fractions, which is what is modelled here.  For other weights (ints!) the quotient is a
float; `Model/FloatSav.lean` models that. -/
def SepRule.amount : SepRule → Voter → ℚ
  | .sav, v => v.weight / (v.approved.length : ℚ)
  | .av, v => v.weight

/-- `score` after the loop abcrules.py:1914-1924. -/
def separableScores (r : SepRule) (p : Profile) : List ℚ :=
  p.voters.foldl (fun s v =>
    v.approved.foldl (fun s c => addAt s c (r.amount v)) s)
    (List.replicate p.numCand 0)

/-- The `for … break` loop abcrules.py:1952-1955: append, then stop when at least `n` committees are collected. -/
def collectUpTo (n : ℕ) : List (List ℕ) → List (List ℕ) → List (List ℕ)
  | [], acc => acc
  | c :: cs, acc => if (acc ++ [c]).length ≥ n then acc ++ [c] else collectUpTo n cs (acc ++ [c])

/-- `_separable_rule_algorithm` (abcrules.py:1908-1964) after the scores have been computed (lines 1926-1956); `score` contains their
values. -/
def separableCommittees (score : List ℚ) (p : Profile) (k : ℕ) (resolute : Bool) (max : Option ℕ) : Except Err (List (List ℕ)) := do
  -- `sorted(score)[-committeesize]`
  let cutoff ← pyGetFromEnd (sortRat score) k
  let certain := p.candidates.filter (fun c => decide (score.getD c 0 > cutoff))
  let possible := p.candidates.filter (fun c => decide (score.getD c 0 = cutoff))
  let missing := k - certain.length
  let b := decide (possible.length = missing)
  let certain' := if b then sortNat (certain ++ possible) else certain
  let possible' := if b then [] else possible
  let missing' := if b then 0 else missing
  if resolute then sortedCommittees [certain' ++ possible'.take missing']
  else match max with
    | none => sortedCommittees ((combinations possible' missing').map (fun sel => certain' ++ sel))
    | some n => sortedCommittees (collectUpTo n ((combinations possible' missing').map (fun sel => certain' ++ sel)) [])

/-- `_separable_rule_algorithm` (abcrules.py:1908-1964). -/
def separableAlgorithm (r : SepRule) (p : Profile) (k : ℕ) (resolute : Bool) (max : Option ℕ) :
    Except Err (List (List ℕ)) :=
  separableCommittees (separableScores r p) p k resolute max

/-- `compute_separable_rule` (abcrules.py:1789-1905), `compute_av`, `compute_sav` (1967-2090). -/
def computeSeparable (env : Env) (r : SepRule) (p : Profile) (a : Args) : Except Err (List (List ℕ)) := do
  let algorithm ← prologue env r.id p a
  if algorithm = "standard" then separableAlgorithm r p a.k a.resolute a.maxNum
  else .error .unknownAlgorithm

/-! ## lex-CC -/

/-- The loop with `break`/`else` abcrules.py:1130-1138 (and 2348-2356): compare two vectors position by position.
`gt`: `opt[i] > new[i]` at the first difference, `lt`: `opt[i] < new[i]`, `eq`: no difference. -/
def cmpVec {α : Type} [LT α] [DecidableLT α] : List α → List α → Ordering
  | o :: os, n :: ns => if n < o then .gt else if o < n then .lt else cmpVec os ns
  | _, _ => .eq

/-- `score_vector` (abcrules.py:1126-1129). -/
def lexccVector (p : Profile) (k : ℕ) (committee : List ℕ) : List ℚ :=
  (List.range k).map (fun (i : ℕ) => thieleScore (marginalFct (.atleast ((i : ℤ) + 1))) p committee)

/-- One iteration abcrules.py:1125-1138. -/
def lexccStep (p : Profile) (k : ℕ) (st : List (List ℕ) × List ℚ) (committee : List ℕ) : List (List ℕ) × List ℚ :=
  let vec := lexccVector p k committee
  match cmpVec st.2 vec with
  | .gt => st
  | .lt => ([committee], vec)
  | .eq => (st.1 ++ [committee], st.2)

/-- `_lexcc_bruteforce` (abcrules.py:1122-1146): committees and `opt_score_vector`. -/
def lexccBruteforce (p : Profile) (k : ℕ) (resolute : Bool) (max : Option ℕ) :
    Except Err (List (List ℕ) × List ℚ) := do
  let st := (combinations p.candidates k).foldl (lexccStep p k) ([], List.replicate k 0)
  let committees ← sortedCommittees st.1
  let committees ← if resolute then (do let c ← pyGet committees 0; .ok [c]) else .ok committees
  .ok (truncate max committees, st.2)

/-- `compute_lexcc` (abcrules.py:1010-1119). -/
def computeLexcc (env : Env) (solver : Solver) (p : Profile) (a : Args) : Except Err (List (List ℕ)) := do
  let algorithm ← prologue env "lexcc" p a
  if algorithm = "brute-force" then (do let r ← lexccBruteforce p a.k a.resolute a.maxNum; .ok r.1)
  else solver algorithm

/-! ## Minimax AV -/

/-- One iteration abcrules.py:2213-2219. -/
def minimaxavStep (p : Profile) (st : List (List ℕ) × ℕ) (committee : List ℕ) : List (List ℕ) × ℕ :=
  let score := minimaxavScore p committee
  if score < st.2 then ([committee], score)
  else if score = st.2 then (st.1 ++ [committee], st.2)
  else st

/-- `_minimaxav_bruteforce` (abcrules.py:2209-2227). -/
def minimaxavBruteforce (p : Profile) (k : ℕ) (resolute : Bool) (max : Option ℕ) : Except Err (List (List ℕ)) := do
  let st := (combinations p.candidates k).foldl (minimaxavStep p) ([], p.numCand + 1)
  let committees ← sortedCommittees st.1
  let committees ← if resolute then (do let c ← pyGet committees 0; .ok [c]) else .ok committees
  .ok (truncate max committees)

/-- `compute_minimaxav` (abcrules.py:2093-2206). -/
def computeMinimaxav (env : Env) (solver : Solver) (p : Profile) (a : Args) : Except Err (List (List ℕ)) := do
  let algorithm ← prologue env "minimaxav" p a
  let committees ←
    if algorithm = "brute-force" then minimaxavBruteforce p a.k a.resolute a.maxNum else solver algorithm
  let _ ← pyGet committees 0
  .ok committees

/-! ## lex-MAV -/

/-- `sorted(..., reverse=True)` for integers. -/
def sortNatDesc (l : List ℕ) : List ℕ := l.insertionSort (· ≥ ·)

/-- One iteration abcrules.py:2344-2356. -/
def lexminimaxavStep (p : Profile) (st : List (List ℕ) × List ℕ) (committee : List ℕ) : List (List ℕ) × List ℕ :=
  let distances := sortNatDesc (p.voters.map (fun v => hamming v.approved committee))
  match cmpVec st.2 distances with
  | .lt => st
  | .gt => ([committee], distances)
  | .eq => (st.1 ++ [committee], st.2)

/-- `_lexminimaxav_bruteforce` (abcrules.py:2341-2364). -/
def lexminimaxavBruteforce (p : Profile) (k : ℕ) (resolute : Bool) (max : Option ℕ) :
    Except Err (List (List ℕ) × List ℕ) := do
  let st := (combinations p.candidates k).foldl (lexminimaxavStep p)
    ([], List.replicate p.voters.length (p.numCand + 1))
  let committees ← sortedCommittees st.1
  let committees ← if resolute then (do let c ← pyGet committees 0; .ok [c]) else .ok committees
  .ok (truncate max committees, st.2)

/-- `compute_lexminimaxav` (abcrules.py:2230-2338). -/
def computeLexminimaxav (env : Env) (solver : Solver) (p : Profile) (a : Args) : Except Err (List (List ℕ)) := do
  let algorithm ← prologue env "lexminimaxav" p a
  if ¬ p.hasUnitWeights then .error .valueError
  else if algorithm = "brute-force" then (do let r ← lexminimaxavBruteforce p a.k a.resolute a.maxNum; .ok r.1)
  else solver algorithm

/-! ## Monroe -/

/-- One iteration abcrules.py:2487-2493 (`monroescore` is evaluated a second time in the `elif`). -/
def monroeStep (score : List ℕ → Except Err ℤ) (st : List (List ℕ) × ℤ) (committee : List ℕ) :
    Except Err (List (List ℕ) × ℤ) := do
  let s ← score committee
  if s > st.2 then .ok ([committee], s)
  else do
    let s' ← score committee
    if s' = st.2 then .ok (st.1 ++ [committee], st.2) else .ok st

/-- `_monroe_bruteforce` (abcrules.py:2481-2502). -/
def monroeBruteforce (matching : List MEdge → List MEdge) (minCost : FlowNet → Except Err ℕ) (p : Profile) (k : ℕ)
    (resolute : Bool) (max : Option ℕ) : Except Err (List (List ℕ)) := do
  let st ← (combinations p.candidates k).foldlM (monroeStep (monroescore matching minCost p)) ([], -1)
  let committees ← sortedCommittees st.1
  let committees := truncate max committees
  if resolute then do
    let c ← pyGet committees 0
    .ok [c]
  else .ok committees

/-- `compute_monroe` (abcrules.py:2367-2478). -/
def computeMonroe (env : Env) (matching : List MEdge → List MEdge) (minCost : FlowNet → Except Err ℕ) (solver : Solver)
    (p : Profile) (a : Args) : Except Err (List (List ℕ)) := do
  let algorithm ← prologue env "monroe" p a
  if ¬ p.hasUnitWeights then .error .valueError
  else do
    let committees ←
      if algorithm = "brute-force" then monroeBruteforce matching minCost p a.k a.resolute a.maxNum else solver algorithm
    let c ← pyGet committees 0
    let _ ← monroescore matching minCost p c
    .ok committees

/-! ## Trivial rule -/

/-- `compute_trivial_rule` (abcrules.py:4224-4305). -/
def computeTrivial (env : Env) (p : Profile) (a : Args) : Except Err (List (List ℕ)) := do
  let algorithm ← prologue env "trivial" p a
  if algorithm = "standard" then do
    let committees :=
      if a.resolute then [List.range a.k]
      else truncate a.maxNum (combinations p.candidates a.k)  -- `itertools.islice`
    let committees ← committees.mapM mkSet
    sortedCommittees committees
  else .error .unknownAlgorithm

end Abc
