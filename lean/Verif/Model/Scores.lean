import Verif.Model.Preferences

/-!
# Model of `abcvoting/scores.py`
-/

namespace Abc

/-- The Thiele score functions known to `get_marginal_scorefct` (scores.py:27-61). -/
inductive ScoreId
  | pav | slav | cc | av
  | geom (base : ℚ)
  | atleast (ell : ℤ)
deriving DecidableEq, Repr

/-- `get_marginal_scorefct` (scores.py:27-61) on strings.  `Fraction(s)` and `int(s)` are the parameters `parseFraction`,
`parseInt` (`none`: they raise ValueError). -/
def getScoreId (parseFraction : List Char → Option ℚ) (parseInt : List Char → Option ℤ) (s : List Char) :
    Except Err ScoreId :=
  if s = "pav".toList then .ok .pav
  else if s = "slav".toList then .ok .slav
  else if s = "cc".toList then .ok .cc
  else if s = "av".toList then .ok .av
  else if s.take 4 = "geom".toList then
    match parseFraction (s.drop 4) with
    | some b => .ok (.geom b)
    | none => .error .valueError
  else if s.take 7 = "atleast".toList then
    match parseInt (s.drop 7) with
    | some l => .ok (.atleast l)
    | none => .error .valueError
  else .error .unknownScoreFunction

/-- The marginal score functions (scores.py:101-260): `geometric_marginal_score_fct`, `pav_score_fct`, `slav_score_fct`,
`av_score_fct`, `cc_score_fct`, `at_least_ell_fct`.
Simplification: for `geom` with base 0 and `i ≥ 2` Python raises ZeroDivisionError whereas `1/0 = 0` here; all theorems
about `geom` assume `base > 0` (the code itself does not check this). -/
def marginalFct : ScoreId → ℕ → ℚ
  | .geom base, i => if i = 0 then 0 else 1 / base ^ (i - 1)
  | .pav, i => if i = 0 then 0 else 1 / (i : ℚ)
  | .slav, i => if i = 0 then 0 else 1 / (2 * (i : ℚ) - 1)
  | .av, i => if i ≥ 1 then 1 else 0
  | .cc, i => if i = 1 then 1 else 0
  | .atleast ell, i => if (i : ℤ) = ell then 1 else 0

/-- `thiele_score` (scores.py:64-93) for a marginal score function `f`. -/
def thieleScore (f : ℕ → ℚ) (p : Profile) (committee : List ℕ) : ℚ :=
  p.voters.foldl (fun score v =>
    ((inter committee.dedup v.approved).foldl
      (fun (st : ℕ × ℚ) _ => (st.1 + 1, st.2 + v.weight * f (st.1 + 1))) (0, score)).2) 0

/-- `cumulative_score` (scores.py:268-289). -/
def cumulativeScore (f : ℕ → ℚ) (candInCom : ℕ) : ℚ :=
  ((List.range candInCom).map (fun i => f (i + 1))).sum

/-- `marginal_thiele_scores_add` (scores.py:292-323).  Indexing is in range for profiles and committees of the API. -/
def marginalAdd (f : ℕ → ℚ) (p : Profile) (committee : List ℕ) : List ℚ :=
  let marginal := p.voters.foldl (fun m v =>
    let intersectionsize := (inter v.approved committee).length
    v.approved.foldl (fun m cand => addAt m cand (v.weight * f (intersectionsize + 1))) m)
    (List.replicate p.numCand 0)
  committee.foldl (fun m cand => m.set cand (-1)) marginal

/-- Python `max(l) + 1` on a non-empty list (`[]` does not occur: `num_cand > 0`). -/
def maxPlusOne (l : List ℚ) : ℚ :=
  match l with
  | [] => 0
  | x :: xs => xs.foldl max x + 1

/-- `marginal_thiele_scores_remove` (scores.py:326-360): the loop at 356-359 updates the list while computing maxima. -/
def marginalRemove (f : ℕ → ℚ) (p : Profile) (committee : List ℕ) : List ℚ :=
  let marg := p.voters.foldl (fun m v =>
    let satisfaction := (inter v.approved committee).length
    v.approved.foldl (fun m cand => addAt m cand (v.weight * f satisfaction)) m)
    (List.replicate p.numCand 0)
  p.candidates.foldl (fun m cand => if cand ∉ committee then m.set cand (maxPlusOne m) else m) marg

/-- `minimaxav_score` (scores.py:478-500). -/
def minimaxavScore (p : Profile) (committee : List ℕ) : ℕ :=
  p.voters.foldl (fun score v =>
    let hamdistance := hamming v.approved committee
    if hamdistance > score then hamdistance else score) 0

/-- `num_voters_with_upper_bounded_hamming_distance` (scores.py:503-523). -/
def numVotersUpperBounded (upperbound : ℤ) (p : Profile) (committee : List ℕ) : ℕ :=
  (p.voters.filter (fun v => decide ((hamming v.approved committee : ℤ) ≤ upperbound))).length

/-! ## Monroe scores -/

/-- An edge of the bipartite graph of `monroescore_matching`: voter `i` – slot `j` of candidate `cand`
(the node names `"cand/j"` are represented by the pair). -/
abbrev MEdge := ℕ × (ℕ × ℕ)

/-- The edges added at scores.py:420-426. -/
def monroeEdges (p : Profile) (committee : List ℕ) (sizeofdistricts : ℕ) : List MEdge :=
  committee.flatMap (fun cand =>
    let interestedvoters := (List.range p.voters.length).filter (fun i => match p.voters[i]? with
      | some v => decide (cand ∈ v.approved)
      | none => false)
    (List.range sizeofdistricts).flatMap (fun j => interestedvoters.map (fun i => (i, (cand, j)))))

/-- `monroescore_matching` (scores.py:387-428).  `nx.bipartite.maximum_matching` is the parameter `matching`
(returning the list of matched edges; the Python dictionary lists every edge twice, hence `len // 2`). -/
def monroescoreMatching (matching : List MEdge → List MEdge) (p : Profile) (committee : List ℕ) : Except Err ℕ :=
  if committee.length = 0 then .error .zeroDivisionError
  else if p.voters.length % committee.length ≠ 0 then .error .valueError
  else
    let sizeofdistricts := p.voters.length / committee.length
    .ok (matching (monroeEdges p committee sizeofdistricts)).length

/-- Nodes of the flow network of `monroescore_flowbased`. -/
inductive FNode
  | sink
  | cand (c : ℕ)
  | voter (i : ℕ)
deriving DecidableEq, Repr

/-- A flow network as passed to `nx.capacity_scaling`: nodes with demands, edges with cost; all capacities are 1. -/
structure FlowNet where
  nodes : List (FNode × ℤ)
  edges : List ((FNode × FNode) × ℕ)

/-- The network built at scores.py:452-471. -/
def monroeNet (p : Profile) (committee : List ℕ) : FlowNet :=
  let n := p.voters.length
  let lower := n / committee.length
  let overflow := n - committee.length * lower
  { nodes := (FNode.sink, (overflow : ℤ)) :: committee.map (fun c => (FNode.cand c, (lower : ℤ)))
      ++ (List.range n).map (fun i => (FNode.voter i, (-1 : ℤ)))
    edges := committee.map (fun c => ((FNode.cand c, FNode.sink), 0))
      ++ p.voters.zipIdx.flatMap (fun vi => committee.map (fun c =>
          ((FNode.voter vi.2, FNode.cand c), if c ∈ vi.1.approved then 0 else 1))) }

/-- `monroescore_flowbased` (scores.py:431-475).  `nx.capacity_scaling(graph)[0]` (the minimal cost) is the parameter. -/
def monroescoreFlow (minCost : FlowNet → Except Err ℕ) (p : Profile) (committee : List ℕ) : Except Err ℤ :=
  if committee.length = 0 then .error .zeroDivisionError
  else do
    let cost ← minCost (monroeNet p committee)
    .ok ((p.voters.length : ℤ) - cost)

/-- `monroescore` (scores.py:363-384). -/
def monroescore (matching : List MEdge → List MEdge) (minCost : FlowNet → Except Err ℕ) (p : Profile)
    (committee : List ℕ) : Except Err ℤ :=
  if committee.length = 0 then .error .zeroDivisionError
  else if p.voters.length % committee.length = 0 then do
    let s ← monroescoreMatching matching p committee
    .ok (s : ℤ)
  else monroescoreFlow minCost p committee

end Abc
