import Verif.Model.Optimal
import Verif.Model.Properties

/-!
# Model of Greedy Monroe (abcrules.py:2505-2659)
-/

namespace Abc

/-- `[i for i in remaining_voters if cand in profile[i].approved]` (abcrules.py:2637, 2650). -/
def gmSupporters (p : Profile) (remainingVoters : List ℕ) (cand : ℕ) : List ℕ :=
  remainingVoters.filter (fun i => decide (cand ∈ (p.voterAt i).approved))

/-- The inner loop abcrules.py:2634-2640; the state is `(selected, maxapprovals)`. -/
def gmSelect (p : Profile) (remainingVoters : List ℕ) (remainingCands : List ℕ) : Option ℕ × ℤ :=
  remainingCands.foldl (fun st cand =>
    if ((gmSupporters p remainingVoters cand).length : ℤ) > st.2
      then (some cand, ((gmSupporters p remainingVoters cand).length : ℤ)) else st) (none, -1)

/-- The maximal size of the `t`-th district (abcrules.py:2643-2646, 2595-2598). -/
def gmDistrictSize (n k t : ℕ) : ℕ := if t < n - k * (n / k) then n / k + 1 else n / k

/-- The main loop abcrules.py:2633-2656; first argument: remaining rounds, second: `t`.  The set `remaining_cands` is a list in
its iteration order (removing an element from a CPython set does not change the order of the others).
`remaining_cands.remove(None)` raises KeyError. -/
def gmLoop (p : Profile) (k : ℕ) : ℕ → ℕ → List ℕ → List ℕ → List ℕ → List (ℕ × List ℕ) →
    Except Err (List ℕ × List (ℕ × List ℕ) × List ℕ)
  | 0, _, committee, remainingVoters, _, assignment => .ok (committee, assignment, remainingVoters)
  | r + 1, t, committee, remainingVoters, remainingCands, assignment =>
    match (gmSelect p remainingVoters remainingCands).1 with
    | none => .error .keyError
    | some selected =>
      let toRemove := (gmSupporters p remainingVoters selected).take (gmDistrictSize p.voters.length k t)
      gmLoop p k r (t + 1) (committee ++ [selected])
        (remainingVoters.filter (fun i => decide (i ∉ toRemove))) (remainingCands.erase selected)
        (assignment ++ [(selected, toRemove)])

/-- `_greedy_monroe_algorithm` (abcrules.py:2622-2659); `iter` is the iteration order of `set(profile.candidates)`. -/
def greedyMonroeAlgorithm (p : Profile) (k : ℕ) (iter : List ℕ) :
    Except Err (List (List ℕ) × List (ℕ × List ℕ) × List ℕ) := do
  let r ← gmLoop p k k 0 [] (List.range p.voters.length) iter []
  let cs ← sortedCommittees [r.1]
  .ok (cs, r.2.1, r.2.2)

/-- `for _ in range(missing): voters.append(remaining_voters.pop())` (abcrules.py:2599-2601): the new `voters` and
`remaining_voters`; popping from an empty list raises IndexError. -/
def gmPop : ℕ → List ℕ → List ℕ → Except Err (List ℕ × List ℕ)
  | 0, voters, remaining => .ok (voters, remaining)
  | m + 1, voters, remaining =>
    match remaining.getLast? with
    | none => .error .indexError
    | some v => gmPop m (voters ++ [v]) remaining.dropLast

/-- The loop abcrules.py:2593-2601 (`range` of a negative number is empty): the completed assignment and the voters left over. -/
def gmComplete (n k : ℕ) : ℕ → List (ℕ × List ℕ) → List ℕ → Except Err (List (ℕ × List ℕ) × List ℕ)
  | _, [], remaining => .ok ([], remaining)
  | t, (cand, voters) :: rest, remaining => do
    let r ← gmPop (gmDistrictSize n k t - voters.length) voters remaining
    let s ← gmComplete n k (t + 1) rest r.2
    .ok ((cand, r.1) :: s.1, s.2)

/-- `compute_greedy_monroe` (abcrules.py:2505-2619): the committees and the completed assignment that is printed. -/
def computeGreedyMonroeFull (env : Env) (matching : List MEdge → List MEdge) (minCost : FlowNet → Except Err ℕ)
    (iter : List ℕ) (p : Profile) (a : Args) : Except Err (List (List ℕ) × List (ℕ × List ℕ)) := do
  let algorithm ← prologue env "greedy-monroe" p a
  if ¬ p.hasUnitWeights then .error .valueError
  else if algorithm = "standard" then do
    let r ← greedyMonroeAlgorithm p a.k iter
    let c ← pyGet r.1 0
    let _ ← monroescore matching minCost p c
    let s ← gmComplete p.voters.length a.k 0 r.2.1 r.2.2
    let cs ← sortedCommittees r.1
    .ok (cs, s.1)
  else .error .unknownAlgorithm

/-- `compute_greedy_monroe` (abcrules.py:2505-2619). -/
def computeGreedyMonroe (env : Env) (matching : List MEdge → List MEdge) (minCost : FlowNet → Except Err ℕ)
    (iter : List ℕ) (p : Profile) (a : Args) : Except Err (List (List ℕ)) := do
  let r ← computeGreedyMonroeFull env matching minCost iter p a
  .ok r.1

end Abc
