import Verif.Model.Budgets
import Mathlib.Data.Rat.Floor

/-!
# Model of the Method of Equal Shares (abcrules.py:2963-3482), exact arithmetic
-/

namespace Abc

/-- The `while` loop of `_equal_shares_get_min_q` (abcrules.py:3258-3275).  Voters are represented by their entries
(voter, budget); the sets `rich` and `poor` by lists of entries. -/
def minQLoop : ℕ → List (Voter × ℚ) → List (Voter × ℚ) → Except Err (Option ℚ)
  | 0, _, _ => .error .outOfFuel
  | fuel + 1, rich, poor =>
    if rich.length = 0 then .ok none
    else
      let q := (1 - (poor.map Prod.snd).sum) / (rich.map (fun vb => vb.1.weight)).sum
      let newPoor := rich.filter (fun vb => decide (vb.2 < q * vb.1.weight))
      if newPoor.length = 0 then .ok (some q)
      else minQLoop fuel (rich.filter (fun vb => ! decide (vb.2 < q * vb.1.weight))) (poor ++ newPoor)

/-- `_equal_shares_get_min_q` (abcrules.py:3255-3275). -/
def getMinQ (p : Profile) (budget : List ℚ) (cand : ℕ) : Except Err (Option ℚ) :=
  minQLoop (p.voters.length + 1) ((p.voters.zip budget).filter (fun vb => decide (cand ∈ vb.1.approved))) []

/-- The dictionary `min_q` in insertion order (abcrules.py:3381-3386). -/
def mesPrices (p : Profile) (budget : List ℚ) : List ℕ → Except Err (List (ℕ × ℚ))
  | [] => .ok []
  | cand :: cands => do
    let q ← getMinQ p budget cand
    let rest ← mesPrices p budget cands
    match q with
    | none => .ok rest
    | some q => .ok ((cand, q) :: rest)

/-- `new_budget` (abcrules.py:3394-3397). -/
def mesBudget (p : Profile) (budget : List ℚ) (cand : ℕ) (q : ℚ) : List ℚ :=
  List.zipWith (fun v b => if cand ∈ v.approved then b - min b (q * v.weight) else b) p.voters budget

/-- The extensions of one iteration (abcrules.py:3389-3399, 3420-3421): tied candidates in ascending order, only the first one
if `resolute`. -/
def mesSuccs (p : Profile) (resolute : Bool) (n : List ℕ × List ℚ) (minQ : List (ℕ × ℚ)) : List (List ℕ × List ℚ) :=
  let m := listMin (minQ.map Prod.snd)
  let tied := sortNat ((minQ.filter (fun cq => decide (cq.2 = m))).map Prod.fst)
  let tied := if resolute then tied.take 1 else tied
  tied.map (fun c => (n.1 ++ [c], mesBudget p n.2 c m))

/-- The argument `completion` of `compute_equal_shares`. -/
inductive Completion
  | none | seqphragmen | av | increment
  | other (s : String)
deriving DecidableEq, Repr

/-- `phragmen_phase` (abcrules.py:3286-3313): the committees added to `winning_committees`. -/
def phragmenPhase (p : Profile) (k : ℕ) (resolute : Bool) (committee : List ℕ) (budget : List ℚ) :
    Except Err (List (List ℕ)) := do
  let startLoad := List.zipWith (fun (v : Voter) b => -b / v.weight) p.voters budget
  let committees ←
    if resolute then (do let r ← seqphragmenResolute p k startLoad committee; .ok r.1)
    else seqphragmenIrresolute p k none startLoad committee
  .ok (committees.map sortNat)

/-- `set(_committee).union(comm)` as a list without duplicates. -/
def unionList (a b : List ℕ) : List ℕ := b.foldl setAdd a

/-- The `for` loop of `av_phase` (abcrules.py:3317-3342); first argument: remaining iterations. -/
def avPhaseLoop (p : Profile) (k : ℕ) (committee : List ℕ) : ℕ → ℕ → Except Err (List (List ℕ))
  | 0, _ => .error .runtimeError
  | n + 1, numMissing => do
    let avCommittees ← separableAlgorithm .av p numMissing false none
    let unions := avCommittees.map (unionList committee)
    if unions.any (fun c => decide (c.length > k)) then .error .runtimeError
    else
      let new := unions.filter (fun c => decide (c.length = k))
      if new.length ≠ 0 then .ok (new.map sortNat)
      else avPhaseLoop p k committee n (numMissing + 1)

/-- `av_phase` (abcrules.py:3315-3342). -/
def avPhase (p : Profile) (k : ℕ) (committee : List ℕ) : Except Err (List (List ℕ)) :=
  avPhaseLoop p k committee k (k - committee.length)

/-- What is done when no affordable candidate remains (abcrules.py:3426-3435): the committees added to
`winning_committees`. -/
def mesComplete (p : Profile) (k : ℕ) (resolute : Bool) (completion : Completion) (committee : List ℕ) (budget : List ℚ) :
    Except Err (List (List ℕ)) :=
  match completion with
  | .none => .ok [sortNat committee]
  | .seqphragmen => phragmenPhase p k resolute committee budget
  | .av => avPhase p k committee
  | _ => .error .valueError

/-- One iteration of the main loop up to the test in line 3437: `Sum.inl`: the function returns (line 3416); `Sum.inr`: the new
(committee, budget) pairs in the order of the `for` loop and the new `winning_committees` (abcrules.py:3379-3435). -/
def mesStep (p : Profile) (k : ℕ) (resolute : Bool) (completion : Completion) (max : Option ℕ) (n : List ℕ × List ℚ)
    (winning : List (List ℕ)) : Except Err (Sum (List (List ℕ)) (List (List ℕ × List ℚ) × List (List ℕ))) := do
  let minQ ← mesPrices p n.2 (available p n.1)
  if minQ.length > 0 then
    .ok (expandLoop (fun n => decide (n.1.length = k)) (fun n => sortNat n.1) max (mesSuccs p resolute n minQ) [] winning)
  else
    let new ← mesComplete p k resolute completion n.1 n.2
    .ok (.inr ([], new.foldl setAdd winning))

/-- `max_num_of_committees is not None and len(winning_committees) >= max_num_of_committees` (abcrules.py:3437). -/
def boundReached (max : Option ℕ) (n : ℕ) : Bool :=
  match max with
  | some m => decide (m ≤ n)
  | none => false

/-- The main loop (abcrules.py:3378-3441); result: `winning_committees` before the last `sorted_committees`.  The head of the
list is the top of the Python stack. -/
def mesLoop (p : Profile) (k : ℕ) (resolute : Bool) (completion : Completion) (max : Option ℕ) :
    ℕ → List (List ℕ × List ℚ) → List (List ℕ) → Except Err (List (List ℕ))
  | _, [], winning => .ok winning
  | 0, _ :: _, _ => .error .outOfFuel
  | fuel + 1, n :: rest, winning => do
    let r ← mesStep p k resolute completion max n winning
    match r with
    | .inl winning' => .ok winning'
    | .inr (newPairs, winning') =>
      if boundReached max winning'.length then (do let s ← sortedCommittees winning'; .ok (truncate max s))
      else mesLoop p k resolute completion max fuel (newPairs ++ rest) winning'

/-- `start_budget` (abcrules.py:3360-3366); `if per_voter_budget:` is false for `None` and 0. -/
def startBudget (p : Profile) (k : ℕ) (perVoterBudget : Option ℚ) : List ℚ :=
  match perVoterBudget with
  | some b => if b ≠ 0 then p.voters.map (fun v => v.weight * b) else p.voters.map (fun v => v.weight * k / p.totalWeight)
  | none => p.voters.map (fun v => v.weight * k / p.totalWeight)

/-- `_equal_shares_algorithm` (abcrules.py:3244-3441). -/
def equalSharesAlgorithm (p : Profile) (k : ℕ) (resolute : Bool) (max : Option ℕ) (completion : Completion)
    (perVoterBudget : Option ℚ) : Except Err (List (List ℕ)) := do
  let max := if resolute then some 1 else max
  let winning ← mesLoop p k resolute completion max (dfsFuel p k) [([], startBudget p k perVoterBudget)] []
  sortedCommittees winning

/-- The `for … else` loop of `_equal_shares_algorithm_with_increment_completion` (abcrules.py:3462-3482) over a list of
increments. -/
def incrementLoop (p : Profile) (k : ℕ) : List ℕ → Except Err (List (List ℕ))
  | [] => .error .runtimeError
  | inc :: incs => do
    let committees ← equalSharesAlgorithm p k true none .none (some ((inc : ℚ) / p.totalWeight))
    let committees := committees.filter (fun c => decide (c.length = k))
    if committees.any (fun c => decide (c.length > k)) then .error .runtimeError
    else if committees.length ≠ 0 then .ok committees
    else incrementLoop p k incs

/-- `range(committeesize, math.ceil(committeesize * profile.total_weight() + 1))` (abcrules.py:3462-3464). -/
def incrementRange (p : Profile) (k : ℕ) : List ℕ :=
  (List.range ⌈(k : ℚ) * p.totalWeight + 1⌉.toNat).filter (fun i => decide (k ≤ i))

/-- `_equal_shares_algorithm_with_increment_completion` (abcrules.py:3444-3482).  The choice of the arithmetic happens inside
`_equal_shares_algorithm`, i.e. only if there are enough approved candidates (the range of increments is not empty then). -/
def equalSharesIncrement (env : Env) (algorithm : String) (float : Except Err (List (List ℕ))) (p : Profile) (k : ℕ) :
    Except Err (List (List ℕ)) :=
  if p.approvedCandidates.length < k then separableAlgorithm .av p k true none
  else withFractions env algorithm float (incrementLoop p k (incrementRange p k))

/-- The rule id (abcrules.py:3102-3111). -/
def Completion.ruleId : Completion → Except Err String
  | .none => .ok "equal-shares-without-completion"
  | .seqphragmen => .ok "equal-shares"
  | .av => .ok "equal-shares-with-av-completion"
  | .increment => .ok "equal-shares-with-increment-completion"
  | .other _ => .error .valueError

/-- `compute_equal_shares` (abcrules.py:3034-3241). `float` is the result with floating-point arithmetic
(see `Model/Float`). -/
def computeEqualShares (env : Env) (float : Except Err (List (List ℕ))) (completion : Completion) (p : Profile) (a : Args) :
    Except Err (List (List ℕ)) := do
  let ruleId ← completion.ruleId
  let algorithm ← prologue env ruleId p a
  let committees ←
    if completion = .increment then equalSharesIncrement env algorithm float p a.k
    else withFractions env algorithm float (equalSharesAlgorithm p a.k a.resolute a.maxNum completion none)
  sortedCommittees committees

/-- `compute_rule_x` (abcrules.py:2963-3031). -/
def computeRuleX (env : Env) (float : Except Err (List (List ℕ))) (skipPhragmenPhase : Bool) (p : Profile) (a : Args) :
    Except Err (List (List ℕ)) :=
  computeEqualShares env float (if skipPhragmenPhase then .none else .seqphragmen) p a

end Abc
