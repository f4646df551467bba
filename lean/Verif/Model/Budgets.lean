import Verif.Model.Phragmen

/-!
# Model of Phragmén-Eneström and of the consensus rule (exact arithmetic)
-/

namespace Abc

/-- `available_candidates` (abcrules.py:4017, 4178, 3381). -/
def available (p : Profile) (committee : List ℕ) : List ℕ := p.candidates.filter (fun c => decide (c ∉ committee))

/-- `support[cand]` after the loop abcrules.py:4018-4025 (and 4179-4187): budgets of the voters approving `cand`; voters whose
budget is not positive are skipped (`continue`). -/
def budgetSupport (p : Profile) (budget : List ℚ) (cand : ℕ) : ℚ :=
  (((p.voters.zip budget).filter (fun vb => decide (¬ vb.2 ≤ 0) && decide (cand ∈ vb.1.approved))).map Prod.snd).sum

/-- `tied_cands` together with `max_support` (abcrules.py:4026-4034, 4188-4196); `max([])` raises ValueError. -/
def maxSupport (p : Profile) (committee : List ℕ) (budget : List ℚ) : Except Err (List ℕ × ℚ) := do
  let avail := available p committee
  let maxSupp ← pyMax (avail.map (budgetSupport p budget))
  let tied := sortNat (avail.filter (fun c => decide (budgetSupport p budget c = maxSupp)))
  if tied = [] then .error .runtimeError else .ok (tied, maxSupp)

/-- The extensions computed in one iteration of `_phragmen_enestroem_algorithm` (abcrules.py:4016-4046). -/
def enestroemSuccs (p : Profile) (price : ℚ) (n : List ℕ × List ℚ) : Except Err (List (List ℕ × List ℚ)) := do
  let (tied, maxSupp) ← maxSupport p n.1 n.2
  let multiplier := if maxSupp > price then (maxSupp - price) / maxSupp else 0
  .ok (tied.map (fun cand => (n.1 ++ [cand],
    List.zipWith (fun v b => if cand ∈ v.approved then b * multiplier else b) p.voters n.2)))

/-- `_phragmen_enestroem_algorithm` (abcrules.py:3987-4062); `max` is already set to 1 for `resolute`. -/
def enestroemAlgorithm (p : Profile) (k : ℕ) (max : Option ℕ) : Except Err (List (List ℕ)) := do
  let price := (p.voters.map Voter.weight).sum / (k : ℚ)
  let winning ← universes (fun n => decide (n.1.length = k)) (fun n => sortNat n.1) (enestroemSuccs p price) max
    (dfsFuel p k) [([], p.voters.map Voter.weight)] []
  sortedCommittees winning

/-- `if resolute: max_num_of_committees = 1` (abcrules.py:3357, 4006, 4166, 4505). -/
def Args.effMax (a : Args) : Option ℕ := if a.resolute then some 1 else a.maxNum

/-- `compute_phragmen_enestroem` (abcrules.py:3898-3984). -/
def computeEnestroem (env : Env) (float : Except Err (List (List ℕ))) (p : Profile) (a : Args) :
    Except Err (List (List ℕ)) := do
  let algorithm ← prologue env "phragmen-enestroem" p a
  withFractions env algorithm float (enestroemAlgorithm p a.k a.effMax)

/-- The extensions computed in one iteration of `_consensus_rule_algorithm` (abcrules.py:4174-4205).  `supporters[cand]` are
the voters approving `cand` with positive budget. -/
def consensusSuccs (p : Profile) (n : List ℕ × List ℚ) : Except Err (List (List ℕ × List ℚ)) := do
  let budget := List.zipWith (fun v b => b + v.weight) p.voters n.2
  let (tied, _) ← maxSupport p n.1 budget
  .ok (tied.map (fun cand =>
    let supportersWeight := (((p.voters.zip budget).filter
      (fun vb => decide (¬ vb.2 ≤ 0) && decide (cand ∈ vb.1.approved))).map (fun vb => vb.1.weight)).sum
    (n.1 ++ [cand], List.zipWith (fun v b =>
      if decide (¬ b ≤ 0) && decide (cand ∈ v.approved) then b - v.weight * (p.totalWeight / supportersWeight) else b)
        p.voters budget)))

/-- `_consensus_rule_algorithm` (abcrules.py:4149-4221). -/
def consensusAlgorithm (p : Profile) (k : ℕ) (max : Option ℕ) : Except Err (List (List ℕ)) := do
  let winning ← universes (fun n => decide (n.1.length = k)) (fun n => sortNat n.1) (consensusSuccs p) max
    (dfsFuel p k) [([], zeroLoad p)] []
  sortedCommittees winning

/-- `compute_consensus_rule` (abcrules.py:4065-4146). -/
def computeConsensus (env : Env) (float : Except Err (List (List ℕ))) (p : Profile) (a : Args) :
    Except Err (List (List ℕ)) := do
  let algorithm ← prologue env "consensus-rule" p a
  withFractions env algorithm float (consensusAlgorithm p a.k a.effMax)

end Abc
