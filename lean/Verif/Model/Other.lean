import Verif.Model.Budgets

/-!
# Model of Random Serial Dictator (abcrules.py:4308-4403) and E Pluribus Hugo (abcrules.py:4406-4539)
-/

namespace Abc

/-! ## Random Serial Dictator -/

/-- `for cand in approved: committee.add(cand); if len(committee) == committeesize: break` (abcrules.py:4380-4383). -/
def rsdAddUntil (k : ℕ) : List ℕ → List ℕ → List ℕ
  | [], committee => committee
  | cand :: cands, committee =>
    if (setAdd committee cand).length = k then setAdd committee cand else rsdAddUntil k cands (setAdd committee cand)

/-- One dictator (abcrules.py:4377-4383). -/
def rsdDictator (k : ℕ) (committee approved : List ℕ) : List ℕ :=
  if committee.length + approved.length ≤ k then approved.foldl setAdd committee else rsdAddUntil k approved committee

/-- The `for … else` loop (abcrules.py:4376-4389); `sample` is `random.sample`. -/
def rsdLoop (p : Profile) (k : ℕ) (sample : List ℕ → ℕ → List ℕ) : List (List ℕ) → List ℕ → List ℕ
  | [], committee =>
    let remaining := p.candidates.filter (fun c => decide (c ∉ committee))
    (sample remaining (k - committee.length)).foldl setAdd committee
  | approved :: rest, committee =>
    if (rsdDictator k committee approved).length = k then rsdDictator k committee approved
    else rsdLoop p k sample rest (rsdDictator k committee approved)

/-- `compute_rsd` (abcrules.py:4308-4403); `shuffle` is the outcome of `random.shuffle`. -/
def computeRsd (env : Env) (shuffle : List (List ℕ) → List (List ℕ)) (sample : List ℕ → ℕ → List ℕ) (p : Profile)
    (a : Args) : Except Err (List (List ℕ)) := do
  let algorithm ← prologue env "rsd" p a
  if ¬ p.hasUnitWeights then .error .valueError
  else if algorithm = "standard" then
    sortedCommittees [rsdLoop p a.k sample (shuffle (p.voters.map (fun v => sortNat v.approved))) []]
  else .error .unknownAlgorithm

/-! ## E Pluribus Hugo -/

/-- `sdv_score[cand]` (abcrules.py:4512-4515); `remaining` lists the set `remaining_candidates` in its iteration order. -/
def ephSdv (p : Profile) (remaining : List ℕ) (cand : ℕ) : ℚ :=
  ((p.voters.filter (fun v => decide (cand ∈ v.approved))).map (fun v =>
    v.weight / ((remaining.filter (fun c => decide (c ∈ v.approved))).length : ℚ))).sum

/-- `elimination_cands` (abcrules.py:4518-4526); `av_score[cand]` is the weight of the voters approving `cand`. -/
def ephElim (p : Profile) (remaining : List ℕ) : Except Err (List ℕ) := do
  let cutoff ← pyGet (sortRat (remaining.map (ephSdv p remaining))) 1
  let elim := remaining.filter (fun c => decide (ephSdv p remaining c ≤ cutoff))
  let cutoffAv ← pyMin (elim.map (approversWeight p))
  .ok (elim.filter (fun c => decide (approversWeight p c ≤ cutoffAv)))

/-- The `while` loop (abcrules.py:4509-4539). -/
def ephLoop (p : Profile) (k : ℕ) (max : Option ℕ) : ℕ → List ℕ → Except Err (List (List ℕ))
  | 0, _ => .error .outOfFuel
  | fuel + 1, remaining => do
    let elim ← ephElim p remaining
    if remaining.length - elim.length ≤ k then do
      let cs ← sortedCommittees ((combinations elim (remaining.length - k)).map
        (fun sel => remaining.filter (fun c => decide (c ∉ sel))))
      .ok (truncate max cs)
    else ephLoop p k max fuel (remaining.filter (fun c => decide (c ∉ elim)))

/-- `compute_eph` (abcrules.py:4406-4486) with `_eph_algorithm` (4489-4539); `iter` is the iteration order of
`set(profile.candidates)`.  "float-fractions" is the parameter `float` (see `Model/Float`). -/
def computeEph (env : Env) (float : Except Err (List (List ℕ))) (iter : List ℕ) (p : Profile) (a : Args) :
    Except Err (List (List ℕ)) := do
  let algorithm ← prologue env "eph" p a
  let committees ← withFractions env algorithm float (ephLoop p a.k a.effMax (p.numCand + 1) iter)
  sortedCommittees committees

end Abc
