import Verif.Model.PyNum
import Verif.Model.CheckILP

/-!
# The checks of `properties.py` with a quota given as a Python number

The quota is documented as "Fraction or float" (an int works too).  Weights are stored as ints or Fractions, so their sums are exact; sums
are compared with floats exactly, as in Python.
-/

namespace Abc

/-- `profile.total_weight()` (preferences.py:137-146): the sum of the stored weights. -/
def totalNum (weight : ℚ → PyNum) (p : Profile) : PyNum := PyNum.runningSum (p.voters.map (fun v => weight v.weight))

/-- `int(profile.total_weight() / quota)` (e.g. properties.py:716). -/
def boundNum (weight : ℚ → PyNum) (p : Profile) (quota : PyNum) : Except Err ℕ :=
  if quota.val = 0 then .error .zeroDivisionError else .ok (pyInt (PyNum.div (totalNum weight p) quota).val).toNat

/-- The value of `n * quota` for an int `n`. -/
def timesNum (n : ℕ) (quota : PyNum) : ℚ := (PyNum.arith (· * ·) (· * ·) (.int n) quota).val

/-- One iteration of the loop over `ell` in `_check_EJR_brute_force` (properties.py:719-757), as `ejrRound`. -/
def ejrRoundNum (p : Profile) (committee : List ℕ) (quota : PyNum) (ell : ℕ) : Except Err (Option CohesiveInfo) :=
  let low := underserved p committee ell
  let minGroupSize : ℤ := ⌈timesNum ell quota⌉
  if p.groupWeight low < minGroupSize then .ok none
  else firstSome (fun combination => do
    let cut ← interAll (combination.map (fun vi => (p.voterAt vi).approved))
    if cut.length ≥ ell then .ok (some ⟨low, ell, cut⟩) else .ok none) (combinations low minGroupSize.toNat)

/-- `_check_EJR_brute_force` (properties.py:697-762). -/
def checkEJRNum (weight : ℚ → PyNum) (p : Profile) (committee : List ℕ) (quota : PyNum) : Except Err (Option CohesiveInfo) := do
  let bound ← boundNum weight p quota
  firstSome (fun ell => ejrRoundNum p committee quota (ell + 1)) (List.range bound)

/-- One iteration of the loop over `ell` in `_check_PJR_brute_force` (properties.py:865-912), as `pjrRound`. -/
def pjrRoundNum (p : Profile) (committee : List ℕ) (quota : PyNum) (ell : ℕ) : Except Err (Option CohesiveInfo) :=
  let low := underserved p committee ell
  let minGroupSize : ℤ := ⌈timesNum ell quota⌉
  if p.groupWeight low < minGroupSize then .ok none
  else firstSome (fun group => do
    let cut ← interAll (group.map (fun vi => (p.voterAt vi).approved))
    if cut.length ≥ ell then
      if (inter (unionAll (group.map (fun vi => (p.voterAt vi).approved))) committee).length < ell then
        .ok (some ⟨low, ell, cut⟩)
      else .ok none
    else .ok none) (combinations low minGroupSize.toNat)

/-- `_check_PJR_brute_force` (properties.py:844-918). -/
def checkPJRNum (weight : ℚ → PyNum) (p : Profile) (committee : List ℕ) (quota : PyNum) : Except Err (Option CohesiveInfo) := do
  let bound ← boundNum weight p quota
  firstSome (fun ell => pjrRoundNum p committee quota (ell + 1)) (List.range bound)

/-- The loop over `ell` in `_check_EJR_plus` (properties.py:1101-1112), as `ejrPlusLoop`. -/
def ejrPlusLoopNum (p : Profile) (quota : PyNum) (cand : ℕ) (buckets : ℕ → List ℕ) : ℕ → ℕ → List ℕ → Option (List ℕ × ℕ × ℕ)
  | 0, _, _ => none
  | n + 1, ell, group =>
    let group' := group ++ buckets ell
    if p.groupWeight group' ≥ timesNum (ell + 1) quota then some (group', cand, ell + 1)
    else ejrPlusLoopNum p quota cand buckets n (ell + 1) group'

/-- One iteration of the loop over candidates in `_check_EJR_plus` (properties.py:1090-1112), as `ejrPlusCand`. -/
def ejrPlusCandNum (p : Profile) (committee : List ℕ) (quota : PyNum) (bound : ℕ) (cand : ℕ) :
    Except Err (Option (List ℕ × ℕ × ℕ)) :=
  if cand ∈ committee then .ok none
  else if p.voters.any (fun v => decide (cand ∈ v.approved) && decide (bound < (inter v.approved committee).length)) then
    .error .keyError
  else .ok (ejrPlusLoopNum p quota cand
    (fun u => p.votersWith (fun v => decide (cand ∈ v.approved) && decide ((inter v.approved committee).length = u)))
    bound 0 [])

/-- `_check_EJR_plus` (properties.py:1066-1119). -/
def checkEJRPlusNum (weight : ℚ → PyNum) (p : Profile) (committee : List ℕ) (quota : PyNum) : Except Err (Option (List ℕ × ℕ × ℕ)) := do
  let bound ← boundNum weight p quota
  firstSome (ejrPlusCandNum p committee quota bound) p.candidates

/-- `_check_FJR_brute_force` (properties.py:1424-1481), as `checkFJRInner`. -/
def checkFJRNum (weight : ℚ → PyNum) (approved : List ℕ) (p : Profile) (committee : List ℕ) (quota : PyNum) :
    Except Err (Option FJRInfo) := do
  let bound ← boundNum weight p quota
  firstSome (fun T =>
    firstSome (fun b =>
      let group := p.votersWith (fun v => decide ((inter v.approved T).length ≥ b + 1)
        && decide ((inter v.approved committee).length ≤ b))
      if p.groupWeight group ≥ timesNum T.length quota then .ok (some ⟨b + 1, T, group⟩) else .ok none)
      (List.range T.length)) (powerset approved (some bound))

/-- `_check_core_brute_force` (properties.py:1630-1669), as `checkCoreInner`. -/
def checkCoreNum (weight : ℚ → PyNum) (approved : List ℕ) (p : Profile) (committee : List ℕ) (quota : PyNum) :
    Except Err (Option (List ℕ × List ℕ)) := do
  let bound ← boundNum weight p quota
  firstSome (fun cands =>
    let group := p.votersWith (fun v => decide ((inter v.approved cands).length > (inter v.approved committee).length))
    if group = [] then .ok none
    else if timesNum cands.length quota ≤ p.groupWeight group then .ok (some (group, cands)) else .ok none)
    (powerset approved (some bound))

/-- `_check_EJR_gurobi` (properties.py:765-841): the bound is computed in Python's arithmetic, the solver gets the value of the quota. -/
def checkEJRGurobiNum (weight : ℚ → PyNum) (solve : Program → SolveResult) (p : Profile) (committee : List ℕ) (quota : PyNum) :
    Except Err (Option CohesiveInfo) := do
  let bound ← boundNum weight p quota
  solveCheck solve (ejrProgram p committee quota.val bound) (cohesiveInfo p)

/-- `_check_PJR_gurobi` (properties.py:921-1002). -/
def checkPJRGurobiNum (weight : ℚ → PyNum) (solve : Program → SolveResult) (p : Profile) (committee : List ℕ) (quota : PyNum) :
    Except Err (Option CohesiveInfo) := do
  let bound ← boundNum weight p quota
  solveCheck solve (pjrProgram p committee quota.val bound) (cohesiveInfo p)

/-- `_check_FJR_gurobi` (properties.py:1484-1553). -/
def checkFJRGurobiNum (weight : ℚ → PyNum) (solve : Program → SolveResult) (p : Profile) (committee : List ℕ) (quota : PyNum) :
    Except Err (Option FJRInfo) := do
  let bound ← boundNum weight p quota
  solveCheck solve (fjrProgram p committee quota.val bound)
    (fun x => ⟨(⌊x .size + 1 / 2⌋).toNat, chosenCands p x, chosenVoters p x⟩)

/-- `check` (properties.py:87-140) for the properties that take a quota, with a quota given by the caller.  (For the others it raises
ValueError, see `check`.)  `_check_JR` compares the weight of a group with the quota, which is exact. -/
def checkNum (weight : ℚ → PyNum) (solve : Program → SolveResult) (approved : List ℕ) (name : String) (p : Profile)
    (committee : List ℤ) (quota : PyNum) (algorithm : String) : Except Err Bool :=
  let q := some quota.val
  if name = "jr" then checkJR p committee q
  else if name = "pjr" then
    checkWith (fun w _ => byAlgorithm algorithm (checkPJRNum weight p w quota) (checkPJRGurobiNum weight solve p w quota)) p committee q
  else if name = "ejr" then
    checkWith (fun w _ => byAlgorithm algorithm (checkEJRNum weight p w quota) (checkEJRGurobiNum weight solve p w quota)) p committee q
  else if name = "ejr+" then checkWith (fun w _ => checkEJRPlusNum weight p w quota) p committee q
  else if name = "fjr" then
    checkWith (fun w _ => byAlgorithm algorithm (checkFJRNum weight approved p w quota) (checkFJRGurobiNum weight solve p w quota)) p committee q
  else if name = "core" then
    checkWith (fun w _ => byAlgorithm algorithm (checkCoreNum weight approved p w quota) (checkCoreGurobi solve p w quota.val)) p committee q
  else .error .valueError

end Abc
