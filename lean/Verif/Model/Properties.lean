import Verif.Model.Preferences
import Mathlib.Data.Rat.Floor

/-!
# Model of the combinatorial checks in `abcvoting/properties.py`

Groups of voters are lists of voter indices.  The constraint systems given to Gurobi are modelled in `Model.CheckILP`.
Quotas are assumed non-negative (the code accepts negative quotas without complaint; they are meaningless).
-/

namespace Abc

/-- `profile[vi]`, for indices produced by `enumerate(profile)` (always in range). -/
def Profile.voterAt (p : Profile) (i : ℕ) : Voter := p.voters.getD i ⟨[], 0⟩

/-- `sum(profile[vi].weight for vi in group)`. -/
def Profile.groupWeight (p : Profile) (group : List ℕ) : ℚ := (group.map (fun i => (p.voterAt i).weight)).sum

/-- `int(x)` for a number: truncation towards zero. -/
def pyInt (x : ℚ) : ℤ := if 0 ≤ x then ⌊x⌋ else ⌈x⌉

/-- The indices of the voters satisfying a condition (`… for vi, voter in enumerate(profile) if …`). -/
def Profile.votersWith (p : Profile) (cond : Voter → Bool) : List ℕ :=
  (List.range p.voters.length).filter (fun i => cond (p.voterAt i))

/-- A `for` loop that returns the first result found; an exception ends it. -/
def firstSome {α β : Type} (f : α → Except Err (Option β)) : List α → Except Err (Option β)
  | [] => .ok none
  | x :: xs =>
    match f x with
    | .error e => .error e
    | .ok (some b) => .ok (some b)
    | .ok none => firstSome f xs

/-- `quota = Fraction(profile.total_weight(), len(committee))` if `quota is None` (e.g. properties.py:286-288). -/
def quotaOf (p : Profile) (committee : List ℤ) (quota : Option ℚ) : Except Err ℚ :=
  match quota with
  | some q => .ok q
  | none => if committee.length = 0 then .error .zeroDivisionError else .ok (p.totalWeight / committee.length)

/-- `int(profile.total_weight() / quota)` (e.g. properties.py:715). -/
def ellUpperBound (p : Profile) (quota : ℚ) : Except Err ℕ :=
  if quota = 0 then .error .zeroDivisionError else .ok (pyInt (p.totalWeight / quota)).toNat

/-- The part of the public `check_…` functions around the actual check (e.g. properties.py:286-331): determine the quota,
validate the committee, run the check (result: a witness of a violation, if any), and in case of a violation compute
`fractional_size = … / profile.total_weight()` for the output, which raises if the total weight is 0. -/
def checkWith {ω : Type} (chk : List ℕ → ℚ → Except Err (Option ω)) (p : Profile) (committee : List ℤ) (quota : Option ℚ) :
    Except Err Bool := do
  let q ← quotaOf p committee quota
  let w ← candidateSet committee (some p.numCand)
  let r ← chk w q
  match r with
  | none => .ok true
  | some _ => if p.totalWeight = 0 then .error .zeroDivisionError else .ok false

/-! ## JR -/

/-- `_check_JR` (properties.py:539-576): the witness is the group and the joint candidate. -/
def checkJRInner (p : Profile) (committee : List ℕ) (quota : ℚ) : Except Err (Option (List ℕ × ℕ)) :=
  firstSome (fun cand =>
    let group := p.votersWith (fun v => decide (cand ∈ v.approved) && decide ((inter v.approved committee).length = 0))
    if p.groupWeight group ≥ quota then .ok (some (group, cand)) else .ok none) p.candidates

/-- `check_JR` (properties.py:443-536). -/
def checkJR (p : Profile) (committee : List ℤ) (quota : Option ℚ) : Except Err Bool :=
  checkWith (checkJRInner p) p committee quota

/-! ## Pareto optimality -/

/-- `_check_pareto_optimality_brute_force` (properties.py:579-604): the witness is the dominating committee. -/
def checkParetoInner (p : Profile) (committee : List ℕ) : Except Err (Option (List ℕ)) :=
  firstSome (fun other => do
    let b ← dominate p other committee
    if b then .ok (some other) else .ok none) (combinations p.candidates committee.length)

/-- `check_pareto_optimality(algorithm="brute-force")` (properties.py:143-221). -/
def checkPareto (p : Profile) (committee : List ℤ) : Except Err Bool := do
  let w ← candidateSet committee (some p.numCand)
  let r ← checkParetoInner p w
  .ok r.isNone

/-! ## EJR, PJR -/

/-- A reported violation: `cohesive_group`, `ell`, `joint_candidates`. -/
structure CohesiveInfo where
  group : List ℕ
  ell : ℕ
  joint : List ℕ
deriving DecidableEq, Repr

/-- `set.intersection(*sets)`; without arguments a TypeError. -/
def interAll : List (List ℕ) → Except Err (List ℕ)
  | [] => .error .typeError
  | s :: ss => .ok (ss.foldl inter s)

/-- `voters_less_than_ell_approved_candidates` (properties.py:727-730). -/
def underserved (p : Profile) (committee : List ℕ) (ell : ℕ) : List ℕ :=
  p.votersWith (fun v => decide ((inter v.approved committee).length < ell))

/-- One iteration of the loop over `ell` in `_check_EJR_brute_force` (properties.py:719-757). -/
def ejrRound (p : Profile) (committee : List ℕ) (quota : ℚ) (ell : ℕ) : Except Err (Option CohesiveInfo) :=
  let low := underserved p committee ell
  let minGroupSize : ℤ := ⌈(ell : ℚ) * quota⌉
  if p.groupWeight low < minGroupSize then .ok none
  else firstSome (fun combination => do
    let cut ← interAll (combination.map (fun vi => (p.voterAt vi).approved))
    if cut.length ≥ ell then .ok (some ⟨low, ell, cut⟩) else .ok none) (combinations low minGroupSize.toNat)

/-- `_check_EJR_brute_force` (properties.py:697-762). -/
def checkEJRInner (p : Profile) (committee : List ℕ) (quota : ℚ) : Except Err (Option CohesiveInfo) := do
  let bound ← ellUpperBound p quota
  firstSome (fun ell => ejrRound p committee quota (ell + 1)) (List.range bound)

/-- `check_EJR(algorithm="brute-force")` (properties.py:224-331). -/
def checkEJR (p : Profile) (committee : List ℤ) (quota : Option ℚ) : Except Err Bool :=
  checkWith (checkEJRInner p) p committee quota

/-- `approved_cands_union` (properties.py:899-901). -/
def unionAll (sets : List (List ℕ)) : List ℕ := sets.foldl (fun acc s => s.foldl setAdd acc) []

/-- One iteration of the loop over `ell` in `_check_PJR_brute_force` (properties.py:865-912). -/
def pjrRound (p : Profile) (committee : List ℕ) (quota : ℚ) (ell : ℕ) : Except Err (Option CohesiveInfo) :=
  let low := underserved p committee ell
  let minGroupSize : ℤ := ⌈(ell : ℚ) * quota⌉
  if p.groupWeight low < minGroupSize then .ok none
  else firstSome (fun group => do
    let cut ← interAll (group.map (fun vi => (p.voterAt vi).approved))
    if cut.length ≥ ell then
      if (inter (unionAll (group.map (fun vi => (p.voterAt vi).approved))) committee).length < ell then
        .ok (some ⟨low, ell, cut⟩)
      else .ok none
    else .ok none) (combinations low minGroupSize.toNat)

/-- `_check_PJR_brute_force` (properties.py:844-918). -/
def checkPJRInner (p : Profile) (committee : List ℕ) (quota : ℚ) : Except Err (Option CohesiveInfo) := do
  let bound ← ellUpperBound p quota
  firstSome (fun ell => pjrRound p committee quota (ell + 1)) (List.range bound)

/-- `check_PJR(algorithm="brute-force")` (properties.py:334-440). -/
def checkPJR (p : Profile) (committee : List ℤ) (quota : Option ℚ) : Except Err Bool :=
  checkWith (checkPJRInner p) p committee quota

/-! ## EJR+ -/

/-- The loop over `ell` in `_check_EJR_plus` (properties.py:1101-1112); `buckets[u]` is `supporters_by_utility[u]`, a set of
voters, so the union is a concatenation. -/
def ejrPlusLoop (p : Profile) (quota : ℚ) (cand : ℕ) (buckets : ℕ → List ℕ) : ℕ → ℕ → List ℕ → Option (List ℕ × ℕ × ℕ)
  | 0, _, _ => none
  | n + 1, ell, group =>
    let group' := group ++ buckets ell
    if p.groupWeight group' ≥ ((ell : ℚ) + 1) * quota then some (group', cand, ell + 1)
    else ejrPlusLoop p quota cand buckets n (ell + 1) group'

/-- One iteration of the loop over candidates in `_check_EJR_plus` (properties.py:1090-1112); a supporter whose utility exceeds
the largest key of the dictionary raises KeyError. -/
def ejrPlusCand (p : Profile) (committee : List ℕ) (quota : ℚ) (bound : ℕ) (cand : ℕ) :
    Except Err (Option (List ℕ × ℕ × ℕ)) :=
  if cand ∈ committee then .ok none
  else if p.voters.any (fun v => decide (cand ∈ v.approved) && decide (bound < (inter v.approved committee).length)) then
    .error .keyError
  else .ok (ejrPlusLoop p quota cand
    (fun u => p.votersWith (fun v => decide (cand ∈ v.approved) && decide ((inter v.approved committee).length = u)))
    bound 0 [])

/-- `_check_EJR_plus` (properties.py:1066-1119): the witness is the group, the joint candidate and `ell`. -/
def checkEJRPlusInner (p : Profile) (committee : List ℕ) (quota : ℚ) : Except Err (Option (List ℕ × ℕ × ℕ)) := do
  let bound ← ellUpperBound p quota
  firstSome (ejrPlusCand p committee quota bound) p.candidates

/-- `check_EJR_plus` (properties.py:1005-1063). -/
def checkEJRPlus (p : Profile) (committee : List ℤ) (quota : Option ℚ) : Except Err Bool :=
  checkWith (checkEJRPlusInner p) p committee quota

/-! ## FJR, core -/

/-- A reported FJR violation: `ell` (= `len(T)`), `beta`, `joint_candidates`, `cohesive_group`. -/
structure FJRInfo where
  beta : ℕ
  joint : List ℕ
  group : List ℕ
deriving DecidableEq, Repr

/-- `_check_FJR_brute_force` (properties.py:1424-1481).  `approved` is the iteration order of the set
`profile.approved_candidates()`.  The look-up `committee_utility_at_most[beta - 1]` never fails as `beta ≤ len(T) ≤ bound`. -/
def checkFJRInner (approved : List ℕ) (p : Profile) (committee : List ℕ) (quota : ℚ) : Except Err (Option FJRInfo) := do
  let bound ← ellUpperBound p quota
  firstSome (fun T =>
    firstSome (fun b =>
      let group := p.votersWith (fun v => decide ((inter v.approved T).length ≥ b + 1)
        && decide ((inter v.approved committee).length ≤ b))
      if p.groupWeight group ≥ (T.length : ℚ) * quota then .ok (some ⟨b + 1, T, group⟩) else .ok none)
      (List.range T.length)) (powerset approved (some bound))

/-- `check_FJR(algorithm="brute-force")` (properties.py:1348-1421). -/
def checkFJR (approved : List ℕ) (p : Profile) (committee : List ℤ) (quota : Option ℚ) : Except Err Bool :=
  checkWith (checkFJRInner approved p) p committee quota

/-- `_check_core_brute_force` (properties.py:1630-1669): the witness is the coalition and the objection. -/
def checkCoreInner (approved : List ℕ) (p : Profile) (committee : List ℕ) (quota : ℚ) :
    Except Err (Option (List ℕ × List ℕ)) := do
  let bound ← ellUpperBound p quota
  firstSome (fun cands =>
    let group := p.votersWith (fun v => decide ((inter v.approved cands).length > (inter v.approved committee).length))
    if group = [] then .ok none
    else if (cands.length : ℚ) * quota ≤ p.groupWeight group then .ok (some (group, cands)) else .ok none)
    (powerset approved (some bound))

/-- `check_core(algorithm="brute-force")` (properties.py:1556-1627). -/
def checkCore (approved : List ℕ) (p : Profile) (committee : List ℤ) (quota : Option ℚ) : Except Err Bool :=
  checkWith (checkCoreInner approved p) p committee quota

end Abc
