import Verif.Model.ILP
import Verif.Model.Properties

/-!
# Model of the checks with Gurobi and of the public `check` functions (`abcvoting/properties.py`)

The programs are data as in `Model/ILP`; numbers are exact and voters are indexed by position.  The messages printed are modelled in
`Model/ReportCheck`; here only that computing `fractional_size` raises if the total weight is 0.
-/

namespace Abc

/-- `model.addVars(len(profile), vtype=BINARY)`: a set of voters. -/
def inSetVars (p : Profile) : List VarDecl := (List.range p.voters.length).map (fun i => binaryVar (.inSet i))

/-- `quicksum(voter.weight * in_group[vi] for vi, voter in enumerate(profile))` (e.g. properties.py:798). -/
def setWeight (p : Profile) : LinExp :=
  LinExp.sum (p.voters.zipIdx.map (fun vi => LinExp.scale vi.1.weight (.var (.inSet vi.2))))

/-- `set_of_voters.sum()` (e.g. properties.py:1522). -/
def setCount (p : Profile) : LinExp := LinExp.sum ((List.range p.voters.length).map (fun i => .var (.inSet i)))

/-- What a check does with the solver's answer (e.g. properties.py:825-841): status OPTIMAL is a violation with a witness, INFEASIBLE
means that there is no violation, any other status is an error. -/
def solveCheck {ω : Type} (solve : Program → SolveResult) (P : Program) (info : (IVar → ℚ) → ω) : Except Err (Option ω) :=
  match solve P with
  | .optimal x => .ok (some (info x))
  | .infeasible => .ok none
  | .other => .error .runtimeError

/-- `{vi for vi, _ in enumerate(profile) if in_group[vi].Xn >= 0.9}` (e.g. properties.py:826; with `>` in 1546). -/
def chosenVoters (p : Profile) (x : IVar → ℚ) : List ℕ :=
  (List.range p.voters.length).filter (fun i => decide (9 / 10 ≤ x (.inSet i)))

/-- `{cand for cand in profile.candidates if in_cut[cand].Xn >= 0.9}` (e.g. properties.py:827; with `>` in 1541). -/
def chosenCands (p : Profile) (x : IVar → ℚ) : List ℕ := p.candidates.filter (fun c => decide (9 / 10 ≤ x (.cand c)))

/-! ## Pareto optimality -/

/-- `quicksum(utility[(voter, x)] for x in range(1, len(committee) + 1))` (properties.py:650, 664). -/
def paretoUtility (k i : ℕ) : LinExp := LinExp.sum ((List.range k).map (fun x => .var (.utility i (x + 1))))

/-- The program of `_check_pareto_optimality_gurobi` (properties.py:626-677); `inSet i` is `condition_strictly_more[i]`. -/
def paretoProgram (p : Profile) (committee : List ℕ) : Program :=
  { vars := (List.range p.voters.length).flatMap (fun i =>
        (List.range committee.length).map (fun x => binaryVar (.utility i (x + 1)))) ++ candVars p ++ inSetVars p
    constrs := p.voters.zipIdx.map (fun vi =>
        { lhs := paretoUtility committee.length vi.2, rel := .eq, rhs := candSum vi.1.approved }) ++
      [{ lhs := setCount p, rel := .ge, rhs := .num 1 }] ++
      p.voters.zipIdx.map (fun vi =>
        { lhs := paretoUtility committee.length vi.2
          rel := .ge
          rhs := LinExp.add (.num ((inter vi.1.approved committee).length : ℚ)) (.var (.inSet vi.2)) }) ++
      [sizeConstr p committee.length]
    obj := LinExp.sum (p.voters.zipIdx.map (fun vi => paretoUtility committee.length vi.2)) }

/-- `_check_pareto_optimality_gurobi` (properties.py:607-694). -/
def checkParetoGurobi (solve : Program → SolveResult) (p : Profile) (committee : List ℕ) : Except Err (Option (List ℕ)) :=
  solveCheck solve (paretoProgram p committee) (chosenCands p)

/-! ## EJR, PJR -/

/-- The variables and constraints common to `_check_EJR_gurobi` and `_check_PJR_gurobi`: `1 <= ell <= bound` and the size of the group
(properties.py:787-799, 943-955). -/
def cohesiveConstrs (p : Profile) (bound : ℕ) (quota : ℚ) : List Constr :=
  [{ lhs := .var .size, rel := .ge, rhs := .num 1 },
   { lhs := .var .size, rel := .le, rhs := .num bound },
   { lhs := setWeight p, rel := .ge, rhs := LinExp.scale quota (.var .size) }]

/-- At least `ell` candidates are approved by all voters in the group (properties.py:810-817, 962-969). -/
def cutConstrs (p : Profile) : List Constr :=
  { lhs := candSum p.candidates, rel := .ge, rhs := .var .size } ::
  p.voters.zipIdx.flatMap (fun vi => (p.candidates.filter (fun c => decide (c ∉ vi.1.approved))).map (fun c =>
    { lhs := .var (.cand c), rel := .le, rhs := LinExp.sub (.num 1) (.var (.inSet vi.2)) }))

/-- `ell = model.addVar(vtype=INTEGER)` (properties.py:787, 943): lower bound 0, no upper bound. -/
def ellVar : VarDecl := { v := .size, integer := true, lb := 0 }

/-- The program of `_check_EJR_gurobi` (properties.py:784-817); there is no objective. -/
def ejrProgram (p : Profile) (committee : List ℕ) (quota : ℚ) (bound : ℕ) : Program :=
  { vars := ellVar :: inSetVars p ++ candVars p
    constrs := cohesiveConstrs p bound quota ++
      p.voters.zipIdx.map (fun vi =>
        { lhs := .num ((inter vi.1.approved committee).length + 1 : ℚ)
          rel := .le
          rhs := .var .size
          guard := some (.inSet vi.2) }) ++
      cutConstrs p
    obj := .num 0 }

/-- The `detailed_information` of EJR and PJR: `round(ell.Xn)`, rounded to the nearest integer (ties do not occur). -/
def cohesiveInfo (p : Profile) (x : IVar → ℚ) : CohesiveInfo := ⟨chosenVoters p x, (⌊x .size + 1 / 2⌋).toNat, chosenCands p x⟩

/-- `_check_EJR_gurobi` (properties.py:765-841). -/
def checkEJRGurobi (solve : Program → SolveResult) (p : Profile) (committee : List ℕ) (quota : ℚ) :
    Except Err (Option CohesiveInfo) := do
  let bound ← ellUpperBound p quota
  solveCheck solve (ejrProgram p committee quota bound) (cohesiveInfo p)

/-- The program of `_check_PJR_gurobi` (properties.py:940-982). -/
def pjrProgram (p : Profile) (committee : List ℕ) (quota : ℚ) (bound : ℕ) : Program :=
  { vars := ellVar :: inSetVars p ++ candVars p ++ p.candidates.map (fun c => binaryVar (.inUnion c))
    constrs := cohesiveConstrs p bound quota ++ cutConstrs p ++
      p.voters.zipIdx.flatMap (fun vi => vi.1.approved.map (fun c =>
        { lhs := .var (.inUnion c), rel := .ge, rhs := .var (.inSet vi.2) })) ++
      [{ lhs := LinExp.add (LinExp.sum (committee.map (fun c => .var (.inUnion c)))) (.num 1), rel := .le, rhs := .var .size }]
    obj := .num 0 }

/-- `_check_PJR_gurobi` (properties.py:921-1002). -/
def checkPJRGurobi (solve : Program → SolveResult) (p : Profile) (committee : List ℕ) (quota : ℚ) :
    Except Err (Option CohesiveInfo) := do
  let bound ← ellUpperBound p quota
  solveCheck solve (pjrProgram p committee quota bound) (cohesiveInfo p)

/-! ## FJR, core -/

/-- `quicksum((c in voter.approved) * set_of_candidates[i] for i, c in enumerate(profile.candidates))` (properties.py:1529-1533,
1709-1711). -/
def approvedInSet (p : Profile) (v : Voter) : LinExp :=
  LinExp.sum (p.candidates.map (fun c => LinExp.scale (if c ∈ v.approved then 1 else 0) (.var (.cand c))))

/-- The set of voters can afford the set of candidates and is not empty (properties.py:1518-1522, 1701-1705). -/
def affordConstrs (p : Profile) (quota : ℚ) : List Constr :=
  [{ lhs := LinExp.scale quota (candSum p.candidates), rel := .le, rhs := setWeight p },
   { lhs := setCount p, rel := .ge, rhs := .num 1 }]

/-- The program of `_check_FJR_gurobi` (properties.py:1508-1535). -/
def fjrProgram (p : Profile) (committee : List ℕ) (quota : ℚ) (bound : ℕ) : Program :=
  { vars := inSetVars p ++ candVars p ++ [{ v := .size, integer := true, lb := 1, ub := some (bound : ℚ) }]
    constrs := { lhs := .var .size, rel := .le, rhs := candSum p.candidates } :: affordConstrs p quota ++
      p.voters.zipIdx.flatMap (fun vi =>
        [{ lhs := LinExp.scale ((inter vi.1.approved committee).length : ℚ) (.var (.inSet vi.2))
           rel := .le
           rhs := LinExp.sub (.var .size) (.num 1) },
         { lhs := approvedInSet p vi.1
           rel := .ge
           rhs := LinExp.sub (.var .size) (LinExp.scale bound (LinExp.sub (.num 1) (.var (.inSet vi.2)))) }])
    obj := .num 0 }

/-- `_check_FJR_gurobi` (properties.py:1484-1553).  `beta.Xn` is reported as it is; here it is rounded (it is an integer). -/
def checkFJRGurobi (solve : Program → SolveResult) (p : Profile) (committee : List ℕ) (quota : ℚ) : Except Err (Option FJRInfo) := do
  let bound ← ellUpperBound p quota
  solveCheck solve (fjrProgram p committee quota bound)
    (fun x => ⟨(⌊x .size + 1 / 2⌋).toNat, chosenCands p x, chosenVoters p x⟩)

/-- The program of `_check_core_gurobi` (properties.py:1695-1715). -/
def coreProgram (p : Profile) (committee : List ℕ) (quota : ℚ) : Program :=
  { vars := inSetVars p ++ candVars p
    constrs := affordConstrs p quota ++
      p.voters.zipIdx.map (fun vi =>
        { lhs := approvedInSet p vi.1
          rel := .ge
          rhs := .num ((inter vi.1.approved committee).length + 1 : ℚ)
          guard := some (.inSet vi.2) })
    obj := .num 0 }

/-- `_check_core_gurobi` (properties.py:1672-1732): the witness is the coalition and the objection. -/
def checkCoreGurobi (solve : Program → SolveResult) (p : Profile) (committee : List ℕ) (quota : ℚ) :
    Except Err (Option (List ℕ × List ℕ)) :=
  solveCheck solve (coreProgram p committee quota) (fun x => (chosenVoters p x, chosenCands p x))

/-! ## Priceability -/

/-- The payments (properties.py:1237-1242): `value` is the budget, `assigned i c` is `payment[voter][candidate]`. -/
def priceVars (p : Profile) : List VarDecl :=
  { v := .value, integer := false, lb := 0 } ::
  (List.range p.voters.length).flatMap (fun i => p.candidates.map (fun c => { v := .assigned i c, integer := false, lb := 0 }))

/-- `voter.weight * budget - quicksum(payment[voter][committee_member] for committee_member in committee)` (properties.py:1278-1281,
1295-1298). -/
def leftOver (committee : List ℕ) (v : Voter) (i : ℕ) : LinExp :=
  LinExp.sub (LinExp.scale v.weight (.var .value)) (LinExp.sum (committee.map (fun c => .var (.assigned i c))))

/-- Conditions 1 to 3 (properties.py:1244-1262). -/
def priceConstrs (p : Profile) (committee : List ℕ) : List Constr :=
  p.voters.zipIdx.map (fun vi =>
    { lhs := LinExp.sum (p.candidates.map (fun c => .var (.assigned vi.2 c)))
      rel := .le
      rhs := LinExp.scale vi.1.weight (.var .value) }) ++
  p.voters.zipIdx.flatMap (fun vi => (p.candidates.filter (fun c => decide (c ∉ vi.1.approved))).map (fun c =>
    { lhs := .var (.assigned vi.2 c), rel := .eq, rhs := .num 0 })) ++
  p.candidates.map (fun c =>
    { lhs := LinExp.sum ((List.range p.voters.length).map (fun i => .var (.assigned i c)))
      rel := .eq
      rhs := .num (if c ∈ committee then 1 else 0) })

/-- The voters approving a candidate, with their positions. -/
def supportersOf (p : Profile) (c : ℕ) : List (Voter × ℕ) := p.voters.zipIdx.filter (fun vi => decide (c ∈ vi.1.approved))

/-- The candidates outside the committee. -/
def nonMembers (p : Profile) (committee : List ℕ) : List ℕ := p.candidates.filter (fun c => decide (c ∉ committee))

/-- The program of `_check_priceability_gurobi` for `stable=False` (properties.py:1237-1262, 1290-1305); the budget is minimised. -/
def priceProgram (p : Profile) (committee : List ℕ) : Program :=
  { vars := priceVars p
    constrs := priceConstrs p committee ++ (nonMembers p committee).map (fun c =>
      { lhs := LinExp.sum ((supportersOf p c).map (fun vi => leftOver committee vi.1 vi.2)), rel := .le, rhs := .num 1 })
    obj := LinExp.scale (-1) (.var .value) }

/-- A program with constraints `y = max(ys)` (`model.addGenConstrMax(y, ys)`). -/
structure MaxProgram where
  base : Program
  maxes : List (IVar × List IVar)

/-- The auxiliary variables of condition 4* (properties.py:1267-1275). -/
def stableVars (p : Profile) (committee : List ℕ) : List VarDecl :=
  (nonMembers p committee).flatMap (fun c => (supportersOf p c).flatMap (fun vi =>
    [{ v := .extremum c vi.2, integer := false, lb := 0 },
     { v := .rest c vi.2, integer := false, lb := 0 },
     { v := .maxPayment c vi.2, integer := false, lb := 0 }]))

/-- The program for `stable=True` (properties.py:1237-1288, 1305). -/
def stableProgram (p : Profile) (committee : List ℕ) : MaxProgram :=
  { base :=
      { vars := priceVars p ++ stableVars p committee
        constrs := priceConstrs p committee ++ (nonMembers p committee).flatMap (fun c =>
          (supportersOf p c).map (fun vi => { lhs := .var (.rest c vi.2), rel := .eq, rhs := leftOver committee vi.1 vi.2 }) ++
          [{ lhs := LinExp.sum ((supportersOf p c).map (fun vi => .var (.extremum c vi.2))), rel := .le, rhs := .num 1 }])
        obj := LinExp.scale (-1) (.var .value) }
    maxes := (nonMembers p committee).flatMap (fun c => (supportersOf p c).flatMap (fun vi =>
      [(.maxPayment c vi.2, committee.map (fun d => .assigned vi.2 d)),
       (.extremum c vi.2, [.maxPayment c vi.2, .rest c vi.2])])) }

/-- `_check_priceability_gurobi` (properties.py:1199-1345), without the printed details (see `Model/ReportCheck`); computing the column
widths of the table (properties.py:1312-1318) raises ValueError if there are candidates but no voters. -/
def checkPriceabilityGurobi (solve : Program → SolveResult) (solveMax : MaxProgram → SolveResult) (p : Profile) (committee : List ℕ)
    (stable : Bool) : Except Err Bool :=
  let approved := p.candidates.filter (fun c => p.voters.any (fun v => decide (c ∈ v.approved)))
  if approved.length < committee.length then .ok (approved.all (fun c => decide (c ∈ committee)))
  else
    match if stable then solveMax (stableProgram p committee) else solve (priceProgram p committee) with
    | .optimal _ => if p.voters = [] ∧ p.candidates ≠ [] then .error .valueError else .ok true
    | .infeasible => .ok false
    | .other => .error .runtimeError

/-- `check_priceability` (properties.py:1122-1169), and `check_stable_priceability` (1172-1196) with `stable := true`. -/
def checkPriceability (solve : Program → SolveResult) (solveMax : MaxProgram → SolveResult) (p : Profile) (committee : List ℤ)
    (algorithm : String) (stable : Bool) : Except Err Bool := do
  let w ← candidateSet committee (some p.numCand)
  if algorithm = "fastest" ∨ algorithm = "gurobi" then checkPriceabilityGurobi solve solveMax p w stable
  else .error .notImplemented

/-! ## The public functions -/

/-- The choice of the algorithm (e.g. properties.py:295-303): `"fastest"` is Gurobi. -/
def byAlgorithm {α : Type} (algorithm : String) (bruteForce gurobi : Except Err α) : Except Err α :=
  if algorithm = "brute-force" then bruteForce
  else if algorithm = "fastest" ∨ algorithm = "gurobi" then gurobi
  else .error .notImplemented

/-- `check_pareto_optimality` (properties.py:143-221). -/
def checkParetoOptimality (solve : Program → SolveResult) (p : Profile) (committee : List ℤ) (algorithm : String) : Except Err Bool := do
  let w ← candidateSet committee (some p.numCand)
  let r ← byAlgorithm algorithm (checkParetoInner p w) (checkParetoGurobi solve p w)
  .ok r.isNone

/-- `check` (properties.py:87-140).  `solve`, `solveMax` stand for Gurobi, `approved` is the iteration order of the set
`profile.approved_candidates()`. -/
def check (solve : Program → SolveResult) (solveMax : MaxProgram → SolveResult) (approved : List ℕ) (name : String) (p : Profile)
    (committee : List ℤ) (quota : Option ℚ) (algorithm : String) : Except Err Bool :=
  if name = "pareto" then
    if quota.isSome then .error .valueError else checkParetoOptimality solve p committee algorithm
  else if name = "jr" then checkJR p committee quota
  else if name = "pjr" then
    checkWith (fun w q => byAlgorithm algorithm (checkPJRInner p w q) (checkPJRGurobi solve p w q)) p committee quota
  else if name = "ejr" then
    checkWith (fun w q => byAlgorithm algorithm (checkEJRInner p w q) (checkEJRGurobi solve p w q)) p committee quota
  else if name = "ejr+" then checkEJRPlus p committee quota
  else if name = "fjr" then
    checkWith (fun w q => byAlgorithm algorithm (checkFJRInner approved p w q) (checkFJRGurobi solve p w q)) p committee quota
  else if name = "priceability" then
    if quota.isSome then .error .valueError else checkPriceability solve solveMax p committee algorithm false
  else if name = "stable-priceability" then
    if quota.isSome then .error .valueError else checkPriceability solve solveMax p committee algorithm true
  else if name = "core" then
    checkWith (fun w q => byAlgorithm algorithm (checkCoreInner approved p w q) (checkCoreGurobi solve p w q)) p committee quota
  else .error .valueError

/-- `PROPERTY_NAMES` (properties.py:14-24). -/
def propertyNames : List String := ["pareto", "jr", "pjr", "ejr", "ejr+", "fjr", "priceability", "stable-priceability", "core"]

end Abc
